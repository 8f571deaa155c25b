{"id": "su01", "definition": "parseBootstraps", "edit": "entries with a malformed key are skipped", "claim": "C92: a malformed entry makes the start fail", "rc": 1, "secs": 25, "failed": ["Props/Startup:parseBootstraps_some", "Props/Startup:parseBootstraps_isSome"], "examples": ["Props/Startup"], "model_error": []}
{"id": "su02", "definition": "parseVerifiers", "edit": "malformed validators are skipped", "claim": "C92", "rc": 1, "secs": 22, "failed": ["Props/Startup:parseVerifiers_some", "Props/Startup:parseVerifiers_isSome"], "examples": ["Props/Startup"], "model_error": []}
{"id": "su03", "definition": "NetStart.listen", "edit": "the real address is announced", "claim": "C92: statement about port 0 (intended program)", "rc": 1, "secs": 28, "failed": ["Props/Startup:startAll_ok", "Props/Startup:C92_starts_iff"], "examples": [], "model_error": []}
{"id": "su04", "definition": "NetStart.run", "edit": "announced address replaced by the default", "claim": "C92", "rc": 1, "secs": 24, "failed": ["Props/Startup:startAll_ok", "Props/Startup:C92_starts_iff"], "examples": [], "model_error": []}
{"id": "su05", "definition": "registerHandler", "edit": "scheme not checked", "claim": "C92", "rc": 1, "secs": 26, "failed": ["Props/Startup:C92_register_kinds"], "examples": [], "model_error": []}
{"id": "su06", "definition": "boot", "edit": "genesis run again over an existing chain", "claim": "C92/C13: a genesis file has no effect once there is a chain", "rc": 1, "secs": 97, "failed": ["Props/Startup:C92_starts_iff"], "examples": [], "model_error": []}
{"id": "su07", "definition": "FileCfg.node", "edit": "cycles limit and price swapped", "claim": "C92", "rc": 1, "secs": 22, "failed": ["Props/Startup:C92_as_configured_partial"], "examples": [], "model_error": []}
{"id": "su08", "definition": "FileCfg.node", "edit": "timeout gap is the pool size", "claim": "C92", "rc": 1, "secs": 23, "failed": ["Props/Startup:C92_as_configured_partial", "Props/Startup:C92_starts_iff"], "examples": [], "model_error": []}
{"id": "su09", "definition": "toPeer", "edit": "port of the listening address... 1337 for every bootstrap", "claim": "C92", "rc": 1, "secs": 21, "failed": ["Props/Startup:parseBootstraps_some"], "examples": [], "model_error": []}
{"id": "su10", "definition": "socketToMulti", "edit": "port first", "claim": "C92", "rc": 1, "secs": 22, "failed": ["Props/Startup:parseBootstraps_some", "Props/Startup:C92_as_configured_partial", "Props/Startup:C92_starts_iff", "Props/Startup:C92_addr_faithful", "Props/Startup:file_starts", "Props/Startup:C92_chain_id_refuted", "Props/Startup:C92_port_refuted"], "examples": [], "model_error": []}
{"id": "su11", "definition": "IpAddr.proto", "edit": "v6 written as v4", "claim": "C92: addresses are used as written", "rc": 1, "secs": 23, "failed": ["Props/Startup:C92_announced_partial", "Props/Startup:C92_addr_faithful"], "examples": [], "model_error": []}
{"id": "su12", "definition": "parseIdentity", "edit": "address computed from the secret key", "claim": "C92", "rc": 1, "secs": 27, "failed": ["Props/Startup:parseIdentity_ok", "Props/Startup:C92_starts_iff"], "examples": [], "model_error": []}
{"id": "su13", "definition": "parseIdentity", "edit": "private key read with an optional 0x", "claim": "C92: malformed entries make the start fail", "rc": 1, "secs": 22, "failed": ["Props/Startup:parseIdentity_ok", "Props/Startup:C92_starts_iff"], "examples": [], "model_error": []}
{"id": "su14", "definition": "startAll", "edit": "a failing listen is ignored", "claim": "C92", "rc": 1, "secs": 25, "failed": ["Props/Startup:startAll_ok"], "examples": [], "model_error": []}
{"id": "su15", "definition": "registerAll", "edit": "pull_txs handler registered properly (intended program)", "claim": "C92/C58", "rc": 1, "secs": 25, "failed": ["Props/Startup:C92_registers"], "examples": [], "model_error": []}
{"id": "su16", "definition": "parseVerifiers", "edit": "weight of validators zero", "claim": "C92", "rc": 1, "secs": 25, "failed": ["Props/Startup:parseVerifiers_some"], "examples": [], "model_error": []}
{"id": "su17", "definition": "multiIp", "edit": "host of a version 6 address not found", "claim": "C92", "rc": 1, "secs": 24, "failed": ["Props/Startup:C92_announced_partial"], "examples": [], "model_error": []}
{"id": "su18", "definition": "NetStart.listen", "edit": "a second listen rebinds", "claim": "C92", "rc": 1, "secs": 27, "failed": ["Props/Startup:C92_listen_once"], "examples": [], "model_error": []}
{"id": "su19", "definition": "startAll", "edit": "start does not look at the verifiers", "claim": "C92", "rc": 1, "secs": 20, "failed": ["Props/Startup:startAll_ok", "Props/Startup:C92_starts_iff"], "examples": ["Props/Startup"], "model_error": []}
{"id": "su20", "definition": "startAll", "edit": "bootstraps ignored", "claim": "C92", "rc": 1, "secs": 20, "failed": ["Props/Startup:startAll_ok", "Props/Startup:C92_starts_iff"], "examples": [], "model_error": []}
