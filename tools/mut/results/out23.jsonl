{"id": "v01", "definition": "showBalance", "edit": "a balance is shown with the bytes in reverse order", "claim": "C68: what is shown reads back", "rc": 1, "secs": 7, "failed": ["Props/Api:C51_round_trip"], "examples": [], "model_error": []}
{"id": "v02", "definition": "readBalance", "edit": "a balance is read little endian", "claim": "C68: what is shown reads back", "rc": 1, "secs": 7, "failed": ["Props/Api:C51_round_trip"], "examples": [], "model_error": []}
{"id": "v03", "definition": "Node.sendTransfer", "edit": "the mutation transfers nothing: the carried value is dropped", "claim": "C69: a sent transaction is the one covered by the signature", "rc": 1, "secs": 20, "failed": ["Props/ApiServer:C72_send"], "examples": ["Props/ApiServer"], "model_error": []}
{"id": "v04", "definition": "bGetBalance", "edit": "the byte-level read of a balance gives 0 for a missing account", "claim": "byte-level executor refines the abstract one", "rc": 1, "secs": 4, "failed": ["Proof/ByteExecutor:getBalance_sim"], "examples": [], "model_error": []}
{"id": "v05", "definition": "bBankRegister", "edit": "the asset id is checked against the cache of accounts", "claim": "byte-level executor refines the abstract one", "rc": 1, "secs": 3, "failed": ["Proof/ByteExecutor:bankRegister_sim"], "examples": [], "model_error": []}
{"id": "v06", "definition": "bExecLoop", "edit": "receipts are collected in reverse", "claim": "byte-level executor refines the abstract one", "rc": 1, "secs": 4, "failed": ["Proof/ByteExecutor:execLoop_sim"], "examples": [], "model_error": []}
{"id": "v07", "definition": "bGenesisAssets", "edit": "a genesis entry that is not hex is skipped", "claim": "byte-level executor refines the abstract one", "rc": 1, "secs": 4, "failed": ["Proof/ByteExecutor:genesisAssets_sim"], "examples": [], "model_error": []}
{"id": "v08", "definition": "senderOf", "edit": "the sender is the address of the signature, not of the public key", "claim": "C01/C93: who spends is who signed", "rc": 1, "secs": 68, "failed": ["Props/Executor:C03_other_nonce_refuted", "Props/Executor:C07_reward_refuted", "Props/Executor:C08_nonce_refuted", "Props/Executor:C09_fee_charged_refuted", "Props/Executor:C10_poison_refuted"], "examples": ["Props/Executor", "Spec/DemoNode"], "model_error": []}
{"id": "v09", "definition": "genesisAllocs", "edit": "an allocation to an account that is not hex is skipped", "claim": "C06: a bad genesis stops the node", "rc": 1, "secs": 284, "failed": ["Proof/ByteExecutor:genesisAllocs_sim", "Props/Genesis:genesisAllocs_spec"], "examples": [], "model_error": []}
{"id": "v10", "definition": "runGenesis", "edit": "the trie of a failed genesis is not kept", "claim": "atomicity of genesis", "rc": 1, "secs": 285, "failed": ["Props/Genesis:runJob_sound", "Props/ByteExecutor:call_sim", "Props/ByteExecutor:calls_keep"], "examples": [], "model_error": []}
{"id": "v11", "definition": "addBalance", "edit": "the account of a contract is credited twice", "claim": "C01: conservation", "rc": 1, "secs": 74, "failed": ["Proof/Executor:addBalance_eq", "Proof/ByteExecutor:addBalance_sim"], "examples": [], "model_error": []}
{"id": "v12", "definition": "ContractType.flag", "edit": "two contract types have one flag", "claim": "C20: fixed codec round trip", "rc": 1, "secs": 15, "failed": ["Proof/FixedCodec:ofFlag_flag"], "examples": [], "model_error": []}
{"id": "v13", "definition": "contractAssetDec", "edit": "the fields of a contract asset are read in the other order", "claim": "C20: fixed codec round trip", "rc": 1, "secs": 15, "failed": ["Proof/FixedCodec:contractAsset_rt"], "examples": [], "model_error": []}
{"id": "v14", "definition": "rawBasic", "edit": "nonce and chain id are swapped", "claim": "C20: fixed codec round trip", "rc": 1, "secs": 14, "failed": ["Proof/FixedCodec:rawBasic_rt"], "examples": [], "model_error": []}
{"id": "v35", "definition": "maxRetryCount", "edit": "a peer is tried seven times", "claim": "C75: retry limit", "rc": 1, "secs": 12, "failed": ["Props/PeerManager2:C77_refuted"], "examples": ["Props/PeerManager2"], "model_error": []}
{"id": "v36", "definition": "Hash.take20", "edit": "the address is the last 20 bytes", "claim": "address of a public key", "rc": 1, "secs": 111, "failed": ["Props/Executor:C03_other_nonce_refuted", "Props/Executor:C07_reward_refuted", "Props/Executor:C10_poison_refuted"], "examples": ["Props/Executor", "Spec/DemoNode"], "model_error": []}
{"id": "v33", "definition": "SocketAddr.port", "edit": "the port of an IPv6 address is 0", "claim": "C80: the node listens where it was told", "rc": 1, "secs": 19, "failed": ["Props/Derived:C92_multiaddr"], "examples": [], "model_error": []}
{"id": "v34", "definition": "loadPeers", "edit": "one peer less is read", "claim": "C77: what was saved is loaded", "rc": 1, "secs": 4, "failed": ["Props/Persist:C86_file_round_trip", "Props/Persist:C87_torn_file_rejected"], "examples": ["Props/Persist"], "model_error": []}
{"id": "v37", "definition": "flagEpoch", "edit": "the flags of the two kinds of pulls are one", "claim": "C53: a pull is answered by its kind", "rc": 1, "secs": 74, "failed": ["Props/Messages:C50_round_trip_partial", "Props/Messages:C50_kind", "Props/Messages:C50_refuted"], "examples": [], "model_error": []}
{"id": "v38", "definition": "Prog.full", "edit": "transactions are given back in reverse order", "claim": "C78: a proposal is checked against its transactions", "rc": 1, "secs": 37, "failed": ["Props/NodeConc:solo_full"], "examples": [], "model_error": []}
{"id": "v15", "definition": "Hash.fromHex", "edit": "a hash must not have the prefix 0x", "claim": "C68: hex round trip", "rc": 1, "secs": 426, "failed": ["Props/Api:C49_hex_round_trip", "Props/Api:C49_hex_exact", "Props/Api:readHash_writes"], "examples": [], "model_error": []}
{"id": "v16", "definition": "checkExist", "edit": "a transaction that is in the pool is accepted again", "claim": "C35: no transaction twice", "rc": 1, "secs": 162, "failed": ["Props/Mempool:checks_spec"], "examples": [], "model_error": []}
{"id": "v17", "definition": "checkSignature", "edit": "the signature is checked with an empty key", "claim": "C93: what is in the pool is signed", "rc": 1, "secs": 195, "failed": ["Props/Mempool:checks_spec"], "examples": [], "model_error": []}
{"id": "v18", "definition": "join", "edit": "the paths of an extension are joined in the other order", "claim": "C22: a trie read gives the last write", "rc": 1, "secs": 4, "failed": ["Proof/Mpt:get_join"], "examples": [], "model_error": []}
{"id": "v19", "definition": "strip", "edit": "a shorter key matches", "claim": "C22: a trie read gives the last write", "rc": 1, "secs": 4, "failed": ["Proof/Mpt:strip_eq"], "examples": [], "model_error": []}
{"id": "v20", "definition": "readVarint", "edit": "the high bit of the last byte is kept", "claim": "C21: protobuf round trip", "rc": 1, "secs": 11, "failed": ["Proof/Protobuf:readVarint_encVarint"], "examples": [], "model_error": []}
{"id": "v21", "definition": "ContractType.asI32", "edit": "application and library contracts are swapped in the number", "claim": "C21: protobuf round trip of contract types", "rc": 1, "secs": 16, "failed": ["Props/Protobuf:ofI32_asI32"], "examples": [], "model_error": []}
{"id": "v22", "definition": "balancePb", "edit": "balances are encoded little endian", "claim": "C21: protobuf round trip", "rc": 1, "secs": 11, "failed": ["Proof/Protobuf:balance_prt"], "examples": [], "model_error": []}
