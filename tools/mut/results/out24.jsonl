{"id": "w01", "definition": "parseConfig", "edit": "only names that start with https are addresses", "claim": "C120: what a name means", "rc": 1, "secs": 4, "failed": ["Props/Launch:C120_config", "Props/Launch:C120_status_refuted"], "examples": [], "model_error": []}
{"id": "w02", "definition": "parseHttp", "edit": "a response with a status other than 200 is an error", "claim": "C120_status_refuted: error pages", "rc": 1, "secs": 3, "failed": ["Props/Launch:C120_config", "Props/Launch:C120_status_refuted"], "examples": [], "model_error": []}
{"id": "w03", "definition": "genesisArg", "edit": "the default genesis is the configuration file", "claim": "C120: without arguments the default files", "rc": 1, "secs": 23, "failed": ["Props/Launch:C120_launch_partial", "Props/Launch:C120_nothing_else", "Props/Launch:C120_status_refuted"], "examples": [], "model_error": []}
{"id": "w04", "definition": "launch", "edit": "a genesis that is no file is fetched", "claim": "C120: the genesis is read from the file", "rc": 1, "secs": 7, "failed": ["Props/Launch:C120_launch_partial", "Props/Launch:C120_nothing_else"], "examples": [], "model_error": []}
{"id": "w05", "definition": "launch", "edit": "a genesis that cannot be read is taken as empty", "claim": "C120: no start without a genesis", "rc": 1, "secs": 8, "failed": ["Props/Launch:C120_launch_partial"], "examples": [], "model_error": []}
{"id": "w06", "definition": "launch", "edit": "the arguments are swapped", "claim": "C120: each file is what its argument names", "rc": 1, "secs": 4, "failed": ["Props/Launch:C120_launch_partial", "Props/Launch:C120_nothing_else", "Props/Launch:C120_file_name_refuted", "Props/Launch:C120_status_refuted"], "examples": [], "model_error": []}
{"id": "w07", "definition": "parseConfig", "edit": "a file that cannot be read is fetched", "claim": "C120: a file is read, nothing else", "rc": 1, "secs": 7, "failed": ["Props/Launch:C120_config"], "examples": [], "model_error": []}
{"id": "w08", "definition": "backoffBase", "edit": "the waiting time doubles", "claim": "C74/C75: waiting time", "rc": 1, "secs": 9, "failed": ["Props/PeerManager2:C75_round_waits_partial"], "examples": ["Props/PeerManager2"], "model_error": []}
{"id": "w09", "definition": "validAttemptInterval", "edit": "a failure within five seconds does not count", "claim": "C74: failures four seconds apart count", "rc": 1, "secs": 11, "failed": ["Props/PeerManager2:C75_round_waits_partial", "Props/PeerManager2:C77_refuted"], "examples": [], "model_error": []}
{"id": "w10", "definition": "dispatch", "edit": "a call of a contract fails instead of ending the process", "claim": "C119_halted", "rc": 1, "secs": 87, "failed": ["Proof/Executor:dispatch_eq", "Proof/ByteExecutor:dispatch_sim"], "examples": [], "model_error": []}
