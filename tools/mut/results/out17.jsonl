{"id": "nd14", "definition": "NodeCfg.genesisEpoch", "edit": "timestamp of the genesis file ignored", "claim": "C13", "rc": 1, "secs": 340, "failed": ["Props/Agreement:C13_genesis_epoch"], "examples": [], "model_error": []}
{"id": "nd17", "definition": "OverlordProof.toProof", "edit": "round and height swapped", "claim": "C35", "rc": 1, "secs": 352, "failed": ["Props/Proposal:C78_proof"], "examples": ["Props/Proposal"], "model_error": []}
{"id": "mt28", "definition": "TrieDb.remove", "edit": "a single removal in full mode", "claim": "(the trie does not call it)", "rc": 1, "secs": 13, "failed": ["Props/Mpt:TrieRun.inv"], "examples": [], "model_error": []}
{"id": "aconsen04", "definition": "NodeCfg.genesisEpoch", "edit": "proposer := \u27e8List.replicate 20 0, by simp\u27e9   =>   proposer := \u27e8List.replicate 20 1, by simp\u27e9", "claim": "", "rc": 1, "secs": 343, "failed": ["Props/Agreement:C13_genesis_epoch"], "examples": [], "model_error": []}
{"id": "adisk02", "definition": "Db.save", "edit": "| [] => (true, db)   =>   | [] => (false, db)", "claim": "", "rc": 1, "secs": 32, "failed": ["Props/Disk:dcalls_disk"], "examples": ["Props/Disk"], "model_error": []}
