{"id": "mt28", "definition": "TrieDb.remove", "edit": "a single removal in full mode", "claim": "(the trie does not call it)", "rc": 1, "secs": 13, "failed": ["Props/Mpt:TrieRun.inv"], "examples": [], "model_error": []}
