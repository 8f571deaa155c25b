{"id": "hf01", "definition": "syncIds", "edit": "a synchronisation begins with the current epoch instead of the next", "claim": "C113: a node never asks for the genesis epoch; epochs and states of the chain", "rc": 1, "secs": 8, "failed": ["Props/Consensus:consecutive_syncIds"], "examples": [], "model_error": []}
{"id": "hf02", "definition": "rpcHandler", "edit": "a request for an epoch is answered with the latest epoch", "claim": "C113: the answer to a request for a height is the epoch stored for it", "rc": 1, "secs": 24, "failed": ["Props/Server:C67_epoch"], "examples": [], "model_error": []}
{"id": "hf03", "definition": "rpcHandler", "edit": "transactions that are not stored are left out of the answer", "claim": "C113: the answer to a request for transactions has exactly those asked for", "rc": 1, "secs": 20, "failed": ["Props/Network:C112_sends", "Props/Server:C67_txs"], "examples": [], "model_error": []}
{"id": "hf04", "definition": "fromRoot", "edit": "a root that is not known is opened as the empty state", "claim": "C113/C16: a node that can tell a balance at an epoch tells that of the state of its header", "rc": 1, "secs": 262, "failed": ["Props/ByteExecutor:fromRoot_sim", "Props/ApiServer:C73_refuted_root"], "examples": ["Props/Genesis"], "model_error": []}
{"id": "hf05", "definition": "Prog.syncOne", "edit": "the height written for a synchronised epoch is the one asked for, while the epoch is that of the answer to the request for the next", "claim": "C113: epochs of one height are the same on all nodes", "rc": 1, "secs": 31, "failed": ["Props/ConsensusLock:runs_syncLoop", "Props/ConsensusLock:C63_refuted"], "examples": ["Props/ConsensusLock"], "model_error": []}
