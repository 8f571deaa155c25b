{"id": "wf01", "definition": "Model/ConsensusLock:Prog.endCommit", "edit": "the guard of a commit is never dropped", "claim": "C109", "rc": 1, "secs": 0, "failed": ["Props/WaitFree:owes_endCommit"], "examples": [], "model_error": []}
{"id": "wf02", "definition": "Model/ConsensusLock:Prog.endSync", "edit": "the sync guard is never dropped", "claim": "C109", "rc": 1, "secs": 0, "failed": ["Props/WaitFree:owes_endSync"], "examples": [], "model_error": []}
{"id": "wf03", "definition": "Model/ConsensusLock:Prog.sync", "edit": "a synchronisation that finds the engine lock taken keeps the sync lock", "claim": "C109", "rc": 1, "secs": 0, "failed": ["Props/WaitFree:owes_sync"], "examples": [], "model_error": []}
{"id": "wf04", "definition": "Model/ConsensusLock:Prog.sync", "edit": "a message that cannot be read leaves the sync lock behind", "claim": "C109", "rc": 1, "secs": 0, "failed": ["Props/WaitFree:owes_sync"], "examples": [], "model_error": []}
{"id": "wf05", "definition": "Model/ConsensusLock:Prog.propose", "edit": "a proposal takes the engine lock for a moment", "claim": "C109", "rc": 1, "secs": 0, "failed": ["Props/WaitFree:pooly_propose", "Props/WaitFree:within_propose"], "examples": [], "model_error": []}
{"id": "wf06", "definition": "Model/ConsensusLock:Prog.commit", "edit": "a proof that cannot be read is reported as a taken lock", "claim": "C109", "rc": 1, "secs": 0, "failed": ["Props/WaitFree:admitted_commit"], "examples": [], "model_error": []}
{"id": "wf07", "definition": "Model/ConsensusLock:Prog.commit", "edit": "a panic leaves the guard (no unwinding)", "claim": "C109", "rc": 1, "secs": 0, "failed": ["Props/WaitFree:owes_commit", "Props/WaitFree:within_commit"], "examples": [], "model_error": []}
{"id": "wf08", "definition": "Model/ConsensusLock:Prog.syncLoop", "edit": "every epoch is fetched and executed twice", "claim": "C109", "rc": 1, "secs": 0, "failed": ["Props/WaitFree:owes_syncLoop", "Props/WaitFree:within_syncLoop"], "examples": [], "model_error": []}
{"id": "wf09", "definition": "Model/ConsensusLock:Prog.commit", "edit": "a failed write of the proof is reported as a taken lock", "claim": "C109", "rc": 1, "secs": 0, "failed": ["Props/WaitFree:admitted_commit"], "examples": [], "model_error": []}
{"id": "cm01", "definition": "Model/ConsensusLock:Prog.updateStatus", "edit": "the epoch is written before its transactions", "claim": "C110", "rc": 1, "secs": 0, "failed": ["Props/Complete:full_updateStatus"], "examples": [], "model_error": []}
{"id": "cm02", "definition": "Model/ConsensusLock:Prog.updateStatus", "edit": "the receipts are not written", "claim": "C110", "rc": 1, "secs": 0, "failed": ["Props/Complete:full_updateStatus"], "examples": [], "model_error": []}
{"id": "cm03", "definition": "Model/ConsensusLock:Prog.updateStatus", "edit": "the transactions are not written", "claim": "C110", "rc": 1, "secs": 0, "failed": ["Props/Complete:full_updateStatus"], "examples": [], "model_error": []}
{"id": "cm04", "definition": "Model/ConsensusLock:Prog.updateStatus", "edit": "the hash of the epoch is written before the epoch", "claim": "C110", "rc": 1, "secs": 0, "failed": ["Props/Complete:full_updateStatus"], "examples": [], "model_error": []}
{"id": "cm05", "definition": "Model/ConsensusLock:Prog.updateStatus", "edit": "the first transaction is not written", "claim": "C110", "rc": 1, "secs": 0, "failed": ["Props/Complete:full_updateStatus"], "examples": [], "model_error": []}
{"id": "cm06", "definition": "Model/ConsensusLock:Prog.updateStatus", "edit": "the first receipt is not written", "claim": "C110", "rc": 1, "secs": 0, "failed": ["Props/Complete:full_updateStatus"], "examples": [], "model_error": []}
{"id": "cm07", "definition": "Model/ConsensusLock:Prog.commit", "edit": "the first transaction is left out", "claim": "C110", "rc": 1, "secs": 0, "failed": ["Props/Complete:full_commit"], "examples": [], "model_error": []}
{"id": "cm08", "definition": "Model/ConsensusLock:Prog.commitTail", "edit": "the flush also removes the transactions from the store", "claim": "C110", "rc": 1, "secs": 0, "failed": ["Props/Complete:full_commit"], "examples": [], "model_error": []}
