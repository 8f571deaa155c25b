{"id": "dk01", "definition": "Db.save", "edit": "the last write of a batch is skipped", "claim": "C98: what was stored is found again", "rc": 1, "secs": 4, "failed": ["Proof/Disk:save_refines", "Proof/Disk:updateStatus_dgrows", "Proof/Disk:updateStatus_out"], "examples": [], "model_error": []}
{"id": "dk02", "definition": "diskInit", "edit": "a disk whose latest epoch does not decode is initialised again", "claim": "C98 (no claim broken while every record decodes)", "rc": 1, "secs": 28, "failed": ["Props/Disk:init_steps"], "examples": [], "model_error": []}
{"id": "dk03", "definition": "diskInit", "edit": "genesis is executed with an epoch id of 1", "claim": "C98: same genesis state (nothing in genesis reads the height)", "rc": 1, "secs": 30, "failed": ["Props/Disk:init_steps", "Props/Disk:init_sim"], "examples": [], "model_error": []}
{"id": "dk04", "definition": "diskInit", "edit": "the proof of the genesis epoch is not stored", "claim": "C98: the disk holds what the tables hold", "rc": 1, "secs": 33, "failed": ["Props/Disk:init_sim"], "examples": [], "model_error": []}
{"id": "dk05", "definition": "diskStart", "edit": "started from the epoch at height 0", "claim": "C98: restart continues at the latest epoch", "rc": 1, "secs": 36, "failed": ["Props/Disk:call_out"], "examples": [], "model_error": []}
{"id": "dk06", "definition": "DNode.exec", "edit": "the executor opens the latest root of the status, not the given one", "claim": "C98: synchronisation executes on the root of the chain it follows", "rc": 1, "secs": 4, "failed": ["Proof/Disk:exec_dgrows", "Proof/Disk:exec_out"], "examples": [], "model_error": []}
{"id": "dk07", "definition": "DNode.exec", "edit": "committed tries are lost when the block succeeds", "claim": "C98: the next block can open its state", "rc": 1, "secs": 4, "failed": ["Proof/Disk:exec_dgrows", "Proof/Disk:exec_out"], "examples": [], "model_error": []}
{"id": "dk08", "definition": "DNode.save", "edit": "a write that runs out of memory is reported as done", "claim": "C98", "rc": 1, "secs": 4, "failed": ["Proof/Disk:save_out"], "examples": [], "model_error": []}
{"id": "dk09", "definition": "DNode.saveProof", "edit": "the proof is not written", "claim": "C98", "rc": 1, "secs": 20, "failed": ["Proof/Disk:saveProof_dgrows", "Proof/Disk:saveProof_out"], "examples": [], "model_error": []}
{"id": "dk10", "definition": "DNode.updateStatus", "edit": "transactions stored before receipts", "claim": "C98: a failure in between leaves different records", "rc": 1, "secs": 4, "failed": ["Proof/Disk:updateStatus_out"], "examples": [], "model_error": []}
{"id": "dk11", "definition": "DNode.updateStatus", "edit": "status kept when the epoch is stored", "claim": "C98: the next proposal is at the next height", "rc": 1, "secs": 4, "failed": ["Proof/Disk:updateStatus_out"], "examples": [], "model_error": []}
{"id": "dk12", "definition": "DNode.commitTail", "edit": "the pool is not flushed", "claim": "C98: committed transactions are not proposed again", "rc": 1, "secs": 4, "failed": ["Proof/Disk:commitTail_dgrows", "Proof/Disk:commitTail_out"], "examples": [], "model_error": []}
{"id": "dk13", "definition": "DNode.syncStart", "edit": "the successor of the wrong epoch is compared", "claim": "C98", "rc": 1, "secs": 4, "failed": ["Proof/Disk:syncStart_eq"], "examples": [], "model_error": []}
{"id": "dk14", "definition": "DNode.currentId", "edit": "an empty disk counts as height 0", "claim": "C98 (only without a latest epoch)", "rc": 1, "secs": 4, "failed": ["Proof/Disk:currentId_eq"], "examples": [], "model_error": []}
{"id": "dk15", "definition": "DNode.queryEpoch", "edit": "epoch 0 asked for is answered with the latest", "claim": "C98", "rc": 1, "secs": 30, "failed": ["Props/Disk:queryEpoch_eq"], "examples": [], "model_error": []}
{"id": "dk16", "definition": "DNode.queryBalance", "edit": "balance at the state of the running node", "claim": "C98: balance at the asked epoch", "rc": 1, "secs": 36, "failed": ["Props/Disk:balance_out"], "examples": [], "model_error": []}
{"id": "dk17", "definition": "DiskMachine.call", "edit": "tries written before the kill are lost, with all others", "claim": "C98: a kill loses nothing stored", "rc": 1, "secs": 32, "failed": ["Props/Disk:call_out", "Props/Disk:call_tries", "Props/Disk:dcalls_disk"], "examples": [], "model_error": []}
{"id": "dk18", "definition": "DiskMachine.call", "edit": "the block database is emptied on a start", "claim": "C98", "rc": 1, "secs": 33, "failed": ["Props/Disk:call_out", "Props/Disk:call_tries", "Props/Disk:dcalls_disk"], "examples": ["Props/Disk"], "model_error": []}
{"id": "dk19", "definition": "DNode.view", "edit": "a stored transaction that decodes counts as unknown", "claim": "C98: the pool rejects executed transactions", "rc": 1, "secs": 5, "failed": ["Proof/Disk:view_eq"], "examples": [], "model_error": []}
{"id": "dk20", "definition": "Write.puts", "edit": "transactions are stored under the hash of the previous key column", "claim": "C98, C31: receipts and transactions in different columns", "rc": 1, "secs": 12, "failed": ["Props/Storage:Refines.write"], "examples": [], "model_error": []}
{"id": "dk21", "definition": "DNode.checkEpoch", "edit": "ordered transactions fetched before the proposed ones are synchronised only if the proposal is exempt", "claim": "C98", "rc": 1, "secs": 5, "failed": ["Proof/Disk:checkEpoch_out"], "examples": [], "model_error": []}
{"id": "dk22", "definition": "DNode.getEpoch", "edit": "an own proposal is not remembered", "claim": "C98: own proposals are accepted without fetching", "rc": 1, "secs": 5, "failed": ["Proof/Disk:getEpoch_out"], "examples": [], "model_error": []}
{"id": "dk23", "definition": "DNode.syncOne", "edit": "synchronised epochs are executed with the height asked for", "claim": "C98: with the height in the header", "rc": 1, "secs": 6, "failed": ["Proof/Disk:syncOne_out"], "examples": [], "model_error": []}
{"id": "dk24", "definition": "diskInit", "edit": "killed after three writes counts as completed", "claim": "C98", "rc": 1, "secs": 29, "failed": ["Props/Disk:init_sim"], "examples": [], "model_error": []}
