{"id": "nd01", "definition": "NodeCfg.mem", "edit": "signatures not verified", "claim": "C93: only the owner of an account can spend from it", "rc": 1, "secs": 300, "failed": ["Props/ApiServer:apiInsert_ok", "Props/ApiServer:C72_unsafe_accepted", "Props/Spending:Lives.spending", "Props/Spending:C93_proposal_refuted"], "examples": [], "model_error": []}
{"id": "nd02", "definition": "NodeCfg.mem", "edit": "the digest of the raw transaction leaves out its first byte", "claim": "C93/C94: admission checks the hash of what was signed", "rc": 1, "secs": 86, "failed": ["Props/Consensus2:C36_refuted", "Props/Consensus2:C37_refuted"], "examples": ["Props/Server", "Spec/DemoNode"], "model_error": []}
{"id": "nd03", "definition": "Node.view", "edit": "timeout gap one larger", "claim": "C23/C94: admission rules of the pool", "rc": 1, "secs": 340, "failed": ["Props/ApiServer:apiInsert_ok", "Props/ApiServer:C72_unsafe_accepted", "Props/Takeover:insert_kept"], "examples": [], "model_error": []}
{"id": "nd04", "definition": "newTxsHandler", "edit": "received transactions replace the pool", "claim": "C94: no message evicts a transaction of the pool", "rc": 1, "secs": 36, "failed": ["Props/Server2:C81_new_txs_partial"], "examples": [], "model_error": []}
{"id": "nd05", "definition": "Node.serve", "edit": "a proposal starts a synchronisation", "claim": "C94: only announcements move the chain of a node", "rc": 1, "secs": 62, "failed": ["Props/Takeover:serve_cases"], "examples": [], "model_error": []}
{"id": "nd06", "definition": "Node.serve", "edit": "pull_txs response empties the pool", "claim": "C94", "rc": 1, "secs": 63, "failed": ["Props/Takeover:serve_cases"], "examples": [], "model_error": []}
{"id": "nd07", "definition": "Node.updateEpoch", "edit": "lock not taken", "claim": "C63: no synchronisation while a commit runs", "rc": 1, "secs": 362, "failed": ["Props/Server2:C81_heard"], "examples": [], "model_error": []}
{"id": "nd08", "definition": "Node.commit", "edit": "lock not taken", "claim": "C63", "rc": 1, "secs": 4, "failed": ["Proof/Consensus:commit_effect"], "examples": [], "model_error": []}
{"id": "nd09", "definition": "Node.commit", "edit": "the proposed transactions are executed instead of the ordered ones", "claim": "C35/C93", "rc": 1, "secs": 4, "failed": ["Proof/Consensus:commit_effect"], "examples": [], "model_error": []}
{"id": "nd10", "definition": "Status.updated", "edit": "confirm root dropped", "claim": "C78: header of the next proposal", "rc": 0, "secs": 402, "failed": [], "examples": [], "model_error": []}
{"id": "nd11", "definition": "Node.getEpoch", "edit": "timestamp of the proposal 0", "claim": "C78", "rc": 1, "secs": 262, "failed": ["Props/Proposal:getEpoch_ok"], "examples": [], "model_error": []}
{"id": "nd12", "definition": "Node.getEpoch", "edit": "proposer left zero", "claim": "C78", "rc": 1, "secs": 302, "failed": ["Props/Proposal:getEpoch_ok"], "examples": [], "model_error": []}
{"id": "nd13", "definition": "Node.saveProof", "edit": "a failed write still writes", "claim": "C35/C40", "rc": 1, "secs": 4, "failed": ["Proof/Consensus:saveProof_spec"], "examples": [], "model_error": []}
{"id": "nd14", "definition": "NodeCfg.genesisEpoch", "edit": "timestamp of the genesis file ignored", "claim": "C13", "rc": 0, "secs": 380, "failed": [], "examples": [], "model_error": []}
{"id": "nd15", "definition": "handleInit", "edit": "latest proof not stored at genesis", "claim": "C13/C92", "rc": 1, "secs": 7, "failed": ["Props/Consensus:handleInit_empty"], "examples": [], "model_error": []}
{"id": "nd16", "definition": "Node.syncOne", "edit": "coinbase of a synchronised epoch is the node itself", "claim": "C36: synchronisation executes as the committing nodes did", "rc": 1, "secs": 5, "failed": ["Proof/Consensus:syncOne_effect"], "examples": [], "model_error": []}
{"id": "nd17", "definition": "OverlordProof.toProof", "edit": "round and height swapped", "claim": "C35", "rc": 0, "secs": 343, "failed": [], "examples": [], "model_error": []}
{"id": "nd18", "definition": "Node.checkEpoch", "edit": "proposed transactions not fetched", "claim": "C27/C37", "rc": 1, "secs": 168, "failed": ["Props/Engine:checkEpoch_spec"], "examples": [], "model_error": []}
{"id": "nd19", "definition": "Node.updateStatus", "edit": "first receipt not saved", "claim": "C38/C32", "rc": 1, "secs": 4, "failed": ["Proof/Consensus:updateStatus_spec"], "examples": [], "model_error": []}
{"id": "nd20", "definition": "Node.updateStatus", "edit": "epoch written before receipts and transactions are is impossible here: transactions kept without the last", "claim": "C38", "rc": 1, "secs": 4, "failed": ["Proof/Consensus:updateStatus_spec"], "examples": [], "model_error": []}
{"id": "nd21", "definition": "Node.currentId", "edit": "zero without a latest epoch", "claim": "equivalent in every life of a node (there is always a latest epoch)", "rc": 0, "secs": 293, "failed": [], "examples": [], "model_error": []}
{"id": "nd22", "definition": "Node.queryBalance", "edit": "balance of the bank at the latest root", "claim": "C34/C73", "rc": 1, "secs": 123, "failed": ["Props/Consensus3:C16_refuted", "Props/Consensus3:apiBalance_resolves"], "examples": ["Props/Consensus3"], "model_error": []}
{"id": "nd23", "definition": "startNode", "edit": "exempted hashes survive: one is preset", "claim": "C78/C37", "rc": 1, "secs": 6, "failed": ["Props/Consensus:startNode_some"], "examples": [], "model_error": []}
{"id": "nd24", "definition": "Node.exec", "edit": "a failed execution does not keep the database: equivalent?", "claim": "C16", "rc": 0, "secs": 340, "failed": [], "examples": [], "model_error": []}
{"id": "nd25", "definition": "Node.updateEpoch", "edit": "announces one height less", "claim": "C63/C69: status after a synchronisation", "rc": 1, "secs": 289, "failed": ["Props/Sync:C38_partial", "Props/Sync:C38_refuted", "Props/Spending:C93_sync_refuted"], "examples": [], "model_error": []}
{"id": "nd26", "definition": "BMap.ofList", "edit": "first entry of a repeated key wins", "claim": "C46", "rc": 1, "secs": 11, "failed": ["Proof/FixedCodec:BMap.ofList_ordered"], "examples": [], "model_error": []}
{"id": "nd27", "definition": "Fee.dec", "edit": "cycle taken from the third element", "claim": "C44", "rc": 1, "secs": 12, "failed": ["Proof/FixedCodec:fee_rt"], "examples": [], "model_error": []}
{"id": "nd28", "definition": "approvedDec", "edit": "used and max swapped", "claim": "C44", "rc": 1, "secs": 12, "failed": ["Proof/FixedCodec:approved_rt"], "examples": [], "model_error": []}
