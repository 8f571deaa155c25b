{"id": "ty02", "definition": "BMap.insert", "edit": "replaces the next entry", "claim": "C01", "rc": 1, "secs": 267, "failed": ["Proof/ByteExecutor:BMap.mem_insert", "Proof/ByteExecutor:BMap.insert_ordered"], "examples": [], "model_error": []}
{"id": "ty03", "definition": "u64BE", "edit": "bytes reversed", "claim": "C12: contract address from code and nonce", "rc": 1, "secs": 500, "failed": ["Props/Api:?"], "examples": [], "model_error": []}
{"id": "co21", "definition": "NodeCfg.genesisEpoch", "edit": "state root not recorded", "claim": "C13/C34", "rc": 1, "secs": 85, "failed": ["Props/Consensus2:C35_refuted", "Props/Consensus2:C36_refuted", "Props/Consensus2:C37_refuted"], "examples": ["Props/Server", "Spec/DemoNode"], "model_error": []}
{"id": "ex27", "definition": "fromRoot", "edit": "unknown root opens the empty world", "claim": "C39", "rc": 1, "secs": 392, "failed": ["Props/ByteExecutor:fromRoot_sim", "Props/ApiServer:C73_refuted_root"], "examples": ["Props/Genesis"], "model_error": []}
{"id": "as08", "definition": "Node.apiInsert", "edit": "error reported as success", "claim": "C72", "rc": 1, "secs": 150, "failed": ["Props/ApiServer:?"], "examples": [], "model_error": []}
{"id": "as09", "definition": "Node.apiInsert", "edit": "the pool is not updated", "claim": "C72: the transaction is in the pool", "rc": 1, "secs": 143, "failed": ["Props/ApiServer:?"], "examples": [], "model_error": []}
{"id": "pm08", "definition": "PM.routine", "edit": "unknown addresses dialled again while being dialled", "claim": "C58/C59", "rc": 1, "secs": 18, "failed": ["Props/Keeper2:C58_no_repeated_dial"], "examples": ["Props/PeerManager"], "model_error": []}
{"id": "ke04", "definition": "PingEvent.report", "edit": "a ping time-out counts as a sign of life", "claim": "C74/C77: a peer that times out is retried later", "rc": 1, "secs": 4, "failed": ["Props/Keeper2:failure_net", "Props/Keeper2:C77_network_partial"], "examples": ["Props/Keeper", "Props/Keeper2"], "model_error": []}
{"id": "cc18", "definition": "Sys.stepIns", "edit": "limit compared one too late", "claim": "C25", "rc": 1, "secs": 169, "failed": ["Props/TxCacheConc2:poolSize_step", "Props/TxCacheConc2:Bound.step", "Props/TxCacheConc2:running_called", "Props/TxCacheConc2:crowded", "Props/TxCacheConc2:crowded_crowd"], "examples": ["Props/TxCacheConc", "Props/TxCacheConc2"], "model_error": []}
{"id": "au03", "definition": "Node.commitOvStatus", "edit": "status with the old height", "claim": "C69: the status after a commit names the next height", "rc": 1, "secs": 24, "failed": ["Props/Authority:C69_height"], "examples": ["Props/Authority"], "model_error": []}
