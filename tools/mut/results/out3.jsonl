{"id": "cl01", "definition": "Prog.sync", "edit": "engine lock not taken", "claim": "C41/C63: commit and synchronisation never interleave", "rc": 1, "secs": 48, "failed": ["Props/ConsensusLock:LockInv.step", "Props/ConsensusLock:example"], "model_error": []}
{"id": "cl02", "definition": "Prog.endCommit", "edit": "guard not dropped", "claim": "C41: locks are released", "rc": 1, "secs": 46, "failed": ["Props/ConsensusLock:runs_commitTail", "Props/ConsensusLock:runs_commit", "Props/ConsensusLock:section_commitTail", "Props/ConsensusLock:section_commit", "Props/ConsensusLock:C63_refuted"], "model_error": []}
{"id": "cl03", "definition": "Prog.endSync", "edit": "one guard not dropped", "claim": "C41", "rc": 1, "secs": 55, "failed": ["Props/ConsensusLock:runs_syncLoop", "Props/ConsensusLock:runs_syncBody", "Props/ConsensusLock:example"], "model_error": []}
{"id": "cl04", "definition": "Prog.commit", "edit": "takes the wrong lock", "claim": "C41", "rc": 1, "secs": 37, "failed": ["Props/ConsensusLock:LockInv.step", "Props/ConsensusLock:C63_refuted"], "model_error": []}
{"id": "cl05", "definition": "Prog.sync", "edit": "current height read before the lock: lock taken after", "claim": "C63", "rc": 1, "secs": 31, "failed": ["Props/ConsensusLock:LockInv.step", "Props/ConsensusLock:C63_refuted", "Props/ConsensusLock:example"], "model_error": []}
{"id": "cl06", "definition": "Prog.updateStatus", "edit": "status assigned before the epoch is written", "claim": "C41: status and storage agree", "rc": 1, "secs": 41, "failed": ["Props/ConsensusLock:runs_updateStatus", "Props/ConsensusLock:section_updateStatus", "Props/ConsensusLock:C63_refuted"], "model_error": []}
{"id": "cl07", "definition": "Prog.commit", "edit": "transactions taken before the lock... dropped flush", "claim": "C18: committed transactions leave the pool", "rc": 1, "secs": 96, "failed": ["Props/ConsensusLock:runs_commitTail"], "model_error": []}
{"id": "cl08", "definition": "Conf.step", "edit": "lock can be taken while held", "claim": "C41", "rc": 1, "secs": 58, "failed": ["Props/ConsensusLock:LockInv.step", "Props/ConsensusLock:example"], "model_error": []}
{"id": "co01", "definition": "startStatus", "edit": "height not incremented", "claim": "C35: after start the node works on latest + 1", "rc": 1, "secs": 8, "failed": ["Props/Consensus:coherent_start", "Props/Consensus:chained_start"], "model_error": []}
{"id": "co02", "definition": "Node.getEpoch", "edit": "height not compared", "claim": "C36: a proposal has the height of the status", "rc": 1, "secs": 12, "failed": ["Props/Consensus:C35_pre_hash"], "model_error": []}
{"id": "co03", "definition": "Node.getEpoch", "edit": "own hash not exempted", "claim": "C37: own proposals are not checked again", "rc": 0, "secs": 380, "failed": [], "model_error": []}
{"id": "co04", "definition": "Node.getEpoch", "edit": "order root over the proposed hashes", "claim": "C36: header matches body", "rc": 0, "secs": 329, "failed": [], "model_error": []}
{"id": "co05", "definition": "Node.getEpoch", "edit": "previous hash is the state root", "claim": "C36: chained to the previous epoch", "rc": 1, "secs": 7, "failed": ["Props/Consensus:C35_pre_hash"], "model_error": []}
{"id": "co06", "definition": "Node.checkEpoch", "edit": "exempt list ignored", "claim": "C37", "rc": 1, "secs": 187, "failed": ["Props/Engine:checkEpoch_spec"], "model_error": []}
{"id": "co07", "definition": "Node.checkEpoch", "edit": "ordered transactions not ensured", "claim": "C37: success means all ordered transactions are known", "rc": 1, "secs": 175, "failed": ["Props/Engine:checkEpoch_spec"], "model_error": []}
{"id": "co08", "definition": "Node.commit", "edit": "proof not saved", "claim": "C38: the saved proof is that of the committed epoch", "rc": 1, "secs": 4, "failed": ["Proof/Consensus:commit_effect"], "model_error": []}
{"id": "co09", "definition": "Status.updated", "edit": "previous hash not updated", "claim": "C38/C40: hash chain", "rc": 1, "secs": 8, "failed": ["Props/Consensus:Node.Coherent.effect", "Props/Consensus:Node.Chained.effect"], "model_error": []}
{"id": "co10", "definition": "Status.updated", "edit": "state root not updated", "claim": "C39", "rc": 1, "secs": 7, "failed": ["Props/Consensus:Node.Coherent.effect", "Props/Consensus:C36_replay_partial"], "model_error": []}
{"id": "co11", "definition": "Node.updateStatus", "edit": "status updated before the writes succeed", "claim": "C38: a failed commit leaves the status", "rc": 1, "secs": 4, "failed": ["Proof/Consensus:updateStatus_spec"], "model_error": []}
{"id": "co12", "definition": "Node.commitTail", "edit": "pool not flushed", "claim": "C18: committed transactions leave the pool", "rc": 1, "secs": 4, "failed": ["Proof/Consensus:commit_effect"], "model_error": []}
{"id": "co13", "definition": "Node.commitTail", "edit": "coinbase is the committing node", "claim": "C39: execution independent of the node", "rc": 1, "secs": 3, "failed": ["Proof/Consensus:commit_effect"], "model_error": []}
{"id": "co14", "definition": "Node.syncOne", "edit": "previous hash not compared", "claim": "C42: synchronised epochs are chained", "rc": 1, "secs": 4, "failed": ["Proof/Consensus:syncOne_effect"], "model_error": []}
{"id": "co15", "definition": "syncIds", "edit": "last epoch not fetched", "claim": "C42: synchronised up to the announced height", "rc": 1, "secs": 103, "failed": ["Props/Consensus2:C36_refuted"], "model_error": []}
{"id": "co16", "definition": "syncIds", "edit": "starts at the current epoch", "claim": "C42: no epoch twice", "rc": 1, "secs": 7, "failed": ["Props/Consensus:consecutive_syncIds"], "model_error": []}
{"id": "co17", "definition": "Node.syncLoop", "edit": "hash of the loop not advanced", "claim": "C42", "rc": 1, "secs": 5, "failed": ["Proof/Consensus:syncLoop_steps"], "model_error": []}
{"id": "co18", "definition": "Node.syncLoop", "edit": "state root of the loop not advanced", "claim": "C42: executed on the state of the previous epoch", "rc": 1, "secs": 4, "failed": ["Proof/Consensus:syncLoop_steps"], "model_error": []}
{"id": "co19", "definition": "Node.updateEpoch", "edit": "synchronises although not behind", "claim": "C42: nothing happens unless behind", "rc": 1, "secs": 233, "failed": ["Props/Sync:C38_partial", "Props/Sync:C38_refuted"], "model_error": []}
{"id": "co20", "definition": "handleInit", "edit": "initialises again over existing data", "claim": "C34: a second init changes nothing", "rc": 1, "secs": 9, "failed": ["Props/Consensus:handleInit_some"], "model_error": []}
{"id": "co21", "definition": "NodeCfg.genesisEpoch", "edit": "state root not recorded", "claim": "C13/C34", "rc": 1, "secs": 23, "failed": ["Spec/DemoNode:example"], "model_error": []}
{"id": "co22", "definition": "Node.queryBalance", "edit": "ignores the height asked for", "claim": "C43: balance at a height", "rc": 1, "secs": 149, "failed": ["Props/Consensus3:apiBalance_resolves", "Props/Consensus3:C16_partial", "Props/Consensus3:example"], "model_error": []}
{"id": "co23", "definition": "Node.syncStart", "edit": "own latest epoch not compared with the peer's", "claim": "C42", "rc": 1, "secs": 200, "failed": ["Props/Sync:C38_partial"], "model_error": []}
{"id": "co24", "definition": "Node.updateStatus", "edit": "transactions not saved", "claim": "C38: everything committed can be queried", "rc": 1, "secs": 3, "failed": ["Proof/Consensus:updateStatus_spec"], "model_error": []}
{"id": "co25", "definition": "Node.updateStatus", "edit": "receipts not saved", "claim": "C38", "rc": 1, "secs": 4, "failed": ["Proof/Consensus:updateStatus_spec"], "model_error": []}
{"id": "co26", "definition": "Node.exec", "edit": "failed execution reported as success is impossible: panic becomes an error", "claim": "C10", "rc": 0, "secs": 261, "failed": [], "model_error": []}
{"id": "co27", "definition": "Status.updated", "edit": "receipt root over the ordered hashes", "claim": "C38: receipt root commits to the receipts", "rc": 1, "secs": 248, "failed": ["Props/Sync:syncLoop_ok"], "model_error": []}
{"id": "co28", "definition": "Node.commit", "edit": "returns the same height", "claim": "C38: Overlord is told the next height", "rc": 1, "secs": 125, "failed": ["Props/Consensus2:C35_refuted"], "model_error": []}
{"id": "co29", "definition": "Node.view", "edit": "stored transactions are not found", "claim": "C15: committed transactions are not admitted", "rc": 1, "secs": 254, "failed": ["Props/Replay:Lives.replayInv"], "model_error": []}
{"id": "co30", "definition": "startStatus", "edit": "state root empty after a restart", "claim": "C35: restart keeps the state", "rc": 1, "secs": 7, "failed": ["Props/Consensus:coherent_start"], "model_error": []}
{"id": "co31", "definition": "startStatus", "edit": "state of the status kept equal to the header: proof default", "claim": "C35", "rc": 1, "secs": 7, "failed": ["Props/Consensus:coherent_start"], "model_error": []}
{"id": "co32", "definition": "Node.apiBalance", "edit": "error shown as one", "claim": "C43", "rc": 1, "secs": 138, "failed": ["Props/Consensus3:apiBalance_resolves"], "model_error": []}
{"id": "ex01", "definition": "subBalanceUser", "edit": "overdraw not checked", "claim": "C02/C01", "rc": 1, "secs": 76, "failed": ["Proof/ExecEffects:debit_user_spec", "Proof/ExecEffects:debit_user_fails"], "model_error": []}
{"id": "ex02", "definition": "subBalanceUser", "edit": "`<` becomes `\u2264`: the whole balance cannot be spent", "claim": "C02: a transfer succeeds iff the balance suffices", "rc": 1, "secs": 72, "failed": ["Proof/ExecEffects:debit_user_spec", "Proof/ExecEffects:debit_user_fails"], "model_error": []}
{"id": "ex03", "definition": "accTransfer", "edit": "credits the caller", "claim": "C02", "rc": 1, "secs": 56, "failed": ["Proof/Executor:accTransfer_eq", "Spec/DemoNode:example"], "model_error": []}
{"id": "ex04", "definition": "addBalanceUser", "edit": "balance replaced instead of added", "claim": "C01", "rc": 1, "secs": 46, "failed": ["Proof/ExecEffects:balance_credit", "Spec/DemoNode:example"], "model_error": []}
{"id": "ex05", "definition": "settle", "edit": "not reverted on failure", "claim": "C03", "rc": 1, "secs": 70, "failed": ["Proof/ExecFlat:execTx_eq"], "model_error": []}
{"id": "ex06", "definition": "settle", "edit": "stashed on failure", "claim": "C03", "rc": 1, "secs": 66, "failed": ["Proof/ExecFlat:execTx_eq"], "model_error": []}
{"id": "ex07", "definition": "execTx", "edit": "cycles not reset", "claim": "C05", "rc": 1, "secs": 57, "failed": ["Proof/ExecFlat:execTx_eq"], "model_error": []}
{"id": "ex08", "definition": "execTx", "edit": "price not multiplied", "claim": "C05: fee = cycles \u00d7 price", "rc": 1, "secs": 68, "failed": ["Proof/ExecFlat:execTx_eq"], "model_error": []}
{"id": "ex09", "definition": "execTx", "edit": "nonce not incremented", "claim": "C08", "rc": 1, "secs": 65, "failed": ["Proof/ExecFlat:execTx_eq"], "model_error": []}
{"id": "ex10", "definition": "modifyAllCyclesUsed", "edit": "fees of the same asset not merged", "claim": "C06", "rc": 1, "secs": 277, "failed": ["Proof/ExecSums:modifyAll_ids", "Proof/ExecSums:modifyAll_fee"], "model_error": []}
{"id": "ex11", "definition": "consumeCycles", "edit": "`>` becomes `\u2265`", "claim": "C05: exactly the limit is allowed", "rc": 1, "secs": 98, "failed": ["Proof/ExecEffects:consume_ok"], "model_error": []}
{"id": "ex12", "definition": "bankRegister", "edit": "existing asset overwritten", "claim": "C12", "rc": 1, "secs": 92, "failed": ["Proof/Executor:dispatch_eq"], "model_error": []}
{"id": "ex13", "definition": "handleTransfer", "edit": "asset existence not checked", "claim": "C02/C14: unknown assets cannot be transferred", "rc": 1, "secs": 150, "failed": ["Proof/Executor:dispatch_eq"], "model_error": []}
{"id": "ex14", "definition": "handleTransfer", "edit": "before and after swapped in the receipt", "claim": "C04/C02", "rc": 1, "secs": 106, "failed": ["Proof/Executor:dispatch_eq"], "model_error": []}
{"id": "ex15", "definition": "exec", "edit": "commit before the reward (reward kept in the cache)", "claim": "C07", "rc": 1, "secs": 122, "failed": ["Proof/ExecFlat:exec_open_eq"], "model_error": []}
{"id": "ex16", "definition": "exec", "edit": "stashes the reward before the commit (the intended program)", "claim": "C07_refuted: the reward is lost", "rc": 1, "secs": 61, "failed": ["Proof/ExecFlat:exec_open_eq", "Spec/DemoNode:example"], "model_error": []}
{"id": "ex17", "definition": "exec", "edit": "receipts keep the empty state root", "claim": "C04: receipts carry the root after the block", "rc": 1, "secs": 100, "failed": ["Proof/ExecFlat:exec_open_eq"], "model_error": []}
{"id": "ex18", "definition": "execLoop", "edit": "receipts in reverse order", "claim": "C04", "rc": 1, "secs": 87, "failed": ["Proof/ExecFlat:execLoop_eq"], "model_error": []}
{"id": "ex19", "definition": "subBalanceContract", "edit": "underflow clamps", "claim": "C14", "rc": 1, "secs": 247, "failed": ["Proof/ExecSums:SimAccount.debit"], "model_error": []}
{"id": "ex20", "definition": "genesisAssets", "edit": "credited to the coinbase", "claim": "C13", "rc": 1, "secs": 39, "failed": ["Props/Genesis:genesisAssets_spec", "Props/Genesis:example", "Spec/DemoNode:example"], "model_error": []}
{"id": "ex21", "definition": "createGenesis", "edit": "not stashed before the commit", "claim": "C13", "rc": 1, "secs": 37, "failed": ["Props/Genesis:createsGenesis_spec", "Props/Genesis:example", "Spec/DemoNode:example"], "model_error": []}
{"id": "ex22", "definition": "CyclesAction.cost", "edit": "transfer costs more", "claim": "C05", "rc": 1, "secs": 55, "failed": ["Proof/ExecEffects:flatStep_effect"], "model_error": []}
{"id": "ex23", "definition": "handleDeploy", "edit": "nonce ignored in the address", "claim": "C12: deploying twice gives two assets", "rc": 1, "secs": 63, "failed": ["Proof/Executor:dispatch_eq"], "model_error": []}
{"id": "ex24", "definition": "assetIdOf", "edit": "chain id left out", "claim": "C12: asset id = digest(chain id ++ address)", "rc": 1, "secs": 39, "failed": ["Props/Executor:C12_deploy_fresh", "Spec/DemoNode:example"], "model_error": []}
{"id": "ex25", "definition": "bankRegister", "edit": "address type not checked", "claim": "C12", "rc": 1, "secs": 53, "failed": ["Proof/Executor:dispatch_eq"], "model_error": []}
{"id": "ex26", "definition": "runBlock", "edit": "failed block is committed", "claim": "C10/C03: nothing is stored when a block fails", "rc": 1, "secs": 30, "failed": ["Proof/Consensus:runBlock_error", "Props/Genesis:runJob_sound", "Props/Genesis:C15_failed_execution_leaves_db"], "model_error": []}
{"id": "ex27", "definition": "fromRoot", "edit": "unknown root opens the empty world", "claim": "C39", "rc": 1, "secs": 266, "failed": ["Props/Genesis:example"], "model_error": []}
{"id": "ex28", "definition": "execTx", "edit": "receipt carries another transaction hash", "claim": "C04", "rc": 1, "secs": 62, "failed": ["Proof/ExecFlat:execTx_eq"], "model_error": []}
{"id": "ex29", "definition": "subBalance", "edit": "writes the account without the change", "claim": "C02", "rc": 1, "secs": 58, "failed": ["Proof/Executor:subBalance_eq", "Spec/DemoNode:example"], "model_error": []}
{"id": "ex30", "definition": "accountBalance", "edit": "missing asset is one", "claim": "C13/C02", "rc": 1, "secs": 73, "failed": ["Proof/ExecEffects:balance_eq", "Proof/ExecEffects:balance_credit", "Proof/ExecEffects:balance_findOrCreate"], "model_error": []}
{"id": "sa01", "definition": "Layers.get", "edit": "stash before cache", "claim": "C11", "rc": 1, "secs": 78, "failed": ["Proof/Executor:Layers.get_eq_over", "Proof/Executor:Layers.base_stashCache"], "model_error": []}
{"id": "sa02", "definition": "Layers.revertCache", "edit": "clears the stash too", "claim": "C11", "rc": 1, "secs": 76, "failed": ["Proof/Executor:Layers.base_revertCache", "Proof/Executor:Layers.get_revertCache", "Proof/Executor:St.base_revert"], "model_error": []}
{"id": "sa03", "definition": "Layers.stashCache", "edit": "old stash wins", "claim": "C11", "rc": 1, "secs": 69, "failed": ["Proof/Executor:Layers.base_stashCache"], "model_error": []}
{"id": "sa04", "definition": "Layers.commit", "edit": "keeps the stash", "claim": "C11: (not observable by queries)", "rc": 1, "secs": 281, "failed": ["Props/StateAdapter:Layers.call_abs"], "model_error": []}
{"id": "sa05", "definition": "Layers.contains", "edit": "cache not looked at", "claim": "C11/C12: two deploys in one transaction batch", "rc": 1, "secs": 66, "failed": ["Proof/Executor:Layers.contains_eq"], "model_error": []}
{"id": "sa06", "definition": "Layers.commit", "edit": "commits the cache as well", "claim": "C11: unstashed writes are not persistent", "rc": 1, "secs": 39, "failed": ["Proof/Executor:Layers.trie_commit", "Proof/Executor:St.committed_commit", "Spec/DemoNode:example"], "model_error": []}
{"id": "sa07", "definition": "Layers.stashCache", "edit": "cache not cleared", "claim": "C11: revert after stash", "rc": 1, "secs": 58, "failed": ["Proof/Executor:Layers.get_stashCache"], "model_error": []}
{"id": "rl01", "definition": "rlpHeader", "edit": "55 becomes 56 in the header", "claim": "C49: fixed codec round trip", "rc": 1, "secs": 6, "failed": ["Proof/Rlp:headerInfo_header", "Proof/Rlp:value_enc"], "model_error": []}
{"id": "rl02", "definition": "encData", "edit": "single bytes below 0x80 get a header", "claim": "C49", "rc": 1, "secs": 6, "failed": ["Proof/Rlp:encData_cases"], "model_error": []}
{"id": "rl03", "definition": "Rlp.headerInfo", "edit": "boundary 0xb7 becomes 0xb6", "claim": "C49", "rc": 1, "secs": 6, "failed": ["Proof/Rlp:headerInfo_header"], "model_error": []}
{"id": "rl04", "definition": "Rlp.intOf", "edit": "leading zeros accepted", "claim": "C49/C51: non-canonical integers are rejected", "rc": 1, "secs": 5, "failed": ["Proof/Rlp:intOf_natBE"], "model_error": []}
{"id": "rl05", "definition": "Rlp.list", "edit": "malformed element is an error instead of an abort", "claim": "C51 refuted", "rc": 1, "secs": 17, "failed": ["Props/FixedCodec:C47_list_panics_iff", "Props/FixedCodec:C47_panic_refuted"], "model_error": []}
{"id": "rl06", "definition": "bigBE", "edit": "zero as the empty string", "claim": "C49: the coding of 0", "rc": 1, "secs": 6, "failed": ["Proof/Rlp:natOfBE_bigBE"], "model_error": []}
{"id": "fc01", "definition": "Fee.item", "edit": "fields swapped", "claim": "C49", "rc": 1, "secs": 12, "failed": ["Proof/FixedCodec:fee_rt"], "model_error": []}
{"id": "fc02", "definition": "RawTx.basic", "edit": "nonce left out of the hash", "claim": "C52: two transactions with the same hash are equal", "rc": 1, "secs": 13, "failed": ["Proof/FixedCodec:rawBasic_rt"], "model_error": []}
{"id": "fc03", "definition": "Account.item", "edit": "flags swapped", "claim": "C49", "rc": 1, "secs": 11, "failed": ["Proof/FixedCodec:account_rt"], "model_error": []}
{"id": "fc04", "definition": "EpochHeader.item", "edit": "state root replaced by the order root", "claim": "C52: hash commits to the header", "rc": 1, "secs": 11, "failed": ["Proof/FixedCodec:header_rt"], "model_error": []}
{"id": "fc05", "definition": "ReceiptResult.dec", "edit": "before and after swapped in the decoder", "claim": "C49", "rc": 1, "secs": 13, "failed": ["Proof/FixedCodec:result_rt"], "model_error": []}
{"id": "fc06", "definition": "ContractType.ofFlag", "edit": "app and library swapped", "claim": "C49", "rc": 1, "secs": 15, "failed": ["Proof/FixedCodec:ofFlag_flag"], "model_error": []}
{"id": "fc07", "definition": "RawTx.items", "edit": "approve transactions are encoded (the intended program)", "claim": "C52_refuted: approve transactions all have the same hash", "rc": 1, "secs": 13, "failed": ["Props/FixedCodec:C44_approve_refuted", "Props/FixedCodec:example"], "model_error": []}
{"id": "fc08", "definition": "Epoch.item", "edit": "transactions left out of the epoch hash", "claim": "C52", "rc": 1, "secs": 11, "failed": ["Proof/FixedCodec:epoch_rt"], "model_error": []}
{"id": "pb01", "definition": "encVarint", "edit": "boundary 128 becomes 127", "claim": "C49", "rc": 1, "secs": 7, "failed": ["Proof/Protobuf:readVarint_encVarint"], "model_error": []}
{"id": "pb02", "definition": "Fee.pb", "edit": "wrong tag", "claim": "C49", "rc": 1, "secs": 7, "failed": ["Proof/Protobuf:fee_prt"], "model_error": []}
{"id": "pb03", "definition": "ContractType.ofI32", "edit": "numbers of the encoder used (the intended program)", "claim": "C49_refuted: deploy of a library is decoded as an app", "rc": 1, "secs": 14, "failed": ["Props/Protobuf:ofI32_asI32"], "model_error": []}
{"id": "pb04", "definition": "Receipt.pb", "edit": "transaction hash and state root swapped", "claim": "C49", "rc": 1, "secs": 6, "failed": ["Proof/Protobuf:receipt_prt"], "model_error": []}
{"id": "pb05", "definition": "Proof.pb", "edit": "bitmap omitted", "claim": "C49", "rc": 1, "secs": 6, "failed": ["Proof/Protobuf:proof_prt"], "model_error": []}
{"id": "pb06", "definition": "readField", "edit": "length not compared", "claim": "C51: truncated input is rejected", "rc": 1, "secs": 5, "failed": ["Proof/Protobuf:readField_encField"], "model_error": []}
{"id": "pb07", "definition": "getU64", "edit": "first occurrence wins", "claim": "C50: last value wins", "rc": 0, "secs": 242, "failed": [], "model_error": []}
{"id": "ty01", "definition": "UserAddress.fromBytes", "edit": "magic not compared", "claim": "C47/C61: addresses of contracts are not users", "rc": 1, "secs": 50, "failed": ["Proof/Hex:UserAddress.fromBytes_toBytes"], "model_error": []}
{"id": "ty02", "definition": "BMap.insert", "edit": "replaces the next entry", "claim": "C01", "rc": 0, "secs": 304, "failed": [], "model_error": []}
{"id": "ty03", "definition": "u64BE", "edit": "bytes reversed", "claim": "C12: contract address from code and nonce", "rc": 1, "secs": 418, "failed": [], "model_error": []}
