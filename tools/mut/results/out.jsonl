{"id": "tc01", "definition": "Wrapper.isTimeout", "edit": "`w.tx.raw.timeout \u2264 current` becomes `<`", "claim": "C20: a transaction whose timeout equals the latest epoch is not packaged", "rc": 1, "secs": 160, "failed": ["Proof/TxCache:isTimeout_eq"], "model_error": []}
{"id": "tc02", "definition": "Wrapper.isTimeout", "edit": "drop the upper bound of the window", "claim": "C20: a packaged transaction is inside the timeout window", "rc": 1, "secs": 188, "failed": ["Proof/TxCache:isTimeout_eq"], "model_error": []}
{"id": "tc03", "definition": "Pk.take", "edit": "`limit < sum` becomes `limit \u2264 sum`", "claim": "C21: a package is filled up to the limit inclusive", "rc": 1, "secs": 179, "failed": ["Proof/TxCache:loopE_filter", "Proof/TxCache:fold_propose", "Proof/TxCache:fold_order"], "model_error": []}
{"id": "tc04", "definition": "Pk.take", "edit": "cycles not reset when the stage changes", "claim": "C21: the proposal section has its own cycle budget", "rc": 1, "secs": 189, "failed": ["Proof/TxCache:fold_propose", "Proof/TxCache:fold_order"], "model_error": []}
{"id": "tc05", "definition": "Pk.take", "edit": "order and propose lists swapped", "claim": "C22: order then propose, in arrival order", "rc": 1, "secs": 36, "failed": ["Proof/TxCache:fold_propose", "Proof/TxCache:fold_order", "Spec/DemoNode:example"], "model_error": []}
{"id": "tc06", "definition": "Pk.take", "edit": "transactions prepended: packaged in reverse order", "claim": "C22: packaged in arrival order", "rc": 1, "secs": 164, "failed": ["Proof/TxCache:fold_order"], "model_error": []}
{"id": "tc07", "definition": "Pk.take", "edit": "already proposed transactions are proposed again", "claim": "C22: a synchronised proposal is not proposed again", "rc": 1, "secs": 175, "failed": ["Proof/TxCache:fold_propose"], "model_error": []}
{"id": "tc08", "definition": "TxCache.insert", "edit": "no removal from the map after a failed push", "claim": "C17: a rejected transaction leaves the pool as it was", "rc": 1, "secs": 184, "failed": ["Proof/TxCache:insert_full"], "model_error": []}
{"id": "tc09", "definition": "TxCache.insert", "edit": "pushes to the candidate queue", "claim": "C16: an admitted transaction is packaged by the next package", "rc": 1, "secs": 46, "failed": ["Proof/TxCache:insert_ok", "Proof/TxCache:insert_full", "Spec/DemoNode:example"], "model_error": []}
{"id": "tc10", "definition": "TxCache.insert", "edit": "count not decremented", "claim": "C24: a package never waits forever", "rc": 1, "secs": 178, "failed": ["Proof/TxCache:insert_ok", "Proof/TxCache:insert_full"], "model_error": []}
{"id": "tc11", "definition": "TxCache.showUnknown", "edit": "returns the known hashes", "claim": "C28: exactly the missing transactions are requested", "rc": 1, "secs": 161, "failed": ["Proof/TxCache:Good.call_refines"], "model_error": []}
{"id": "tc12", "definition": "TxCache.markRemoved", "edit": "the loop stops at the first unknown hash", "claim": "C18: flushed transactions are never packaged again", "rc": 1, "secs": 174, "failed": ["Proof/TxCache:markRemoved_fields", "Proof/TxCache:markRemoved_heap"], "model_error": []}
{"id": "tc13", "definition": "TxCache.flush", "edit": "does not delete from the map", "claim": "C18: a flushed transaction is no longer in the pool", "rc": 1, "secs": 183, "failed": ["Proof/TxCache:Good.flush_refines"], "model_error": []}
{"id": "tc14", "definition": "TxCache.flush", "edit": "does not mark the wrappers", "claim": "C18: flushed transactions are never packaged again", "rc": 1, "secs": 56, "failed": ["Proof/TxCache:Good.flush_refines", "Spec/DemoNode:example"], "model_error": []}
{"id": "tc15", "definition": "TxCache.packageLoop", "edit": "a packaged transaction is not put into the candidate queue", "claim": "C19: packaging keeps the transactions in the pool", "rc": 1, "secs": 188, "failed": ["Proof/TxCache:packageLoop_eq"], "model_error": []}
{"id": "tc16", "definition": "TxCache.packageLoop", "edit": "the removed flag is not looked at", "claim": "C18: flushed transactions are never packaged again", "rc": 1, "secs": 56, "failed": ["Proof/TxCache:packageLoop_eq", "Spec/DemoNode:example"], "model_error": []}
{"id": "tc17", "definition": "TxCache.packageLoop", "edit": "expired transactions stay in the queue", "claim": "C20", "rc": 1, "secs": 195, "failed": ["Proof/TxCache:packageLoop_eq"], "model_error": []}
{"id": "tc18", "definition": "TxCache.package", "edit": "expired ones are not deleted from the map", "claim": "C20: expired transactions leave the pool", "rc": 1, "secs": 193, "failed": ["Proof/TxCache:Good.package_refines"], "model_error": []}
{"id": "tc19", "definition": "TxCache.package", "edit": "the roles of the queues are not switched", "claim": "C19: transactions stay packageable", "rc": 1, "secs": 176, "failed": ["Proof/TxCache:Good.package_refines"], "model_error": []}
{"id": "tc20", "definition": "TxCache.package", "edit": "also deletes the packaged transactions from the map", "claim": "C19: packaging does not remove a transaction from the pool", "rc": 1, "secs": 43, "failed": ["Proof/TxCache:Good.package_refines", "Spec/DemoNode:example"], "model_error": []}
{"id": "tc21", "definition": "TxCache.omissionLoop", "edit": "left-over transactions are dropped", "claim": "C24: no transaction is lost", "rc": 0, "secs": 304, "failed": [], "model_error": []}
{"id": "tc22", "definition": "TxCache.new", "edit": "queues hold half as much", "claim": "capacity of the pool", "rc": 1, "secs": 210, "failed": ["Proof/TxCache:abs_new"], "model_error": []}
{"id": "mp01", "definition": "MemPool.checkReachLimit", "edit": "`\u2264` becomes `<`", "claim": "C23: never more than pool_size transactions by insertion", "rc": 1, "secs": 53, "failed": ["Props/Mempool:checks_spec", "Props/Mempool:insert_unfold", "Props/Mempool:C23_violation_rejected", "Props/Mempool:C23_admission_partial", "Props/Mempool:C23_admission_rest", "Props/Mempool:insert_cases", "Props/Mempool:C25_pool_size_partial", "Props/Mempool:C28_pooled_checked_partial", "Props/Consensus:passive_step", "Props/Consensus:passive_effect", "Props/Consensus:C36_roots_partial", "Props/Consensus:C36_replay_partial"], "model_error": []}
{"id": "mp02", "definition": "MemPool.checkTransaction", "edit": "hash not compared", "claim": "C15: admitted transactions carry the hash of their content", "rc": 1, "secs": 235, "failed": ["Props/Mempool:checks_spec"], "model_error": []}
{"id": "mp03", "definition": "MemPool.checkTransaction", "edit": "chain id not compared", "claim": "C15", "rc": 1, "secs": 201, "failed": ["Props/Mempool:checks_spec"], "model_error": []}
{"id": "mp04", "definition": "MemPool.checkTransaction", "edit": "upper bound of the timeout `<` becomes `\u2264`", "claim": "C15", "rc": 1, "secs": 197, "failed": ["Props/Mempool:checks_spec"], "model_error": []}
{"id": "mp05", "definition": "MemPool.checkTransaction", "edit": "lower bound of the timeout dropped", "claim": "C15", "rc": 1, "secs": 210, "failed": ["Props/Mempool:checks_spec"], "model_error": []}
{"id": "mp06", "definition": "MemPool.checkStorageExist", "edit": "a stored transaction is accepted", "claim": "C15/C18: a committed transaction is not admitted again", "rc": 1, "secs": 206, "failed": ["Props/Mempool:checks_spec"], "model_error": []}
{"id": "mp07", "definition": "MemPool.insert", "edit": "signature not checked", "claim": "C15", "rc": 1, "secs": 195, "failed": ["Props/Mempool:insert_unfold"], "model_error": []}
{"id": "mp08", "definition": "MemPool.insert", "edit": "pool limit not checked", "claim": "C23", "rc": 1, "secs": 202, "failed": ["Props/Mempool:insert_unfold"], "model_error": []}
{"id": "mp09", "definition": "MemPool.insert", "edit": "inserted as an already proposed transaction", "claim": "C22", "rc": 1, "secs": 197, "failed": ["Props/Mempool:step_cacheAfter", "Props/Mempool:step_const", "Props/Mempool:insert_unfold"], "model_error": []}
{"id": "mp10", "definition": "MemPool.insert", "edit": "storage check dropped", "claim": "C15", "rc": 1, "secs": 224, "failed": ["Props/Mempool:insert_unfold"], "model_error": []}
{"id": "mp11", "definition": "MemPool.flush", "edit": "callback cache is not cleared", "claim": "C18/C28", "rc": 1, "secs": 191, "failed": ["Props/Mempool2:after_callback"], "model_error": []}
{"id": "mp12", "definition": "MemPool.getFullTxs", "edit": "length not compared", "claim": "C29: all transactions or an error", "rc": 1, "secs": 185, "failed": ["Props/Mempool2:C26_full_txs_exact", "Props/Mempool2:C27_wrong_answer_refuted", "Props/Mempool2:C27_package_between_refuted"], "model_error": []}
{"id": "mp13", "definition": "MemPool.lookup", "edit": "callback not consulted", "claim": "C28: after ensure_order_txs all transactions are found", "rc": 1, "secs": 185, "failed": ["Props/Mempool2:lookup_iff", "Props/Mempool2:example"], "model_error": []}
{"id": "mp14", "definition": "MemPool.ensureOrderTxs", "edit": "count of the answer not compared", "claim": "C28", "rc": 0, "secs": 318, "failed": [], "model_error": []}
{"id": "mp15", "definition": "MemPool.ensureOrderTxs", "edit": "asks for all transactions", "claim": "C28", "rc": 1, "secs": 184, "failed": ["Props/Mempool2:C27_ensured_is_available_partial", "Props/Mempool2:example", "Props/Mempool2:C27_package_between_refuted"], "model_error": []}
{"id": "mp16", "definition": "MemPool.syncProposeTxs", "edit": "inserts as new transactions", "claim": "C22: not proposed again", "rc": 1, "secs": 192, "failed": ["Props/Mempool:step_cacheAfter"], "model_error": []}
{"id": "mp17", "definition": "MemPool.package", "edit": "window ends at the epoch", "claim": "C20", "rc": 1, "secs": 42, "failed": ["Props/Mempool:step_cacheAfter", "Props/Mempool:package_cases", "Spec/DemoNode:example"], "model_error": []}
{"id": "mp18", "definition": "MemPool.insert", "edit": "broadcast also for transactions from the network", "claim": "C27 (gossip): a transaction from a peer is accepted whatever the broadcaster does", "rc": 1, "secs": 167, "failed": ["Props/Mempool:insert_unfold"], "model_error": []}
{"id": "tm01", "definition": "Bucket.insert", "edit": "overwrites a present key", "claim": "C17: first value kept, duplicate reported", "rc": 1, "secs": 161, "failed": ["Proof/TxMap:get_insert", "Proof/TxMap:nodup_insert"], "model_error": []}
{"id": "tm02", "definition": "TxMap.deletes", "edit": "filter inverted", "claim": "C25", "rc": 1, "secs": 162, "failed": ["Proof/TxMap:get_deletes"], "model_error": []}
{"id": "tm03", "definition": "TxMap.remove", "edit": "the whole bucket is removed", "claim": "C25", "rc": 1, "secs": 160, "failed": ["Proof/TxMap:wf_remove", "Proof/TxMap:get_remove"], "model_error": []}
{"id": "tm04", "definition": "TxMap.len", "edit": "first bucket not counted", "claim": "C25", "rc": 1, "secs": 176, "failed": ["Proof/TxMap:length_allKeys"], "model_error": []}
{"id": "tm05", "definition": "TxMap.clear", "edit": "does nothing", "claim": "C25", "rc": 1, "secs": 213, "failed": ["Proof/TxMap:get_clear"], "model_error": []}
{"id": "cc01", "definition": "Sys.stepIns", "edit": "role loaded before the counter is incremented (steps swapped)", "claim": "C24: no admitted transaction is lost", "rc": 1, "secs": 6, "failed": ["Proof/TxCacheConc:Inv.stepIns"], "model_error": []}
{"id": "cc02", "definition": "Sys.stepPk", "edit": "does not wait for the inserters", "claim": "C24", "rc": 1, "secs": 5, "failed": ["Proof/TxCacheConc:Inv.stepPk"], "model_error": []}
{"id": "cc03", "definition": "Sys.stepPk", "edit": "omission drain skipped", "claim": "C24", "rc": 1, "secs": 5, "failed": ["Proof/TxCacheConc:Inv.stepPk"], "model_error": []}
{"id": "cc04", "definition": "Sys.stepPk", "edit": "live transactions pushed back to the incumbent queue", "claim": "C24", "rc": 1, "secs": 5, "failed": ["Proof/TxCacheConc:Inv.stepPk"], "model_error": []}
{"id": "cc05", "definition": "Sys.stepFl", "edit": "delete before mark", "claim": "C18 concurrent: flushed is never packaged later", "rc": 1, "secs": 21, "failed": ["Props/TxCacheConc:C18_flush_race_refuted"], "model_error": []}
{"id": "cc06", "definition": "Sys.stepIns", "edit": "map entry kept after a failed push", "claim": "C24/C17", "rc": 0, "secs": 203, "failed": [], "model_error": []}
{"id": "cc07", "definition": "Sys.stepIns", "edit": "a failed push is reported as success", "claim": "C24", "rc": 1, "secs": 25, "failed": ["Props/TxCacheConc:Origin.step"], "model_error": []}
{"id": "cc08", "definition": "Sys.stepPk", "edit": "removed flag not looked at", "claim": "C18 concurrent", "rc": 1, "secs": 7, "failed": ["Proof/TxCacheConc:Inv.stepPk"], "model_error": []}
{"id": "cc09", "definition": "Sys.stepIns", "edit": "duplicate not reported", "claim": "C17 concurrent: of two inserts of one hash at most one succeeds", "rc": 1, "secs": 6, "failed": ["Proof/TxCacheConc:Inv.stepIns"], "model_error": []}
{"id": "cc10", "definition": "Sys.stepIns", "edit": "limit not compared", "claim": "C23 concurrent bound", "rc": 0, "secs": 181, "failed": [], "model_error": []}
{"id": "bc01", "definition": "Bcast.step", "edit": "batch sent when larger than size", "claim": "C26: a full batch is sent at once", "rc": 1, "secs": 3, "failed": ["Props/Broadcaster:Bcast.Ok.step", "Props/Broadcaster:example"], "model_error": []}
{"id": "bc02", "definition": "Bcast.doBroadcast", "edit": "buffer not emptied", "claim": "C26: each transaction is sent exactly once", "rc": 1, "secs": 3, "failed": ["Props/Broadcaster:Bcast.doBroadcast_all", "Props/Broadcaster:example"], "model_error": []}
{"id": "bc03", "definition": "Bcast.doBroadcast", "edit": "error not reported", "claim": "C26", "rc": 1, "secs": 3, "failed": ["Props/Broadcaster:Bcast.doBroadcast_errs", "Props/Broadcaster:example"], "model_error": []}
{"id": "bc04", "definition": "Bcast.doBroadcast", "edit": "failed batch kept in the buffer", "claim": "C26", "rc": 1, "secs": 3, "failed": ["Props/Broadcaster:Bcast.doBroadcast_all", "Props/Broadcaster:example"], "model_error": []}
{"id": "bc05", "definition": "Bcast.step", "edit": "received transactions prepended", "claim": "C26: order", "rc": 1, "secs": 2, "failed": ["Props/Broadcaster:Bcast.Ok.step", "Props/Broadcaster:Bcast.reported_run", "Props/Broadcaster:example"], "model_error": []}
{"id": "bc06", "definition": "Bcast.doBroadcast", "edit": "empty batches are sent", "claim": "C26: no empty batch", "rc": 1, "secs": 3, "failed": ["Props/Broadcaster:Bcast.doBroadcast_all", "Props/Broadcaster:Bcast.Ok.step"], "model_error": []}
{"id": "bc07", "definition": "Bcast.step", "edit": "a submit under contention drops the error", "claim": "C26", "rc": 1, "secs": 3, "failed": ["Props/Broadcaster:Bcast.reported_run"], "model_error": []}
{"id": "st01", "definition": "Write.puts", "edit": "receipts written to the transaction column", "claim": "C31", "rc": 1, "secs": 14, "failed": ["Props/Storage:Refines.write"], "model_error": []}
{"id": "st02", "definition": "StoreOp.writes", "edit": "latest epoch not written", "claim": "C31/C32", "rc": 1, "secs": 10, "failed": ["Props/Storage:latestStored_crash", "Props/Storage:C32_latest_readable", "Props/Storage:latestComplete_commit", "Props/Storage:C32_contents_partial", "Props/Storage:C32_contents", "Props/Storage:example"], "model_error": []}
{"id": "st03", "definition": "StoreOp.writes", "edit": "latest epoch written first", "claim": "C33: after a crash the latest epoch is stored under its id", "rc": 1, "secs": 11, "failed": ["Props/Storage:latestStored_crash", "Props/Storage:latest_crash", "Props/Storage:latestComplete_commit", "Props/Storage:example"], "model_error": []}
{"id": "st04", "definition": "Backend.rocks", "edit": "receipts share the column of transactions", "claim": "C31", "rc": 1, "secs": 10, "failed": ["Props/Storage:Refines.write", "Props/Storage:C31_rocks_partial", "Props/Storage:C33_batch_exact", "Props/Storage:C32_contents"], "model_error": []}
{"id": "st05", "definition": "Db.getTransactions", "edit": "a missing transaction is an error", "claim": "C31", "rc": 1, "secs": 10, "failed": ["Props/Storage:C33_batch_exact"], "model_error": []}
{"id": "st06", "definition": "Db.getReceipt", "edit": "reads the transaction column", "claim": "C31", "rc": 1, "secs": 10, "failed": ["Props/Storage:C31_rocks_partial", "Props/Storage:C32_contents"], "model_error": []}
{"id": "st07", "definition": "Db.getLatestProof", "edit": "reads the latest epoch key", "claim": "C31", "rc": 1, "secs": 10, "failed": ["Props/Storage:C31_rocks_partial"], "model_error": []}
{"id": "st08", "definition": "StoreOp.writes", "edit": "hash index under the digest of the whole epoch", "claim": "C31: get_epoch_by_hash finds by header digest", "rc": 1, "secs": 66, "failed": ["Props/Storage:hashEpoch_of_ops", "Props/Storage:C34_refuted", "Props/Storage:OpsApart.writes", "Props/Storage:C34_by_header_hash_partial", "Props/Storage:latestStored_crash", "Props/Storage:latestComplete_commit"], "model_error": []}
{"id": "st09", "definition": "Db.put", "edit": "ignores the column", "claim": "C31", "rc": 1, "secs": 9, "failed": ["Props/Storage:foldl_put_other", "Props/Storage:Refines.write"], "model_error": []}
{"id": "st10", "definition": "Write.puts", "edit": "proof written under the epoch key", "claim": "C31", "rc": 1, "secs": 10, "failed": ["Props/Storage:Refines.write", "Props/Storage:hash_key_origin", "Props/Storage:example"], "model_error": []}
