def m(i,d,e,c,*edits): 
    assert i not in muts; muts[i]=dict(d=d,e=e,c=c,edits=list(edits))
TC='Model/TxCache.lean'; MP='Model/Mempool.lean'; TM='Model/TxMap.lean'; CC='Model/TxCacheConc.lean'; BC='Model/Broadcaster.lean'; ST='Model/Storage.lean'; EX='Model/Executor.lean'; SA='Model/StateAdapter.lean'
# tx cache
m('tc01','Wrapper.isTimeout','`w.tx.raw.timeout ≤ current` becomes `<`','C20: a transaction whose timeout equals the latest epoch is not packaged',(TC,'w.tx.raw.timeout ≤ current','w.tx.raw.timeout < current'))
m('tc02','Wrapper.isTimeout','drop the upper bound of the window','C20: a packaged transaction is inside the timeout window',(TC,'w.tx.raw.timeout ≤ current || timeout < w.tx.raw.timeout','w.tx.raw.timeout ≤ current || (timeout != timeout)'))
m('tc03','Pk.take','`limit < sum` becomes `limit ≤ sum`','C21: a package is filled up to the limit inclusive',(TC,'if limit < sum then { pk','if limit ≤ sum then { pk'))
m('tc04','Pk.take','cycles not reset when the stage changes','C21: the proposal section has its own cycle budget',(TC,'stage := pk.stage.next, cycles := w.tx.raw.fee.cycle }','stage := pk.stage.next, cycles := sum }'))
m('tc05','Pk.take','order and propose lists swapped',"C22: order then propose, in arrival order",(TC,'| .orderTxs => { pk1 with order := pk1.order ++ [w.tx.txHash] }\n    | .proposeTxs => { pk1 with propose := pk1.propose ++ [w.tx.txHash] }','| .orderTxs => { pk1 with propose := pk1.propose ++ [w.tx.txHash] }\n    | .proposeTxs => { pk1 with order := pk1.order ++ [w.tx.txHash] }'))
m('tc06','Pk.take','transactions prepended: packaged in reverse order','C22: packaged in arrival order',(TC,'order := pk1.order ++ [w.tx.txHash]','order := w.tx.txHash :: pk1.order'))
m('tc07','Pk.take','already proposed transactions are proposed again','C22: a synchronised proposal is not proposed again',(TC,'if pk.stage = .finished ∨ (pk.stage = .proposeTxs ∧ w.proposed = true) then pk','if pk.stage = .finished then pk'))
m('tc08','TxCache.insert','no removal from the map after a failed push','C17: a rejected transaction leaves the pool as it was',(TC,'else (.error (.insert tx.txHash), { c3 with map := c3.map.remove tx.txHash })','else (.error (.insert tx.txHash), c3)'))
m('tc09','TxCache.insert','pushes to the candidate queue','C16: an admitted transaction is packaged by the next package',(TC,'let p := c2.push c2.isZero id','let p := c2.push (!c2.isZero) id'))
m('tc10','TxCache.insert','count not decremented','C24: a package never waits forever',(TC,'let c3 := { p.2 with count := p.2.count - 1 }','let c3 := p.2'))
m('tc11','TxCache.showUnknown','returns the known hashes','C28: exactly the missing transactions are requested',(TC,'hs.filter (fun h => !c.contain h)','hs.filter (fun h => c.contain h)'))
m('tc12','TxCache.markRemoved','the loop stops at the first unknown hash','C18: flushed transactions are never packaged again',(TC,'| none => c.markRemoved hs\n','| none => c\n'))
m('tc13','TxCache.flush','does not delete from the map','C18: a flushed transaction is no longer in the pool',(TC,'{ c1 with map := c1.map.deletes hs }','c1'))
m('tc14','TxCache.flush','does not mark the wrappers','C18: flushed transactions are never packaged again',(TC,'let c1 := c.markRemoved hs\n  { c1','let c1 := c\n  { c1'))
m('tc15','TxCache.packageLoop','a packaged transaction is not put into the candidate queue','C19: packaging keeps the transactions in the pool',(TC,'(pk.take limit w) inc (cand ++ [id])','(pk.take limit w) inc cand'))
m('tc16','TxCache.packageLoop','the removed flag is not looked at','C18: flushed transactions are never packaged again',(TC,'if w.removed then packageLoop','if false then packageLoop'))
m('tc17','TxCache.packageLoop','expired transactions stay in the queue','C20',(TC,'(pk.expire w) inc cand','(pk.expire w) inc (cand ++ [id])'))
m('tc18','TxCache.package','expired ones are not deleted from the map','C20: expired transactions leave the pool',(TC,'map := c1.map.deletes pk.timeouts','map := c1.map'))
m('tc19','TxCache.package','the roles of the queues are not switched','C19: transactions stay packageable',(TC,'{ c1 with isZero := !z, map','{ c1 with isZero := z, map'))
m('tc20','TxCache.package','also deletes the packaged transactions from the map','C19: packaging does not remove a transaction from the pool',(TC,'c1.map.deletes pk.timeouts','c1.map.deletes (pk.timeouts ++ pk.order)'))
m('tc21','TxCache.omissionLoop','left-over transactions are dropped','C24: no transaction is lost',(TC,'(if inc.length < cap then inc ++ [id] else inc) rest','inc rest'))
m('tc22','TxCache.new','queues hold half as much','capacity of the pool',(TC,'cap := poolSize * 2','cap := poolSize'))
# mempool
m('mp01','MemPool.checkReachLimit','`≤` becomes `<`','C23: never more than pool_size transactions by insertion',(MP,'if p.poolSize ≤ p.cache.len then','if p.poolSize < p.cache.len then'))
m('mp02','MemPool.checkTransaction','hash not compared','C15: admitted transactions carry the hash of their content',(MP,'if cr.rawHash tx.raw ≠ tx.txHash then','if false then'))
m('mp03','MemPool.checkTransaction','chain id not compared','C15',(MP,'if chainId ≠ tx.raw.chainId then','if false then'))
m('mp04','MemPool.checkTransaction','upper bound of the timeout `<` becomes `≤`','C15',(MP,'else if epochId + v.gap < tx.raw.timeout then','else if epochId + v.gap ≤ tx.raw.timeout then'))
m('mp05','MemPool.checkTransaction','lower bound of the timeout dropped','C15',(MP,'else if tx.raw.timeout < epochId then .error (.timeout tx.txHash tx.raw.timeout)\n','\n'))
m('mp06','MemPool.checkStorageExist','a stored transaction is accepted','C15/C18: a committed transaction is not admitted again',(MP,'| .found => .error (.committedTx h)','| .found => .ok ()'))
m('mp07','MemPool.insert','signature not checked','C15',(MP,'    checkSignature cr tx\n    checkTransaction','    checkTransaction'))
m('mp08','MemPool.insert','pool limit not checked','C23',(MP,'    p.checkReachLimit\n    p.checkExist','    p.checkExist'))
m('mp09','MemPool.insert','inserted as an already proposed transaction','C22',(MP,'match p.cache.insert tx false with','match p.cache.insert tx true with'))
m('mp10','MemPool.insert','storage check dropped','C15',(MP,'    checkTransaction cr v tx\n    checkStorageExist v tx.txHash\n','    checkTransaction cr v tx\n'))
m('mp11','MemPool.flush','callback cache is not cleared','C18/C28',(MP,'cache := p.cache.flush hs, callback := p.callback.clear','cache := p.cache.flush hs'))
m('mp12','MemPool.getFullTxs','length not compared','C29: all transactions or an error',(MP,'if full.length ≠ hs.length then .error (.misMatch hs.length full.length) else .ok full','.ok full'))
m('mp13','MemPool.lookup','callback not consulted','C28: after ensure_order_txs all transactions are found',(MP,'| none => p.callback.get h','| none => none'))
m('mp14','MemPool.ensureOrderTxs','count of the answer not compared','C28',(MP,'if txs.length ≠ unknown.length then (.error (.ensureBreak unknown.length txs.length), p)\n      else (.ok ()','if false then (.error (.ensureBreak unknown.length txs.length), p)\n      else (.ok ()'))
m('mp15','MemPool.ensureOrderTxs','asks for all transactions','C28',(MP,'let unknown := p.cache.showUnknown hs\n  if unknown.isEmpty then (.ok (), p)\n  else\n    match v.pull unknown with\n    | none => (.error (.other "pull_txs"), p)\n    | some txs =>\n      if','let unknown := hs\n  if unknown.isEmpty then (.ok (), p)\n  else\n    match v.pull unknown with\n    | none => (.error (.other "pull_txs"), p)\n    | some txs =>\n      if'))
m('mp16','MemPool.syncProposeTxs','inserts as new transactions','C22: not proposed again',(MP,'(c.insert tx true).2','(c.insert tx false).2'))
m('mp17','MemPool.package','window ends at the epoch','C20',(MP,'p.cache.package limit epochId (epochId + p.gap)','p.cache.package limit epochId epochId'))
m('mp18','MemPool.insert','broadcast also for transactions from the network','C27 (gossip): a transaction from a peer is accepted whatever the broadcaster does',(MP,'if netOrigin || v.broadcastOk then','if v.broadcastOk then'))
# map
m('tm01','Bucket.insert','overwrites a present key','C17: first value kept, duplicate reported',(TM,'then (some v, b) else','then (some v, (h, v) :: b) else'))
m('tm02','TxMap.deletes','filter inverted','C25',(TM,'h.index = i))','h.index ≠ i))'))
m('tm03','TxMap.remove','the whole bucket is removed','C25',(TM,'m.setBucket h.index ((m h.index).remove h)','m.setBucket h.index []'))
m('tm04','TxMap.len','first bucket not counted','C25',(TM,'((List.finRange 16).map (fun i => (m i).length)).sum','(((List.finRange 16).drop 1).map (fun i => (m i).length)).sum'))
m('tm05','TxMap.clear','does nothing','C25',(TM,'def clear {V : Type} (_m : TxMap V) : TxMap V := fun _ => []','def clear {V : Type} (_m : TxMap V) : TxMap V := _m'))
# conc
m('cc01','Sys.stepIns','role loaded before the counter is incremented (steps swapped)','C24: no admitted transaction is lost',(CC,'| .inserted id => { s with cache := { s.cache with count := s.cache.count + 1 } }.setIns t (.counted id)\n  | .counted id => s.setIns t (.role id s.cache.isZero)','| .inserted id => s.setIns t (.role id s.cache.isZero)\n  | .counted id => s.setIns t (.role id s.cache.isZero)'))
m('cc02','Sys.stepPk','does not wait for the inserters','C24',(CC,'| .wait a z pk => if s.cache.count = 0 then { s with pk := .drain a z pk } else s','| .wait a z pk => { s with pk := .drain a z pk }'))
m('cc03','Sys.stepPk','omission drain skipped','C24',(CC,'| .wait a z pk => if s.cache.count = 0 then { s with pk := .drain a z pk } else s','| .wait a z pk => if s.cache.count = 0 then { s with pk := .delete a pk } else s'))
m('cc04','Sys.stepPk','live transactions pushed back to the incumbent queue','C24',(CC,'if (s.cache.push (!z) id).1 then\n      { s with cache := (s.cache.push (!z) id).2','if (s.cache.push z id).1 then\n      { s with cache := (s.cache.push z id).2'))
m('cc05','Sys.stepFl','delete before mark','C18 concurrent: flushed is never packaged later',(CC,'| .idle => s.setFl t (.mark hs hs)','| .idle => s.setFl t (.delete hs)'))
m('cc06','Sys.stepIns','map entry kept after a failed push','C24/C17',(CC,'else { s with cache := { s.cache with map := s.cache.map.remove h } }.setIns t (.done id (.error (.insert h)))','else s.setIns t (.done id (.error (.insert h)))'))
m('cc07','Sys.stepIns','a failed push is reported as success','C24',(CC,'.setIns t (.done id (.error (.insert h)))','.setIns t (.done id (.ok ()))'))
m('cc08','Sys.stepPk','removed flag not looked at','C18 concurrent',(CC,'if w.removed then { s with pk := .loop a z pk }\n    else if','if'))
m('cc09','Sys.stepIns','duplicate not reported','C17 concurrent: of two inserts of one hash at most one succeeds',(CC,'| some _ => s.setIns t (.done id (.error (.dup h)))','| some _ => s.setIns t (.inserted id)'))
m('cc10','Sys.stepIns','limit not compared','C23 concurrent bound',(CC,'if s.poolSize ≤ s.cache.len then s.setIns','if false then s.setIns'))
# broadcaster
m('bc01','Bcast.step','batch sent when larger than size','C26: a full batch is sent at once',(BC,'if b1.buf.length = b1.size then','if b1.size < b1.buf.length then'))
m('bc02','Bcast.doBroadcast','buffer not emptied','C26: each transaction is sent exactly once',(BC,'{ b with buf := [], sent :=','{ b with sent :='))
m('bc03','Bcast.doBroadcast','error not reported','C26',(BC,'errs := if ok then b.errs else b.errs ++ [b.buf] }','errs := b.errs }'))
m('bc04','Bcast.doBroadcast','failed batch kept in the buffer','C26',(BC,'{ b with buf := [], sent :=','{ b with buf := (if ok then [] else b.buf), sent :='))
m('bc05','Bcast.step','received transactions prepended','C26: order',(BC,'buf := b.buf ++ [tx] }','buf := tx :: b.buf }'))
m('bc06','Bcast.doBroadcast','empty batches are sent','C26: no empty batch',(BC,'if b.buf.isEmpty then b\n  else','if false then b\n  else'))
m('bc07','Bcast.step','a submit under contention drops the error','C26',(BC,'errs := if locked then b.errs else b.errs.drop 1','errs := b.errs.drop 1'))
# storage
m('st01','Write.puts','receipts written to the transaction column','C31',(ST,'(.receipt, pbEncode r.txHash, pbEncode r)','(.signedTx, pbEncode r.txHash, pbEncode r)'))
m('st02','StoreOp.writes','latest epoch not written','C31/C32',(ST,'⟨e.header.epochId⟩, .latestEpoch e]','⟨e.header.epochId⟩]'))
m('st03','StoreOp.writes','latest epoch written first','C33: after a crash the latest epoch is stored under its id',(ST,'[.epoch ⟨e.header.epochId⟩ e, .hashEpoch (digest (pbEncode e.header)) ⟨e.header.epochId⟩, .latestEpoch e]','[.latestEpoch e, .epoch ⟨e.header.epochId⟩ e, .hashEpoch (digest (pbEncode e.header)) ⟨e.header.epochId⟩]'))
m('st04','Backend.rocks','receipts share the column of transactions','C31',(ST,'| .receipt => 3','| .receipt => 2'))
m('st05','Db.getTransactions','a missing transaction is an error','C31',(ST,'let opts ← hs.mapM (fun h => db.get be .signedTx (pbEncode h))\n  pure (opts.filterMap id)','let opts ← hs.mapM (fun h => db.get be .signedTx (pbEncode h) >>= checkNone)\n  pure opts'))
m('st06','Db.getReceipt','reads the transaction column','C31',(ST,'db.get be .receipt (pbEncode h) >>= checkNone','db.get be .signedTx (pbEncode h) >>= checkNone'))
m('st07','Db.getLatestProof','reads the latest epoch key','C31',(ST,'db.get be .epoch (pbEncode lk.proof) >>= checkNone','db.get be .epoch (pbEncode lk.epoch) >>= checkNone'))
m('st08','StoreOp.writes','hash index under the digest of the whole epoch','C31: get_epoch_by_hash finds by header digest',(ST,'.hashEpoch (digest (pbEncode e.header))','.hashEpoch (digest (pbEncode e))'))
m('st09','Db.put','ignores the column','C31',(ST,'if c = col ∧ k = key then','if k = key then'))
m('st10','Write.puts','proof written under the epoch key','C31',(ST,'(.epoch, pbEncode lk.proof, pbEncode p)','(.epoch, pbEncode lk.epoch, pbEncode p)'))
