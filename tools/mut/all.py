def m(i,d,e,c,*edits): 
    assert i not in muts; muts[i]=dict(d=d,e=e,c=c,edits=list(edits))
TC='Model/TxCache.lean'; MP='Model/Mempool.lean'; TM='Model/TxMap.lean'; CC='Model/TxCacheConc.lean'; BC='Model/Broadcaster.lean'; ST='Model/Storage.lean'; EX='Model/Executor.lean'; SA='Model/StateAdapter.lean'
# tx cache
m('tc01','Wrapper.isTimeout','`w.tx.raw.timeout ≤ current` becomes `<`','C20: a transaction whose timeout equals the latest epoch is not packaged',(TC,'w.tx.raw.timeout ≤ current','w.tx.raw.timeout < current'))
m('tc02','Wrapper.isTimeout','drop the upper bound of the window','C20: a packaged transaction is inside the timeout window',(TC,'w.tx.raw.timeout ≤ current || timeout < w.tx.raw.timeout','w.tx.raw.timeout ≤ current || (timeout != timeout)'))
m('tc03','Pk.take','`limit < sum` becomes `limit ≤ sum`','C21: a package is filled up to the limit inclusive',(TC,'if limit < sum then { pk','if limit ≤ sum then { pk'))
m('tc04','Pk.take','cycles not reset when the stage changes','C21: the proposal section has its own cycle budget',(TC,'stage := pk.stage.next, cycles := w.tx.raw.fee.cycle }','stage := pk.stage.next, cycles := sum }'))
m('tc05','Pk.take','order and propose lists swapped',"C22: order then propose, in arrival order",(TC,'| .orderTxs => { pk1 with order := pk1.order ++ [w.tx.txHash] }\n    | .proposeTxs => { pk1 with propose := pk1.propose ++ [w.tx.txHash] }','| .orderTxs => { pk1 with propose := pk1.propose ++ [w.tx.txHash] }\n    | .proposeTxs => { pk1 with order := pk1.order ++ [w.tx.txHash] }'))
m('tc06','Pk.take','transactions prepended: packaged in reverse order','C22: packaged in arrival order',(TC,'order := pk1.order ++ [w.tx.txHash]','order := w.tx.txHash :: pk1.order'))
m('tc07','Pk.take','already proposed transactions are proposed again','C22: a synchronised proposal is not proposed again',(TC,'if pk.stage = .finished ∨ (pk.stage = .proposeTxs ∧ w.proposed = true) then pk','if pk.stage = .finished then pk'))
m('tc08','TxCache.insert','no removal from the map after a failed push','C17: a rejected transaction leaves the pool as it was',(TC,'else (.error (.insert tx.txHash), { c3 with map := c3.map.remove tx.txHash })','else (.error (.insert tx.txHash), c3)'))
m('tc09','TxCache.insert','pushes to the candidate queue','C16: an admitted transaction is packaged by the next package',(TC,'let p := c2.push c2.isZero id','let p := c2.push (!c2.isZero) id'))
m('tc10','TxCache.insert','count not decremented','C24: a package never waits forever',(TC,'let c3 := { p.2 with count := p.2.count - 1 }','let c3 := p.2'))
m('tc11','TxCache.showUnknown','returns the known hashes','C28: exactly the missing transactions are requested',(TC,'hs.filter (fun h => !c.contain h)','hs.filter (fun h => c.contain h)'))
m('tc12','TxCache.markRemoved','the loop stops at the first unknown hash','C18: flushed transactions are never packaged again',(TC,'| none => c.markRemoved hs\n','| none => c\n'))
m('tc13','TxCache.flush','does not delete from the map','C18: a flushed transaction is no longer in the pool',(TC,'{ c1 with map := c1.map.deletes hs }','c1'))
m('tc14','TxCache.flush','does not mark the wrappers','C18: flushed transactions are never packaged again',(TC,'let c1 := c.markRemoved hs\n  { c1','let c1 := c\n  { c1'))
m('tc15','TxCache.packageLoop','a packaged transaction is not put into the candidate queue','C19: packaging keeps the transactions in the pool',(TC,'(pk.take limit w) inc (cand ++ [id])','(pk.take limit w) inc cand'))
m('tc16','TxCache.packageLoop','the removed flag is not looked at','C18: flushed transactions are never packaged again',(TC,'if w.removed then packageLoop','if false then packageLoop'))
m('tc17','TxCache.packageLoop','expired transactions stay in the queue','C20',(TC,'(pk.expire w) inc cand','(pk.expire w) inc (cand ++ [id])'))
m('tc18','TxCache.package','expired ones are not deleted from the map','C20: expired transactions leave the pool',(TC,'map := c1.map.deletes pk.timeouts','map := c1.map'))
m('tc19','TxCache.package','the roles of the queues are not switched','C19: transactions stay packageable',(TC,'{ c1 with isZero := !z, map','{ c1 with isZero := z, map'))
m('tc20','TxCache.package','also deletes the packaged transactions from the map','C19: packaging does not remove a transaction from the pool',(TC,'c1.map.deletes pk.timeouts','c1.map.deletes (pk.timeouts ++ pk.order)'))
m('tc21','TxCache.omissionLoop','left-over transactions are dropped','C24: no transaction is lost',(TC,'(if inc.length < cap then inc ++ [id] else inc) rest','inc rest'))
m('tc22','TxCache.new','queues hold half as much','capacity of the pool',(TC,'cap := poolSize * 2','cap := poolSize'))
# mempool
m('mp01','MemPool.checkReachLimit','`≤` becomes `<`','C23: never more than pool_size transactions by insertion',(MP,'if p.poolSize ≤ p.cache.len then','if p.poolSize < p.cache.len then'))
m('mp02','MemPool.checkTransaction','hash not compared','C15: admitted transactions carry the hash of their content',(MP,'if cr.rawHash tx.raw ≠ tx.txHash then','if false then'))
m('mp03','MemPool.checkTransaction','chain id not compared','C15',(MP,'if chainId ≠ tx.raw.chainId then','if false then'))
m('mp04','MemPool.checkTransaction','upper bound of the timeout `<` becomes `≤`','C15',(MP,'else if epochId + v.gap < tx.raw.timeout then','else if epochId + v.gap ≤ tx.raw.timeout then'))
m('mp05','MemPool.checkTransaction','lower bound of the timeout dropped','C15',(MP,'else if tx.raw.timeout < epochId then .error (.timeout tx.txHash tx.raw.timeout)\n','\n'))
m('mp06','MemPool.checkStorageExist','a stored transaction is accepted','C15/C18: a committed transaction is not admitted again',(MP,'| .found => .error (.committedTx h)','| .found => .ok ()'))
m('mp07','MemPool.insert','signature not checked','C15',(MP,'    checkSignature cr tx\n    checkTransaction','    checkTransaction'))
m('mp08','MemPool.insert','pool limit not checked','C23',(MP,'    p.checkReachLimit\n    p.checkExist','    p.checkExist'))
m('mp09','MemPool.insert','inserted as an already proposed transaction','C22',(MP,'match p.cache.insert tx false with','match p.cache.insert tx true with'))
m('mp10','MemPool.insert','storage check dropped','C15',(MP,'    checkTransaction cr v tx\n    checkStorageExist v tx.txHash\n','    checkTransaction cr v tx\n'))
m('mp11','MemPool.flush','callback cache is not cleared','C18/C28',(MP,'cache := p.cache.flush hs, callback := p.callback.clear','cache := p.cache.flush hs'))
m('mp12','MemPool.getFullTxs','length not compared','C29: all transactions or an error',(MP,'if full.length ≠ hs.length then .error (.misMatch hs.length full.length) else .ok full','.ok full'))
m('mp13','MemPool.lookup','callback not consulted','C28: after ensure_order_txs all transactions are found',(MP,'| none => p.callback.get h','| none => none'))
m('mp14','MemPool.ensureOrderTxs','count of the answer not compared','C28',(MP,'if txs.length ≠ unknown.length then (.error (.ensureBreak unknown.length txs.length), p)\n      else (.ok ()','if false then (.error (.ensureBreak unknown.length txs.length), p)\n      else (.ok ()'))
m('mp15','MemPool.ensureOrderTxs','asks for all transactions','C28',(MP,'let unknown := p.cache.showUnknown hs\n  if unknown.isEmpty then (.ok (), p)\n  else\n    match v.pull unknown with\n    | none => (.error (.other "pull_txs"), p)\n    | some txs =>\n      if','let unknown := hs\n  if unknown.isEmpty then (.ok (), p)\n  else\n    match v.pull unknown with\n    | none => (.error (.other "pull_txs"), p)\n    | some txs =>\n      if'))
m('mp16','MemPool.syncProposeTxs','inserts as new transactions','C22: not proposed again',(MP,'(c.insert tx true).2','(c.insert tx false).2'))
m('mp17','MemPool.package','window ends at the epoch','C20',(MP,'p.cache.package limit epochId (epochId + p.gap)','p.cache.package limit epochId epochId'))
m('mp18','MemPool.insert','broadcast also for transactions from the network','C27 (gossip): a transaction from a peer is accepted whatever the broadcaster does',(MP,'if netOrigin || v.broadcastOk then','if v.broadcastOk then'))
# map
m('tm01','Bucket.insert','overwrites a present key','C17: first value kept, duplicate reported',(TM,'then (some v, b) else','then (some v, (h, v) :: b) else'))
m('tm02','TxMap.deletes','filter inverted','C25',(TM,'h.index = i))','h.index ≠ i))'))
m('tm03','TxMap.remove','the whole bucket is removed','C25',(TM,'m.setBucket h.index ((m h.index).remove h)','m.setBucket h.index []'))
m('tm04','TxMap.len','first bucket not counted','C25',(TM,'((List.finRange 16).map (fun i => (m i).length)).sum','(((List.finRange 16).drop 1).map (fun i => (m i).length)).sum'))
m('tm05','TxMap.clear','does nothing','C25',(TM,'def clear {V : Type} (_m : TxMap V) : TxMap V := fun _ => []','def clear {V : Type} (_m : TxMap V) : TxMap V := _m'))
# conc
m('cc01','Sys.stepIns','role loaded before the counter is incremented (steps swapped)','C24: no admitted transaction is lost',(CC,'| .inserted id => { s with cache := { s.cache with count := s.cache.count + 1 } }.setIns t (.counted id)\n  | .counted id => s.setIns t (.role id s.cache.isZero)','| .inserted id => s.setIns t (.role id s.cache.isZero)\n  | .counted id => s.setIns t (.role id s.cache.isZero)'))
m('cc02','Sys.stepPk','does not wait for the inserters','C24',(CC,'| .wait a z pk => if s.cache.count = 0 then { s with pk := .drain a z pk } else s','| .wait a z pk => { s with pk := .drain a z pk }'))
m('cc03','Sys.stepPk','omission drain skipped','C24',(CC,'| .wait a z pk => if s.cache.count = 0 then { s with pk := .drain a z pk } else s','| .wait a z pk => if s.cache.count = 0 then { s with pk := .delete a pk } else s'))
m('cc04','Sys.stepPk','live transactions pushed back to the incumbent queue','C24',(CC,'if (s.cache.push (!z) id).1 then\n      { s with cache := (s.cache.push (!z) id).2','if (s.cache.push z id).1 then\n      { s with cache := (s.cache.push z id).2'))
m('cc05','Sys.stepFl','delete before mark','C18 concurrent: flushed is never packaged later',(CC,'| .idle => s.setFl t (.mark hs hs)','| .idle => s.setFl t (.delete hs)'))
m('cc06','Sys.stepIns','map entry kept after a failed push','C24/C17',(CC,'else { s with cache := { s.cache with map := s.cache.map.remove h } }.setIns t (.done id (.error (.insert h)))','else s.setIns t (.done id (.error (.insert h)))'))
m('cc07','Sys.stepIns','a failed push is reported as success','C24',(CC,'.setIns t (.done id (.error (.insert h)))','.setIns t (.done id (.ok ()))'))
m('cc08','Sys.stepPk','removed flag not looked at','C18 concurrent',(CC,'if w.removed then { s with pk := .loop a z pk }\n    else if','if'))
m('cc09','Sys.stepIns','duplicate not reported','C17 concurrent: of two inserts of one hash at most one succeeds',(CC,'| some _ => s.setIns t (.done id (.error (.dup h)))','| some _ => s.setIns t (.inserted id)'))
m('cc10','Sys.stepIns','limit not compared','C23 concurrent bound',(CC,'if s.poolSize ≤ s.cache.len then s.setIns','if false then s.setIns'))
# broadcaster
m('bc01','Bcast.step','batch sent when larger than size','C26: a full batch is sent at once',(BC,'if b1.buf.length = b1.size then','if b1.size < b1.buf.length then'))
m('bc02','Bcast.doBroadcast','buffer not emptied','C26: each transaction is sent exactly once',(BC,'{ b with buf := [], sent :=','{ b with sent :='))
m('bc03','Bcast.doBroadcast','error not reported','C26',(BC,'errs := if ok then b.errs else b.errs ++ [b.buf] }','errs := b.errs }'))
m('bc04','Bcast.doBroadcast','failed batch kept in the buffer','C26',(BC,'{ b with buf := [], sent :=','{ b with buf := (if ok then [] else b.buf), sent :='))
m('bc05','Bcast.step','received transactions prepended','C26: order',(BC,'buf := b.buf ++ [tx] }','buf := tx :: b.buf }'))
m('bc06','Bcast.doBroadcast','empty batches are sent','C26: no empty batch',(BC,'if b.buf.isEmpty then b\n  else','if false then b\n  else'))
m('bc07','Bcast.step','a submit under contention drops the error','C26',(BC,'errs := if locked then b.errs else b.errs.drop 1','errs := b.errs.drop 1'))
# storage
m('st01','Write.puts','receipts written to the transaction column','C31',(ST,'(.receipt, pbEncode r.txHash, pbEncode r)','(.signedTx, pbEncode r.txHash, pbEncode r)'))
m('st02','StoreOp.writes','latest epoch not written','C31/C32',(ST,'⟨e.header.epochId⟩, .latestEpoch e]','⟨e.header.epochId⟩]'))
m('st03','StoreOp.writes','latest epoch written first','C33: after a crash the latest epoch is stored under its id',(ST,'[.epoch ⟨e.header.epochId⟩ e, .hashEpoch (digest (pbEncode e.header)) ⟨e.header.epochId⟩, .latestEpoch e]','[.latestEpoch e, .epoch ⟨e.header.epochId⟩ e, .hashEpoch (digest (pbEncode e.header)) ⟨e.header.epochId⟩]'))
m('st04','Backend.rocks','receipts share the column of transactions','C31',(ST,'| .receipt => 3','| .receipt => 2'))
m('st05','Db.getTransactions','a missing transaction is an error','C31',(ST,'let opts ← hs.mapM (fun h => db.get be .signedTx (pbEncode h))\n  pure (opts.filterMap id)','let opts ← hs.mapM (fun h => db.get be .signedTx (pbEncode h) >>= checkNone)\n  pure opts'))
m('st06','Db.getReceipt','reads the transaction column','C31',(ST,'db.get be .receipt (pbEncode h) >>= checkNone','db.get be .signedTx (pbEncode h) >>= checkNone'))
m('st07','Db.getLatestProof','reads the latest epoch key','C31',(ST,'db.get be .epoch (pbEncode lk.proof) >>= checkNone','db.get be .epoch (pbEncode lk.epoch) >>= checkNone'))
m('st08','StoreOp.writes','hash index under the digest of the whole epoch','C31: get_epoch_by_hash finds by header digest',(ST,'.hashEpoch (digest (pbEncode e.header))','.hashEpoch (digest (pbEncode e))'))
m('st09','Db.put','ignores the column','C31',(ST,'if c = col ∧ k = key then','if k = key then'))
m('st10','Write.puts','proof written under the epoch key','C31',(ST,'(.epoch, pbEncode lk.proof, pbEncode p)','(.epoch, pbEncode lk.epoch, pbEncode p)'))
def m(i,d,e,c,*edits): 
    assert i not in muts; muts[i]=dict(d=d,e=e,c=c,edits=list(edits))
EX='Model/Executor.lean'; SA='Model/StateAdapter.lean'; CO='Model/Consensus.lean'; CL='Model/ConsensusLock.lean'; OC='Model/OverlordCrypto.lean'; ME='Model/Merkle.lean'
RL='Model/Rlp.lean'; FC='Model/FixedCodec.lean'; PB='Model/Protobuf.lean'; HX='Model/Hex.lean'; AP='Model/Api.lean'; MS='Model/Messages.lean'
EP='Model/Endpoint.lean'; RP='Model/Rpc.lean'; SV='Model/Server.lean'; PE='Model/PeerManager.lean'; CN='Model/Connection.lean'; TY='Model/Types.lean'
# network first: leaf modules
m('ep01','maxEndpointLength','120 becomes 121','C66: urls longer than 120 bytes are rejected',(EP,'def maxEndpointLength : Nat := 120','def maxEndpointLength : Nat := 121'))
m('ep02','Endpoint.parse','four components no longer allowed','C66',(EP,'∨ 4 < (urlComps s).length then','∨ 3 < (urlComps s).length then'))
m('ep03','Endpoint.root','root made of two components','C66: endpoints differing in the third component are different',(EP,"| a :: b :: c :: _ => some ('/' :: a ++ '/' :: b ++ '/' :: c)","| a :: b :: _ :: _ => some ('/' :: a ++ '/' :: b)"))
m('ep04','Endpoint.parse','scheme not checked','C66',(EP,'else if !gossipScheme.isPrefixOf s && !rpcCallScheme.isPrefixOf s && !rpcRespScheme.isPrefixOf s then','else if false then'))
m('ep05','readDec','overflow not detected','C66: an id is read exactly or rejected',(EP,'| some d => if acc * 10 + d < 2 ^ 64 then readDec (acc * 10 + d) cs else none','| some d => readDec (acc * 10 + d) cs'))
m('ep06','showNat','digits reversed','C66: rpc id round trip',(EP,'else showNat (n / 10) ++ [decDigit (n % 10)]','else decDigit (n % 10) :: showNat (n / 10)'))
m('ep07','Reactors.register','an earlier registration of the endpoint is kept first','C67: last registration wins',(EP,'(e, r) :: m.filter (fun x => x.1.root != e.root)','m ++ [(e, r)]'))
m('ep08','strLen','counts characters instead of bytes','C66',(EP,'(s.map Char.utf8Size).sum','s.length'))
m('rp01','RpcState.take','entry not removed','C53: at most one response per call',(RP,'let s1 := s.setMap t.key none\n','let s1 := s\n'))
m('rp02','RpcState.take','type not compared','C53: a response of another type is not delivered',(RP,'if b.ty = t.ty then s1.setChan b.call (some t.msg) else s1.setChan b.call none','s1.setChan b.call (some t.msg)'))
m('rp03','RpcState.step','ids not incremented','C53: two calls never share an id',(RP,'with next := s.next + 1 }','with next := s.next }'))
m('rp04','RpcCall.key','session ignored in the key','C53: only the called session can answer',(RP,'⟨c.sid, c.rid⟩','⟨0, c.rid⟩'))
m('rp05','RpcState.insert','the overwritten sender is not dropped','C53/C54',(RP,'| some old => s.setChan old.call none\n','| some _ => s\n'))
m('rp06','RpcCfg.response','any scheme is taken for a response','C53',(RP,'if e.scheme = some .rpcResp then','if true then'))
m('rp07','RpcState.step','a failed send leaves the call waiting','C54: a call whose message cannot be sent returns an error',(RP,'phase := if ok then .sent else .finished (.error .send)','phase := .sent'))
m('rp08','RpcState.take','delivered to the wrong call','C53',(RP,'s1.setChan b.call (some t.msg) else','s1.setChan t.key.sid (some t.msg) else'))
m('sv01','respond','rpc id not appended','C30: the answer reaches the call it belongs to',(SV,'match e.extend (showNat r.toNat) with','match e.extend (showNat 0) with'))
m('sv02','rpcHandler','answers with the latest epoch','C30: the epoch asked for is returned',(SV,'match n.store.epochs id with','match n.store.latest with'))
m('sv03','rpcHandler','missing transactions are skipped','C30: all transactions or no answer',(SV,'match hs.mapM n.store.txs with','match some (hs.filterMap n.store.txs) with'))
m('sv04','mainReactors','sync requests registered for the push handler','C30',(SV,'⟨rpcSyncPull⟩ .rpc)','⟨rpcSyncPull⟩ .newTxs)'))
m('sv05','RpcRequest.enc','case numbers swapped in the encoder','C30',(SV,'| .pullEpochs id => [0, 0, 0, 0] ++','| .pullEpochs id => [1, 0, 0, 0] ++'))
m('sv06','newTxsHandler','transactions inserted without the network-origin flag','a received transaction is not broadcast again',(SV,'(n.view cfg (fun _ => none) true) true tx).2) n.pool }','(n.view cfg (fun _ => none) true) false tx).2) n.pool }'))
m('sv07','mainReactors','pull_txs registered for its own handler (the intended program)','C30_refuted: the code registers the wrong handler',(SV,'⟨endPullTxs⟩ .newTxs)','⟨endPullTxs⟩ .pullTxs)'))
m('sv08','Node.serve','an update message is ignored','C67: messages reach their handler',(SV,'| some (msg, _) => ([], (n.updateEpoch cfg io msg).2)','| some (_, _) => ([], n)'))
m('sv09','pullTxsHandler','answers to another session','C30',(SV,'respond sid rid endRespPullTxs (encMulti txs)','respond (sid + 1) rid endRespPullTxs (encMulti txs)'))
m('cn01','ConnSvc.single','a busy command is dropped','C60: a command is not lost while the transport is open',(CN,'| _ => { s with calls := s.calls + 1, pending := s.pending ++ [cmd] }','| _ => { s with calls := s.calls + 1 }'))
m('cn02','ConnSvc.receive','keeps receiving although something is pending','C60: commands are not reordered',(CN,'if s.pending.isEmpty then (s.process ans c).receive ans cs else { s with inbox := c :: cs }','(s.process ans c).receive ans cs'))
m('cn03','ConnSvc.dials','a busy address is forgotten','C60',(CN,'(s\', r.map (a :: ·))','(s\', r)'))
m('cn04','ConnSvc.poll','pending commands are not retried','C60',(CN,'let s1 := s.pending.foldl (fun s c => s.process ans c) { s with pending := [] }','let s1 := s'))
m('cn05','ConnSvc.poll','pending commands are kept and retried: executed twice','C60: a command is executed once',(CN,'s.pending.foldl (fun s c => s.process ans c) { s with pending := [] }','s.pending.foldl (fun s c => s.process ans c) s'))
m('cn06','usersSend','missed users not reported','C55',(CN,'if missed.isEmpty then .ok () else .error missed','.ok ()'))
m('cn07','ConnSvc.process','left-over addresses: all addresses retried','C60: an accepted address is dialled once',(CN,"pending := s'.pending ++ [.connect left] }","pending := s'.pending ++ [.connect addrs] }"))
m('cn08','DialError.event','a time-out is reported as unconnectable','C68: a peer is not forgotten because of a time-out',(CN,'| .timedOut => .reconnectLater a','| .timedOut => .unconnectable a'))
m('pe01','PM.attach','sessionPeer not updated','C57: the two session tables agree',(PE,'sessionPeer := upd s2.sessionPeer sid (some (cfg.pidOf key)) }','sessionPeer := s2.sessionPeer }'))
m('pe02','PM.closeSession','session of the peer not removed','C57',(PE,'{ s1 with peerSession := upd s1.peerSession pid none, sessionPeer := upd s1.sessionPeer sid none }','{ s1 with sessionPeer := upd s1.sessionPeer sid none }'))
m('pe03','PM.cleanlyRemove','bootstrap peers are removed too','C58: bootstrap peers are never forgotten',(PE,'if isBootstrap cfg pid then s1.modify pid (fun p => (p.resetRetry.increaseRetry now).increaseRetry now)\n  else s1.removePeer pid','s1.removePeer pid'))
m('pe04','PM.unconnectable','bootstrap addresses are removed','C58',(PE,'if a ∈ s1.bootAddrs then s1 else s1.tryRemoveAddr a','s1.tryRemoveAddr a'))
m('pe05','PM.connectPeer','a connected peer is also marked connecting','C56: connected and connecting are disjoint',(PE,'if pid ∈ s.connected then s else { s with connecting','if false then s else { s with connecting'))
m('pe06','PM.setConnected','stays in connecting','C56',(PE,'connecting := setRemove s.connecting pid\n    connected := setInsert s.connected pid }','connected := setInsert s.connected pid }'))
m('pe07','PM.routeUsers','users without a peer are not reported','C55: every user is reached or reported',(PE,'| none => (sids, peers, u :: nobody)','| none => (sids, peers, nobody)'))
m('pe08','PM.route','only users without a session are reported','C55',(PE,'peers.map Peer.user ++ nobody)','peers.map Peer.user)'))
m('pe09','PM.qualified','a connecting peer is dialled again','C59: no peer is dialled twice at a time',(PE,'!decide (pid ∈ s.connected) && !decide (pid ∈ s.connecting) && p.retryReady now','!decide (pid ∈ s.connected) && p.retryReady now'))
m('pe10','PM.routine','limit not looked at','C59: dialling stops at the maximum',(PE,'if n < cfg.maxConnections then','if true then'))
m('pe11','PM.disconnectPeer','stays connected','C56',(PE,'connecting := setRemove s.connecting pid\n    connected := setRemove s.connected pid }\n\n/-- `connection_count`','connecting := setRemove s.connecting pid }\n\n/-- `connection_count`'))
m('pe12','PM.removePeer','addresses of the peer stay mapped','C57: every mapped address belongs to a known peer',(PE,'addrPid := fun a => if a ∈ p.addrs then none else s.addrPid a }','addrPid := s.addrPid }'))
m('pe13','PM.removePeer','user mapping stays','C57',(PE,'userPid := upd s.userPid p.user none\n','userPid := s.userPid\n'))
m('pe14','PM.reachMaxRetry','one retry too early','C68: forgotten only after 6 retries',(PE,'| some p => decide (maxRetryCount ≤ p.retry)','| some p => decide (maxRetryCount ≤ p.retry + 1)'))
m('pe15','Peer.increaseRetry','counts attempts within the interval','C68',(PE,'if secsBetween now.secs p.attemptAt < validAttemptInterval then p\n  else','if false then p\n  else'))
m('pe16','Peer.increaseRetry','no backoff','C59: a failed peer is not dialled before its backoff',(PE,'nextRetry := now.tick + backoffBase ^ (p.retry + 1)','nextRetry := now.tick'))
m('pe17','PM.detach','a short session is not counted','C68',(PE,'if p.alive < aliveRetryInterval then s1.increasePeerRetry cfg now pid else s1','s1'))
m('pe18','PM.route','message sent to nobody','C55',(PE,'([.send sids msg, .connect','([.send [] msg, .connect'))
m('pe19','PM.matchPid','peer id of the address not compared','C57/C59: an address with another peer id does not count for the peer',(PE,'| .p2p q :: _ => if pid = q then some pid else none','| .p2p _ :: _ => some pid'))
m('pe20','PM.identifyAddr','address of an unconnected known peer added to the unknown ones','C59',(PE,'| some pid => if pid ∈ s.connected then s.addPeerAddr pid a else s\n  | none =>','| some pid => if pid ∈ s.connected then s.addPeerAddr pid a else { s with unknown := upd s.unknown a (some ⟨false, 0⟩) }\n  | none =>'))
m('pe21','PM.addSessionAddr','the address stays unknown','C59',(PE,'let s1 := { s with unknown := upd s.unknown a none }\n  match s1.sessionPeer sid with','let s1 := s\n  match s1.sessionPeer sid with'))
m('pe22','PM.step retryLater','session not closed','C56',(PE,'| some sid => (s1, [.disconnect sid])','| some _ => (s1, [])'))
m('pe23','PM.new','we are not in the connected set','C59/C56: the own id counts as connected',(PE,'connected := [cfg.ourId]','connected := []'))
# crypto etc
m('oc01','OverlordCrypto.verifySignature','signature and hash swapped','C44/C45',(OC,'if c.verify hash tmp pubkey then','if c.verify tmp hash pubkey then'))
m('oc02','OverlordCrypto.verifySignature','32 bytes of public key','C44',(OC,'let pubkey := signature.take 33','let pubkey := signature.take 32'))
m('oc03','OverlordCrypto.sign','public key after the signature','C44: what is signed verifies',(OC,'some (c.pubkey ++ s)','some (s ++ c.pubkey)'))
m('oc04','OverlordCrypto.verifySignature','bound < 33 becomes < 32','C44: short signatures abort exactly below 33 bytes',(OC,'if signature.length < 33 then','if signature.length < 32 then'))
m('me01','merkleMerge','arguments swapped','C46: the root of two leaves is digest(left ++ right)',(ME,'digest (l.bytes ++ r.bytes)','digest (r.bytes ++ l.bytes)'))
m('me02','merkleMerge','right child ignored','C46: changing a leaf changes the root',(ME,'digest (l.bytes ++ r.bytes)','digest (l.bytes ++ l.bytes)'))
m('me03','merkleRoot','empty input has a root','C46',(ME,'if hs = [] then none else some','if false then none else some'))
# api, messages, hex
m('ap01','fromStrRadix16','overflow wraps','C47',(AP,'| some n => if n < 2 ^ 64 then some (UInt64.ofNat n) else none','| some n => some (UInt64.ofNat n)'))
m('ap02','coverRaw','nonce and chain id swapped','C48',(AP,'pure { chainId, nonce, timeout, fee := { assetId, cycle }, action }','pure { chainId := nonce, nonce := chainId, timeout, fee := { assetId, cycle }, action }'))
m('ap03','coverRaw','timeout and cycle swapped','C48',(AP,'let timeout ← readU64 i.timeout','let timeout ← readU64 i.feeCycle'))
m('ap04','coverSigned','signature and public key swapped','C48',(AP,'let pubkey ← readBytes e.pubkey\n  let signature ← readBytes e.signature','let signature ← readBytes e.pubkey\n  let pubkey ← readBytes e.signature'))
m('ap05','coverTransfer','fee asset carried','C48',(AP,'let amount ← readBalance i.carryingAmount','let amount ← readBalance i.receiver'))
m('ap06','showU64','little endian','C47',(AP,'hexEncode (u64BE n)','hexEncode (u64BE n).reverse'))
m('ap07','stripPlus','+ not accepted','C47',(AP,"| '+' :: rest => rest\n  | s => s\n\n/-- `u64::from","| '-' :: rest => rest\n  | s => s\n\n/-- `u64::from"))
m('ms01','u64LE','big endian','C49/C50: message bodies round trip',(MS,'(List.range 8).map (fun i => UInt8.ofNat (n / 256 ^ i % 256))','(List.range 8).map (fun i => UInt8.ofNat (n / 256 ^ (7 - i) % 256))'))
m('ms02','readBuf','`<` becomes `≤`','C50',(MS,'if rest.length < n then none','if rest.length ≤ n then none'))
m('ms03','flagTxs','same flag for both','C50',(MS,'def flagTxs : UInt8 := 98','def flagTxs : UInt8 := 97'))
m('ms04','readElems','only the first element','C50',(MS,'let vs ← readElems n rest\n      pure (v :: vs)','let vs ← readElems n bs\n      pure (v :: vs)'))
m('ms05','RpcResponse.dec','an unknown flag is an error instead of an abort','C51 (refuted): a malformed answer aborts',(MS,'    else .error .panic\n\nend Huobi','    else .error .rejected\n\nend Huobi'))
m('hx01','hexDigit','upper case','C47: shown as lower case digits',(HX,'Char.ofNat (87 + n)','Char.ofNat (55 + n)'))
m('hx02','hexVal','g accepted','C47',(HX,'97 ≤ n ∧ n ≤ 102','97 ≤ n ∧ n ≤ 103'))
m('hx03','hexEncode','nibbles swapped','C47',(HX,'hexDigit (b.toNat / 16) :: hexDigit (b.toNat % 16)','hexDigit (b.toNat % 16) :: hexDigit (b.toNat / 16)'))
m('hx04','hexDecode','odd trailing digit ignored','C47',(HX,'| [_] => none','| [_] => some []'))
m('hx05','clean0x','0X prefix instead of 0x','C47',(HX,"| '0' :: 'x' :: rest => rest","| '0' :: 'X' :: rest => rest"))
def m(i,d,e,c,*edits): 
    assert i not in muts; muts[i]=dict(d=d,e=e,c=c,edits=list(edits))
EX='Model/Executor.lean'; SA='Model/StateAdapter.lean'; CO='Model/Consensus.lean'; CL='Model/ConsensusLock.lean'
RL='Model/Rlp.lean'; FC='Model/FixedCodec.lean'; PB='Model/Protobuf.lean'; TY='Model/Types.lean'
# consensus lock
m('cl01','Prog.sync','engine lock not taken','C41/C63: commit and synchronisation never interleave',(CL,'.lock .engine (.syncBody cfg io (UInt64.ofNat v - 1) n.currentId)\n            (.unlock .sync (.ret (.sync (.ok none)))))','.syncBody cfg io (UInt64.ofNat v - 1) n.currentId)'))
m('cl02','Prog.endCommit','guard not dropped','C41: locks are released',(CL,'.unlock .engine (.ret (.commit r))','.ret (.commit r)'))
m('cl03','Prog.endSync','one guard not dropped','C41',(CL,'.unlock .engine (.unlock .sync (.ret (.sync r)))','.unlock .engine (.ret (.sync r))'))
m('cl04','Prog.commit','takes the wrong lock','C41',(CL,'def Prog.commit (cfg : NodeCfg) (io : CommitIo) (epochId : UInt64) (pill : Pill) (proof : OverlordProof) : Prog :=\n  .lock .engine','def Prog.commit (cfg : NodeCfg) (io : CommitIo) (epochId : UInt64) (pill : Pill) (proof : OverlordProof) : Prog :=\n  .lock .sync'))
m('cl05','Prog.sync','current height read before the lock: lock taken after','C63',(CL,'  .lock .sync\n    (match readU64LE msg with','  .lock .engine\n    (match readU64LE msg with'))
m('cl06','Prog.updateStatus','status assigned before the epoch is written','C41: status and storage agree',(CL,'  .write io.txs (fun n => { n with store := n.store.writes (StoreOp.writes cfg.digest (.insertTransactions txs)) }) fail <|\n','  .act (fun n => { n with status := n.status.updated cfg epochId epoch proof resp }) (fun _ => .write io.txs (fun n => { n with store := n.store.writes (StoreOp.writes cfg.digest (.insertTransactions txs)) }) fail <|\n'),(CL,'    (fun _ => next)\n\n/-- The end of a commit','    (fun _ => next))\n\n/-- The end of a commit'))
m('cl07','Prog.commit','transactions taken before the lock... dropped flush','C18: committed transactions leave the pool',(CL,'.act (fun n => { n with pool := n.pool.flush pill.epoch.orderedTxHashes }) fun _ =>','.act id fun _ =>'))
m('cl08','Conf.step','lock can be taken while held','C41',(CL,'if (c.held l).isNone then (c.setLock','if true then (c.setLock'))
# consensus
m('co01','startStatus','height not incremented','C35: after start the node works on latest + 1',(CO,'epochId := latest.header.epochId + 1\n    prevHash','epochId := latest.header.epochId\n    prevHash'))
m('co02','Node.getEpoch','height not compared','C36: a proposal has the height of the status',(CO,'if n.status.epochId ≠ epochId then (.error','if false then (.error'))
m('co03','Node.getEpoch','own hash not exempted','C37: own proposals are not checked again',(CO,'{ n with pool := pool, exempt := hash :: n.exempt })','{ n with pool := pool })'))
m('co04','Node.getEpoch','order root over the proposed hashes','C36: header matches body',(CO,'orderRoot := cfg.merkle order,','orderRoot := cfg.merkle propose,'))
m('co05','Node.getEpoch','previous hash is the state root','C36: chained to the previous epoch',(CO,'preHash := n.status.prevHash','preHash := n.status.stateRoot'))
m('co06','Node.checkEpoch','exempt list ignored','C37',(CO,'if hash ∈ n.exempt then full n','if false then full n'))
m('co07','Node.checkEpoch','ordered transactions not ensured','C37: success means all ordered transactions are known',(CO,'match p.ensureOrderTxs (n.view cfg pull2 true) order with','match p.ensureOrderTxs (n.view cfg pull2 true) pill.proposeHashes with'))
m('co08','Node.commit','proof not saved','C38: the saved proof is that of the committed epoch',(CO,'match n.saveProof cfg io.save p with','match ((.ok (), n) : Except CErr Unit × Node) with'))
m('co09','Status.updated','previous hash not updated','C38/C40: hash chain',(CO,'prevHash := cfg.epochHash epoch\n    proof := proof','proof := proof'))
m('co10','Status.updated','state root not updated','C39',(CO,'    stateRoot := resp.stateRoot\n    orderRoot := cfg.merkle epoch','    orderRoot := cfg.merkle epoch'))
m('co11','Node.updateStatus','status updated before the writes succeed','C38: a failed commit leaves the status',(CO,'if io.epochWrites < 3 then (.error .storage, { n with store := s3 })','if io.epochWrites < 3 then (.error .storage, { n with store := s3, status := n.status.updated cfg epochId epoch proof resp })'))
m('co12','Node.commitTail','pool not flushed','C18: committed transactions leave the pool',(CO,'let n1 := { n with pool := n.pool.flush pill.epoch.orderedTxHashes }','let n1 := n'))
m('co13','Node.commitTail','coinbase is the committing node','C39: execution independent of the node',(CO,'match n1.exec cfg n1.status.stateRoot epochId (.user pill.epoch.header.proposer) txs with','match n1.exec cfg n1.status.stateRoot epochId (.user cfg.selfAddress) txs with'))
m('co14','Node.syncOne','previous hash not compared','C42: synchronised epochs are chained',(CO,'if id ≠ 1 ∧ curHash ≠ epoch.header.preHash then','if false then'))
m('co15','syncIds','last epoch not fetched','C42: synchronised up to the announced height',(CO,'(List.range (rich.toNat - current.toNat))','(List.range (rich.toNat - current.toNat - 1))'))
m('co16','syncIds','starts at the current epoch','C42: no epoch twice',(CO,'(fun k => current + 1 + UInt64.ofNat k)','(fun k => current + UInt64.ofNat k)'))
m('co17','Node.syncLoop','hash of the loop not advanced','C42',(CO,'| (.ok (h, r), n1) => Node.syncLoop cfg io (k + 1) ids h r n1','| (.ok (_, r), n1) => Node.syncLoop cfg io (k + 1) ids curHash r n1'))
m('co18','Node.syncLoop','state root of the loop not advanced','C42: executed on the state of the previous epoch',(CO,'| (.ok (h, r), n1) => Node.syncLoop cfg io (k + 1) ids h r n1','| (.ok (h, _), n1) => Node.syncLoop cfg io (k + 1) ids h stateRoot n1'))
m('co19','Node.updateEpoch','synchronises although not behind','C42: nothing happens unless behind',(CO,'if rich - 1 ≤ current then (.ok none, n)','if rich < current then (.ok none, n)'))
m('co20','handleInit','initialises again over existing data','C34: a second init changes nothing',(CO,'| some _ => some (store, tries)\n  | none =>\n    match runGenesis','| some _ => none\n  | none =>\n    match runGenesis'))
m('co21','NodeCfg.genesisEpoch','state root not recorded','C13/C34',(CO,'confirmRoot := [], stateRoot := root,','confirmRoot := [], stateRoot := cfg.emptyHash,'))
m('co22','Node.queryBalance','ignores the height asked for','C43: balance at a height',(CO,'match n.queryEpoch epochId with\n  | none => none\n  | some e =>\n    match fromRoot','match n.queryEpoch none with\n  | none => none\n  | some e =>\n    match fromRoot'))
m('co23','Node.syncStart','own latest epoch not compared with the peer\'s','C42',(CO,'if cfg.epochHash e ≠ next.header.preHash then .error (.syncEpochHash (current + 1))\n        else','if false then .error (.syncEpochHash (current + 1))\n        else'))
m('co24','Node.updateStatus','transactions not saved','C38: everything committed can be queried',(CO,'let s2 := s1.writes (StoreOp.writes cfg.digest (.insertTransactions txs))','let s2 := s1'))
m('co25','Node.updateStatus','receipts not saved','C38',(CO,'let s1 := n.store.writes (StoreOp.writes cfg.digest (.insertReceipts resp.receipts))','let s1 := n.store'))
m('co26','Node.exec','failed execution reported as success is impossible: panic becomes an error','C10',(CO,'| (some (.error .panic), db) => (.error .panic,','| (some (.error .panic), db) => (.error .openRoot,'))
m('co27','Status.updated','receipt root over the ordered hashes','C38: receipt root commits to the receipts',(CO,'receiptRoot := [cfg.merkle (resp.receipts.map (fun r => cfg.digest (encode r)))] }','receiptRoot := [cfg.merkle epoch.orderedTxHashes] }'))
m('co28','Node.commit','returns the same height','C38: Overlord is told the next height',(CO,'if io.transmit then (.ok (epochId + 1), n3) else','if io.transmit then (.ok epochId, n3) else'))
m('co29','Node.view','stored transactions are not found','C15: committed transactions are not admitted',(CO,'if (n.store.txs h).isSome then .found else .getNone','.getNone'))
m('co30','startStatus','state root empty after a restart','C35: restart keeps the state',(CO,'stateRoot := latest.header.stateRoot, receiptRoot := [cfg.emptyHash]\n    cyclesUsed','stateRoot := cfg.emptyHash, receiptRoot := [cfg.emptyHash]\n    cyclesUsed'))
m('co31','startStatus','state of the status kept equal to the header: proof default','C35',(CO,'proof := latest.header.proof, validators := cfg.validators','proof := default, validators := cfg.validators'))
m('co32','Node.apiBalance','error shown as one','C43',(CO,'(n.queryBalance cfg a id epochId).getD 0','(n.queryBalance cfg a id epochId).getD 1'))
# executor
m('ex01','subBalanceUser','overdraw not checked','C02/C01',(EX,'if info.balance < amount then .error (.err .insufficientBalance)\n    else','if false then .error (.err .insufficientBalance)\n    else'))
m('ex02','subBalanceUser','`<` becomes `≤`: the whole balance cannot be spent','C02: a transfer succeeds iff the balance suffices',(EX,'if info.balance < amount then','if info.balance ≤ amount then'))
m('ex03','accTransfer','credits the caller','C02',(EX,'let s2 := addBalance env carrying.assetId to carrying.amount s1','let s2 := addBalance env carrying.assetId caller carrying.amount s1'))
m('ex04','addBalanceUser','balance replaced instead of added','C01',(EX,'{ info with balance := info.balance + amount } }\n  | none => { u with assets := u.assets.insert id ⟨amount, []⟩ }','{ info with balance := amount } }\n  | none => { u with assets := u.assets.insert id ⟨amount, []⟩ }'))
m('ex05','settle','not reverted on failure','C03',(EX,'some (.fail (env.showErr e) "", s.revert)','some (.fail (env.showErr e) "", s)'))
m('ex06','settle','stashed on failure','C03',(EX,'some (.fail (env.showErr e) "", s.revert)','some (.fail (env.showErr e) "", s.stash)'))
m('ex07','execTx','cycles not reset','C05',(EX,'def execTx (env : Env) (tx : SignedTx) : Act Receipt := fun s0 =>\n  let s := { s0 with used := 0 }','def execTx (env : Env) (tx : SignedTx) : Act Receipt := fun s0 =>\n  let s := s0'))
m('ex08','execTx','price not multiplied','C05: fee = cycles × price',(EX,'cycle := s2.used * env.cyclesPrice','cycle := s2.used'))
m('ex09','execTx','nonce not incremented','C08',(EX,'match incNonce (.user (senderOf env tx)) s1 with','match ((.ok (), s1) : Except Fault Unit × St) with'))
m('ex10','modifyAllCyclesUsed','fees of the same asset not merged','C06',(EX,'if g.assetId = f.assetId then { g with cycle := g.cycle + f.cycle } :: gs\n    else','if false then { g with cycle := g.cycle + f.cycle } :: gs\n    else'))
m('ex11','consumeCycles','`>` becomes `≥`','C05: exactly the limit is allowed',(EX,"if used' > limit then",'if used\' ≥ limit then'))
m('ex12','bankRegister','existing asset overwritten','C12',(EX,'if s.bank.contains id then (.error (.err (.assetExists id)), s)\n    else','if false then (.error (.err (.assetExists id)), s)\n    else'))
m('ex13','handleTransfer','asset existence not checked','C02/C14: unknown assets cannot be transferred',(EX,'match getAsset carrying.assetId s with\n  | .error f => (.error f, s)\n  | .ok _ =>','match (Except.ok () : Except Fault Unit) with\n  | .error f => (.error f, s)\n  | .ok _ =>'))
m('ex14','handleTransfer','before and after swapped in the receipt','C04/C02',(EX,'(.ok (.transfer receiver carrying.assetId before after), s1)','(.ok (.transfer receiver carrying.assetId after before), s1)'))
m('ex15','exec','commit before the reward (reward kept in the cache)','C07',(EX,'let s2 := rewardCoinbase env fees s1\n    let s3 := s2.commit','let s2 := rewardCoinbase env fees s1.commit\n    let s3 := s2'))
m('ex16','exec','stashes the reward before the commit (the intended program)','C07_refuted: the reward is lost',(EX,'let s3 := s2.commit\n    let root','let s3 := s2.stash.commit\n    let root'))
m('ex17','exec','receipts keep the empty state root','C04: receipts carry the root after the block',(EX,'receipts := receipts.map (fun r => { r with stateRoot := root })','receipts := receipts'))
m('ex18','execLoop','receipts in reverse order','C04',(EX,'| (.ok rs, s2) => (.ok (r :: rs), s2)','| (.ok rs, s2) => (.ok (rs ++ [r]), s2)'))
m('ex19','subBalanceContract','underflow clamps','C14',(EX,'if b < amount then .error .panic else .ok','if false then .error .panic else .ok'))
m('ex20','genesisAssets','credited to the coinbase','C13',(EX,'genesisAssets env a xs (addBalance env id a (natOfBE b) s)','genesisAssets env a xs (addBalance env id env.coinbase (natOfBE b) s)'))
m('ex21','createGenesis','not stashed before the commit','C13',(EX,'let s3 := s2.stash.commit','let s3 := s2.commit'))
m('ex22','CyclesAction.cost','transfer costs more','C05',(EX,'| .accountTransfer => 10 * 21\n','| .accountTransfer => 10 * 22\n'))
m('ex23','handleDeploy','nonce ignored in the address','C12: deploying twice gives two assets',(EX,'ContractAddress.fromCode env.digest code (accountNonce acc) .asset','ContractAddress.fromCode env.digest code 0 .asset'))
m('ex24','assetIdOf','chain id left out','C12: asset id = digest(chain id ++ address)',(EX,'env.digest (env.chainId.bytes ++ address.toBytes)','env.digest address.toBytes'))
m('ex25','bankRegister','address type not checked','C12',(EX,'if address.ty ≠ .asset then (.error (.err .invalidAddress), s)\n  else','if false then (.error (.err .invalidAddress), s)\n  else'))
m('ex26','runBlock','failed block is committed','C10/C03: nothing is stored when a block fails',(EX,'| (.error f, _) => (some (.error f), db)\n\n/-- Open an executor on the empty root','| (.error f, s\') => (some (.error f), db.put env s\'.committed)\n\n/-- Open an executor on the empty root'))
m('ex27','fromRoot','unknown root opens the empty world','C39',(EX,'else (db root).map St.open','else some (St.open ((db root).getD World.empty))'))
m('ex28','execTx','receipt carries another transaction hash','C04',(EX,'txHash := tx.txHash\n             cyclesUsed','txHash := tx.raw.nonce\n             cyclesUsed'))
m('ex29','subBalance','writes the account without the change','C02',(EX,"| .ok u' => (.ok (), putAccount a (.user u') s)","| .ok _ => (.ok (), putAccount a (.user u) s)"))
m('ex30','accountBalance','missing asset is one','C13/C02',(EX,'| some info => info.balance\n    | none => 0','| some info => info.balance\n    | none => 1'))
m('sa01','Layers.get','stash before cache','C11',(SA,'match l.cache k with\n  | some v => some v\n  | none =>\n    match l.stash k with','match l.stash k with\n  | some v => some v\n  | none =>\n    match l.cache k with'))
m('sa02','Layers.revertCache','clears the stash too','C11',(SA,'def revertCache (l : Layers K V) : Layers K V := { l with cache := PMap.empty }','def revertCache (l : Layers K V) : Layers K V := { l with cache := PMap.empty, stash := PMap.empty }'))
m('sa03','Layers.stashCache','old stash wins','C11',(SA,'stash := l.cache.over l.stash','stash := l.stash.over l.cache'))
m('sa04','Layers.commit','keeps the stash','C11: (not observable by queries)',(SA,'{ l with trie := l.stash.over l.trie, stash := PMap.empty }','{ l with trie := l.stash.over l.trie }'))
m('sa05','Layers.contains','cache not looked at','C11/C12: two deploys in one transaction batch',(SA,'if (l.cache k).isSome then true\n  else if','if'))
m('sa06','Layers.commit','commits the cache as well','C11: unstashed writes are not persistent',(SA,'trie := l.stash.over l.trie, stash','trie := l.cache.over (l.stash.over l.trie), stash'))
m('sa07','Layers.stashCache','cache not cleared','C11: revert after stash',(SA,'{ l with stash := l.cache.over l.stash, cache := PMap.empty }','{ l with stash := l.cache.over l.stash }'))
# codecs
m('rl01','rlpHeader','55 becomes 56 in the header','C49: fixed codec round trip',(RL,'if len ≤ 55 then [UInt8.ofNat (base + len)]','if len ≤ 56 then [UInt8.ofNat (base + len)]'))
m('rl02','encData','single bytes below 0x80 get a header','C49',(RL,'| [x] => if x < 0x80 then [x] else rlpHeader 0x80 1 ++ [x]','| [x] => if x < 0x7f then [x] else rlpHeader 0x80 1 ++ [x]'))
m('rl03','Rlp.headerInfo','boundary 0xb7 becomes 0xb6','C49',(RL,'else if l.toNat ≤ 0xb7 then .ok (1, l.toNat - 0x80)','else if l.toNat ≤ 0xb6 then .ok (1, l.toNat - 0x80)'))
m('rl04','Rlp.intOf','leading zeros accepted','C49/C51: non-canonical integers are rejected',(RL,'else if x = 0 then .error .invalidIndirection else .ok (natOfBE b)\n\n/-- `as_val::<u64>`','else .ok (natOfBE b)\n\n/-- `as_val::<u64>`'))
m('rl05','Rlp.list','malformed element is an error instead of an abort','C51 refuted',(RL,'| .error _ => .error .panic','| .error e => .error e'))
m('rl06','bigBE','zero as the empty string','C49: the coding of 0',(RL,'if n = 0 then [0] else natBE n','natBE n'))
m('fc01','Fee.item','fields swapped','C49',(FC,'.list [f.assetId.item, .u64 f.cycle]','.list [.u64 f.cycle, f.assetId.item]'))
m('fc02','RawTx.basic','nonce left out of the hash','C52: two transactions with the same hash are equal',(FC,'.data t.nonce.bytes, .u64 t.timeout]','.data t.chainId.bytes, .u64 t.timeout]'))
m('fc03','Account.item','flags swapped','C49',(FC,'| .user a => .list [.u8 0,','| .user a => .list [.u8 1,'))
m('fc04','EpochHeader.item','state root replaced by the order root','C52: hash commits to the header',(FC,'    h.stateRoot.item, .u64 h.timestamp','    h.orderRoot.item, .u64 h.timestamp'))
m('fc05','ReceiptResult.dec','before and after swapped in the decoder','C49',(FC,'pure (.transfer receiver assetId (natOfBE before) (natOfBE after))','pure (.transfer receiver assetId (natOfBE after) (natOfBE before))'))
m('fc06','ContractType.ofFlag','app and library swapped','C49',(FC,'else if n = 1 then .ok .app\n  else if n = 2 then .ok .library\n  else if n = 3 then .ok .native\n  else .error .custom','else if n = 1 then .ok .library\n  else if n = 2 then .ok .app\n  else if n = 3 then .ok .native\n  else .error .custom'))
m('fc07','RawTx.items','approve transactions are encoded (the intended program)','C52_refuted: approve transactions all have the same hash',(FC,'  | .approve _ _ _ => []\n\n/-- `Decodable for String`','  | .approve sp a mx => [.list (.u8 4 :: t.basic ++ [sp.item, a.item, .data (bigBE mx)])]\n\n/-- `Decodable for String`'))
m('fc08','Epoch.item','transactions left out of the epoch hash','C52',(FC,'.list [e.header.item, .list (e.orderedTxHashes.map Hash.item)]','.list [e.header.item, .list []]'))
m('pb01','encVarint','boundary 128 becomes 127','C49',(PB,'if n < 128 then [UInt8.ofNat n] else','if n < 127 then [UInt8.ofNat n] else'))
m('pb02','Fee.pb','wrong tag','C49',(PB,'fMsg 1 (rootPb f.assetId) ++ fU64 2 f.cycle','fMsg 1 (rootPb f.assetId) ++ fU64 3 f.cycle'))
m('pb03','ContractType.ofI32','numbers of the encoder used (the intended program)','C49_refuted: deploy of a library is decoded as an app',(PB,'else if n = 1 then .ok .library\n  else if n = 2 then .ok .app\n','else if n = 1 then .ok .app\n  else if n = 2 then .ok .library\n'))
m('pb04','Receipt.pb','transaction hash and state root swapped','C49',(PB,'fMsg 1 r.stateRoot.pb ++ fU64 2 r.epochId ++ fMsg 3 r.txHash.pb','fMsg 1 r.txHash.pb ++ fU64 2 r.epochId ++ fMsg 3 r.stateRoot.pb'))
m('pb05','Proof.pb','bitmap omitted','C49',(PB,' ++ fBytes 5 p.bitmap\n','\n'))
m('pb06','readField','length not compared','C51: truncated input is rejected',(PB,'if r.length < n then none else','if false then none else'))
m('pb07','getU64','first occurrence wins','C50: last value wins',(PB,'(occ t fs).foldlM (fun _ v => match v with | .varint n => .ok n | _ => .error .malformed) 0','(occ t fs).reverse.foldlM (fun _ v => match v with | .varint n => .ok n | _ => .error .malformed) 0'))
m('ty01','UserAddress.fromBytes','magic not compared','C47/C61: addresses of contracts are not users',(TY,'if magic ≠ accountMagic then none','if false then none'))
m('ty02','BMap.insert','replaces the next entry','C01',(TY,'if k = k\' then (k, v) :: rest\n    else if KeyOrd.lt','if k = k\' then (k, v) :: (k\', v\') :: rest\n    else if KeyOrd.lt'))
m('ty03','u64BE','bytes reversed','C12: contract address from code and nonce',(TY,'(n >>> 24).toUInt8, (n >>> 16).toUInt8, (n >>> 8).toUInt8, n.toUInt8]','(n >>> 24).toUInt8, (n >>> 16).toUInt8, n.toUInt8, (n >>> 8).toUInt8]'))
def m(i,d,e,c,*edits): 
    assert i not in muts; muts[i]=dict(d=d,e=e,c=c,edits=list(edits))
AU='Model/Authority.lean'; AS='Model/ApiServer.lean'; FR='Model/Frame.lean'; KE='Model/Keeper.lean'; SV='Model/Server.lean'; MP='Model/Mempool.lean'
CO='Model/Consensus.lean'; CC='Model/TxCacheConc.lean'; PE='Model/PeerManager.lean'; TC='Model/TxCache.lean'
# authorities
m('au01','authorityOf','not sorted','C69: all nodes hand the same list to the consensus',(AU,'(vs.map OvNode.ofValidator).mergeSort OvNode.le','vs.map OvNode.ofValidator'))
m('au02','OvNode.ofValidator','weights swapped','C69: each validator with its weights',(AU,'⟨v.address.toBytes, v.proposeWeight, v.voteWeight⟩','⟨v.address.toBytes, v.voteWeight, v.proposeWeight⟩'))
m('au03','Node.commitOvStatus','status with the old height','C69: the status after a commit names the next height',(AU,"| (.ok h, n') => some (n'.ovStatus h)\n  | (.error _, _) => none","| (.ok h, n') => some (n'.ovStatus (h - 1))\n  | (.error _, _) => none"))
m('au04','Node.syncOvStatus','the status before the synchronisation is sent','C64/C69',(AU,"| (.ok (some h), n') => some (n'.ovStatus h)","| (.ok (some h), _) => some (n.ovStatus n.status.epochId)"))
m('au05','Node.getAuthorityList','list of the epoch before','C70: the list of the height asked for',(AU,'(n.store.epochs epochId).map','(n.store.epochs (epochId - 1)).map'))
m('au06','configValidators','weights 0','C69',(AU,'some (⟨a, 1, 1⟩ :: vs)','some (⟨a, 0, 1⟩ :: vs)'))
m('au07','configValidators','bad entries are skipped','C69: a bad configuration is refused',(AU,'    | _, _ => none\n\n/-- The addressee','    | _, r => r\n\n/-- The addressee'))
m('au08','Node.ovStatus','interval not sent','C69',(AU,'⟨height, some n.status.interval, authorityOf','⟨height, none, authorityOf'))
m('au09','relayTarget','first twenty bytes of anything','C69: a vote goes to the validator named',(AU,'UserAddress.fromBytes addr','UserAddress.fromBytes (addr.take 20)'))
# api server
m('as01','HeaderView.of','previous hash shows the state root','C71',(AS,'preHash := h.preHash.toHex','preHash := h.stateRoot.toHex'))
m('as02','HeaderView.of','cycles and timestamp swapped','C71',(AS,'timestamp := Api.showU64 h.timestamp','timestamp := Api.showU64 h.cyclesUsed'))
m('as03','EpochView.of','transaction hashes reversed','C71: the hashes in the order of the epoch',(AS,'e.orderedTxHashes.map Hash.toHex⟩','e.orderedTxHashes.reverse.map Hash.toHex⟩'))
m('as04','Api.readOptU64','an unreadable height means the latest','C71: an unreadable height is an error',(AS,'| some s => (Api.readU64 s).map some','| some s => some (Api.readU64 s)'))
m('as05','Node.apiEpoch','height ignored','C71',(AS,'match n.queryEpoch id with','match n.queryEpoch none with'))
m('as06','Node.apiGetBalance','arguments swapped is ill-typed: height ignored','C73/C16: balance at the height asked for',(AS,'match n.queryBalance cfg a id q with','match n.queryBalance cfg a id none with'))
m('as07','Node.apiGetBalance','one too many','C73',(AS,'| some b => .ok (Api.showBalance b)','| some b => .ok (Api.showBalance (b + 1))'))
m('as08','Node.apiInsert','error reported as success','C72',(AS,'| (.error e, p) => (.error (.mempool e), { n with pool := p })','| (.error _, p) => (.ok answer, { n with pool := p })'))
m('as09','Node.apiInsert','the pool is not updated','C72: the transaction is in the pool',(AS,'| (.ok (), p) => (.ok answer, { n with pool := p })','| (.ok (), _) => (.ok answer, n)'))
m('as10','Node.apiInsert','marked as coming from the network','C80: a submitted transaction is gossiped',(AS,'(n.view cfg (fun _ => none) broadcastOk) false tx','(n.view cfg (fun _ => none) broadcastOk) true tx'))
m('as11','Node.apiSend','returns an empty answer','C72: the returned hash',(AS,'| some tx => n.apiInsert cfg broadcastOk tx sig.txHash','| some tx => n.apiInsert cfg broadcastOk tx []'))
m('as12','Api.genSig','public key and signature swapped','C72: carries that key\'s public key and signature',(AS,'⟨txHash, Api.showBytes pk, Api.showBytes (sg.sign sk h)⟩','⟨txHash, Api.showBytes (sg.sign sk h), Api.showBytes pk⟩'))
m('as13','Node.apiSendUnsafe','hash of something else','C72',(AS,'(cfg.digest (encode rawTx)).toHex','(cfg.digest []).toHex'))
m('as14','Node.sendDeploy','ill-typed variant: refused deploys reported as done','C72',(AS,'  match action with\n  | none => (.error .badInput, n)\n  | some act =>\n    match Api.coverSigned act raw sig with','  match action with\n  | none => (.ok sig.txHash, n)\n  | some act =>\n    match Api.coverSigned act raw sig with'))
# frame
m('fr01','NetMsg.ofPb','reads the content from field 3','C82',(FR,'let c ← getBytes 2 fs','let c ← getBytes 3 fs'))
m('fr02','NetMsg.pb','content left out','C82',(FR,'++ fBytes 2 m.content','++ fBytes 2 []'))
m('fr03','packageRpc','call number not put into the url','C82: the call number arrives',(FR,"pure (z.compress (pbEncode (NetMsg.mk e'.url content)))","pure (z.compress (pbEncode (NetMsg.mk (let _ := e'; e.url) content)))"))
m('fr04','packageGossip','not compressed','C82',(FR,'pure (z.compress (pbEncode (NetMsg.mk e.url content)))','pure (pbEncode (NetMsg.mk e.url content))'))
m('fr05','unframe','a message that does not decompress is read as it is','C82: garbage is not handled',(FR,'| none => none\n  | some b =>','| none => (pbDecode raw : PDec NetMsg).toOption\n  | some b =>'))
m('fr06','Node.receive','replies go to session 0','C82/C67: the reply goes to the session of the request',(FR,'(o.sid, z.compress','(0, z.compress'))
m('fr07','Node.receive','replies not framed','C82',(FR,'z.compress (pbEncode (NetMsg.mk o.url o.content))','z.compress o.content'))
m('fr08','rawEvent','session not passed on','C82/C66: an answer counts only from the peer asked',(FR,'[.receive k sid m.url m.content]','[.receive k 0 m.url m.content]'))
m('fr09','Node.receive','node not updated','C82/C81: a received message takes effect',(FR,'o.content)))), r.2)','o.content)))), n)'))
m('fr10','packageGossip','endpoint not checked','C82: a bad endpoint is an error',(FR,'let e ← Endpoint.parse url\n  pure (z.compress (pbEncode (NetMsg.mk e.url content)))','pure (z.compress (pbEncode (NetMsg.mk url content)))'))
# keeper
m('ke01','SvcEvent.report','closed sessions not reported','C83: a closed session is not used again',(KE,'| .closed c => c.key.map (fun k => .detach (cfg.pidOf k))','| .closed _ => none'))
m('ke02','SvcEvent.report','opened sessions not reported','C83/C55: a connected user is reached',(KE,'| .opened c => c.key.map (fun k => .attach k c.sid c.addr c.outbound)','| .opened _ => none'))
m('ke03','SvcEvent.report','direction of the session swapped','C76: the address of an inbound session is not taken for the address of the peer',(KE,'.attach k c.sid c.addr c.outbound','.attach k c.sid c.addr (!c.outbound)'))
m('ke04','PingEvent.report','a ping time-out counts as a sign of life','C74/C77: a peer that times out is retried later',(KE,'| .timeout pid => .retryLater pid','| .timeout pid => .alive pid'))
m('ke05','PingEvent.report','a ping counts as a failure','C74: a peer that answers is not forgotten',(KE,'| .ping pid => .alive pid','| .ping pid => .retryLater pid'))
m('ke06','SvcError.report','session time-out removes the peer','C74: a peer is not forgotten because of a time-out',(KE,'| .sessionTimeout c => c.key.map (fun k => .retryLater (cfg.pidOf k))','| .sessionTimeout c => c.key.map (fun k => .remove (cfg.pidOf k))'))
m('ke07','SvcError.report','a blocked session is ignored','C84: an offender is cut off',(KE,'| .blocked c => c.key.map (fun _ => .removeBySession c.sid)','| .blocked _ => none'))
m('ke08','SvcError.report','protocol errors ignored','C84',(KE,'| .protocol sid => some (.removeBySession sid)','| .protocol _ => none'))
m('ke09','SvcError.report','listen errors handled as dial errors','C68/C74: own listening address',(KE,'| .listen e a => some (e.event false a)','| .listen e a => some (e.event true a)'))
m('ke10','SvcError.report','muxer error removes the peer','C74',(KE,'| .muxer c => c.key.map (fun k => .retryLater (cfg.pidOf k))','| .muxer c => c.key.map (fun k => .remove (cfg.pidOf k))'))
m('ke11','NetIn.report','misbehaving peers tolerated','C84',(KE,'| .misbehave sid => some (.removeBySession sid)','| .misbehave _ => none'))
m('ke12','NetIn.report','discovered addresses dropped','C76: discovered addresses are not lost',(KE,'| .discover addrs => some (.discover addrs)','| .discover _ => none'))
m('ke13','SvcError.report','unnamed protocol mismatch removes the peer','C74',(KE,'if named then .remove (cfg.pidOf k) else .retryLater (cfg.pidOf k)','if named then .remove (cfg.pidOf k) else .remove (cfg.pidOf k)'))
# server / gossip
m('sg01','richMessage','the committed height is announced instead of the next','C81',(SV,'encBuf (u64LE (epochId + 1).toNat)','encBuf (u64LE epochId.toNat)'))
m('sg02','richMessage','raw bytes without length','C81: the announcement can be read',(SV,'encBuf (u64LE (epochId + 1).toNat)','u64LE (epochId + 1).toNat'))
m('sg03','Node.commitSends','announced also if the commit failed','C81: a failed commit announces nothing',(SV,'  | .ok _ => [richMessage epochId]\n  | .error _ => []','  | .ok _ => [richMessage epochId]\n  | .error _ => [richMessage epochId]'))
m('sg04','Node.commitSends','announced twice','C81: announced once',(SV,'| .ok _ => [richMessage epochId]','| .ok _ => [richMessage epochId, richMessage epochId]'))
m('sg05','newTxsOrigin','received transactions are taken for local ones','C80: gossip does not circulate',(SV,'def newTxsOrigin : Bool := true','def newTxsOrigin : Bool := false'))
m('sg06','gossips','rejected transactions are gossiped','C80',(MP,'| .ok () => if netOrigin then [] else [tx]\n  | .error _ => []','| .ok () => if netOrigin then [] else [tx]\n  | .error _ => [tx]'))
m('sg07','gossips','nothing is gossiped','C80',(MP,'| .ok () => if netOrigin then [] else [tx]','| .ok () => []'))
m('sg08','newTxsHandler','first transaction only','C81: every transaction of a batch',(SV,'{ n with pool := txs.foldl','{ n with pool := (txs.take 1).foldl'))
m('sg09','Node.serve','announcements not acted on','C81',(SV,'| some (msg, _) => ([], (n.updateEpoch cfg io msg).2)','| some (_, _) => ([], n)'))
m('sg10','pullTxsHandler','answers with no transactions when some are missing','C30: all or nothing',(SV,'    match p.getFullTxs hs with\n    | .error _ => []','    match p.getFullTxs hs with\n    | .error _ => respond sid rid endRespPullTxs (encMulti ([] : List SignedTx))'))
# concurrency
m('cc11','Sys.stepPk','omitted transactions are dropped instead of moved','C21: an accepted transaction is not lost',(CC,'| .move a z pk id => { s with cache := (s.cache.push z id).2, pk := .drain a z pk }','| .move a z pk _ => { s with pk := .drain a z pk }'))
m('cc12','Sys.stepPk','does not wait for insertions under way','C21',(CC,'| .wait a z pk => if s.cache.count = 0 then { s with pk := .drain a z pk } else s','| .wait a z pk => { s with pk := .drain a z pk }'))
m('cc13','Sys.stepIns','reads the role before counting itself','C21',(CC,'| .inserted id => { s with cache := { s.cache with count := s.cache.count + 1 } }.setIns t (.counted id)\n  | .counted id => s.setIns t (.role id s.cache.isZero)','| .inserted id => s.setIns t (.role id s.cache.isZero)\n  | .counted id => s.setIns t (.role id s.cache.isZero)'))
m('cc14','Sys.stepIns','pushes before entering the map','C18/C21',(CC,'| some _ => s.setIns t (.done id (.error (.dup h)))','| some _ => s.setIns t (.done id (.ok ()))'))
m('cc15','Sys.stepPk','expired ones stay in the map','C21/C25: expired transactions leave the pool',(CC,'map := s.cache.map.deletes pk.timeouts }, pk := .done','map := s.cache.map }, pk := .done'))
m('cc16','Sys.stepIns','map entry kept after a failed push','C21: a rejected transaction leaves no trace',(CC,'else { s with cache := { s.cache with map := s.cache.map.remove h } }.setIns t (.done id (.error (.insert h)))','else s.setIns t (.done id (.error (.insert h)))'))
m('cc17','Sys.stepIns','limit not compared','C25: concurrent bound',(CC,'if s.poolSize ≤ s.cache.len then s.setIns','if false then s.setIns'))
m('cc18','Sys.stepIns','limit compared one too late','C25',(CC,'if s.poolSize ≤ s.cache.len then s.setIns','if s.poolSize < s.cache.len then s.setIns'))
# peer manager
m('pm01','Peer.resetRetry','nothing reset','C74: a sign of life starts the count afresh',(PE,'{ p with retry := 0 }','p'))
m('pm02','Peer.retryReady','ready at once','C75',(PE,'decide (p.nextRetry < now.tick)','true'))
m('pm03','PM.addPeer','user not registered','C55/C56',(PE,'userPid := upd s.userPid p.user (some p.id)\n    addrPid := fun a => if a ∈ p.addrs','userPid := s.userPid\n    addrPid := fun a => if a ∈ p.addrs'))
m('pm04','PM.addPeerAddr','address not mapped','C76',(PE,'| some p => { s with addrPid := upd s.addrPid a (some pid), pool','| some p => { s with pool'))
m('pm05','PM.identifyAddr','unknown address not kept','C76: an address is neither known nor lost',(PE,'| none => { s with unknown := upd s.unknown a (some ⟨false, 0⟩) }','| none => s'))
m('pm06','PM.cleanlyRemove','session left open in the tables','C56/C83',(PE,'let s1 := s.closeSession now pid\n  if isBootstrap cfg pid','let s1 := s\n  if isBootstrap cfg pid'))
m('pm07','PM.step alive','counts as failure','C74',(PE,'| .alive pid => (s.modify pid Peer.resetRetry, [])','| .alive pid => (s.increasePeerRetry cfg now pid, [])'))
m('pm08','PM.routine','unknown addresses dialled again while being dialled','C58/C59',(PE,'(s1.unknown a).map (fun u => { u with connecting := true })','(s1.unknown a)'))
m('pm09','PM.routine','peers chosen are not marked','C58: no peer dialled twice',(PE,'let s1 := pids.foldl PM.connectPeer s','let s1 := s'))
m('pm10','PM.bootstrap','bootstrap peers are not dialled','C57',(PE,'addrs ++ s1.bootAddrs }, [.connect addrs])','addrs ++ s1.bootAddrs }, [])'))
m('pm11','PM.reconnectLater','a connected peer is counted too','C74',(PE,'if pid ∈ s1.connected then s1 else s1.increasePeerRetry cfg now pid','s1.increasePeerRetry cfg now pid'))
m('pm12','PM.insertPeers','loaded peers have no addresses','C76/C57: saved peers are known after a restart',(PE,'addrPid := fun a => if a ∈ addrs then some (cfg.pidOf key) else s.addrPid a','addrPid := s.addrPid'))
m('pm13','PM.attach','address of an inbound session recorded','C76',(PE,'(if outbound then some a else none)','(some a)'))
m('pm14','PM.detach','short sessions: removed at once','C74',(PE,'then s1.increasePeerRetry cfg now pid else s1\n  | none => s1\n\n/-- `identify_addr`','then s1.cleanlyRemove cfg now pid else s1\n  | none => s1\n\n/-- `identify_addr`'))
m('pm15','PM.removePeerAddr','mapping stays','C76: a removed address is free again',(PE,'setRemove p.addrs a })) with addrPid := upd s.addrPid a none }','setRemove p.addrs a })) with addrPid := s.addrPid }'))
def m(i,d,e,c,*edits): 
    assert i not in muts; muts[i]=dict(d=d,e=e,c=c,edits=list(edits))
_old=muts; 
_all={}
exec(open('/tmp/mut/m4.py').read().replace("muts[i]=","_all[i]=").replace("assert i not in muts;",""))
def m(i,d,e,c,*edits): 
    assert i not in muts; muts[i]=dict(d=d,e=e,c=c,edits=list(edits))
for k in ['ke04','ke05','ke06','ke09','ke10','ke11','ke12','ke13','au03','pm08','pm10','as08','as09']:
    x=_all[k]; muts[k+'r']=x
BE='Model/ByteExecutor.lean'; PS='Model/Persist.lean'
m('be01','Adapter.commitTrie','stashed changes are not written to the trie','C85: the state on disk is the state computed with',(BE,"      | some v => if v = [] then none else some v\n","      | some _ => l.trie k\n"))
m('be02','Adapter.commitTrie','the stash is not cleared','C85',(BE,"    stash := PMap.empty }","    stash := l.stash }"))
m('be03','BSt.commit','roots of the two contracts swapped in the top trie','C85: a root reopened shows its state',(BE,"PMap.set (PMap.set s.top accountContract.toBytes accRoot.bytes) bankContract.toBytes bankRoot.bytes","PMap.set (PMap.set s.top accountContract.toBytes bankRoot.bytes) bankContract.toBytes accRoot.bytes"))
m('be04','bFromRoot','the bank is opened at the account contract','C85',(BE,"openContract T db top accountContract, openContract T db top bankContract","openContract T db top accountContract, openContract T db top accountContract"))
m('be05','BSt.commit','the bank trie is not committed','C85',(BE,"if accFirst then bank.trie :: acc.trie :: db else","if accFirst then acc.trie :: db else"))
m('be06','accountSchema','key of an account without its type byte','C85: user and contract accounts are kept apart',(BE,"⟨fun a => a.item.enc, fun x => x.item.enc, Account.dec⟩","⟨fun a => (Item.str (a.toBytes.drop 1)).enc, fun x => x.item.enc, Account.dec⟩"))
m('be07','bankContract','bank and account contract share an address','C85',(BE,".contract ⟨.native, List.replicate 19 0 ++ [2], by simp⟩",".contract ⟨.native, 0xC0 :: List.replicate 18 0 ++ [1], by simp⟩"))
m('be08','Adapter.write','one byte too large values are silently dropped','C85: nothing is lost',(BE,"then .ok (l.insertCache (S.encKey k) (S.encVal v)) else .error .memory","then .ok (if (S.encVal v).length < 1000 then l.insertCache (S.encKey k) (S.encVal v) else l) else .error .memory"))
m('be09','BSt.revert','revert forgets the bank','C85/C03',(BE,"acc := s.acc.revertCache, bank := s.bank.revertCache","acc := s.acc.revertCache"))
m('be10','BSt.stash','stash forgets the bank','C85',(BE,"acc := s.acc.stashCache, bank := s.bank.stashCache","acc := s.acc.stashCache"))
m('be11','bFindOrCreate','a contract account is created as a user account','C85',(BE,"    | .contract _ => .ok (.contract ⟨0, [], env.emptyHash⟩)","    | .contract _ => .ok (.user ⟨0, []⟩)"))
m('be12','bExec','the coinbase reward is stashed before the commit','C85: same answers as the typed executor',(BE,"let (root, _, db') := s2.commit T accFirst db\n      (.ok { receipts","let (root, _, db') := s2.stash.commit T accFirst db\n      (.ok { receipts"))
m('be13','bCreateGenesis','genesis not stashed before the commit','C85/C13',(BE,"s2.stash.commit T accFirst db","s2.commit T accFirst db"))
m('be14','openContract','an unreadable root is taken for an empty contract','C85',(BE,"    | some root => (db.open T root).map Layers.ofTrie","    | some root => some (((db.open T root).map Layers.ofTrie).getD (Layers.ofTrie PMap.empty))"))
m('be15','Adapter.read','a decoding error reads as absent','C85',(BE,"    | .error e => .error (.codec e)\n\n/-- `contains","    | .error _ => .ok none\n\n/-- `contains"))
m('be16','bHandleTransfer','the balance after is read before the transfer','C85/C02',(BE,"        match bGetBalance carrying.assetId caller s1 with","        match bGetBalance carrying.assetId caller s with"))
m('be17','TrieStore.open','the database keeps only the latest three tries','C85: every root returned can be reopened later',(BE,"  db.find? (fun m => T.root m = root)","  (db.take 3).find? (fun m => T.root m = root)"))
m('ps01','FilePeer.enc','addresses not saved','C86: known again with all addresses',(PS,"encIp p.ip ++ (encAddrs c p.addrs ++","encIp p.ip ++ (encAddrs c [] ++"))
m('ps02','PM.boot','an error while loading is ignored and the part read used','C87',(PS,"(readPeers c n bs).map (·.1)","some ((readPeers c n bs).elim [] (·.1))"))
m('ps03','readPeers','reads as many as are there','C87: a torn file is not used',(PS,"    | none => none\n    | some (p, bs) => (readPeers c n bs)","    | none => some ([], bs)\n    | some (p, bs) => (readPeers c n bs)"))
m('ps04','encIp','v6 written with the variant of v4','C86',(PS,"| some (.v6 b) => 1 :: (u32LE 1 ++ b.1)","| some (.v6 b) => 1 :: (u32LE 0 ++ b.1)"))
m('ps05','FilePeer.enc','connect and disconnect time exchanged','C86',(PS,"(u64LE p.connectAt ++ (u64LE p.disconnectAt ++ u64LE p.alive))","(u64LE p.disconnectAt ++ (u64LE p.connectAt ++ u64LE p.alive))"))
m('ps06','PM.boot','peers loaded without their addresses','C86',(PS,"| some l => l.map (fun f => (f.key, f.addrs))","| some l => l.map (fun f => (f.key, []))"))
m('ps07','PM.dropFile','nothing written on shutdown','C86',(PS,"if persistence then some (peerFile c l) else file","file"))
m('ps08','PM.insertPeers','a loaded peer keeps waiting','C86: can be dialled at once',('Model/PeerManager.lean',"| none => some (cfg.newPeer key addrs now)) } rest","| none => some { cfg.newPeer key addrs now with nextRetry := now.tick + 5 }) } rest"))
m('ps09','PM.insertPeers','addresses of loaded peers dropped','C86',('Model/PeerManager.lean',"| none => some (cfg.newPeer key addrs now)) } rest","| none => some (cfg.newPeer key [] now)) } rest"))
