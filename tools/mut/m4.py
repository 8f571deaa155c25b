def m(i,d,e,c,*edits): 
    assert i not in muts; muts[i]=dict(d=d,e=e,c=c,edits=list(edits))
AU='Model/Authority.lean'; AS='Model/ApiServer.lean'; FR='Model/Frame.lean'; KE='Model/Keeper.lean'; SV='Model/Server.lean'; MP='Model/Mempool.lean'
CO='Model/Consensus.lean'; CC='Model/TxCacheConc.lean'; PE='Model/PeerManager.lean'; TC='Model/TxCache.lean'
# authorities
m('au01','authorityOf','not sorted','C69: all nodes hand the same list to the consensus',(AU,'(vs.map OvNode.ofValidator).mergeSort OvNode.le','vs.map OvNode.ofValidator'))
m('au02','OvNode.ofValidator','weights swapped','C69: each validator with its weights',(AU,'⟨v.address.toBytes, v.proposeWeight, v.voteWeight⟩','⟨v.address.toBytes, v.voteWeight, v.proposeWeight⟩'))
m('au03','Node.commitOvStatus','status with the old height','C69: the status after a commit names the next height',(AU,"| (.ok h, n') => some (n'.ovStatus h)\n  | (.error _, _) => none","| (.ok h, n') => some (n'.ovStatus (h - 1))\n  | (.error _, _) => none"))
m('au04','Node.syncOvStatus','the status before the synchronisation is sent','C64/C69',(AU,"| (.ok (some h), n') => some (n'.ovStatus h)","| (.ok (some h), _) => some (n.ovStatus n.status.epochId)"))
m('au05','Node.getAuthorityList','list of the epoch before','C70: the list of the height asked for',(AU,'(n.store.epochs epochId).map','(n.store.epochs (epochId - 1)).map'))
m('au06','configValidators','weights 0','C69',(AU,'some (⟨a, 1, 1⟩ :: vs)','some (⟨a, 0, 1⟩ :: vs)'))
m('au07','configValidators','bad entries are skipped','C69: a bad configuration is refused',(AU,'    | _, _ => none\n\n/-- The addressee','    | _, r => r\n\n/-- The addressee'))
m('au08','Node.ovStatus','interval not sent','C69',(AU,'⟨height, some n.status.interval, authorityOf','⟨height, none, authorityOf'))
m('au09','relayTarget','first twenty bytes of anything','C69: a vote goes to the validator named',(AU,'UserAddress.fromBytes addr','UserAddress.fromBytes (addr.take 20)'))
# api server
m('as01','HeaderView.of','previous hash shows the state root','C71',(AS,'preHash := h.preHash.toHex','preHash := h.stateRoot.toHex'))
m('as02','HeaderView.of','cycles and timestamp swapped','C71',(AS,'timestamp := Api.showU64 h.timestamp','timestamp := Api.showU64 h.cyclesUsed'))
m('as03','EpochView.of','transaction hashes reversed','C71: the hashes in the order of the epoch',(AS,'e.orderedTxHashes.map Hash.toHex⟩','e.orderedTxHashes.reverse.map Hash.toHex⟩'))
m('as04','Api.readOptU64','an unreadable height means the latest','C71: an unreadable height is an error',(AS,'| some s => (Api.readU64 s).map some','| some s => some (Api.readU64 s)'))
m('as05','Node.apiEpoch','height ignored','C71',(AS,'match n.queryEpoch id with','match n.queryEpoch none with'))
m('as06','Node.apiGetBalance','arguments swapped is ill-typed: height ignored','C73/C16: balance at the height asked for',(AS,'match n.queryBalance cfg a id q with','match n.queryBalance cfg a id none with'))
m('as07','Node.apiGetBalance','one too many','C73',(AS,'| some b => .ok (Api.showBalance b)','| some b => .ok (Api.showBalance (b + 1))'))
m('as08','Node.apiInsert','error reported as success','C72',(AS,'| (.error e, p) => (.error (.mempool e), { n with pool := p })','| (.error _, p) => (.ok answer, { n with pool := p })'))
m('as09','Node.apiInsert','the pool is not updated','C72: the transaction is in the pool',(AS,'| (.ok (), p) => (.ok answer, { n with pool := p })','| (.ok (), _) => (.ok answer, n)'))
m('as10','Node.apiInsert','marked as coming from the network','C80: a submitted transaction is gossiped',(AS,'(n.view cfg (fun _ => none) broadcastOk) false tx','(n.view cfg (fun _ => none) broadcastOk) true tx'))
m('as11','Node.apiSend','returns an empty answer','C72: the returned hash',(AS,'| some tx => n.apiInsert cfg broadcastOk tx sig.txHash','| some tx => n.apiInsert cfg broadcastOk tx []'))
m('as12','Api.genSig','public key and signature swapped','C72: carries that key\'s public key and signature',(AS,'⟨txHash, Api.showBytes pk, Api.showBytes (sg.sign sk h)⟩','⟨txHash, Api.showBytes (sg.sign sk h), Api.showBytes pk⟩'))
m('as13','Node.apiSendUnsafe','hash of something else','C72',(AS,'(cfg.digest (encode rawTx)).toHex','(cfg.digest []).toHex'))
m('as14','Node.sendDeploy','ill-typed variant: refused deploys reported as done','C72',(AS,'  match action with\n  | none => (.error .badInput, n)\n  | some act =>\n    match Api.coverSigned act raw sig with','  match action with\n  | none => (.ok sig.txHash, n)\n  | some act =>\n    match Api.coverSigned act raw sig with'))
# frame
m('fr01','NetMsg.ofPb','reads the content from field 3','C82',(FR,'let c ← getBytes 2 fs','let c ← getBytes 3 fs'))
m('fr02','NetMsg.pb','content left out','C82',(FR,'++ fBytes 2 m.content','++ fBytes 2 []'))
m('fr03','packageRpc','call number not put into the url','C82: the call number arrives',(FR,"pure (z.compress (pbEncode (NetMsg.mk e'.url content)))","pure (z.compress (pbEncode (NetMsg.mk (let _ := e'; e.url) content)))"))
m('fr04','packageGossip','not compressed','C82',(FR,'pure (z.compress (pbEncode (NetMsg.mk e.url content)))','pure (pbEncode (NetMsg.mk e.url content))'))
m('fr05','unframe','a message that does not decompress is read as it is','C82: garbage is not handled',(FR,'| none => none\n  | some b =>','| none => (pbDecode raw : PDec NetMsg).toOption\n  | some b =>'))
m('fr06','Node.receive','replies go to session 0','C82/C67: the reply goes to the session of the request',(FR,'(o.sid, z.compress','(0, z.compress'))
m('fr07','Node.receive','replies not framed','C82',(FR,'z.compress (pbEncode (NetMsg.mk o.url o.content))','z.compress o.content'))
m('fr08','rawEvent','session not passed on','C82/C66: an answer counts only from the peer asked',(FR,'[.receive k sid m.url m.content]','[.receive k 0 m.url m.content]'))
m('fr09','Node.receive','node not updated','C82/C81: a received message takes effect',(FR,'o.content)))), r.2)','o.content)))), n)'))
m('fr10','packageGossip','endpoint not checked','C82: a bad endpoint is an error',(FR,'let e ← Endpoint.parse url\n  pure (z.compress (pbEncode (NetMsg.mk e.url content)))','pure (z.compress (pbEncode (NetMsg.mk url content)))'))
# keeper
m('ke01','SvcEvent.report','closed sessions not reported','C83: a closed session is not used again',(KE,'| .closed c => c.key.map (fun k => .detach (cfg.pidOf k))','| .closed _ => none'))
m('ke02','SvcEvent.report','opened sessions not reported','C83/C55: a connected user is reached',(KE,'| .opened c => c.key.map (fun k => .attach k c.sid c.addr c.outbound)','| .opened _ => none'))
m('ke03','SvcEvent.report','direction of the session swapped','C76: the address of an inbound session is not taken for the address of the peer',(KE,'.attach k c.sid c.addr c.outbound','.attach k c.sid c.addr (!c.outbound)'))
m('ke04','PingEvent.report','a ping time-out counts as a sign of life','C74/C77: a peer that times out is retried later',(KE,'| .timeout pid => .retryLater pid','| .timeout pid => .alive pid'))
m('ke05','PingEvent.report','a ping counts as a failure','C74: a peer that answers is not forgotten',(KE,'| .ping pid => .alive pid','| .ping pid => .retryLater pid'))
m('ke06','SvcError.report','session time-out removes the peer','C74: a peer is not forgotten because of a time-out',(KE,'| .sessionTimeout c => c.key.map (fun k => .retryLater (cfg.pidOf k))','| .sessionTimeout c => c.key.map (fun k => .remove (cfg.pidOf k))'))
m('ke07','SvcError.report','a blocked session is ignored','C84: an offender is cut off',(KE,'| .blocked c => c.key.map (fun _ => .removeBySession c.sid)','| .blocked _ => none'))
m('ke08','SvcError.report','protocol errors ignored','C84',(KE,'| .protocol sid => some (.removeBySession sid)','| .protocol _ => none'))
m('ke09','SvcError.report','listen errors handled as dial errors','C68/C74: own listening address',(KE,'| .listen e a => some (e.event false a)','| .listen e a => some (e.event true a)'))
m('ke10','SvcError.report','muxer error removes the peer','C74',(KE,'| .muxer c => c.key.map (fun k => .retryLater (cfg.pidOf k))','| .muxer c => c.key.map (fun k => .remove (cfg.pidOf k))'))
m('ke11','NetIn.report','misbehaving peers tolerated','C84',(KE,'| .misbehave sid => some (.removeBySession sid)','| .misbehave _ => none'))
m('ke12','NetIn.report','discovered addresses dropped','C76: discovered addresses are not lost',(KE,'| .discover addrs => some (.discover addrs)','| .discover _ => none'))
m('ke13','SvcError.report','unnamed protocol mismatch removes the peer','C74',(KE,'if named then .remove (cfg.pidOf k) else .retryLater (cfg.pidOf k)','if named then .remove (cfg.pidOf k) else .remove (cfg.pidOf k)'))
# server / gossip
m('sg01','richMessage','the committed height is announced instead of the next','C81',(SV,'encBuf (u64LE (epochId + 1).toNat)','encBuf (u64LE epochId.toNat)'))
m('sg02','richMessage','raw bytes without length','C81: the announcement can be read',(SV,'encBuf (u64LE (epochId + 1).toNat)','u64LE (epochId + 1).toNat'))
m('sg03','Node.commitSends','announced also if the commit failed','C81: a failed commit announces nothing',(SV,'  | .ok _ => [richMessage epochId]\n  | .error _ => []','  | .ok _ => [richMessage epochId]\n  | .error _ => [richMessage epochId]'))
m('sg04','Node.commitSends','announced twice','C81: announced once',(SV,'| .ok _ => [richMessage epochId]','| .ok _ => [richMessage epochId, richMessage epochId]'))
m('sg05','newTxsOrigin','received transactions are taken for local ones','C80: gossip does not circulate',(SV,'def newTxsOrigin : Bool := true','def newTxsOrigin : Bool := false'))
m('sg06','gossips','rejected transactions are gossiped','C80',(MP,'| .ok () => if netOrigin then [] else [tx]\n  | .error _ => []','| .ok () => if netOrigin then [] else [tx]\n  | .error _ => [tx]'))
m('sg07','gossips','nothing is gossiped','C80',(MP,'| .ok () => if netOrigin then [] else [tx]','| .ok () => []'))
m('sg08','newTxsHandler','first transaction only','C81: every transaction of a batch',(SV,'{ n with pool := txs.foldl','{ n with pool := (txs.take 1).foldl'))
m('sg09','Node.serve','announcements not acted on','C81',(SV,'| some (msg, _) => ([], (n.updateEpoch cfg io msg).2)','| some (_, _) => ([], n)'))
m('sg10','pullTxsHandler','answers with no transactions when some are missing','C30: all or nothing',(SV,'    match p.getFullTxs hs with\n    | .error _ => []','    match p.getFullTxs hs with\n    | .error _ => respond sid rid endRespPullTxs (encMulti ([] : List SignedTx))'))
# concurrency
m('cc11','Sys.stepPk','omitted transactions are dropped instead of moved','C21: an accepted transaction is not lost',(CC,'| .move a z pk id => { s with cache := (s.cache.push z id).2, pk := .drain a z pk }','| .move a z pk _ => { s with pk := .drain a z pk }'))
m('cc12','Sys.stepPk','does not wait for insertions under way','C21',(CC,'| .wait a z pk => if s.cache.count = 0 then { s with pk := .drain a z pk } else s','| .wait a z pk => { s with pk := .drain a z pk }'))
m('cc13','Sys.stepIns','reads the role before counting itself','C21',(CC,'| .inserted id => { s with cache := { s.cache with count := s.cache.count + 1 } }.setIns t (.counted id)\n  | .counted id => s.setIns t (.role id s.cache.isZero)','| .inserted id => s.setIns t (.role id s.cache.isZero)\n  | .counted id => s.setIns t (.role id s.cache.isZero)'))
m('cc14','Sys.stepIns','pushes before entering the map','C18/C21',(CC,'| some _ => s.setIns t (.done id (.error (.dup h)))','| some _ => s.setIns t (.done id (.ok ()))'))
m('cc15','Sys.stepPk','expired ones stay in the map','C21/C25: expired transactions leave the pool',(CC,'map := s.cache.map.deletes pk.timeouts }, pk := .done','map := s.cache.map }, pk := .done'))
m('cc16','Sys.stepIns','map entry kept after a failed push','C21: a rejected transaction leaves no trace',(CC,'else { s with cache := { s.cache with map := s.cache.map.remove h } }.setIns t (.done id (.error (.insert h)))','else s.setIns t (.done id (.error (.insert h)))'))
m('cc17','Sys.stepIns','limit not compared','C25: concurrent bound',(CC,'if s.poolSize ≤ s.cache.len then s.setIns','if false then s.setIns'))
m('cc18','Sys.stepIns','limit compared one too late','C25',(CC,'if s.poolSize ≤ s.cache.len then s.setIns','if s.poolSize < s.cache.len then s.setIns'))
# peer manager
m('pm01','Peer.resetRetry','nothing reset','C74: a sign of life starts the count afresh',(PE,'{ p with retry := 0 }','p'))
m('pm02','Peer.retryReady','ready at once','C75',(PE,'decide (p.nextRetry < now.tick)','true'))
m('pm03','PM.addPeer','user not registered','C55/C56',(PE,'userPid := upd s.userPid p.user (some p.id)\n    addrPid := fun a => if a ∈ p.addrs','userPid := s.userPid\n    addrPid := fun a => if a ∈ p.addrs'))
m('pm04','PM.addPeerAddr','address not mapped','C76',(PE,'| some p => { s with addrPid := upd s.addrPid a (some pid), pool','| some p => { s with pool'))
m('pm05','PM.identifyAddr','unknown address not kept','C76: an address is neither known nor lost',(PE,'| none => { s with unknown := upd s.unknown a (some ⟨false, 0⟩) }','| none => s'))
m('pm06','PM.cleanlyRemove','session left open in the tables','C56/C83',(PE,'let s1 := s.closeSession now pid\n  if isBootstrap cfg pid','let s1 := s\n  if isBootstrap cfg pid'))
m('pm07','PM.step alive','counts as failure','C74',(PE,'| .alive pid => (s.modify pid Peer.resetRetry, [])','| .alive pid => (s.increasePeerRetry cfg now pid, [])'))
m('pm08','PM.routine','unknown addresses dialled again while being dialled','C58/C59',(PE,'(s1.unknown a).map (fun u => { u with connecting := true })','(s1.unknown a)'))
m('pm09','PM.routine','peers chosen are not marked','C58: no peer dialled twice',(PE,'let s1 := pids.foldl PM.connectPeer s','let s1 := s'))
m('pm10','PM.bootstrap','bootstrap peers are not dialled','C57',(PE,'addrs ++ s1.bootAddrs }, [.connect addrs])','addrs ++ s1.bootAddrs }, [])'))
m('pm11','PM.reconnectLater','a connected peer is counted too','C74',(PE,'if pid ∈ s1.connected then s1 else s1.increasePeerRetry cfg now pid','s1.increasePeerRetry cfg now pid'))
m('pm12','PM.insertPeers','loaded peers have no addresses','C76/C57: saved peers are known after a restart',(PE,'addrPid := fun a => if a ∈ addrs then some (cfg.pidOf key) else s.addrPid a','addrPid := s.addrPid'))
m('pm13','PM.attach','address of an inbound session recorded','C76',(PE,'(if outbound then some a else none)','(some a)'))
m('pm14','PM.detach','short sessions: removed at once','C74',(PE,'then s1.increasePeerRetry cfg now pid else s1\n  | none => s1\n\n/-- `identify_addr`','then s1.cleanlyRemove cfg now pid else s1\n  | none => s1\n\n/-- `identify_addr`'))
m('pm15','PM.removePeerAddr','mapping stays','C76: a removed address is free again',(PE,'setRemove p.addrs a })) with addrPid := upd s.addrPid a none }','setRemove p.addrs a })) with addrPid := s.addrPid }'))
