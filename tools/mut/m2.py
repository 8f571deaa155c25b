def m(i,d,e,c,*edits): 
    assert i not in muts; muts[i]=dict(d=d,e=e,c=c,edits=list(edits))
EX='Model/Executor.lean'; SA='Model/StateAdapter.lean'; CO='Model/Consensus.lean'; CL='Model/ConsensusLock.lean'; OC='Model/OverlordCrypto.lean'; ME='Model/Merkle.lean'
RL='Model/Rlp.lean'; FC='Model/FixedCodec.lean'; PB='Model/Protobuf.lean'; HX='Model/Hex.lean'; AP='Model/Api.lean'; MS='Model/Messages.lean'
EP='Model/Endpoint.lean'; RP='Model/Rpc.lean'; SV='Model/Server.lean'; PE='Model/PeerManager.lean'; CN='Model/Connection.lean'; TY='Model/Types.lean'
# network first: leaf modules
m('ep01','maxEndpointLength','120 becomes 121','C66: urls longer than 120 bytes are rejected',(EP,'def maxEndpointLength : Nat := 120','def maxEndpointLength : Nat := 121'))
m('ep02','Endpoint.parse','four components no longer allowed','C66',(EP,'∨ 4 < (urlComps s).length then','∨ 3 < (urlComps s).length then'))
m('ep03','Endpoint.root','root made of two components','C66: endpoints differing in the third component are different',(EP,"| a :: b :: c :: _ => some ('/' :: a ++ '/' :: b ++ '/' :: c)","| a :: b :: _ :: _ => some ('/' :: a ++ '/' :: b)"))
m('ep04','Endpoint.parse','scheme not checked','C66',(EP,'else if !gossipScheme.isPrefixOf s && !rpcCallScheme.isPrefixOf s && !rpcRespScheme.isPrefixOf s then','else if false then'))
m('ep05','readDec','overflow not detected','C66: an id is read exactly or rejected',(EP,'| some d => if acc * 10 + d < 2 ^ 64 then readDec (acc * 10 + d) cs else none','| some d => readDec (acc * 10 + d) cs'))
m('ep06','showNat','digits reversed','C66: rpc id round trip',(EP,'else showNat (n / 10) ++ [decDigit (n % 10)]','else decDigit (n % 10) :: showNat (n / 10)'))
m('ep07','Reactors.register','an earlier registration of the endpoint is kept first','C67: last registration wins',(EP,'(e, r) :: m.filter (fun x => x.1.root != e.root)','m ++ [(e, r)]'))
m('ep08','strLen','counts characters instead of bytes','C66',(EP,'(s.map Char.utf8Size).sum','s.length'))
m('rp01','RpcState.take','entry not removed','C53: at most one response per call',(RP,'let s1 := s.setMap t.key none\n','let s1 := s\n'))
m('rp02','RpcState.take','type not compared','C53: a response of another type is not delivered',(RP,'if b.ty = t.ty then s1.setChan b.call (some t.msg) else s1.setChan b.call none','s1.setChan b.call (some t.msg)'))
m('rp03','RpcState.step','ids not incremented','C53: two calls never share an id',(RP,'with next := s.next + 1 }','with next := s.next }'))
m('rp04','RpcCall.key','session ignored in the key','C53: only the called session can answer',(RP,'⟨c.sid, c.rid⟩','⟨0, c.rid⟩'))
m('rp05','RpcState.insert','the overwritten sender is not dropped','C53/C54',(RP,'| some old => s.setChan old.call none\n','| some _ => s\n'))
m('rp06','RpcCfg.response','any scheme is taken for a response','C53',(RP,'if e.scheme = some .rpcResp then','if true then'))
m('rp07','RpcState.step','a failed send leaves the call waiting','C54: a call whose message cannot be sent returns an error',(RP,'phase := if ok then .sent else .finished (.error .send)','phase := .sent'))
m('rp08','RpcState.take','delivered to the wrong call','C53',(RP,'s1.setChan b.call (some t.msg) else','s1.setChan t.key.sid (some t.msg) else'))
m('sv01','respond','rpc id not appended','C30: the answer reaches the call it belongs to',(SV,'match e.extend (showNat r.toNat) with','match e.extend (showNat 0) with'))
m('sv02','rpcHandler','answers with the latest epoch','C30: the epoch asked for is returned',(SV,'match n.store.epochs id with','match n.store.latest with'))
m('sv03','rpcHandler','missing transactions are skipped','C30: all transactions or no answer',(SV,'match hs.mapM n.store.txs with','match some (hs.filterMap n.store.txs) with'))
m('sv04','mainReactors','sync requests registered for the push handler','C30',(SV,'⟨rpcSyncPull⟩ .rpc)','⟨rpcSyncPull⟩ .newTxs)'))
m('sv05','RpcRequest.enc','case numbers swapped in the encoder','C30',(SV,'| .pullEpochs id => [0, 0, 0, 0] ++','| .pullEpochs id => [1, 0, 0, 0] ++'))
m('sv06','newTxsHandler','transactions inserted without the network-origin flag','a received transaction is not broadcast again',(SV,'(n.view cfg (fun _ => none) true) true tx).2) n.pool }','(n.view cfg (fun _ => none) true) false tx).2) n.pool }'))
m('sv07','mainReactors','pull_txs registered for its own handler (the intended program)','C30_refuted: the code registers the wrong handler',(SV,'⟨endPullTxs⟩ .newTxs)','⟨endPullTxs⟩ .pullTxs)'))
m('sv08','Node.serve','an update message is ignored','C67: messages reach their handler',(SV,'| some (msg, _) => ([], (n.updateEpoch cfg io msg).2)','| some (_, _) => ([], n)'))
m('sv09','pullTxsHandler','answers to another session','C30',(SV,'respond sid rid endRespPullTxs (encMulti txs)','respond (sid + 1) rid endRespPullTxs (encMulti txs)'))
m('cn01','ConnSvc.single','a busy command is dropped','C60: a command is not lost while the transport is open',(CN,'| _ => { s with calls := s.calls + 1, pending := s.pending ++ [cmd] }','| _ => { s with calls := s.calls + 1 }'))
m('cn02','ConnSvc.receive','keeps receiving although something is pending','C60: commands are not reordered',(CN,'if s.pending.isEmpty then (s.process ans c).receive ans cs else { s with inbox := c :: cs }','(s.process ans c).receive ans cs'))
m('cn03','ConnSvc.dials','a busy address is forgotten','C60',(CN,'(s\', r.map (a :: ·))','(s\', r)'))
m('cn04','ConnSvc.poll','pending commands are not retried','C60',(CN,'let s1 := s.pending.foldl (fun s c => s.process ans c) { s with pending := [] }','let s1 := s'))
m('cn05','ConnSvc.poll','pending commands are kept and retried: executed twice','C60: a command is executed once',(CN,'s.pending.foldl (fun s c => s.process ans c) { s with pending := [] }','s.pending.foldl (fun s c => s.process ans c) s'))
m('cn06','usersSend','missed users not reported','C55',(CN,'if missed.isEmpty then .ok () else .error missed','.ok ()'))
m('cn07','ConnSvc.process','left-over addresses: all addresses retried','C60: an accepted address is dialled once',(CN,"pending := s'.pending ++ [.connect left] }","pending := s'.pending ++ [.connect addrs] }"))
m('cn08','DialError.event','a time-out is reported as unconnectable','C68: a peer is not forgotten because of a time-out',(CN,'| .timedOut => .reconnectLater a','| .timedOut => .unconnectable a'))
m('pe01','PM.attach','sessionPeer not updated','C57: the two session tables agree',(PE,'sessionPeer := upd s2.sessionPeer sid (some (cfg.pidOf key)) }','sessionPeer := s2.sessionPeer }'))
m('pe02','PM.closeSession','session of the peer not removed','C57',(PE,'{ s1 with peerSession := upd s1.peerSession pid none, sessionPeer := upd s1.sessionPeer sid none }','{ s1 with sessionPeer := upd s1.sessionPeer sid none }'))
m('pe03','PM.cleanlyRemove','bootstrap peers are removed too','C58: bootstrap peers are never forgotten',(PE,'if isBootstrap cfg pid then s1.modify pid (fun p => (p.resetRetry.increaseRetry now).increaseRetry now)\n  else s1.removePeer pid','s1.removePeer pid'))
m('pe04','PM.unconnectable','bootstrap addresses are removed','C58',(PE,'if a ∈ s1.bootAddrs then s1 else s1.tryRemoveAddr a','s1.tryRemoveAddr a'))
m('pe05','PM.connectPeer','a connected peer is also marked connecting','C56: connected and connecting are disjoint',(PE,'if pid ∈ s.connected then s else { s with connecting','if false then s else { s with connecting'))
m('pe06','PM.setConnected','stays in connecting','C56',(PE,'connecting := setRemove s.connecting pid\n    connected := setInsert s.connected pid }','connected := setInsert s.connected pid }'))
m('pe07','PM.routeUsers','users without a peer are not reported','C55: every user is reached or reported',(PE,'| none => (sids, peers, u :: nobody)','| none => (sids, peers, nobody)'))
m('pe08','PM.route','only users without a session are reported','C55',(PE,'peers.map Peer.user ++ nobody)','peers.map Peer.user)'))
m('pe09','PM.qualified','a connecting peer is dialled again','C59: no peer is dialled twice at a time',(PE,'!decide (pid ∈ s.connected) && !decide (pid ∈ s.connecting) && p.retryReady now','!decide (pid ∈ s.connected) && p.retryReady now'))
m('pe10','PM.routine','limit not looked at','C59: dialling stops at the maximum',(PE,'if n < cfg.maxConnections then','if true then'))
m('pe11','PM.disconnectPeer','stays connected','C56',(PE,'connecting := setRemove s.connecting pid\n    connected := setRemove s.connected pid }\n\n/-- `connection_count`','connecting := setRemove s.connecting pid }\n\n/-- `connection_count`'))
m('pe12','PM.removePeer','addresses of the peer stay mapped','C57: every mapped address belongs to a known peer',(PE,'addrPid := fun a => if a ∈ p.addrs then none else s.addrPid a }','addrPid := s.addrPid }'))
m('pe13','PM.removePeer','user mapping stays','C57',(PE,'userPid := upd s.userPid p.user none\n','userPid := s.userPid\n'))
m('pe14','PM.reachMaxRetry','one retry too early','C68: forgotten only after 6 retries',(PE,'| some p => decide (maxRetryCount ≤ p.retry)','| some p => decide (maxRetryCount ≤ p.retry + 1)'))
m('pe15','Peer.increaseRetry','counts attempts within the interval','C68',(PE,'if secsBetween now.secs p.attemptAt < validAttemptInterval then p\n  else','if false then p\n  else'))
m('pe16','Peer.increaseRetry','no backoff','C59: a failed peer is not dialled before its backoff',(PE,'nextRetry := now.tick + backoffBase ^ (p.retry + 1)','nextRetry := now.tick'))
m('pe17','PM.detach','a short session is not counted','C68',(PE,'if p.alive < aliveRetryInterval then s1.increasePeerRetry cfg now pid else s1','s1'))
m('pe18','PM.route','message sent to nobody','C55',(PE,'([.send sids msg, .connect','([.send [] msg, .connect'))
m('pe19','PM.matchPid','peer id of the address not compared','C57/C59: an address with another peer id does not count for the peer',(PE,'| .p2p q :: _ => if pid = q then some pid else none','| .p2p _ :: _ => some pid'))
m('pe20','PM.identifyAddr','address of an unconnected known peer added to the unknown ones','C59',(PE,'| some pid => if pid ∈ s.connected then s.addPeerAddr pid a else s\n  | none =>','| some pid => if pid ∈ s.connected then s.addPeerAddr pid a else { s with unknown := upd s.unknown a (some ⟨false, 0⟩) }\n  | none =>'))
m('pe21','PM.addSessionAddr','the address stays unknown','C59',(PE,'let s1 := { s with unknown := upd s.unknown a none }\n  match s1.sessionPeer sid with','let s1 := s\n  match s1.sessionPeer sid with'))
m('pe22','PM.step retryLater','session not closed','C56',(PE,'| some sid => (s1, [.disconnect sid])','| some _ => (s1, [])'))
m('pe23','PM.new','we are not in the connected set','C59/C56: the own id counts as connected',(PE,'connected := [cfg.ourId]','connected := []'))
# crypto etc
m('oc01','OverlordCrypto.verifySignature','signature and hash swapped','C44/C45',(OC,'if c.verify hash tmp pubkey then','if c.verify tmp hash pubkey then'))
m('oc02','OverlordCrypto.verifySignature','32 bytes of public key','C44',(OC,'let pubkey := signature.take 33','let pubkey := signature.take 32'))
m('oc03','OverlordCrypto.sign','public key after the signature','C44: what is signed verifies',(OC,'some (c.pubkey ++ s)','some (s ++ c.pubkey)'))
m('oc04','OverlordCrypto.verifySignature','bound < 33 becomes < 32','C44: short signatures abort exactly below 33 bytes',(OC,'if signature.length < 33 then','if signature.length < 32 then'))
m('me01','merkleMerge','arguments swapped','C46: the root of two leaves is digest(left ++ right)',(ME,'digest (l.bytes ++ r.bytes)','digest (r.bytes ++ l.bytes)'))
m('me02','merkleMerge','right child ignored','C46: changing a leaf changes the root',(ME,'digest (l.bytes ++ r.bytes)','digest (l.bytes ++ l.bytes)'))
m('me03','merkleRoot','empty input has a root','C46',(ME,'if hs = [] then none else some','if false then none else some'))
# api, messages, hex
m('ap01','fromStrRadix16','overflow wraps','C47',(AP,'| some n => if n < 2 ^ 64 then some (UInt64.ofNat n) else none','| some n => some (UInt64.ofNat n)'))
m('ap02','coverRaw','nonce and chain id swapped','C48',(AP,'pure { chainId, nonce, timeout, fee := { assetId, cycle }, action }','pure { chainId := nonce, nonce := chainId, timeout, fee := { assetId, cycle }, action }'))
m('ap03','coverRaw','timeout and cycle swapped','C48',(AP,'let timeout ← readU64 i.timeout','let timeout ← readU64 i.feeCycle'))
m('ap04','coverSigned','signature and public key swapped','C48',(AP,'let pubkey ← readBytes e.pubkey\n  let signature ← readBytes e.signature','let signature ← readBytes e.pubkey\n  let pubkey ← readBytes e.signature'))
m('ap05','coverTransfer','fee asset carried','C48',(AP,'let amount ← readBalance i.carryingAmount','let amount ← readBalance i.receiver'))
m('ap06','showU64','little endian','C47',(AP,'hexEncode (u64BE n)','hexEncode (u64BE n).reverse'))
m('ap07','stripPlus','+ not accepted','C47',(AP,"| '+' :: rest => rest\n  | s => s\n\n/-- `u64::from","| '-' :: rest => rest\n  | s => s\n\n/-- `u64::from"))
m('ms01','u64LE','big endian','C49/C50: message bodies round trip',(MS,'(List.range 8).map (fun i => UInt8.ofNat (n / 256 ^ i % 256))','(List.range 8).map (fun i => UInt8.ofNat (n / 256 ^ (7 - i) % 256))'))
m('ms02','readBuf','`<` becomes `≤`','C50',(MS,'if rest.length < n then none','if rest.length ≤ n then none'))
m('ms03','flagTxs','same flag for both','C50',(MS,'def flagTxs : UInt8 := 98','def flagTxs : UInt8 := 97'))
m('ms04','readElems','only the first element','C50',(MS,'let vs ← readElems n rest\n      pure (v :: vs)','let vs ← readElems n bs\n      pure (v :: vs)'))
m('ms05','RpcResponse.dec','an unknown flag is an error instead of an abort','C51 (refuted): a malformed answer aborts',(MS,'    else .error .panic\n\nend Huobi','    else .error .rejected\n\nend Huobi'))
m('hx01','hexDigit','upper case','C47: shown as lower case digits',(HX,'Char.ofNat (87 + n)','Char.ofNat (55 + n)'))
m('hx02','hexVal','g accepted','C47',(HX,'97 ≤ n ∧ n ≤ 102','97 ≤ n ∧ n ≤ 103'))
m('hx03','hexEncode','nibbles swapped','C47',(HX,'hexDigit (b.toNat / 16) :: hexDigit (b.toNat % 16)','hexDigit (b.toNat % 16) :: hexDigit (b.toNat / 16)'))
m('hx04','hexDecode','odd trailing digit ignored','C47',(HX,'| [_] => none','| [_] => some []'))
m('hx05','clean0x','0X prefix instead of 0x','C47',(HX,"| '0' :: 'x' :: rest => rest","| '0' :: 'X' :: rest => rest"))
