def m(i,d,e,c,*edits): 
    assert i not in muts; muts[i]=dict(d=d,e=e,c=c,edits=list(edits))
SU='Model/Startup.lean'
m('su01','parseBootstraps','entries with a malformed key are skipped','C92: a malformed entry makes the start fail',(SU,"    match toPeer digest x with\n    | none => none","    match toPeer digest x with\n    | none => parseBootstraps digest xs"))
m('su02','parseVerifiers','malformed validators are skipped','C92',(SU,"    match UserAddress.fromHex v with\n    | none => none","    match UserAddress.fromHex v with\n    | none => parseVerifiers vs"))
m('su03','NetStart.listen','the real address is announced','C92: statement about port 0 (intended program)',(SU,"announced := some (socketToMulti a) }","announced := some real }"))
m('su04','NetStart.run','announced address replaced by the default','C92',(SU,"  | some _ => some { s with announced := some (s.announced.getD defaultListen) }","  | some _ => some { s with announced := some defaultListen }"))
m('su05','registerHandler','scheme not checked','C92',(SU,"if e.scheme = some .rpcResp then .error .unexpectedScheme else .ok (rs.register e h)","if e.scheme = none then .error .unexpectedScheme else .ok (rs.register e h)"))
m('su06','boot','genesis run again over an existing chain','C92/C13: a genesis file has no effect once there is a chain',(SU,"handleInit (f.node fx chainId self []) g store tries","handleInit (f.node fx chainId self []) g Store.empty tries"))
m('su07','FileCfg.node','cycles limit and price swapped','C92',(SU,"cyclesPrice := f.cyclesPrice, cyclesLimit := f.cyclesLimit","cyclesPrice := f.cyclesLimit, cyclesLimit := f.cyclesPrice"))
m('su08','FileCfg.node','timeout gap is the pool size','C92',(SU,"timeoutGap := f.timeoutGap","timeoutGap := f.poolSize"))
m('su09','toPeer','port of the listening address... 1337 for every bootstrap','C92',(SU,"socketToMulti x.2⟩)","[x.2.ip.proto, .tcp 1337]⟩)"))
m('su10','socketToMulti','port first','C92',(SU,"def socketToMulti (a : SocketAddr) : Multi := [a.ip.proto, .tcp a.port]","def socketToMulti (a : SocketAddr) : Multi := [.tcp a.port, a.ip.proto]"))
m('su11','IpAddr.proto','v6 written as v4','C92: addresses are used as written',(SU,"  | .v6 b => .ip6 b","  | .v6 b => .ip4 b"))
m('su12','parseIdentity','address computed from the secret key','C92',(SU,"      | some pk => .ok (chainId, sk, UserAddress.fromPubkey fx.digest pk)","      | some _ => .ok (chainId, sk, UserAddress.fromPubkey fx.digest sk)"))
m('su13','parseIdentity','private key read with an optional 0x','C92: malformed entries make the start fail',(SU,"    match hexDecode f.privkey with","    match hexDecode (clean0x f.privkey) with"))
m('su14','startAll','a failing listen is ignored','C92',(SU,"      | (false, _) => .error .listen\n      | (true, net) =>","      | (_, net) =>"))
m('su15','registerAll','pull_txs handler registered properly (intended program)','C92/C58',(SU,"registerHandler r endPullTxs .newTxs","registerHandler r endPullTxs .pullTxs"))
m('su16','parseVerifiers','weight of validators zero','C92',(SU,"some xs => some (⟨a, 1, 1⟩ :: xs)","some xs => some (⟨a, 0, 1⟩ :: xs)"))
m('su17','multiIp','host of a version 6 address not found','C92',(SU,"  | .ip6 b :: _ :: _ => some (.v6 b)","  | .ip6 b :: _ => some (.v4 b)"))
m('su18','NetStart.listen','a second listen rebinds','C92',(SU,"  | some _ => (true, s)\n  | none =>\n    match w.bind (socketToMulti a)","  | some _ => (true, { s with announced := some (socketToMulti a) })\n  | none =>\n    match w.bind (socketToMulti a)"))
m('su19','startAll','start does not look at the verifiers','C92',(SU,"          match parseVerifiers f.verifiers with\n          | none => .error .verifier","          match parseVerifiers [] with\n          | none => .error .verifier"))
m('su20','startAll','bootstraps ignored','C92',(SU,"match NetStart.listen w ⟨sk, peers, none, none⟩","match NetStart.listen w ⟨sk, peers.drop 1, none, none⟩"))
