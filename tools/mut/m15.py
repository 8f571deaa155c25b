M='Model/Mail.lean'; L='Model/ConsensusLock.lean'
def m(i,F,d,e,c,*ed): muts[i]=dict(d=d,e=e,c=c,edits=[(F,a,b) for a,b in ed])
m('ml01',M,'Mail.step','a message that arrives while the router is busy is dropped','C107: handled as often as it arrived',("  | .arrive sid raw => { s with raws := s.raws ++ [(sid, raw)] }","  | .arrive sid raw => { s with raws := if s.routing = [] then s.raws ++ [(sid, raw)] else s.raws }"))
m('ml02',M,'Mail.step','the router keeps the message in its queue','C107: handled exactly as often as it arrived',("    | x :: xs => { s with raws := xs, routing := s.routing ++ [x] }","    | x :: xs => { s with raws := x :: xs, routing := s.routing ++ [x] }"))
m('ml03',M,'Mail.step','an error of routing is fatal: all messages being routed are lost','C107: messages that are for a reactor are handled',("      | none => { s with routing := s.routing.eraseIdx i }","      | none => { s with routing := [] }"))
m('ml04',M,'Mail.step','a routed message is handed on twice','C107: handled once',("queues := s.queues ++ [y] }","queues := s.queues ++ [y, y] }"))
m('ml05',M,'takeFor','a reactor takes the first message of any reactor','C107: handled by the reactor of its endpoint (each reactor only waits for its own)',("    if x.1 = r then some (x, xs)\n","    if x.1 = r ∨ xs ≠ [] then some (x, xs)\n"))
m('ml06',M,'takeFor','messages before the one taken are lost','C107: handled as often as it arrived',("      | some (y, ys) => some (y, x :: ys)","      | some (y, ys) => some (y, ys)"))
m('ml07',M,'MailCfg.routed','the session is not handed on','C107: handled with its session',("    | .ok r => some (r, x.1, m)","    | .ok r => some (r, 0, m)"))
m('ml08',M,'Mail.step','the handler of the first waiting message runs, another one is removed','C107: each handled once',("    | some y => { s with reacting := s.reacting.eraseIdx i,","    | some y => { s with reacting := s.reacting.eraseIdx 0,"))
m('ml09',M,'Mail.step','a message that cannot be decoded blocks its task for ever','C107: no message waits for ever',("      | none => { s with routing := s.routing.eraseIdx i }","      | none => s"))
m('ml10',M,'Node.handle','replies go to session 0','C107/C67: replies go to the session that asked',("(rpcHandler s.2 sid rid m.content, s.2)","(rpcHandler s.2 0 rid m.content, s.2)"))
m('ml11',M,'Node.handle','earlier replies are overwritten','C107: the bytes sent in reply are those of all messages',("  (s.1 ++ r.1.map","  (r.1.map"))
m('ml12',M,'Node.handle','a batch that was pulled is also inserted on a response','C107: node as after receiving the messages',("        | .respPushTxs => ([], s.2)","        | .respPushTxs => ([], newTxsHandler cfg s.2 m.content)"))
m('apeerma03r','Model/PeerManager.lean','identifyAddr','the address an identified peer listens at is recorded only if it is not connected','C76: a connected peer that tells its address is recorded with it',('  | some pid => if pid ∈ s.connected then s.addPeerAddr pid a else s','  | some pid => if pid ∉ s.connected then s.addPeerAddr pid a else s'))
m('pr01',L,'Prog.propose','the state root of the proposal is read after packaging, the rest before','C78 (overlapping calls): the proposal describes one recorded epoch in all fields',("                stateRoot := n0.status.stateRoot, receiptRoot","                stateRoot := n1.status.stateRoot, receiptRoot"))
m('pr02',L,'Prog.propose','the height asked for is compared with the status at a second look','C78 (overlapping calls): it is one higher than the epoch it describes',("          if n0.status.epochId ≠ epochId then .ret (.propose","          if n1.status.epochId ≠ epochId then .ret (.propose"))
m('pr03',L,'Prog.updateStatus','the guard is dropped before the status is updated','C78/C41 (overlapping calls)',("  .act (fun n => { n with status := n.status.updated cfg epochId epoch proof resp }) (fun _ => next)","  .act id fun _ => .unlock .engine <| .act (fun n => { n with status := n.status.updated cfg epochId epoch proof resp }) (fun _ => next)"))
m('pr04',L,'Prog.propose','the proof of the proposal is read after packaging','C78 (overlapping calls): the proposal carries the proof of the epoch it describes',("proof := n0.status.proof, validatorVersion","proof := n.status.proof, validatorVersion"))
