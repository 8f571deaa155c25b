muts={}
N='Model/NodeNet.lean'
def m(i,F,d,e,c,*ed): muts[i]=dict(d=d,e=e,c=c,edits=[(F,a,b) for a,b in ed])
m('nn01',N,'handlerCalls','the handler drops the first transaction of a batch','C115: every transaction of a batch is inserted',("| .ok txs => txs.mapIdx","| .ok txs => (txs.drop 1).mapIdx"))
m('nn02',N,'handlerCalls','the tasks of a batch get one number each per batch only (slots of earlier batches are reused)','C115: each call runs in a task of its own',(".callInsert (2 * (k + i) + 1)",".callInsert (2 * i + 1)"))
m('nn03',N,'contextId','messages of scheme rpc-call are not processed','C115: a request is replied to with what the node has then',("      | .ok r => some (some r)\n","      | .ok _ => none\n"))
m('nn04',N,'NodeTasks.handle','the number of started tasks is not advanced','C115: each call runs in a task of its own',("spawned := s.spawned + (handlerCalls s.spawned h m io).length","spawned := s.spawned"))
m('nn05',N,'OutMsg.wire','a reply goes to the next session','C115: what is replied goes to who asked',("(o.sid, z.compress","(o.sid + 1, z.compress"))
m('nn06',N,'Event.isOwn','calls may take the number of a task of a handler','C115: each call runs in a task of its own',("| some t => t % 2 == 0","| some _ => true"))
m('nn07',N,'handlerCalls','transactions of a batch are inserted as if a client had submitted them','C115: what is sent is what is called (origin of gossiped transactions)',("newTxsOrigin true tx","false true tx"))
m('nn08',N,'handlerCalls','an announcement starts two synchronisations','C115: an announcement starts one synchronisation',("[.callSync (2 * k + 1) io msg]","[.callSync (2 * k + 1) io msg, .callSync (2 * k + 3) io msg]"))
m('nn09',N,'NodeTasks.handle','a handler runs also if nothing was decoded: the replies are those of the old replies doubled','C115: what it replied are the replies of these handlers',("out := s.out ++ (handlerReplies","out := s.out ++ s.out ++ (handlerReplies"))
m('nn10',N,'NodeTasks.handle','the calls of the handler are not made','C115: every transaction of a batch is inserted',("conf := (handlerCalls s.spawned h m io).foldl (Conf.step cfg) s.conf","conf := s.conf"))
m('nn12',N,'handlerReplies','a request for epochs or transactions of the store is not answered','C115: a request is replied to with what the node has then',("    | .rpc => rpcHandler n sid rid m.content\n",""))

m('nn13',N,'handlerReplies','the reply carries the id 0 instead of that of the request','C115: the reply is for the request',("    | .rpc => rpcHandler n sid rid m.content\n","    | .rpc => rpcHandler n sid (rid.map fun _ => 0) m.content\n"))
m('nn14',N,'handlerReplies','the reply to a request goes to session 0','C115: what is replied goes to who asked',("    | .rpc => rpcHandler n sid rid m.content\n","    | .rpc => rpcHandler n 0 rid m.content\n"))
m('nn15',N,'nodeNetStep','a call of the consensus is skipped while messages are under way','C115: none of the calls of consensus and clients is left out',("| .own e => if e.isOwn then","| .own e => if e.isOwn && s.raws.isEmpty then"))
m('u15r','Model/Consensus.lean','NodeCfg.merkle','an empty list has the root of one zero hash','C52/C78: roots of empty lists',("(merkleRoot cfg.digest cfg.layout hs).getD cfg.emptyHash","(merkleRoot cfg.digest cfg.layout hs).getD (cfg.digest [0])"))
m('u31r','Model/PeerManager.lean','secsBetween','the time since is negative counts as zero','C75: waiting times',("def secsBetween (a b : Nat) : Nat := (a - b) + (b - a)","def secsBetween (a b : Nat) : Nat := a - b"))
