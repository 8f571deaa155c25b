L='Model/ConsensusLock.lean'; C='Model/Consensus.lean'; S='Model/Server.lean'; X='Model/Executor.lean'
def m(i,F,d,e,c,*ed): muts[i]=dict(d=d,e=e,c=c,edits=[(F,a,b) for a,b in ed])
m('hf01',C,'syncIds','a synchronisation begins with the current epoch instead of the next','C113: a node never asks for the genesis epoch; epochs and states of the chain',("(fun k => current + 1 + UInt64.ofNat k)","(fun k => current + UInt64.ofNat k)"))
m('hf02',S,'rpcHandler','a request for an epoch is answered with the latest epoch','C113: the answer to a request for a height is the epoch stored for it',("    match n.store.epochs id with\n    | none => []\n    | some e => respond","    match n.store.latest with\n    | none => []\n    | some e => respond"))
m('hf03',S,'rpcHandler','transactions that are not stored are left out of the answer','C113: the answer to a request for transactions has exactly those asked for',("    match hs.mapM n.store.txs with\n    | none => []\n    | some txs => respond","    match some (hs.filterMap n.store.txs) with\n    | none => []\n    | some txs => respond"))
m('hf04',X,'fromRoot','a root that is not known is opened as the empty state','C113/C16: a node that can tell a balance at an epoch tells that of the state of its header',("(db root).map St.open","some (St.open ((db root).getD World.empty))"))
m('hf05',L,'Prog.syncOne','the height written for a synchronised epoch is the one asked for, while the epoch is that of the answer to the request for the next','C113: epochs of one height are the same on all nodes',("  match io.pullEpoch k id with\n  | none => .endSync (.error .network)","  match io.pullEpoch k (id - 1) with\n  | none => .endSync (.error .network)"))
