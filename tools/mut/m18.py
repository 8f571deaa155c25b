L='Model/ConsensusLock.lean'; C='Model/Consensus.lean'
def m(i,F,d,e,c,*ed): muts[i]=dict(d=d,e=e,c=c,edits=[(F,a,b) for a,b in ed])
m('nf01',L,'Prog.updateStatus','the epoch kept as the latest has lost its transaction list','C111: latest epochs of one height are the same as those by height on any node',("(((StoreOp.writes cfg.digest (.insertEpoch epoch)).drop 2).take 1)","(((StoreOp.writes cfg.digest (.insertEpoch { epoch with orderedTxHashes := [] })).drop 2).take 1)"))
m('nf02',L,'Prog.updateStatus','the epoch is stored with the address of the node as proposer','C111: two nodes show the same epoch for a height',("(((StoreOp.writes cfg.digest (.insertEpoch epoch)).drop 0).take 1)","(((StoreOp.writes cfg.digest (.insertEpoch { epoch with header := { epoch.header with proposer := cfg.selfAddress } })).drop 0).take 1)"))
m('nf03',L,'Prog.commitTail','the fees of a committed epoch go to the committing node','C111: receipts/balances are the same on all nodes',("  .act (fun n => (n.exec cfg n0.status.stateRoot epochId (.user pill.epoch.header.proposer) txs).2) fun n =>\n    match (n.exec cfg n0.status.stateRoot epochId (.user pill.epoch.header.proposer) txs).1 with","  .act (fun n => (n.exec cfg n0.status.stateRoot epochId (.user cfg.selfAddress) txs).2) fun n =>\n    match (n.exec cfg n0.status.stateRoot epochId (.user cfg.selfAddress) txs).1 with"))
m('nf04',L,'Prog.updateStatus','the epoch is recorded under the next height','C111: recorded epochs of one height agree with the chain',("log := ⟨epochId, epoch, proof","log := ⟨epochId + 1, epoch, proof"))
m('nf05',L,'Prog.updateStatus','the status is not updated','C111: nodes that have recorded equally many epochs agree on their next proposals',("  .act (fun n => { n with status := n.status.updated cfg epochId epoch proof resp }) (fun _ => next)","  .act id (fun _ => next)"))
m('nf06',C,'handleInit','every start runs the genesis and overwrites the latest epoch','C111: the epochs a node shows are those of the chain over restarts',("  | some _ => some (store, tries)\n  | none =>","  | _ =>"))
m('nf07',L,'Prog.commitTail','execution uses the state root of the epoch header','C111: states of nodes that recorded equally many epochs agree',("  .act (fun n => (n.exec cfg n0.status.stateRoot epochId (.user pill.epoch.header.proposer) txs).2) fun n =>\n    match (n.exec cfg n0.status.stateRoot epochId (.user pill.epoch.header.proposer) txs).1 with","  .act (fun n => (n.exec cfg pill.epoch.header.stateRoot epochId (.user pill.epoch.header.proposer) txs).2) fun n =>\n    match (n.exec cfg pill.epoch.header.stateRoot epochId (.user pill.epoch.header.proposer) txs).1 with"))
m('nf08',C,'NodeCfg.genesisEpoch','the genesis epoch names the node that created it as proposer','C111: the genesis epoch is the same on all nodes',("        proposer := ⟨List.replicate 20 0, by simp⟩\n        proof := ⟨0, 0, cfg.emptyHash","        proposer := cfg.selfAddress\n        proof := ⟨0, 0, cfg.emptyHash"))
m('nw01',L,'Prog.insert','the signature is checked of transactions of peers only','C112: every executed transaction in the network is signed',("  .test (fun _ => MemPool.checkSignature cfg.mem tx) fail <|","  .test (fun _ => if netOrigin then MemPool.checkSignature cfg.mem tx else .ok ()) fail <|"))
m('nw02','Model/Mempool.lean','gossips','transactions are gossiped before they are checked','C112: what a node sends it holds in its pool or store',("  | .ok () => if netOrigin then [] else [tx]\n  | .error _ => []","  | .ok () => if netOrigin then [] else [tx]\n  | .error _ => if netOrigin then [] else [tx]"))
m('nw03',L,'Prog.insert','an insertion keeps the transaction with an empty signature','C112: transactions are those that were submitted, signed',(".act (fun n => { n with pool := { n.pool with cache := (n.pool.cache.insert tx false).2 } }) fun n =>\n    match (n.pool.cache.insert tx false).1 with",".act (fun n => { n with pool := { n.pool with cache := (n.pool.cache.insert { tx with signature := [] } false).2 } }) fun n =>\n    match (n.pool.cache.insert { tx with signature := [] } false).1 with"))
m('nw04','Model/Server.lean','rpcHandler','a request for transactions is answered with the latest ones of a fixed list','C112: replies carry stored transactions',("    | some txs => respond sid rid rpcRespSyncPull (RpcResponse.pullTxs txs).enc","    | some txs => respond sid rid rpcRespSyncPull (RpcResponse.pullTxs (txs.map (fun t => { t with signature := [] }))).enc"))
