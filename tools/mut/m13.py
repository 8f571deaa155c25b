F='Model/ConsensusLock.lean'
def m(i,d,e,c,*ed): muts[i]=dict(d=d,e=e,c=c,edits=[(F,a,b) for a,b in ed])
m('cz01','Prog.insert','the store is not asked for the transaction','C101: a transaction is executed at most once, whatever calls overlap',
 ("  .test (fun n => MemPool.checkStorageExist (n.view cfg (fun _ => none) broadcastOk) tx.txHash) fail <|\n",""))
m('cz02','Prog.insert','transactions in the pool are not rejected before the insertion','C41: the calls in sequence are among the schedules',
 ("  .test (fun n => n.pool.checkExist tx.txHash) fail <|\n",""))
m('cz03','Prog.commitTail','the pool is not flushed','C101: a transaction is executed at most once, whatever calls overlap',
 ("  .act (fun n => { n with pool := n.pool.flush pill.epoch.orderedTxHashes }) fun _ =>\n  -- current","  .act (fun n => { n with pool := n.pool.flush [] }) fun _ =>\n  -- current"))
m('cz04','Prog.commit','the engine lock is not taken','C41: only the holder of the lock changes the chain',
 ("  .lock .engine\n    (match proof.toProof with","  .lock .sync\n    (match proof.toProof with"))
m('cz05','Prog.updateStatus','the transactions are not stored','C102/C101: as if in sequence; executed once',
 ("  .write io.txs (fun n => { n with store := n.store.writes (StoreOp.writes cfg.digest (.insertTransactions txs)) }) fail <|\n",""))
m('cz06','Prog.updateStatus','transactions are stored before the receipts','C102: at every crash point the data is that of calls in sequence',
 ("  .write io.receipts (fun n => { n with store := n.store.writes (StoreOp.writes cfg.digest (.insertReceipts resp.receipts)) }) fail <|\n  .write io.txs (fun n => { n with store := n.store.writes (StoreOp.writes cfg.digest (.insertTransactions txs)) }) fail <|\n",
  "  .write io.txs (fun n => { n with store := n.store.writes (StoreOp.writes cfg.digest (.insertTransactions txs)) }) fail <|\n  .write io.receipts (fun n => { n with store := n.store.writes (StoreOp.writes cfg.digest (.insertReceipts resp.receipts)) }) fail <|\n"))
m('cz07','Prog.endCommit','the lock is not released','C41/C63: tasks go on in any order',
 ("def Prog.endCommit (r : Except CErr UInt64) : Prog := .unlock .engine (.ret (.commit r))","def Prog.endCommit (r : Except CErr UInt64) : Prog := .ret (.commit r)"))
m('cz08','Prog.sync','the engine lock is not taken','C41: only the holder of the lock changes the chain',
 ("          .lock .engine (.syncBody cfg io (UInt64.ofNat v - 1) n.currentId)\n            (.unlock .sync (.ret (.sync (.ok none)))))","          .lock .sync (.syncBody cfg io (UInt64.ofNat v - 1) n.currentId)\n            (.unlock .sync (.ret (.sync (.ok none)))))"))
m('cz09','Prog.propose','the proposal is not remembered as checked','C41: the calls in sequence are among the schedules',
 (".act (fun n => { n with exempt := hash :: n.exempt }) fun _ => .ret (.propose (.ok (pill, hash)))",".ret (.propose (.ok (pill, hash)))"))
m('cz10','Prog.check','an own proposal is synchronised like any other','C41: the calls in sequence are among the schedules',
 ("    if hash ∈ n.exempt then .full pill.epoch.orderedTxHashes\n    else ","    "))
m('cz11','Prog.ensure','the number of transactions pulled is not compared','C41/C27: incomplete answers are refused',
 ("        if txs.length ≠ unknown.length then .ret (.check (.error (.mempool (.ensureBreak unknown.length txs.length))))\n        else .each","        .each"))
m('cz12','Prog.commitTail','the epoch is executed on the root its header names','C102/C99: as if in sequence',
 ("(n.exec cfg n0.status.stateRoot epochId (.user pill.epoch.header.proposer) txs).2","(n.exec cfg pill.epoch.header.stateRoot epochId (.user pill.epoch.header.proposer) txs).2"),
 ("(n.exec cfg n0.status.stateRoot epochId (.user pill.epoch.header.proposer) txs).1","(n.exec cfg pill.epoch.header.stateRoot epochId (.user pill.epoch.header.proposer) txs).1"))
m('cz13','Prog.write','a failed write is not reported','C41/C102: a commit whose writes fail fails',
 ("(fun _ => if ok then next else fail)","(fun _ => next)"))
m('cz14','Conf.step','a lock is granted although it is held','C41: only one task at a time works on the chain',
 ("if (c.held l).isNone then (c.setLock l (some t)).setTask t (some ok) else c.setTask t (some busy)","(c.setLock l (some t)).setTask t (some ok)"))
m('cz15','Prog.commit','the transactions are taken before the lock','C41/C102: as if in sequence',
 ("  .lock .engine\n    (match proof.toProof with\n    | none => .endCommit (.error .badProof)\n    | some p =>\n","  .act id fun nn => .lock .engine\n    (match proof.toProof with\n    | none => .endCommit (.error .badProof)\n    | some p =>\n"),
 ("              match n.pool.getFullTxs pill.epoch.orderedTxHashes with\n              | .error e => .endCommit","              match nn.pool.getFullTxs pill.epoch.orderedTxHashes with\n              | .error e => .endCommit"))
m('cz16','Prog.updateStatus','the status is set before the epoch is recorded','C102: as if in sequence',
 ("  .write (decide (0 < io.epochWrites)) (fun n => { n with store := n.store.writes (((StoreOp.writes cfg.digest (.insertEpoch epoch)).drop 0).take 1) }) fail <|\n",
  "  .write (decide (0 < io.epochWrites)) (fun n => { n with status := n.status.updated cfg epochId epoch proof resp, store := n.store.writes (((StoreOp.writes cfg.digest (.insertEpoch epoch)).drop 0).take 1) }) fail <|\n"))
m('cz17','Prog.syncOne','the proof of the epoch is not stored','C41/C102: as if in sequence',
 ("      .act (fun n => (n.saveProof cfg (io.save k) epoch.header.proof).2) fun n =>","      .act id fun n =>"))
m('cz18','Prog.syncPropose','proposed transactions are kept as ordered ones','C41: the calls in sequence are among the schedules',
 ("(n.pool.cache.insert tx true).2 } }) next txs","(n.pool.cache.insert tx false).2 } }) next txs"))
m('cz19','Prog.insert','an inserted transaction counts as proposed','C41: the calls in sequence are among the schedules',
 ("cache := (n.pool.cache.insert tx false).2 } }) fun n =>","cache := (n.pool.cache.insert tx true).2 } }) fun n =>"))
m('cz20','Prog.syncLoop','the root is not passed on','C41/C102: as if in sequence',
 ("(fun h r => Prog.syncLoop cfg io next (k + 1) ids h r)","(fun h _ => Prog.syncLoop cfg io next (k + 1) ids h r)"))
m('cz21','Prog.commit','an unreadable proof counts as no error','C41: results of the tasks are those of the serial order',
 ("| none => .endCommit (.error .badProof)","| none => .endCommit (.ok epochId)"))
m('cz22','Prog.commitTail','the commit goes on although the execution failed','C102/C41: as if in sequence',
 ("    | .error e => .endCommit (.error e)\n    | .ok resp =>\n      .updateStatus","    | .error _ => .endCommit (.ok (epochId + 1))\n    | .ok resp =>\n      .updateStatus"))
