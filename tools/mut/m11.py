def m(i,d,e,c,*edits): 
    assert i not in muts; muts[i]=dict(d=d,e=e,c=c,edits=list(edits))
DK='Model/Disk.lean'
m('dk01','Db.save','the last write of a batch is skipped','C98: what was stored is found again',(DK,"  | w :: ws => if w.tooLong lk","  | [_] => (true, db)\n  | w :: ws => if w.tooLong lk"))
m('dk02','diskInit','a disk whose latest epoch does not decode is initialised again','C98 (no claim broken while every record decodes)',(DK,"  | .error (.codec _) => (.ok false, rocks, tries)\n  | .error .getNone =>","  | .error _ =>"))
m('dk03','diskInit','genesis is executed with an epoch id of 1','C98: same genesis state (nothing in genesis reads the height)',(DK,"(cfg.env 0 cfg.cyclesPrice (.user cfg.selfAddress)) order tries g with","(cfg.env 1 cfg.cyclesPrice (.user cfg.selfAddress)) order tries g with"))
m('dk04','diskInit','the proof of the genesis epoch is not stored','C98: the disk holds what the tables hold',(DK,"(.insertEpoch e) ++ StoreOp.writes cfg.digest (.updateLatestProof e.header.proof)\n      match rocks","(.insertEpoch e)\n      match rocks"))
m('dk05','diskStart','started from the epoch at height 0','C98: restart continues at the latest epoch',(DK,"  match rocks.getLatestEpoch .rocks cfg.keys with\n  | .error _ => none\n  | .ok e => some {","  match rocks.getEpochById .rocks 0 with\n  | .error _ => none\n  | .ok e => some {"))
m('dk06','DNode.exec','the executor opens the latest root of the status, not the given one','C98: synchronisation executes on the root of the chain it follows',(DK,"L.showCodec order d.tries root txs with","L.showCodec order d.tries d.status.stateRoot txs with"))
m('dk07','DNode.exec','committed tries are lost when the block succeeds','C98: the next block can open its state',(DK,"  | (some (.ok resp), t) => (.ok resp, { d with tries := t })","  | (some (.ok resp), _) => (.ok resp, d)"))
m('dk08','DNode.save','a write that runs out of memory is reported as done','C98',(DK,"  | (false, db) => (.error .memory, { d with rocks := db })","  | (false, db) => (.ok (), { d with rocks := db })"))
m('dk09','DNode.saveProof','the proof is not written','C98',(DK,"  if io.proof then d.save cfg (StoreOp.writes cfg.digest (.updateLatestProof p))","  if io.proof then (.ok (), d)"))
m('dk10','DNode.updateStatus','transactions stored before receipts','C98: a failure in between leaves different records',(DK,"(.insertReceipts resp.receipts)) with\n    | (.error e, d1) => (.error e, d1)\n    | (.ok (), d1) =>\n      if io.txs = false then (.error (.node .storage), d1)\n      else\n        match d1.save cfg (StoreOp.writes cfg.digest (.insertTransactions txs)) with","(.insertTransactions txs)) with\n    | (.error e, d1) => (.error e, d1)\n    | (.ok (), d1) =>\n      if io.txs = false then (.error (.node .storage), d1)\n      else\n        match d1.save cfg (StoreOp.writes cfg.digest (.insertReceipts resp.receipts)) with"))
m('dk11','DNode.updateStatus','status kept when the epoch is stored','C98: the next proposal is at the next height',(DK,"            else (.ok (), { d3 with status := d3.status.updated cfg epochId epoch proof resp })","            else (.ok (), d3)"))
m('dk12','DNode.commitTail','the pool is not flushed','C98: committed transactions are not proposed again',(DK,"  let d1 := { d with pool := d.pool.flush pill.epoch.orderedTxHashes }","  let d1 := d"))
m('dk13','DNode.syncStart','the successor of the wrong epoch is compared','C98',(DK,"      match io.pullEpoch 0 (current + 1) with","      match io.pullEpoch 0 current with"))
m('dk14','DNode.currentId','an empty disk counts as height 0','C98 (only without a latest epoch)',(DK,"  | .error _ => 1\n","  | .error _ => 0\n"))
m('dk15','DNode.queryEpoch','epoch 0 asked for is answered with the latest','C98',(DK,"  | some id => d.rocks.getEpochById .rocks id\n  | none","  | some id => if id = 0 then d.rocks.getLatestEpoch .rocks cfg.keys else d.rocks.getEpochById .rocks id\n  | none"))
m('dk16','DNode.queryBalance','balance at the state of the running node','C98: balance at the asked epoch',(DK,"d.tries e.header.stateRoot a id with","d.tries d.status.stateRoot a id with"))
m('dk17','DiskMachine.call','tries written before the kill are lost, with all others','C98: a kill loses nothing stored',(DK,"  | .killed written => (.killed, .off m.rocks (written ++ m.tries))","  | .killed written => (.killed, .off m.rocks written)"))
m('dk18','DiskMachine.call','the block database is emptied on a start','C98',(DK,"    match diskInit cfg L g order writes m.rocks m.tries with","    match diskInit cfg L g order writes Db.empty m.tries with"))
m('dk19','DNode.view','a stored transaction that decodes counts as unknown','C98: the pool rejects executed transactions',(DK,"      | .ok _ => .found\n      | .error .getNone => .getNone","      | .ok _ => .getNone\n      | .error .getNone => .getNone"))
m('dk20','Write.puts','transactions are stored under the hash of the previous key column','C98, C31: receipts and transactions in different columns',('Model/Storage.lean',"  | .receipts l => l.map (fun r => (.receipt, pbEncode r.txHash, pbEncode r))","  | .receipts l => l.map (fun r => (.signedTx, pbEncode r.txHash, pbEncode r))"))
m('dk21','DNode.checkEpoch','ordered transactions fetched before the proposed ones are synchronised only if the proposal is exempt','C98',(DK,"  if hash ∈ d.exempt then full d","  if hash ∉ d.exempt then full d"))
m('dk22','DNode.getEpoch','an own proposal is not remembered','C98: own proposals are accepted without fetching',(DK,"      (.ok (pill, hash), { d with pool := pool, exempt := hash :: d.exempt })","      (.ok (pill, hash), { d with pool := pool })"))
m('dk23','DNode.syncOne','synchronised epochs are executed with the height asked for','C98: with the height in the header',(DK,"d1.exec cfg L (order k) stateRoot epoch.header.epochId (","d1.exec cfg L (order k) stateRoot id ("))
m('dk24','diskInit','killed after three writes counts as completed','C98',(DK,"(.ok (decide (4 ≤ writes)), rocks', tries')","(.ok (decide (3 ≤ writes)), rocks', tries')"))
