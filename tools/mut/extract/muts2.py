U="  .write io.receipts (fun n => { n with store := n.store.writes (StoreOp.writes cfg.digest (.insertReceipts resp.receipts)) }) fail <|\n"
V="  .write io.txs (fun n => { n with store := n.store.writes (StoreOp.writes cfg.digest (.insertTransactions txs)) }) fail <|\n"
W0="  .write (decide (0 < io.epochWrites)) (fun n => { n with store := n.store.writes (((StoreOp.writes cfg.digest (.insertEpoch epoch)).drop 0).take 1) }) fail <|\n"
W1="  .write (decide (1 < io.epochWrites)) (fun n => { n with store := n.store.writes (((StoreOp.writes cfg.digest (.insertEpoch epoch)).drop 1).take 1) }) fail <|\n"
muts={
'cm01':(V+W0,W0+V,'updateStatus','the epoch is written before its transactions'),
'cm02':(U,'','updateStatus','the receipts are not written'),
'cm03':(V,'','updateStatus','the transactions are not written'),
'cm04':(W0+W1,W1+W0,'updateStatus','the hash of the epoch is written before the epoch'),
'cm05':(V,V.replace(') fail <|',') (.act id fun _ => fail) <|').replace('.write io.txs','.write true') if False else V.replace('insertTransactions txs','insertTransactions (txs.drop 1)'),'updateStatus','the first transaction is not written'),
'cm06':(U,U.replace('resp.receipts))','resp.receipts.tail))'),'updateStatus','the first receipt is not written'),
'cm07':("              | .ok txs => .commitTail cfg io epochId pill p txs)","              | .ok txs => .commitTail cfg io epochId pill p txs.tail)",'commit','the first transaction is left out'),
'cm08':("  .act (fun n => { n with pool := n.pool.flush pill.epoch.orderedTxHashes }) fun _ =>\n","  .act (fun n => { n with pool := n.pool.flush pill.epoch.orderedTxHashes, store := { n.store with txs := fun h => if h ∈ pill.epoch.orderedTxHashes then none else n.store.txs h } }) fun _ =>\n",'commitTail','the flush also removes the transactions from the store'),
}
