def m(i,d,e,c,*edits): 
    assert i not in muts; muts[i]=dict(d=d,e=e,c=c,edits=list(edits))
CO='Model/Consensus.lean'; SV='Model/Server.lean'; FC='Model/FixedCodec.lean'; ME='Model/Mempool.lean'
m('nd01','NodeCfg.mem','signatures not verified','C93: only the owner of an account can spend from it',(CO,"⟨cfg.sigOk, fun r => cfg.digest (encode r)⟩","⟨fun _ _ _ => true, fun r => cfg.digest (encode r)⟩"))
m('nd02','NodeCfg.mem','the digest of the raw transaction leaves out its first byte','C93/C94: admission checks the hash of what was signed',(CO,"⟨cfg.sigOk, fun r => cfg.digest (encode r)⟩","⟨cfg.sigOk, fun r => cfg.digest (encode r).tail⟩"))
m('nd03','Node.view','timeout gap one larger','C23/C94: admission rules of the pool',(CO,"    gap := cfg.timeoutGap\n","    gap := cfg.timeoutGap + 1\n"))
m('nd04','newTxsHandler','received transactions replace the pool','C94: no message evicts a transaction of the pool',(SV,"newTxsOrigin tx).2) n.pool }","newTxsOrigin tx).2) (MemPool.new cfg.poolSize cfg.timeoutGap) }"))
m('nd05','Node.serve','a proposal starts a synchronisation','C94: only announcements move the chain of a node',(SV,"      | .proposal => ([], n)","      | .proposal => ([], (n.updateEpoch cfg io content).2)"))
m('nd06','Node.serve','pull_txs response empties the pool','C94',(SV,"      | .respPushTxs => ([], n)","      | .respPushTxs => ([], { n with pool := MemPool.new cfg.poolSize cfg.timeoutGap })"))
m('nd07','Node.updateEpoch','lock not taken','C63: no synchronisation while a commit runs',(CO,"    else if io.lock = false then (.ok none, n)","    else if io.lock = false ∧ False then (.ok none, n)"))
m('nd08','Node.commit','lock not taken','C63',(CO,"  if io.lock = false then (.error .lockInSync, n)","  if io.lock = false ∧ False then (.error .lockInSync, n)"))
m('nd09','Node.commit','the proposed transactions are executed instead of the ordered ones','C35/C93',(CO,"n1.pool.getFullTxs pill.epoch.orderedTxHashes with","n1.pool.getFullTxs pill.proposeHashes with"))
m('nd10','Status.updated','confirm root dropped','C78: header of the next proposal',(CO,"    confirmRoot := [cfg.merkle epoch.orderedTxHashes]\n","    confirmRoot := []\n"))
m('nd11','Node.getEpoch','timestamp of the proposal 0','C78',(CO,"preHash := n.status.prevHash, timestamp := now","preHash := n.status.prevHash, timestamp := 0"))
m('nd12','Node.getEpoch','proposer left zero','C78',(CO,"          proposer := cfg.selfAddress, proof","          proposer := ⟨List.replicate 20 0, by simp⟩, proof"))
m('nd13','Node.saveProof','a failed write still writes','C35/C40',(CO,"  else (.error .storage, n)\n\n/-- The status of a node","  else (.error .storage, { n with store := n.store.writes (StoreOp.writes cfg.digest (.updateLatestProof p)) })\n\n/-- The status of a node"))
m('nd14','NodeCfg.genesisEpoch','timestamp of the genesis file ignored','C13',(CO,"preHash := cfg.emptyHash, timestamp := timestamp","preHash := cfg.emptyHash, timestamp := 0"))
m('nd15','handleInit','latest proof not stored at genesis','C13/C92',(CO,"(.insertEpoch e) ++\n        StoreOp.writes cfg.digest (.updateLatestProof e.header.proof)), tries')","(.insertEpoch e)), tries')"))
m('nd16','Node.syncOne','coinbase of a synchronised epoch is the node itself','C36: synchronisation executes as the committing nodes did',(CO,"n1.exec cfg stateRoot epoch.header.epochId (.user epoch.header.proposer) txs","n1.exec cfg stateRoot epoch.header.epochId (.user cfg.selfAddress) txs"))
m('nd17','OverlordProof.toProof','round and height swapped','C35',(CO,"⟨p.epochId, p.round, h, p.signature, p.bitmap⟩","⟨p.round, p.epochId, h, p.signature, p.bitmap⟩"))
m('nd18','Node.checkEpoch','proposed transactions not fetched','C27/C37',(CO,"n.pool.syncProposeTxs (n.view cfg pull1 true) pill.proposeHashes with","n.pool.syncProposeTxs (n.view cfg pull1 true) [] with"))
m('nd19','Node.updateStatus','first receipt not saved','C38/C32',(CO,"(.insertReceipts resp.receipts))\n    if io.txs","(.insertReceipts resp.receipts.tail))\n    if io.txs"))
m('nd20','Node.updateStatus','epoch written before receipts and transactions are is impossible here: transactions kept without the last','C38',(CO,"(.insertTransactions txs))\n      let s3","(.insertTransactions txs.dropLast))\n      let s3"))
m('nd21','Node.currentId','zero without a latest epoch','equivalent in every life of a node (there is always a latest epoch)',(CO,"  match n.store.latest with\n  | none => 1\n","  match n.store.latest with\n  | none => 0\n"))
m('nd22','Node.queryBalance','balance of the bank at the latest root','C34/C73',(CO,"n.tries e.header.stateRoot with\n    | none => none\n    | some s => (getBalance","n.tries n.status.stateRoot with\n    | none => none\n    | some s => (getBalance"))
m('nd23','startNode','exempted hashes survive: one is preset','C78/C37',(CO,"                     exempt := [], log := [] }","                     exempt := [[]], log := [] }"))
m('nd24','Node.exec','a failed execution does not keep the database: equivalent?','C16',(CO,"  | (some (.error (.err e)), db) => (.error (.exec e), { n with tries := db })","  | (some (.error (.err e)), _) => (.error (.exec e), n)"))
m('nd25','Node.updateEpoch','announces one height less','C63/C69: status after a synchronisation',(CO,"(.ok (some (rich + 1)), n1)","(.ok (some rich), n1)"))
m('nd26','BMap.ofList','first entry of a repeated key wins','C46',(FC,"  xs.foldl (fun m x => m.insert x.1 x.2) []","  xs.foldr (fun x m => m.insert x.1 x.2) []"))
m('nd27','Fee.dec','cycle taken from the third element','C44',(FC,"  let cycle ← (Rlp.at bs 1) >>= Rlp.u64\n  pure { assetId, cycle }","  let cycle ← (Rlp.at bs 2) >>= Rlp.u64\n  pure { assetId, cycle }"))
m('nd28','approvedDec','used and max swapped','C44',(FC,"max := natOfBE max, used := natOfBE used","max := natOfBE used, used := natOfBE max"))
