def m(i,d,e,c,*edits): 
    assert i not in muts; muts[i]=dict(d=d,e=e,c=c,edits=list(edits))
EX='Model/Executor.lean'; SA='Model/StateAdapter.lean'; CO='Model/Consensus.lean'; CL='Model/ConsensusLock.lean'
RL='Model/Rlp.lean'; FC='Model/FixedCodec.lean'; PB='Model/Protobuf.lean'; TY='Model/Types.lean'
# consensus lock
m('cl01','Prog.sync','engine lock not taken','C41/C63: commit and synchronisation never interleave',(CL,'.lock .engine (.syncBody cfg io (UInt64.ofNat v - 1) n.currentId)\n            (.unlock .sync (.ret (.sync (.ok none)))))','.syncBody cfg io (UInt64.ofNat v - 1) n.currentId)'))
m('cl02','Prog.endCommit','guard not dropped','C41: locks are released',(CL,'.unlock .engine (.ret (.commit r))','.ret (.commit r)'))
m('cl03','Prog.endSync','one guard not dropped','C41',(CL,'.unlock .engine (.unlock .sync (.ret (.sync r)))','.unlock .engine (.ret (.sync r))'))
m('cl04','Prog.commit','takes the wrong lock','C41',(CL,'def Prog.commit (cfg : NodeCfg) (io : CommitIo) (epochId : UInt64) (pill : Pill) (proof : OverlordProof) : Prog :=\n  .lock .engine','def Prog.commit (cfg : NodeCfg) (io : CommitIo) (epochId : UInt64) (pill : Pill) (proof : OverlordProof) : Prog :=\n  .lock .sync'))
m('cl05','Prog.sync','current height read before the lock: lock taken after','C63',(CL,'  .lock .sync\n    (match readU64LE msg with','  .lock .engine\n    (match readU64LE msg with'))
m('cl06','Prog.updateStatus','status assigned before the epoch is written','C41: status and storage agree',(CL,'  .write io.txs (fun n => { n with store := n.store.writes (StoreOp.writes cfg.digest (.insertTransactions txs)) }) fail <|\n','  .act (fun n => { n with status := n.status.updated cfg epochId epoch proof resp }) (fun _ => .write io.txs (fun n => { n with store := n.store.writes (StoreOp.writes cfg.digest (.insertTransactions txs)) }) fail <|\n'),(CL,'    (fun _ => next)\n\n/-- The end of a commit','    (fun _ => next))\n\n/-- The end of a commit'))
m('cl07','Prog.commit','transactions taken before the lock... dropped flush','C18: committed transactions leave the pool',(CL,'.act (fun n => { n with pool := n.pool.flush pill.epoch.orderedTxHashes }) fun _ =>','.act id fun _ =>'))
m('cl08','Conf.step','lock can be taken while held','C41',(CL,'if (c.held l).isNone then (c.setLock','if true then (c.setLock'))
# consensus
m('co01','startStatus','height not incremented','C35: after start the node works on latest + 1',(CO,'epochId := latest.header.epochId + 1\n    prevHash','epochId := latest.header.epochId\n    prevHash'))
m('co02','Node.getEpoch','height not compared','C36: a proposal has the height of the status',(CO,'if n.status.epochId ≠ epochId then (.error','if false then (.error'))
m('co03','Node.getEpoch','own hash not exempted','C37: own proposals are not checked again',(CO,'{ n with pool := pool, exempt := hash :: n.exempt })','{ n with pool := pool })'))
m('co04','Node.getEpoch','order root over the proposed hashes','C36: header matches body',(CO,'orderRoot := cfg.merkle order,','orderRoot := cfg.merkle propose,'))
m('co05','Node.getEpoch','previous hash is the state root','C36: chained to the previous epoch',(CO,'preHash := n.status.prevHash','preHash := n.status.stateRoot'))
m('co06','Node.checkEpoch','exempt list ignored','C37',(CO,'if hash ∈ n.exempt then full n','if false then full n'))
m('co07','Node.checkEpoch','ordered transactions not ensured','C37: success means all ordered transactions are known',(CO,'match p.ensureOrderTxs (n.view cfg pull2 true) order with','match p.ensureOrderTxs (n.view cfg pull2 true) pill.proposeHashes with'))
m('co08','Node.commit','proof not saved','C38: the saved proof is that of the committed epoch',(CO,'match n.saveProof cfg io.save p with','match ((.ok (), n) : Except CErr Unit × Node) with'))
m('co09','Status.updated','previous hash not updated','C38/C40: hash chain',(CO,'prevHash := cfg.epochHash epoch\n    proof := proof','proof := proof'))
m('co10','Status.updated','state root not updated','C39',(CO,'    stateRoot := resp.stateRoot\n    orderRoot := cfg.merkle epoch','    orderRoot := cfg.merkle epoch'))
m('co11','Node.updateStatus','status updated before the writes succeed','C38: a failed commit leaves the status',(CO,'if io.epochWrites < 3 then (.error .storage, { n with store := s3 })','if io.epochWrites < 3 then (.error .storage, { n with store := s3, status := n.status.updated cfg epochId epoch proof resp })'))
m('co12','Node.commitTail','pool not flushed','C18: committed transactions leave the pool',(CO,'let n1 := { n with pool := n.pool.flush pill.epoch.orderedTxHashes }','let n1 := n'))
m('co13','Node.commitTail','coinbase is the committing node','C39: execution independent of the node',(CO,'match n1.exec cfg n1.status.stateRoot epochId (.user pill.epoch.header.proposer) txs with','match n1.exec cfg n1.status.stateRoot epochId (.user cfg.selfAddress) txs with'))
m('co14','Node.syncOne','previous hash not compared','C42: synchronised epochs are chained',(CO,'if id ≠ 1 ∧ curHash ≠ epoch.header.preHash then','if false then'))
m('co15','syncIds','last epoch not fetched','C42: synchronised up to the announced height',(CO,'(List.range (rich.toNat - current.toNat))','(List.range (rich.toNat - current.toNat - 1))'))
m('co16','syncIds','starts at the current epoch','C42: no epoch twice',(CO,'(fun k => current + 1 + UInt64.ofNat k)','(fun k => current + UInt64.ofNat k)'))
m('co17','Node.syncLoop','hash of the loop not advanced','C42',(CO,'| (.ok (h, r), n1) => Node.syncLoop cfg io (k + 1) ids h r n1','| (.ok (_, r), n1) => Node.syncLoop cfg io (k + 1) ids curHash r n1'))
m('co18','Node.syncLoop','state root of the loop not advanced','C42: executed on the state of the previous epoch',(CO,'| (.ok (h, r), n1) => Node.syncLoop cfg io (k + 1) ids h r n1','| (.ok (h, _), n1) => Node.syncLoop cfg io (k + 1) ids h stateRoot n1'))
m('co19','Node.updateEpoch','synchronises although not behind','C42: nothing happens unless behind',(CO,'if rich - 1 ≤ current then (.ok none, n)','if rich < current then (.ok none, n)'))
m('co20','handleInit','initialises again over existing data','C34: a second init changes nothing',(CO,'| some _ => some (store, tries)\n  | none =>\n    match runGenesis','| some _ => none\n  | none =>\n    match runGenesis'))
m('co21','NodeCfg.genesisEpoch','state root not recorded','C13/C34',(CO,'confirmRoot := [], stateRoot := root,','confirmRoot := [], stateRoot := cfg.emptyHash,'))
m('co22','Node.queryBalance','ignores the height asked for','C43: balance at a height',(CO,'match n.queryEpoch epochId with\n  | none => none\n  | some e =>\n    match fromRoot','match n.queryEpoch none with\n  | none => none\n  | some e =>\n    match fromRoot'))
m('co23','Node.syncStart','own latest epoch not compared with the peer\'s','C42',(CO,'if cfg.epochHash e ≠ next.header.preHash then .error (.syncEpochHash (current + 1))\n        else','if false then .error (.syncEpochHash (current + 1))\n        else'))
m('co24','Node.updateStatus','transactions not saved','C38: everything committed can be queried',(CO,'let s2 := s1.writes (StoreOp.writes cfg.digest (.insertTransactions txs))','let s2 := s1'))
m('co25','Node.updateStatus','receipts not saved','C38',(CO,'let s1 := n.store.writes (StoreOp.writes cfg.digest (.insertReceipts resp.receipts))','let s1 := n.store'))
m('co26','Node.exec','failed execution reported as success is impossible: panic becomes an error','C10',(CO,'| (some (.error .panic), db) => (.error .panic,','| (some (.error .panic), db) => (.error .openRoot,'))
m('co27','Status.updated','receipt root over the ordered hashes','C38: receipt root commits to the receipts',(CO,'receiptRoot := [cfg.merkle (resp.receipts.map (fun r => cfg.digest (encode r)))] }','receiptRoot := [cfg.merkle epoch.orderedTxHashes] }'))
m('co28','Node.commit','returns the same height','C38: Overlord is told the next height',(CO,'if io.transmit then (.ok (epochId + 1), n3) else','if io.transmit then (.ok epochId, n3) else'))
m('co29','Node.view','stored transactions are not found','C15: committed transactions are not admitted',(CO,'if (n.store.txs h).isSome then .found else .getNone','.getNone'))
m('co30','startStatus','state root empty after a restart','C35: restart keeps the state',(CO,'stateRoot := latest.header.stateRoot, receiptRoot := [cfg.emptyHash]\n    cyclesUsed','stateRoot := cfg.emptyHash, receiptRoot := [cfg.emptyHash]\n    cyclesUsed'))
m('co31','startStatus','state of the status kept equal to the header: proof default','C35',(CO,'proof := latest.header.proof, validators := cfg.validators','proof := default, validators := cfg.validators'))
m('co32','Node.apiBalance','error shown as one','C43',(CO,'(n.queryBalance cfg a id epochId).getD 0','(n.queryBalance cfg a id epochId).getD 1'))
# executor
m('ex01','subBalanceUser','overdraw not checked','C02/C01',(EX,'if info.balance < amount then .error (.err .insufficientBalance)\n    else','if false then .error (.err .insufficientBalance)\n    else'))
m('ex02','subBalanceUser','`<` becomes `≤`: the whole balance cannot be spent','C02: a transfer succeeds iff the balance suffices',(EX,'if info.balance < amount then','if info.balance ≤ amount then'))
m('ex03','accTransfer','credits the caller','C02',(EX,'let s2 := addBalance env carrying.assetId to carrying.amount s1','let s2 := addBalance env carrying.assetId caller carrying.amount s1'))
m('ex04','addBalanceUser','balance replaced instead of added','C01',(EX,'{ info with balance := info.balance + amount } }\n  | none => { u with assets := u.assets.insert id ⟨amount, []⟩ }','{ info with balance := amount } }\n  | none => { u with assets := u.assets.insert id ⟨amount, []⟩ }'))
m('ex05','settle','not reverted on failure','C03',(EX,'some (.fail (env.showErr e) "", s.revert)','some (.fail (env.showErr e) "", s)'))
m('ex06','settle','stashed on failure','C03',(EX,'some (.fail (env.showErr e) "", s.revert)','some (.fail (env.showErr e) "", s.stash)'))
m('ex07','execTx','cycles not reset','C05',(EX,'def execTx (env : Env) (tx : SignedTx) : Act Receipt := fun s0 =>\n  let s := { s0 with used := 0 }','def execTx (env : Env) (tx : SignedTx) : Act Receipt := fun s0 =>\n  let s := s0'))
m('ex08','execTx','price not multiplied','C05: fee = cycles × price',(EX,'cycle := s2.used * env.cyclesPrice','cycle := s2.used'))
m('ex09','execTx','nonce not incremented','C08',(EX,'match incNonce (.user (senderOf env tx)) s1 with','match ((.ok (), s1) : Except Fault Unit × St) with'))
m('ex10','modifyAllCyclesUsed','fees of the same asset not merged','C06',(EX,'if g.assetId = f.assetId then { g with cycle := g.cycle + f.cycle } :: gs\n    else','if false then { g with cycle := g.cycle + f.cycle } :: gs\n    else'))
m('ex11','consumeCycles','`>` becomes `≥`','C05: exactly the limit is allowed',(EX,"if used' > limit then",'if used\' ≥ limit then'))
m('ex12','bankRegister','existing asset overwritten','C12',(EX,'if s.bank.contains id then (.error (.err (.assetExists id)), s)\n    else','if false then (.error (.err (.assetExists id)), s)\n    else'))
m('ex13','handleTransfer','asset existence not checked','C02/C14: unknown assets cannot be transferred',(EX,'match getAsset carrying.assetId s with\n  | .error f => (.error f, s)\n  | .ok _ =>','match (Except.ok () : Except Fault Unit) with\n  | .error f => (.error f, s)\n  | .ok _ =>'))
m('ex14','handleTransfer','before and after swapped in the receipt','C04/C02',(EX,'(.ok (.transfer receiver carrying.assetId before after), s1)','(.ok (.transfer receiver carrying.assetId after before), s1)'))
m('ex15','exec','commit before the reward (reward kept in the cache)','C07',(EX,'let s2 := rewardCoinbase env fees s1\n    let s3 := s2.commit','let s2 := rewardCoinbase env fees s1.commit\n    let s3 := s2'))
m('ex16','exec','stashes the reward before the commit (the intended program)','C07_refuted: the reward is lost',(EX,'let s3 := s2.commit\n    let root','let s3 := s2.stash.commit\n    let root'))
m('ex17','exec','receipts keep the empty state root','C04: receipts carry the root after the block',(EX,'receipts := receipts.map (fun r => { r with stateRoot := root })','receipts := receipts'))
m('ex18','execLoop','receipts in reverse order','C04',(EX,'| (.ok rs, s2) => (.ok (r :: rs), s2)','| (.ok rs, s2) => (.ok (rs ++ [r]), s2)'))
m('ex19','subBalanceContract','underflow clamps','C14',(EX,'if b < amount then .error .panic else .ok','if false then .error .panic else .ok'))
m('ex20','genesisAssets','credited to the coinbase','C13',(EX,'genesisAssets env a xs (addBalance env id a (natOfBE b) s)','genesisAssets env a xs (addBalance env id env.coinbase (natOfBE b) s)'))
m('ex21','createGenesis','not stashed before the commit','C13',(EX,'let s3 := s2.stash.commit','let s3 := s2.commit'))
m('ex22','CyclesAction.cost','transfer costs more','C05',(EX,'| .accountTransfer => 10 * 21\n','| .accountTransfer => 10 * 22\n'))
m('ex23','handleDeploy','nonce ignored in the address','C12: deploying twice gives two assets',(EX,'ContractAddress.fromCode env.digest code (accountNonce acc) .asset','ContractAddress.fromCode env.digest code 0 .asset'))
m('ex24','assetIdOf','chain id left out','C12: asset id = digest(chain id ++ address)',(EX,'env.digest (env.chainId.bytes ++ address.toBytes)','env.digest address.toBytes'))
m('ex25','bankRegister','address type not checked','C12',(EX,'if address.ty ≠ .asset then (.error (.err .invalidAddress), s)\n  else','if false then (.error (.err .invalidAddress), s)\n  else'))
m('ex26','runBlock','failed block is committed','C10/C03: nothing is stored when a block fails',(EX,'| (.error f, _) => (some (.error f), db)\n\n/-- Open an executor on the empty root','| (.error f, s\') => (some (.error f), db.put env s\'.committed)\n\n/-- Open an executor on the empty root'))
m('ex27','fromRoot','unknown root opens the empty world','C39',(EX,'else (db root).map St.open','else some (St.open ((db root).getD World.empty))'))
m('ex28','execTx','receipt carries another transaction hash','C04',(EX,'txHash := tx.txHash\n             cyclesUsed','txHash := tx.raw.nonce\n             cyclesUsed'))
m('ex29','subBalance','writes the account without the change','C02',(EX,"| .ok u' => (.ok (), putAccount a (.user u') s)","| .ok _ => (.ok (), putAccount a (.user u) s)"))
m('ex30','accountBalance','missing asset is one','C13/C02',(EX,'| some info => info.balance\n    | none => 0','| some info => info.balance\n    | none => 1'))
m('sa01','Layers.get','stash before cache','C11',(SA,'match l.cache k with\n  | some v => some v\n  | none =>\n    match l.stash k with','match l.stash k with\n  | some v => some v\n  | none =>\n    match l.cache k with'))
m('sa02','Layers.revertCache','clears the stash too','C11',(SA,'def revertCache (l : Layers K V) : Layers K V := { l with cache := PMap.empty }','def revertCache (l : Layers K V) : Layers K V := { l with cache := PMap.empty, stash := PMap.empty }'))
m('sa03','Layers.stashCache','old stash wins','C11',(SA,'stash := l.cache.over l.stash','stash := l.stash.over l.cache'))
m('sa04','Layers.commit','keeps the stash','C11: (not observable by queries)',(SA,'{ l with trie := l.stash.over l.trie, stash := PMap.empty }','{ l with trie := l.stash.over l.trie }'))
m('sa05','Layers.contains','cache not looked at','C11/C12: two deploys in one transaction batch',(SA,'if (l.cache k).isSome then true\n  else if','if'))
m('sa06','Layers.commit','commits the cache as well','C11: unstashed writes are not persistent',(SA,'trie := l.stash.over l.trie, stash','trie := l.cache.over (l.stash.over l.trie), stash'))
m('sa07','Layers.stashCache','cache not cleared','C11: revert after stash',(SA,'{ l with stash := l.cache.over l.stash, cache := PMap.empty }','{ l with stash := l.cache.over l.stash }'))
# codecs
m('rl01','rlpHeader','55 becomes 56 in the header','C49: fixed codec round trip',(RL,'if len ≤ 55 then [UInt8.ofNat (base + len)]','if len ≤ 56 then [UInt8.ofNat (base + len)]'))
m('rl02','encData','single bytes below 0x80 get a header','C49',(RL,'| [x] => if x < 0x80 then [x] else rlpHeader 0x80 1 ++ [x]','| [x] => if x < 0x7f then [x] else rlpHeader 0x80 1 ++ [x]'))
m('rl03','Rlp.headerInfo','boundary 0xb7 becomes 0xb6','C49',(RL,'else if l.toNat ≤ 0xb7 then .ok (1, l.toNat - 0x80)','else if l.toNat ≤ 0xb6 then .ok (1, l.toNat - 0x80)'))
m('rl04','Rlp.intOf','leading zeros accepted','C49/C51: non-canonical integers are rejected',(RL,'else if x = 0 then .error .invalidIndirection else .ok (natOfBE b)\n\n/-- `as_val::<u64>`','else .ok (natOfBE b)\n\n/-- `as_val::<u64>`'))
m('rl05','Rlp.list','malformed element is an error instead of an abort','C51 refuted',(RL,'| .error _ => .error .panic','| .error e => .error e'))
m('rl06','bigBE','zero as the empty string','C49: the coding of 0',(RL,'if n = 0 then [0] else natBE n','natBE n'))
m('fc01','Fee.item','fields swapped','C49',(FC,'.list [f.assetId.item, .u64 f.cycle]','.list [.u64 f.cycle, f.assetId.item]'))
m('fc02','RawTx.basic','nonce left out of the hash','C52: two transactions with the same hash are equal',(FC,'.data t.nonce.bytes, .u64 t.timeout]','.data t.chainId.bytes, .u64 t.timeout]'))
m('fc03','Account.item','flags swapped','C49',(FC,'| .user a => .list [.u8 0,','| .user a => .list [.u8 1,'))
m('fc04','EpochHeader.item','state root replaced by the order root','C52: hash commits to the header',(FC,'    h.stateRoot.item, .u64 h.timestamp','    h.orderRoot.item, .u64 h.timestamp'))
m('fc05','ReceiptResult.dec','before and after swapped in the decoder','C49',(FC,'pure (.transfer receiver assetId (natOfBE before) (natOfBE after))','pure (.transfer receiver assetId (natOfBE after) (natOfBE before))'))
m('fc06','ContractType.ofFlag','app and library swapped','C49',(FC,'else if n = 1 then .ok .app\n  else if n = 2 then .ok .library\n  else if n = 3 then .ok .native\n  else .error .custom','else if n = 1 then .ok .library\n  else if n = 2 then .ok .app\n  else if n = 3 then .ok .native\n  else .error .custom'))
m('fc07','RawTx.items','approve transactions are encoded (the intended program)','C52_refuted: approve transactions all have the same hash',(FC,'  | .approve _ _ _ => []\n\n/-- `Decodable for String`','  | .approve sp a mx => [.list (.u8 4 :: t.basic ++ [sp.item, a.item, .data (bigBE mx)])]\n\n/-- `Decodable for String`'))
m('fc08','Epoch.item','transactions left out of the epoch hash','C52',(FC,'.list [e.header.item, .list (e.orderedTxHashes.map Hash.item)]','.list [e.header.item, .list []]'))
m('pb01','encVarint','boundary 128 becomes 127','C49',(PB,'if n < 128 then [UInt8.ofNat n] else','if n < 127 then [UInt8.ofNat n] else'))
m('pb02','Fee.pb','wrong tag','C49',(PB,'fMsg 1 (rootPb f.assetId) ++ fU64 2 f.cycle','fMsg 1 (rootPb f.assetId) ++ fU64 3 f.cycle'))
m('pb03','ContractType.ofI32','numbers of the encoder used (the intended program)','C49_refuted: deploy of a library is decoded as an app',(PB,'else if n = 1 then .ok .library\n  else if n = 2 then .ok .app\n','else if n = 1 then .ok .app\n  else if n = 2 then .ok .library\n'))
m('pb04','Receipt.pb','transaction hash and state root swapped','C49',(PB,'fMsg 1 r.stateRoot.pb ++ fU64 2 r.epochId ++ fMsg 3 r.txHash.pb','fMsg 1 r.txHash.pb ++ fU64 2 r.epochId ++ fMsg 3 r.stateRoot.pb'))
m('pb05','Proof.pb','bitmap omitted','C49',(PB,' ++ fBytes 5 p.bitmap\n','\n'))
m('pb06','readField','length not compared','C51: truncated input is rejected',(PB,'if r.length < n then none else','if false then none else'))
m('pb07','getU64','first occurrence wins','C50: last value wins',(PB,'(occ t fs).foldlM (fun _ v => match v with | .varint n => .ok n | _ => .error .malformed) 0','(occ t fs).reverse.foldlM (fun _ v => match v with | .varint n => .ok n | _ => .error .malformed) 0'))
m('ty01','UserAddress.fromBytes','magic not compared','C47/C61: addresses of contracts are not users',(TY,'if magic ≠ accountMagic then none','if false then none'))
m('ty02','BMap.insert','replaces the next entry','C01',(TY,'if k = k\' then (k, v) :: rest\n    else if KeyOrd.lt','if k = k\' then (k, v) :: (k\', v\') :: rest\n    else if KeyOrd.lt'))
m('ty03','u64BE','bytes reversed','C12: contract address from code and nonce',(TY,'(n >>> 24).toUInt8, (n >>> 16).toUInt8, (n >>> 8).toUInt8, n.toUInt8]','(n >>> 24).toUInt8, (n >>> 16).toUInt8, n.toUInt8, (n >>> 8).toUInt8]'))
