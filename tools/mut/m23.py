muts={}
def m(i,F,d,e,c,*ed): muts[i]=dict(d=d,e=e,c=c,edits=[('Model/'+F+'.lean',a,b) for a,b in ed])
m('v01','Api','showBalance','a balance is shown with the bytes in reverse order','C68: what is shown reads back',("hexEncode (bigBE n)","hexEncode (bigBE n).reverse"))
m('v02','Api','readBalance','a balance is read little endian','C68: what is shown reads back',("(hexDecode (asHex s)).map natOfBE","(hexDecode (asHex s)).map fun b => natOfBE b.reverse"))
m('v03','ApiServer','Node.sendTransfer','the mutation transfers nothing: the carried value is dropped','C69: a sent transaction is the one covered by the signature',("n.apiSend cfg broadcastOk (Api.coverTransfer a) raw sig","n.apiSend cfg broadcastOk (Api.coverTransfer { a with carryingAmount := \"0x00\".toList }) raw sig"))
m('v04','ByteExecutor','bGetBalance','the byte-level read of a balance gives 0 for a missing account','byte-level executor refines the abstract one',("  | .ok acc => .ok (accountBalance id acc)\n  | .error f => .error f","  | .ok acc => .ok (accountBalance id acc)\n  | .error _ => .ok 0"))
m('v05','ByteExecutor','bBankRegister','the asset id is checked against the cache of accounts','byte-level executor refines the abstract one',("if s.bank.has assetSchema id then","if s.acc.has assetSchema id then"))
m('v06','ByteExecutor','bExecLoop','receipts are collected in reverse','byte-level executor refines the abstract one',("      | (.ok rs, s2) => (.ok (r :: rs), s2)","      | (.ok rs, s2) => (.ok (rs ++ [r]), s2)"))
m('v07','ByteExecutor','bGenesisAssets','a genesis entry that is not hex is skipped','byte-level executor refines the abstract one',("    | _, _ => (.error (.err .badGenesis), s)","    | _, _ => bGenesisAssets env a xs s"))
m('v08','Executor','senderOf','the sender is the address of the signature, not of the public key','C01/C93: who spends is who signed',("UserAddress.fromPubkey env.digest tx.pubkey","UserAddress.fromPubkey env.digest tx.signature"))
m('v09','Executor','genesisAllocs','an allocation to an account that is not hex is skipped','C06: a bad genesis stops the node',("    | none => (.error (.err .badGenesis), s)\n    | some a =>\n      match genesisAssets","    | none => genesisAllocs env xs s\n    | some a =>\n      match genesisAssets"))
m('v10','Executor','runGenesis','the trie of a failed genesis is not kept','atomicity of genesis',("    match createGenesis env g s with\n    | (.ok root, s') => (some (.ok root), db.put env s'.committed)\n    | (.error f, _) => (some (.error f), db)","    match createGenesis env g s with\n    | (.ok root, s') => (some (.ok root), db.put env s'.committed)\n    | (.error f, s') => (some (.error f), db.put env s'.committed)"))
m('v11','Executor','addBalance','the account of a contract is credited twice','C01: conservation',("  | .contract c => putAccount a (.contract (addBalanceContract id c amount)) s","  | .contract c => putAccount a (.contract (addBalanceContract id (addBalanceContract id c amount) amount)) s"))
m('v12','FixedCodec','ContractType.flag','two contract types have one flag','C20: fixed codec round trip',("  | .library => 2\n","  | .library => 1\n"))
m('v13','FixedCodec','contractAssetDec','the fields of a contract asset are read in the other order','C20: fixed codec round trip',("  let balance ← Rlp.dataAt bs 0\n  let id ← (Rlp.at bs 1) >>= Hash.dec\n  pure (id, natOfBE balance)","  let balance ← Rlp.dataAt bs 1\n  let id ← (Rlp.at bs 0) >>= Hash.dec\n  pure (id, natOfBE balance)"))
m('v14','FixedCodec','rawBasic','nonce and chain id are swapped','C20: fixed codec round trip',("  pure (chainId, ⟨assetId, cycle⟩, nonce, timeout)","  pure (nonce, ⟨assetId, cycle⟩, chainId, timeout)"))
m('v15','Hex','Hash.fromHex','a hash must not have the prefix 0x','C68: hex round trip',("(hexDecode (clean0x s)).bind Hash.fromBytes","(hexDecode s).bind Hash.fromBytes"))
m('v16','Mempool','checkExist','a transaction that is in the pool is accepted again','C35: no transaction twice',("if p.cache.contain h then .error (.dup h) else .ok ()","if p.cache.contain h then .ok () else .ok ()"))
m('v17','Mempool','checkSignature','the signature is checked with an empty key','C93: what is in the pool is signed',("if cr.sigOk tx.txHash tx.signature tx.pubkey then","if cr.sigOk tx.txHash tx.signature [] then"))
m('v18','Mpt','join','the paths of an extension are joined in the other order','C22: a trie read gives the last write',("  | ext q c => ext (p ++ q) c","  | ext q c => ext (q ++ p) c"))
m('v19','Mpt','strip','a shorter key matches','C22: a trie read gives the last write',("  | _ :: _, [] => none\n  | x :: p, y :: k => if x = y then strip p k else none","  | _ :: _, [] => some []\n  | x :: p, y :: k => if x = y then strip p k else none"))
m('v20','Protobuf','readVarint','the high bit of the last byte is kept','C21: protobuf round trip',("(b.toNat % 128) * 2 ^ sh","(b.toNat % 256) * 2 ^ sh"))
m('v21','Protobuf','ContractType.asI32','application and library contracts are swapped in the number','C21: protobuf round trip of contract types',("def ContractType.asI32 : ContractType → UInt64\n  | .asset => 0\n  | .app => 1\n  | .library => 2","def ContractType.asI32 : ContractType → UInt64\n  | .asset => 0\n  | .app => 2\n  | .library => 1"))
m('v22','Protobuf','balancePb','balances are encoded little endian','C21: protobuf round trip',("def balancePb (n : Nat) : PFields := fBytes 1 (bigBE n)","def balancePb (n : Nat) : PFields := fBytes 1 (bigBE n).reverse"))
m('v23','Rlp','payloadInfo','an item may be longer than its input','C20/C24: decoders never read beyond the input',("if h + v ≤ bs.length then .ok (h, v) else .error .tooShort","if h ≤ bs.length then .ok (h, v) else .error .tooShort"))
m('v24','Rlp','longInfo','a length with a leading zero is accepted','C24: one encoding for a value',("    if x = 0 then .error .dataLenZeroPrefix\n    else if","    if"))
m('v25','Storage','Db.getEpochByHash','an epoch is looked up with the hash as its key','C48: an epoch is found by its hash',("  db.getEpochById be id.id","  db.getEpochById be (id.id + 1)"))
m('v26','Storage','Db.getReceipts','receipts that are missing stop the list','C48: the receipts found are those stored',("  let opts ← hs.mapM (fun h => db.get be .receipt (pbEncode h))\n  pure (opts.filterMap id)","  let opts ← hs.mapM (fun h => db.get be .receipt (pbEncode h))\n  pure ((opts.takeWhile (·.isSome)).filterMap id)"))
m('v27','TxCache','Stage.next','after the order transactions comes the end','C33: packaging',("  | .orderTxs => .proposeTxs","  | .orderTxs => .finished"))
m('v28','TxCache','pop','the newest of the queue is taken','C33: packaging in order of arrival',("  match c.queue z with\n  | [] => none\n  | id :: rest => some (id, c.setQueue z rest)","  match (c.queue z).reverse with\n  | [] => none\n  | id :: rest => some (id, c.setQueue z rest.reverse)"))
m('v29','StateAdapter','PMap.over','the committed state hides what is in the cache','C03: reads see the latest write',("  match top k with\n  | some v => some v\n  | none => bottom k","  match bottom k with\n  | some v => some v\n  | none => top k"))
m('v30','ConsensusLock','Prog.syncBody','a synchronisation fetches one epoch more','C36/C71: it synchronises to what was announced',("(syncIds current rich) h r","(syncIds current (rich + 1)) h r"))
m('v31','ConsensusLock','Prog.test','a failing check does not end the insertion','C93: what is in the pool passed all checks',("    | .error e => fail e\n    | .ok () => next","    | .error _ => next\n    | .ok () => next"))
m('v32','Server','endNewTxs','gossiped transactions and pulled transactions have one name','C115: every message reaches its handler',("def endPullTxs : Str := \"/rpc_call/mempool/pull_txs\".toList","def endPullTxs : Str := \"/gossip/mempool/new_txs\".toList"))
m('v33','Startup','SocketAddr.port','the port of an IPv6 address is 0','C80: the node listens where it was told',("  | .v6 _ p _ _ => p","  | .v6 _ _ _ _ => 0"))
m('v34','Persist','loadPeers','one peer less is read','C77: what was saved is loaded',("(readPeers c n bs).map (·.1)","(readPeers c (n - 1) bs).map (·.1)"))
m('v35','PeerManager','maxRetryCount','a peer is tried seven times','C75: retry limit',("def maxRetryCount : Nat := 6","def maxRetryCount : Nat := 7"))
m('v36','Types','Hash.take20','the address is the last 20 bytes','address of a public key',("⟨h.bytes.take 20, by simp [List.length_take, h.size]⟩","⟨h.bytes.drop 12, by simp [h.size]⟩"))
m('v37','Messages','flagEpoch','the flags of the two kinds of pulls are one','C53: a pull is answered by its kind',("def flagEpoch : UInt8 := 97","def flagEpoch : UInt8 := 98"))
m('v38','ConsensusLock','Prog.full','transactions are given back in reverse order','C78: a proposal is checked against its transactions',("    | .ok txs => .ok txs))","    | .ok txs => .ok txs.reverse))"))
