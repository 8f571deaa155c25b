def m(i,F,d,e,c,*ed): muts[i]=dict(d=d,e=e,c=c,edits=[('Model/'+F+'.lean',a,b) for a,b in ed])
m('u01','ApiServer','Node.sendUnsafeTransfer','an unsafe transfer builds the action of a call without the asset','C72: what the API says is sent',("  n.apiSendUnsafe cfg sg broadcastOk (Api.coverTransfer a) raw privkey","  n.apiSendUnsafe cfg sg broadcastOk ((Api.coverTransfer a).map fun x => match x with | .transfer r c => .transfer r { c with amount := 0 } | x => x) raw privkey"))
m('u02','ApiServer','Node.sendUnsafeDeploy','the deployed type is always asset','C72',("  n.apiSendUnsafe cfg sg broadcastOk (Api.coverDeploy a) raw privkey","  n.apiSendUnsafe cfg sg broadcastOk (Api.coverDeploy { a with ty := .asset }) raw privkey"))
m('u03','Api','coverDeploy','the code is read as text','C51/C72: arguments are converted as the API says',("  pure (.deploy code i.ty)","  pure (.deploy [] i.ty)"))
m('u04','Api','readUser','contract addresses are accepted as users','C51',("def readUser (s : List Char) : Option UserAddress := UserAddress.fromHex (asHex s)","def readUser (s : List Char) : Option UserAddress := UserAddress.fromHex s"))
m('u05','Api','asHex','the prefix is not removed','C51: hex numbers round-trip',("(clean0x s).flatMap upperChar","s.flatMap upperChar"))
m('u06','Authority','Node.startOvStatus','the consensus starts one height later','C70/C43: the consensus starts at the next height',("n.ovStatus n.status.epochId","n.ovStatus (n.status.epochId + 1)"))
m('u07','ByteExecutor','bAddBalance','balances are overwritten','C85: the byte executor does what the typed one does',("bPutAccount a (.user (addBalanceUser id u amount)) s","bPutAccount a (.user { (addBalanceUser id u amount) with nonce := 0 }) s"))
m('u08','ByteExecutor','bSubBalance','debit of an empty account creates it first','C85',("    | .error f => (.error f.toB, s)\n  | .ok (.contract c) =>\n    match subBalanceContract","    | .error _ => bPutAccount a (.user u) s\n  | .ok (.contract c) =>\n    match subBalanceContract"))
m('u09','ByteExecutor','bAccTransfer','cycles are charged before the transfer only','C85',("      | .ok used => (.ok (), { s2 with used := used })\n","      | .ok _ => (.ok (), s2)\n"))
m('u10','ByteExecutor','bSettle','a codec error fails the block','C85: a transaction that meets a malformed value fails alone',("  | (.error (.codec e), s) => .ok (.fail (showCodec e) \"\", s.revert)","  | (.error (.codec _), _) => .error .panic"))
m('u11','ByteExecutor','bRewardCoinbase','only the first fee is paid','C85',("    | (.ok (), s1) => bRewardCoinbase env fs s1","    | (.ok (), s1) => (.ok (), s1)"))
m('u12','ByteExecutor','bHandleDeploy','the nonce is not used for the address','C85/C05',("ContractAddress.fromCode env.digest code (accountNonce acc) .asset\n      match bBankRegister","ContractAddress.fromCode env.digest code (accountNonce acc + 1) .asset\n      match bBankRegister"))
m('u13','ByteExecutor','bGenesisAllocs','accounts without assets are skipped silently','C85/C13',("        match bGenesisAssets env a x.assets s with\n        | (.error f, s1) => (.error f, s1)","        match bGenesisAssets env a x.assets s with\n        | (.error _, s1) => (.ok (), s1)"))
m('u14','ByteExecutor','bQueryBalance','a missing account has balance zero','C85/C73',("  (bFromRoot T env db root).map (bGetBalance id a)","  (bFromRoot T env db root).map (fun s => match bGetBalance id a s with | .error (.err _) => .ok 0 | r => r)"))
m('u15','Consensus','NodeCfg.merkle','an empty list has the root of one zero hash','C52/C78: roots of empty lists',("(merkleRoot cfg.digest cfg.layout hs).getD cfg.emptyHash","(merkleRoot cfg.digest cfg.layout hs).getD (cfg.digest [0])"))
m('u16','Consensus','NodeCfg.epochHash','the hash of an epoch leaves out its transactions','C35: the link commits to the whole epoch',("def NodeCfg.epochHash (cfg : NodeCfg) (e : Epoch) : Hash := cfg.digest (encode e)","def NodeCfg.epochHash (cfg : NodeCfg) (e : Epoch) : Hash := cfg.digest (encode { e with orderedTxHashes := [] })"))
m('u17','ConsensusLock','Prog.each','only the first transaction of an answer is taken','C102: a check that overlaps nothing is the sequential one',("  | tx :: txs => .act (f tx) fun _ => Prog.each f next txs","  | tx :: _ => .act (f tx) fun _ => next"))
m('u18','ConsensusLock','Conf.start','a call replaces the task that runs under its number','C41 (no theorem depends on reuse of numbers?)',("if (c.tasks t).isNone then c.setTask t (some p) else c","c.setTask t (some p)"))
m('u19','Disk','Write.tooLong','the limit is 2^32','C98: writes succeed unless the value has 2^64 bytes',("decide (2 ^ 64 ≤ p.2.2.length)","decide (2 ^ 32 ≤ p.2.2.length)"))
m('u20','Endpoint','Endpoint.extend','the component is appended without a separator','C54: extended endpoints carry the rpc id',("Endpoint.parse (e.url ++ '/' :: comp.dropWhile (· == '/'))","Endpoint.parse (e.url ++ comp.dropWhile (· == '/'))"))
m('u21','Endpoint','Endpoint.scheme','rpc responses are taken for calls','C54',("  else if rpcRespScheme.isPrefixOf e.url then some .rpcResp\n","  else if rpcRespScheme.isPrefixOf e.url then some .rpcCall\n"))
m('u22','Endpoint','parseU64','a plus sign is not accepted','C54 (characterisation of accepted rpc ids)',("    | '+' :: r => r\n    | r => r\n  if ds.isEmpty","    | r => r\n  if ds.isEmpty"))
m('u23','OverlordCrypto','OverlordCrypto.verifyAggregated','aggregated signatures are refused','C42 (the refutation: always accepted)',("def OverlordCrypto.verifyAggregated (_c : OverlordCrypto) (_signature _bitmap : Bytes) : Verdict := .ok []","def OverlordCrypto.verifyAggregated (_c : OverlordCrypto) (_signature _bitmap : Bytes) : Verdict := .panic"))
m('u24','PeerManager','connectionCount','the node itself is counted','C58: the connection count is well defined',("else some (s.connected.length + s.connecting.length - 1)","else some (s.connected.length + s.connecting.length)"))
m('u25','PeerManager','addNewPeer','the address stays unknown','C57: an identified address is no longer unknown',("  | some a => { s with unknown := upd s.unknown a none }.addPeer (cfg.newPeer key [a] now)","  | some a => s.addPeer (cfg.newPeer key [a] now)"))
m('u26','PeerManager','attachPool','the listen address of a known peer is not recorded','C76: told addresses of connected peers',("  | some _, some a => s.addPeerAddr (cfg.pidOf key) a\n  | some _, none => s","  | some _, _ => s"))
m('u27','PeerManager','detachSession','the session of the peer stays in the table','C56: tables are inverse',("    { s1 with peerSession := upd s1.peerSession pid none }\n  | none => s","    s1\n  | none => s"))
m('u28','PeerManager','increasePeerRetry','the peer is not removed at the maximum','C68: the sixth failure frees the slot',("  if s1.reachMaxRetry pid then s1.cleanlyRemove cfg now pid else s1","  s1"))
m('u29','PeerManager','reconnectUnknown','an unknown address is kept for ever','C59',("(if u'.reachMaxRetry then none else some u')","(some u')"))
m('u30','PeerManager','setInsert','elements are added twice','C58/C56: counts are of distinct peers',("if k ∈ l then l else k :: l","k :: l"))
m('u31','PeerManager','secsBetween','the time since is negative counts as zero','C75: waiting times',("def secsBetween (a b : Nat) : Nat := (a - b) + (b - a)","def secsBetween (a b : Nat) : Nat := a - b"))
m('u32','PeerManager','backoffBase','the base of the waiting time is 1','C75: waiting times grow',("def backoffBase : Nat := 5","def backoffBase : Nat := 1"))
m('u33','PeerManager','tryRemoveAddr','the address is removed from the first peer only if it is connected','C61: unusable addresses are dropped',("  | some pid => s.removePeerAddr pid a\n  | none => s\n\n","  | some pid => if pid ∈ s.connected then s.removePeerAddr pid a else s\n  | none => s\n\n"))
m('u34','Persist','readIp','IPv6 addresses are read as IPv4','C86: peers known at shutdown are known after',("then (readArr 16 (bs.drop 4)).map (fun x => (some (.v6 x.1), x.2))","then (readArr 4 (bs.drop 4)).map (fun x => (some (.v4 x.1), x.2))"))
m('u35','Persist','readPeer','connect and disconnect times are exchanged','C86',("  return (⟨key, ip, addrs, connectAt, disconnectAt, alive⟩, bs)","  return (⟨key, ip, addrs, disconnectAt, connectAt, alive⟩, bs)"))
m('u36','Persist','u32LE','big endian','C86',("(List.range 4).map (fun i => UInt8.ofNat (n / 256 ^ i % 256))","((List.range 4).map (fun i => UInt8.ofNat (n / 256 ^ i % 256))).reverse"))
m('u37','PeerManager','PM.start','saved peers are not dialled or inserted','C86',("PM.bootstrap cfg ((PM.new cfg now).insertPeers cfg now saved)","PM.bootstrap cfg (PM.new cfg now)"))
m('u38','Executor','allCyclesUsed','fees of the first receipt are counted twice','C07/C79',("  rs.foldl (fun acc r => modifyAllCyclesUsed acc r.cyclesUsed) []","  (rs.take 1 ++ rs).foldl (fun acc r => modifyAllCyclesUsed acc r.cyclesUsed) []"))
m('u39','Executor','rewardCoinbase','the reward is paid in one asset','C07 (the committed state does not depend on it)',("addBalance env f.assetId env.coinbase f.cycle.toNat s) s","addBalance env f.assetId env.coinbase (f.cycle.toNat + 1) s) s"))
m('u40','Executor','incNonce','an unknown sender is created','C10: an unknown sender makes the block fail',("  match getAccount s caller with\n  | .error f => (.error f, s)\n  | .ok acc => (.ok (), putAccount caller (bumpNonce acc) s)","  match getAccount s caller with\n  | .error _ => (.ok (), s)\n  | .ok acc => (.ok (), putAccount caller (bumpNonce acc) s)"))
m('u41','Executor','addBalanceContract','an existing balance of a contract is overwritten','C02: credits add up',("  | some b => { c with assets := c.assets.insert id (b + amount) }\n  | none => { c with assets := c.assets.insert id amount }","  | some _ => { c with assets := c.assets.insert id amount }\n  | none => { c with assets := c.assets.insert id amount }"))
