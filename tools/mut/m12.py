muts['aapi01']=dict(d='digitsVal',e='| cs => cs.foldlM (fun acc c => (hexVal c).map (fun d => 16 * acc + d)) 0   =>   | cs => cs.foldlM (fun acc c => (hexVal c).map (fun d => 17 * acc + d)) 0',c="",edits=[('Model/Api.lean','  | cs => cs.foldlM (fun acc c => (hexVal c).map (fun d => 16 * acc + d)) 0','  | cs => cs.foldlM (fun acc c => (hexVal c).map (fun d => 17 * acc + d)) 0')])
muts['aapi02']=dict(d='upperChar',e="else if c.toNat = 0xFB00 then ['F', 'F']   =>   else if c.toNat ≠ 0xFB00 then ['F', 'F']",c="",edits=[('Model/Api.lean',"  else if c.toNat = 0xFB00 then ['F', 'F']","  else if c.toNat ≠ 0xFB00 then ['F', 'F']")])
muts['aapi03']=dict(d='fromStrRadix16',e='| some n => if n < 2 ^ 64 then some (UInt64.ofNat n) else none   =>   | some n => if n < 2 ^ 65 then some (UInt64.ofNat n) else none',c="",edits=[('Model/Api.lean','    | some n => if n < 2 ^ 64 then some (UInt64.ofNat n) else none','    | some n => if n < 2 ^ 65 then some (UInt64.ofNat n) else none')])
muts['aapiser01']=dict(d='Node.apiInsert',e='match n.pool.insert cfg.mem (n.view cfg (fun _ => none) broadcastOk) false tx with   =>   match n.pool.insert cfg.mem (n.view cfg (fun _ => none) broadcastOk) true tx with',c="",edits=[('Model/ApiServer.lean','  match n.pool.insert cfg.mem (n.view cfg (fun _ => none) broadcastOk) false tx with','  match n.pool.insert cfg.mem (n.view cfg (fun _ => none) broadcastOk) true tx with')])
muts['aapiser02']=dict(d='Node.apiGetBalance',e='| none => .ok (Api.showBalance 0)   =>   | none => .ok (Api.showBalance 1)',c="",edits=[('Model/ApiServer.lean','    | none => .ok (Api.showBalance 0)','    | none => .ok (Api.showBalance 1)')])
muts['aauthor01']=dict(d='configValidators',e='| some a, some vs => some (⟨a, 1, 1⟩ :: vs)   =>   | some a, some vs => some (⟨a, 2, 1⟩ :: vs)',c="",edits=[('Model/Authority.lean','    | some a, some vs => some (⟨a, 1, 1⟩ :: vs)','    | some a, some vs => some (⟨a, 2, 1⟩ :: vs)')])
muts['aauthor02']=dict(d='OvNode.le',e='def OvNode.le (a b : OvNode) : Bool := decide (a.address ≤ b.address)   =>   def OvNode.le (a b : OvNode) : Bool := decide (a.address < b.address)',c="",edits=[('Model/Authority.lean','def OvNode.le (a b : OvNode) : Bool := decide (a.address ≤ b.address)','def OvNode.le (a b : OvNode) : Bool := decide (a.address < b.address)')])
muts['abroadc01']=dict(d='step',e='| .submit tx locked => { b with chan := b.chan ++ [tx], errs := if locked then b.errs else b.errs.drop 1 }   =>   | .submit tx locked => { b with chan := b.chan ++ [tx], errs := if locked then b.errs else b.errs.take 1 }',c="",edits=[('Model/Broadcaster.lean','  | .submit tx locked => { b with chan := b.chan ++ [tx], errs := if locked then b.errs else b.errs.drop 1 }','  | .submit tx locked => { b with chan := b.chan ++ [tx], errs := if locked then b.errs else b.errs.take 1 }')])
muts['abroadc02']=dict(d='doBroadcast',e='else { b with buf := [], sent := b.sent ++ [(b.buf, ok)], errs := if ok then b.errs else b.errs ++ [b.buf] }   =>   else { b with buf := [], sent := b.sent ++ [(b.buf, ok)] }',c="",edits=[('Model/Broadcaster.lean','  else { b with buf := [], sent := b.sent ++ [(b.buf, ok)], errs := if ok then b.errs else b.errs ++ [b.buf] }','  else { b with buf := [], sent := b.sent ++ [(b.buf, ok)] }')])
muts['abroadc03']=dict(d='submitResult',e='def submitResult (b : Bcast) (locked : Bool) : Option (List SignedTx) := if locked then none else b.errs.head?   =>   def submitResult (b : Bcast) (locked : Bool) : Option (List SignedTx) := if locked then none else b.errs.getLast?',c="",edits=[('Model/Broadcaster.lean','def submitResult (b : Bcast) (locked : Bool) : Option (List SignedTx) := if locked then none else b.errs.head?','def submitResult (b : Bcast) (locked : Bool) : Option (List SignedTx) := if locked then none else b.errs.getLast?')])
muts['abroadc04']=dict(d='new',e='def new (size : Nat) : Bcast := ⟨size, [], 0, [], [], []⟩   =>   def new (size : Nat) : Bcast := ⟨size, [], 1, [], [], []⟩',c="",edits=[('Model/Broadcaster.lean','def new (size : Nat) : Bcast := ⟨size, [], 0, [], [], []⟩','def new (size : Nat) : Bcast := ⟨size, [], 1, [], [], []⟩')])
muts['abyteex01']=dict(d='bExecTx',e='cyclesUsed := { assetId := tx.raw.fee.assetId, cycle := s2.used * env.cyclesPrice }   =>   cyclesUsed := { assetId := tx.raw.fee.assetId }',c="",edits=[('Model/ByteExecutor.lean','             cyclesUsed := { assetId := tx.raw.fee.assetId, cycle := s2.used * env.cyclesPrice }','             cyclesUsed := { assetId := tx.raw.fee.assetId }')])
muts['abyteex02']=dict(d='bCreateGenesis',e='let address := ContractAddress.fromCode env.digest code 0 .asset   =>   let address := ContractAddress.fromCode env.digest code 1 .asset',c="",edits=[('Model/ByteExecutor.lean','    let address := ContractAddress.fromCode env.digest code 0 .asset','    let address := ContractAddress.fromCode env.digest code 1 .asset')])
muts['abyteex03']=dict(d='bFindOrCreate',e='| .contract _ => .ok (.contract ⟨0, [], env.emptyHash⟩)   =>   | .contract _ => .ok (.contract ⟨1, [], env.emptyHash⟩)',c="",edits=[('Model/ByteExecutor.lean','    | .contract _ => .ok (.contract ⟨0, [], env.emptyHash⟩)','    | .contract _ => .ok (.contract ⟨1, [], env.emptyHash⟩)')])
muts['abyteex04']=dict(d='Adapter.write',e='if (S.encVal v).length < 2 ^ 64 then .ok (l.insertCache (S.encKey k) (S.encVal v)) else .error .memory   =>   if (S.encVal v).length ≤ 2 ^ 64 then .ok (l.insertCache (S.encKey k) (S.encVal v)) else .error .memory',c="",edits=[('Model/ByteExecutor.lean','  if (S.encVal v).length < 2 ^ 64 then .ok (l.insertCache (S.encKey k) (S.encVal v)) else .error .memory','  if (S.encVal v).length ≤ 2 ^ 64 then .ok (l.insertCache (S.encKey k) (S.encVal v)) else .error .memory')])
muts['abyteex05']=dict(d='BSt.commit',e='(T.root top, { s with top := top, acc := acc, bank := bank }, top :: db1)   =>   (T.root top, { s with top := top, acc := acc }, top :: db1)',c="",edits=[('Model/ByteExecutor.lean','  (T.root top, { s with top := top, acc := acc, bank := bank }, top :: db1)','  (T.root top, { s with top := top, acc := acc }, top :: db1)')])
muts['abyteex06']=dict(d='Adapter.commitTrie',e='| some v => if v = [] then none else some v   =>   | some v => if v ≠ [] then none else some v',c="",edits=[('Model/ByteExecutor.lean','      | some v => if v = [] then none else some v','      | some v => if v ≠ [] then none else some v')])
muts['abyteex07']=dict(d='bFromRoot',e='match (if root = env.emptyHash then some PMap.empty else db.open T root) with   =>   match (if root ≠ env.emptyHash then some PMap.empty else db.open T root) with',c="",edits=[('Model/ByteExecutor.lean','  match (if root = env.emptyHash then some PMap.empty else db.open T root) with','  match (if root ≠ env.emptyHash then some PMap.empty else db.open T root) with')])
muts['aconnec01']=dict(d='ConnSvc.single',e='| .ok => { s with calls := s.calls + 1, accepted := s.accepted ++ [c] }   =>   | .ok => { s with calls := s.calls + 1 }',c="",edits=[('Model/Connection.lean','  | .ok => { s with calls := s.calls + 1, accepted := s.accepted ++ [c] }','  | .ok => { s with calls := s.calls + 1 }')])
muts['aconnec02']=dict(d='ConnSvc.dials',e='| .ok => { s with calls := s.calls + 1, accepted := s.accepted ++ [Call.dial a] }.dials ans rest   =>   | .ok => { s with calls := s.calls, accepted := s.accepted ++ [Call.dial a] }.dials ans rest',c="",edits=[('Model/Connection.lean','    | .ok => { s with calls := s.calls + 1, accepted := s.accepted ++ [Call.dial a] }.dials ans rest','    | .ok => { s with calls := s.calls, accepted := s.accepted ++ [Call.dial a] }.dials ans rest')])
muts['aconnec03']=dict(d='ConnSvc.new',e='def ConnSvc.new : ConnSvc := ⟨[], [], 0, []⟩   =>   def ConnSvc.new : ConnSvc := ⟨[], [], 1, []⟩',c="",edits=[('Model/Connection.lean','def ConnSvc.new : ConnSvc := ⟨[], [], 0, []⟩','def ConnSvc.new : ConnSvc := ⟨[], [], 1, []⟩')])
muts['aconnec04']=dict(d='usersSend',e='let missed := (s.route us msg).2   =>   let missed := (s.route us msg).3',c="",edits=[('Model/Connection.lean','  let missed := (s.route us msg).2','  let missed := (s.route us msg).3')])
muts['aconsen01']=dict(d='Node.commitTail',e='| (.ok (), n3) => if io.transmit then (.ok (epochId + 1), n3) else (.error .network, n3)   =>   | (.ok (), n3) => if io.transmit then (.ok (epochId), n3) else (.error .network, n3)',c="",edits=[('Model/Consensus.lean','    | (.ok (), n3) => if io.transmit then (.ok (epochId + 1), n3) else (.error .network, n3)','    | (.ok (), n3) => if io.transmit then (.ok (epochId), n3) else (.error .network, n3)')])
muts['aconsen02']=dict(d='Node.updateStatus',e='let s3 := s2.writes ((StoreOp.writes cfg.digest (.insertEpoch epoch)).take io.epochWrites)   =>   let s3 := s2.writes ((StoreOp.writes cfg.digest (.insertEpoch epoch)).drop io.epochWrites)',c="",edits=[('Model/Consensus.lean','      let s3 := s2.writes ((StoreOp.writes cfg.digest (.insertEpoch epoch)).take io.epochWrites)','      let s3 := s2.writes ((StoreOp.writes cfg.digest (.insertEpoch epoch)).drop io.epochWrites)')])
muts['aconsen03']=dict(d='Node.commit',e='if io.alive = false then (.error .panic, n1)   =>   if io.alive ≠ false then (.error .panic, n1)',c="",edits=[('Model/Consensus.lean','        if io.alive = false then (.error .panic, n1)','        if io.alive ≠ false then (.error .panic, n1)')])
muts['aconsen04']=dict(d='NodeCfg.genesisEpoch',e='proposer := ⟨List.replicate 20 0, by simp⟩   =>   proposer := ⟨List.replicate 20 1, by simp⟩',c="",edits=[('Model/Consensus.lean','        proposer := ⟨List.replicate 20 0, by simp⟩','        proposer := ⟨List.replicate 20 1, by simp⟩')])
muts['aconsen05']=dict(d='Status.updated',e='epochId := epochId + 1   =>   epochId := epochId + 2',c="",edits=[('Model/Consensus.lean','    epochId := epochId + 1','    epochId := epochId + 2')])
muts['aconsen06']=dict(d='Node.syncOne',e='if id ≠ 1 ∧ curHash ≠ epoch.header.preHash then (.error (.syncEpochHash id), n)   =>   if id ≠ 1 ∨ curHash ≠ epoch.header.preHash then (.error (.syncEpochHash id), n)',c="",edits=[('Model/Consensus.lean','    if id ≠ 1 ∧ curHash ≠ epoch.header.preHash then (.error (.syncEpochHash id), n)','    if id ≠ 1 ∨ curHash ≠ epoch.header.preHash then (.error (.syncEpochHash id), n)')])
muts['aconsen07']=dict(d='Node.syncStart',e='match io.pullEpoch 0 (current + 1) with   =>   match io.pullEpoch 0 (current) with',c="",edits=[('Model/Consensus.lean','      match io.pullEpoch 0 (current + 1) with','      match io.pullEpoch 0 (current) with')])
muts['aconsen01x']=dict(d='Prog.updateStatus',e='.write (decide (1 < io.epochWrites)) (fun n => { n with store := n.store.writes (((StoreOp.writes cfg.digest (.insertEpoch epoch)).drop 1).take 1) }) fail <|   =>   .write (decide (1 < io.epochWrites)) (fun n => { n with store := n.store.writes (((StoreOp.writes cfg.digest (.insertEpoch epoch)).drop 1).take 2) }) fail <|',c="",edits=[('Model/ConsensusLock.lean','  .write (decide (1 < io.epochWrites)) (fun n => { n with store := n.store.writes (((StoreOp.writes cfg.digest (.insertEpoch epoch)).drop 1).take 1) }) fail <|','  .write (decide (1 < io.epochWrites)) (fun n => { n with store := n.store.writes (((StoreOp.writes cfg.digest (.insertEpoch epoch)).drop 1).take 2) }) fail <|')])
muts['aconsen02x']=dict(d='Prog.syncOne',e='.act (fun n => (n.exec cfg stateRoot epoch.header.epochId (.user epoch.header.proposer) txs).2) fun n =>   =>   .act (fun n => (n.exec cfg stateRoot epoch.header.epochId (.user epoch.header.proposer) txs).3) fun n =>',c="",edits=[('Model/ConsensusLock.lean','            .act (fun n => (n.exec cfg stateRoot epoch.header.epochId (.user epoch.header.proposer) txs).2) fun n =>','            .act (fun n => (n.exec cfg stateRoot epoch.header.epochId (.user epoch.header.proposer) txs).3) fun n =>')])
muts['aconsen03x']=dict(d='Conf.setLock',e='def Conf.setLock (c : Conf) (l : Lock) (h : Option Nat) : Conf := { c with held := fun i => if i = l then h else c.held i }   =>   def Conf.setLock (c : Conf) (l : Lock) (h : Option Nat) : Conf := { c with held := fun i => if i ≠ l then h else c.held i }',c="",edits=[('Model/ConsensusLock.lean','def Conf.setLock (c : Conf) (l : Lock) (h : Option Nat) : Conf := { c with held := fun i => if i = l then h else c.held i }','def Conf.setLock (c : Conf) (l : Lock) (h : Option Nat) : Conf := { c with held := fun i => if i ≠ l then h else c.held i }')])
muts['aconsen04x']=dict(d='Prog.commit',e='if io.alive = false then .endCommit (.error .panic)   =>   if io.alive = true then .endCommit (.error .panic)',c="",edits=[('Model/ConsensusLock.lean','          if io.alive = false then .endCommit (.error .panic)','          if io.alive = true then .endCommit (.error .panic)')])
muts['aconsen05x']=dict(d='Prog.sync',e='if UInt64.ofNat v - 1 - 1 ≤ n.currentId then .unlock .sync (.ret (.sync (.ok none)))   =>   if UInt64.ofNat v - 1 ≤ n.currentId then .unlock .sync (.ret (.sync (.ok none)))',c="",edits=[('Model/ConsensusLock.lean','        if UInt64.ofNat v - 1 - 1 ≤ n.currentId then .unlock .sync (.ret (.sync (.ok none)))','        if UInt64.ofNat v - 1 ≤ n.currentId then .unlock .sync (.ret (.sync (.ok none)))')])
muts['aconsen06x']=dict(d='Prog.commitTail',e='(.endCommit (if io.transmit then .ok (epochId + 1) else .error .network))   =>   (.endCommit (if io.transmit then .ok (epochId) else .error .network))',c="",edits=[('Model/ConsensusLock.lean','        (.endCommit (if io.transmit then .ok (epochId + 1) else .error .network))','        (.endCommit (if io.transmit then .ok (epochId) else .error .network))')])
muts['aconsen07x']=dict(d='Conf.after',e='evs.foldl (Conf.step cfg) { node := n, held := fun _ => none, tasks := fun _ => none }   =>   evs.foldl (Conf.step cfg) { node := n, held := fun _ => none }',c="",edits=[('Model/ConsensusLock.lean','  evs.foldl (Conf.step cfg) { node := n, held := fun _ => none, tasks := fun _ => none }','  evs.foldl (Conf.step cfg) { node := n, held := fun _ => none }')])
muts['adisk01']=dict(d='DNode.updateEpoch',e='else if io.lock = false then (.ok none, d)   =>   else if io.lock ≠ false then (.ok none, d)',c="",edits=[('Model/Disk.lean','    else if io.lock = false then (.ok none, d)','    else if io.lock ≠ false then (.ok none, d)')])
muts['adisk02']=dict(d='Db.save',e='| [] => (true, db)   =>   | [] => (false, db)',c="",edits=[('Model/Disk.lean','  | [] => (true, db)','  | [] => (false, db)')])
muts['adisk03']=dict(d='DNode.updateStatus',e='if io.receipts = false then (.error (.node .storage), d)   =>   if io.receipts ≠ false then (.error (.node .storage), d)',c="",edits=[('Model/Disk.lean','  if io.receipts = false then (.error (.node .storage), d)','  if io.receipts ≠ false then (.error (.node .storage), d)')])
muts['adisk04']=dict(d='diskInit',e="| (_, tries') => (.ok false, rocks, tries')   =>   | (_, tries') => (.ok true, rocks, tries')",c="",edits=[('Model/Disk.lean',"    | (_, tries') => (.ok false, rocks, tries')","    | (_, tries') => (.ok true, rocks, tries')")])
muts['adisk05']=dict(d='DNode.syncStart',e='if cfg.epochHash e ≠ next.header.preHash then .error (.node (.syncEpochHash (current + 1)))   =>   if cfg.epochHash e ≠ next.header.preHash then .error (.node (.syncEpochHash (current + 2)))',c="",edits=[('Model/Disk.lean','        if cfg.epochHash e ≠ next.header.preHash then .error (.node (.syncEpochHash (current + 1)))','        if cfg.epochHash e ≠ next.header.preHash then .error (.node (.syncEpochHash (current + 2)))')])
muts['adisk06']=dict(d='DNode.checkEpoch',e='match p.ensureOrderTxs (d.view cfg pull2 true) order with   =>   match p.ensureOrderTxs (d.view cfg pull2 false) order with',c="",edits=[('Model/Disk.lean','      match p.ensureOrderTxs (d.view cfg pull2 true) order with','      match p.ensureOrderTxs (d.view cfg pull2 false) order with')])
muts['adisk07']=dict(d='DNode.syncOne',e='if id ≠ 1 ∧ curHash ≠ epoch.header.preHash then (.error (.node (.syncEpochHash id)), d)   =>   if id = 1 ∧ curHash ≠ epoch.header.preHash then (.error (.node (.syncEpochHash id)), d)',c="",edits=[('Model/Disk.lean','    if id ≠ 1 ∧ curHash ≠ epoch.header.preHash then (.error (.node (.syncEpochHash id)), d)','    if id = 1 ∧ curHash ≠ epoch.header.preHash then (.error (.node (.syncEpochHash id)), d)')])
muts['aendpoi01']=dict(d='showNat',e='if n < 10 then [decDigit n] else showNat (n / 10) ++ [decDigit (n % 10)]   =>   if n ≤ 10 then [decDigit n] else showNat (n / 10) ++ [decDigit (n % 10)]',c="",edits=[('Model/Endpoint.lean','  if n < 10 then [decDigit n] else showNat (n / 10) ++ [decDigit (n % 10)]','  if n ≤ 10 then [decDigit n] else showNat (n / 10) ++ [decDigit (n % 10)]')])
muts['aendpoi02']=dict(d='readDec',e='| some d => if acc * 10 + d < 2 ^ 64 then readDec (acc * 10 + d) cs else none   =>   | some d => if acc * 10 + d < 2 ^ 65 then readDec (acc * 10 + d) cs else none',c="",edits=[('Model/Endpoint.lean','    | some d => if acc * 10 + d < 2 ^ 64 then readDec (acc * 10 + d) cs else none','    | some d => if acc * 10 + d < 2 ^ 65 then readDec (acc * 10 + d) cs else none')])
muts['aendpoi03']=dict(d='Endpoint.rpcId',e="let rid := (e.url.reverse.takeWhile (· != '/')).reverse   =>   let rid := (e.url.takeWhile (· != '/')).reverse",c="",edits=[('Model/Endpoint.lean',"    let rid := (e.url.reverse.takeWhile (· != '/')).reverse","    let rid := (e.url.takeWhile (· != '/')).reverse")])
muts['aendpoi04']=dict(d='digitVal',e="def digitVal (c : Char) : Option Nat := if '0' ≤ c ∧ c ≤ '9' then some (c.toNat - 48) else none   =>   def digitVal (c : Char) : Option Nat := if '1' ≤ c ∧ c ≤ '9' then some (c.toNat - 48) else none",c="",edits=[('Model/Endpoint.lean',"def digitVal (c : Char) : Option Nat := if '0' ≤ c ∧ c ≤ '9' then some (c.toNat - 48) else none","def digitVal (c : Char) : Option Nat := if '1' ≤ c ∧ c ≤ '9' then some (c.toNat - 48) else none")])
muts['aendpoi05']=dict(d='Endpoint.parse',e='else if (urlComps s).length < 3 ∨ 4 < (urlComps s).length then .error .notEndpoint   =>   else if (urlComps s).length < 3 ∨ 4 ≤ (urlComps s).length then .error .notEndpoint',c="",edits=[('Model/Endpoint.lean','  else if (urlComps s).length < 3 ∨ 4 < (urlComps s).length then .error .notEndpoint','  else if (urlComps s).length < 3 ∨ 4 ≤ (urlComps s).length then .error .notEndpoint')])
muts['aendpoi06']=dict(d='splitSlash',e="if c = '/' then [] :: splitSlash cs   =>   if c ≠ '/' then [] :: splitSlash cs",c="",edits=[('Model/Endpoint.lean',"    if c = '/' then [] :: splitSlash cs","    if c ≠ '/' then [] :: splitSlash cs")])
muts['aexecut01']=dict(d='findOrCreate',e='| .contract _ => .contract ⟨0, [], env.emptyHash⟩   =>   | .contract _ => .contract ⟨1, [], env.emptyHash⟩',c="",edits=[('Model/Executor.lean','    | .contract _ => .contract ⟨0, [], env.emptyHash⟩','    | .contract _ => .contract ⟨1, [], env.emptyHash⟩')])
muts['aexecut02']=dict(d='CyclesAction.cost',e='| .bankRegister => 10 * 210   =>   | .bankRegister => 10 * 211',c="",edits=[('Model/Executor.lean','  | .bankRegister => 10 * 210','  | .bankRegister => 10 * 211')])
muts['aexecut03']=dict(d='assetIdOf',e='env.digest (env.chainId.bytes ++ address.toBytes)   =>   env.digest (env.chainId.bytes.toBytes)',c="",edits=[('Model/Executor.lean','  env.digest (env.chainId.bytes ++ address.toBytes)','  env.digest (env.chainId.bytes.toBytes)')])
muts['aexecut04']=dict(d='bumpNonce',e='| .user u => .user { u with nonce := u.nonce + 1 }   =>   | .user u => .user { u with nonce := u.nonce }',c="",edits=[('Model/Executor.lean','  | .user u => .user { u with nonce := u.nonce + 1 }','  | .user u => .user { u with nonce := u.nonce }')])
muts['aexecut05']=dict(d='modifyAllCyclesUsed',e='if g.assetId = f.assetId then { g with cycle := g.cycle + f.cycle } :: gs   =>   if g.assetId ≠ f.assetId then { g with cycle := g.cycle + f.cycle } :: gs',c="",edits=[('Model/Executor.lean','    if g.assetId = f.assetId then { g with cycle := g.cycle + f.cycle } :: gs','    if g.assetId ≠ f.assetId then { g with cycle := g.cycle + f.cycle } :: gs')])
muts['aexecut06']=dict(d='fromRoot',e='if root = env.emptyHash then some (St.open World.empty) else (db root).map St.open   =>   if root ≠ env.emptyHash then some (St.open World.empty) else (db root).map St.open',c="",edits=[('Model/Executor.lean','  if root = env.emptyHash then some (St.open World.empty) else (db root).map St.open','  if root ≠ env.emptyHash then some (St.open World.empty) else (db root).map St.open')])
muts['aexecut07']=dict(d='subBalanceContract',e='| some b => if b < amount then .error .panic else .ok { c with assets := c.assets.insert id (b - amount) }   =>   | some b => if b ≤ amount then .error .panic else .ok { c with assets := c.assets.insert id (b - amount) }',c="",edits=[('Model/Executor.lean','  | some b => if b < amount then .error .panic else .ok { c with assets := c.assets.insert id (b - amount) }','  | some b => if b ≤ amount then .error .panic else .ok { c with assets := c.assets.insert id (b - amount) }')])
muts['afixedc01']=dict(d='EpochHeader.dec',e='let orderRoot ← (Rlp.at bs 5) >>= Hash.dec   =>   let orderRoot ← (Rlp.at bs 6) >>= Hash.dec',c="",edits=[('Model/FixedCodec.lean','  let orderRoot ← (Rlp.at bs 5) >>= Hash.dec','  let orderRoot ← (Rlp.at bs 6) >>= Hash.dec')])
muts['afixedc02']=dict(d='RawTx.dec',e='pure { chainId, nonce, timeout, fee, action := .call contract method args none }   =>   pure { chainId, nonce, timeout, fee }',c="",edits=[('Model/FixedCodec.lean','      pure { chainId, nonce, timeout, fee, action := .call contract method args none }','      pure { chainId, nonce, timeout, fee }')])
muts['afixedc03']=dict(d='Account.dec',e='else if flag = 1 then   =>   else if flag = 2 then',c="",edits=[('Model/FixedCodec.lean','    pure (.user { nonce, assets := BMap.ofList assets })\n  else if flag = 1 then','    pure (.user { nonce, assets := BMap.ofList assets })\n  else if flag = 2 then')])
muts['afixedc04']=dict(d='ContractType.ofFlag',e='if n = 0 then .ok .asset   =>   if n ≠ 0 then .ok .asset',c="",edits=[('Model/FixedCodec.lean','  if n = 0 then .ok .asset','  if n ≠ 0 then .ok .asset')])
muts['afixedc05']=dict(d='ReceiptResult.dec',e='else if flag = 2 then   =>   else if flag ≠ 2 then',c="",edits=[('Model/FixedCodec.lean','  else if flag = 2 then','  else if flag ≠ 2 then')])
muts['afixedc06']=dict(d='userAssetDec',e='pure (id, { balance := natOfBE balance, approved := BMap.ofList approved })   =>   pure (id, { balance := natOfBE balance })',c="",edits=[('Model/FixedCodec.lean','  pure (id, { balance := natOfBE balance, approved := BMap.ofList approved })','  pure (id, { balance := natOfBE balance })')])
muts['afixedc07']=dict(d='Receipt.item',e='.list ([r.cyclesUsed.item, .u64 r.epochId] ++ r.result.items ++ [r.stateRoot.item, r.txHash.item])   =>   .list ([r.cyclesUsed.item, .u64 r.epochId].result.items ++ [r.stateRoot.item, r.txHash.item])',c="",edits=[('Model/FixedCodec.lean','  .list ([r.cyclesUsed.item, .u64 r.epochId] ++ r.result.items ++ [r.stateRoot.item, r.txHash.item])','  .list ([r.cyclesUsed.item, .u64 r.epochId].result.items ++ [r.stateRoot.item, r.txHash.item])')])
muts['aframe01']=dict(d='NetMsg.pb',e='def NetMsg.pb (m : NetMsg) : PFields := fBytes 1 (utf8 (String.ofList m.url)) ++ fBytes 2 m.content   =>   def NetMsg.pb (m : NetMsg) : PFields := fBytes 1 (utf8 (String.ofList m.url)) 2 m.content',c="",edits=[('Model/Frame.lean','def NetMsg.pb (m : NetMsg) : PFields := fBytes 1 (utf8 (String.ofList m.url)) ++ fBytes 2 m.content','def NetMsg.pb (m : NetMsg) : PFields := fBytes 1 (utf8 (String.ofList m.url)) 2 m.content')])
muts['aframe02']=dict(d='Node.receive',e='(r.1.map (fun o => (o.sid, z.compress (pbEncode (NetMsg.mk o.url o.content)))), r.2)   =>   (r.2.map (fun o => (o.sid, z.compress (pbEncode (NetMsg.mk o.url o.content)))), r.2)',c="",edits=[('Model/Frame.lean','    (r.1.map (fun o => (o.sid, z.compress (pbEncode (NetMsg.mk o.url o.content)))), r.2)','    (r.2.map (fun o => (o.sid, z.compress (pbEncode (NetMsg.mk o.url o.content)))), r.2)')])
muts['aframe03']=dict(d='NetMsg.ofPb',e='let c ← getBytes 2 fs   =>   let c ← getBytes 3 fs',c="",edits=[('Model/Frame.lean','  let c ← getBytes 2 fs','  let c ← getBytes 3 fs')])
muts['ahex01']=dict(d='hexDecode',e='| some x, some y, some bs => some (UInt8.ofNat (16 * x + y) :: bs)   =>   | some x, some y, some bs => some (UInt8.ofNat (17 * x + y) :: bs)',c="",edits=[('Model/Hex.lean','    | some x, some y, some bs => some (UInt8.ofNat (16 * x + y) :: bs)','    | some x, some y, some bs => some (UInt8.ofNat (17 * x + y) :: bs)')])
muts['ahex02']=dict(d='hexVal',e='else if 97 ≤ n ∧ n ≤ 102 then some (n - 87)   =>   else if 98 ≤ n ∧ n ≤ 102 then some (n - 87)',c="",edits=[('Model/Hex.lean','  else if 97 ≤ n ∧ n ≤ 102 then some (n - 87)','  else if 98 ≤ n ∧ n ≤ 102 then some (n - 87)')])
muts['ahex03']=dict(d='hexDigit',e='if n < 10 then Char.ofNat (48 + n) else Char.ofNat (87 + n)   =>   if n ≤ 10 then Char.ofNat (48 + n) else Char.ofNat (87 + n)',c="",edits=[('Model/Hex.lean','  if n < 10 then Char.ofNat (48 + n) else Char.ofNat (87 + n)','  if n ≤ 10 then Char.ofNat (48 + n) else Char.ofNat (87 + n)')])
muts['akeeper01']=dict(d='SvcError.report',e='| .listen e a => some (e.event false a)   =>   | .listen e a => some (e.event true a)',c="",edits=[('Model/Keeper.lean','  | .listen e a => some (e.event false a)','  | .listen e a => some (e.event true a)')])
muts['amempoo01']=dict(d='syncProposeTxs',e='| some txs => (.ok (), { p with cache := txs.foldl (fun c tx => (c.insert tx true).2) p.cache })   =>   | some txs => (.ok (), { p with cache := txs.foldl (fun c tx => (c.insert tx false).2) p.cache })',c="",edits=[('Model/Mempool.lean','    | some txs => (.ok (), { p with cache := txs.foldl (fun c tx => (c.insert tx true).2) p.cache })','    | some txs => (.ok (), { p with cache := txs.foldl (fun c tx => (c.insert tx false).2) p.cache })')])
muts['amempoo02']=dict(d='MemPool.step',e='| .syncProposeTxs v hs => (p.syncProposeTxs v hs).2   =>   | .syncProposeTxs v hs => (p.syncProposeTxs v hs).3',c="",edits=[('Model/Mempool.lean','  | .syncProposeTxs v hs => (p.syncProposeTxs v hs).2','  | .syncProposeTxs v hs => (p.syncProposeTxs v hs).3')])
muts['amempoo03']=dict(d='checkTransaction',e='if chainId ≠ tx.raw.chainId then .error (.wrongChain tx.txHash)   =>   if chainId = tx.raw.chainId then .error (.wrongChain tx.txHash)',c="",edits=[('Model/Mempool.lean','      if chainId ≠ tx.raw.chainId then .error (.wrongChain tx.txHash)','      if chainId = tx.raw.chainId then .error (.wrongChain tx.txHash)')])
muts['amempoo04']=dict(d='insert',e='if netOrigin || v.broadcastOk then (.ok (), { p with cache := c })   =>   if netOrigin && v.broadcastOk then (.ok (), { p with cache := c })',c="",edits=[('Model/Mempool.lean','      if netOrigin || v.broadcastOk then (.ok (), { p with cache := c })','      if netOrigin && v.broadcastOk then (.ok (), { p with cache := c })')])
muts['amempoo05']=dict(d='new',e='{ poolSize := poolSize, gap := gap, cache := TxCache.new (poolSize * 2), callback := TxMap.new }   =>   { poolSize := poolSize, gap := gap, cache := TxCache.new (poolSize * 2) }',c="",edits=[('Model/Mempool.lean','  { poolSize := poolSize, gap := gap, cache := TxCache.new (poolSize * 2), callback := TxMap.new }','  { poolSize := poolSize, gap := gap, cache := TxCache.new (poolSize * 2) }')])
muts['amempoo06']=dict(d='checkReachLimit',e='if p.poolSize ≤ p.cache.len then .error (.reachLimit p.poolSize) else .ok ()   =>   if p.poolSize < p.cache.len then .error (.reachLimit p.poolSize) else .ok ()',c="",edits=[('Model/Mempool.lean','  if p.poolSize ≤ p.cache.len then .error (.reachLimit p.poolSize) else .ok ()','  if p.poolSize < p.cache.len then .error (.reachLimit p.poolSize) else .ok ()')])
muts['amempoo07']=dict(d='getFullTxs',e='if full.length ≠ hs.length then .error (.misMatch hs.length full.length) else .ok full   =>   if full.length = hs.length then .error (.misMatch hs.length full.length) else .ok full',c="",edits=[('Model/Mempool.lean','  if full.length ≠ hs.length then .error (.misMatch hs.length full.length) else .ok full','  if full.length = hs.length then .error (.misMatch hs.length full.length) else .ok full')])
muts['amerkle01']=dict(d='heapTree',e='| 0, _ => .leaf 0   =>   | 0, _ => .leaf 1',c="",edits=[('Model/Merkle.lean','  | 0, _ => .leaf 0','  | 0, _ => .leaf 1')])
muts['amerkle02']=dict(d='merkleRoot',e='if hs = [] then none else some ((lay.tree hs.length).eval digest hs)   =>   if hs ≠ [] then none else some ((lay.tree hs.length).eval digest hs)',c="",edits=[('Model/Merkle.lean','  if hs = [] then none else some ((lay.tree hs.length).eval digest hs)','  if hs ≠ [] then none else some ((lay.tree hs.length).eval digest hs)')])
muts['amerkle03']=dict(d='IdxTree.positions',e='| .node l r => l.positions ++ r.positions   =>   | .node l r => l.positions.positions',c="",edits=[('Model/Merkle.lean','  | .node l r => l.positions ++ r.positions','  | .node l r => l.positions.positions')])
muts['amerkle04']=dict(d='merkleMerge',e='def merkleMerge (digest : Bytes → Hash) (l r : Hash) : Hash := digest (l.bytes ++ r.bytes)   =>   def merkleMerge (digest : Bytes → Hash) (l r : Hash) : Hash := digest (l.bytes.bytes)',c="",edits=[('Model/Merkle.lean','def merkleMerge (digest : Bytes → Hash) (l r : Hash) : Hash := digest (l.bytes ++ r.bytes)','def merkleMerge (digest : Bytes → Hash) (l r : Hash) : Hash := digest (l.bytes.bytes)')])
muts['amessag01']=dict(d='RpcResponse.dec',e='else if flag = flagTxs then   =>   else if flag ≠ flagTxs then',c="",edits=[('Model/Messages.lean','    else if flag = flagTxs then','    else if flag ≠ flagTxs then')])
muts['amessag02']=dict(d='readU64LE',e='if bs.length < 8 then none else some (natOfLE (bs.take 8), bs.drop 8)   =>   if bs.length < 9 then none else some (natOfLE (bs.take 8), bs.drop 8)',c="",edits=[('Model/Messages.lean','  if bs.length < 8 then none else some (natOfLE (bs.take 8), bs.drop 8)','  if bs.length < 9 then none else some (natOfLE (bs.take 8), bs.drop 8)')])
muts['amessag03']=dict(d='encMulti',e='def encMulti {T : Type} [Protobuf T] (l : List T) : Bytes := u64LE l.length ++ l.flatMap (fun v => encBuf (pbEncode v))   =>   def encMulti {T : Type} [Protobuf T] (l : List T) : Bytes := u64LE l.length.flatMap (fun v => encBuf (pbEncode v))',c="",edits=[('Model/Messages.lean','def encMulti {T : Type} [Protobuf T] (l : List T) : Bytes := u64LE l.length ++ l.flatMap (fun v => encBuf (pbEncode v))','def encMulti {T : Type} [Protobuf T] (l : List T) : Bytes := u64LE l.length.flatMap (fun v => encBuf (pbEncode v))')])
muts['amessag04']=dict(d='encBuf',e='def encBuf (b : Bytes) : Bytes := u64LE b.length ++ b   =>   def encBuf (b : Bytes) : Bytes := u64LE b.length',c="",edits=[('Model/Messages.lean','def encBuf (b : Bytes) : Bytes := u64LE b.length ++ b','def encBuf (b : Bytes) : Bytes := u64LE b.length')])
muts['amessag05']=dict(d='natOfLE',e='| [] => 0   =>   | [] => 1',c="",edits=[('Model/Messages.lean','  | [] => 0','  | [] => 1')])
muts['amessag06']=dict(d='readBuf',e='| some (n, rest) => if rest.length < n then none else some (rest.take n, rest.drop n)   =>   | some (n, rest) => if rest.length < n then none else some (rest.take n, rest.take n)',c="",edits=[('Model/Messages.lean','  | some (n, rest) => if rest.length < n then none else some (rest.take n, rest.drop n)','  | some (n, rest) => if rest.length < n then none else some (rest.take n, rest.take n)')])
muts['amessag07']=dict(d='readElems',e='| n + 1, bs =>   =>   | n, bs =>',c="",edits=[('Model/Messages.lean','  | n + 1, bs =>','  | n, bs =>')])
muts['ampt01']=dict(d='remove',e='| leaf p v, k => if k = p then empty else leaf p v   =>   | leaf p v, k => if k ≠ p then empty else leaf p v',c="",edits=[('Model/Mpt.lean','  | leaf p v, k => if k = p then empty else leaf p v','  | leaf p v, k => if k ≠ p then empty else leaf p v')])
muts['ampt02']=dict(d='nibblesOf',e='| b :: bs => Fin.ofNat 16 (b.toNat / 16) :: Fin.ofNat 16 (b.toNat % 16) :: nibblesOf bs   =>   | b :: bs => Fin.ofNat 16 (b.toNat / 16) :: Fin.ofNat 16 (b.toNat % 17) :: nibblesOf bs',c="",edits=[('Model/Mpt.lean','  | b :: bs => Fin.ofNat 16 (b.toNat / 16) :: Fin.ofNat 16 (b.toNat % 16) :: nibblesOf bs','  | b :: bs => Fin.ofNat 16 (b.toNat / 16) :: Fin.ofNat 16 (b.toNat % 17) :: nibblesOf bs')])
muts['ampt03']=dict(d='write',e='def write (t : Mpt) (k v : Bytes) : Mpt := if v = [] then t.remove (nibblesOf k) else t.insert (nibblesOf k) v   =>   def write (t : Mpt) (k v : Bytes) : Mpt := if v ≠ [] then t.remove (nibblesOf k) else t.insert (nibblesOf k) v',c="",edits=[('Model/Mpt.lean','def write (t : Mpt) (k v : Bytes) : Mpt := if v = [] then t.remove (nibblesOf k) else t.insert (nibblesOf k) v','def write (t : Mpt) (k v : Bytes) : Mpt := if v ≠ [] then t.remove (nibblesOf k) else t.insert (nibblesOf k) v')])
muts['ampt04']=dict(d='uncompact',e='if flag = 0 then some (false, nibblesOf r)   =>   if flag = 0 then some (true, nibblesOf r)',c="",edits=[('Model/Mpt.lean','    if flag = 0 then some (false, nibblesOf r)','    if flag = 0 then some (true, nibblesOf r)')])
muts['ampt05']=dict(d='stored',e='t.coding digest :: (t.codings digest).filter (fun b => 32 ≤ b.length)   =>   t.coding digest :: (t.codings digest).filter (fun b => 33 ≤ b.length)',c="",edits=[('Model/Mpt.lean','  t.coding digest :: (t.codings digest).filter (fun b => 32 ≤ b.length)','  t.coding digest :: (t.codings digest).filter (fun b => 33 ≤ b.length)')])
muts['ampt06']=dict(d='load',e='| fuel + 1, .data h =>   =>   | fuel, .data h =>',c="",edits=[('Model/Mpt.lean','  | fuel + 1, .data h =>','  | fuel, .data h =>')])
muts['ampt07']=dict(d='item',e='| ext p c => .list [.data (compact false p), ref digest (item digest c)]   =>   | ext p c => .list [.data (compact true p), ref digest (item digest c)]',c="",edits=[('Model/Mpt.lean','  | ext p c => .list [.data (compact false p), ref digest (item digest c)]','  | ext p c => .list [.data (compact true p), ref digest (item digest c)]')])
muts['aoverlo01']=dict(d='OverlordCrypto.verifySignature',e='if signature.length < 33 then .panic   =>   if signature.length < 34 then .panic',c="",edits=[('Model/OverlordCrypto.lean','  if signature.length < 33 then .panic','  if signature.length < 34 then .panic')])
muts['aoverlo02']=dict(d='OverlordCrypto.sign',e='| some s => some (c.pubkey ++ s)   =>   | some s => some (c.pubkey)',c="",edits=[('Model/OverlordCrypto.lean','  | some s => some (c.pubkey ++ s)','  | some s => some (c.pubkey)')])
muts['apeerma01']=dict(d='PMCfg.newPeer',e='⟨cfg.pidOf key, cfg.userOf key, key, addrs, 0, now.tick, 0, 0, 0⟩   =>   ⟨cfg.pidOf key, cfg.userOf key, key, addrs, 0, now.tick, 0, 1, 0⟩',c="",edits=[('Model/PeerManager.lean','  ⟨cfg.pidOf key, cfg.userOf key, key, addrs, 0, now.tick, 0, 0, 0⟩','  ⟨cfg.pidOf key, cfg.userOf key, key, addrs, 0, now.tick, 0, 1, 0⟩')])
muts['apeerma02']=dict(d='qualified',e='| some p => !decide (pid ∈ s.connected) && !decide (pid ∈ s.connecting) && p.retryReady now   =>   | some p => !decide (pid ∈ s.connected) && !decide (pid ∉ s.connecting) && p.retryReady now',c="",edits=[('Model/PeerManager.lean','  | some p => !decide (pid ∈ s.connected) && !decide (pid ∈ s.connecting) && p.retryReady now','  | some p => !decide (pid ∈ s.connected) && !decide (pid ∉ s.connecting) && p.retryReady now')])
muts['apeerma03']=dict(d='identifyAddr',e='| some pid => if pid ∈ s.connected then s.addPeerAddr pid a else s   =>   | some pid => if pid ∉ s.connected then s.addPeerAddr pid a else s',c="",edits=[('Model/PeerManager.lean','  | some pid => if pid ∈ s.connected then s.addPeerAddr pid a else s','  | some pid => if pid ∉ s.connected then s.addPeerAddr pid a else s')])
muts['apeerma04']=dict(d='Peer.increaseRetry',e='else { p with retry := p.retry + 1, attemptAt := now.secs, nextRetry := now.tick + backoffBase ^ (p.retry + 1) }   =>   else { p with retry := p.retry + 1, attemptAt := now.secs, nextRetry := now.tick + backoffBase ^ (p.retry + 2) }',c="",edits=[('Model/PeerManager.lean','  else { p with retry := p.retry + 1, attemptAt := now.secs, nextRetry := now.tick + backoffBase ^ (p.retry + 1) }','  else { p with retry := p.retry + 1, attemptAt := now.secs, nextRetry := now.tick + backoffBase ^ (p.retry + 2) }')])
muts['apeerma05']=dict(d='detach',e='| some p => if p.alive < aliveRetryInterval then s1.increasePeerRetry cfg now pid else s1   =>   | some p => if p.alive ≤ aliveRetryInterval then s1.increasePeerRetry cfg now pid else s1',c="",edits=[('Model/PeerManager.lean','  | some p => if p.alive < aliveRetryInterval then s1.increasePeerRetry cfg now pid else s1','  | some p => if p.alive ≤ aliveRetryInterval then s1.increasePeerRetry cfg now pid else s1')])
muts['apeerma06']=dict(d='reachMaxRetry',e='| some p => decide (maxRetryCount ≤ p.retry)   =>   | some p => decide (maxRetryCount < p.retry)',c="",edits=[('Model/PeerManager.lean','  | some p => decide (maxRetryCount ≤ p.retry)','  | some p => decide (maxRetryCount < p.retry)')])
muts['apeerma07']=dict(d='route',e='([.send sids msg, .connect (peers.flatMap Peer.addrs)], peers.map Peer.user ++ nobody)   =>   ([.send sids msg, .connect (peers.flatMap Peer.addrs)], peers.map Peer.user)',c="",edits=[('Model/PeerManager.lean','  ([.send sids msg, .connect (peers.flatMap Peer.addrs)], peers.map Peer.user ++ nobody)','  ([.send sids msg, .connect (peers.flatMap Peer.addrs)], peers.map Peer.user)')])
muts['apersis01']=dict(d='encIp',e='| some (.v4 b) => 1 :: (u32LE 0 ++ b.1)   =>   | some (.v4 b) => 1 :: (u32LE 1 ++ b.1)',c="",edits=[('Model/Persist.lean','  | some (.v4 b) => 1 :: (u32LE 0 ++ b.1)','  | some (.v4 b) => 1 :: (u32LE 1 ++ b.1)')])
muts['apersis02']=dict(d='PM.Packages',e='∀ x ∈ pids.zip l, ∃ p, s.pool x.1 = some p ∧ x.2.key = p.key ∧ (∀ a, a ∈ x.2.addrs ↔ a ∈ p.addrs) ∧ x.2.connectAt = p.connectAt ∧ x.2.alive = p.alive   =>   ∀ x ∈ pids.zip l, ∃ p, s.pool x.1 = some p ∧ x.2.key = p.key ∧ (∀ a, a ∈ x.2.addrs ↔ a ∈ p.addrs) ∨ x.2.connectAt = p.connectAt ∧ x.2.alive = p.alive',c="",edits=[('Model/Persist.lean','    ∀ x ∈ pids.zip l, ∃ p, s.pool x.1 = some p ∧ x.2.key = p.key ∧ (∀ a, a ∈ x.2.addrs ↔ a ∈ p.addrs) ∧ x.2.connectAt = p.connectAt ∧ x.2.alive = p.alive','    ∀ x ∈ pids.zip l, ∃ p, s.pool x.1 = some p ∧ x.2.key = p.key ∧ (∀ a, a ∈ x.2.addrs ↔ a ∈ p.addrs) ∨ x.2.connectAt = p.connectAt ∧ x.2.alive = p.alive')])
muts['apersis03']=dict(d='readAddrs',e='| 0, bs => some ([], bs)   =>   | 1, bs => some ([], bs)',c="",edits=[('Model/Persist.lean','def readAddrs (c : PeerCodec) : Nat → Bytes → Option (List Maddr × Bytes)\n  | 0, bs => some ([], bs)','def readAddrs (c : PeerCodec) : Nat → Bytes → Option (List Maddr × Bytes)\n  | 1, bs => some ([], bs)')])
muts['apersis04']=dict(d='readArr',e='if h : n ≤ bs.length then some (⟨bs.take n, by simp [h]⟩, bs.drop n) else none   =>   if h : n ≤ bs.length then some (⟨bs.drop n, by simp [h]⟩, bs.drop n) else none',c="",edits=[('Model/Persist.lean','  if h : n ≤ bs.length then some (⟨bs.take n, by simp [h]⟩, bs.drop n) else none','  if h : n ≤ bs.length then some (⟨bs.drop n, by simp [h]⟩, bs.drop n) else none')])
muts['apersis05']=dict(d='encAddrs',e='def encAddrs (c : PeerCodec) (as : List Maddr) : Bytes := u64LE as.length ++ as.flatMap (fun a => encBuf (c.encAddr a))   =>   def encAddrs (c : PeerCodec) (as : List Maddr) : Bytes := u64LE as.length.flatMap (fun a => encBuf (c.encAddr a))',c="",edits=[('Model/Persist.lean','def encAddrs (c : PeerCodec) (as : List Maddr) : Bytes := u64LE as.length ++ as.flatMap (fun a => encBuf (c.encAddr a))','def encAddrs (c : PeerCodec) (as : List Maddr) : Bytes := u64LE as.length.flatMap (fun a => encBuf (c.encAddr a))')])
muts['apersis06']=dict(d='readPeers',e='| n + 1, bs =>   =>   | n, bs =>',c="",edits=[('Model/Persist.lean','  | 0, bs => some ([], bs)\n  | n + 1, bs =>\n    match readPeer c bs with','  | 0, bs => some ([], bs)\n  | n, bs =>\n    match readPeer c bs with')])
muts['apersis07']=dict(d='peerFile',e='def peerFile (c : PeerCodec) (l : List FilePeer) : Bytes := u64LE l.length ++ l.flatMap (FilePeer.enc c)   =>   def peerFile (c : PeerCodec) (l : List FilePeer) : Bytes := u64LE l.length.flatMap (FilePeer.enc c)',c="",edits=[('Model/Persist.lean','def peerFile (c : PeerCodec) (l : List FilePeer) : Bytes := u64LE l.length ++ l.flatMap (FilePeer.enc c)','def peerFile (c : PeerCodec) (l : List FilePeer) : Bytes := u64LE l.length.flatMap (FilePeer.enc c)')])
muts['aprotob01']=dict(d='readField',e='if 2 ^ 32 ≤ key ∨ key / 8 = 0 then none   =>   if 2 ^ 32 ≤ key ∨ key / 8 = 1 then none',c="",edits=[('Model/Protobuf.lean','    if 2 ^ 32 ≤ key ∨ key / 8 = 0 then none','    if 2 ^ 32 ≤ key ∨ key / 8 = 1 then none')])
muts['aprotob02']=dict(d='rootOf',e='def rootOf (fs : PFields) : PDec Hash := needMsg 1 fs >>= Hash.ofPb   =>   def rootOf (fs : PFields) : PDec Hash := needMsg 2 fs >>= Hash.ofPb',c="",edits=[('Model/Protobuf.lean','def rootOf (fs : PFields) : PDec Hash := needMsg 1 fs >>= Hash.ofPb','def rootOf (fs : PFields) : PDec Hash := needMsg 2 fs >>= Hash.ofPb')])
muts['aprotob03']=dict(d='CarryingAsset.pb',e='def CarryingAsset.pb (c : CarryingAsset) : PFields := fMsg 1 (rootPb c.assetId) ++ fMsg 2 (balancePb c.amount)   =>   def CarryingAsset.pb (c : CarryingAsset) : PFields := fMsg 1 (rootPb c.assetId) 2 (balancePb c.amount)',c="",edits=[('Model/Protobuf.lean','def CarryingAsset.pb (c : CarryingAsset) : PFields := fMsg 1 (rootPb c.assetId) ++ fMsg 2 (balancePb c.amount)','def CarryingAsset.pb (c : CarryingAsset) : PFields := fMsg 1 (rootPb c.assetId) 2 (balancePb c.amount)')])
muts['aprotob04']=dict(d='encField',e='| (t, .bytes b) => encVarint 10 (t * 8 + 2) ++ encVarint 10 b.length ++ b   =>   | (t, .bytes b) => encVarint 10 (t * 8 + 2) ++ encVarint 10 b.length',c="",edits=[('Model/Protobuf.lean','  | (t, .bytes b) => encVarint 10 (t * 8 + 2) ++ encVarint 10 b.length ++ b','  | (t, .bytes b) => encVarint 10 (t * 8 + 2) ++ encVarint 10 b.length')])
muts['aprotob05']=dict(d='parseAux',e='| f + 1, b :: bs =>   =>   | f, b :: bs =>',c="",edits=[('Model/Protobuf.lean','  | f + 1, b :: bs =>','  | f, b :: bs =>')])
muts['aprotob06']=dict(d='ReceiptResult.ofPb',e='else if x.1 = 6 then do   =>   else if x.1 ≠ 6 then do',c="",edits=[('Model/Protobuf.lean','    pure (.transfer receiver asset before after)\n  else if x.1 = 6 then do','    pure (.transfer receiver asset before after)\n  else if x.1 ≠ 6 then do')])
muts['aprotob07']=dict(d='Action.ofPb',e='else if x.1 = 6 then do   =>   else if x.1 ≠ 6 then do',c="",edits=[('Model/Protobuf.lean','    pure (.transfer receiver c)\n  else if x.1 = 6 then do','    pure (.transfer receiver c)\n  else if x.1 ≠ 6 then do')])
muts['arlp01']=dict(d='skip',e='| .ok (h, v) => skip n (bs.drop (h + v))   =>   | .ok (h, v) => skip n (bs.take (h + v))',c="",edits=[('Model/Rlp.lean','    | .ok (h, v) => skip n (bs.drop (h + v))','    | .ok (h, v) => skip n (bs.take (h + v))')])
muts['arlp02']=dict(d='value',e='| .ok len => if rest.length < n + len then .error .inconsistent else .ok ((rest.drop n).take len)   =>   | .ok len => if rest.length ≤ n + len then .error .inconsistent else .ok ((rest.drop n).take len)',c="",edits=[('Model/Rlp.lean','        | .ok len => if rest.length < n + len then .error .inconsistent else .ok ((rest.drop n).take len)','        | .ok len => if rest.length ≤ n + len then .error .inconsistent else .ok ((rest.drop n).take len)')])
muts['arlp03']=dict(d='decodeUsize',e='else if b.headD 0 = 0 then .error .invalidIndirection   =>   else if b.headD 0 ≠ 0 then .error .invalidIndirection',c="",edits=[('Model/Rlp.lean','  else if b.headD 0 = 0 then .error .invalidIndirection','  else if b.headD 0 ≠ 0 then .error .invalidIndirection')])
muts['arlp04']=dict(d='u64',e='def u64 (bs : Bytes) : Dec UInt64 := do let b ← value bs; let n ← intOf 8 b; pure (UInt64.ofNat n)   =>   def u64 (bs : Bytes) : Dec UInt64 := do let b ← value bs; let n ← intOf 9 b; pure (UInt64.ofNat n)',c="",edits=[('Model/Rlp.lean','def u64 (bs : Bytes) : Dec UInt64 := do let b ← value bs; let n ← intOf 8 b; pure (UInt64.ofNat n)','def u64 (bs : Bytes) : Dec UInt64 := do let b ← value bs; let n ← intOf 9 b; pure (UInt64.ofNat n)')])
muts['arlp05']=dict(d='size',e='| .error _ => 0   =>   | .error _ => 1',c="",edits=[('Model/Rlp.lean','    | .error _ => 0','    | .error _ => 1')])
muts['arlp06']=dict(d='Item.encs',e='| x :: xs => x.enc ++ Item.encs xs   =>   | x :: xs => x.enc.encs xs',c="",edits=[('Model/Rlp.lean','  | x :: xs => x.enc ++ Item.encs xs','  | x :: xs => x.enc.encs xs')])
muts['arlp07']=dict(d='isData',e='| l :: _ => l.toNat < 0xc0   =>   | l :: _ => l.toNat ≤ 0xc0',c="",edits=[('Model/Rlp.lean','  | l :: _ => l.toNat < 0xc0','  | l :: _ => l.toNat ≤ 0xc0')])
muts['arpc01']=dict(d='RpcState.setCall',e='def RpcState.setCall {α : Type} (s : RpcState α) (c : Nat) (x : RpcCall α) : RpcState α := { s with calls := fun i => if i = c then some x else s.calls i }   =>   def RpcState.setCall {α : Type} (s : RpcState α) (c : Nat) (x : RpcCall α) : RpcState α := { s with calls := fun i => if i ≠ c then some x else s.calls i }',c="",edits=[('Model/Rpc.lean','def RpcState.setCall {α : Type} (s : RpcState α) (c : Nat) (x : RpcCall α) : RpcState α := { s with calls := fun i => if i = c then some x else s.calls i }','def RpcState.setCall {α : Type} (s : RpcState α) (c : Nat) (x : RpcCall α) : RpcState α := { s with calls := fun i => if i ≠ c then some x else s.calls i }')])
muts['arpc02']=dict(d='RpcState.new',e='def RpcState.new {α : Type} : RpcState α := ⟨0, fun _ => none, fun _ => none, fun _ => none, fun _ => none⟩   =>   def RpcState.new {α : Type} : RpcState α := ⟨1, fun _ => none, fun _ => none, fun _ => none, fun _ => none⟩',c="",edits=[('Model/Rpc.lean','def RpcState.new {α : Type} : RpcState α := ⟨0, fun _ => none, fun _ => none, fun _ => none, fun _ => none⟩','def RpcState.new {α : Type} : RpcState α := ⟨1, fun _ => none, fun _ => none, fun _ => none, fun _ => none⟩')])
muts['arpc03']=dict(d='RpcState.take',e='if b.ty = t.ty then s1.setChan b.call (some t.msg) else s1.setChan b.call none   =>   if b.ty ≠ t.ty then s1.setChan b.call (some t.msg) else s1.setChan b.call none',c="",edits=[('Model/Rpc.lean','    if b.ty = t.ty then s1.setChan b.call (some t.msg) else s1.setChan b.call none','    if b.ty ≠ t.ty then s1.setChan b.call (some t.msg) else s1.setChan b.call none')])
muts['arpc04']=dict(d='RpcState.step',e='| none => { s.setCall c ⟨sid, ty, s.next, .drawn⟩ with next := s.next + 1 }   =>   | none => { s.setCall c ⟨sid, ty, s.next, .drawn⟩ with next := s.next }',c="",edits=[('Model/Rpc.lean','    | none => { s.setCall c ⟨sid, ty, s.next, .drawn⟩ with next := s.next + 1 }','    | none => { s.setCall c ⟨sid, ty, s.next, .drawn⟩ with next := s.next }')])
muts['aserver01']=dict(d='Node.commitSends',e='match (n.commit cfg { io with transmit := true } epochId pill proof).1 with   =>   match (n.commit cfg { io with transmit := false } epochId pill proof).1 with',c="",edits=[('Model/Server.lean','  match (n.commit cfg { io with transmit := true } epochId pill proof).1 with','  match (n.commit cfg { io with transmit := false } epochId pill proof).1 with')])
muts['aserver02']=dict(d='richMessage',e='def richMessage (epochId : UInt64) : Str × Bytes := (endRichEpochId, encBuf (u64LE (epochId + 1).toNat))   =>   def richMessage (epochId : UInt64) : Str × Bytes := (endRichEpochId, encBuf (u64LE (epochId).toNat))',c="",edits=[('Model/Server.lean','def richMessage (epochId : UInt64) : Str × Bytes := (endRichEpochId, encBuf (u64LE (epochId + 1).toNat))','def richMessage (epochId : UInt64) : Str × Bytes := (endRichEpochId, encBuf (u64LE (epochId).toNat))')])
muts['aserver03']=dict(d='newTxsGossip',e='(x.2.insert cfg.mem (n.view cfg (fun _ => none) true) newTxsOrigin tx).2)) ([], n.pool)).1   =>   (x.2.insert cfg.mem (n.view cfg (fun _ => none) true) newTxsOrigin tx).2)) ([], n.pool)).2',c="",edits=[('Model/Server.lean','        (x.2.insert cfg.mem (n.view cfg (fun _ => none) true) newTxsOrigin tx).2)) ([], n.pool)).1','        (x.2.insert cfg.mem (n.view cfg (fun _ => none) true) newTxsOrigin tx).2)) ([], n.pool)).2')])
muts['aserver04']=dict(d='RpcRequest.dec',e='if bs.take 4 = [0, 0, 0, 0] then (readU64LE (bs.drop 4)).map (fun x => .pullEpochs (UInt64.ofNat x.1))   =>   if bs.take 5 = [0, 0, 0, 0] then (readU64LE (bs.drop 4)).map (fun x => .pullEpochs (UInt64.ofNat x.1))',c="",edits=[('Model/Server.lean','  if bs.take 4 = [0, 0, 0, 0] then (readU64LE (bs.drop 4)).map (fun x => .pullEpochs (UInt64.ofNat x.1))','  if bs.take 5 = [0, 0, 0, 0] then (readU64LE (bs.drop 4)).map (fun x => .pullEpochs (UInt64.ofNat x.1))')])
muts['aserver05']=dict(d='newTxsOrigin',e='def newTxsOrigin : Bool := true   =>   def newTxsOrigin : Bool := false',c="",edits=[('Model/Server.lean','def newTxsOrigin : Bool := true','def newTxsOrigin : Bool := false')])
muts['aserver06']=dict(d='RpcRequest.enc',e='| .pullTxs hs => [1, 0, 0, 0] ++ encMulti hs   =>   | .pullTxs hs => [1, 0, 0, 0] hs',c="",edits=[('Model/Server.lean','  | .pullTxs hs => [1, 0, 0, 0] ++ encMulti hs','  | .pullTxs hs => [1, 0, 0, 0] hs')])
muts['astartu01']=dict(d='registerResponse',e='| .ok e => if e.scheme ≠ some .rpcResp then .error .unexpectedScheme else .ok (rs.register e h)   =>   | .ok e => if e.scheme = some .rpcResp then .error .unexpectedScheme else .ok (rs.register e h)',c="",edits=[('Model/Startup.lean','  | .ok e => if e.scheme ≠ some .rpcResp then .error .unexpectedScheme else .ok (rs.register e h)','  | .ok e => if e.scheme = some .rpcResp then .error .unexpectedScheme else .ok (rs.register e h)')])
muts['astartu02']=dict(d='parseVerifiers',e='| some xs => some (⟨a, 1, 1⟩ :: xs)   =>   | some xs => some (⟨a, 1, 2⟩ :: xs)',c="",edits=[('Model/Startup.lean','      | some xs => some (⟨a, 1, 1⟩ :: xs)','      | some xs => some (⟨a, 1, 2⟩ :: xs)')])
muts['astartu03']=dict(d='NetStart.listen',e='| some _ => (true, s)   =>   | some _ => (false, s)',c="",edits=[('Model/Startup.lean','  | some _ => (true, s)','  | some _ => (false, s)')])
muts['astartu04']=dict(d='toPeer',e='(hexDecode x.1).map (fun key => ⟨key, UserAddress.fromPubkey digest key, socketToMulti x.2⟩)   =>   (hexDecode x.1).map (fun key => ⟨key, UserAddress.fromPubkey digest key, socketToMulti x.3⟩)',c="",edits=[('Model/Startup.lean','  (hexDecode x.1).map (fun key => ⟨key, UserAddress.fromPubkey digest key, socketToMulti x.2⟩)','  (hexDecode x.1).map (fun key => ⟨key, UserAddress.fromPubkey digest key, socketToMulti x.3⟩)')])
muts['astartu05']=dict(d='FileCfg.node',e='poolSize := f.poolSize.toNat, timeoutGap := f.timeoutGap }   =>   poolSize := f.poolSize.toNat }',c="",edits=[('Model/Startup.lean','    poolSize := f.poolSize.toNat, timeoutGap := f.timeoutGap }','    poolSize := f.poolSize.toNat }')])
muts['astartu06']=dict(d='startAll',e='| (false, _) => .error .listen   =>   | (true, _) => .error .listen',c="",edits=[('Model/Startup.lean','      | (false, _) => .error .listen','      | (true, _) => .error .listen')])
muts['astartu07']=dict(d='registerHandler',e='| .ok e => if e.scheme = some .rpcResp then .error .unexpectedScheme else .ok (rs.register e h)   =>   | .ok e => if e.scheme ≠ some .rpcResp then .error .unexpectedScheme else .ok (rs.register e h)',c="",edits=[('Model/Startup.lean','  | .ok e => if e.scheme = some .rpcResp then .error .unexpectedScheme else .ok (rs.register e h)','  | .ok e => if e.scheme ≠ some .rpcResp then .error .unexpectedScheme else .ok (rs.register e h)')])
muts['astatea01']=dict(d='contains',e='if (l.cache k).isSome then true   =>   if (l.cache k).isNone then true',c="",edits=[('Model/StateAdapter.lean','  if (l.cache k).isSome then true','  if (l.cache k).isNone then true')])
muts['astatea02']=dict(d='stashCache',e='{ l with stash := l.cache.over l.stash, cache := PMap.empty }   =>   { l with stash := l.cache.over l.stash }',c="",edits=[('Model/StateAdapter.lean','  { l with stash := l.cache.over l.stash, cache := PMap.empty }','  { l with stash := l.cache.over l.stash }')])
muts['astatea03']=dict(d='commit',e='{ l with trie := l.stash.over l.trie, stash := PMap.empty }   =>   { l with trie := l.stash.over l.trie }',c="",edits=[('Model/StateAdapter.lean','  { l with trie := l.stash.over l.trie, stash := PMap.empty }','  { l with trie := l.stash.over l.trie }')])
muts['astatea04']=dict(d='PMap.set',e="fun k' => if k' = k then some v else m k'   =>   fun k' => if k' ≠ k then some v else m k'",c="",edits=[('Model/StateAdapter.lean',"  fun k' => if k' = k then some v else m k'","  fun k' => if k' ≠ k then some v else m k'")])
muts['astorag01']=dict(d='Backend.rocks',e='| .receipt => 3   =>   | .receipt => 4',c="",edits=[('Model/Storage.lean','  | .receipt => 3','  | .receipt => 4')])
muts['astorag02']=dict(d='Db.put',e='fun c k => if c = col ∧ k = key then some val else db c k   =>   fun c k => if c ≠ col ∧ k = key then some val else db c k',c="",edits=[('Model/Storage.lean','  fun c k => if c = col ∧ k = key then some val else db c k','  fun c k => if c ≠ col ∧ k = key then some val else db c k')])
muts['astorag03']=dict(d='Db.write',e='(w.puts lk).foldl (fun db p => db.put (be p.1) p.2.1 p.2.2) db   =>   (w.puts lk).foldl (fun db p => db.put (be p.1) p.2.1 p.2.3) db',c="",edits=[('Model/Storage.lean','  (w.puts lk).foldl (fun db p => db.put (be p.1) p.2.1 p.2.2) db','  (w.puts lk).foldl (fun db p => db.put (be p.1) p.2.1 p.2.3) db')])
muts['atxcach01']=dict(d='alloc',e='(c.next, { c with heap := fun i => if i = c.next then w else c.heap i, next := c.next + 1 })   =>   (c.next, { c with heap := fun i => if i = c.next then w else c.heap i, next := c.next })',c="",edits=[('Model/TxCache.lean','  (c.next, { c with heap := fun i => if i = c.next then w else c.heap i, next := c.next + 1 })','  (c.next, { c with heap := fun i => if i = c.next then w else c.heap i, next := c.next })')])
muts['atxcach02']=dict(d='Pk.take',e='if pk.stage = .finished ∨ (pk.stage = .proposeTxs ∧ w.proposed = true) then pk   =>   if pk.stage = .finished ∧ (pk.stage = .proposeTxs ∧ w.proposed = true) then pk',c="",edits=[('Model/TxCache.lean','  if pk.stage = .finished ∨ (pk.stage = .proposeTxs ∧ w.proposed = true) then pk','  if pk.stage = .finished ∧ (pk.stage = .proposeTxs ∧ w.proposed = true) then pk')])
muts['atxcach03']=dict(d='insert',e='let c1 := (c.alloc ⟨tx, false, proposed⟩).2   =>   let c1 := (c.alloc ⟨tx, false, proposed⟩).3',c="",edits=[('Model/TxCache.lean','  let c1 := (c.alloc ⟨tx, false, proposed⟩).2','  let c1 := (c.alloc ⟨tx, false, proposed⟩).3')])
muts['atxcach04']=dict(d='new',e='count := 0 }   =>   count := 1 }',c="",edits=[('Model/TxCache.lean','    count := 0 }','    count := 1 }')])
muts['atxcach05']=dict(d='packageLoop',e='packageLoop heap cap limit current timeout (pk.take limit w) inc (cand ++ [id])   =>   packageLoop heap cap limit current timeout (pk.drop limit w) inc (cand ++ [id])',c="",edits=[('Model/TxCache.lean','      packageLoop heap cap limit current timeout (pk.take limit w) inc (cand ++ [id])','      packageLoop heap cap limit current timeout (pk.drop limit w) inc (cand ++ [id])')])
muts['atxcach06']=dict(d='push',e='if (c.queue z).length < c.cap then (true, c.setQueue z (c.queue z ++ [id])) else (false, c)   =>   if (c.queue z).length < c.cap then (false, c.setQueue z (c.queue z ++ [id])) else (false, c)',c="",edits=[('Model/TxCache.lean','  if (c.queue z).length < c.cap then (true, c.setQueue z (c.queue z ++ [id])) else (false, c)','  if (c.queue z).length < c.cap then (false, c.setQueue z (c.queue z ++ [id])) else (false, c)')])
muts['atxcach07']=dict(d='Wrapper.isTimeout',e='w.tx.raw.timeout ≤ current || timeout < w.tx.raw.timeout   =>   w.tx.raw.timeout ≤ current && timeout < w.tx.raw.timeout',c="",edits=[('Model/TxCache.lean','  w.tx.raw.timeout ≤ current || timeout < w.tx.raw.timeout','  w.tx.raw.timeout ≤ current && timeout < w.tx.raw.timeout')])
muts['atxcach01x']=dict(d='stepIns',e='else { s with cache := (s.cache.alloc ⟨tx, false, false⟩).2 }.setIns t (.start s.cache.next)   =>   else { s with cache := (s.cache.alloc ⟨tx, true, false⟩).2 }.setIns t (.start s.cache.next)',c="",edits=[('Model/TxCacheConc.lean','    else { s with cache := (s.cache.alloc ⟨tx, false, false⟩).2 }.setIns t (.start s.cache.next)','    else { s with cache := (s.cache.alloc ⟨tx, true, false⟩).2 }.setIns t (.start s.cache.next)')])
muts['atxcach02x']=dict(d='setFl',e='def setFl (s : Sys) (t : Nat) (p : FlPc) : Sys := { s with fl := fun i => if i = t then p else s.fl i }   =>   def setFl (s : Sys) (t : Nat) (p : FlPc) : Sys := { s with fl := fun i => if i ≠ t then p else s.fl i }',c="",edits=[('Model/TxCacheConc.lean','def setFl (s : Sys) (t : Nat) (p : FlPc) : Sys := { s with fl := fun i => if i = t then p else s.fl i }','def setFl (s : Sys) (t : Nat) (p : FlPc) : Sys := { s with fl := fun i => if i ≠ t then p else s.fl i }')])
muts['atxcach03x']=dict(d='stepPk',e='| .move a z pk id => { s with cache := (s.cache.push z id).2, pk := .drain a z pk }   =>   | .move a z pk id => { s with cache := (s.cache.push z id).3, pk := .drain a z pk }',c="",edits=[('Model/TxCacheConc.lean','  | .move a z pk id => { s with cache := (s.cache.push z id).2, pk := .drain a z pk }','  | .move a z pk id => { s with cache := (s.cache.push z id).3, pk := .drain a z pk }')])
muts['atxcach04x']=dict(d='new',e='{ cache := TxCache.new (poolSize * 2), poolSize := poolSize, ins := fun _ => .idle, pk := .idle, fl := fun _ => .idle }   =>   { cache := TxCache.new (poolSize * 2), poolSize := poolSize, ins := fun _ => .idle, pk := .idle }',c="",edits=[('Model/TxCacheConc.lean','  { cache := TxCache.new (poolSize * 2), poolSize := poolSize, ins := fun _ => .idle, pk := .idle, fl := fun _ => .idle }','  { cache := TxCache.new (poolSize * 2), poolSize := poolSize, ins := fun _ => .idle, pk := .idle }')])
muts['atxcach05x']=dict(d='step',e='| .idle => { s with cache := (s.cache.alloc ⟨tx, false, true⟩).2 }.setIns t (.start s.cache.next)   =>   | .idle => { s with cache := (s.cache.alloc ⟨tx, false, false⟩).2 }.setIns t (.start s.cache.next)',c="",edits=[('Model/TxCacheConc.lean','    | .idle => { s with cache := (s.cache.alloc ⟨tx, false, true⟩).2 }.setIns t (.start s.cache.next)','    | .idle => { s with cache := (s.cache.alloc ⟨tx, false, false⟩).2 }.setIns t (.start s.cache.next)')])
muts['atxcach06x']=dict(d='setIns',e='def setIns (s : Sys) (t : Nat) (p : InsPc) : Sys := { s with ins := fun i => if i = t then p else s.ins i }   =>   def setIns (s : Sys) (t : Nat) (p : InsPc) : Sys := { s with ins := fun i => if i ≠ t then p else s.ins i }',c="",edits=[('Model/TxCacheConc.lean','def setIns (s : Sys) (t : Nat) (p : InsPc) : Sys := { s with ins := fun i => if i = t then p else s.ins i }','def setIns (s : Sys) (t : Nat) (p : InsPc) : Sys := { s with ins := fun i => if i ≠ t then p else s.ins i }')])
muts['atxmap01']=dict(d='Bucket.remove',e='| (k, v) :: rest => if h = k then rest else (k, v) :: Bucket.remove h rest   =>   | (k, v) :: rest => if h ≠ k then rest else (k, v) :: Bucket.remove h rest',c="",edits=[('Model/TxMap.lean','  | (k, v) :: rest => if h = k then rest else (k, v) :: Bucket.remove h rest','  | (k, v) :: rest => if h ≠ k then rest else (k, v) :: Bucket.remove h rest')])
muts['atxmap02']=dict(d='setBucket',e='def setBucket {V : Type} (m : TxMap V) (i : Fin 16) (b : Bucket V) : TxMap V := fun j => if j = i then b else m j   =>   def setBucket {V : Type} (m : TxMap V) (i : Fin 16) (b : Bucket V) : TxMap V := fun j => if j ≠ i then b else m j',c="",edits=[('Model/TxMap.lean','def setBucket {V : Type} (m : TxMap V) (i : Fin 16) (b : Bucket V) : TxMap V := fun j => if j = i then b else m j','def setBucket {V : Type} (m : TxMap V) (i : Fin 16) (b : Bucket V) : TxMap V := fun j => if j ≠ i then b else m j')])
muts['atxmap03']=dict(d='Bucket.containsKey',e='def Bucket.containsKey {V : Type} (b : Bucket V) (h : Hash) : Bool := (Bucket.get h b).isSome   =>   def Bucket.containsKey {V : Type} (b : Bucket V) (h : Hash) : Bool := (Bucket.get h b).isNone',c="",edits=[('Model/TxMap.lean','def Bucket.containsKey {V : Type} (b : Bucket V) (h : Hash) : Bool := (Bucket.get h b).isSome','def Bucket.containsKey {V : Type} (b : Bucket V) (h : Hash) : Bool := (Bucket.get h b).isNone')])
muts['atxmap04']=dict(d='TxMap',e='def TxMap (V : Type) := Fin 16 → Bucket V   =>   def TxMap (V : Type) := Fin 17 → Bucket V',c="",edits=[('Model/TxMap.lean','def TxMap (V : Type) := Fin 16 → Bucket V','def TxMap (V : Type) := Fin 17 → Bucket V')])
muts['atxmap05']=dict(d='Hash.index',e='have := (h.bytes.headD 0).toNat_lt   =>   have := (h.bytes.headD 1).toNat_lt',c="",edits=[('Model/TxMap.lean','    have := (h.bytes.headD 0).toNat_lt','    have := (h.bytes.headD 1).toNat_lt')])
muts['atypes01']=dict(d='BMap.insert',e="if k = k' then (k, v) :: rest   =>   if k ≠ k' then (k, v) :: rest",c="",edits=[('Model/Types.lean',"    if k = k' then (k, v) :: rest","    if k ≠ k' then (k, v) :: rest")])
muts['atypes02']=dict(d='UserAddress.fromPubkey',e='⟨(digest pubkey).take20.1, (digest pubkey).take20.2⟩   =>   ⟨(digest pubkey).take20.1, (digest pubkey).take20.3⟩',c="",edits=[('Model/Types.lean','  ⟨(digest pubkey).take20.1, (digest pubkey).take20.2⟩','  ⟨(digest pubkey).take20.1, (digest pubkey).take20.3⟩')])
muts['atypes03']=dict(d='ContractType.ofMagic',e='else if m = 0x21 then some .app   =>   else if m ≠ 0x21 then some .app',c="",edits=[('Model/Types.lean','  else if m = 0x21 then some .app','  else if m ≠ 0x21 then some .app')])
muts['atypes04']=dict(d='bytesLt',e='| [], _ :: _ => true   =>   | [], _ :: _ => false',c="",edits=[('Model/Types.lean','  | [], _ :: _ => true','  | [], _ :: _ => false')])
muts['atypes05']=dict(d='',e='instance : Inhabited ContractAddress := ⟨⟨.asset, List.replicate 20 0, by simp⟩⟩   =>   instance : Inhabited ContractAddress := ⟨⟨.asset, List.replicate 20 1, by simp⟩⟩',c="",edits=[('Model/Types.lean','instance : Inhabited ContractAddress := ⟨⟨.asset, List.replicate 20 0, by simp⟩⟩','instance : Inhabited ContractAddress := ⟨⟨.asset, List.replicate 20 1, by simp⟩⟩')])
muts['atypes06']=dict(d='ReceiptResult.isFail',e='| _ => false   =>   | _ => true',c="",edits=[('Model/Types.lean','  | _ => false','  | _ => true')])
muts['atypes07']=dict(d='ContractAddress.fromCode',e='let h := (digest (code ++ u64BE nonce)).take20   =>   let h := (digest (code nonce)).take20',c="",edits=[('Model/Types.lean','  let h := (digest (code ++ u64BE nonce)).take20','  let h := (digest (code nonce)).take20')])
