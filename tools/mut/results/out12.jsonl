{"id": "aapi01", "definition": "digitsVal", "edit": "| cs => cs.foldlM (fun acc c => (hexVal c).map (fun d => 16 * acc + d)) 0   =>   | cs => cs.foldlM (fun acc c => (hexVal c).map (fun d => 17 * acc + d)) 0", "claim": "", "rc": 1, "secs": 8, "failed": ["Props/Api:C51_round_trip", "Props/Api:C51_u64_accepts_partial", "Props/Api:C51_malformed_refuted"], "examples": [], "model_error": []}
{"id": "aapi02", "definition": "upperChar", "edit": "else if c.toNat = 0xFB00 then ['F', 'F']   =>   else if c.toNat \u2260 0xFB00 then ['F', 'F']", "claim": "", "rc": 1, "secs": 7, "failed": ["Props/Api:char_cases", "Props/Api:upperChar_hex", "Props/Api:C51_malformed_refuted"], "examples": [], "model_error": []}
{"id": "aapi03", "definition": "fromStrRadix16", "edit": "| some n => if n < 2 ^ 64 then some (UInt64.ofNat n) else none   =>   | some n => if n < 2 ^ 65 then some (UInt64.ofNat n) else none", "claim": "", "rc": 1, "secs": 8, "failed": ["Props/Api:C51_round_trip", "Props/Api:C51_u64_accepts_partial"], "examples": [], "model_error": []}
{"id": "aapiser01", "definition": "Node.apiInsert", "edit": "match n.pool.insert cfg.mem (n.view cfg (fun _ => none) broadcastOk) false tx with   =>   match n.pool.insert cfg.mem (n.view cfg (fun _ => none) broadcastOk) true tx with", "claim": "", "rc": 1, "secs": 25, "failed": ["Props/ApiServer:C72_unsafe_accepted"], "examples": [], "model_error": []}
{"id": "aapiser02", "definition": "Node.apiGetBalance", "edit": "| none => .ok (Api.showBalance 0)   =>   | none => .ok (Api.showBalance 1)", "claim": "", "rc": 1, "secs": 25, "failed": ["Props/ApiServer:C73_refuted", "Props/ApiServer:C73_refuted_root", "Props/ApiServer:C73_refuted_witness", "Props/ApiServer:C73_partial"], "examples": [], "model_error": []}
{"id": "aauthor01", "definition": "configValidators", "edit": "| some a, some vs => some (\u27e8a, 1, 1\u27e9 :: vs)   =>   | some a, some vs => some (\u27e8a, 2, 1\u27e9 :: vs)", "claim": "", "rc": 1, "secs": 24, "failed": ["Props/Authority:configValidators_weight", "Props/Authority:configValidators_perm"], "examples": ["Props/Authority"], "model_error": []}
{"id": "aauthor02", "definition": "OvNode.le", "edit": "def OvNode.le (a b : OvNode) : Bool := decide (a.address \u2264 b.address)   =>   def OvNode.le (a b : OvNode) : Bool := decide (a.address < b.address)", "claim": "", "rc": 1, "secs": 22, "failed": ["Props/Authority:OvNode.le_trans", "Props/Authority:OvNode.le_total", "Props/Authority:authorityOf_sorted"], "examples": [], "model_error": []}
{"id": "abroadc01", "definition": "step", "edit": "| .submit tx locked => { b with chan := b.chan ++ [tx], errs := if locked then b.errs else b.errs.drop 1 }   =>   | .submit tx locked => { b with chan := b.chan ++ [tx], errs := if locked then b.errs else b.errs.take 1 }", "claim": "", "rc": 1, "secs": 2, "failed": ["Props/Broadcaster:Bcast.reported_run"], "examples": [], "model_error": []}
{"id": "abroadc02", "definition": "doBroadcast", "edit": "else { b with buf := [], sent := b.sent ++ [(b.buf, ok)], errs := if ok then b.errs else b.errs ++ [b.buf] }   =>   else { b with buf := [], sent := b.sent ++ [(b.buf, ok)] }", "claim": "", "rc": 1, "secs": 1, "failed": ["Props/Broadcaster:Bcast.doBroadcast_errs"], "examples": ["Props/Broadcaster"], "model_error": []}
{"id": "abroadc03", "definition": "submitResult", "edit": "def submitResult (b : Bcast) (locked : Bool) : Option (List SignedTx) := if locked then none else b.errs.head?   =>   def submitResult (b : Bcast) (locked : Bool) : Option (List SignedTx) := if locked then none else b.errs.getLast?", "claim": "", "rc": 1, "secs": 1, "failed": ["Props/Broadcaster:Bcast.reported_run"], "examples": [], "model_error": []}
{"id": "abroadc04", "definition": "new", "edit": "def new (size : Nat) : Bcast := \u27e8size, [], 0, [], [], []\u27e9   =>   def new (size : Nat) : Bcast := \u27e8size, [], 1, [], [], []\u27e9", "claim": "", "rc": 0, "secs": 2, "failed": [], "examples": [], "model_error": []}
{"id": "abyteex01", "definition": "bExecTx", "edit": "cyclesUsed := { assetId := tx.raw.fee.assetId, cycle := s2.used * env.cyclesPrice }   =>   cyclesUsed := { assetId := tx.raw.fee.assetId }", "claim": "", "rc": 1, "secs": 0, "failed": ["Model/ByteExecutor:bExecTx"], "examples": [], "model_error": ["Model/ByteExecutor:bExecTx"]}
{"id": "abyteex02", "definition": "bCreateGenesis", "edit": "let address := ContractAddress.fromCode env.digest code 0 .asset   =>   let address := ContractAddress.fromCode env.digest code 1 .asset", "claim": "", "rc": 1, "secs": 15, "failed": ["Props/ByteExecutor:bCreateGenesis_grows", "Props/ByteExecutor:createGenesis_sim"], "examples": ["Props/ByteExecutor"], "model_error": []}
{"id": "abyteex03", "definition": "bFindOrCreate", "edit": "| .contract _ => .ok (.contract \u27e80, [], env.emptyHash\u27e9)   =>   | .contract _ => .ok (.contract \u27e81, [], env.emptyHash\u27e9)", "claim": "", "rc": 1, "secs": 3, "failed": ["Proof/ByteExecutor:findOrCreate_sim"], "examples": [], "model_error": []}
{"id": "abyteex04", "definition": "Adapter.write", "edit": "if (S.encVal v).length < 2 ^ 64 then .ok (l.insertCache (S.encKey k) (S.encVal v)) else .error .memory   =>   if (S.encVal v).length \u2264 2 ^ 64 then .ok (l.insertCache (S.encKey k) (S.encVal v)) else .error .memory", "claim": "", "rc": 1, "secs": 4, "failed": ["Proof/ByteExecutor:Rep.write"], "examples": [], "model_error": []}
{"id": "abyteex05", "definition": "BSt.commit", "edit": "(T.root top, { s with top := top, acc := acc, bank := bank }, top :: db1)   =>   (T.root top, { s with top := top, acc := acc }, top :: db1)", "claim": "", "rc": 0, "secs": 63, "failed": [], "examples": [], "model_error": []}
{"id": "abyteex06", "definition": "Adapter.commitTrie", "edit": "| some v => if v = [] then none else some v   =>   | some v => if v \u2260 [] then none else some v", "claim": "", "rc": 1, "secs": 3, "failed": ["Proof/ByteExecutor:Rep.commit"], "examples": [], "model_error": []}
{"id": "abyteex07", "definition": "bFromRoot", "edit": "match (if root = env.emptyHash then some PMap.empty else db.open T root) with   =>   match (if root \u2260 env.emptyHash then some PMap.empty else db.open T root) with", "claim": "", "rc": 1, "secs": 7, "failed": ["Props/ByteExecutor:fromRoot_sim"], "examples": ["Props/ByteExecutor"], "model_error": []}
{"id": "aconnec01", "definition": "ConnSvc.single", "edit": "| .ok => { s with calls := s.calls + 1, accepted := s.accepted ++ [c] }   =>   | .ok => { s with calls := s.calls + 1 }", "claim": "", "rc": 1, "secs": 7, "failed": ["Props/Connection:process_spec"], "examples": ["Props/Connection"], "model_error": []}
{"id": "aconnec02", "definition": "ConnSvc.dials", "edit": "| .ok => { s with calls := s.calls + 1, accepted := s.accepted ++ [Call.dial a] }.dials ans rest   =>   | .ok => { s with calls := s.calls, accepted := s.accepted ++ [Call.dial a] }.dials ans rest", "claim": "", "rc": 1, "secs": 7, "failed": ["Props/Connection:dials_spec"], "examples": [], "model_error": []}
{"id": "aconnec03", "definition": "ConnSvc.new", "edit": "def ConnSvc.new : ConnSvc := \u27e8[], [], 0, []\u27e9   =>   def ConnSvc.new : ConnSvc := \u27e8[], [], 1, []\u27e9", "claim": "", "rc": 1, "secs": 8, "failed": ["Props/Connection:C60_refuted"], "examples": [], "model_error": []}
{"id": "aconnec04", "definition": "usersSend", "edit": "let missed := (s.route us msg).2   =>   let missed := (s.route us msg).3", "claim": "", "rc": 1, "secs": 0, "failed": ["Model/Connection:usersSend"], "examples": [], "model_error": ["Model/Connection:usersSend"]}
{"id": "aconsen01", "definition": "Node.commitTail", "edit": "| (.ok (), n3) => if io.transmit then (.ok (epochId + 1), n3) else (.error .network, n3)   =>   | (.ok (), n3) => if io.transmit then (.ok (epochId), n3) else (.error .network, n3)", "claim": "", "rc": 1, "secs": 84, "failed": ["Proof/Disk:commitTail_grows", "Proof/Disk:commitTail_out", "Props/Consensus2:C35_refuted"], "examples": [], "model_error": []}
{"id": "aconsen02", "definition": "Node.updateStatus", "edit": "let s3 := s2.writes ((StoreOp.writes cfg.digest (.insertEpoch epoch)).take io.epochWrites)   =>   let s3 := s2.writes ((StoreOp.writes cfg.digest (.insertEpoch epoch)).drop io.epochWrites)", "claim": "", "rc": 1, "secs": 4, "failed": ["Proof/Consensus:updateStatus_spec"], "examples": [], "model_error": []}
{"id": "aconsen03", "definition": "Node.commit", "edit": "if io.alive = false then (.error .panic, n1)   =>   if io.alive \u2260 false then (.error .panic, n1)", "claim": "", "rc": 1, "secs": 4, "failed": ["Proof/Consensus:commit_effect"], "examples": [], "model_error": []}
{"id": "aconsen04", "definition": "NodeCfg.genesisEpoch", "edit": "proposer := \u27e8List.replicate 20 0, by simp\u27e9   =>   proposer := \u27e8List.replicate 20 1, by simp\u27e9", "claim": "", "rc": 0, "secs": 362, "failed": [], "examples": [], "model_error": []}
{"id": "aconsen05", "definition": "Status.updated", "edit": "epochId := epochId + 1   =>   epochId := epochId + 2", "claim": "", "rc": 1, "secs": 7, "failed": ["Props/Consensus:Node.Coherent.effect", "Props/Consensus:Node.Chained.effect"], "examples": [], "model_error": []}
{"id": "aconsen06", "definition": "Node.syncOne", "edit": "if id \u2260 1 \u2227 curHash \u2260 epoch.header.preHash then (.error (.syncEpochHash id), n)   =>   if id \u2260 1 \u2228 curHash \u2260 epoch.header.preHash then (.error (.syncEpochHash id), n)", "claim": "", "rc": 1, "secs": 4, "failed": ["Proof/Consensus:syncOne_effect"], "examples": [], "model_error": []}
{"id": "aconsen07", "definition": "Node.syncStart", "edit": "match io.pullEpoch 0 (current + 1) with   =>   match io.pullEpoch 0 (current) with", "claim": "", "rc": 1, "secs": 76, "failed": ["Proof/Disk:syncStart_eq", "Props/Consensus2:C36_refuted"], "examples": [], "model_error": []}
{"id": "aconsen01x", "definition": "Prog.updateStatus", "edit": ".write (decide (1 < io.epochWrites)) (fun n => { n with store := n.store.writes (((StoreOp.writes cfg.digest (.insertEpoch epoch)).drop 1).take 1) }) fail <|   =>   .write (decide (1 < io.epochWrites)) (fun n => { n with store := n.store.writes (((StoreOp.writes cfg.digest (.insertEpoch epoch)).drop 1).take 2) }) fail <|", "claim": "", "rc": 1, "secs": 31, "failed": ["Props/ConsensusLock:runs_updateStatus"], "examples": [], "model_error": []}
{"id": "aconsen02x", "definition": "Prog.syncOne", "edit": ".act (fun n => (n.exec cfg stateRoot epoch.header.epochId (.user epoch.header.proposer) txs).2) fun n =>   =>   .act (fun n => (n.exec cfg stateRoot epoch.header.epochId (.user epoch.header.proposer) txs).3) fun n =>", "claim": "", "rc": 1, "secs": 0, "failed": ["Model/ConsensusLock:Prog.syncOne"], "examples": [], "model_error": ["Model/ConsensusLock:Prog.syncOne"]}
{"id": "aconsen03x", "definition": "Conf.setLock", "edit": "def Conf.setLock (c : Conf) (l : Lock) (h : Option Nat) : Conf := { c with held := fun i => if i = l then h else c.held i }   =>   def Conf.setLock (c : Conf) (l : Lock) (h : Option Nat) : Conf := { c with held := fun i => if i \u2260 l then h else c.held i }", "claim": "", "rc": 1, "secs": 27, "failed": ["Props/ConsensusLock:LockInv.step", "Props/ConsensusLock:C63_refuted"], "examples": ["Props/ConsensusLock"], "model_error": []}
{"id": "aconsen04x", "definition": "Prog.commit", "edit": "if io.alive = false then .endCommit (.error .panic)   =>   if io.alive = true then .endCommit (.error .panic)", "claim": "", "rc": 1, "secs": 30, "failed": ["Props/ConsensusLock:runs_commit", "Props/ConsensusLock:C63_refuted"], "examples": ["Props/ConsensusLock"], "model_error": []}
{"id": "aconsen05x", "definition": "Prog.sync", "edit": "if UInt64.ofNat v - 1 - 1 \u2264 n.currentId then .unlock .sync (.ret (.sync (.ok none)))   =>   if UInt64.ofNat v - 1 \u2264 n.currentId then .unlock .sync (.ret (.sync (.ok none)))", "claim": "", "rc": 1, "secs": 34, "failed": ["Props/ConsensusLock:LockInv.step"], "examples": [], "model_error": []}
{"id": "aconsen06x", "definition": "Prog.commitTail", "edit": "(.endCommit (if io.transmit then .ok (epochId + 1) else .error .network))   =>   (.endCommit (if io.transmit then .ok (epochId) else .error .network))", "claim": "", "rc": 1, "secs": 35, "failed": ["Props/ConsensusLock:runs_commitTail"], "examples": [], "model_error": []}
{"id": "aconsen07x", "definition": "Conf.after", "edit": "evs.foldl (Conf.step cfg) { node := n, held := fun _ => none, tasks := fun _ => none }   =>   evs.foldl (Conf.step cfg) { node := n, held := fun _ => none }", "claim": "", "rc": 1, "secs": 0, "failed": ["Model/ConsensusLock:Conf.after"], "examples": [], "model_error": ["Model/ConsensusLock:Conf.after"]}
{"id": "adisk01", "definition": "DNode.updateEpoch", "edit": "else if io.lock = false then (.ok none, d)   =>   else if io.lock \u2260 false then (.ok none, d)", "claim": "", "rc": 1, "secs": 5, "failed": ["Proof/Disk:updateEpoch_out"], "examples": [], "model_error": []}
{"id": "adisk02", "definition": "Db.save", "edit": "| [] => (true, db)   =>   | [] => (false, db)", "claim": "", "rc": 1, "secs": 21, "failed": ["Props/Disk:dcalls_disk"], "examples": ["Props/Disk"], "model_error": []}
{"id": "adisk03", "definition": "DNode.updateStatus", "edit": "if io.receipts = false then (.error (.node .storage), d)   =>   if io.receipts \u2260 false then (.error (.node .storage), d)", "claim": "", "rc": 1, "secs": 3, "failed": ["Proof/Disk:updateStatus_out"], "examples": [], "model_error": []}
{"id": "adisk04", "definition": "diskInit", "edit": "| (_, tries') => (.ok false, rocks, tries')   =>   | (_, tries') => (.ok true, rocks, tries')", "claim": "", "rc": 1, "secs": 29, "failed": ["Props/Disk:init_sim"], "examples": [], "model_error": []}
{"id": "adisk05", "definition": "DNode.syncStart", "edit": "if cfg.epochHash e \u2260 next.header.preHash then .error (.node (.syncEpochHash (current + 1)))   =>   if cfg.epochHash e \u2260 next.header.preHash then .error (.node (.syncEpochHash (current + 2)))", "claim": "", "rc": 1, "secs": 5, "failed": ["Proof/Disk:syncStart_eq"], "examples": [], "model_error": []}
{"id": "adisk06", "definition": "DNode.checkEpoch", "edit": "match p.ensureOrderTxs (d.view cfg pull2 true) order with   =>   match p.ensureOrderTxs (d.view cfg pull2 false) order with", "claim": "", "rc": 1, "secs": 6, "failed": ["Proof/Disk:checkEpoch_out"], "examples": [], "model_error": []}
{"id": "adisk07", "definition": "DNode.syncOne", "edit": "if id \u2260 1 \u2227 curHash \u2260 epoch.header.preHash then (.error (.node (.syncEpochHash id)), d)   =>   if id = 1 \u2227 curHash \u2260 epoch.header.preHash then (.error (.node (.syncEpochHash id)), d)", "claim": "", "rc": 1, "secs": 5, "failed": ["Proof/Disk:syncOne_out"], "examples": [], "model_error": []}
{"id": "aendpoi01", "definition": "showNat", "edit": "if n < 10 then [decDigit n] else showNat (n / 10) ++ [decDigit (n % 10)]   =>   if n \u2264 10 then [decDigit n] else showNat (n / 10) ++ [decDigit (n % 10)]", "claim": "", "rc": 1, "secs": 23, "failed": ["Props/Endpoint:showNat_digits", "Props/Endpoint:readDec_showNat"], "examples": [], "model_error": []}
{"id": "aendpoi02", "definition": "readDec", "edit": "| some d => if acc * 10 + d < 2 ^ 64 then readDec (acc * 10 + d) cs else none   =>   | some d => if acc * 10 + d < 2 ^ 65 then readDec (acc * 10 + d) cs else none", "claim": "", "rc": 1, "secs": 22, "failed": ["Props/Endpoint:readDec_showNat"], "examples": [], "model_error": []}
{"id": "aendpoi03", "definition": "Endpoint.rpcId", "edit": "let rid := (e.url.reverse.takeWhile (\u00b7 != '/')).reverse   =>   let rid := (e.url.takeWhile (\u00b7 != '/')).reverse", "claim": "", "rc": 1, "secs": 21, "failed": ["Props/Endpoint:rpcId_extend"], "examples": [], "model_error": []}
{"id": "aendpoi04", "definition": "digitVal", "edit": "def digitVal (c : Char) : Option Nat := if '0' \u2264 c \u2227 c \u2264 '9' then some (c.toNat - 48) else none   =>   def digitVal (c : Char) : Option Nat := if '1' \u2264 c \u2227 c \u2264 '9' then some (c.toNat - 48) else none", "claim": "", "rc": 1, "secs": 23, "failed": ["Props/Endpoint:digitVal_decDigit"], "examples": [], "model_error": []}
{"id": "aendpoi05", "definition": "Endpoint.parse", "edit": "else if (urlComps s).length < 3 \u2228 4 < (urlComps s).length then .error .notEndpoint   =>   else if (urlComps s).length < 3 \u2228 4 \u2264 (urlComps s).length then .error .notEndpoint", "claim": "", "rc": 1, "secs": 25, "failed": ["Props/Endpoint:parse_ok"], "examples": [], "model_error": []}
{"id": "aendpoi06", "definition": "splitSlash", "edit": "if c = '/' then [] :: splitSlash cs   =>   if c \u2260 '/' then [] :: splitSlash cs", "claim": "", "rc": 1, "secs": 21, "failed": ["Props/Endpoint:splitSlash_append", "Props/Endpoint:splitSlash_plain", "Props/Endpoint:splitSlash_head", "Props/Endpoint:comps_noSlash", "Props/Endpoint:parse_head", "Props/Endpoint:C54_refuted"], "examples": [], "model_error": []}
{"id": "aexecut01", "definition": "findOrCreate", "edit": "| .contract _ => .contract \u27e80, [], env.emptyHash\u27e9   =>   | .contract _ => .contract \u27e81, [], env.emptyHash\u27e9", "claim": "", "rc": 1, "secs": 67, "failed": ["Proof/Executor:findOrCreate_view", "Proof/ByteExecutor:findOrCreate_sim"], "examples": [], "model_error": []}
{"id": "aexecut02", "definition": "CyclesAction.cost", "edit": "| .bankRegister => 10 * 210   =>   | .bankRegister => 10 * 211", "claim": "", "rc": 1, "secs": 96, "failed": ["Proof/ExecEffects:flatStep_effect"], "examples": [], "model_error": []}
{"id": "aexecut03", "definition": "assetIdOf", "edit": "env.digest (env.chainId.bytes ++ address.toBytes)   =>   env.digest (env.chainId.bytes.toBytes)", "claim": "", "rc": 1, "secs": 0, "failed": ["Model/Executor:assetIdOf"], "examples": [], "model_error": ["Model/Executor:assetIdOf"]}
{"id": "aexecut04", "definition": "bumpNonce", "edit": "| .user u => .user { u with nonce := u.nonce + 1 }   =>   | .user u => .user { u with nonce := u.nonce }", "claim": "", "rc": 1, "secs": 117, "failed": ["Proof/ExecEffects:accountNonce_bump"], "examples": [], "model_error": []}
{"id": "aexecut05", "definition": "modifyAllCyclesUsed", "edit": "if g.assetId = f.assetId then { g with cycle := g.cycle + f.cycle } :: gs   =>   if g.assetId \u2260 f.assetId then { g with cycle := g.cycle + f.cycle } :: gs", "claim": "", "rc": 1, "secs": 452, "failed": ["Proof/ExecSums:modifyAll_ids", "Proof/ExecSums:modifyAll_fee"], "examples": [], "model_error": []}
{"id": "aexecut06", "definition": "fromRoot", "edit": "if root = env.emptyHash then some (St.open World.empty) else (db root).map St.open   =>   if root \u2260 env.emptyHash then some (St.open World.empty) else (db root).map St.open", "claim": "", "rc": 1, "secs": 110, "failed": ["Props/Consensus:resolves_fromRoot"], "examples": ["Props/Genesis"], "model_error": []}
{"id": "aexecut07", "definition": "subBalanceContract", "edit": "| some b => if b < amount then .error .panic else .ok { c with assets := c.assets.insert id (b - amount) }   =>   | some b => if b \u2264 amount then .error .panic else .ok { c with assets := c.assets.insert id (b - amount) }", "claim": "", "rc": 1, "secs": 294, "failed": ["Proof/ExecSums:SimAccount.debit"], "examples": [], "model_error": []}
{"id": "afixedc01", "definition": "EpochHeader.dec", "edit": "let orderRoot \u2190 (Rlp.at bs 5) >>= Hash.dec   =>   let orderRoot \u2190 (Rlp.at bs 6) >>= Hash.dec", "claim": "", "rc": 1, "secs": 15, "failed": ["Proof/FixedCodec:header_rt"], "examples": [], "model_error": []}
{"id": "afixedc02", "definition": "RawTx.dec", "edit": "pure { chainId, nonce, timeout, fee, action := .call contract method args none }   =>   pure { chainId, nonce, timeout, fee }", "claim": "", "rc": 1, "secs": 1, "failed": ["Model/FixedCodec:RawTx.dec"], "examples": [], "model_error": ["Model/FixedCodec:RawTx.dec"]}
{"id": "afixedc03", "definition": "Account.dec", "edit": "else if flag = 1 then   =>   else if flag = 2 then", "claim": "", "rc": 1, "secs": 14, "failed": ["Proof/FixedCodec:account_rt"], "examples": [], "model_error": []}
{"id": "afixedc04", "definition": "ContractType.ofFlag", "edit": "if n = 0 then .ok .asset   =>   if n \u2260 0 then .ok .asset", "claim": "", "rc": 1, "secs": 17, "failed": ["Proof/FixedCodec:ofFlag_flag"], "examples": [], "model_error": []}
{"id": "afixedc05", "definition": "ReceiptResult.dec", "edit": "else if flag = 2 then   =>   else if flag \u2260 2 then", "claim": "", "rc": 1, "secs": 13, "failed": ["Proof/FixedCodec:result_rt"], "examples": [], "model_error": []}
{"id": "afixedc06", "definition": "userAssetDec", "edit": "pure (id, { balance := natOfBE balance, approved := BMap.ofList approved })   =>   pure (id, { balance := natOfBE balance })", "claim": "", "rc": 1, "secs": 1, "failed": ["Model/FixedCodec:userAssetDec"], "examples": [], "model_error": ["Model/FixedCodec:userAssetDec"]}
{"id": "afixedc07", "definition": "Receipt.item", "edit": ".list ([r.cyclesUsed.item, .u64 r.epochId] ++ r.result.items ++ [r.stateRoot.item, r.txHash.item])   =>   .list ([r.cyclesUsed.item, .u64 r.epochId].result.items ++ [r.stateRoot.item, r.txHash.item])", "claim": "", "rc": 1, "secs": 1, "failed": ["Model/FixedCodec:Receipt.item"], "examples": [], "model_error": ["Model/FixedCodec:Receipt.item"]}
{"id": "aframe01", "definition": "NetMsg.pb", "edit": "def NetMsg.pb (m : NetMsg) : PFields := fBytes 1 (utf8 (String.ofList m.url)) ++ fBytes 2 m.content   =>   def NetMsg.pb (m : NetMsg) : PFields := fBytes 1 (utf8 (String.ofList m.url)) 2 m.content", "claim": "", "rc": 1, "secs": 0, "failed": ["Model/Frame:NetMsg.pb"], "examples": [], "model_error": ["Model/Frame:NetMsg.pb"]}
{"id": "aframe02", "definition": "Node.receive", "edit": "(r.1.map (fun o => (o.sid, z.compress (pbEncode (NetMsg.mk o.url o.content)))), r.2)   =>   (r.2.map (fun o => (o.sid, z.compress (pbEncode (NetMsg.mk o.url o.content)))), r.2)", "claim": "", "rc": 1, "secs": 0, "failed": ["Model/Frame:Node.receive"], "examples": [], "model_error": ["Model/Frame:Node.receive"]}
{"id": "aframe03", "definition": "NetMsg.ofPb", "edit": "let c \u2190 getBytes 2 fs   =>   let c \u2190 getBytes 3 fs", "claim": "", "rc": 1, "secs": 13, "failed": ["Props/Frame:netMsg_prt"], "examples": [], "model_error": []}
{"id": "ahex01", "definition": "hexDecode", "edit": "| some x, some y, some bs => some (UInt8.ofNat (16 * x + y) :: bs)   =>   | some x, some y, some bs => some (UInt8.ofNat (17 * x + y) :: bs)", "claim": "", "rc": 1, "secs": 40, "failed": ["Proof/Hex:hexDecode_hexEncode", "Props/Genesis:demo_genesis"], "examples": ["Props/Genesis"], "model_error": []}
{"id": "ahex02", "definition": "hexVal", "edit": "else if 97 \u2264 n \u2227 n \u2264 102 then some (n - 87)   =>   else if 98 \u2264 n \u2227 n \u2264 102 then some (n - 87)", "claim": "", "rc": 1, "secs": 40, "failed": ["Proof/Hex:hexVal_hexDigit", "Props/Genesis:demo_genesis"], "examples": ["Props/Genesis"], "model_error": []}
{"id": "ahex03", "definition": "hexDigit", "edit": "if n < 10 then Char.ofNat (48 + n) else Char.ofNat (87 + n)   =>   if n \u2264 10 then Char.ofNat (48 + n) else Char.ofNat (87 + n)", "claim": "", "rc": 1, "secs": 39, "failed": ["Proof/Hex:hexVal_hexDigit"], "examples": [], "model_error": []}
{"id": "akeeper01", "definition": "SvcError.report", "edit": "| .listen e a => some (e.event false a)   =>   | .listen e a => some (e.event true a)", "claim": "", "rc": 1, "secs": 2, "failed": ["Props/Keeper2:C76_repeated"], "examples": [], "model_error": []}
{"id": "amempoo01", "definition": "syncProposeTxs", "edit": "| some txs => (.ok (), { p with cache := txs.foldl (fun c tx => (c.insert tx true).2) p.cache })   =>   | some txs => (.ok (), { p with cache := txs.foldl (fun c tx => (c.insert tx false).2) p.cache })", "claim": "", "rc": 1, "secs": 174, "failed": ["Props/Mempool:step_cacheAfter"], "examples": [], "model_error": []}
{"id": "amempoo02", "definition": "MemPool.step", "edit": "| .syncProposeTxs v hs => (p.syncProposeTxs v hs).2   =>   | .syncProposeTxs v hs => (p.syncProposeTxs v hs).3", "claim": "", "rc": 1, "secs": 0, "failed": ["Model/Mempool:MemPool.step"], "examples": [], "model_error": ["Model/Mempool:MemPool.step"]}
{"id": "amempoo03", "definition": "checkTransaction", "edit": "if chainId \u2260 tx.raw.chainId then .error (.wrongChain tx.txHash)   =>   if chainId = tx.raw.chainId then .error (.wrongChain tx.txHash)", "claim": "", "rc": 1, "secs": 6, "failed": ["Props/Mempool:checks_spec"], "examples": ["Props/FixedCodec"], "model_error": []}
{"id": "amempoo04", "definition": "insert", "edit": "if netOrigin || v.broadcastOk then (.ok (), { p with cache := c })   =>   if netOrigin && v.broadcastOk then (.ok (), { p with cache := c })", "claim": "", "rc": 1, "secs": 164, "failed": ["Props/Mempool:insert_unfold"], "examples": [], "model_error": []}
{"id": "amempoo05", "definition": "new", "edit": "{ poolSize := poolSize, gap := gap, cache := TxCache.new (poolSize * 2), callback := TxMap.new }   =>   { poolSize := poolSize, gap := gap, cache := TxCache.new (poolSize * 2) }", "claim": "", "rc": 1, "secs": 0, "failed": ["Model/Mempool:new"], "examples": [], "model_error": ["Model/Mempool:new"]}
{"id": "amempoo06", "definition": "checkReachLimit", "edit": "if p.poolSize \u2264 p.cache.len then .error (.reachLimit p.poolSize) else .ok ()   =>   if p.poolSize < p.cache.len then .error (.reachLimit p.poolSize) else .ok ()", "claim": "", "rc": 1, "secs": 57, "failed": ["Props/Mempool:checks_spec", "Props/Mempool:insert_unfold", "Props/Mempool:C23_violation_rejected", "Props/Mempool:C23_admission_partial", "Props/Mempool:C23_admission_rest", "Props/Mempool:insert_cases", "Props/Mempool:C25_pool_size_partial", "Props/Mempool:C28_pooled_checked_partial", "Props/Consensus:passive_step", "Props/Consensus:passive_effect", "Props/Consensus:C36_roots_partial", "Props/Consensus:C36_replay_partial"], "examples": [], "model_error": []}
{"id": "amempoo07", "definition": "getFullTxs", "edit": "if full.length \u2260 hs.length then .error (.misMatch hs.length full.length) else .ok full   =>   if full.length = hs.length then .error (.misMatch hs.length full.length) else .ok full", "claim": "", "rc": 1, "secs": 41, "failed": ["Props/Mempool2:C26_full_txs_exact", "Props/Mempool2:C27_wrong_answer_refuted", "Props/Mempool2:C27_package_between_refuted"], "examples": ["Spec/DemoNode"], "model_error": []}
{"id": "amerkle01", "definition": "heapTree", "edit": "| 0, _ => .leaf 0   =>   | 0, _ => .leaf 1", "claim": "", "rc": 1, "secs": 6, "failed": ["Props/Merkle:heap_valid"], "examples": [], "model_error": []}
{"id": "amerkle02", "definition": "merkleRoot", "edit": "if hs = [] then none else some ((lay.tree hs.length).eval digest hs)   =>   if hs \u2260 [] then none else some ((lay.tree hs.length).eval digest hs)", "claim": "", "rc": 1, "secs": 6, "failed": ["Props/Merkle:C52_merkle_partial", "Props/Merkle:C52_refuted"], "examples": [], "model_error": []}
{"id": "amerkle03", "definition": "IdxTree.positions", "edit": "| .node l r => l.positions ++ r.positions   =>   | .node l r => l.positions.positions", "claim": "", "rc": 1, "secs": 0, "failed": ["Model/Merkle:IdxTree.positions"], "examples": [], "model_error": ["Model/Merkle:IdxTree.positions"]}
{"id": "amerkle04", "definition": "merkleMerge", "edit": "def merkleMerge (digest : Bytes \u2192 Hash) (l r : Hash) : Hash := digest (l.bytes ++ r.bytes)   =>   def merkleMerge (digest : Bytes \u2192 Hash) (l r : Hash) : Hash := digest (l.bytes.bytes)", "claim": "", "rc": 1, "secs": 0, "failed": ["Model/Merkle:merkleMerge"], "examples": [], "model_error": ["Model/Merkle:merkleMerge"]}
{"id": "amessag01", "definition": "RpcResponse.dec", "edit": "else if flag = flagTxs then   =>   else if flag \u2260 flagTxs then", "claim": "", "rc": 1, "secs": 70, "failed": ["Props/Messages:C50_round_trip_partial", "Props/Messages:C50_kind", "Props/Messages:C50_panic_iff", "Props/Messages:C50_refuted"], "examples": [], "model_error": []}
{"id": "amessag02", "definition": "readU64LE", "edit": "if bs.length < 8 then none else some (natOfLE (bs.take 8), bs.drop 8)   =>   if bs.length < 9 then none else some (natOfLE (bs.take 8), bs.drop 8)", "claim": "", "rc": 1, "secs": 86, "failed": ["Props/Messages:readU64LE_u64LE", "Props/Consensus2:C36_refuted"], "examples": [], "model_error": []}
{"id": "amessag03", "definition": "encMulti", "edit": "def encMulti {T : Type} [Protobuf T] (l : List T) : Bytes := u64LE l.length ++ l.flatMap (fun v => encBuf (pbEncode v))   =>   def encMulti {T : Type} [Protobuf T] (l : List T) : Bytes := u64LE l.length.flatMap (fun v => encBuf (pbEncode v))", "claim": "", "rc": 1, "secs": 0, "failed": ["Model/Messages:encMulti"], "examples": [], "model_error": ["Model/Messages:encMulti"]}
{"id": "amessag04", "definition": "encBuf", "edit": "def encBuf (b : Bytes) : Bytes := u64LE b.length ++ b   =>   def encBuf (b : Bytes) : Bytes := u64LE b.length", "claim": "", "rc": 1, "secs": 83, "failed": ["Props/Messages:readBuf_encBuf", "Props/Messages:readElems_enc", "Props/Messages:flatMap_length_ge", "Props/Messages:C50_refuted"], "examples": [], "model_error": []}
{"id": "amessag05", "definition": "natOfLE", "edit": "| [] => 0   =>   | [] => 1", "claim": "", "rc": 1, "secs": 76, "failed": ["Props/Messages:natOfLE_u64LE", "Props/Messages:C50_refuted"], "examples": [], "model_error": []}
{"id": "amessag06", "definition": "readBuf", "edit": "| some (n, rest) => if rest.length < n then none else some (rest.take n, rest.drop n)   =>   | some (n, rest) => if rest.length < n then none else some (rest.take n, rest.take n)", "claim": "", "rc": 1, "secs": 85, "failed": ["Props/Messages:readBuf_encBuf"], "examples": [], "model_error": []}
{"id": "amessag07", "definition": "readElems", "edit": "| n + 1, bs =>   =>   | n, bs =>", "claim": "", "rc": 1, "secs": 0, "failed": ["Model/Messages:readElems"], "examples": [], "model_error": ["Model/Messages:readElems"]}
{"id": "ampt01", "definition": "remove", "edit": "| leaf p v, k => if k = p then empty else leaf p v   =>   | leaf p v, k => if k \u2260 p then empty else leaf p v", "claim": "", "rc": 1, "secs": 4, "failed": ["Proof/Mpt:get_remove", "Proof/Mpt:remove_wf"], "examples": [], "model_error": []}
{"id": "ampt02", "definition": "nibblesOf", "edit": "| b :: bs => Fin.ofNat 16 (b.toNat / 16) :: Fin.ofNat 16 (b.toNat % 16) :: nibblesOf bs   =>   | b :: bs => Fin.ofNat 16 (b.toNat / 16) :: Fin.ofNat 16 (b.toNat % 17) :: nibblesOf bs", "claim": "", "rc": 1, "secs": 8, "failed": ["Proof/MptCode:nibbles_pack"], "examples": [], "model_error": []}
{"id": "ampt03", "definition": "write", "edit": "def write (t : Mpt) (k v : Bytes) : Mpt := if v = [] then t.remove (nibblesOf k) else t.insert (nibblesOf k) v   =>   def write (t : Mpt) (k v : Bytes) : Mpt := if v \u2260 [] then t.remove (nibblesOf k) else t.insert (nibblesOf k) v", "claim": "", "rc": 1, "secs": 10, "failed": ["Props/Mpt:Mpt.get_write", "Props/Mpt:Mpt.Sound.write"], "examples": ["Props/Mpt"], "model_error": []}
{"id": "ampt04", "definition": "uncompact", "edit": "if flag = 0 then some (false, nibblesOf r)   =>   if flag = 0 then some (true, nibblesOf r)", "claim": "", "rc": 1, "secs": 7, "failed": ["Proof/MptCode:uncompact_compact"], "examples": [], "model_error": []}
{"id": "ampt05", "definition": "stored", "edit": "t.coding digest :: (t.codings digest).filter (fun b => 32 \u2264 b.length)   =>   t.coding digest :: (t.codings digest).filter (fun b => 33 \u2264 b.length)", "claim": "", "rc": 1, "secs": 8, "failed": ["Proof/MptCode:opens_of_holds", "Proof/MptCode:opens_honest"], "examples": [], "model_error": []}
{"id": "ampt06", "definition": "load", "edit": "| fuel + 1, .data h =>   =>   | fuel, .data h =>", "claim": "", "rc": 1, "secs": 1, "failed": ["Model/Mpt:load"], "examples": [], "model_error": ["Model/Mpt:load"]}
{"id": "ampt07", "definition": "item", "edit": "| ext p c => .list [.data (compact false p), ref digest (item digest c)]   =>   | ext p c => .list [.data (compact true p), ref digest (item digest c)]", "claim": "", "rc": 1, "secs": 7, "failed": ["Proof/MptCode:item_inj", "Proof/MptCode:load_item", "Proof/MptCode:honest_item"], "examples": [], "model_error": []}
{"id": "aoverlo01", "definition": "OverlordCrypto.verifySignature", "edit": "if signature.length < 33 then .panic   =>   if signature.length < 34 then .panic", "claim": "", "rc": 1, "secs": 17, "failed": ["Props/OverlordCrypto:C42_partial", "Props/OverlordCrypto:C42_crash_refuted"], "examples": [], "model_error": []}
{"id": "aoverlo02", "definition": "OverlordCrypto.sign", "edit": "| some s => some (c.pubkey ++ s)   =>   | some s => some (c.pubkey)", "claim": "", "rc": 1, "secs": 14, "failed": ["Props/OverlordCrypto:C42_partial"], "examples": [], "model_error": []}
{"id": "apeerma01", "definition": "PMCfg.newPeer", "edit": "\u27e8cfg.pidOf key, cfg.userOf key, key, addrs, 0, now.tick, 0, 0, 0\u27e9   =>   \u27e8cfg.pidOf key, cfg.userOf key, key, addrs, 0, now.tick, 0, 1, 0\u27e9", "claim": "", "rc": 0, "secs": 18, "failed": [], "examples": ["Props/Keeper2", "Props/PeerManager2", "Props/Persist"], "model_error": []}
{"id": "apeerma02", "definition": "qualified", "edit": "| some p => !decide (pid \u2208 s.connected) && !decide (pid \u2208 s.connecting) && p.retryReady now   =>   | some p => !decide (pid \u2208 s.connected) && !decide (pid \u2209 s.connecting) && p.retryReady now", "claim": "", "rc": 1, "secs": 4, "failed": ["Props/PeerManager:C58_round_partial", "Props/PeerManager:C58_refuted_rounds", "Props/PeerManager:connecting_not_chosen"], "examples": [], "model_error": []}
{"id": "apeerma03", "definition": "identifyAddr", "edit": "| some pid => if pid \u2208 s.connected then s.addPeerAddr pid a else s   =>   | some pid => if pid \u2209 s.connected then s.addPeerAddr pid a else s", "claim": "", "rc": 0, "secs": 15, "failed": [], "examples": ["Props/PeerManager2"], "model_error": []}
{"id": "apeerma04", "definition": "Peer.increaseRetry", "edit": "else { p with retry := p.retry + 1, attemptAt := now.secs, nextRetry := now.tick + backoffBase ^ (p.retry + 1) }   =>   else { p with retry := p.retry + 1, attemptAt := now.secs, nextRetry := now.tick + backoffBase ^ (p.retry + 2) }", "claim": "", "rc": 1, "secs": 7, "failed": ["Props/PeerManager2:pause_kept", "Props/PeerManager2:C75_round_waits_partial"], "examples": ["Props/PeerManager2"], "model_error": []}
{"id": "apeerma05", "definition": "detach", "edit": "| some p => if p.alive < aliveRetryInterval then s1.increasePeerRetry cfg now pid else s1   =>   | some p => if p.alive \u2264 aliveRetryInterval then s1.increasePeerRetry cfg now pid else s1", "claim": "", "rc": 1, "secs": 6, "failed": ["Props/PeerManager2:step_counters", "Props/PeerManager2:failure_counted"], "examples": [], "model_error": []}
{"id": "apeerma06", "definition": "reachMaxRetry", "edit": "| some p => decide (maxRetryCount \u2264 p.retry)   =>   | some p => decide (maxRetryCount < p.retry)", "claim": "", "rc": 1, "secs": 7, "failed": ["Props/PeerManager2:counted_increase", "Props/PeerManager2:C77_refuted"], "examples": ["Props/PeerManager2"], "model_error": []}
{"id": "apeerma07", "definition": "route", "edit": "([.send sids msg, .connect (peers.flatMap Peer.addrs)], peers.map Peer.user ++ nobody)   =>   ([.send sids msg, .connect (peers.flatMap Peer.addrs)], peers.map Peer.user)", "claim": "", "rc": 1, "secs": 4, "failed": ["Props/PeerManager:C55_each_addressee_sent_or_missed"], "examples": ["Props/PeerManager"], "model_error": []}
{"id": "apersis01", "definition": "encIp", "edit": "| some (.v4 b) => 1 :: (u32LE 0 ++ b.1)   =>   | some (.v4 b) => 1 :: (u32LE 1 ++ b.1)", "claim": "", "rc": 1, "secs": 4, "failed": ["Props/Persist:readIp_encIp"], "examples": ["Props/Persist"], "model_error": []}
{"id": "apersis02", "definition": "PM.Packages", "edit": "\u2200 x \u2208 pids.zip l, \u2203 p, s.pool x.1 = some p \u2227 x.2.key = p.key \u2227 (\u2200 a, a \u2208 x.2.addrs \u2194 a \u2208 p.addrs) \u2227 x.2.connectAt = p.connectAt \u2227 x.2.alive = p.alive   =>   \u2200 x \u2208 pids.zip l, \u2203 p, s.pool x.1 = some p \u2227 x.2.key = p.key \u2227 (\u2200 a, a \u2208 x.2.addrs \u2194 a \u2208 p.addrs) \u2228 x.2.connectAt = p.connectAt \u2227 x.2.alive = p.alive", "claim": "", "rc": 1, "secs": 3, "failed": ["Props/Persist:packages_nodup", "Props/Persist:metTwo_packages"], "examples": [], "model_error": []}
{"id": "apersis03", "definition": "readAddrs", "edit": "| 0, bs => some ([], bs)   =>   | 1, bs => some ([], bs)", "claim": "", "rc": 1, "secs": 0, "failed": ["Model/Persist:readAddrs"], "examples": [], "model_error": ["Model/Persist:readAddrs"]}
{"id": "apersis04", "definition": "readArr", "edit": "if h : n \u2264 bs.length then some (\u27e8bs.take n, by simp [h]\u27e9, bs.drop n) else none   =>   if h : n \u2264 bs.length then some (\u27e8bs.drop n, by simp [h]\u27e9, bs.drop n) else none", "claim": "", "rc": 1, "secs": 0, "failed": ["Model/Persist:readArr"], "examples": [], "model_error": ["Model/Persist:readArr"]}
{"id": "apersis05", "definition": "encAddrs", "edit": "def encAddrs (c : PeerCodec) (as : List Maddr) : Bytes := u64LE as.length ++ as.flatMap (fun a => encBuf (c.encAddr a))   =>   def encAddrs (c : PeerCodec) (as : List Maddr) : Bytes := u64LE as.length.flatMap (fun a => encBuf (c.encAddr a))", "claim": "", "rc": 1, "secs": 0, "failed": ["Model/Persist:encAddrs"], "examples": [], "model_error": ["Model/Persist:encAddrs"]}
{"id": "apersis06", "definition": "readPeers", "edit": "| n + 1, bs =>   =>   | n, bs =>", "claim": "", "rc": 1, "secs": 0, "failed": ["Model/Persist:readPeers"], "examples": [], "model_error": ["Model/Persist:readPeers"]}
{"id": "apersis07", "definition": "peerFile", "edit": "def peerFile (c : PeerCodec) (l : List FilePeer) : Bytes := u64LE l.length ++ l.flatMap (FilePeer.enc c)   =>   def peerFile (c : PeerCodec) (l : List FilePeer) : Bytes := u64LE l.length.flatMap (FilePeer.enc c)", "claim": "", "rc": 1, "secs": 0, "failed": ["Model/Persist:peerFile"], "examples": [], "model_error": ["Model/Persist:peerFile"]}
{"id": "aprotob01", "definition": "readField", "edit": "if 2 ^ 32 \u2264 key \u2228 key / 8 = 0 then none   =>   if 2 ^ 32 \u2264 key \u2228 key / 8 = 1 then none", "claim": "", "rc": 1, "secs": 6, "failed": ["Proof/Protobuf:readField_encField"], "examples": [], "model_error": []}
{"id": "aprotob02", "definition": "rootOf", "edit": "def rootOf (fs : PFields) : PDec Hash := needMsg 1 fs >>= Hash.ofPb   =>   def rootOf (fs : PFields) : PDec Hash := needMsg 2 fs >>= Hash.ofPb", "claim": "", "rc": 1, "secs": 6, "failed": ["Proof/Protobuf:root_prt"], "examples": [], "model_error": []}
{"id": "aprotob03", "definition": "CarryingAsset.pb", "edit": "def CarryingAsset.pb (c : CarryingAsset) : PFields := fMsg 1 (rootPb c.assetId) ++ fMsg 2 (balancePb c.amount)   =>   def CarryingAsset.pb (c : CarryingAsset) : PFields := fMsg 1 (rootPb c.assetId) 2 (balancePb c.amount)", "claim": "", "rc": 1, "secs": 0, "failed": ["Model/Protobuf:CarryingAsset.pb"], "examples": [], "model_error": ["Model/Protobuf:CarryingAsset.pb"]}
{"id": "aprotob04", "definition": "encField", "edit": "| (t, .bytes b) => encVarint 10 (t * 8 + 2) ++ encVarint 10 b.length ++ b   =>   | (t, .bytes b) => encVarint 10 (t * 8 + 2) ++ encVarint 10 b.length", "claim": "", "rc": 1, "secs": 6, "failed": ["Proof/Protobuf:PFits.mem", "Proof/Protobuf:readField_encField"], "examples": [], "model_error": []}
{"id": "aprotob05", "definition": "parseAux", "edit": "| f + 1, b :: bs =>   =>   | f, b :: bs =>", "claim": "", "rc": 1, "secs": 1, "failed": ["Model/Protobuf:parseAux"], "examples": [], "model_error": ["Model/Protobuf:parseAux"]}
{"id": "aprotob06", "definition": "ReceiptResult.ofPb", "edit": "else if x.1 = 6 then do   =>   else if x.1 \u2260 6 then do", "claim": "", "rc": 1, "secs": 7, "failed": ["Proof/Protobuf:result_prt"], "examples": [], "model_error": []}
{"id": "aprotob07", "definition": "Action.ofPb", "edit": "else if x.1 = 6 then do   =>   else if x.1 \u2260 6 then do", "claim": "", "rc": 1, "secs": 6, "failed": ["Proof/Protobuf:action_prt"], "examples": [], "model_error": []}
{"id": "arlp01", "definition": "skip", "edit": "| .ok (h, v) => skip n (bs.drop (h + v))   =>   | .ok (h, v) => skip n (bs.take (h + v))", "claim": "", "rc": 1, "secs": 6, "failed": ["Proof/Rlp:skip_encs", "Proof/Rlp:at_enc_none"], "examples": [], "model_error": []}
{"id": "arlp02", "definition": "value", "edit": "| .ok len => if rest.length < n + len then .error .inconsistent else .ok ((rest.drop n).take len)   =>   | .ok len => if rest.length \u2264 n + len then .error .inconsistent else .ok ((rest.drop n).take len)", "claim": "", "rc": 1, "secs": 6, "failed": ["Proof/Rlp:value_enc"], "examples": [], "model_error": []}
{"id": "arlp03", "definition": "decodeUsize", "edit": "else if b.headD 0 = 0 then .error .invalidIndirection   =>   else if b.headD 0 \u2260 0 then .error .invalidIndirection", "claim": "", "rc": 1, "secs": 7, "failed": ["Proof/Rlp:headerInfo_header", "Proof/Rlp:value_enc"], "examples": [], "model_error": []}
{"id": "arlp04", "definition": "u64", "edit": "def u64 (bs : Bytes) : Dec UInt64 := do let b \u2190 value bs; let n \u2190 intOf 8 b; pure (UInt64.ofNat n)   =>   def u64 (bs : Bytes) : Dec UInt64 := do let b \u2190 value bs; let n \u2190 intOf 9 b; pure (UInt64.ofNat n)", "claim": "", "rc": 1, "secs": 8, "failed": ["Proof/Rlp:u64_enc"], "examples": [], "model_error": []}
{"id": "arlp05", "definition": "size", "edit": "| .error _ => 0   =>   | .error _ => 1", "claim": "", "rc": 0, "secs": 560, "failed": [], "examples": [], "model_error": []}
{"id": "arlp06", "definition": "Item.encs", "edit": "| x :: xs => x.enc ++ Item.encs xs   =>   | x :: xs => x.enc.encs xs", "claim": "", "rc": 1, "secs": 0, "failed": ["Model/Rlp:Item.encs"], "examples": [], "model_error": ["Model/Rlp:Item.encs"]}
{"id": "arlp07", "definition": "isData", "edit": "| l :: _ => l.toNat < 0xc0   =>   | l :: _ => l.toNat \u2264 0xc0", "claim": "", "rc": 1, "secs": 9, "failed": ["Proof/Rlp:isData_enc_data"], "examples": [], "model_error": []}
{"id": "arpc01", "definition": "RpcState.setCall", "edit": "def RpcState.setCall {\u03b1 : Type} (s : RpcState \u03b1) (c : Nat) (x : RpcCall \u03b1) : RpcState \u03b1 := { s with calls := fun i => if i = c then some x else s.calls i }   =>   def RpcState.setCall {\u03b1 : Type} (s : RpcState \u03b1) (c : Nat) (x : RpcCall \u03b1) : RpcState \u03b1 := { s with calls := fun i => if i \u2260 c then some x else s.calls i }", "claim": "", "rc": 1, "secs": 22, "failed": ["Props/Rpc:RpcInv.phase", "Props/Rpc:RpcInv.step", "Props/Rpc:C53_undisturbed", "Props/Rpc:C53_answered", "Props/Rpc:C66_partial", "Props/Rpc:C66_unsent", "Props/Rpc:C66_reused_id", "Props/Rpc:rpcMany_state"], "examples": ["Props/Rpc"], "model_error": []}
{"id": "arpc02", "definition": "RpcState.new", "edit": "def RpcState.new {\u03b1 : Type} : RpcState \u03b1 := \u27e80, fun _ => none, fun _ => none, fun _ => none, fun _ => none\u27e9   =>   def RpcState.new {\u03b1 : Type} : RpcState \u03b1 := \u27e81, fun _ => none, fun _ => none, fun _ => none, fun _ => none\u27e9", "claim": "", "rc": 1, "secs": 24, "failed": ["Props/Rpc:rpcMany_state"], "examples": ["Props/Rpc"], "model_error": []}
{"id": "arpc03", "definition": "RpcState.take", "edit": "if b.ty = t.ty then s1.setChan b.call (some t.msg) else s1.setChan b.call none   =>   if b.ty \u2260 t.ty then s1.setChan b.call (some t.msg) else s1.setChan b.call none", "claim": "", "rc": 1, "secs": 25, "failed": ["Props/Rpc:RpcInv.step", "Props/Rpc:chan_step", "Props/Rpc:C53_answered"], "examples": ["Props/Rpc"], "model_error": []}
{"id": "arpc04", "definition": "RpcState.step", "edit": "| none => { s.setCall c \u27e8sid, ty, s.next, .drawn\u27e9 with next := s.next + 1 }   =>   | none => { s.setCall c \u27e8sid, ty, s.next, .drawn\u27e9 with next := s.next }", "claim": "", "rc": 1, "secs": 23, "failed": ["Props/Rpc:RpcInv.step", "Props/Rpc:rpcMany_state"], "examples": ["Props/Rpc"], "model_error": []}
{"id": "aserver01", "definition": "Node.commitSends", "edit": "match (n.commit cfg { io with transmit := true } epochId pill proof).1 with   =>   match (n.commit cfg { io with transmit := false } epochId pill proof).1 with", "claim": "", "rc": 1, "secs": 37, "failed": ["Props/Server2:C81_announces"], "examples": [], "model_error": []}
{"id": "aserver02", "definition": "richMessage", "edit": "def richMessage (epochId : UInt64) : Str \u00d7 Bytes := (endRichEpochId, encBuf (u64LE (epochId + 1).toNat))   =>   def richMessage (epochId : UInt64) : Str \u00d7 Bytes := (endRichEpochId, encBuf (u64LE (epochId).toNat))", "claim": "", "rc": 1, "secs": 32, "failed": ["Props/Server2:C81_heard"], "examples": ["Props/Server2"], "model_error": []}
{"id": "aserver03", "definition": "newTxsGossip", "edit": "(x.2.insert cfg.mem (n.view cfg (fun _ => none) true) newTxsOrigin tx).2)) ([], n.pool)).1   =>   (x.2.insert cfg.mem (n.view cfg (fun _ => none) true) newTxsOrigin tx).2)) ([], n.pool)).2", "claim": "", "rc": 1, "secs": 0, "failed": ["Model/Server:newTxsGossip"], "examples": [], "model_error": ["Model/Server:newTxsGossip"]}
{"id": "aserver04", "definition": "RpcRequest.dec", "edit": "if bs.take 4 = [0, 0, 0, 0] then (readU64LE (bs.drop 4)).map (fun x => .pullEpochs (UInt64.ofNat x.1))   =>   if bs.take 5 = [0, 0, 0, 0] then (readU64LE (bs.drop 4)).map (fun x => .pullEpochs (UInt64.ofNat x.1))", "claim": "", "rc": 1, "secs": 19, "failed": ["Props/Server:RpcRequest.dec_enc"], "examples": [], "model_error": []}
{"id": "aserver05", "definition": "newTxsOrigin", "edit": "def newTxsOrigin : Bool := true   =>   def newTxsOrigin : Bool := false", "claim": "", "rc": 1, "secs": 34, "failed": ["Props/Server2:C80_received_not_gossiped"], "examples": [], "model_error": []}
{"id": "aserver06", "definition": "RpcRequest.enc", "edit": "| .pullTxs hs => [1, 0, 0, 0] ++ encMulti hs   =>   | .pullTxs hs => [1, 0, 0, 0] hs", "claim": "", "rc": 1, "secs": 0, "failed": ["Model/Server:RpcRequest.enc"], "examples": [], "model_error": ["Model/Server:RpcRequest.enc"]}
{"id": "astartu01", "definition": "registerResponse", "edit": "| .ok e => if e.scheme \u2260 some .rpcResp then .error .unexpectedScheme else .ok (rs.register e h)   =>   | .ok e => if e.scheme = some .rpcResp then .error .unexpectedScheme else .ok (rs.register e h)", "claim": "", "rc": 1, "secs": 19, "failed": ["Props/Startup:C92_registers", "Props/Startup:C92_register_kinds"], "examples": [], "model_error": []}
{"id": "astartu02", "definition": "parseVerifiers", "edit": "| some xs => some (\u27e8a, 1, 1\u27e9 :: xs)   =>   | some xs => some (\u27e8a, 1, 2\u27e9 :: xs)", "claim": "", "rc": 1, "secs": 19, "failed": ["Props/Startup:parseVerifiers_some"], "examples": [], "model_error": []}
{"id": "astartu03", "definition": "NetStart.listen", "edit": "| some _ => (true, s)   =>   | some _ => (false, s)", "claim": "", "rc": 1, "secs": 21, "failed": ["Props/Startup:C92_listen_once"], "examples": [], "model_error": []}
{"id": "astartu04", "definition": "toPeer", "edit": "(hexDecode x.1).map (fun key => \u27e8key, UserAddress.fromPubkey digest key, socketToMulti x.2\u27e9)   =>   (hexDecode x.1).map (fun key => \u27e8key, UserAddress.fromPubkey digest key, socketToMulti x.3\u27e9)", "claim": "", "rc": 1, "secs": 0, "failed": ["Model/Startup:toPeer"], "examples": [], "model_error": ["Model/Startup:toPeer"]}
{"id": "astartu05", "definition": "FileCfg.node", "edit": "poolSize := f.poolSize.toNat, timeoutGap := f.timeoutGap }   =>   poolSize := f.poolSize.toNat }", "claim": "", "rc": 1, "secs": 0, "failed": ["Model/Startup:FileCfg.node"], "examples": [], "model_error": ["Model/Startup:FileCfg.node"]}
{"id": "astartu06", "definition": "startAll", "edit": "| (false, _) => .error .listen   =>   | (true, _) => .error .listen", "claim": "", "rc": 1, "secs": 0, "failed": ["Model/Startup:startAll"], "examples": [], "model_error": ["Model/Startup:startAll"]}
{"id": "astartu07", "definition": "registerHandler", "edit": "| .ok e => if e.scheme = some .rpcResp then .error .unexpectedScheme else .ok (rs.register e h)   =>   | .ok e => if e.scheme \u2260 some .rpcResp then .error .unexpectedScheme else .ok (rs.register e h)", "claim": "", "rc": 1, "secs": 18, "failed": ["Props/Startup:C92_registers", "Props/Startup:C92_register_kinds"], "examples": [], "model_error": []}
{"id": "astatea01", "definition": "contains", "edit": "if (l.cache k).isSome then true   =>   if (l.cache k).isNone then true", "claim": "", "rc": 1, "secs": 40, "failed": ["Proof/Executor:Layers.contains_eq", "Proof/ByteExecutor:Rep.has", "Spec/DemoNode:ninit_some", "Spec/DemoNode:nstart_some"], "examples": ["Spec/DemoNode"], "model_error": []}
{"id": "astatea02", "definition": "stashCache", "edit": "{ l with stash := l.cache.over l.stash, cache := PMap.empty }   =>   { l with stash := l.cache.over l.stash }", "claim": "", "rc": 1, "secs": 71, "failed": ["Proof/Executor:Layers.get_stashCache", "Proof/ByteExecutor:Rep.stashCache"], "examples": [], "model_error": []}
{"id": "astatea03", "definition": "commit", "edit": "{ l with trie := l.stash.over l.trie, stash := PMap.empty }   =>   { l with trie := l.stash.over l.trie }", "claim": "", "rc": 1, "secs": 1827, "failed": ["Proof/ByteExecutor:Rep.commit", "Props/StateAdapter:Layers.call_abs"], "examples": [], "model_error": []}
{"id": "astatea04", "definition": "PMap.set", "edit": "fun k' => if k' = k then some v else m k'   =>   fun k' => if k' \u2260 k then some v else m k'", "claim": "", "rc": 1, "secs": 37, "failed": ["Proof/Executor:dispatch_eq", "Proof/ByteExecutor:RepM.set", "Props/Consensus:resolves_put", "Props/Consensus:EmptyRoot.of_put"], "examples": [], "model_error": []}
{"id": "astorag01", "definition": "Backend.rocks", "edit": "| .receipt => 3   =>   | .receipt => 4", "claim": "", "rc": 1, "secs": 10, "failed": ["Props/Storage:Refines.write", "Props/Storage:C31_rocks_partial", "Props/Storage:C33_batch_exact", "Props/Storage:C32_contents"], "examples": [], "model_error": []}
{"id": "astorag02", "definition": "Db.put", "edit": "fun c k => if c = col \u2227 k = key then some val else db c k   =>   fun c k => if c \u2260 col \u2227 k = key then some val else db c k", "claim": "", "rc": 1, "secs": 8, "failed": ["Props/Storage:foldl_put_other", "Props/Storage:foldl_put_hash", "Props/Storage:Refines.write", "Props/Storage:C31_refuted", "Props/Storage:hash_key_origin", "Props/Storage:C34_refuted_witness"], "examples": ["Props/Storage"], "model_error": []}
{"id": "astorag03", "definition": "Db.write", "edit": "(w.puts lk).foldl (fun db p => db.put (be p.1) p.2.1 p.2.2) db   =>   (w.puts lk).foldl (fun db p => db.put (be p.1) p.2.1 p.2.3) db", "claim": "", "rc": 1, "secs": 2509, "failed": ["Model/Storage:Db.write"], "examples": [], "model_error": ["Model/Storage:Db.write"]}
{"id": "astorag03", "definition": "Db.write", "edit": "(w.puts lk).foldl (fun db p => db.put (be p.1) p.2.1 p.2.2) db   =>   (w.puts lk).foldl (fun db p => db.put (be p.1) p.2.1 p.2.3) db", "claim": "", "rc": 1, "secs": 0, "failed": ["Model/Storage:Db.write"], "examples": [], "model_error": ["Model/Storage:Db.write"]}
{"id": "atxcach01", "definition": "alloc", "edit": "(c.next, { c with heap := fun i => if i = c.next then w else c.heap i, next := c.next + 1 })   =>   (c.next, { c with heap := fun i => if i = c.next then w else c.heap i, next := c.next })", "claim": "", "rc": 1, "secs": 52, "failed": ["Proof/TxCache:Good.inserted_good"], "examples": ["Spec/DemoNode"], "model_error": []}
{"id": "atxcach02", "definition": "Pk.take", "edit": "if pk.stage = .finished \u2228 (pk.stage = .proposeTxs \u2227 w.proposed = true) then pk   =>   if pk.stage = .finished \u2227 (pk.stage = .proposeTxs \u2227 w.proposed = true) then pk", "claim": "", "rc": 1, "secs": 205, "failed": ["Proof/TxCache:fold_finished", "Proof/TxCache:fold_propose"], "examples": [], "model_error": []}
{"id": "atxcach03", "definition": "insert", "edit": "let c1 := (c.alloc \u27e8tx, false, proposed\u27e9).2   =>   let c1 := (c.alloc \u27e8tx, false, proposed\u27e9).3", "claim": "", "rc": 1, "secs": 1, "failed": ["Model/TxCache:insert"], "examples": [], "model_error": ["Model/TxCache:insert"]}
{"id": "atxcach04", "definition": "new", "edit": "count := 0 }   =>   count := 1 }", "claim": "", "rc": 1, "secs": 205, "failed": ["Proof/TxCache:good_new"], "examples": [], "model_error": []}
{"id": "atxcach05", "definition": "packageLoop", "edit": "packageLoop heap cap limit current timeout (pk.take limit w) inc (cand ++ [id])   =>   packageLoop heap cap limit current timeout (pk.drop limit w) inc (cand ++ [id])", "claim": "", "rc": 1, "secs": 0, "failed": ["Model/TxCache:packageLoop"], "examples": [], "model_error": ["Model/TxCache:packageLoop"]}
{"id": "atxcach06", "definition": "push", "edit": "if (c.queue z).length < c.cap then (true, c.setQueue z (c.queue z ++ [id])) else (false, c)   =>   if (c.queue z).length < c.cap then (false, c.setQueue z (c.queue z ++ [id])) else (false, c)", "claim": "", "rc": 1, "secs": 51, "failed": ["Proof/TxCache:insert_ok"], "examples": ["Spec/DemoNode"], "model_error": []}
{"id": "atxcach07", "definition": "Wrapper.isTimeout", "edit": "w.tx.raw.timeout \u2264 current || timeout < w.tx.raw.timeout   =>   w.tx.raw.timeout \u2264 current && timeout < w.tx.raw.timeout", "claim": "", "rc": 1, "secs": 187, "failed": ["Proof/TxCache:isTimeout_eq"], "examples": [], "model_error": []}
{"id": "atxcach01x", "definition": "stepIns", "edit": "else { s with cache := (s.cache.alloc \u27e8tx, false, false\u27e9).2 }.setIns t (.start s.cache.next)   =>   else { s with cache := (s.cache.alloc \u27e8tx, true, false\u27e9).2 }.setIns t (.start s.cache.next)", "claim": "", "rc": 1, "secs": 4, "failed": ["Proof/TxCacheConc:Inv.stepIns"], "examples": [], "model_error": []}
{"id": "atxcach02x", "definition": "setFl", "edit": "def setFl (s : Sys) (t : Nat) (p : FlPc) : Sys := { s with fl := fun i => if i = t then p else s.fl i }   =>   def setFl (s : Sys) (t : Nat) (p : FlPc) : Sys := { s with fl := fun i => if i \u2260 t then p else s.fl i }", "claim": "", "rc": 1, "secs": 20, "failed": ["Props/TxCacheConc:C18_flush_race_refuted"], "examples": [], "model_error": []}
{"id": "atxcach03x", "definition": "stepPk", "edit": "| .move a z pk id => { s with cache := (s.cache.push z id).2, pk := .drain a z pk }   =>   | .move a z pk id => { s with cache := (s.cache.push z id).3, pk := .drain a z pk }", "claim": "", "rc": 1, "secs": 0, "failed": ["Model/TxCacheConc:stepPk"], "examples": [], "model_error": ["Model/TxCacheConc:stepPk"]}
{"id": "atxcach04x", "definition": "new", "edit": "{ cache := TxCache.new (poolSize * 2), poolSize := poolSize, ins := fun _ => .idle, pk := .idle, fl := fun _ => .idle }   =>   { cache := TxCache.new (poolSize * 2), poolSize := poolSize, ins := fun _ => .idle, pk := .idle }", "claim": "", "rc": 1, "secs": 0, "failed": ["Model/TxCacheConc:new"], "examples": [], "model_error": ["Model/TxCacheConc:new"]}
{"id": "atxcach05x", "definition": "step", "edit": "| .idle => { s with cache := (s.cache.alloc \u27e8tx, false, true\u27e9).2 }.setIns t (.start s.cache.next)   =>   | .idle => { s with cache := (s.cache.alloc \u27e8tx, false, false\u27e9).2 }.setIns t (.start s.cache.next)", "claim": "", "rc": 1, "secs": 4, "failed": ["Proof/TxCacheConc:Inv.step"], "examples": [], "model_error": []}
{"id": "atxcach06x", "definition": "setIns", "edit": "def setIns (s : Sys) (t : Nat) (p : InsPc) : Sys := { s with ins := fun i => if i = t then p else s.ins i }   =>   def setIns (s : Sys) (t : Nat) (p : InsPc) : Sys := { s with ins := fun i => if i \u2260 t then p else s.ins i }", "claim": "", "rc": 1, "secs": 4, "failed": ["Proof/TxCacheConc:setIns_ins", "Proof/TxCacheConc:Inv.alloc", "Proof/TxCacheConc:Inv.mapInsert", "Proof/TxCacheConc:Inv.insPush"], "examples": [], "model_error": []}
{"id": "atxmap01", "definition": "Bucket.remove", "edit": "| (k, v) :: rest => if h = k then rest else (k, v) :: Bucket.remove h rest   =>   | (k, v) :: rest => if h \u2260 k then rest else (k, v) :: Bucket.remove h rest", "claim": "", "rc": 1, "secs": 181, "failed": ["Proof/TxMap:get_remove"], "examples": [], "model_error": []}
{"id": "atxmap02", "definition": "setBucket", "edit": "def setBucket {V : Type} (m : TxMap V) (i : Fin 16) (b : Bucket V) : TxMap V := fun j => if j = i then b else m j   =>   def setBucket {V : Type} (m : TxMap V) (i : Fin 16) (b : Bucket V) : TxMap V := fun j => if j \u2260 i then b else m j", "claim": "", "rc": 1, "secs": 43, "failed": ["Proof/TxMap:wf_insert", "Proof/TxMap:wf_remove", "Proof/TxMap:get_insert", "Proof/TxMap:get_remove"], "examples": ["Spec/DemoNode"], "model_error": []}
{"id": "atxmap03", "definition": "Bucket.containsKey", "edit": "def Bucket.containsKey {V : Type} (b : Bucket V) (h : Hash) : Bool := (Bucket.get h b).isSome   =>   def Bucket.containsKey {V : Type} (b : Bucket V) (h : Hash) : Bool := (Bucket.get h b).isNone", "claim": "", "rc": 1, "secs": 41, "failed": ["Proof/TxMap:nodup_insert", "Proof/TxMap:get_insert", "Proof/TxMap:insert_fst", "Proof/TxMap:containsKey_eq"], "examples": ["Spec/DemoNode"], "model_error": []}
{"id": "atxmap04", "definition": "TxMap", "edit": "def TxMap (V : Type) := Fin 16 \u2192 Bucket V   =>   def TxMap (V : Type) := Fin 17 \u2192 Bucket V", "claim": "", "rc": 1, "secs": 0, "failed": ["Model/TxMap:setBucket", "Model/TxMap:insert", "Model/TxMap:containsKey", "Model/TxMap:get", "Model/TxMap:deletes", "Model/TxMap:remove", "Model/TxMap:len"], "examples": [], "model_error": ["Model/TxMap:setBucket", "Model/TxMap:insert", "Model/TxMap:containsKey", "Model/TxMap:get", "Model/TxMap:deletes", "Model/TxMap:remove", "Model/TxMap:len"]}
{"id": "atxmap05", "definition": "Hash.index", "edit": "have := (h.bytes.headD 0).toNat_lt   =>   have := (h.bytes.headD 1).toNat_lt", "claim": "", "rc": 1, "secs": 0, "failed": ["Model/TxMap:Hash.index"], "examples": [], "model_error": ["Model/TxMap:Hash.index"]}
{"id": "atypes01", "definition": "BMap.insert", "edit": "if k = k' then (k, v) :: rest   =>   if k \u2260 k' then (k, v) :: rest", "claim": "", "rc": 1, "secs": 53, "failed": ["Proof/Executor:BMap.get_insert_self", "Proof/Executor:BMap.get_insert_ne", "Proof/FixedCodec:BMap.insert_last"], "examples": [], "model_error": []}
{"id": "atypes02", "definition": "UserAddress.fromPubkey", "edit": "\u27e8(digest pubkey).take20.1, (digest pubkey).take20.2\u27e9   =>   \u27e8(digest pubkey).take20.1, (digest pubkey).take20.3\u27e9", "claim": "", "rc": 1, "secs": 1, "failed": ["Model/Types:UserAddress.fromPubkey"], "examples": [], "model_error": ["Model/Types:UserAddress.fromPubkey"]}
{"id": "atypes03", "definition": "ContractType.ofMagic", "edit": "else if m = 0x21 then some .app   =>   else if m \u2260 0x21 then some .app", "claim": "", "rc": 1, "secs": 73, "failed": ["Proof/Hex:ContractType.ofMagic_magic"], "examples": [], "model_error": []}
{"id": "atypes04", "definition": "bytesLt", "edit": "| [], _ :: _ => true   =>   | [], _ :: _ => false", "claim": "", "rc": 1, "secs": 509, "failed": ["Proof/ByteExecutor:bytesLt_trans", "Proof/ByteExecutor:bytesLt_total"], "examples": [], "model_error": []}
{"id": "atypes05", "definition": "", "edit": "instance : Inhabited ContractAddress := \u27e8\u27e8.asset, List.replicate 20 0, by simp\u27e9\u27e9   =>   instance : Inhabited ContractAddress := \u27e8\u27e8.asset, List.replicate 20 1, by simp\u27e9\u27e9", "claim": "", "rc": 0, "secs": 703, "failed": [], "examples": [], "model_error": []}
{"id": "atypes06", "definition": "ReceiptResult.isFail", "edit": "| _ => false   =>   | _ => true", "claim": "", "rc": 1, "secs": 132, "failed": ["Proof/ExecLoop:StepEffect.ledger", "Proof/ExecLoop:StepEffect.nonce"], "examples": ["Props/ByteExecutor"], "model_error": []}
{"id": "atypes07", "definition": "ContractAddress.fromCode", "edit": "let h := (digest (code ++ u64BE nonce)).take20   =>   let h := (digest (code nonce)).take20", "claim": "", "rc": 1, "secs": 1, "failed": ["Model/Types:ContractAddress.fromCode"], "examples": [], "model_error": ["Model/Types:ContractAddress.fromCode"]}
