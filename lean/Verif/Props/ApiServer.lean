import Verif.Model.ApiServer
import Verif.Props.Api
import Verif.Props.Mempool
import Verif.Props.Engine
import Verif.Props.Consensus3
/-
C71 (epochs shown by the API), C72 (what a successful submission means), C73 (balance queries that cannot be answered).
-/
namespace Huobi

/-! ### C71 -/

/-- The answer `v` shows the epoch `e`: each of its texts, read by the API's own rules, is the corresponding part of `e`. -/
structure Shows (v : EpochView) (e : Epoch) : Prop where
  chainId : Api.readHash v.header.chainId = some e.header.chainId
  epochId : Api.readU64 v.header.epochId = some e.header.epochId
  preHash : Api.readHash v.header.preHash = some e.header.preHash
  timestamp : Api.readU64 v.header.timestamp = some e.header.timestamp
  orderRoot : Api.readHash v.header.orderRoot = some e.header.orderRoot
  confirmRoot : v.header.confirmRoot.map Api.readHash = e.header.confirmRoot.map some
  stateRoot : Api.readHash v.header.stateRoot = some e.header.stateRoot
  receiptRoot : v.header.receiptRoot.map Api.readHash = e.header.receiptRoot.map some
  cyclesUsed : Api.readU64 v.header.cyclesUsed = some e.header.cyclesUsed
  proposer : Api.readAddress v.header.proposer = some (.user e.header.proposer)
  validatorVersion : Api.readU64 v.header.validatorVersion = some e.header.validatorVersion
  txs : v.orderedTxHashes.map Api.readHash = e.orderedTxHashes.map some

theorem readHash_toHex (h : Hash) : Api.readHash h.toHex = some h := readHash_writes (writes_self _)

theorem readU64_show (n : UInt64) : Api.readU64 (Api.showU64 n) = some n := (C51_round_trip _).1 _ (writes_self _)

theorem readAddress_toHex (a : Address) : Api.readAddress a.toHex = some a := by
  have hw : Writes a.toHex (hexEncode a.toBytes) := writes_self _
  rw [Api.readAddress, Address.fromHex, writes_clean_asHex hw]; exact Address.fromBytes_toBytes a

theorem readHash_list (l : List Hash) : (l.map Hash.toHex).map Api.readHash = l.map some := by
  rw [List.map_map]
  exact List.map_congr_left (fun h _ => readHash_toHex h)

theorem shows_of (e : Epoch) : Shows (EpochView.of e) e where
  chainId := readHash_toHex _
  epochId := readU64_show _
  preHash := readHash_toHex _
  timestamp := readU64_show _
  orderRoot := readHash_toHex _
  confirmRoot := readHash_list _
  stateRoot := readHash_toHex _
  receiptRoot := readHash_list _
  cyclesUsed := readU64_show _
  proposer := readAddress_toHex _
  validatorVersion := readU64_show _
  txs := readHash_list _

/-- **C71.**  For every node: asked for a height (written in either case, with or without `0x`), the API shows the epoch stored under that
height and fails if none is stored; asked without a height it shows the latest stored epoch; every successful answer shows a stored
epoch. -/
theorem C71_epoch (n : Node) :
    (∀ txt id, Writes txt (Api.showU64 id) →
      (∀ e, n.store.epochs id = some e → ∃ v, n.apiEpoch (some txt) = .ok v ∧ Shows v e) ∧
      (n.store.epochs id = none → n.apiEpoch (some txt) = .error .storage)) ∧
    (∀ e, n.store.latest = some e → ∃ v, n.apiEpoch none = .ok v ∧ Shows v e) ∧
    (∀ q v, n.apiEpoch q = .ok v → ∃ e, Shows v e ∧ ((q = none ∧ n.store.latest = some e) ∨
      ∃ txt id, q = some txt ∧ Api.readU64 txt = some id ∧ n.store.epochs id = some e)) := by
  refine ⟨?_, ?_, ?_⟩
  · intro txt id hw
    have hr : Api.readOptU64 (some txt) = some (some id) := by
      simp only [Api.readOptU64, (C51_round_trip _).1 _ hw, Option.map_some]
    constructor
    · intro e he
      refine ⟨EpochView.of e, ?_, shows_of e⟩
      simp only [Node.apiEpoch, hr, Node.queryEpoch, he]
    · intro he
      simp only [Node.apiEpoch, hr, Node.queryEpoch, he]
  · intro e he
    refine ⟨EpochView.of e, ?_, shows_of e⟩
    simp only [Node.apiEpoch, Api.readOptU64, Node.queryEpoch, he]
  · intro q v hv
    unfold Node.apiEpoch at hv
    split at hv
    · cases hv
    · rename_i id hid
      split at hv
      · cases hv
      · rename_i e he
        cases hv
        refine ⟨e, shows_of e, ?_⟩
        cases q with
        | none =>
          simp only [Api.readOptU64, Option.some.injEq] at hid
          subst hid
          exact .inl ⟨rfl, he⟩
        | some txt =>
          simp only [Api.readOptU64, Option.map_eq_some_iff] at hid
          obtain ⟨i, hi, rfl⟩ := hid
          exact .inr ⟨txt, i, rfl, hi, he⟩

/-- An answer determines every shown part of the epoch. -/
theorem C71_unambiguous {v : EpochView} {e e' : Epoch} (h : Shows v e) (h' : Shows v e') :
    e.orderedTxHashes = e'.orderedTxHashes ∧
    { e.header with logsBloom := e'.header.logsBloom, proof := e'.header.proof, validators := e'.header.validators } = e'.header := by
  have inj : ∀ {α : Type} {a b : α} {x : Option α}, x = some a → x = some b → a = b := by
    intro α a b x h1 h2; rw [h1] at h2; exact Option.some.inj h2
  have injl : ∀ {a b : List Hash} {x : List (Option Hash)}, x = a.map some → x = b.map some → a = b := by
    intro a b x h1 h2
    rw [h1] at h2
    exact List.map_injective_iff.2 (fun _ _ h => Option.some.inj h) h2
  refine ⟨injl h.txs h'.txs, ?_⟩
  have h1 := inj h.chainId h'.chainId
  have h2 := inj h.epochId h'.epochId
  have h3 := inj h.preHash h'.preHash
  have h4 := inj h.timestamp h'.timestamp
  have h5 := inj h.orderRoot h'.orderRoot
  have h6 := injl h.confirmRoot h'.confirmRoot
  have h7 := inj h.stateRoot h'.stateRoot
  have h8 := injl h.receiptRoot h'.receiptRoot
  have h9 := inj h.cyclesUsed h'.cyclesUsed
  have h10 := Address.user.inj (inj h.proposer h'.proposer)
  have h11 := inj h.validatorVersion h'.validatorVersion
  cases e with
  | mk hd txs =>
    cases e' with
    | mk hd' txs' =>
      cases hd; cases hd'
      simp only at *
      subst h1 h2 h3 h4 h5 h6 h7 h8 h9 h10 h11
      rfl

/-- **C71 on a chain.**  In every lifetime in which commits and peers continue the chain (`Continues`): for every height up to the
latest, the API shows an epoch of that height, and what it shows as previous hash is the hash of the epoch stored under the height
before. -/
theorem C71_walk {cfg : NodeCfg} {g : Genesis} {n : Node} (h : Lives cfg g (Continues cfg) n) :
    ∃ last, n.store.latest = some last ∧ ∀ id, id ≤ last.header.epochId → ∃ v e, n.apiEpoch (some (Api.showU64 id)) = .ok v ∧ Shows v e ∧
      Api.readU64 v.header.epochId = some id ∧
      (id ≠ 0 → ∃ p, n.store.epochs (id - 1) = some p ∧ Api.readHash v.header.preHash = some (cfg.digest (encode p))) := by
  obtain ⟨⟨last, hl, -, hall⟩, -⟩ := C35_chain_partial h
  refine ⟨last, hl, fun id hid => ?_⟩
  obtain ⟨e, he, hh, hp⟩ := hall id hid
  obtain ⟨v, hv, hs⟩ := ((C71_epoch n).1 (Api.showU64 id) id (writes_self _)).1 e he
  refine ⟨v, e, hv, hs, by rw [hs.epochId, hh], fun h0 => ?_⟩
  obtain ⟨p, hp1, hp2⟩ := hp h0
  exact ⟨p, hp1, by rw [hs.preHash, hp2]⟩

open Demo in
/-- The example node shows its second epoch, whichever way the height is written, and has no third one. -/
example : (n2.apiEpoch (some "0x2".toList)).toOption.map (fun v => (v.header.epochId, v.orderedTxHashes.length)) =
      some ("0000000000000002".toList, 1) ∧
    (n2.apiEpoch none).toOption = (n2.apiEpoch (some "0000000000000002".toList)).toOption ∧
    (n2.apiEpoch (some "3".toList)).toOption = none ∧ (n2.apiEpoch (some "x".toList)).toOption = none := by decide +kernel

/-! ### C72 -/

theorem insert_ok_spec {cr : MemCrypto} {v : MemView} {o : Bool} {tx : SignedTx} {p p' : MemPool} (g : p.cache.Good)
    (h : p.insert cr v o tx = (.ok (), p')) :
    (∀ r ∈ admissionRules cr v p tx, r.1) ∧ (∀ k, p'.cache.get k = if k = tx.txHash then some tx else p.cache.get k) := by
  rw [insert_unfold] at h
  rcases checks_spec cr v p tx with ⟨h1, h2⟩ | ⟨e, h1, -⟩
  · refine ⟨h2, ?_⟩
    have hn : p.cache.get tx.txHash = none := h2 (_, .dup tx.txHash) (by simp [admissionRules])
    rw [h1] at h
    simp only at h
    rcases cache_insert (b := false) g hn with ⟨_, h3, h4, h5⟩ | ⟨_, h3, -⟩
    · cases hx : p.cache.insert tx false with
      | mk r c =>
        rw [hx] at h h3 h4 h5
        simp only at h3 h4 h5
        subst h3
        simp only at h
        split at h
        · cases h; exact fun k => get_append g h4 (by rw [h5]) hn k
        · cases h
    · cases hx : p.cache.insert tx false with
      | mk r c =>
        rw [hx] at h h3
        simp only at h3
        subst h3
        cases h
  · rw [h1] at h; cases h

/-- The transaction `tx` was admitted by the node `n`, which became `n'`: it is in the pool under its hash, nothing else changed there, and
it passed the checks. -/
structure Admitted (cfg : NodeCfg) (n n' : Node) (tx : SignedTx) : Prop where
  pooled : ∀ k, n'.pool.cache.get k = if k = tx.txHash then some tx else n.pool.cache.get k
  new : n.pool.cache.get tx.txHash = none
  notStored : n.store.txs tx.txHash = none
  signature : cfg.sigOk tx.txHash tx.signature tx.pubkey = true
  hash : cfg.digest (encode tx.raw) = tx.txHash
  window : ∃ last, n.store.latest = some last ∧ last.header.chainId = tx.raw.chainId ∧ last.header.epochId ≤ tx.raw.timeout ∧
    tx.raw.timeout ≤ last.header.epochId + cfg.timeoutGap
  rest : n'.store = n.store ∧ n'.tries = n.tries ∧ n'.status = n.status

theorem apiInsert_ok {cfg : NodeCfg} {g : Genesis} {ok : Node → NodeOp → Prop} {n n' : Node} (hl : Lives cfg g ok n) {b : Bool}
    {tx : SignedTx} {txt txt' : List Char} (h : n.apiInsert cfg b tx txt = (.ok txt', n')) : txt' = txt ∧ Admitted cfg n n' tx := by
  obtain ⟨ops, hp⟩ := hl.pool
  have hg : n.pool.cache.Good := by rw [← hp]; exact after_good _ _ _ ops
  unfold Node.apiInsert at h
  split at h
  · cases h
  · rename_i p hi
    simp only [Prod.mk.injEq, Except.ok.injEq] at h
    obtain ⟨rfl, rfl⟩ := h
    refine ⟨rfl, ?_⟩
    obtain ⟨hr, hget⟩ := insert_ok_spec hg hi
    have r1 := hr (n.pool.cache.get tx.txHash = none, .dup tx.txHash) (by simp [admissionRules])
    have r2 := hr (cfg.mem.sigOk tx.txHash tx.signature tx.pubkey = true, .checkSig tx.txHash) (by simp [admissionRules])
    have r3 := hr (cfg.mem.rawHash tx.raw = tx.txHash, .checkHash tx.txHash (cfg.mem.rawHash tx.raw)) (by simp [admissionRules])
    have r4 := hr ((n.view cfg (fun _ => none) b).latest.isSome = true, .other "get_latest_epoch") (by simp [admissionRules])
    have r5 := hr (∀ c e, (n.view cfg (fun _ => none) b).latest = some (c, e) → c = tx.raw.chainId, .wrongChain tx.txHash) (by simp [admissionRules])
    have r6 := hr (∀ c e, (n.view cfg (fun _ => none) b).latest = some (c, e) → tx.raw.timeout ≤ e + (n.view cfg (fun _ => none) b).gap,
      .invalidTimeout tx.txHash) (by simp [admissionRules])
    have r7 := hr (∀ c e, (n.view cfg (fun _ => none) b).latest = some (c, e) → e ≤ tx.raw.timeout, .timeout tx.txHash tx.raw.timeout)
      (by simp [admissionRules])
    have r8 := hr ((n.view cfg (fun _ => none) b).stored tx.txHash ≠ .found, .committedTx tx.txHash) (by simp [admissionRules])
    refine ⟨hget, r1, ?_, r2, r3, ?_, rfl, rfl, rfl⟩
    · cases hs : n.store.txs tx.txHash with
      | none => rfl
      | some t => exact absurd (by simp [Node.view, hs]) r8
    · obtain ⟨-, last, hlast, -⟩ := hl.coherent
      have hv : (n.view cfg (fun _ => none) b).latest = some (last.header.chainId, last.header.epochId) := by simp [Node.view, hlast]
      exact ⟨last, hlast, r5 _ _ hv, r7 _ _ hv, r6 _ _ hv⟩

/-- **C72, signed submissions.**  In every lifetime of a node: if `sendTransferTransaction` or `sendDeployTransaction` succeeds, the pool now
holds a transaction made of exactly the submitted fields, it passed all the checks of admission, and the returned text is the submitted
hash, which is that transaction's hash. -/
theorem C72_send {cfg : NodeCfg} {g : Genesis} {ok : Node → NodeOp → Prop} {n n' : Node} (hl : Lives cfg g ok n) {b : Bool}
    {raw : Api.InputRaw} {sig : Api.InputSig} {txt : List Char} {act : Option Action}
    (hcase : (∃ a, act = Api.coverTransfer a ∧ n.sendTransfer cfg b raw a sig = (.ok txt, n')) ∨
      (∃ a, act = Api.coverDeploy a ∧ n.sendDeploy cfg b raw a sig = (.ok txt, n'))) :
    ∃ tx, Admitted cfg n n' tx ∧ txt = sig.txHash ∧ Api.readHash txt = some tx.txHash ∧ act = some tx.raw.action ∧
      Api.readHash raw.chainId = some tx.raw.chainId ∧ Api.readHash raw.nonce = some tx.raw.nonce ∧
      Api.readU64 raw.timeout = some tx.raw.timeout ∧ Api.readHash raw.feeAssetId = some tx.raw.fee.assetId ∧
      Api.readU64 raw.feeCycle = some tx.raw.fee.cycle ∧ Api.readBytes sig.pubkey = some tx.pubkey ∧
      Api.readBytes sig.signature = some tx.signature := by
  have hs : n.apiSend cfg b act raw sig = (.ok txt, n') := by
    rcases hcase with ⟨a, rfl, h⟩ | ⟨a, rfl, h⟩ <;> exact h
  unfold Node.apiSend at hs
  split at hs
  · cases hs
  · rename_i x
    split at hs
    · cases hs
    · rename_i tx htx
      obtain ⟨rfl, had⟩ := apiInsert_ok hl hs
      obtain ⟨h1, h2, h3, h4, h5, h6, h7, h8, h9⟩ := C62_fields_determine _ _ _ _ htx
      exact ⟨tx, had, rfl, h7, by rw [h1], h2, h3, h4, h5, h6, h8, h9⟩

theorem genSig_some {sg : Signer} {privkey : List Char} {h : Hash} {sig : Api.InputSig} (hs : Api.genSig sg privkey h.toHex = some sig) :
    ∃ sk pk, Api.readBytes privkey = some sk ∧ sg.pubkey sk = some pk ∧
      sig = ⟨h.toHex, Api.showBytes pk, Api.showBytes (sg.sign sk h)⟩ := by
  unfold Api.genSig at hs
  split at hs
  · cases hs
  · rename_i sk hsk
    split at hs
    · cases hs
    · rename_i pk hpk
      have hh : (Api.readBytes h.toHex).bind Hash.fromBytes = some h := by
        have : Api.readBytes h.toHex = some h.bytes := writes_asHex (writes_self _)
        rw [this]; exact Hash.fromBytes_bytes h
      rw [hh] at hs
      cases hs
      exact ⟨sk, pk, hsk, hpk, rfl⟩

theorem coverSigned_gen {act : Action} {raw : Api.InputRaw} {rawTx : RawTx} (hr : Api.coverRaw act raw = some rawTx) (h : Hash) (pk sg : Bytes) :
    Api.coverSigned act raw ⟨h.toHex, Api.showBytes pk, Api.showBytes sg⟩ = some ⟨rawTx, h, pk, sg⟩ := by
  have hb : ∀ b : Bytes, Api.readBytes (Api.showBytes b) = some b := fun b => writes_asHex (writes_self _)
  simp only [Api.coverSigned, hr, readHash_toHex, hb]
  rfl

/-- **C72, submissions with a private key.**  In every lifetime of a node: if `sendUnsafeTransferTransaction` or
`sendUnsafeDeployTransaction` succeeds, the pool now holds the transaction made of the submitted fields, with the public key of the
submitted private key and a signature made with it, and the returned text is its hash, the digest of its coding. -/
theorem C72_send_unsafe {cfg : NodeCfg} {g : Genesis} {ok : Node → NodeOp → Prop} {n n' : Node} (hl : Lives cfg g ok n) {b : Bool} {sg : Signer}
    {raw : Api.InputRaw} {privkey txt : List Char} {act : Option Action}
    (hcase : (∃ a, act = Api.coverTransfer a ∧ n.sendUnsafeTransfer cfg sg b raw a privkey = (.ok txt, n')) ∨
      (∃ a, act = Api.coverDeploy a ∧ n.sendUnsafeDeploy cfg sg b raw a privkey = (.ok txt, n'))) :
    ∃ tx sk, Admitted cfg n n' tx ∧ txt = tx.txHash.toHex ∧ act = some tx.raw.action ∧ Api.coverRaw tx.raw.action raw = some tx.raw ∧
      Api.readBytes privkey = some sk ∧ sg.pubkey sk = some tx.pubkey ∧ tx.signature = sg.sign sk tx.txHash := by
  have hs : n.apiSendUnsafe cfg sg b act raw privkey = (.ok txt, n') := by
    rcases hcase with ⟨a, rfl, h⟩ | ⟨a, rfl, h⟩ <;> exact h
  unfold Node.apiSendUnsafe at hs
  split at hs
  · cases hs
  · rename_i x
    split at hs
    · cases hs
    · rename_i rawTx hraw
      simp only at hs
      split at hs
      · cases hs
      · rename_i sig hsig
        obtain ⟨sk, pk, hsk, hpk, rfl⟩ := genSig_some hsig
        rw [coverSigned_gen hraw] at hs
        simp only at hs
        obtain ⟨rfl, had⟩ := apiInsert_ok hl hs
        have hact : rawTx.action = x := by
          have := coverSigned_gen hraw (cfg.digest (encode rawTx)) pk (sg.sign sk (cfg.digest (encode rawTx)))
          exact (C62_fields_determine _ _ _ _ this).1
        exact ⟨_, sk, had, rfl, by simp only [hact], by simp only [hact]; exact hraw, hsk, hpk, rfl⟩

/-- The node has room for the transaction and no reason to refuse it. -/
structure Welcome (cfg : NodeCfg) (n : Node) (raw : RawTx) : Prop where
  room : n.pool.cache.len < n.pool.poolSize
  slots : n.pool.slots < 4 * cfg.poolSize
  new : n.pool.cache.get (cfg.digest (encode raw)) = none
  notStored : n.store.txs (cfg.digest (encode raw)) = none
  window : ∀ last, n.store.latest = some last → last.header.chainId = raw.chainId ∧ last.header.epochId ≤ raw.timeout ∧
    raw.timeout ≤ last.header.epochId + cfg.timeoutGap

/-- **C72, submissions with a private key are accepted.**  If signatures made with a key verify under its public key, then a readable
submission with a valid private key of a transaction the node has no reason to refuse succeeds. -/
theorem C72_unsafe_accepted {cfg : NodeCfg} {g : Genesis} {ok : Node → NodeOp → Prop} {n : Node} (hl : Lives cfg g ok n) {sg : Signer}
    (hsg : ∀ sk pk h, sg.pubkey sk = some pk → cfg.sigOk h (sg.sign sk h) pk = true)
    {raw : Api.InputRaw} {privkey : List Char} {act : Action} {rawTx : RawTx} {sk pk : Bytes}
    (hraw : Api.coverRaw act raw = some rawTx) (hsk : Api.readBytes privkey = some sk) (hpk : sg.pubkey sk = some pk)
    (hw : Welcome cfg n rawTx) :
    (n.apiSendUnsafe cfg sg true (some act) raw privkey).1 = .ok (cfg.digest (encode rawTx)).toHex := by
  obtain ⟨ops, hp⟩ := hl.pool
  have hh : ∀ h : Hash, (Api.readBytes h.toHex).bind Hash.fromBytes = some h := by
    intro h
    have : Api.readBytes h.toHex = some h.bytes := writes_asHex (writes_self _)
    rw [this]; exact Hash.fromBytes_bytes h
  have hgen : Api.genSig sg privkey (cfg.digest (encode rawTx)).toHex = some ⟨(cfg.digest (encode rawTx)).toHex, Api.showBytes pk,
      Api.showBytes (sg.sign sk (cfg.digest (encode rawTx)))⟩ := by
    simp only [Api.genSig, hsk, hpk, hh]
  obtain ⟨-, last, hlast, -⟩ := hl.coherent
  obtain ⟨w1, w2, w3⟩ := hw.window last hlast
  have hv : (n.view cfg (fun _ => none) true).latest = some (last.header.chainId, last.header.epochId) := by simp [Node.view, hlast]
  have hins := (C23_admission_partial cfg.mem cfg.poolSize cfg.timeoutGap ops (n.view cfg (fun _ => none) true) false
    ⟨rawTx, cfg.digest (encode rawTx), pk, sg.sign sk (cfg.digest (encode rawTx))⟩ hp hw.slots (.inr rfl)).1.2 (by
      intro r hr
      simp only [admissionRules, List.mem_cons, List.not_mem_nil, or_false] at hr
      rcases hr with rfl | rfl | rfl | rfl | rfl | rfl | rfl | rfl | rfl | rfl
      · exact hw.room
      · exact hw.new
      · exact hsg _ _ _ hpk
      · rfl
      · rw [hv]; rfl
      · intro c e h; rw [hv] at h; cases h; exact w1
      · intro c e h; rw [hv] at h; cases h; exact w3
      · intro c e h; rw [hv] at h; cases h; exact w2
      · simp [Node.view, hw.notStored]
      · simp [Node.view, hw.notStored])
  simp only [Node.apiSendUnsafe, hraw, hgen, coverSigned_gen hraw, Node.apiInsert]
  split
  · rename_i e p hi
    rw [hi] at hins
    cases hins
  · rfl

namespace Demo

/-- A signature scheme for the examples: any non-empty text is a key, and is its own public key. -/
def nsigner : Signer := ⟨fun sk => if sk = [] then none else some sk, fun _ _ => []⟩

/-- The texts of a transfer of `amount` to user `r`, and of the rest of the transaction. -/
def ntransfer (r : UInt8) (amount : Nat) : Api.InputTransfer := ⟨Api.showBalance amount, token.toHex, (naddr r).toHex⟩
def nraw : Api.InputRaw := ⟨(hash 9).toHex, Api.showU64 10000, token.toHex, (hash 7).toHex, "0xA".toList⟩

/-- A submission with a key succeeds and answers the hash of the transaction; submitted again, it is refused. -/
example : ((n1.sendUnsafeTransfer ncfg nsigner true nraw (ntransfer 2 3) "01".toList).1.toOption =
      some (npay 1 2 3 7).txHash.toHex) ∧
    ((n1.sendUnsafeTransfer ncfg nsigner true nraw (ntransfer 2 3) "01".toList).2.sendUnsafeTransfer ncfg nsigner true nraw (ntransfer 2 3)
      "01".toList).1.toOption = none ∧
    (n1.sendUnsafeTransfer ncfg nsigner true nraw (ntransfer 2 3) "".toList).1.toOption = none := by decide +kernel

/-- A signed submission succeeds; with another hash it is refused. -/
example : ((n1.sendTransfer ncfg true nraw (ntransfer 2 3) ⟨(npay 1 2 3 7).txHash.toHex, "01".toList, [] ⟩).1.toOption =
      some (npay 1 2 3 7).txHash.toHex) ∧
    (n1.sendTransfer ncfg true nraw (ntransfer 2 3) ⟨(npay 1 2 4 7).txHash.toHex, "01".toList, [] ⟩).1.toOption = none := by decide +kernel

/-- The hypotheses of `C72_unsafe_accepted` hold for this submission. -/
example : (∃ act, Api.coverTransfer (ntransfer 2 3) = some act ∧ Api.coverRaw act nraw = some (npay 1 2 3 7).raw) ∧
    (∀ sk pk h, nsigner.pubkey sk = some pk → ncfg.sigOk h (nsigner.sign sk h) pk = true) := by
  refine ⟨⟨(npay 1 2 3 7).raw.action, by decide +kernel⟩, fun _ _ _ _ => rfl⟩

example : Welcome ncfg n1 (npay 1 2 3 7).raw where
  room := by decide +kernel
  slots := by decide +kernel
  new := by
    have h : (n1.pool.cache.get (ncfg.digest (encode (npay 1 2 3 7).raw))).isNone = true := by decide +kernel
    exact Option.isNone_iff_eq_none.1 h
  notStored := by
    have h : (n1.store.txs (ncfg.digest (encode (npay 1 2 3 7).raw))).isNone = true := by decide +kernel
    exact Option.isNone_iff_eq_none.1 h
  window := by
    have h : n1.store.latest.all (fun l => decide (l.header.chainId = (npay 1 2 3 7).raw.chainId ∧
        l.header.epochId ≤ (npay 1 2 3 7).raw.timeout ∧ (npay 1 2 3 7).raw.timeout ≤ l.header.epochId + ncfg.timeoutGap)) = true := by
      decide +kernel
    intro last hl
    rw [hl] at h
    exact of_decide_eq_true h

end Demo

/-! ### C73 -/

/-- **C73 is false, for every node**: a balance query for a height that is not stored does not fail, it answers zero. -/
theorem C73_refuted (cfg : NodeCfg) (n : Node) (a : Address) (asset : AssetID) (id : UInt64) (h : n.store.epochs id = none) :
    (n.apiGetBalance cfg a.toHex asset.toHex (some (Api.showU64 id))).toOption = some (Api.showBalance 0) := by
  have hr : Api.readOptU64 (some (Api.showU64 id)) = some (some id) := by
    simp only [Api.readOptU64, readU64_show, Option.map_some]
  simp only [Node.apiGetBalance, hr, readAddress_toHex, readHash_toHex, Node.queryBalance, Node.queryEpoch, h]
  rfl

/-- The same when the state root of a stored epoch cannot be opened. -/
theorem C73_refuted_root (cfg : NodeCfg) (n : Node) (a : Address) (asset : AssetID) (id : UInt64) (e : Epoch) (h : n.store.epochs id = some e)
    (he : e.header.stateRoot ≠ cfg.emptyHash) (hr : n.tries e.header.stateRoot = none) :
    (n.apiGetBalance cfg a.toHex asset.toHex (some (Api.showU64 id))).toOption = some (Api.showBalance 0) := by
  have hrd : Api.readOptU64 (some (Api.showU64 id)) = some (some id) := by
    simp only [Api.readOptU64, readU64_show, Option.map_some]
  have hf : fromRoot (cfg.env e.header.epochId 0 (.user e.header.proposer)) n.tries e.header.stateRoot = none := by
    unfold fromRoot
    rw [if_neg (by exact he), hr]; rfl
  simp only [Node.apiGetBalance, hrd, readAddress_toHex, readHash_toHex, Node.queryBalance, Node.queryEpoch, h, hf]
  rfl

open Demo in
/-- A concrete case: user 1 has 95 of the token at height 2; asked for height 9, the API answers the same way as for an account with
nothing. -/
theorem C73_refuted_witness : Lives ncfg ngenesis (fun _ _ => True) n2 ∧ n2.store.epochs 9 = none ∧
    (n2.apiGetBalance ncfg (naddr 1).toHex token.toHex (some "9".toList)).toOption = some "00".toList ∧
    (n2.apiGetBalance ncfg (naddr 1).toHex token.toHex none).toOption = some "5a".toList := by
  refine ⟨?_, by decide +kernel⟩
  have h1 : Lives ncfg ngenesis (fun _ _ => True) n1 := blockOps_lives (n0_lives _) _ (fun _ _ => trivial)
  exact blockOps_lives h1 _ (fun _ _ => trivial)

/-- **C73, the true part.**  Asked for a height under which an epoch is stored whose state root can be opened, the answer is the balance in
that state; unreadable arguments give an error. -/
theorem C73_partial (cfg : NodeCfg) (n : Node) (a : Address) (asset : AssetID) (q : Option UInt64) {e : Epoch} {w : World}
    (h : n.queryEpoch q = some e) (hw : Resolves cfg n.tries e.header.stateRoot w) :
    (n.apiGetBalance cfg a.toHex asset.toHex (q.map Api.showU64)).toOption = some (Api.showBalance (balance w a asset)) ∧
    (∀ at' as' qt, Api.readAddress at' = none ∨ Api.readHash as' = none ∨ Api.readOptU64 qt = none →
      n.apiGetBalance cfg at' as' qt = .error .badInput) := by
  constructor
  · have hr : Api.readOptU64 (q.map Api.showU64) = some q := by
      cases q with
      | none => rfl
      | some id => simp only [Option.map_some, Api.readOptU64, readU64_show]
    have hb := apiBalance_resolves (cfg := cfg) (n := n) (w := w) (a := a) (id := asset) h hw
    simp only [Node.apiGetBalance, hr, readAddress_toHex, readHash_toHex]
    unfold Node.apiBalance at hb
    cases hq : n.queryBalance cfg a asset q with
    | none => rw [hq] at hb; simp only [Option.getD_none] at hb; rw [← hb]; rfl
    | some x => rw [hq] at hb; simp only [Option.getD_some] at hb; rw [← hb]; rfl
  · intro at' as' qt h
    unfold Node.apiGetBalance
    rcases h with h | h | h
    all_goals
      split
      · rename_i h1 h2 h3
        first | (rw [h] at h1; cases h1) | (rw [h] at h2; cases h2) | (rw [h] at h3; cases h3)
      · rfl

end Huobi
