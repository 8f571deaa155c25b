import Verif.Props.Finality3
import Verif.Props.Server
/-
C110: what a node has of the chain is complete.
-/
namespace Huobi

/-! ### Specification -/

/-- The transaction with this hash is stored under it. -/
def Store.HasTx (s : Store) (h : Hash) : Prop := ∃ t, s.txs h = some t ∧ t.txHash = h

/-- A receipt of the transaction with this hash is stored under it. -/
def Store.HasReceipt (s : Store) (h : Hash) : Prop := ∃ r, s.receipts h = some r ∧ r.txHash = h

/-- The transactions the epoch orders are stored, with their receipts. -/
def Store.HasBody (s : Store) (e : Epoch) : Prop := ∀ h ∈ e.orderedTxHashes, s.HasTx h ∧ s.HasReceipt h

/-- Nothing is missing: whatever epoch can be found by its height, by a hash or as the latest, its transactions and receipts are there too. -/
structure Store.Whole (s : Store) : Prop where
  byHeight : ∀ id e, s.epochs id = some e → s.HasBody e
  byHash : ∀ h id, s.byHash h = some id → ∃ e, s.epochs id = some e
  latest : ∀ e, s.latest = some e → s.HasBody e ∧ ∃ e', s.epochs e.header.epochId = some e'

/-- The peers of synchronisations give, for an epoch they give, transactions with the hashes it orders. -/
def BodiesMatch (evs : List Event) : Prop := ∀ t io msg, Event.callSync t io msg ∈ evs → ∀ k id e txs, io.pullEpoch k id = some e →
  io.pullTxs k e.orderedTxHashes = some txs → ∀ h ∈ e.orderedTxHashes, ∃ x ∈ txs, x.txHash = h

/-! ### Proofs -/

/-- Nothing gets lost. -/
structure Store.Le (s s' : Store) : Prop where
  tx : ∀ h, s.HasTx h → s'.HasTx h
  receipt : ∀ h, s.HasReceipt h → s'.HasReceipt h
  epoch : ∀ id, (s.epochs id).isSome → (s'.epochs id).isSome

theorem Store.Le.refl (s : Store) : s.Le s := ⟨fun _ h => h, fun _ h => h, fun _ h => h⟩
theorem Store.Le.trans {a b c : Store} (h : a.Le b) (h' : b.Le c) : a.Le c :=
  ⟨fun x y => h'.tx x (h.tx x y), fun x y => h'.receipt x (h.receipt x y), fun x y => h'.epoch x (h.epoch x y)⟩
theorem Store.Le.body {s s' : Store} (h : s.Le s') {e : Epoch} (hb : s.HasBody e) : s'.HasBody e := fun x hx => ⟨h.tx x (hb x hx).1, h.receipt x (hb x hx).2⟩

theorem insertAll_has {V : Type} (key : V → Hash) (l : List V) (m : Hash → Option V) (k : Hash)
    (h : (∃ v, m k = some v ∧ key v = k) ∨ ∃ v ∈ l, key v = k) : ∃ v, insertAll key l m k = some v ∧ key v = k := by
  unfold insertAll
  cases hf : List.find? (fun v => decide (key v = k)) l.reverse with
  | some v => exact ⟨v, rfl, by simpa using List.find?_some hf⟩
  | none =>
    rcases h with ⟨v, h1, h2⟩ | ⟨v, h1, h2⟩
    · exact ⟨v, h1, h2⟩
    · exact absurd (List.find?_eq_none.1 hf v (by simpa using h1)) (by simpa using h2)

theorem le_write (s : Store) (w : Write) : s.Le (s.write w) := by
  cases w with
  | txs l => exact ⟨fun h hh => insertAll_has SignedTx.txHash l s.txs h (.inl hh), fun _ h => h, fun _ h => h⟩
  | receipts l => exact ⟨fun _ h => h, fun h hh => insertAll_has Receipt.txHash l s.receipts h (.inl hh), fun _ h => h⟩
  | epoch id e =>
    refine ⟨fun _ h => h, fun _ h => h, fun i hi => ?_⟩
    simp only [Store.write]
    split
    · rfl
    · exact hi
  | hashEpoch h id => exact ⟨fun _ h => h, fun _ h => h, fun _ h => h⟩
  | latestEpoch e => exact ⟨fun _ h => h, fun _ h => h, fun _ h => h⟩
  | latestProof p => exact ⟨fun _ h => h, fun _ h => h, fun _ h => h⟩

/-- Data about which epochs are found by what stays. -/
theorem Store.Whole.grow {s s' : Store} (h : s.Whole) (hl : s.Le s') (h1 : s'.epochs = s.epochs) (h2 : s'.byHash = s.byHash) (h3 : s'.latest = s.latest) : s'.Whole := by
  refine ⟨fun id e he => ?_, fun k id hk => ?_, fun e he => ?_⟩
  · rw [h1] at he; exact hl.body (h.byHeight id e he)
  · rw [h2] at hk; rw [h1]; exact h.byHash k id hk
  · rw [h3] at he; rw [h1]; exact ⟨hl.body (h.latest e he).1, (h.latest e he).2⟩

theorem Store.Whole.epochWrite {s : Store} (h : s.Whole) {e : Epoch} (hb : s.HasBody e) : (s.write (.epoch ⟨e.header.epochId⟩ e)).Whole := by
  have hl := le_write s (.epoch ⟨e.header.epochId⟩ e)
  refine ⟨fun id e' he => ?_, fun k id hk => ?_, fun e' he => ?_⟩
  · simp only [Store.write] at he
    split at he
    · injection he with he; subst he; exact hl.body hb
    · exact hl.body (h.byHeight id e' he)
  · obtain ⟨x, hx⟩ := h.byHash k id hk
    exact Option.isSome_iff_exists.1 (hl.epoch id (by rw [hx]; rfl))
  · obtain ⟨h1, x, hx⟩ := h.latest e' he
    exact ⟨hl.body h1, Option.isSome_iff_exists.1 (hl.epoch _ (by rw [hx]; rfl))⟩

theorem Store.Whole.hashWrite {s : Store} (h : s.Whole) {k : Hash} {id : EpochId} (hs : (s.epochs id.id).isSome) : (s.write (.hashEpoch k id)).Whole := by
  refine ⟨h.byHeight, fun k' i hk => ?_, h.latest⟩
  simp only [Store.write] at hk
  split at hk
  · injection hk with hk; subst hk; exact Option.isSome_iff_exists.1 hs
  · exact h.byHash k' i hk

theorem Store.Whole.latestWrite {s : Store} (h : s.Whole) {e : Epoch} (hb : s.HasBody e) (hs : (s.epochs e.header.epochId).isSome) : (s.write (.latestEpoch e)).Whole := by
  refine ⟨h.byHeight, h.byHash, fun e' he => ?_⟩
  injection he with he
  subst he
  exact ⟨hb, Option.isSome_iff_exists.1 hs⟩

/-- Run from a moment at which the store is at least `s` on, the program keeps the store whole and loses nothing. -/
def Prog.Full : Store → Prog → Prop
  | _, .ret _ => True
  | s, .act f k => ∀ n, n.Keyed → n.store.Whole → s.Le n.store → (f n).store.Whole ∧ n.store.Le (f n).store ∧ (k n).Full (f n).store
  | s, .lock _ a b => a.Full s ∧ b.Full s
  | s, .unlock _ k => k.Full s

theorem Prog.Full.mono {p : Prog} : ∀ {s s' : Store}, p.Full s → s.Le s' → p.Full s' := by
  induction p with
  | ret r => exact fun _ _ => trivial
  | act f k ih => exact fun h hl n h1 h2 h3 => h n h1 h2 (hl.trans h3)
  | lock l a b iha ihb => exact fun h hl => ⟨iha h.1 hl, ihb h.2 hl⟩
  | unlock l k ih => exact fun h hl => ih (show k.Full _ from h) hl

theorem Prog.Pooly.full {p : Prog} (h : p.Pooly) : ∀ s, p.Full s := by
  induction h with
  | ret => exact fun _ => trivial
  | act h1 _ ih => exact fun s n _ h2 _ => ⟨(h1 n).store ▸ h2, (h1 n).store ▸ .refl _, ih n _⟩

theorem full_endCommit (s : Store) (r : Except CErr UInt64) : (Prog.endCommit r).Full s := trivial
theorem full_endSync (s : Store) (r : Except CErr (Option UInt64)) : (Prog.endSync r).Full s := trivial

theorem full_write {s : Store} {ok : Bool} {w : Node → Node} {fail next : Prog} (hf : ∀ s, fail.Full s)
    (hw : ∀ n, n.Keyed → n.store.Whole → s.Le n.store → (w n).store.Whole ∧ n.store.Le (w n).store ∧ next.Full (w n).store) :
    (Prog.write ok w fail next).Full s := by
  intro n h1 h2 h3
  cases ok
  · exact ⟨h2, .refl _, hf _⟩
  · exact hw n h1 h2 h3

theorem full_updateStatus {cfg : NodeCfg} {io : SaveIo} {root : MerkleRoot} {epochId : UInt64} {epoch : Epoch} {proof : Proof} {resp : ExecResp}
    {txs : List SignedTx} {fail next : Prog} (hf : ∀ s, fail.Full s) (hn : ∀ s, next.Full s) (ht : ∀ h ∈ epoch.orderedTxHashes, ∃ x ∈ txs, x.txHash = h)
    (hr : resp.receipts.map (·.txHash) = txs.map (·.txHash)) (s : Store) :
    (Prog.updateStatus cfg io root epochId epoch proof resp txs fail next).Full s := by
  refine full_write hf fun n _ h2 _ => ?_
  have l1 := le_write n.store (.receipts resp.receipts)
  refine ⟨h2.grow l1 rfl rfl rfl, l1, ?_⟩
  have r1 : ∀ h ∈ epoch.orderedTxHashes, (n.store.write (.receipts resp.receipts)).HasReceipt h := by
    intro h hh
    obtain ⟨x, hx, e⟩ := ht h hh
    have hm : x.txHash ∈ resp.receipts.map (·.txHash) := by rw [hr]; exact List.mem_map_of_mem hx
    obtain ⟨r, h3, h4⟩ := List.mem_map.1 hm
    exact insertAll_has Receipt.txHash resp.receipts n.store.receipts h (.inr ⟨r, h3, h4.trans e⟩)
  show Prog.Full (n.store.write (.receipts resp.receipts)) _
  generalize n.store.write (.receipts resp.receipts) = s1 at r1
  refine full_write hf fun n _ h2 h3 => ?_
  have l2 := le_write n.store (.txs txs)
  refine ⟨h2.grow l2 rfl rfl rfl, l2, ?_⟩
  have b2 : (n.store.write (.txs txs)).HasBody epoch := fun h hh =>
    ⟨insertAll_has SignedTx.txHash txs n.store.txs h (.inr (ht h hh)), l2.receipt h (h3.receipt h (r1 h hh))⟩
  show Prog.Full (n.store.write (.txs txs)) _
  generalize n.store.write (.txs txs) = s2 at b2
  refine full_write hf fun n _ h2 h3 => ?_
  have l3 := le_write n.store (.epoch ⟨epoch.header.epochId⟩ epoch)
  have b3 := h3.body b2
  refine ⟨h2.epochWrite b3, l3, ?_⟩
  have e3 : ((n.store.write (.epoch ⟨epoch.header.epochId⟩ epoch)).epochs epoch.header.epochId).isSome := by simp [Store.write]
  replace b3 := l3.body b3
  show Prog.Full (n.store.write (.epoch ⟨epoch.header.epochId⟩ epoch)) _
  generalize n.store.write (.epoch ⟨epoch.header.epochId⟩ epoch) = s3 at b3 e3
  refine full_write hf fun n _ h2 h3 => ?_
  refine ⟨h2.hashWrite (h3.epoch _ e3), le_write n.store (.hashEpoch (cfg.digest (pbEncode epoch.header)) ⟨epoch.header.epochId⟩), ?_⟩
  refine full_write hf fun m _ h4 h5 => ?_
  have l4 := h3.trans ((le_write n.store (.hashEpoch (cfg.digest (pbEncode epoch.header)) ⟨epoch.header.epochId⟩)).trans h5)
  refine ⟨h4.latestWrite (l4.body b3) (l4.epoch _ e3), le_write m.store (.latestEpoch epoch), ?_⟩
  exact fun k _ h6 _ => ⟨h6, .refl _, hn _⟩

theorem saveProof_whole {cfg : NodeCfg} {io : SaveIo} {p : Proof} {n : Node} (h : n.store.Whole) :
    (n.saveProof cfg io p).2.store.Whole ∧ n.store.Le (n.saveProof cfg io p).2.store := by
  unfold Node.saveProof
  split
  · exact ⟨h.grow (le_write n.store (.latestProof p)) rfl rfl rfl, le_write n.store (.latestProof p)⟩
  · exact ⟨h, .refl _⟩

theorem exec_store' (cfg : NodeCfg) (root : MerkleRoot) (id : UInt64) (cb : Address) (txs : List SignedTx) (n : Node) :
    (n.exec cfg root id cb txs).2.store = n.store := by
  unfold Node.exec
  generalize runBlock (cfg.env id n.status.cyclesPrice cb) n.tries root txs = x
  obtain ⟨a, db⟩ := x
  cases a with
  | none => rfl
  | some a =>
    cases a with
    | error f => cases f <;> rfl
    | ok resp => rfl

theorem getFull_covers {n : Node} (hk : n.Keyed) {L : List Hash} {txs : List SignedTx} (h : n.pool.getFullTxs L = .ok txs) : ∀ k ∈ L, ∃ x ∈ txs, x.txHash = k := by
  unfold MemPool.getFullTxs at h
  simp only at h
  split at h
  · cases h
  rename_i hl
  injection h with h
  have hall := (filterMap_full n.pool.lookup L).1 (by omega)
  intro k hm
  obtain ⟨t, ht⟩ := Option.isSome_iff_exists.1 (hall k hm)
  exact ⟨t, by rw [← h]; exact List.mem_filterMap.2 ⟨k, hm, ht⟩, hk.lookup ht⟩

theorem full_commit (cfg : NodeCfg) (io : CommitIo) (id : UInt64) (pill : Pill) (proof : OverlordProof) (s : Store) : (Prog.commit cfg io id pill proof).Full s := by
  refine ⟨?_, trivial⟩
  split
  · exact full_endCommit _ _
  intro n _ hw _
  obtain ⟨w1, l1⟩ := saveProof_whole (cfg := cfg) (io := io.save) (p := ‹Proof›) hw
  refine ⟨w1, l1, ?_⟩
  beta_reduce
  split
  · exact full_endCommit _ _
  split
  · exact full_endCommit _ _
  intro n hk hw _
  refine ⟨hw, .refl _, ?_⟩
  beta_reduce
  split
  · exact full_endCommit _ _
  rename_i txs htx
  have ht := getFull_covers hk htx
  intro n1 _ hw _
  refine ⟨hw, .refl _, fun n0 _ hw _ => ⟨hw, .refl _, fun n2 _ hw _ => ?_⟩⟩
  rw [exec_store']
  refine ⟨hw, .refl _, ?_⟩
  beta_reduce
  split
  · exact full_endCommit _ _
  · rename_i resp hresp
    exact full_updateStatus (fun _ => full_endCommit _ _) (fun _ => full_endCommit _ _) ht (nodeExec_hashes hresp) _

theorem full_syncLoop {cfg : NodeCfg} {io : SyncIo} {next : Prog} (hn : ∀ s, next.Full s)
    (hm : ∀ k id e txs, io.pullEpoch k id = some e → io.pullTxs k e.orderedTxHashes = some txs → ∀ h ∈ e.orderedTxHashes, ∃ x ∈ txs, x.txHash = h)
    (ids : List UInt64) : ∀ k h r s, (Prog.syncLoop cfg io next k ids h r).Full s := by
  induction ids with
  | nil => exact fun _ _ _ => hn
  | cons id ids ih =>
    intro k h r s
    unfold Prog.syncLoop Prog.syncOne
    split
    · exact full_endSync _ _
    rename_i e he
    split
    · exact full_endSync _ _
    intro n _ hw _
    obtain ⟨w1, l1⟩ := saveProof_whole (cfg := cfg) (io := io.save k) (p := e.header.proof) hw
    refine ⟨w1, l1, ?_⟩
    beta_reduce
    split
    · exact full_endSync _ _
    split
    · exact full_endSync _ _
    rename_i txs htx
    intro n _ hw _
    rw [exec_store']
    refine ⟨hw, .refl _, ?_⟩
    beta_reduce
    split
    · exact full_endSync _ _
    · rename_i resp hresp
      exact full_updateStatus (fun _ => full_endSync _ _) (fun s => ih _ _ _ s) (hm k id e txs he htx) (nodeExec_hashes hresp) _

theorem full_sync (cfg : NodeCfg) (io : SyncIo) (msg : Bytes)
    (hm : ∀ k id e txs, io.pullEpoch k id = some e → io.pullTxs k e.orderedTxHashes = some txs → ∀ h ∈ e.orderedTxHashes, ∃ x ∈ txs, x.txHash = h)
    (s : Store) : (Prog.sync cfg io msg).Full s := by
  refine ⟨?_, trivial⟩
  split
  · trivial
  intro n _ hw _
  refine ⟨hw, .refl _, ?_⟩
  beta_reduce
  split
  · trivial
  refine ⟨fun n _ hw _ => ⟨hw, .refl _, ?_⟩, trivial⟩
  beta_reduce
  split
  · exact full_endSync _ _
  · exact full_syncLoop (fun _ => full_endSync _ _) hm _ _ _ _ _

/-- The store is whole, and every task keeps it so. -/
structure Conf.Whole (c : Conf) : Prop where
  store : c.node.store.Whole
  tasks : ∀ t p, c.tasks t = some p → p.Full c.node.store

theorem whole_start {c : Conf} (h : c.Whole) (t : Nat) {p : Prog} (hp : ∀ s, p.Full s) : (c.start t p).Whole ∧ c.node.store.Le (c.start t p).node.store := by
  unfold Conf.start
  split
  · refine ⟨⟨h.store, fun t' q hq => ?_⟩, .refl _⟩
    by_cases e : t' = t
    · subst e; simp only [Conf.setTask, if_true, Option.some.injEq] at hq; subst hq; exact hp _
    · simp only [Conf.setTask, if_neg e] at hq; exact h.tasks t' q hq
  · exact ⟨h, .refl _⟩

theorem whole_step {cfg : NodeCfg} {c : Conf} (h : c.Whole) (hk : c.node.Keyed) {e : Event} (he : BodiesMatch [e]) :
    (c.step cfg e).Whole ∧ c.node.store.Le (c.step cfg e).node.store := by
  cases e with
  | callCommit t io id pill proof => exact whole_start h t (full_commit cfg io id pill proof)
  | callSync t io msg => exact whole_start h t (full_sync cfg io msg (he t io msg (List.mem_singleton.2 rfl)))
  | callInsert t o b tx => exact whole_start h t (pooly_insert ..).full
  | callPropose t now id => exact whole_start h t (pooly_propose ..).full
  | callCheck t p1 p2 hash pill => exact whole_start h t (pooly_check ..).full
  | run t =>
    have set {c' : Conf} {q : Option Prog} (hn : c'.node = c.node) (ht : c'.tasks = c.tasks) (hq : ∀ p, q = some p → p.Full c.node.store) :
        (c'.setTask t q).Whole ∧ c.node.store.Le (c'.setTask t q).node.store := by
      refine ⟨⟨by rw [show (c'.setTask t q).node = c.node from hn]; exact h.store, fun t' p hp => ?_⟩, by rw [show (c'.setTask t q).node = c.node from hn]; exact .refl _⟩
      rw [show (c'.setTask t q).node = c.node from hn]
      by_cases e : t' = t
      · subst e; simp only [Conf.setTask, if_true] at hp; exact hq p hp
      · simp only [Conf.setTask, if_neg e, ht] at hp; exact h.tasks t' p hp
    simp only [Conf.step]
    split
    · exact ⟨h, .refl _⟩
    · exact set rfl rfl (fun p hp => by cases hp)
    · rename_i f k hq
      obtain ⟨h1, h2, h3⟩ := h.tasks t _ hq c.node hk h.store (.refl _)
      refine ⟨⟨h1, fun t' p hp => ?_⟩, h2⟩
      by_cases e : t' = t
      · subst e; simp only [Conf.setTask, if_true, Option.some.injEq] at hp; subst hp; exact h3
      · simp only [Conf.setTask, if_neg e] at hp; exact (h.tasks t' p hp).mono h2
    · rename_i l a b hq
      have hab := h.tasks t _ hq
      split
      · exact set rfl rfl (fun p hp => by cases hp; exact hab.1)
      · exact set rfl rfl (fun p hp => by cases hp; exact hab.2)
    · rename_i l k hq
      exact set rfl rfl (fun p hp => by cases hp; exact (show (Prog.unlock l k).Full _ from h.tasks t _ hq))

theorem whole_after {cfg : NodeCfg} {n0 : Node} (hc : CInv (fun _ => True) (fun _ => True) n0) (h0 : n0.store.Whole) (pre post : List Event)
    (he : BodiesMatch (pre ++ post)) : (Conf.after cfg n0 (pre ++ post)).node.store.Whole ∧
      (Conf.after cfg n0 pre).node.store.Le (Conf.after cfg n0 (pre ++ post)).node.store := by
  have keyed (l : List Event) : (Conf.after cfg n0 l).node.Keyed := (hc.after (closed_true cfg) fun e _ => brings_true cfg e).keyed
  have snoc (l : List Event) (e : Event) : Conf.after cfg n0 (l ++ [e]) = (Conf.after cfg n0 l).step cfg e := by
    simp only [Conf.after, List.foldl_append, List.foldl_cons, List.foldl_nil]
  have go : ∀ post pre : List Event, (Conf.after cfg n0 pre).Whole → BodiesMatch post →
      (Conf.after cfg n0 (pre ++ post)).Whole ∧ (Conf.after cfg n0 pre).node.store.Le (Conf.after cfg n0 (pre ++ post)).node.store := by
    intro post
    induction post with
    | nil => intro pre h _; rw [List.append_nil]; exact ⟨h, .refl _⟩
    | cons e post ih =>
      intro pre h hb
      obtain ⟨h1, h2⟩ := whole_step (cfg := cfg) h (keyed pre) (e := e) (fun t io msg hm => hb t io msg (by rw [List.mem_singleton.1 hm]; exact List.mem_cons_self ..))
      rw [← snoc] at h1 h2
      obtain ⟨h3, h4⟩ := ih (pre ++ [e]) h1 (fun t io msg hm => hb t io msg (List.mem_cons_of_mem _ hm))
      rw [List.append_assoc] at h3 h4
      exact ⟨h3, h2.trans h4⟩
  have hpre : (Conf.after cfg n0 pre).Whole := by
    have := (go pre [] ⟨h0, fun t p hp => by cases hp⟩ (fun t io msg hm => he t io msg (List.mem_append_left _ hm))).1
    exact this
  obtain ⟨h1, h2⟩ := go post pre hpre (fun t io msg hm => he t io msg (List.mem_append_right _ hm))
  exact ⟨h1.store, h2⟩

theorem whole_init {cfg : NodeCfg} {g : Genesis} {s s' : Store} {t t' : StateDB} (h : s.Whole) (hi : handleInit cfg g s t = some (s', t')) : s'.Whole ∧ s.Le s' := by
  unfold handleInit at hi
  split at hi
  · injection hi with hi; injection hi with hi _; subst hi; exact ⟨h, .refl _⟩
  split at hi
  · rename_i root tr _
    injection hi with hi
    injection hi with hi _
    subst hi
    generalize he : cfg.genesisEpoch g.timestamp root = e
    have hnil : e.orderedTxHashes = [] := by rw [← he]; rfl
    have hb (s : Store) : s.HasBody e := fun x hx => by rw [hnil] at hx; cases hx
    have w1 := h.epochWrite (hb s)
    have l1 := le_write s (.epoch ⟨e.header.epochId⟩ e)
    have s1 : ((s.write (.epoch ⟨e.header.epochId⟩ e)).epochs e.header.epochId).isSome := by simp [Store.write]
    have w2 := w1.hashWrite (k := cfg.digest (pbEncode e.header)) (id := ⟨e.header.epochId⟩) s1
    have w3 := w2.latestWrite (hb _) s1
    exact ⟨w3.grow (le_write _ (.latestProof e.header.proof)) rfl rfl rfl, l1.trans ((le_write _ (.hashEpoch (cfg.digest (pbEncode e.header)) ⟨e.header.epochId⟩)).trans ((le_write _ (.latestEpoch e)).trans (le_write _ (.latestProof e.header.proof))))⟩
  · cases hi

theorem whole_empty : Store.empty.Whole := ⟨fun _ _ h => by (cases h), fun _ _ h => by (cases h), fun _ h => by (cases h)⟩

theorem CHistory.whole {cfg : NodeCfg} {g : Genesis} {ok : Node → List Event → Prop} (ho : ∀ n evs, ok n evs → BodiesMatch evs) {n : Node} {older : List Done}
    (h : CHistory cfg g ok n older) : n.store.Whole := by
  induction h with
  | init evs h1 h2 hev =>
    obtain ⟨e, -, hs, -⟩ := startNode_some h2
    exact (whole_after (CStart.init (ok := ok) h1 h2).blank.2 (hs ▸ (whole_init whole_empty h1).1) [] evs (ho _ _ hev)).1
  | restart evs hh h1 h2 hev ih =>
    obtain ⟨e, -, hs, -⟩ := startNode_some h2
    exact (whole_after (CStart.restart hh h1 h2).blank.2 (hs ▸ (whole_init ih h1).1) [] evs (ho _ _ hev)).1

/-- **C110 (partial: peers give transactions with the hashes they are asked for; see `C110_refuted`).**  At every moment of a node's lifetime, in the
middle of whatever calls overlap, and after its processes are killed at any moment: every epoch that can be found, by height, by hash or as the latest,
comes with its transactions and their receipts. -/
theorem C110_partial {cfg : NodeCfg} {g : Genesis} {n : Node} {older : List Done} (h : CHistory cfg g (fun _ evs => BodiesMatch evs) n older) : n.store.Whole :=
  h.whole fun _ _ h => h

theorem CStart.whole {cfg : NodeCfg} {g : Genesis} {ok : Node → List Event → Prop} (ho : ∀ n evs, ok n evs → BodiesMatch evs) {n0 : Node} {older : List Done}
    (h : CStart cfg g ok n0 older) : n0.store.Whole := by
  cases h with
  | init h1 h2 =>
    obtain ⟨e, -, hs, -⟩ := startNode_some h2
    exact hs ▸ (whole_init whole_empty h1).1
  | restart hh h1 h2 =>
    obtain ⟨e, -, hs, -⟩ := startNode_some h2
    exact hs ▸ (whole_init (hh.whole ho) h1).1

theorem CLater.le {cfg : NodeCfg} {g : Genesis} {ok : Node → List Event → Prop} (ho : ∀ n evs, ok n evs → BodiesMatch evs) {n m : Node}
    (h : CLater cfg g ok n m) : n.store.Le m.store := by
  induction h with
  | same pre post hs hev e => rw [e]; exact (whole_after hs.blank.2 (hs.whole ho) pre post (ho _ _ hev)).2
  | restart evs hm h1 h2 hev ih =>
    obtain ⟨older, hh⟩ := hm.history
    obtain ⟨e, -, hs, -⟩ := startNode_some h2
    have hi := whole_init (hh.whole ho) h1
    have h3 := whole_after (cfg := cfg) (CStart.restart hh h1 h2).blank.2 (hs ▸ hi.1) [] evs (ho _ _ hev)
    have h4 := h3.2
    rw [show (Conf.after cfg _ []).node.store = _ from hs] at h4
    exact ih.trans (hi.2.trans h4)

theorem forall2_of_bodies {s : Store} : ∀ {L : List Hash}, (∀ h ∈ L, s.HasTx h) → ∃ txs : List SignedTx, List.Forall₂ (fun h tx => s.txs h = some tx) L txs ∧ txs.map (·.txHash) = L
  | [], _ => ⟨[], .nil, rfl⟩
  | h :: L, hh => by
    obtain ⟨t, h1, h2⟩ := hh h (List.mem_cons_self ..)
    obtain ⟨txs, h3, h4⟩ := forall2_of_bodies (L := L) fun x hx => hh x (List.mem_cons_of_mem _ hx)
    exact ⟨t :: txs, .cons h1 h3, by rw [List.map_cons, h2, h4]⟩

/-- **C110, as peers see it (partial, as `C110_partial`).**  Whoever was given an epoch by a node, at any moment, is given its transactions whenever he
asks for them from then on: at every later moment of the node's lifetime, whatever calls overlap then, also after restarts. -/
theorem C110_served_partial {cfg : NodeCfg} {g : Genesis} {n m : Node} {older : List Done} (h : CHistory cfg g (fun _ evs => BodiesMatch evs) n older)
    (hm : CLater cfg g (fun _ evs => BodiesMatch evs) n m) (id : UInt64) (e : Epoch) (he : n.store.epochs id = some e)
    (io : SyncIo) (sid : Nat) (r : UInt64) (hl : (RpcRequest.pullTxs e.orderedTxHashes).enc.length < 2 ^ 64) :
    ∃ txs : List SignedTx, txs.map (·.txHash) = e.orderedTxHashes ∧
      m.serve cfg io sid (idUrl rpcSyncPull r) (RpcRequest.pullTxs e.orderedTxHashes).enc = ([⟨sid, idUrl rpcRespSyncPull r, (RpcResponse.pullTxs txs).enc⟩], m) := by
  have hb := (hm.le fun _ _ h => h).body ((C110_partial h).byHeight id e he)
  obtain ⟨txs, h1, h2⟩ := forall2_of_bodies fun x hx => (hb x hx).1
  exact ⟨txs, h2, (C67_txs cfg io m sid r e.orderedTxHashes hl).1 txs h1⟩

/-! ### Witnesses -/

namespace Demo

/-- A peer that gives, for epoch 2, an epoch with one transaction, and for its transactions nothing. -/
def withholder : SyncIo :=
  { lock := true, pullEpoch := fun _ id => if id = 2 then some ⟨header 2 n1.status.prevHash (hash 67), [hash 99]⟩ else none, pullTxs := fun _ _ => some [], save := fun _ => .ok,
    send := true }

def hollow : Node := n1.step ncfg (.sync withholder (u64LE 4))

end Demo

open Demo in
/-- **C110 is false of the code as it stands.**  A peer hands over an epoch and answers the request for its transactions with an empty list: the node
records the epoch as its latest, without the transaction, and cannot serve it. -/
theorem C110_refuted : ∃ (cfg : NodeCfg) (g : Genesis) (n : Node) (e : Epoch) (h : Hash), CHistory cfg g (fun _ _ => True) n [] ∧
    n.store.latest = some e ∧ h ∈ e.orderedTxHashes ∧ n.store.txs h = none ∧ n.store.receipts h = none := by
  have hh : History ncfg ngenesis (fun _ _ => True) hollow [] :=
    .step (.sync withholder (u64LE 4)) (run_history _ (n0_history _) (fun _ _ _ => trivial)) trivial
  have hc : CHistory ncfg ngenesis (fun _ _ => True) hollow [] := (hh.concurrent (E := fun _ => True) (fun _ => trivial) (fun _ _ _ => trivial)).mono fun _ _ _ => trivial
  have h1 : hollow.store.latest.map (·.orderedTxHashes) = some [Demo.hash 99] := by decide +kernel
  have h2 : hollow.store.txs (Demo.hash 99) = none := by decide +kernel
  have h3 : hollow.store.receipts (Demo.hash 99) = none := by decide +kernel
  revert h1 h2 h3 hc
  generalize hollow = n
  intro hc h1 h2 h3
  obtain ⟨e, he, h4⟩ := Option.map_eq_some_iff.1 h1
  exact ⟨_, _, n, e, Demo.hash 99, hc, he, by rw [h4]; simp, h2, h3⟩

open Demo in
/-- The epoch of the first process, with one transaction, and a later process with another one. -/
example : CHistory ncfg ngenesis (fun _ evs => BodiesMatch evs) (Conf.after ncfg n0 calm1).node [] ∧
    CLater ncfg ngenesis (fun _ evs => BodiesMatch evs) (Conf.after ncfg n0 calm1).node (Conf.after ncfg calmNode calm3).node ∧
    ((Conf.after ncfg n0 calm1).node.store.epochs 1).map (·.orderedTxHashes) = some [late.txHash] ∧
    ((Conf.after ncfg calmNode calm3).node.store.epochs 2).map (·.orderedTxHashes) = some [other.txHash] := by
  obtain ⟨s, t, hi, hs⟩ := n0_start
  have hr : ∀ n evs, RaceFree ncfg n evs → BodiesMatch evs := fun n evs h t io msg hm => absurd hm (h.noSync t io msg)
  have h1 : CHistory ncfg ngenesis (RaceFree ncfg) (Conf.after ncfg n0 calm1).node [] := .init calm1 hi hs (raceFree_of_check (by decide +kernel))
  have h2 : CLater ncfg ngenesis (RaceFree ncfg) (Conf.after ncfg n0 calm1).node (Conf.after ncfg calmNode calm3).node :=
    calm_later calm1 _ calm3 rfl (raceFree_of_check (by decide +kernel)) (raceFree_of_check (by decide +kernel))
  exact ⟨h1.mono hr, h2.mono hr, by decide +kernel, by decide +kernel⟩

end Huobi
