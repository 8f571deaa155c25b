import Verif.Props.Mempool
/-
C23 – C28, continued: what is false, and the packaging, lookup and order synchronisation properties.
-/
namespace Huobi

/-! ## C24 -/

/-- All pooled transactions together have at most `limit` fee cycles. -/
def MemPool.AllFit (p : MemPool) (limit : UInt64) : Prop :=
  ∀ l : List SignedTx, l.Nodup → (∀ t ∈ l, p.cache.get t.txHash = some t) → (l.map SignedTx.cycles).sum ≤ limit.toNat

/-- Any pooled transaction in the window of a package call is in its order list if everything pooled fits. -/
theorem C24_pooled_is_packaged (cr : MemCrypto) (n : Nat) (gap : UInt64) (ops : List MemOp) {p : MemPool}
    (hp : MemPool.after cr n gap ops = p) {v : MemView} {c : Hash} {e : UInt64} (hv : v.latest = some (c, e))
    {limit : UInt64} (hfit : p.AllFit limit) {tx : SignedTx} {h : Hash} (hg : p.cache.get h = some tx)
    (hw : e < tx.raw.timeout ∧ tx.raw.timeout ≤ e + gap) :
    ∃ order propose, (p.package v limit).1 = .ok (order, propose) ∧ h ∈ order := by
  obtain ⟨cops, hc⟩ := after_cache cr n gap ops
  have hgap := (after_const cr n gap ops).2
  rw [hp] at hc hgap
  have g := hc.good
  have hsum : ((arrivals (n * 2) cops).map (fun e => e.tx.cycles)).sum ≤ limit.toNat := by
    rw [← hc.entries]
    have hnd : (hashesOf p.cache.abs.entries).Nodup := g.hashes_nodup
    have := hfit (p.cache.abs.entries.map (fun e => e.tx)) (by
      refine List.Nodup.of_map SignedTx.txHash ?_
      rw [List.map_map]; exact hnd) (by
      intro t ht
      obtain ⟨e, he, rfl⟩ := List.mem_map.1 ht
      exact (get_eq_some g).2 ⟨e, he, rfl, rfl⟩)
    rw [List.map_map] at this
    exact this
  unfold MemPool.package
  simp only [hv, hgap]
  exact C24_packaged_if_all_fit hc hsum hg hw

/-- **C24, the true part.**  A transaction that `insert` accepted when the latest epoch was `e` is in the order list of
the package call that follows while the latest epoch is `e'` with `e ≤ e'`, `e'` before its time-out, if adapter and pool
are configured with the same gap (as `src/main.rs` does), `e' + gap` does not overflow and the pooled
transactions fit the cycle limit.  (`C24_timeout_boundary_refuted`: "before its time-out" cannot be dropped although
`insert` accepts such transactions.) -/
theorem C24_admitted_is_packaged_partial (cr : MemCrypto) (n : Nat) (gap : UInt64) (ops : List MemOp) {v v' : MemView}
    {o : Bool} {tx : SignedTx} {p p' : MemPool} (hp : MemPool.after cr n gap ops = p)
    (hi : p.insert cr v o tx = (.ok (), p')) (hvg : v.gap = gap) {c c' : Hash} {e e' : UInt64}
    (hv : v.latest = some (c, e)) (hv' : v'.latest = some (c', e')) (he : e ≤ e') (hlt : e' < tx.raw.timeout)
    (hov : e'.toNat + gap.toNat < 2 ^ 64) {limit : UInt64} (hfit : p'.AllFit limit) :
    ∃ order propose, (p'.package v' limit).1 = .ok (order, propose) ∧ tx.txHash ∈ order := by
  have hp' : MemPool.after cr n gap (ops ++ [.insert v o tx]) = p' := by
    rw [after_append, hp]; show (p.insert cr v o tx).2 = p'; rw [hi]
  have g : p.cache.Good := by rw [← hp]; exact after_good cr n gap ops
  have hadm : (∀ r ∈ admissionRules cr v p tx, r.1) ∧ p'.cache.get tx.txHash = some tx := by
    rcases checks_spec cr v p tx with ⟨h1, h2⟩ | ⟨er, _, h2⟩
    · refine ⟨h2, ?_⟩
      have hn : p.cache.get tx.txHash = none := h2 (_, .dup tx.txHash) (by simp [admissionRules])
      rw [insert_unfold, h1] at hi
      rcases cache_insert (b := false) g hn with ⟨_, h3, h4, h5⟩ | ⟨_, h3, _, _⟩
      · have hcache : p'.cache = (p.cache.insert tx false).2 := by
          revert hi
          cases hx : p.cache.insert tx false with
          | mk r c =>
            rw [hx] at h3; simp only at h3; subst h3
            simp only
            split
            · rintro ⟨⟩; rfl
            · intro h; cases h
        rw [hcache, get_append g h4 (by rw [h5]) hn, if_pos rfl]
      · revert hi
        cases hx : p.cache.insert tx false with
        | mk r c =>
          rw [hx] at h3; simp only at h3; subst h3
          simp only
          intro h; cases h
    · rw [C23_violation_rejected cr v o tx p h2] at hi; cases hi
  obtain ⟨hr, hg⟩ := hadm
  have h8 : ∀ c e, v.latest = some (c, e) → tx.raw.timeout ≤ e + v.gap :=
    hr (_, .invalidTimeout tx.txHash) (by simp [admissionRules])
  have h9 := h8 c e hv
  refine C24_pooled_is_packaged cr n gap _ hp' hv' hfit hg ⟨hlt, ?_⟩
  rw [hvg] at h9
  rw [UInt64.le_iff_toNat_le] at h9 he ⊢
  rw [UInt64.toNat_add] at h9 ⊢
  omega

theorem allFit_of_entries {p : MemPool} (g : p.cache.Good) {limit : UInt64}
    (h : (p.cache.abs.entries.map (fun e => e.tx.cycles)).sum ≤ limit.toNat) : p.AllFit limit := by
  intro l hl hm
  have hsub : l ⊆ p.cache.abs.entries.map (fun e => e.tx) := by
    intro t ht
    obtain ⟨e, he, rfl, _⟩ := (get_eq_some g).1 (hm t ht)
    exact List.mem_map_of_mem he
  obtain ⟨l', hp, hs⟩ := List.subperm_of_subset hl hsub
  have h1 := sum_sublist (hs.map SignedTx.cycles)
  have h2 := (hp.map SignedTx.cycles).sum_eq
  rw [List.map_map] at h1
  have h3 : (p.cache.abs.entries.map (fun e => e.tx.cycles)).sum = (List.map (SignedTx.cycles ∘ fun e : Entry => e.tx) p.cache.abs.entries).sum := rfl
  omega

/-! ## C26 -/

/-- The transaction the pool knows for a hash: from the pool, else from the last order synchronisation. -/
def MemPool.Knows (p : MemPool) (h : Hash) (tx : SignedTx) : Prop :=
  p.cache.get h = some tx ∨ (p.cache.get h = none ∧ p.callback.get h = some tx)

theorem lookup_iff (p : MemPool) (h : Hash) (tx : SignedTx) : p.lookup h = some tx ↔ p.Knows h tx := by
  unfold MemPool.lookup MemPool.Knows
  cases p.cache.get h <;> simp

theorem callback_fold (txs : List SignedTx) (m : TxMap SignedTx) (hm : ∀ h tx, m.get h = some tx → tx.txHash = h) :
    ∀ h tx, (txs.foldl (fun m tx => (m.insert tx.txHash tx).2) m).get h = some tx → tx.txHash = h := by
  induction txs generalizing m with
  | nil => exact hm
  | cons t ts ih =>
    refine ih _ ?_
    intro h tx hg
    rw [TxMap.get_insert] at hg
    split at hg
    · rename_i hc; simp only [Option.some.injEq] at hg; subst hg; exact hc.1.symm
    · exact hm h tx hg

theorem callback_keeps (txs : List SignedTx) (m : TxMap SignedTx) :
    (∀ h, (m.get h).isSome → ((txs.foldl (fun m tx => (m.insert tx.txHash tx).2) m).get h).isSome) ∧
    ∀ tx ∈ txs, ((txs.foldl (fun m tx => (m.insert tx.txHash tx).2) m).get tx.txHash).isSome := by
  induction txs generalizing m with
  | nil => exact ⟨fun _ h => h, fun _ h => by cases h⟩
  | cons t ts ih =>
    have hstep : ∀ h, (m.get h).isSome → ((m.insert t.txHash t).2.get h).isSome := by
      intro h hh
      rw [TxMap.get_insert]; split
      · rfl
      · exact hh
    refine ⟨fun h hh => (ih _).1 h (hstep h hh), ?_⟩
    intro tx htx
    rcases List.mem_cons.1 htx with rfl | htx
    · refine (ih _).1 _ ?_
      rw [TxMap.get_insert]
      by_cases hn : m.get tx.txHash = none
      · rw [if_pos ⟨rfl, hn⟩]; rfl
      · rw [if_neg (fun h => hn h.2)]; exact Option.isSome_iff_ne_none.2 hn
    · exact (ih _).2 tx htx

/-- In every reachable pool, what order synchronisation stored under a hash has that hash. -/
theorem after_callback (cr : MemCrypto) (n : Nat) (gap : UInt64) (ops : List MemOp) :
    ∀ h tx, (MemPool.after cr n gap ops).callback.get h = some tx → tx.txHash = h := by
  refine after_induct (P := fun p => ∀ h tx, p.callback.get h = some tx → tx.txHash = h) ?_ ?_ ops
  · intro h tx hg; cases hg
  · intro p op ih
    cases op with
    | insert v o tx =>
      simp only [MemPool.step, MemPool.insert]
      split
      · exact ih
      · split
        · exact ih
        · split <;> exact ih
    | package v l => simp only [MemPool.step, MemPool.package]; split <;> exact ih
    | flush hs => intro h tx hg; cases hg
    | getFullTxs hs => exact ih
    | ensureOrderTxs v hs =>
      simp only [MemPool.step, MemPool.ensureOrderTxs]
      split
      · exact ih
      · split
        · exact ih
        · split
          · exact ih
          · exact callback_fold _ _ ih
    | syncProposeTxs v hs =>
      simp only [MemPool.step, MemPool.syncProposeTxs]
      split
      · exact ih
      · split <;> exact ih

theorem filterMap_full {α β : Type} (f : α → Option β) (xs : List α) :
    (xs.filterMap f).length = xs.length ↔ ∀ x ∈ xs, (f x).isSome := by
  constructor
  · intro h x hx
    by_contra hn
    have hlt : ∀ ys : List α, (ys.filterMap f).length ≤ ys.length := fun ys => List.length_filterMap_le f ys
    obtain ⟨a, b, rfl⟩ := List.append_of_mem hx
    have hfx : f x = none := by simpa using hn
    simp only [List.filterMap_append, List.filterMap_cons, hfx, List.length_append, List.length_cons] at h
    have h1 := hlt a; have h2 := hlt b; omega
  · intro h
    induction xs with
    | nil => rfl
    | cons x xs ih =>
      obtain ⟨y, hy⟩ := Option.isSome_iff_exists.1 (h x (by simp))
      rw [List.filterMap_cons, hy]
      simp [ih (fun x hx => h x (by simp [hx]))]

/-- **C26.**  In every reachable pool: `get_full_txs` succeeds exactly when every requested hash is known, and then
returns, for each requested hash in the requested order, the transaction known under it, which has that hash;
otherwise it returns an error. -/
theorem C26_full_txs_exact (cr : MemCrypto) (n : Nat) (gap : UInt64) (ops : List MemOp) {p : MemPool}
    (hp : MemPool.after cr n gap ops = p) (hs : List Hash) :
    (∀ txs, p.getFullTxs hs = .ok txs ↔ List.Forall₂ p.Knows hs txs) ∧
    (∀ txs, p.getFullTxs hs = .ok txs → txs.map SignedTx.txHash = hs) ∧
    ((∃ e, p.getFullTxs hs = .error e) ↔ ∃ h ∈ hs, ∀ tx, ¬ p.Knows h tx) := by
  have hknow : ∀ h, (∀ tx, ¬ p.Knows h tx) ↔ p.lookup h = none := by
    intro h
    constructor
    · intro hn
      cases hl : p.lookup h with
      | none => rfl
      | some tx => exact absurd ((lookup_iff p h tx).1 hl) (hn tx)
    · intro hl tx hk
      rw [← lookup_iff, hl] at hk; cases hk
  have hash : ∀ h tx, p.Knows h tx → tx.txHash = h := by
    intro h tx hk
    rcases hk with hk | ⟨_, hk⟩
    · have g : p.cache.Good := by rw [← hp]; exact after_good cr n gap ops
      obtain ⟨_, _, _, hh⟩ := (get_eq_some g).1 hk; exact hh
    · subst hp; exact after_callback cr n gap ops h tx hk
  have f2 : ∀ (hs : List Hash), (∀ h ∈ hs, (p.lookup h).isSome) → List.Forall₂ p.Knows hs (hs.filterMap p.lookup) := by
    intro hs
    induction hs with
    | nil => intro _; exact .nil
    | cons h hs ih =>
      intro hall
      obtain ⟨y, hy⟩ := Option.isSome_iff_exists.1 (hall h (by simp))
      rw [List.filterMap_cons, hy]
      exact .cons ((lookup_iff p h y).1 hy) (ih (fun x hx => hall x (by simp [hx])))
  have f2' : ∀ (hs : List Hash) (txs : List SignedTx), List.Forall₂ p.Knows hs txs → hs.filterMap p.lookup = txs := by
    intro hs txs hf
    induction hf with
    | nil => rfl
    | cons hk _ ih => rw [List.filterMap_cons, (lookup_iff p _ _).2 hk, ih]
  have main : ∀ txs, p.getFullTxs hs = .ok txs ↔ List.Forall₂ p.Knows hs txs := by
    intro txs
    simp only [MemPool.getFullTxs]
    constructor
    · intro h
      split at h
      · cases h
      · rename_i hlen
        simp only [Except.ok.injEq] at h
        rw [← h]
        exact f2 hs ((filterMap_full _ _).1 (not_not.1 hlen))
    · intro h
      have e := f2' hs txs h
      rw [e, if_neg (by simpa using h.length_eq.symm)]
  refine ⟨main, ?_, ?_⟩
  · intro txs h
    have hf := (main txs).1 h
    clear h main
    induction hf with
    | nil => rfl
    | cons hk _ ih => rw [List.map_cons, hash _ _ hk, ih]
  · constructor
    · rintro ⟨e, he⟩
      by_contra hall
      push Not at hall
      have : ∀ h ∈ hs, (p.lookup h).isSome := by
        intro h hh
        obtain ⟨tx, htx⟩ := hall h hh
        rw [(lookup_iff p h tx).2 htx]; rfl
      have := (main _).2 (f2 hs this)
      rw [he] at this; cases this
    · rintro ⟨h, hh, hn⟩
      simp only [MemPool.getFullTxs]
      rw [if_pos]
      · exact ⟨_, rfl⟩
      · intro hc
        have := (filterMap_full _ _).1 hc h hh
        rw [(hknow h).1 hn] at this; cases this

/-! ## C27 -/

/-- C27: an answer of another length than the request, or none, makes the check fail and leaves the pool as it was; the request names
exactly the hashes that are not in the pool, in order, and there is none if all are. -/
theorem C27_incomplete_answer_rejected (v : MemView) (hs : List Hash) (p : MemPool) :
    ((∀ h ∈ hs, p.cache.get h ≠ none) → p.ensureOrderTxs v hs = (.ok (), p)) ∧
    (∀ asked, asked = hs.filter (fun h => (p.cache.get h).isNone) → asked ≠ [] →
      (∀ txs, v.pull asked = some txs → txs.length ≠ asked.length → ∃ e, p.ensureOrderTxs v hs = (.error e, p)) ∧
      (v.pull asked = none → ∃ e, p.ensureOrderTxs v hs = (.error e, p))) := by
  have hu : p.cache.showUnknown hs = hs.filter (fun h => (p.cache.get h).isNone) := by
    unfold TxCache.showUnknown
    congr 1
    funext h
    cases hc : p.cache.get h with
    | none => cases hx : p.cache.contain h with
      | false => rfl
      | true => exact absurd hc ((contain_iff _ _).1 hx)
    | some tx => rw [(contain_iff p.cache h).2 (by rw [hc]; simp)]; rfl
  refine ⟨fun h => ?_, ?_⟩
  · have he : p.cache.showUnknown hs = [] := by
      rw [hu, List.filter_eq_nil_iff]
      intro a ha hn
      exact h a ha (Option.isNone_iff_eq_none.1 hn)
    simp [MemPool.ensureOrderTxs, he]
  · intro asked ha hne
    have hne' : (p.cache.showUnknown hs).isEmpty = false := by rw [hu, ← ha]; simpa using hne
    refine ⟨fun txs ht hl => ?_, fun ht => ?_⟩
    · refine ⟨.ensureBreak asked.length txs.length, ?_⟩
      simp only [MemPool.ensureOrderTxs]
      rw [hne', hu, ← ha, ht]
      simp [hl]
    · refine ⟨.other "pull_txs", ?_⟩
      simp only [MemPool.ensureOrderTxs]
      rw [hne', hu, ← ha, ht]
      simp

/-- **C27, the true part.**  If `ensure_order_txs` returns `Ok` and the peer answered the request for the unknown hashes
with transactions that cover them, `get_full_txs` succeeds right afterwards.  (`C27_wrong_answer_refuted`: the code
compares only the number of transactions.) -/
theorem C27_ensured_is_available_partial (cr : MemCrypto) (n : Nat) (gap : UInt64) (ops : List MemOp) {p p' : MemPool}
    (hp : MemPool.after cr n gap ops = p) (v : MemView) (hs : List Hash) (hok : p.ensureOrderTxs v hs = (.ok (), p'))
    (hpeer : ∀ q txs, v.pull q = some txs → ∀ h ∈ q, ∃ tx ∈ txs, tx.txHash = h) :
    ∃ txs, p'.getFullTxs hs = .ok txs ∧ txs.map SignedTx.txHash = hs := by
  have hp' : MemPool.after cr n gap (ops ++ [.ensureOrderTxs v hs]) = p' := by
    rw [after_append, hp]; show (p.ensureOrderTxs v hs).2 = p'; rw [hok]
  obtain ⟨h1, h2, h3⟩ := C26_full_txs_exact cr n gap _ hp' hs
  cases hg : p'.getFullTxs hs with
  | ok txs => exact ⟨txs, rfl, h2 txs hg⟩
  | error e =>
    exfalso
    obtain ⟨h, hh, hn⟩ := h3.1 ⟨e, hg⟩
    have hcache : p'.cache = p.cache := by rw [← ensure_cache v hs p, hok]
    have hnc : p.cache.get h = none := by
      cases hc : p.cache.get h with
      | none => rfl
      | some tx => exact absurd (Or.inl (by rw [hcache]; exact hc)) (hn tx)
    have hun : h ∈ p.cache.showUnknown hs := by
      refine List.mem_filter.2 ⟨hh, ?_⟩
      have : p.cache.contain h ≠ true := fun hc => (contain_iff _ _).1 hc hnc
      simpa using this
    simp only [MemPool.ensureOrderTxs] at hok
    split at hok
    · rename_i he
      rw [List.isEmpty_iff] at he
      rw [he] at hun; cases hun
    · split at hok
      · cases hok
      · rename_i txs hpull
        split at hok
        · cases hok
        · simp only [Prod.mk.injEq, true_and] at hok
          obtain ⟨tx, htx, rfl⟩ := hpeer _ _ hpull h hun
          obtain ⟨y, hy⟩ := Option.isSome_iff_exists.1 ((callback_keeps txs p.callback).2 tx htx)
          refine hn y (Or.inr ⟨by rw [hcache]; exact hnc, ?_⟩)
          rw [← hok]; exact hy

/-! ## Examples and refutations -/

namespace Demo

/-- Accepts every signature; the digest of a transaction is its nonce. -/
def mcr : MemCrypto := { sigOk := fun _ _ _ => true, rawHash := fun r => r.nonce }

/-- Storage at epoch `e` of the chain of the examples, knowing no transaction; the peer answers with `txs`. -/
def mview (e : UInt64) (txs : List SignedTx := []) (b : Bool := true) : MemView :=
  { latest := some (hash 9, e), stored := fun _ => .getNone, gap := 20, pull := fun _ => some txs, broadcastOk := b }

def mops : List MemOp :=
  [.insert (mview 3) true (ptx 1 10 4), .insert (mview 3) false (ptx 2 10 4), .insert (mview 3) true (ptx 1 10 4),
   .package (mview 3) 5, .flush [hash 1], .ensureOrderTxs (mview 3 [ptx 6 10 1]) [hash 2, hash 6]]

def isOk {ε α : Type} : Except ε α → Bool
  | .ok _ => true
  | .error _ => false

theorem eq_ok_of_isOk {ε : Type} {x : Except ε Unit} (h : isOk x = true) : x = .ok () := by
  cases x with
  | ok u => rfl
  | error e => cases h

def errOf {ε α : Type} : Except ε α → Option ε
  | .ok _ => none
  | .error e => some e

theorem eq_error_of_errOf {ε α : Type} {x : Except ε α} {e : ε} (h : errOf x = some e) : x = .error e := by
  cases x with
  | ok u => cases h
  | error e' => simp only [errOf, Option.some.injEq] at h; rw [h]

/-- Admission rules of a transaction of the examples hold in a pool. -/
theorem rules_hold {p : MemPool} {e : UInt64} {txs : List SignedTx} {b : Bool} {k : UInt8} {tmo cy : UInt64} (h1 : p.cache.len < p.poolSize)
    (h2 : p.cache.get (hash k) = none) (h3 : tmo ≤ e + 20) (h4 : e ≤ tmo) :
    ∀ r ∈ admissionRules mcr (mview e txs b) p (ptx k tmo cy), r.1 := by
  simp only [admissionRules, List.mem_cons, List.not_mem_nil, or_false]
  rintro r (rfl | rfl | rfl | rfl | rfl | rfl | rfl | rfl | rfl | rfl)
  · exact h1
  · exact h2
  · rfl
  · rfl
  · rfl
  · intro c e h; cases h; rfl
  · intro c e h; cases h; exact h3
  · intro c e h; cases h; exact h4
  · intro h; cases h
  · rfl

end Demo

/-- The pool of the examples holds transaction 2, and the synchronised transaction 6. -/
example : (MemPool.after Demo.mcr 2 20 Demo.mops).lookup (Demo.hash 2) = some (Demo.ptx 2 10 4) ∧
    (MemPool.after Demo.mcr 2 20 Demo.mops).lookup (Demo.hash 6) = some (Demo.ptx 6 10 1) ∧
    (MemPool.after Demo.mcr 2 20 Demo.mops).lookup (Demo.hash 1) = none := by decide +kernel

/-- The hypotheses of `C23_admission_partial` hold, with the rules met and with a rule violated. -/
example : (MemPool.after Demo.mcr 2 20 Demo.mops).slots < 4 * 2 ∧
    (∀ r ∈ admissionRules Demo.mcr (Demo.mview 3) (MemPool.after Demo.mcr 2 20 Demo.mops) (Demo.ptx 7 11 2), r.1) ∧
    FirstViolated (admissionRules Demo.mcr (Demo.mview 3) (MemPool.after Demo.mcr 2 20 Demo.mops) (Demo.ptx 2 11 2))
      (.dup (Demo.hash 2)) := by
  refine ⟨by decide +kernel, Demo.rules_hold (by decide +kernel) (by decide +kernel) (by decide +kernel) (by decide +kernel),
    [_], _, _, rfl, ?_, by decide +kernel⟩
  intro r hr
  simp only [List.mem_singleton] at hr
  subst hr
  show (MemPool.after Demo.mcr 2 20 Demo.mops).cache.len < 2
  decide +kernel

/-- **C23 is false for a full queue.**  Flushed transactions keep their queue slots until the next package: with
`pool_size` 1, after four transactions were inserted and flushed, the pool is empty and all rules hold for a fifth
transaction, but `insert` refuses it. -/
theorem C23_full_queue_refuted : ∃ (cr : MemCrypto) (n : Nat) (gap : UInt64) (ops : List MemOp) (v : MemView) (tx : SignedTx),
    (∀ r ∈ admissionRules cr v (MemPool.after cr n gap ops) tx, r.1) ∧
    ((MemPool.after cr n gap ops).insert cr v true tx).1 = .error (.insert tx.txHash) := by
  refine ⟨Demo.mcr, 1, 20,
    [.insert (Demo.mview 3) true (Demo.ptx 1 10 4), .flush [Demo.hash 1],
     .insert (Demo.mview 3) true (Demo.ptx 2 10 4), .flush [Demo.hash 2],
     .insert (Demo.mview 3) true (Demo.ptx 3 10 4), .flush [Demo.hash 3],
     .insert (Demo.mview 3) true (Demo.ptx 4 10 4), .flush [Demo.hash 4]], Demo.mview 3, Demo.ptx 5 10 4, ?_, ?_⟩
  · exact Demo.rules_hold (by decide +kernel) (by decide +kernel) (by decide +kernel) (by decide +kernel)
  · exact Demo.eq_error_of_errOf (by decide +kernel)

/-- **C23 is false when the broadcaster fails.**  `insert` returns an error although the transaction is in the pool. -/
theorem C23_broadcast_refuted : ∃ (cr : MemCrypto) (n : Nat) (gap : UInt64) (v : MemView) (tx : SignedTx) (e : MemErr),
    ((MemPool.new n gap).insert cr v false tx).1 = .error e ∧ ((MemPool.new n gap).insert cr v false tx).2.cache.get tx.txHash = some tx := by
  refine ⟨Demo.mcr, 1, 20, Demo.mview 3 [] false, Demo.ptx 1 10 4, .other "broadcast_tx", ?_, by decide +kernel⟩
  exact Demo.eq_error_of_errOf (by decide +kernel)

/-- **C24 is false on the boundary.**  A transaction whose time-out is the latest epoch is accepted, and dropped by the
next package call at the same epoch although nothing else is pooled and it fits. -/
theorem C24_timeout_boundary_refuted : ∃ (cr : MemCrypto) (n : Nat) (gap : UInt64) (v : MemView) (tx : SignedTx) (limit : UInt64)
    (order propose : List Hash),
    v.gap = gap ∧ ((MemPool.new n gap).insert cr v true tx).1 = .ok () ∧
    ((MemPool.new n gap).insert cr v true tx).2.AllFit limit ∧
    (((MemPool.new n gap).insert cr v true tx).2.package v limit).1 = .ok (order, propose) ∧
    tx.txHash ∉ order ++ propose ∧
    (((MemPool.new n gap).insert cr v true tx).2.package v limit).2.cache.get tx.txHash = none := by
  refine ⟨Demo.mcr, 2, 20, Demo.mview 3, Demo.ptx 1 3 4, 100, [], [], rfl, Demo.eq_ok_of_isOk (by decide +kernel), ?_, ?_,
    by simp, by decide +kernel⟩
  · refine allFit_of_entries (p := ((MemPool.new 2 20).insert Demo.mcr (Demo.mview 3) true (Demo.ptx 1 3 4)).2)
      (after_good Demo.mcr 2 20 [.insert (Demo.mview 3) true (Demo.ptx 1 3 4)]) (by decide +kernel)
  · have h : ∀ r : Except MemErr (List Hash × List Hash), r.toOption = some ([], []) → r = .ok ([], []) := by
      intro r hr; cases r with
      | error e => cases hr
      | ok x => simp only [Except.toOption, Option.some.injEq] at hr; rw [hr]
    exact h _ (by decide +kernel)

/-- The hypotheses of `C24_admitted_is_packaged_partial` hold for a transaction with time-out 10 inserted at epoch 3 next to
another one. -/
example : ∃ (p p' : MemPool), MemPool.after Demo.mcr 2 20 [.insert (Demo.mview 3) true (Demo.ptx 1 9 4)] = p ∧
    p.insert Demo.mcr (Demo.mview 3) false (Demo.ptx 2 10 4) = (.ok (), p') ∧ p'.AllFit 8 := by
  refine ⟨_, _, rfl, Prod.ext (Demo.eq_ok_of_isOk (by decide +kernel)) rfl, ?_⟩
  exact allFit_of_entries (after_good Demo.mcr 2 20 [.insert (Demo.mview 3) true (Demo.ptx 1 9 4),
    .insert (Demo.mview 3) false (Demo.ptx 2 10 4)]) (by decide +kernel)

/-- **C27 is false.**  A peer that answers with the right number of other transactions passes `ensure_order_txs`, and
`get_full_txs` fails afterwards. -/
theorem C27_wrong_answer_refuted : ∃ (n : Nat) (gap : UInt64) (v : MemView) (hs : List Hash) (e : MemErr),
    ((MemPool.new n gap).ensureOrderTxs v hs).1 = .ok () ∧ ((MemPool.new n gap).ensureOrderTxs v hs).2.getFullTxs hs = .error e := by
  refine ⟨2, 20, Demo.mview 3 [Demo.ptx 2 10 4], [Demo.hash 1], .misMatch 1 0, Demo.eq_ok_of_isOk (by decide +kernel), ?_⟩
  exact Demo.eq_error_of_errOf (by decide +kernel)

/-- **C27 is false when a package call comes in between.**  A package call drops a pooled transaction at its time-out, so
an epoch that was ensured before cannot be fetched any more. -/
theorem C27_package_between_refuted : ∃ (cr : MemCrypto) (n : Nat) (gap : UInt64) (v : MemView) (ops : List MemOp) (hs : List Hash)
    (p : MemPool) (limit : UInt64) (e : MemErr), MemPool.after cr n gap ops = p ∧
    (p.ensureOrderTxs v hs).1 = .ok () ∧ ((p.ensureOrderTxs v hs).2.package v limit).2.getFullTxs hs = .error e := by
  refine ⟨Demo.mcr, 2, 20, Demo.mview 3, [.insert (Demo.mview 3) true (Demo.ptx 1 3 4)], [Demo.hash 1], _, 100, .misMatch 1 0,
    rfl, Demo.eq_ok_of_isOk (by decide +kernel), ?_⟩
  exact Demo.eq_error_of_errOf (by decide +kernel)

/-- Both happen: nothing asked for, and one of two asked for and none sent. -/
example : (∀ h ∈ [Demo.hash 2], (MemPool.after Demo.mcr 2 20 Demo.mops).cache.get h ≠ none) ∧
    [Demo.hash 2, Demo.hash 8].filter (fun h => ((MemPool.after Demo.mcr 2 20 Demo.mops).cache.get h).isNone) = [Demo.hash 8] := by
  decide +kernel

/-- The hypotheses of `C27_ensured_is_available_partial` are met by a peer that answers honestly. -/
example : ∃ (p p' : MemPool) (v : MemView), MemPool.after Demo.mcr 2 20 Demo.mops = p ∧
    p.ensureOrderTxs v [Demo.hash 2, Demo.hash 8] = (.ok (), p') ∧
    ∀ q txs, v.pull q = some txs → ∀ h ∈ q, ∃ tx ∈ txs, tx.txHash = h := by
  refine ⟨_, _, { Demo.mview 3 with pull := fun q => some (q.map fun h => { Demo.ptx 8 10 1 with txHash := h }) }, rfl,
    Prod.ext (Demo.eq_ok_of_isOk (by decide +kernel)) rfl, ?_⟩
  intro q txs hq h hh
  simp only [Option.some.injEq] at hq
  subst hq
  exact ⟨_, List.mem_map_of_mem hh, rfl⟩

/-- **C28 is false for proposals.**  A transaction sent by a peer in answer to a proposal synchronisation enters the pool
whatever its signature, hash, chain id and time-out are. -/
theorem C28_proposed_unchecked_refuted : ∃ (cr : MemCrypto) (n : Nat) (gap : UInt64) (v : MemView) (hs : List Hash) (tx : SignedTx)
    (h : Hash), ((MemPool.new n gap).syncProposeTxs v hs).2.cache.get h = some tx ∧
      cr.sigOk tx.txHash tx.signature tx.pubkey = false ∧ cr.rawHash tx.raw ≠ tx.txHash ∧
      (∀ c e, v.latest = some (c, e) → c ≠ tx.raw.chainId ∧ tx.raw.timeout < e) := by
  refine ⟨{ sigOk := fun _ _ _ => false, rawHash := fun _ => Demo.hash 77 }, 2, 20,
    { Demo.mview 5 [Demo.ptx 1 3 4] with latest := some (Demo.hash 8, 5) }, [Demo.hash 1], Demo.ptx 1 3 4, Demo.hash 1,
    by decide +kernel, rfl, by decide +kernel, ?_⟩
  intro c e h
  cases h
  exact ⟨by decide +kernel, by decide +kernel⟩

/-- The hypotheses of `C25_pool_size_partial` and `C28_pooled_checked_partial` hold for the example, with a full pool. -/
example : (∀ op ∈ Demo.mops, op.notSync = true) ∧ (MemPool.after Demo.mcr 2 20 (Demo.mops.take 3)).cache.len = 2 := by
  refine ⟨?_, by decide +kernel⟩
  intro op h
  simp only [Demo.mops, List.mem_cons, List.not_mem_nil, or_false] at h
  rcases h with rfl | rfl | rfl | rfl | rfl | rfl <;> rfl

end Huobi
