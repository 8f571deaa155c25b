import Verif.Proof.TxCache
import Verif.Spec.Demo
/-
C18, C19, C20, C22, C24 (cache part), C61: the transaction cache run sequentially, over every history of calls.
-/
namespace Huobi

/-- `c` is the state of a cache made by `TxCache::new n` after the calls `ops`. -/
def CacheAfter (n : Nat) (ops : List CacheOp) (c : TxCache) : Prop := (callAll TxCache.call (TxCache.new n) ops).2 = c

/-- The pooled transactions after the calls `ops`, in order of arrival, according to the reference pool. -/
def arrivals (n : Nat) (ops : List CacheOp) : List Entry := (callAll RefPool.call ⟨[], 0, n * 2⟩ ops).2.entries

theorem callAll_refines {c : TxCache} (g : c.Good) (ops : List CacheOp) :
    (callAll TxCache.call c ops).1 = (callAll RefPool.call c.abs ops).1 ∧ (callAll TxCache.call c ops).2.Good ∧
    (callAll TxCache.call c ops).2.abs = (callAll RefPool.call c.abs ops).2 := by
  induction ops generalizing c with
  | nil => exact ⟨rfl, g, rfl⟩
  | cons o os ih =>
    obtain ⟨h1, h2, h3⟩ := g.call_refines o
    obtain ⟨i1, i2, i3⟩ := ih h2
    simp only [callAll]
    rw [h1, i1, h3, i3, h3]
    exact ⟨rfl, i2, rfl⟩

theorem CacheAfter.good {n : Nat} {ops : List CacheOp} {c : TxCache} (h : CacheAfter n ops c) : c.Good := by
  rw [← h]; exact (callAll_refines (TxCache.good_new n) ops).2.1

theorem CacheAfter.entries {n : Nat} {ops : List CacheOp} {c : TxCache} (h : CacheAfter n ops c) :
    c.abs.entries = arrivals n ops := by
  rw [← h, (callAll_refines (TxCache.good_new n) ops).2.2]; rfl

/-- **C61.**  Every sequence of calls on a fresh cache is answered exactly as by the reference pool: a list of
transactions in order of arrival with at most one entry per hash, whose package is a greedy selection in that order.
In particular a package never fails and returns transactions in the order of their arrival. -/
theorem C61_cache_is_fifo_pool (n : Nat) (ops : List CacheOp) :
    (callAll TxCache.call (TxCache.new n) ops).1 = (callAll RefPool.call ⟨[], 0, n * 2⟩ ops).1 :=
  (callAll_refines (TxCache.good_new n) ops).1

theorem package_exact {c : TxCache} (g : c.Good) (limit current timeout : UInt64) :
    (c.package limit current timeout).1 =
      .ok (hashesOf (selectOrder limit (c.abs.entries.filter (Entry.inWindow current timeout))),
        hashesOf (selectPropose limit (c.abs.entries.filter (Entry.inWindow current timeout)))) := by
  have := (g.package_refines limit current timeout).1
  simp only [TxCache.call, RefPool.call, CacheOut.packaged.injEq] at this
  exact this

theorem takeGreedy_append (limit acc : UInt64) (es : List Entry) :
    (takeGreedy limit acc es).1 ++ (takeGreedy limit acc es).2 = es := by
  induction es generalizing acc with
  | nil => rfl
  | cons e es ih =>
    simp only [takeGreedy]
    split
    · simp [ih]
    · rfl

theorem select_sublist (limit : UInt64) (live : List Entry) :
    List.Sublist (selectOrder limit live ++ selectPropose limit live) live := by
  have h := takeGreedy_append limit 0 live
  unfold selectOrder selectPropose
  conv => rhs; rw [← h]
  refine (List.Sublist.refl _).append ?_
  split
  · exact List.nil_sublist _
  · rename_i e rest hr
    rw [hr]
    refine List.Sublist.cons_cons _ ?_
    have h2 := takeGreedy_append limit e.tx.raw.fee.cycle (rest.filter (fun e => !e.proposed))
    have h3 : List.Sublist (takeGreedy limit e.tx.raw.fee.cycle (rest.filter (fun e => !e.proposed))).1
        (rest.filter (fun e => !e.proposed)) := by
      conv => rhs; rw [← h2]
      exact List.sublist_append_left _ _
    exact h3.trans List.filter_sublist

/-- **C18.**  In every reachable cache, a package call succeeds, the hashes it returns (order list followed by propose
list) are pairwise distinct, and each belongs to a transaction in the pool. -/
theorem C18_package_distinct_and_pooled {n : Nat} {ops : List CacheOp} {c : TxCache} (hc : CacheAfter n ops c)
    (limit current timeout : UInt64) :
    ∃ o p, (c.package limit current timeout).1 = .ok (o, p) ∧ (o ++ p).Nodup ∧
      ∀ h ∈ o ++ p, ∃ tx, c.get h = some tx ∧ tx.txHash = h := by
  have g := hc.good
  refine ⟨_, _, package_exact g limit current timeout, ?_, ?_⟩
  · have hs := (select_sublist limit (c.abs.entries.filter (Entry.inWindow current timeout))).trans List.filter_sublist
    have : List.Sublist (hashesOf (selectOrder limit (c.abs.entries.filter (Entry.inWindow current timeout)) ++
        selectPropose limit (c.abs.entries.filter (Entry.inWindow current timeout)))) (hashesOf c.abs.entries) := hs.map _
    rw [← show hashesOf (_ ++ _) = hashesOf _ ++ hashesOf _ from List.map_append]
    exact g.hashes_nodup.sublist this
  · intro h hm
    have hs := (select_sublist limit (c.abs.entries.filter (Entry.inWindow current timeout))).trans List.filter_sublist
    rw [← show hashesOf (_ ++ _) = hashesOf _ ++ hashesOf _ from List.map_append] at hm
    have : h ∈ hashesOf c.abs.entries := (hs.map _).subset hm
    rw [g.mem_hashes] at this
    obtain ⟨id, hid⟩ := Option.isSome_iff_exists.1 this
    refine ⟨(c.heap id).tx, by simp [TxCache.get, hid], (g.mapped h id hid).2.2⟩

theorem get_eq_some {c : TxCache} (g : c.Good) {h : Hash} {tx : SignedTx} :
    c.get h = some tx ↔ ∃ e ∈ c.abs.entries, e.tx = tx ∧ tx.txHash = h := by
  rw [← g.abs_get]
  unfold RefPool.get
  constructor
  · intro hh
    rw [Option.map_eq_some_iff] at hh
    obtain ⟨e, he, rfl⟩ := hh
    exact ⟨e, List.mem_of_find?_eq_some he, rfl, by simpa using List.find?_some he⟩
  · rintro ⟨e, he, rfl, rfl⟩
    rw [TxCache.find_of_nodup g.hashes_nodup he]; rfl

/-- **C20.**  In every reachable cache, every hash a package returns belongs to a pooled transaction whose time-out
lies in the window `current < timeout ≤ current + gap`; afterwards the pool holds exactly the transactions it held
before whose time-out lies in the window (the others are removed). -/
theorem C20_window {n : Nat} {ops : List CacheOp} {c c' : TxCache} (hc : CacheAfter n ops c)
    {limit current timeout : UInt64} {o p : List Hash} (hp : c.package limit current timeout = (.ok (o, p), c')) :
    (∀ h ∈ o ++ p, ∃ tx, c.get h = some tx ∧ current < tx.raw.timeout ∧ tx.raw.timeout ≤ timeout) ∧
    (∀ h tx, c'.get h = some tx ↔ c.get h = some tx ∧ current < tx.raw.timeout ∧ tx.raw.timeout ≤ timeout) := by
  have g := hc.good
  have h1 := package_exact g limit current timeout
  obtain ⟨_, g', h3⟩ := g.package_refines limit current timeout
  simp only [TxCache.call, RefPool.call, hp] at g' h3
  rw [hp] at h1
  simp only [Except.ok.injEq, Prod.mk.injEq] at h1
  have hw : ∀ e ∈ c.abs.entries.filter (Entry.inWindow current timeout),
      e ∈ c.abs.entries ∧ current < e.tx.raw.timeout ∧ e.tx.raw.timeout ≤ timeout := by
    intro e he
    rw [List.mem_filter] at he
    simpa [Entry.inWindow] using he
  constructor
  · intro h hm
    rw [h1.1, h1.2, ← show hashesOf (_ ++ _) = hashesOf _ ++ hashesOf _ from List.map_append] at hm
    obtain ⟨e, he, rfl⟩ := List.mem_map.1 hm
    have := hw e ((select_sublist limit _).subset he)
    exact ⟨e.tx, (get_eq_some g).2 ⟨e, this.1, rfl, rfl⟩, this.2⟩
  · intro h tx
    rw [get_eq_some g', get_eq_some g, h3]
    constructor
    · rintro ⟨e, he, rfl, rfl⟩
      have := hw e he
      exact ⟨⟨e, this.1, rfl, rfl⟩, this.2⟩
    · rintro ⟨⟨e, he, rfl, rfl⟩, h2⟩
      exact ⟨e, List.mem_filter.2 ⟨he, by simpa [Entry.inWindow] using h2⟩, rfl, rfl⟩

/-- A call that does not insert a transaction with hash `h`. -/
def CacheOp.notInserting (h : Hash) : CacheOp → Prop
  | .insert tx _ => tx.txHash ≠ h
  | _ => True

theorem get_none_mono {c : TxCache} (g : c.Good) {h : Hash} (hn : c.get h = none) (op : CacheOp)
    (ho : op.notInserting h) : (c.call op).2.get h = none := by
  obtain ⟨_, g', h3⟩ := g.call_refines op
  have hmem : ∀ {d : TxCache}, d.Good → (d.get h = none ↔ h ∉ hashesOf d.abs.entries) := by
    intro d gd
    rw [gd.mem_hashes]; simp [TxCache.get]
  rw [hmem g', h3]
  rw [hmem g] at hn
  cases op with
  | insert tx p =>
    simp only [RefPool.call]
    split
    · exact hn
    · split
      · intro hm
        simp only [hashesOf, List.map_append, List.mem_append, List.map_cons, List.map_nil, List.mem_singleton] at hm
        rcases hm with hm | hm
        · exact hn hm
        · exact ho hm.symm
      · exact hn
  | flush hs => exact fun hm => hn ((List.filter_sublist.map _).subset hm)
  | package l cu t => exact fun hm => hn ((List.filter_sublist.map _).subset hm)
  | get _ => exact hn
  | contain _ => exact hn
  | len => exact hn
  | showUnknown _ => exact hn

theorem flush_get {c : TxCache} (g : c.Good) (hs : List Hash) (h : Hash) :
    (c.flush hs).get h = if h ∈ hs then none else c.get h := by
  obtain ⟨g', e⟩ := g.flush_refines hs
  ext tx
  rw [get_eq_some g', e]
  simp only [RefPool.call]
  split
  · rename_i hm
    simp only [reduceCtorEq, iff_false, not_exists, not_and]
    rintro e he rfl rfl
    rw [List.mem_filter] at he
    simp only [decide_eq_true_eq] at he
    exact he.2 hm
  · rename_i hm
    rw [get_eq_some g]
    constructor
    · rintro ⟨e, he, h1⟩; exact ⟨e, List.mem_of_mem_filter he, h1⟩
    · rintro ⟨e, he, rfl, rfl⟩
      exact ⟨e, List.mem_filter.2 ⟨he, by simpa using hm⟩, rfl, rfl⟩

/-- **C22.**  After a flush of `hs` in any reachable cache: the flushed hashes are not in the pool and every other
transaction still is; and whatever calls follow, as long as none of them inserts a flushed hash again, no lookup finds
it and no package returns it. -/
theorem C22_flush_exact {n : Nat} {ops : List CacheOp} {c : TxCache} (hc : CacheAfter n ops c) (hs : List Hash) :
    (∀ h, (c.flush hs).get h = if h ∈ hs then none else c.get h) ∧
    ∀ h ∈ hs, ∀ later : List CacheOp, (∀ op ∈ later, op.notInserting h) →
      ∀ s, (callAll TxCache.call (c.flush hs) later).2 = s →
        s.get h = none ∧ s.contain h = false ∧
        ∀ limit current timeout o p, (s.package limit current timeout).1 = .ok (o, p) → h ∉ o ++ p := by
  have g := hc.good
  refine ⟨flush_get g hs, ?_⟩
  intro h hm later hl s hs'
  have gf := (g.flush_refines hs).1
  have h0 : (c.flush hs).get h = none := by rw [flush_get g, if_pos hm]
  have key : ∀ (later : List CacheOp) (d : TxCache), d.Good → d.get h = none → (∀ op ∈ later, op.notInserting h) →
      (callAll TxCache.call d later).2.Good ∧ (callAll TxCache.call d later).2.get h = none := by
    intro later
    induction later with
    | nil => intro d gd hd _; exact ⟨gd, hd⟩
    | cons o os ih =>
      intro d gd hd ho
      exact ih _ (gd.call_refines o).2.1 (get_none_mono gd hd o (ho o (by simp))) (fun op hop => ho op (by simp [hop]))
  obtain ⟨gs, hn⟩ := key later _ gf h0 hl
  rw [hs'] at gs hn
  refine ⟨hn, ?_, ?_⟩
  · simp only [TxCache.get, Option.map_eq_none_iff] at hn
    simp [TxCache.contain, TxMap.containsKey_eq, hn]
  · intro limit current timeout o p hp
    rw [package_exact gs] at hp
    simp only [Except.ok.injEq, Prod.mk.injEq] at hp
    rw [← hp.1, ← hp.2, ← show hashesOf (_ ++ _) = hashesOf _ ++ hashesOf _ from List.map_append]
    intro hmem
    obtain ⟨e, he, rfl⟩ := List.mem_map.1 hmem
    have he' := List.mem_of_mem_filter ((select_sublist limit _).subset he)
    rw [(get_eq_some gs).2 ⟨e, he', rfl, rfl⟩] at hn
    cases hn

/-- Fee cycles of a transaction, as a number. -/
def SignedTx.cycles (t : SignedTx) : Nat := t.raw.fee.cycle.toNat

theorem sum_sublist {l₁ l₂ : List Nat} (h : List.Sublist l₁ l₂) : l₁.sum ≤ l₂.sum := by
  induction h with
  | slnil => simp
  | cons a _ ih => simp only [List.sum_cons]; omega
  | cons_cons a _ ih => simp only [List.sum_cons]; omega

theorem u64_add_le {a b : UInt64} {l : UInt64} (h : l.toNat + b.toNat < 2 ^ 64) (ha : a.toNat ≤ l.toNat) :
    (a + b).toNat = a.toNat + b.toNat := by
  rw [UInt64.toNat_add]; omega

theorem takeGreedy_sum (limit acc : UInt64) (es : List Entry)
    (hno : ∀ e ∈ es, limit.toNat + e.tx.cycles < 2 ^ 64) (hacc : acc.toNat ≤ limit.toNat) :
    acc.toNat + ((takeGreedy limit acc es).1.map (fun e => e.tx.cycles)).sum ≤ limit.toNat ∧
    ∀ e rest, (takeGreedy limit acc es).2 = e :: rest →
      limit.toNat < acc.toNat + ((takeGreedy limit acc es).1.map (fun e => e.tx.cycles)).sum + e.tx.cycles := by
  induction es generalizing acc with
  | nil => simp [takeGreedy, hacc]
  | cons e es ih =>
    have ha := u64_add_le (b := e.tx.raw.fee.cycle) (hno e (by simp)) hacc
    simp only [takeGreedy]
    split
    · rename_i hle
      rw [UInt64.le_iff_toNat_le, ha] at hle
      obtain ⟨i1, i2⟩ := ih (acc + e.tx.raw.fee.cycle) (fun e he => hno e (by simp [he])) (by rw [ha]; exact hle)
      rw [ha] at i1 i2
      simp only [List.map_cons, List.sum_cons, SignedTx.cycles] at i1 i2 ⊢
      refine ⟨by omega, ?_⟩
      intro e' rest hr
      have := i2 e' rest hr
      omega
    · rename_i hle
      rw [UInt64.le_iff_toNat_le, ha] at hle
      refine ⟨by simpa using hacc, ?_⟩
      intro e' rest hr
      simp only [List.cons.injEq] at hr
      rw [← hr.1]
      simp only [List.map_nil, List.sum_nil, SignedTx.cycles]
      omega

/-- **C19, the true part.**  If the limit and the pooled fees are below `2^63`: the fee cycles of the order list sum to
at most the limit, and so do those of the propose list unless it consists of a single transaction.  (`C19_*_refuted`: without the overflow condition the order list exceeds the
limit, and the propose list can hold one transaction that exceeds it.) -/
theorem C19_cycle_limit_partial {n : Nat} {ops : List CacheOp} {c : TxCache} (hc : CacheAfter n ops c)
    {limit current timeout : UInt64} (hlim : limit.toNat < 2 ^ 63)
    (hno : ∀ h tx, c.get h = some tx → tx.cycles < 2 ^ 63) :
    ∃ o p : List SignedTx, (c.package limit current timeout).1 = .ok (o.map SignedTx.txHash, p.map SignedTx.txHash) ∧
      (∀ tx ∈ o ++ p, c.get tx.txHash = some tx) ∧
      (o.map SignedTx.cycles).sum ≤ limit.toNat ∧
      ((p.map SignedTx.cycles).sum ≤ limit.toNat ∨ ∃ tx, p = [tx]) := by
  have g := hc.good
  generalize hl : c.abs.entries.filter (Entry.inWindow current timeout) = live
  have hlive : ∀ e ∈ live, c.get e.tx.txHash = some e.tx := by
    intro e he
    rw [← hl] at he
    exact (get_eq_some g).2 ⟨e, List.mem_of_mem_filter he, rfl, rfl⟩
  have hno63 : ∀ e ∈ live, e.tx.cycles < 2 ^ 63 := fun e he => hno _ _ (hlive e he)
  have hno' : ∀ e ∈ live, limit.toNat + e.tx.cycles < 2 ^ 64 := fun e he => by have := hno63 e he; omega
  refine ⟨(selectOrder limit live).map Entry.tx, (selectPropose limit live).map Entry.tx, ?_, ?_, ?_, ?_⟩
  · rw [package_exact g, hl]; simp [hashesOf, List.map_map, Function.comp_def]
  · intro tx htx
    rw [← List.map_append, List.mem_map] at htx
    obtain ⟨e, he, rfl⟩ := htx
    exact hlive e ((select_sublist limit live).subset he)
  · have := (takeGreedy_sum limit 0 live hno' (by simp)).1
    simpa [selectOrder, List.map_map, Function.comp_def] using this
  · unfold selectPropose
    split
    · left; simp
    · rename_i e rest hr
      have hsub : ∀ x ∈ e :: rest, x ∈ live := by
        intro x hx
        rw [← takeGreedy_append limit 0 live, hr]
        exact List.mem_append_right _ hx
      have hno2 : ∀ x ∈ rest.filter (fun e => !e.proposed), limit.toNat + x.tx.cycles < 2 ^ 64 :=
        fun x hx => hno' x (hsub x (by simp [List.mem_of_mem_filter hx]))
      by_cases hfit : e.tx.raw.fee.cycle.toNat ≤ limit.toNat
      · left
        have := (takeGreedy_sum limit e.tx.raw.fee.cycle _ hno2 hfit).1
        simpa [SignedTx.cycles, List.map_map, Function.comp_def] using this
      · right
        refine ⟨e.tx, ?_⟩
        have hz : ∀ es : List Entry, (∀ x ∈ es, x ∈ live) → (takeGreedy limit e.tx.raw.fee.cycle es).1 = [] := by
          intro es hes
          cases es with
          | nil => rfl
          | cons x es =>
            simp only [takeGreedy]
            rw [if_neg]
            rw [UInt64.le_iff_toNat_le, UInt64.toNat_add]
            have h1 := hno63 x (hes x (by simp))
            have h2 := hno63 e (hsub e (by simp))
            simp only [SignedTx.cycles] at h1 h2
            omega
        rw [List.map_cons, hz _ (fun x hx => hsub x (by simp [List.mem_of_mem_filter hx]))]; rfl

/-- **C61, first come first served.**  Let `live` be the pooled transactions in the window, in order of arrival.  If
no fee overflows, the order list is a prefix of `live` that fits the limit, and it is the longest one. -/
theorem C61_order_list_is_longest_prefix {n : Nat} {ops : List CacheOp} {c : TxCache} (hc : CacheAfter n ops c)
    {limit current timeout : UInt64} (hlim : limit.toNat < 2 ^ 63)
    (hno : ∀ e ∈ arrivals n ops, e.tx.cycles < 2 ^ 63) :
    ∃ o p rest, (c.package limit current timeout).1 = .ok (hashesOf o, p) ∧
      (arrivals n ops).filter (Entry.inWindow current timeout) = o ++ rest ∧
      (o.map (fun e => e.tx.cycles)).sum ≤ limit.toNat ∧
      ∀ e rest', rest = e :: rest' → limit.toNat < (o.map (fun e => e.tx.cycles)).sum + e.tx.cycles := by
  have hno' : ∀ e ∈ (arrivals n ops).filter (Entry.inWindow current timeout), limit.toNat + e.tx.cycles < 2 ^ 64 :=
    fun e he => by have := hno e (List.mem_of_mem_filter he); omega
  obtain ⟨h1, h2⟩ := takeGreedy_sum limit 0 _ hno' (by simp)
  refine ⟨selectOrder limit ((arrivals n ops).filter (Entry.inWindow current timeout)),
    hashesOf (selectPropose limit ((arrivals n ops).filter (Entry.inWindow current timeout))),
    (takeGreedy limit 0 ((arrivals n ops).filter (Entry.inWindow current timeout))).2, ?_, ?_, ?_, ?_⟩
  · rw [package_exact hc.good, hc.entries]
  · exact (takeGreedy_append limit 0 _).symm
  · simpa [selectOrder] using h1
  · intro e rest' hr
    have := h2 e rest' hr
    simpa [selectOrder] using this

theorem takeGreedy_all (limit acc : UInt64) (es : List Entry)
    (h : acc.toNat + (es.map (fun e => e.tx.cycles)).sum ≤ limit.toNat) : (takeGreedy limit acc es).1 = es := by
  induction es generalizing acc with
  | nil => rfl
  | cons e es ih =>
    simp only [List.map_cons, List.sum_cons, SignedTx.cycles] at h
    have hl := limit.toNat_lt
    have ha : (acc + e.tx.raw.fee.cycle).toNat = acc.toNat + e.tx.raw.fee.cycle.toNat := by
      rw [UInt64.toNat_add]; omega
    simp only [takeGreedy]
    rw [if_pos (by rw [UInt64.le_iff_toNat_le, ha]; omega)]
    rw [ih _ (by rw [ha]; simp only [SignedTx.cycles] at *; omega)]

/-- **C24, cache part.**  A pooled transaction in the window is in the order list of the next package when it and all
pooled transactions together fit the limit. -/
theorem C24_packaged_if_all_fit {n : Nat} {ops : List CacheOp} {c : TxCache} (hc : CacheAfter n ops c)
    {limit current timeout : UInt64}
    (hfit : ((arrivals n ops).map (fun e => e.tx.cycles)).sum ≤ limit.toNat) {tx : SignedTx} {h : Hash}
    (hg : c.get h = some tx) (hw : current < tx.raw.timeout ∧ tx.raw.timeout ≤ timeout) :
    ∃ o p, (c.package limit current timeout).1 = .ok (o, p) ∧ h ∈ o := by
  refine ⟨_, _, package_exact hc.good limit current timeout, ?_⟩
  obtain ⟨e, he, rfl, rfl⟩ := (get_eq_some hc.good).1 hg
  have hm : e ∈ c.abs.entries.filter (Entry.inWindow current timeout) :=
    List.mem_filter.2 ⟨he, by simpa [Entry.inWindow] using hw⟩
  have hsub : List.Sublist (c.abs.entries.filter (Entry.inWindow current timeout)) (arrivals n ops) := by
    rw [← hc.entries]; exact List.filter_sublist
  have hsum := sum_sublist (hsub.map (fun e => e.tx.cycles))
  unfold selectOrder
  rw [takeGreedy_all _ _ _ (by simp only [UInt64.toNat_zero]; omega)]
  exact List.mem_map_of_mem hm

namespace Demo

/-- A pool transaction for examples: hash, time-out and fee cycles. -/
def ptx (n : UInt8) (timeout cycles : UInt64) : SignedTx :=
  { raw := { chainId := hash 9, nonce := hash n, timeout := timeout, fee := ⟨gold, cycles⟩,
             action := .transfer (user 1) ⟨gold, 1⟩ },
    txHash := hash n, pubkey := [n], signature := [] }

/-- A history with a flush, an expired transaction, a duplicate and two packages. -/
def history : List CacheOp :=
  [.insert (ptx 1 10 4) false, .insert (ptx 2 10 4) true, .insert (ptx 3 2 1) false, .insert (ptx 1 11 1) false,
   .insert (ptx 4 10 4) false, .flush [hash 2], .package 5 3 20, .insert (ptx 2 10 4) false, .insert (ptx 5 10 2) false]

def cache : TxCache := (callAll TxCache.call (TxCache.new 3) history).2

theorem cache_after : CacheAfter 3 history cache := rfl

end Demo

example : (Demo.cache.package 9 3 20).1.toOption =
    some ([Demo.hash 1, Demo.hash 4], [Demo.hash 2, Demo.hash 5]) := by decide +kernel

example : ∃ o p, (Demo.cache.package 9 3 20).1 = .ok (o, p) ∧ (o ++ p).Nodup ∧
      ∀ h ∈ o ++ p, ∃ tx, Demo.cache.get h = some tx ∧ tx.txHash = h :=
  C18_package_distinct_and_pooled Demo.cache_after 9 3 20

example : Demo.cache.get (Demo.hash 3) = none ∧ Demo.cache.get (Demo.hash 1) = some (Demo.ptx 1 10 4) := by
  decide +kernel

/-- The hypotheses of `C19_cycle_limit_partial` and `C61_order_list_is_longest_prefix` hold for the example. -/
example : (∀ e ∈ arrivals 3 Demo.history, e.tx.cycles < 2 ^ 63) ∧ (arrivals 3 Demo.history).length = 4 := by
  decide +kernel

example : ∀ h tx, Demo.cache.get h = some tx → tx.cycles < 2 ^ 63 := by
  intro h tx hg
  obtain ⟨e, he, rfl, _⟩ := (get_eq_some Demo.cache_after.good).1 hg
  rw [Demo.cache_after.entries] at he
  have : ∀ e ∈ arrivals 3 Demo.history, e.tx.cycles < 2 ^ 63 := by decide +kernel
  exact this e he

/-- The hypotheses of `C24_packaged_if_all_fit` hold for the example. -/
example : ((arrivals 3 Demo.history).map (fun e => e.tx.cycles)).sum ≤ (20 : UInt64).toNat ∧
    Demo.cache.get (Demo.hash 5) = some (Demo.ptx 5 10 2) := by decide +kernel

/-- The hypotheses of `C22_flush_exact` hold with a later history that inserts other hashes and packages. -/
example : ∀ op ∈ ([.insert (Demo.ptx 6 10 1) false, .package 9 3 20] : List CacheOp), op.notInserting (Demo.hash 1) := by
  intro op h
  simp only [List.mem_cons, List.not_mem_nil, or_false] at h
  rcases h with rfl | rfl
  · simp only [CacheOp.notInserting]; decide +kernel
  · trivial

/-- **C19 is false: overflow.**  A transaction that names `2^64 - 1` fee cycles wraps the counter: with limit 10 the
order list holds transactions of 5 and of `2^64 - 1` cycles. -/
theorem C19_order_limit_refuted :
    ∃ (n : Nat) (ops : List CacheOp) (c : TxCache) (o p : List Hash) (t1 t2 : SignedTx), CacheAfter n ops c ∧
      (c.package 10 3 20).1 = .ok (o, p) ∧ t1.txHash ∈ o ∧ t2.txHash ∈ o ∧ t1 ≠ t2 ∧ c.get t1.txHash = some t1 ∧
      c.get t2.txHash = some t2 ∧ 10 < t1.cycles + t2.cycles := by
  refine ⟨3, [.insert (Demo.ptx 1 10 5) false, .insert (Demo.ptx 2 10 0xffffffffffffffff) false], _,
    [Demo.hash 1, Demo.hash 2], [], Demo.ptx 1 10 5, Demo.ptx 2 10 0xffffffffffffffff, rfl, ?_⟩
  have h : ∀ r : Except MemErr (List Hash × List Hash), r.toOption = some ([Demo.hash 1, Demo.hash 2], []) →
      r = .ok ([Demo.hash 1, Demo.hash 2], []) := by
    intro r hr; cases r with
    | error e => cases hr
    | ok x => simp only [Except.toOption, Option.some.injEq] at hr; rw [hr]
  refine ⟨h _ (by decide +kernel), ?_⟩
  decide +kernel

/-- **C19 is false: propose list.**  A transaction that alone exceeds the limit is put in the propose list. -/
theorem C19_propose_limit_refuted :
    ∃ (n : Nat) (ops : List CacheOp) (c : TxCache) (o p : List Hash) (t : SignedTx), CacheAfter n ops c ∧
      (c.package 10 3 20).1 = .ok (o, p) ∧ t.txHash ∈ p ∧ c.get t.txHash = some t ∧ 10 < t.cycles := by
  refine ⟨3, [.insert (Demo.ptx 1 10 100) false], _, [], [Demo.hash 1], Demo.ptx 1 10 100, rfl, ?_⟩
  have h : ∀ r : Except MemErr (List Hash × List Hash), r.toOption = some ([], [Demo.hash 1]) →
      r = .ok ([], [Demo.hash 1]) := by
    intro r hr; cases r with
    | error e => cases hr
    | ok x => simp only [Except.toOption, Option.some.injEq] at hr; rw [hr]
  refine ⟨h _ (by decide +kernel), ?_⟩
  decide +kernel

end Huobi
