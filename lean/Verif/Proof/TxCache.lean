import Verif.Spec.Pool
import Verif.Spec.Run
import Verif.Proof.TxMap
/-
The transaction cache, run sequentially, refines the reference pool.
-/
namespace Huobi

namespace TxCache

/-- The queue inserts and packages use. -/
def inc (c : TxCache) : List Nat := c.queue c.isZero

/-- Not flushed. -/
def isLive (c : TxCache) (id : Nat) : Bool := !(c.heap id).removed

/-- The pool entry of a wrapper. -/
def entryOf (c : TxCache) (id : Nat) : Entry := ⟨(c.heap id).tx, (c.heap id).proposed⟩

/-- Invariant between operations. -/
structure Good (c : TxCache) : Prop where
  wf : c.map.WF
  idle : c.count = 0
  other : c.queue (!c.isZero) = []
  nodup : c.inc.Nodup
  alloc : ∀ id ∈ c.inc, id < c.next
  cap : c.inc.length ≤ c.cap
  live : ∀ id ∈ c.inc, (c.heap id).removed = false → c.map.get (c.heap id).tx.txHash = some id
  mapped : ∀ h id, c.map.get h = some id → id ∈ c.inc ∧ (c.heap id).removed = false ∧ (c.heap id).tx.txHash = h

/-- The abstraction. -/
def abs (c : TxCache) : RefPool :=
  { entries := (c.inc.filter c.isLive).map c.entryOf, slots := c.inc.length, cap := c.cap }

theorem good_new (n : Nat) : (new n).Good := by
  refine ⟨TxMap.wf_new, rfl, rfl, List.nodup_nil, ?_, Nat.zero_le _, ?_, ?_⟩
  · intro id h; cases h
  · intro id h; cases h
  · intro h id hh; cases hh

theorem abs_new (n : Nat) : (new n).abs = ⟨[], 0, n * 2⟩ := rfl

@[simp] theorem queue_setQueue_same (c : TxCache) (z : Bool) (q : List Nat) : (c.setQueue z q).queue z = q := by
  cases z <;> rfl

@[simp] theorem queue_setQueue_not (c : TxCache) (z : Bool) (q : List Nat) : (c.setQueue z q).queue (!z) = c.queue (!z) := by
  cases z <;> rfl

@[simp] theorem queue_setQueue_not' (c : TxCache) (z : Bool) (q : List Nat) : (c.setQueue (!z) q).queue z = c.queue z := by
  cases z <;> rfl

@[simp] theorem setQueue_heap (c : TxCache) (z : Bool) (q : List Nat) : (c.setQueue z q).heap = c.heap := by
  cases z <;> rfl
@[simp] theorem setQueue_map (c : TxCache) (z : Bool) (q : List Nat) : (c.setQueue z q).map = c.map := by
  cases z <;> rfl
@[simp] theorem setQueue_cap (c : TxCache) (z : Bool) (q : List Nat) : (c.setQueue z q).cap = c.cap := by
  cases z <;> rfl
@[simp] theorem setQueue_next (c : TxCache) (z : Bool) (q : List Nat) : (c.setQueue z q).next = c.next := by
  cases z <;> rfl
@[simp] theorem setQueue_count (c : TxCache) (z : Bool) (q : List Nat) : (c.setQueue z q).count = c.count := by
  cases z <;> rfl
@[simp] theorem setQueue_isZero (c : TxCache) (z : Bool) (q : List Nat) : (c.setQueue z q).isZero = c.isZero := by
  cases z <;> rfl

theorem Good.mem_hashes {c : TxCache} (g : c.Good) (h : Hash) :
    h ∈ hashesOf c.abs.entries ↔ (c.map.get h).isSome := by
  simp only [hashesOf, abs, List.map_map, List.mem_map, List.mem_filter, isLive, Function.comp, entryOf]
  constructor
  · rintro ⟨id, ⟨hi, hl⟩, rfl⟩
    rw [g.live id hi (by simpa using hl)]; rfl
  · intro hs
    obtain ⟨id, hid⟩ := Option.isSome_iff_exists.1 hs
    obtain ⟨h1, h2, h3⟩ := g.mapped h id hid
    exact ⟨id, ⟨h1, by simp [h2]⟩, h3⟩

theorem Good.hashes_nodup {c : TxCache} (g : c.Good) : (hashesOf c.abs.entries).Nodup := by
  simp only [hashesOf, abs, List.map_map]
  refine (List.nodup_map_iff_inj_on (g.nodup.filter _)).2 ?_
  intro a ha b hb hab
  rw [List.mem_filter] at ha hb
  simp only [Function.comp, entryOf] at hab
  have e1 := g.live a ha.1 (by simpa [isLive] using ha.2)
  have e2 := g.live b hb.1 (by simpa [isLive] using hb.2)
  rw [hab, e2] at e1
  simpa using e1.symm

theorem find_of_nodup {es : List Entry} (hnd : (hashesOf es).Nodup) {e : Entry} (he : e ∈ es) :
    es.find? (fun x => x.tx.txHash = e.tx.txHash) = some e := by
  induction es with
  | nil => cases he
  | cons a es ih =>
    simp only [hashesOf, List.map_cons, List.nodup_cons] at hnd
    rw [List.find?_cons]
    rcases List.mem_cons.1 he with rfl | hm
    · simp
    · have : a.tx.txHash ≠ e.tx.txHash := fun hh => hnd.1 (hh ▸ List.mem_map_of_mem (f := fun e : Entry => e.tx.txHash) hm)
      simp only [this, decide_false]
      exact ih hnd.2 hm

theorem Good.abs_get {c : TxCache} (g : c.Good) (h : Hash) : c.abs.get h = c.get h := by
  unfold RefPool.get get
  cases hm : c.map.get h with
  | none =>
    have : h ∉ hashesOf c.abs.entries := by rw [g.mem_hashes]; simp [hm]
    have hf : c.abs.entries.find? (fun e => e.tx.txHash = h) = none := by
      rw [List.find?_eq_none]
      intro e he hh
      exact this (by simp only [decide_eq_true_eq] at hh; rw [← hh]; exact List.mem_map_of_mem (f := fun e : Entry => e.tx.txHash) he)
    rw [hf]; rfl
  | some id =>
    obtain ⟨h1, h2, h3⟩ := g.mapped h id hm
    have he : c.entryOf id ∈ c.abs.entries := by
      simp only [abs]
      exact List.mem_map_of_mem (List.mem_filter.2 ⟨h1, by simp [isLive, h2]⟩)
    have := find_of_nodup g.hashes_nodup he
    have h3' : (c.entryOf id).tx.txHash = h := h3
    rw [h3'] at this
    rw [this]; rfl

theorem Good.abs_len {c : TxCache} (g : c.Good) : c.abs.entries.length = c.len := by
  have h1 : (hashesOf c.abs.entries).Perm c.map.allKeys := by
    rw [List.perm_ext_iff_of_nodup g.hashes_nodup (TxMap.nodup_allKeys g.wf)]
    intro h
    rw [g.mem_hashes, TxMap.mem_allKeys g.wf]
  have h2 := h1.length_eq
  rw [TxMap.length_allKeys] at h2
  simp only [hashesOf, List.length_map] at h2
  exact h2

/-- Wrappers that agree on the ids of a list give the same entries. -/
theorem filter_map_congr {c c' : TxCache} {q : List Nat} (h : ∀ id ∈ q, c'.heap id = c.heap id) :
    (q.filter c'.isLive).map c'.entryOf = (q.filter c.isLive).map c.entryOf := by
  induction q with
  | nil => rfl
  | cons a q ih =>
    have ha := h a (by simp)
    have ih := ih (fun id hid => h id (by simp [hid]))
    have e1 : c'.isLive a = c.isLive a := by simp only [isLive, ha]
    have e2 : c'.entryOf a = c.entryOf a := by simp only [entryOf, ha]
    simp only [List.filter_cons, e1]
    split
    · simp only [List.map_cons, e2, ih]
    · exact ih

section insert

variable {c : TxCache}

theorem insert_dup (tx : SignedTx) (p : Bool) (h : (c.map.get tx.txHash).isSome) :
    c.insert tx p = (.error (.dup tx.txHash), (c.alloc ⟨tx, false, p⟩).2) := by
  unfold insert
  have : ((c.alloc ⟨tx, false, p⟩).2.map.insert tx.txHash (c.alloc ⟨tx, false, p⟩).1).1 = some c.next := by
    rw [TxMap.insert_fst]
    show (if (c.map.get tx.txHash).isSome = true then _ else _) = _
    rw [if_pos h]; rfl
  simp only [this]

/-- State after a successful insertion. -/
def inserted (c : TxCache) (tx : SignedTx) (p : Bool) : TxCache :=
  ({ (c.alloc ⟨tx, false, p⟩).2 with map := (c.map.insert tx.txHash c.next).2 }).setQueue c.isZero (c.inc ++ [c.next])

theorem insert_ok (tx : SignedTx) (p : Bool) (h : c.map.get tx.txHash = none) (hcap : c.inc.length < c.cap) :
    c.insert tx p = (.ok (), c.inserted tx p) := by
  rcases c with ⟨heap, next, q0, q1, cap, map, z, count⟩
  have e1 : (map.insert tx.txHash next).1 = none := by
    rw [TxMap.insert_fst]
    have h : map.get tx.txHash = none := h
    rw [h]; rfl
  cases z
  · have hcap : q1.length < cap := hcap
    simp [insert, alloc, e1, push, queue, hcap, inserted, setQueue, inc]
  · have hcap : q0.length < cap := hcap
    simp [insert, alloc, e1, push, queue, hcap, inserted, setQueue, inc]

theorem insert_full (tx : SignedTx) (p : Bool) (h : c.map.get tx.txHash = none) (hcap : ¬ c.inc.length < c.cap) :
    c.insert tx p = (.error (.insert tx.txHash),
      { (c.alloc ⟨tx, false, p⟩).2 with map := (c.map.insert tx.txHash c.next).2.remove tx.txHash }) := by
  rcases c with ⟨heap, next, q0, q1, cap, map, z, count⟩
  have e1 : (map.insert tx.txHash next).1 = none := by
    rw [TxMap.insert_fst]
    have h : map.get tx.txHash = none := h
    rw [h]; rfl
  cases z
  · have hcap : ¬ q1.length < cap := hcap
    simp [insert, alloc, e1, push, queue, hcap]
  · have hcap : ¬ q0.length < cap := hcap
    simp [insert, alloc, e1, push, queue, hcap]

end insert

theorem Good.alloc_good {c : TxCache} (g : c.Good) (w : Wrapper) : (c.alloc w).2.Good := by
  have hinc : (c.alloc w).2.inc = c.inc := rfl
  have hh : ∀ id ∈ c.inc, (c.alloc w).2.heap id = c.heap id := by
    intro id hid
    have := g.alloc id hid
    simp only [TxCache.alloc]
    rw [if_neg (by omega)]
  refine ⟨g.wf, g.idle, g.other, g.nodup, ?_, g.cap, ?_, ?_⟩
  · intro id hid; have := g.alloc id hid; simp only [TxCache.alloc]; omega
  · intro id hid
    rw [hh id hid]; exact g.live id hid
  · intro h id hm
    obtain ⟨h1, h2, h3⟩ := g.mapped h id hm
    exact ⟨h1, by rw [hh id h1]; exact h2, by rw [hh id h1]; exact h3⟩

theorem Good.alloc_abs {c : TxCache} (g : c.Good) (w : Wrapper) : (c.alloc w).2.abs = c.abs := by
  have hh : ∀ id ∈ c.inc, (c.alloc w).2.heap id = c.heap id := by
    intro id hid
    have := g.alloc id hid
    simp only [TxCache.alloc]
    rw [if_neg (by omega)]
  unfold abs
  rw [show (c.alloc w).2.inc = c.inc from rfl, filter_map_congr hh]
  rfl

theorem inserted_inc (c : TxCache) (tx : SignedTx) (p : Bool) : (c.inserted tx p).inc = c.inc ++ [c.next] := by
  unfold inserted inc
  rw [setQueue_isZero]
  exact queue_setQueue_same _ _ _

theorem inserted_heap (c : TxCache) (tx : SignedTx) (p : Bool) (i : Nat) :
    (c.inserted tx p).heap i = if i = c.next then ⟨tx, false, p⟩ else c.heap i := by
  unfold inserted; rw [setQueue_heap]; rfl

theorem inserted_get (c : TxCache) (tx : SignedTx) (p : Bool) (h : c.map.get tx.txHash = none) (k : Hash) :
    (c.inserted tx p).map.get k = if k = tx.txHash then some c.next else c.map.get k := by
  unfold inserted; rw [setQueue_map]
  show ((c.map.insert tx.txHash c.next).2).get k = _
  rw [TxMap.get_insert]; simp [h]

theorem Good.inserted_good {c : TxCache} (g : c.Good) (tx : SignedTx) (p : Bool) (h : c.map.get tx.txHash = none)
    (hcap : c.inc.length < c.cap) : (c.inserted tx p).Good := by
  have hlt : ∀ id ∈ c.inc, id ≠ c.next := fun id hid => by have := g.alloc id hid; omega
  refine ⟨?_, ?_, ?_, ?_, ?_, ?_, ?_, ?_⟩
  · unfold inserted; rw [setQueue_map]; exact TxMap.wf_insert g.wf _ _
  · unfold inserted; rw [setQueue_count]; exact g.idle
  · unfold inserted; rw [setQueue_isZero]
    show (setQueue _ c.isZero _).queue (!c.isZero) = []
    rw [queue_setQueue_not]; exact g.other
  · rw [inserted_inc, List.nodup_append]
    refine ⟨g.nodup, List.nodup_singleton _, ?_⟩
    intro a ha b hb
    rw [List.mem_singleton] at hb; subst hb
    exact hlt a ha
  · intro id hid
    have hn : (c.inserted tx p).next = c.next + 1 := by unfold inserted; rw [setQueue_next]; rfl
    rw [inserted_inc, List.mem_append, List.mem_singleton] at hid
    rw [hn]
    rcases hid with hid | rfl
    · have := g.alloc id hid; omega
    · omega
  · rw [inserted_inc]
    have : (c.inserted tx p).cap = c.cap := by unfold inserted; rw [setQueue_cap]; rfl
    rw [this, List.length_append, List.length_singleton]; omega
  · intro id hid hr
    rw [inserted_inc, List.mem_append, List.mem_singleton] at hid
    rw [inserted_heap] at hr ⊢
    rw [inserted_get _ _ _ h]
    rcases hid with hid | rfl
    · rw [if_neg (hlt id hid)] at hr ⊢
      have := g.live id hid hr
      split
      · rename_i hc; rw [hc, h] at this; cases this
      · exact this
    · simp
  · intro k id hm
    rw [inserted_get _ _ _ h] at hm
    rw [inserted_inc, inserted_heap]
    split at hm
    · rename_i hk
      simp only [Option.some.injEq] at hm
      subst hm
      simp [hk]
    · obtain ⟨h1, h2, h3⟩ := g.mapped k id hm
      rw [if_neg (hlt id h1)]
      exact ⟨by simp [h1], h2, h3⟩

theorem Good.inserted_abs {c : TxCache} (g : c.Good) (tx : SignedTx) (p : Bool) :
    (c.inserted tx p).abs =
      { c.abs with entries := c.abs.entries ++ [⟨tx, p⟩], slots := c.abs.slots + 1 } := by
  have hh : ∀ id ∈ c.inc, (c.inserted tx p).heap id = c.heap id := by
    intro id hid
    have := g.alloc id hid
    rw [inserted_heap, if_neg (by omega)]
  have hcap : (c.inserted tx p).cap = c.cap := by unfold inserted; rw [setQueue_cap]; rfl
  unfold abs
  rw [inserted_inc, List.filter_append, List.map_append, filter_map_congr hh, hcap]
  have hl : (c.inserted tx p).isLive c.next = true := by simp [isLive, inserted_heap]
  simp [hl, entryOf, inserted_heap]

theorem Good.full_good {c : TxCache} (g : c.Good) (tx : SignedTx) (p : Bool) (h : c.map.get tx.txHash = none) :
    ({ (c.alloc ⟨tx, false, p⟩).2 with map := (c.map.insert tx.txHash c.next).2.remove tx.txHash } : TxCache).Good ∧
    ({ (c.alloc ⟨tx, false, p⟩).2 with map := (c.map.insert tx.txHash c.next).2.remove tx.txHash } : TxCache).abs = c.abs := by
  have ga := g.alloc_good ⟨tx, false, p⟩
  have hg : ∀ k, ((c.map.insert tx.txHash c.next).2.remove tx.txHash).get k = c.map.get k := by
    intro k
    rw [TxMap.get_remove (TxMap.wf_insert g.wf _ _), TxMap.get_insert]
    by_cases hk : k = tx.txHash
    · subst hk; simp [h]
    · simp [hk]
  refine ⟨⟨TxMap.wf_remove (TxMap.wf_insert g.wf _ _) _, ga.idle, ga.other, ga.nodup, ga.alloc, ga.cap, ?_, ?_⟩, ?_⟩
  · intro id hid hr
    show ((c.map.insert tx.txHash c.next).2.remove tx.txHash).get _ = _
    rw [hg]; exact ga.live id hid hr
  · intro k id hm
    have hm' : ((c.map.insert tx.txHash c.next).2.remove tx.txHash).get k = some id := hm
    rw [hg] at hm'
    exact ga.mapped k id hm'
  · exact g.alloc_abs _

theorem Good.insert_refines {c : TxCache} (g : c.Good) (tx : SignedTx) (p : Bool) :
    (c.call (.insert tx p)).1 = (c.abs.call (.insert tx p)).1 ∧ (c.call (.insert tx p)).2.Good ∧
    (c.call (.insert tx p)).2.abs = (c.abs.call (.insert tx p)).2 := by
  simp only [call, RefPool.call]
  by_cases hm : (c.map.get tx.txHash).isSome = true
  · rw [insert_dup tx p hm, if_pos ((g.mem_hashes _).2 hm)]
    exact ⟨rfl, g.alloc_good _, g.alloc_abs _⟩
  · rw [if_neg (fun h => hm ((g.mem_hashes _).1 h))]
    have hn : c.map.get tx.txHash = none := by simpa using hm
    by_cases hc : c.inc.length < c.cap
    · rw [insert_ok tx p hn hc, if_pos (show c.abs.slots < c.abs.cap from hc)]
      exact ⟨rfl, g.inserted_good tx p hn hc, g.inserted_abs tx p⟩
    · rw [insert_full tx p hn hc, if_neg (show ¬ c.abs.slots < c.abs.cap from hc)]
      exact ⟨rfl, (g.full_good tx p hn).1, (g.full_good tx p hn).2⟩

section flush

theorem markRemoved_fields (c : TxCache) (hs : List Hash) :
    (c.markRemoved hs).map = c.map ∧ (c.markRemoved hs).q0 = c.q0 ∧ (c.markRemoved hs).q1 = c.q1 ∧
    (c.markRemoved hs).isZero = c.isZero ∧ (c.markRemoved hs).cap = c.cap ∧ (c.markRemoved hs).next = c.next ∧
    (c.markRemoved hs).count = c.count := by
  induction hs generalizing c with
  | nil => exact ⟨rfl, rfl, rfl, rfl, rfl, rfl, rfl⟩
  | cons h hs ih =>
    simp only [markRemoved]
    split
    · rename_i id _; exact ih (c.setRemoved id)
    · exact ih c

theorem markRemoved_heap (c : TxCache) (hs : List Hash) (id : Nat) :
    (c.markRemoved hs).heap id =
      if ∃ h ∈ hs, c.map.get h = some id then { c.heap id with removed := true } else c.heap id := by
  induction hs generalizing c with
  | nil => simp [markRemoved]
  | cons h hs ih =>
    simp only [markRemoved]
    split
    · rename_i id' hid'
      rw [ih]
      have hm : (c.setRemoved id').map = c.map := rfl
      rw [hm]
      by_cases he : id = id'
      · subst he
        have : ∃ h' ∈ h :: hs, c.map.get h' = some id := ⟨h, by simp, hid'⟩
        rw [if_pos this]
        simp only [setRemoved, if_true]
        split <;> rfl
      · have hne : c.map.get h ≠ some id := by rw [hid']; simpa using fun e => he e.symm
        simp only [setRemoved, he, if_false, List.mem_cons, exists_eq_or_imp, hne, false_or]
    · rename_i hid'
      rw [ih]
      simp [hid']

theorem Good.flush_refines {c : TxCache} (g : c.Good) (hs : List Hash) :
    (c.flush hs).Good ∧ (c.flush hs).abs = (c.abs.call (.flush hs)).2 := by
  obtain ⟨f1, f2, f3, f4, f5, f6, f7⟩ := markRemoved_fields c hs
  have hinc : (c.flush hs).inc = c.inc := by
    simp only [inc, queue, flush, f2, f3, f4]
  have hmap : ∀ k, (c.flush hs).map.get k = if k ∈ hs then none else c.map.get k := by
    intro k
    simp only [flush, f1]
    exact TxMap.get_deletes g.wf hs k
  have htx : ∀ id, ((c.flush hs).heap id).tx = (c.heap id).tx ∧ ((c.flush hs).heap id).proposed = (c.heap id).proposed := by
    intro id
    simp only [flush, markRemoved_heap]
    split <;> exact ⟨rfl, rfl⟩
  have hrem : ∀ id ∈ c.inc, ((c.flush hs).heap id).removed = ((c.heap id).removed || decide ((c.heap id).tx.txHash ∈ hs)) := by
    intro id hid
    simp only [flush, markRemoved_heap]
    split
    · rename_i hex
      obtain ⟨h, hm, hg⟩ := hex
      have := (g.mapped h id hg).2.2
      subst this
      simp [hm]
    · rename_i hex
      cases hr : (c.heap id).removed with
      | true => rfl
      | false =>
        have := g.live id hid hr
        have : (c.heap id).tx.txHash ∉ hs := fun hm => hex ⟨_, hm, this⟩
        simp [this]
  refine ⟨⟨?_, ?_, ?_, ?_, ?_, ?_, ?_, ?_⟩, ?_⟩
  · simp only [flush, f1]; exact TxMap.wf_deletes g.wf hs
  · simp only [flush, f7]; exact g.idle
  · have := g.other
    simp only [queue, flush, f2, f3, f4] at this ⊢
    exact this
  · rw [hinc]; exact g.nodup
  · intro id hid
    rw [hinc] at hid
    simp only [flush, f6]
    exact g.alloc id hid
  · rw [hinc]; simp only [flush, f5]; exact g.cap
  · intro id hid hr
    rw [hinc] at hid
    rw [hrem id hid] at hr
    simp only [Bool.or_eq_false_iff, decide_eq_false_iff_not] at hr
    rw [(htx id).1, hmap, if_neg hr.2]
    exact g.live id hid hr.1
  · intro k id hm
    rw [hmap] at hm
    split at hm
    · cases hm
    · rename_i hk
      obtain ⟨h1, h2, h3⟩ := g.mapped k id hm
      rw [hinc]
      refine ⟨h1, ?_, ?_⟩
      · rw [hrem id h1, h2, h3]; simp [hk]
      · rw [(htx id).1]; exact h3
  · simp only [RefPool.call, abs]
    rw [hinc, show (c.flush hs).cap = c.cap by simp only [flush, f5]]
    congr 1
    rw [List.filter_map, List.filter_filter]
    have e1 : c.inc.filter (c.flush hs).isLive =
        c.inc.filter (fun a => (((fun e : Entry => decide (e.tx.txHash ∉ hs)) ∘ c.entryOf) a && c.isLive a)) := by
      apply List.filter_congr
      intro id hid
      simp only [isLive, hrem id hid, Function.comp, entryOf]
      cases (c.heap id).removed <;> by_cases hx : (c.heap id).tx.txHash ∈ hs <;> simp [hx]
    rw [e1]
    apply List.map_congr_left
    intro id _
    simp only [entryOf, htx id]

end flush

section package

/-- The loop on entries instead of wrappers. -/
def loopE (limit current timeout : UInt64) : Pk → List Entry → Pk
  | pk, [] => pk
  | pk, e :: es =>
    loopE limit current timeout
      (if e.inWindow current timeout then pk.take limit ⟨e.tx, false, e.proposed⟩
       else { pk with timeouts := pk.timeouts ++ [e.tx.txHash] }) es

theorem isTimeout_eq (w : Wrapper) (current timeout : UInt64) :
    w.isTimeout current timeout = !(Entry.inWindow current timeout ⟨w.tx, w.proposed⟩) := by
  simp only [Wrapper.isTimeout, Entry.inWindow]
  by_cases h1 : w.tx.raw.timeout ≤ current <;> by_cases h2 : w.tx.raw.timeout ≤ timeout
  all_goals
    first
    | (have h1' : ¬ current < w.tx.raw.timeout := UInt64.not_lt.2 h1)
    | (have h1' : current < w.tx.raw.timeout := UInt64.not_le.1 h1)
  all_goals
    first
    | (have h2' : ¬ timeout < w.tx.raw.timeout := UInt64.not_lt.2 h2)
    | (have h2' : timeout < w.tx.raw.timeout := UInt64.not_le.1 h2)
  all_goals simp [h1, h2, h1', h2']

theorem packageLoop_eq (c : TxCache) (limit current timeout : UInt64) (pk : Pk) (q cand : List Nat)
    (hcap : q.length + cand.length ≤ c.cap) :
    packageLoop c.heap c.cap limit current timeout pk q cand =
      (.ok (loopE limit current timeout pk ((q.filter c.isLive).map c.entryOf)), [],
        cand ++ q.filter (fun id => c.isLive id && Entry.inWindow current timeout (c.entryOf id))) := by
  induction q generalizing pk cand with
  | nil => simp [packageLoop, loopE]
  | cons id q ih =>
    simp only [List.length_cons] at hcap
    simp only [packageLoop]
    by_cases hr : (c.heap id).removed = true
    · rw [if_pos hr, ih _ _ (by omega)]
      have hl : c.isLive id = false := by simp [isLive, hr]
      simp [hl]
    · rw [if_neg hr]
      have hl : c.isLive id = true := by simp [isLive, hr]
      rw [isTimeout_eq]
      cases hw : Entry.inWindow current timeout ⟨(c.heap id).tx, (c.heap id).proposed⟩ with
      | false =>
        simp only [Bool.not_false, if_true]
        rw [ih _ _ (by omega)]
        simp only [List.filter_cons, hl, if_true, List.map_cons, loopE, entryOf, hw, Bool.and_false]
        rfl
      | true =>
        simp only [Bool.not_true, Bool.false_eq_true, if_false]
        rw [if_pos (by omega), ih _ _ (by simp only [List.length_append, List.length_singleton]; omega)]
        simp only [List.filter_cons, hl, if_true, List.map_cons, loopE, entryOf, hw, Bool.and_true]
        have : (c.heap id) = ⟨(c.heap id).tx, false, (c.heap id).proposed⟩ := by
          rcases hx : c.heap id with ⟨t, r, p⟩
          rw [hx] at hr
          simp only [Bool.not_eq_true] at hr
          subst hr; rfl
        rw [← this]
        simp

theorem loopE_timeouts (limit current timeout : UInt64) (es : List Entry) (pk : Pk) :
    (loopE limit current timeout pk es).timeouts =
      pk.timeouts ++ hashesOf (es.filter (fun e => !e.inWindow current timeout)) := by
  have ht : ∀ (pk : Pk) (w : Wrapper), (pk.take limit w).timeouts = pk.timeouts := by
    intro pk w
    unfold Pk.take
    split
    · rfl
    · simp only
      split <;> (split <;> rfl)
  induction es generalizing pk with
  | nil => simp [loopE, hashesOf]
  | cons e es ih =>
    simp only [loopE]
    rw [ih]
    cases hw : e.inWindow current timeout with
    | true => simp [hw, ht]
    | false => simp [hw, hashesOf]

/-- Only the entries in the window matter for the selection. -/
theorem loopE_filter (limit current timeout : UInt64) (es : List Entry) (pk pk' : Pk)
    (h : pk.order = pk'.order ∧ pk.propose = pk'.propose ∧ pk.cycles = pk'.cycles ∧ pk.stage = pk'.stage) :
    (loopE limit current timeout pk es).order =
      ((es.filter (Entry.inWindow current timeout)).foldl (fun pk e => pk.take limit ⟨e.tx, false, e.proposed⟩) pk').order ∧
    (loopE limit current timeout pk es).propose =
      ((es.filter (Entry.inWindow current timeout)).foldl (fun pk e => pk.take limit ⟨e.tx, false, e.proposed⟩) pk').propose := by
  induction es generalizing pk pk' with
  | nil => exact ⟨h.1, h.2.1⟩
  | cons e es ih =>
    simp only [loopE]
    obtain ⟨a, b, t, cy, st⟩ := pk
    obtain ⟨a', b', t', cy', st'⟩ := pk'
    simp only at h
    obtain ⟨rfl, rfl, rfl, rfl⟩ := h
    cases hw : e.inWindow current timeout with
    | true =>
      simp only [List.filter_cons, hw, if_true, List.foldl_cons]
      apply ih
      unfold Pk.take
      simp only
      split
      · exact ⟨rfl, rfl, rfl, rfl⟩
      · by_cases hc : limit < cy + e.tx.raw.fee.cycle <;> cases st <;> simp [Stage.next, hc]
    | false =>
      simp only [List.filter_cons, hw, Bool.false_eq_true, if_false]
      apply ih
      exact ⟨rfl, rfl, rfl, rfl⟩

theorem fold_finished (limit : UInt64) (es : List Entry) (pk : Pk) (h : pk.stage = .finished) :
    es.foldl (fun pk e => pk.take limit ⟨e.tx, false, e.proposed⟩) pk = pk := by
  induction es with
  | nil => rfl
  | cons e es ih =>
    rw [List.foldl_cons]
    have : pk.take limit ⟨e.tx, false, e.proposed⟩ = pk := by unfold Pk.take; simp [h]
    rw [this]; exact ih

theorem fold_propose (limit : UInt64) (es : List Entry) (pk : Pk) (h : pk.stage = .proposeTxs) :
    (es.foldl (fun pk e => pk.take limit ⟨e.tx, false, e.proposed⟩) pk).order = pk.order ∧
    (es.foldl (fun pk e => pk.take limit ⟨e.tx, false, e.proposed⟩) pk).propose =
      pk.propose ++ hashesOf (takeGreedy limit pk.cycles (es.filter (fun e => !e.proposed))).1 := by
  induction es generalizing pk with
  | nil => simp [takeGreedy, hashesOf]
  | cons e es ih =>
    rw [List.foldl_cons]
    cases hp : e.proposed with
    | true =>
      have : pk.take limit ⟨e.tx, false, true⟩ = pk := by unfold Pk.take; simp [h]
      rw [this]
      simp only [List.filter_cons, hp, Bool.not_true, Bool.false_eq_true, if_false]
      exact ih pk h
    | false =>
      simp only [List.filter_cons, hp, Bool.not_false, if_true, takeGreedy]
      by_cases hc : pk.cycles + e.tx.raw.fee.cycle ≤ limit
      · have hc' : ¬ limit < pk.cycles + e.tx.raw.fee.cycle := UInt64.not_lt.2 hc
        have : pk.take limit ⟨e.tx, false, false⟩ =
            { pk with cycles := pk.cycles + e.tx.raw.fee.cycle, propose := pk.propose ++ [e.tx.txHash] } := by
          unfold Pk.take; simp [h, hc']
        rw [this, if_pos hc]
        obtain ⟨i1, i2⟩ := ih { pk with cycles := pk.cycles + e.tx.raw.fee.cycle, propose := pk.propose ++ [e.tx.txHash] } h
        refine ⟨i1, ?_⟩
        rw [i2]; simp [hashesOf]
      · have hc' : limit < pk.cycles + e.tx.raw.fee.cycle := UInt64.not_le.1 hc
        have : pk.take limit ⟨e.tx, false, false⟩ =
            { pk with stage := .finished, cycles := e.tx.raw.fee.cycle } := by
          unfold Pk.take; simp [h, hc', Stage.next]
        rw [this, if_neg hc, fold_finished _ _ _ rfl]
        simp [hashesOf]

theorem fold_order (limit : UInt64) (es : List Entry) (pk : Pk) (h : pk.stage = .orderTxs) :
    (es.foldl (fun pk e => pk.take limit ⟨e.tx, false, e.proposed⟩) pk).order =
      pk.order ++ hashesOf (takeGreedy limit pk.cycles es).1 ∧
    (es.foldl (fun pk e => pk.take limit ⟨e.tx, false, e.proposed⟩) pk).propose =
      pk.propose ++ hashesOf (match (takeGreedy limit pk.cycles es).2 with
        | [] => []
        | e :: rest => e :: (takeGreedy limit e.tx.raw.fee.cycle (rest.filter (fun e => !e.proposed))).1) := by
  induction es generalizing pk with
  | nil => simp [takeGreedy, hashesOf]
  | cons e es ih =>
    rw [List.foldl_cons]
    simp only [takeGreedy]
    by_cases hc : pk.cycles + e.tx.raw.fee.cycle ≤ limit
    · have hc' : ¬ limit < pk.cycles + e.tx.raw.fee.cycle := UInt64.not_lt.2 hc
      have : pk.take limit ⟨e.tx, false, e.proposed⟩ =
          { pk with cycles := pk.cycles + e.tx.raw.fee.cycle, order := pk.order ++ [e.tx.txHash] } := by
        unfold Pk.take; simp [h, hc']
      rw [this, if_pos hc]
      obtain ⟨i1, i2⟩ := ih { pk with cycles := pk.cycles + e.tx.raw.fee.cycle, order := pk.order ++ [e.tx.txHash] } h
      refine ⟨?_, ?_⟩
      · rw [i1]; simp [hashesOf]
      · rw [i2]
    · have hc' : limit < pk.cycles + e.tx.raw.fee.cycle := UInt64.not_le.1 hc
      have : pk.take limit ⟨e.tx, false, e.proposed⟩ =
          { pk with stage := .proposeTxs, cycles := e.tx.raw.fee.cycle, propose := pk.propose ++ [e.tx.txHash] } := by
        unfold Pk.take; simp [h, hc', Stage.next]
      rw [this, if_neg hc]
      obtain ⟨i1, i2⟩ := fold_propose limit es
        { pk with stage := .proposeTxs, cycles := e.tx.raw.fee.cycle, propose := pk.propose ++ [e.tx.txHash] } rfl
      refine ⟨?_, ?_⟩
      · rw [i1]; simp [hashesOf]
      · rw [i2]; simp [hashesOf]

theorem omissionLoop_nil (cap : Nat) (q : List Nat) : omissionLoop cap q [] = q := rfl

theorem Good.package_refines {c : TxCache} (g : c.Good) (limit current timeout : UInt64) :
    (c.call (.package limit current timeout)).1 = (c.abs.call (.package limit current timeout)).1 ∧
    (c.call (.package limit current timeout)).2.Good ∧
    (c.call (.package limit current timeout)).2.abs = (c.abs.call (.package limit current timeout)).2 := by
  simp only [call]
  have hcap := g.cap
  have hl := packageLoop_eq c limit current timeout Pk.init c.inc []
    (by simp only [List.length_nil]; omega)
  have hother : c.queue (!c.isZero) = [] := g.other
  have hpk : c.package limit current timeout =
      (.ok ((loopE limit current timeout Pk.init c.abs.entries).order,
        (loopE limit current timeout Pk.init c.abs.entries).propose),
       { ((c.setQueue c.isZero []).setQueue (!c.isZero)
            (c.inc.filter (fun id => c.isLive id && Entry.inWindow current timeout (c.entryOf id)))) with
          isZero := !c.isZero
          map := c.map.deletes (loopE limit current timeout Pk.init c.abs.entries).timeouts }) := by
    unfold package
    simp only
    rw [hother, show c.queue c.isZero = c.inc from rfl, hl]
    simp only [omissionLoop, List.nil_append, setQueue_map]
    rfl
  rw [hpk]
  -- the new state
  generalize hc' : ({ ((c.setQueue c.isZero []).setQueue (!c.isZero)
            (c.inc.filter (fun id => c.isLive id && Entry.inWindow current timeout (c.entryOf id)))) with
          isZero := !c.isZero
          map := c.map.deletes (loopE limit current timeout Pk.init c.abs.entries).timeouts } : TxCache) = c'
  have hinc : c'.inc = c.inc.filter (fun id => c.isLive id && Entry.inWindow current timeout (c.entryOf id)) := by
    subst hc'
    unfold inc queue setQueue
    cases c.isZero <;> rfl
  have hheap : c'.heap = c.heap := by subst hc'; simp
  have hmap : ∀ k, c'.map.get k =
      if k ∈ hashesOf (c.abs.entries.filter (fun e => !e.inWindow current timeout)) then none else c.map.get k := by
    intro k
    subst hc'
    show (c.map.deletes _).get k = _
    rw [TxMap.get_deletes g.wf, loopE_timeouts]
    by_cases hk : k ∈ hashesOf (List.filter (fun e => !Entry.inWindow current timeout e) c.abs.entries) <;>
      simp [Pk.init, hk]
  have hlive : c'.isLive = c.isLive := by funext id; simp only [isLive, hheap]
  have hentry : c'.entryOf = c.entryOf := by funext id; simp only [entryOf, hheap]
  have hout : ∀ id ∈ c.inc, c.isLive id = true →
      (((c.heap id).tx.txHash ∈ hashesOf (c.abs.entries.filter (fun e => !e.inWindow current timeout))) ↔
        Entry.inWindow current timeout (c.entryOf id) = false) := by
    intro id hid hli
    simp only [hashesOf, List.mem_map, List.mem_filter, abs]
    constructor
    · rintro ⟨e, ⟨⟨id', ⟨hid', hl'⟩, rfl⟩, hw⟩, hh⟩
      have h1 := g.live id hid (by simpa [isLive] using hli)
      have h2 := g.live id' hid' (by simpa [isLive] using hl')
      have hh' : (c.heap id').tx.txHash = (c.heap id).tx.txHash := hh
      rw [hh', h1] at h2
      simp only [Option.some.injEq] at h2
      subst h2
      simpa using hw
    · intro hw
      exact ⟨c.entryOf id, ⟨⟨id, ⟨hid, hli⟩, rfl⟩, by simp [hw]⟩, rfl⟩
  refine ⟨?_, ⟨?_, ?_, ?_, ?_, ?_, ?_, ?_, ?_⟩, ?_⟩
  · simp only [RefPool.call, selectOrder, selectPropose]
    obtain ⟨f1, f2⟩ := loopE_filter limit current timeout c.abs.entries Pk.init Pk.init ⟨rfl, rfl, rfl, rfl⟩
    obtain ⟨o1, o2⟩ := fold_order limit (c.abs.entries.filter (Entry.inWindow current timeout)) Pk.init rfl
    rw [f1, f2, o1, o2]
    simp only [Pk.init, List.nil_append]
    rfl
  · subst hc'; exact TxMap.wf_deletes g.wf _
  · subst hc'; simp [g.idle]
  · subst hc'
    unfold queue setQueue
    cases c.isZero <;> rfl
  · rw [hinc]; exact g.nodup.filter _
  · intro id hid
    rw [hinc] at hid
    have : c'.next = c.next := by subst hc'; simp
    rw [this]; exact g.alloc id (List.mem_of_mem_filter hid)
  · rw [hinc]
    have : c'.cap = c.cap := by subst hc'; simp
    rw [this]; exact Nat.le_trans (List.length_filter_le _ _) g.cap
  · intro id hid hr
    rw [hinc, List.mem_filter] at hid
    rw [hheap] at hr ⊢
    rw [hmap]
    simp only [Bool.and_eq_true] at hid
    rw [if_neg]
    · exact g.live id hid.1 hr
    · rw [hout id hid.1 hid.2.1, hid.2.2]; simp
  · intro k id hm
    rw [hmap] at hm
    split at hm
    · cases hm
    · rename_i hk
      obtain ⟨h1, h2, h3⟩ := g.mapped k id hm
      have hl' : c.isLive id = true := by simp [isLive, h2]
      rw [← h3, hout id h1 hl'] at hk
      rw [hinc, hheap, List.mem_filter]
      refine ⟨⟨h1, ?_⟩, h2, h3⟩
      rw [hl', Bool.true_and]; simpa using hk
  · simp only [RefPool.call]
    have hcap' : c'.cap = c.cap := by subst hc'; simp
    have hf : c.inc.filter (fun id => c.isLive id && Entry.inWindow current timeout (c.entryOf id)) =
        (c.inc.filter c.isLive).filter (fun id => Entry.inWindow current timeout (c.entryOf id)) := by
      rw [List.filter_filter]
      apply List.filter_congr
      intro id _
      rw [Bool.and_comm]
    have he : (c.abs.entries.filter (Entry.inWindow current timeout)) =
        (c.inc.filter (fun id => c.isLive id && Entry.inWindow current timeout (c.entryOf id))).map c.entryOf := by
      rw [hf]; simp only [abs, List.filter_map]; rfl
    rw [he, List.length_map]
    unfold abs
    rw [hinc, hlive, hentry, hcap', List.filter_filter]
    congr 2
    apply List.filter_congr
    intro id _
    cases c.isLive id <;> simp

end package

theorem Good.call_refines {c : TxCache} (g : c.Good) (op : CacheOp) :
    (c.call op).1 = (c.abs.call op).1 ∧ (c.call op).2.Good ∧ (c.call op).2.abs = (c.abs.call op).2 := by
  cases op with
  | insert tx p => exact g.insert_refines tx p
  | flush hs => exact ⟨rfl, (g.flush_refines hs).1, (g.flush_refines hs).2⟩
  | package l cu t => exact g.package_refines l cu t
  | get h => exact ⟨by simp only [call, RefPool.call, g.abs_get], g, rfl⟩
  | contain h =>
    refine ⟨?_, g, rfl⟩
    simp only [call, RefPool.call, contain, TxMap.containsKey_eq, g.mem_hashes]
    simp
  | len => exact ⟨by simp only [call, RefPool.call, g.abs_len], g, rfl⟩
  | showUnknown hs =>
    refine ⟨?_, g, rfl⟩
    simp only [call, RefPool.call, showUnknown, contain, TxMap.containsKey_eq, g.mem_hashes]
    congr 1
    apply List.filter_congr
    intro h _
    cases c.map.get h <;> simp

end TxCache

end Huobi
