import Verif.Props.TxCacheConc
/-
What holds of the concurrent pool under every interleaving whatsoever, also when queues are full: by how much the pool can
exceed its size (C25), and that a rejected transaction leaves no trace (C21).
-/
namespace Huobi

namespace Sys

/-- The call of the thread is under way. -/
def _root_.Huobi.InsPc.running : InsPc → Prop
  | .idle => False
  | .done _ _ => False
  | _ => True

/-- At most `k` insertions are under way at the same time, now and after every step of the schedule. -/
def Crowd (k : Nat) (s : Sys) (sched : List Label) : Prop :=
  ∀ pre, pre <+: sched → ∀ L : List Nat, L.Nodup → (∀ t ∈ L, ((s.run pre).ins t).running) → L.length ≤ k

/-- The bound that is kept: with every thread that has passed the check but not yet inserted. -/
def Bound (s : Sys) (k : Nat) : Prop :=
  ∀ L : List Nat, L.Nodup → (∀ t ∈ L, ∃ id, s.ins t = .start id) → s.cache.len + L.length ≤ s.poolSize + k - 1

theorem len_of_keys {V : Type} {m m' : TxMap V} (w : m.WF) (w' : m'.WF) (h : ∀ x v, m'.get x = some v → ∃ v', m.get x = some v') : m'.len ≤ m.len := by
  rw [← TxMap.length_allKeys, ← TxMap.length_allKeys]
  refine (List.subperm_of_subset (TxMap.nodup_allKeys w') ?_).length_le
  intro x hx
  rw [TxMap.mem_allKeys w'] at hx
  rw [TxMap.mem_allKeys w]
  obtain ⟨v, hv⟩ := Option.isSome_iff_exists.1 hx
  obtain ⟨v', hv'⟩ := h x v hv
  rw [hv']; rfl

theorem len_insert {V : Type} {m : TxMap V} (w : m.WF) (h : Hash) (v : V) : (m.insert h v).2.len ≤ m.len + 1 := by
  rw [← TxMap.length_allKeys, ← TxMap.length_allKeys]
  refine (List.subperm_of_subset (l₂ := h :: m.allKeys) (TxMap.nodup_allKeys (TxMap.wf_insert w h v)) ?_).length_le
  intro x hx
  rw [TxMap.mem_allKeys (TxMap.wf_insert w h v), TxMap.get_insert] at hx
  by_cases e : x = h
  · simp [e]
  · rw [List.mem_cons, TxMap.mem_allKeys w]
    right
    split at hx
    · rename_i e'; exact absurd e'.1 e
    · exact hx

/-- The thread's transaction may be in the map: its call has inserted it and has not failed. -/
def _root_.Huobi.InsPc.holds : InsPc → Option Nat
  | .inserted id => some id
  | .counted id => some id
  | .role id _ => some id
  | .pushed id _ => some id
  | .left id _ => some id
  | .done id (.ok _) => some id
  | _ => none

/-- Everything in the map is there because of a call that is under way or succeeded. -/
structure Owned (s : Sys) : Prop where
  wf : s.cache.map.WF
  start : ∀ t id, s.ins t = .start id → id < s.cache.next
  mapped : ∀ h id, s.cache.map.get h = some id → id < s.cache.next ∧ (s.cache.heap id).tx.txHash = h ∧ ∃ t, (s.ins t).holds = some id

theorem owned_new (n : Nat) : (new n).Owned := by
  refine ⟨TxMap.wf_new, ?_, ?_⟩
  · intro t id h; cases h
  · intro h id hg; cases hg

/-- A step that takes nothing into the map. -/
theorem Owned.shrink {s s' : Sys} (o : s.Owned) (hw : s'.cache.map.WF) (hm : ∀ h id, s'.cache.map.get h = some id → s.cache.map.get h = some id)
    (hn : s.cache.next ≤ s'.cache.next) (hh : ∀ id, id < s.cache.next → (s'.cache.heap id).tx = (s.cache.heap id).tx)
    (hs : ∀ t id, s'.ins t = .start id → id < s'.cache.next)
    (hi : ∀ t h id, s'.cache.map.get h = some id → (s.ins t).holds = some id → (s'.ins t).holds = some id) : s'.Owned := by
  refine ⟨hw, hs, ?_⟩
  intro h id hg
  obtain ⟨h1, h2, t, h3⟩ := o.mapped h id (hm h id hg)
  exact ⟨by omega, by rw [hh id h1]; exact h2, t, hi t h id hg h3⟩

theorem Owned.move {s s' : Sys} {t : Nat} {p : InsPc} (o : s.Owned) (hm : s'.cache.map = s.cache.map) (hn : s'.cache.next = s.cache.next)
    (hh : ∀ id, (s'.cache.heap id).tx = (s.cache.heap id).tx) (hi : ∀ t', s'.ins t' = if t' = t then p else s.ins t')
    (hp : ∀ id, p ≠ .start id) (hk : ∀ id, (s.ins t).holds = some id → p.holds = some id) : s'.Owned := by
  refine o.shrink (by rw [hm]; exact o.wf) (by intro h id hg; rw [hm] at hg; exact hg) (by omega) (fun id _ => hh id) ?_ ?_
  · intro t' id h
    rw [hi] at h; split at h
    · exact absurd h (hp id)
    · rw [hn]; exact o.start t' id h
  · intro t' h id _ hold
    rw [hi]; split
    · rename_i e; subst e; exact hk id hold
    · exact hold

theorem Owned.alloc {s : Sys} (o : s.Owned) (t : Nat) (w : Wrapper) (ht : (s.ins t).holds = none) :
    (({ s with cache := (s.cache.alloc w).2 } : Sys).setIns t (.start s.cache.next)).Owned := by
  refine o.shrink o.wf (fun h id hg => hg) (Nat.le_succ _) ?_ ?_ ?_
  · intro id hid
    show ((s.cache.alloc w).2.heap id).tx = _
    simp only [TxCache.alloc]
    split
    · rename_i e; omega
    · rfl
  · intro t' id h
    simp only [setIns_ins] at h
    split at h
    · injection h with h; subst h; exact Nat.lt_succ_self _
    · exact Nat.lt_succ_of_lt (o.start t' id h)
  · intro t' h id _ hold
    simp only [setIns_ins]
    split
    · rename_i e; rw [e, ht] at hold; cases hold
    · exact hold

theorem Owned.same {s s' : Sys} (o : s.Owned) (hm : s'.cache.map.WF) (hm' : ∀ h id, s'.cache.map.get h = some id → s.cache.map.get h = some id)
    (hn : s'.cache.next = s.cache.next) (hh : ∀ id, (s'.cache.heap id).tx = (s.cache.heap id).tx) (hi : s'.ins = s.ins) : s'.Owned := by
  refine o.shrink hm hm' (by omega) (fun id _ => hh id) ?_ ?_
  · intro t id h; rw [hi] at h; rw [hn]; exact o.start t id h
  · intro t h id _ hold; rw [hi]; exact hold

theorem get_of_deletes {V : Type} {m : TxMap V} (w : m.WF) (hs : List Hash) {h : Hash} {v : V} (hg : (m.deletes hs).get h = some v) : m.get h = some v := by
  rw [TxMap.get_deletes w] at hg
  split at hg
  · cases hg
  · exact hg

theorem push_keeps (c : TxCache) (z : Bool) (id : Nat) :
    (c.push z id).2.map = c.map ∧ (c.push z id).2.next = c.next ∧ (c.push z id).2.heap = c.heap := by
  unfold TxCache.push
  split
  · exact ⟨by simp, by simp, by simp⟩
  · exact ⟨rfl, rfl, rfl⟩

theorem Owned.step {s : Sys} (o : s.Owned) (l : Label) : (s.step l).Owned := by
  cases l with
  | callInsert t tx =>
    simp only [Sys.step]; split
    · rename_i h
      exact o.move (t := t) (p := .check tx) rfl rfl (fun _ => rfl) (fun _ => rfl) (by intro id h; cases h) (by rw [h]; intro id h; cases h)
    · exact o
  | callPropose t tx =>
    simp only [Sys.step]; split
    · rename_i h; exact o.alloc t _ (by rw [h]; rfl)
    · exact o
  | ins t =>
    simp only [Sys.step, Sys.stepIns]
    split
    · exact o
    · rename_i h
      split
      · exact o.move (t := t) rfl rfl (fun _ => rfl) (fun _ => rfl) (by intro id h; cases h) (by rw [h]; intro id h; cases h)
      · exact o.alloc t _ (by rw [h]; rfl)
    · rename_i id hid
      have hlt := o.start t id hid
      split
      · exact o.move (t := t) rfl rfl (fun _ => rfl) (fun _ => rfl) (by intro id h; cases h) (by rw [hid]; intro id h; cases h)
      · refine ⟨TxMap.wf_insert o.wf _ _, ?_, ?_⟩
        · intro t' id' h
          simp only [setIns_ins] at h
          split at h
          · cases h
          · exact o.start t' id' h
        · intro h id' hg
          have hg' : (s.cache.map.insert (s.cache.heap id).tx.txHash id).2.get h = some id' := hg
          rw [TxMap.get_insert] at hg'
          split at hg'
          · rename_i e
            injection hg' with hg'; subst hg'
            exact ⟨hlt, e.1.symm, t, by simp only [setIns_ins, if_pos]; rfl⟩
          · obtain ⟨h1, h2, t', h3⟩ := o.mapped h id' hg'
            refine ⟨h1, h2, t', ?_⟩
            simp only [setIns_ins]
            split
            · rename_i e; subst e; rw [hid] at h3; cases h3
            · exact h3
    · rename_i id h
      exact o.move (t := t) (p := .counted id) rfl rfl (fun _ => rfl) (fun _ => rfl) (by intro id h; cases h) (by rw [h]; intro id h; exact h)
    · rename_i id h
      exact o.move (t := t) (p := .role id s.cache.isZero) rfl rfl (fun _ => rfl) (fun _ => rfl) (by intro id h; cases h) (by rw [h]; intro id h; exact h)
    · rename_i id z h
      obtain ⟨h1, h2, h3⟩ := push_keeps s.cache z id
      exact o.move (t := t) (p := .pushed id (s.cache.push z id).1) h1 h2 (fun x => by show ((s.cache.push z id).2.heap x).tx = _; rw [h3]) (fun _ => rfl) (by intro id h; cases h)
        (by rw [h]; intro id h; exact h)
    · rename_i id ok h
      exact o.move (t := t) (p := .left id ok) rfl rfl (fun _ => rfl) (fun _ => rfl) (by intro id h; cases h) (by rw [h]; intro id h; exact h)
    · rename_i id ok h
      split
      · exact o.move (t := t) (p := .done id (.ok ())) rfl rfl (fun _ => rfl) (fun _ => rfl) (by intro id h; cases h) (by rw [h]; intro id h; exact h)
      · refine o.shrink (TxMap.wf_remove o.wf _) ?_ (Nat.le_refl _) (fun _ _ => rfl) ?_ ?_
        · intro x i hg
          have hg' : (s.cache.map.remove (s.cache.heap id).tx.txHash).get x = some i := hg
          rw [TxMap.get_remove o.wf] at hg'
          split at hg'
          · cases hg'
          · exact hg'
        · intro t' i h
          simp only [setIns_ins] at h
          split at h
          · cases h
          · exact o.start t' i h
        · intro t' x i hg hold
          simp only [setIns_ins]
          split
          · rename_i e
            subst e
            rw [h] at hold
            injection hold with hold
            subst hold
            have hg' : (s.cache.map.remove (s.cache.heap id).tx.txHash).get x = some id := hg
            rw [TxMap.get_remove o.wf] at hg'
            split at hg'
            · cases hg'
            · rename_i hne
              exact absurd (o.mapped x id hg').2.1.symm hne
          · exact hold
    · exact o
  | callPackage a =>
    simp only [Sys.step]; split <;> exact o.same o.wf (fun _ _ h => h) rfl (fun _ => rfl) rfl
  | pk =>
    simp only [Sys.step, Sys.stepPk]
    split
    · exact o
    · rename_i z _ _
      split
      · rename_i id c hp
        obtain ⟨rest, _, rfl⟩ := pop_some hp
        exact o.same (by simp; exact o.wf) (fun _ _ h => by simpa using h) (by simp) (fun _ => by simp) rfl
      · exact o.same o.wf (fun _ _ h => h) rfl (fun _ => rfl) rfl
    · split
      · exact o.same o.wf (fun _ _ h => h) rfl (fun _ => rfl) rfl
      · split <;> exact o.same o.wf (fun _ _ h => h) rfl (fun _ => rfl) rfl
    · rename_i a z pk id _
      split
      · obtain ⟨h1, h2, h3⟩ := push_keeps s.cache (!z) id
        exact o.same (by show (s.cache.push (!z) id).2.map.WF; rw [h1]; exact o.wf)
          (fun x i h => by rw [show ({ s with cache := (s.cache.push (!z) id).2, pk := _ } : Sys).cache.map = (s.cache.push (!z) id).2.map from rfl, h1] at h; exact h)
          h2 (fun x => by show ((s.cache.push (!z) id).2.heap x).tx = _; rw [h3]) rfl
      · exact o.same o.wf (fun _ _ h => h) rfl (fun _ => rfl) rfl
    · exact o.same o.wf (fun _ _ h => h) rfl (fun _ => rfl) rfl
    · split
      · exact o.same o.wf (fun _ _ h => h) rfl (fun _ => rfl) rfl
      · exact o
    · split
      · rename_i id c hp
        obtain ⟨rest, _, rfl⟩ := pop_some hp
        exact o.same (by simp; exact o.wf) (fun _ _ h => by simpa using h) (by simp) (fun _ => by simp) rfl
      · exact o.same o.wf (fun _ _ h => h) rfl (fun _ => rfl) rfl
    · rename_i a z pk id _
      obtain ⟨h1, h2, h3⟩ := push_keeps s.cache z id
      exact o.same (by show (s.cache.push z id).2.map.WF; rw [h1]; exact o.wf)
        (fun x i h => by rw [show ({ s with cache := (s.cache.push z id).2, pk := _ } : Sys).cache.map = (s.cache.push z id).2.map from rfl, h1] at h; exact h)
        h2 (fun x => by show ((s.cache.push z id).2.heap x).tx = _; rw [h3]) rfl
    · exact o.same (TxMap.wf_deletes o.wf _) (fun _ _ h => get_of_deletes o.wf _ h) rfl (fun _ => rfl) rfl
    · exact o
  | callFlush t hs =>
    simp only [Sys.step]; split
    · exact o.same o.wf (fun _ _ h => h) rfl (fun _ => rfl) rfl
    · exact o
  | fl t =>
    simp only [Sys.step, Sys.stepFl]
    split
    · exact o
    · exact o.same o.wf (fun _ _ h => h) rfl (fun _ => rfl) rfl
    · split <;> exact o.same o.wf (fun _ _ h => h) rfl (fun _ => rfl) rfl
    · rename_i id _
      refine o.same o.wf (fun _ _ h => h) rfl (fun x => ?_) rfl
      show ((s.cache.setRemoved id).heap x).tx = _
      simp only [TxCache.setRemoved]
      split
      · rename_i e; rw [e]
      · rfl
    · exact o.same (TxMap.wf_deletes o.wf _) (fun _ _ h => get_of_deletes o.wf _ h) rfl (fun _ => rfl) rfl
    · exact o

theorem owned_run (n : Nat) (sched : List Label) : ((new n).run sched).Owned := by
  have key : ∀ (rest : List Label) (s : Sys), s.Owned → (s.run rest).Owned := by
    intro rest
    induction rest with
    | nil => intro s o; exact o
    | cons l ls ih => intro s o; exact ih (s.step l) (o.step l)
  exact key sched _ (owned_new n)

/-- A step after which no more threads have passed the check and the map is not larger. -/
theorem Bound.keep {s s' : Sys} {k : Nat} (b : s.Bound k) (hl : s'.cache.len ≤ s.cache.len) (hp : s'.poolSize = s.poolSize)
    (hi : ∀ t id, s'.ins t = .start id → ∃ id', s.ins t = .start id') : s'.Bound k := by
  intro L hnd h
  have := b L hnd (fun t ht => by obtain ⟨id, hid⟩ := h t ht; exact hi t id hid)
  rw [hp]; omega

theorem poolSize_step (s : Sys) (l : Label) : (s.step l).poolSize = s.poolSize := by
  cases l <;> simp only [Sys.step, Sys.stepIns, Sys.stepPk, Sys.stepFl] <;> repeat' (first | rfl | split)

/-- A step of anything but an insertion adds nothing to the map. -/
theorem others_step {s : Sys} (o : s.Owned) (l : Label) (h1 : ∀ t, l ≠ .ins t) (h2 : ∀ t tx, l ≠ .callPropose t tx) :
    (s.step l).cache.len ≤ s.cache.len ∧ ∀ t id, (s.step l).ins t = .start id → ∃ id', s.ins t = .start id' := by
  have o' := o.step l
  cases l with
  | ins t => exact absurd rfl (h1 t)
  | callPropose t tx => exact absurd rfl (h2 t tx)
  | callInsert t tx =>
    simp only [Sys.step]
    split
    · refine ⟨Nat.le_refl _, fun t' id h => ?_⟩
      simp only [setIns_ins] at h
      split at h
      · cases h
      · exact ⟨id, h⟩
    · exact ⟨Nat.le_refl _, fun t' id h => ⟨id, h⟩⟩
  | callPackage a => simp only [Sys.step]; split <;> exact ⟨Nat.le_refl _, fun t' id h => ⟨id, h⟩⟩
  | callFlush t hs => simp only [Sys.step]; split <;> exact ⟨Nat.le_refl _, fun t' id h => ⟨id, h⟩⟩
  | fl t =>
    simp only [Sys.step, Sys.stepFl]
    split
    · exact ⟨Nat.le_refl _, fun t' id h => ⟨id, h⟩⟩
    · exact ⟨Nat.le_refl _, fun t' id h => ⟨id, h⟩⟩
    · split <;> exact ⟨Nat.le_refl _, fun t' id h => ⟨id, h⟩⟩
    · exact ⟨Nat.le_refl _, fun t' id h => ⟨id, h⟩⟩
    · exact ⟨len_of_keys o.wf (TxMap.wf_deletes o.wf _) (fun x v h => ⟨v, get_of_deletes o.wf _ h⟩), fun t' id h => ⟨id, h⟩⟩
    · exact ⟨Nat.le_refl _, fun t' id h => ⟨id, h⟩⟩
  | pk =>
    have hins : (s.step .pk).ins = s.ins := by
      simp only [Sys.step, Sys.stepPk]; repeat' (first | rfl | split)
    refine ⟨?_, fun t' id h => ⟨id, by rw [hins] at h; exact h⟩⟩
    have hm : ∀ x v, (s.step .pk).cache.map.get x = some v → ∃ v', s.cache.map.get x = some v' := by
      intro x v hg
      simp only [Sys.step, Sys.stepPk] at hg
      split at hg
      · exact ⟨v, hg⟩
      · split at hg
        · rename_i id c hp
          obtain ⟨rest, _, rfl⟩ := pop_some hp
          exact ⟨v, by simpa using hg⟩
        · exact ⟨v, hg⟩
      · split at hg
        · exact ⟨v, hg⟩
        · split at hg <;> exact ⟨v, hg⟩
      · rename_i a z pk id _
        split at hg
        · simp only at hg; rw [(push_keeps s.cache (!z) id).1] at hg; exact ⟨v, hg⟩
        · exact ⟨v, hg⟩
      · exact ⟨v, hg⟩
      · split at hg <;> exact ⟨v, hg⟩
      · split at hg
        · rename_i id c hp
          obtain ⟨rest, _, rfl⟩ := pop_some hp
          exact ⟨v, by simpa using hg⟩
        · exact ⟨v, hg⟩
      · rename_i a z pk id _
        simp only at hg; rw [(push_keeps s.cache z id).1] at hg; exact ⟨v, hg⟩
      · exact ⟨v, get_of_deletes o.wf _ hg⟩
      · exact ⟨v, hg⟩
    exact len_of_keys o.wf o'.wf hm

theorem Bound.step {s : Sys} {k : Nat} (o : s.Owned) (b : s.Bound k) (l : Label) (hl : ∀ t tx, l ≠ .callPropose t tx)
    (hk : ∀ L : List Nat, L.Nodup → (∀ t ∈ L, ((s.step l).ins t).running) → L.length ≤ k) : (s.step l).Bound k := by
  by_cases hi : ∃ t, l = .ins t
  · obtain ⟨t, rfl⟩ := hi
    have hmove : ∀ (s' : Sys) (p : InsPc), s'.cache.len ≤ s.cache.len → s'.poolSize = s.poolSize →
        (∀ t', s'.ins t' = if t' = t then p else s.ins t') → (∀ id, p ≠ .start id) → s'.Bound k := by
      intro s' p h1 h2 h3 h4
      refine b.keep h1 h2 ?_
      intro t' id h
      rw [h3] at h
      split at h
      · exact absurd h (h4 id)
      · exact ⟨id, h⟩
    revert hk
    simp only [Sys.step, Sys.stepIns]
    split
    · intro _; exact b
    · rename_i tx hc
      split
      · intro _; exact hmove _ _ (Nat.le_refl _) rfl (fun _ => rfl) (by intro id h; cases h)
      · rename_i hlt
        intro hk L hnd h
        have hlen := hk L hnd (fun t' ht' => by obtain ⟨id, hid⟩ := h t' ht'; rw [hid]; trivial)
        show s.cache.len + L.length ≤ s.poolSize + k - 1
        omega
    · rename_i id hid
      split
      · intro _; exact hmove _ _ (Nat.le_refl _) rfl (fun _ => rfl) (by intro id h; cases h)
      · intro _ L hnd h
        have hstart : ∀ t' ∈ L, t' ≠ t ∧ ∃ id', s.ins t' = .start id' := by
          intro t' ht'
          obtain ⟨id', h'⟩ := h t' ht'
          simp only [setIns_ins] at h'
          split at h'
          · cases h'
          · rename_i hne; exact ⟨hne, id', h'⟩
        have := b (t :: L) (List.nodup_cons.2 ⟨fun hm => (hstart t hm).1 rfl, hnd⟩) (by
          intro t' ht'
          rcases List.mem_cons.1 ht' with rfl | ht'
          · exact ⟨id, hid⟩
          · exact (hstart t' ht').2)
        have hl : (s.cache.map.insert (s.cache.heap id).tx.txHash id).2.len ≤ s.cache.map.len + 1 := len_insert o.wf _ _
        simp only [List.length_cons] at this
        show (s.cache.map.insert (s.cache.heap id).tx.txHash id).2.len + L.length ≤ s.poolSize + k - 1
        have e : s.cache.len = s.cache.map.len := rfl
        omega
    · intro _; exact hmove _ _ (Nat.le_refl _) rfl (fun _ => rfl) (by intro id h; cases h)
    · intro _; exact hmove _ _ (Nat.le_refl _) rfl (fun _ => rfl) (by intro id h; cases h)
    · rename_i id z h
      intro _
      refine hmove _ (.pushed id (s.cache.push z id).1) ?_ rfl (fun _ => rfl) (by intro id h; cases h)
      show (s.cache.push z id).2.map.len ≤ s.cache.map.len
      rw [(push_keeps s.cache z id).1]
    · intro _; exact hmove _ _ (Nat.le_refl _) rfl (fun _ => rfl) (by intro id h; cases h)
    · split
      · intro _; exact hmove _ _ (Nat.le_refl _) rfl (fun _ => rfl) (by intro id h; cases h)
      · intro _
        refine hmove _ _ ?_ rfl (fun _ => rfl) (by intro id h; cases h)
        refine len_of_keys o.wf (TxMap.wf_remove o.wf _) ?_
        intro x v hg
        have hg' : (s.cache.map.remove _).get x = some v := hg
        rw [TxMap.get_remove o.wf] at hg'
        split at hg'
        · cases hg'
        · exact ⟨v, hg'⟩
    · intro _; exact b
  · obtain ⟨h1, h2⟩ := others_step o l (fun t h => hi ⟨t, h⟩) hl
    exact b.keep h1 (poolSize_step s l) h2

theorem bound_run {s0 s : Sys} {k : Nat} {rest pre sched : List Label} (hs : s = s0.run pre) (he : pre ++ rest = sched) (o : s.Owned) (b : s.Bound k)
    (hp : ∀ t tx, Label.callPropose t tx ∉ sched) (hc : Crowd k s0 sched) : (s.run rest).Bound k ∧ (s.run rest).poolSize = s.poolSize := by
  induction rest generalizing pre s with
  | nil => exact ⟨b, rfl⟩
  | cons l ls ih =>
    have hs' : s.step l = s0.run (pre ++ [l]) := by
      rw [hs]; unfold Sys.run; rw [List.foldl_append]; rfl
    have hb : (s.step l).Bound k := by
      refine b.step o l ?_ ?_
      · intro t tx h; subst h; exact hp t tx (by rw [← he]; simp)
      · rw [hs']
        exact hc (pre ++ [l]) ⟨ls, by rw [← he]; simp⟩
    have := ih hs' (by rw [← he]; simp) (o.step l) hb
    exact ⟨this.1, by rw [← poolSize_step s l]; exact this.2⟩

theorem bound_new (n k : Nat) : (Sys.new n).Bound k := by
  intro L _ h
  cases L with
  | nil =>
    have e : (Sys.new n).cache.len = 0 := by
      show (TxCache.new (n * 2)).len = 0
      rw [← (TxCache.good_new _).abs_len, TxCache.abs_new]; simp
    rw [e]; simp
  | cons t L => obtain ⟨id, h⟩ := h t (by simp); cases h

end Sys

open Sys in
/-- **C25 under concurrency, the true part.**  In every interleaving without proposal synchronisation in which never more than `k`
insertions are under way at the same time, the pool never exceeds its size by more than `k - 1`; so it is exact when insertions do not
overlap.  The bound holds also while flushes and a package run.  (It is reached in the example below; `C25_pool_size_refuted`: more than the size is possible.) -/
theorem C25_concurrent_partial (n k : Nat) (sched : List Label) (hp : ∀ t tx, Label.callPropose t tx ∉ sched) (hc : Crowd k (Sys.new n) sched) :
    ((Sys.new n).run sched).cache.len ≤ n + k - 1 := by
  obtain ⟨b, e⟩ := bound_run (s0 := Sys.new n) (pre := []) rfl rfl (owned_new n) (bound_new n k) hp hc
  have hb := b [] List.nodup_nil (by simp)
  rw [e, List.length_nil, Nat.add_zero] at hb
  rw [← show (Sys.new n).poolSize = n from rfl]
  exact hb

open Sys in
/-- **C21**, the other side: whatever the pool holds under a hash was handed to an insertion that is still under way or has
succeeded: a rejected transaction leaves no trace, under every interleaving, also with full queues. -/
theorem C21_rejected_leaves_nothing (n : Nat) (sched : List Label) (h : Hash) (tx : SignedTx) (hg : ((Sys.new n).run sched).cache.get h = some tx) :
    tx.txHash = h ∧ ∃ t, Called sched t tx ∧ ((((Sys.new n).run sched).ins t).running ∨ ∃ id, ((Sys.new n).run sched).ins t = .done id (.ok ())) := by
  have o := owned_run n sched
  have g := origin_run n sched
  generalize (Sys.new n).run sched = s at *
  unfold TxCache.get at hg
  cases hm : s.cache.map.get h with
  | none => rw [hm] at hg; cases hg
  | some id =>
    rw [hm] at hg
    injection hg with hg
    obtain ⟨_, h2, t, h3⟩ := o.mapped h id hm
    subst hg
    refine ⟨h2, t, ?_, ?_⟩
    · refine (g.id t id ?_).2
      revert h3
      cases s.ins t with
      | done i r => cases r <;> simp [InsPc.holds, InsPc.id?]
      | _ => simp [InsPc.holds, InsPc.id?]
    · revert h3
      cases s.ins t with
      | done i r => cases r <;> simp [InsPc.holds, InsPc.running]
      | _ => simp [InsPc.holds, InsPc.running]

/-! Concrete schedules -/

namespace Demo

/-- Three overlapping insertions into a pool of size 1: all pass the check before any of them inserts. -/
def crowded : List Label :=
  [.callInsert 1 (ptx 1 10 4), .callInsert 2 (ptx 2 10 4), .callInsert 3 (ptx 3 10 4), .ins 1, .ins 2, .ins 3] ++
  List.replicate 6 (.ins 1) ++ List.replicate 6 (.ins 2) ++ List.replicate 6 (.ins 3)

/-- Only the threads called in a schedule run. -/
theorem running_called {s : Sys} {pre : List Label} {t : Nat} (h0 : ∀ t, s.ins t = .idle) (h : ((s.run pre).ins t).running) :
    ∃ tx, Sys.Called pre t tx := by
  have key : ∀ (pre : List Label) (s : Sys), (∀ x ∈ pre, ∀ tx, x ≠ .callInsert t tx ∧ x ≠ .callPropose t tx) → s.ins t = .idle → (s.run pre).ins t = .idle := by
    intro pre
    induction pre with
    | nil => intro s _ h; exact h
    | cons l ls ih =>
      intro s hx h
      refine ih (s.step l) (fun x hm => hx x (by simp [hm])) ?_
      cases l with
      | callInsert t' tx =>
        have : t ≠ t' := fun e => (hx _ List.mem_cons_self tx).1 (by rw [e])
        simp only [Sys.step]; split
        · simp only [Sys.setIns_ins]; rw [if_neg this]; exact h
        · exact h
      | callPropose t' tx =>
        have : t ≠ t' := fun e => (hx _ List.mem_cons_self tx).2 (by rw [e])
        simp only [Sys.step]; split
        · simp only [Sys.setIns_ins]; rw [if_neg this]; exact h
        · exact h
      | ins t' =>
        by_cases e : t = t'
        · subst e; simp only [Sys.step, Sys.stepIns, h]
        · simp only [Sys.step, Sys.stepIns]
          repeat' (first | exact h | split | (simp only [Sys.setIns_ins]; rw [if_neg e]; exact h))
      | callPackage a => simp only [Sys.step]; split <;> exact h
      | callFlush t' hs => simp only [Sys.step]; split <;> exact h
      | pk => simp only [Sys.step, Sys.stepPk]; repeat' (first | exact h | split)
      | fl t' => simp only [Sys.step, Sys.stepFl]; repeat' (first | exact h | split)
  refine Classical.byContradiction fun hno => ?_
  rw [key pre s ?_ (h0 t)] at h
  · exact h
  · intro x hx tx
    exact ⟨fun e => hno ⟨tx, Or.inl (e ▸ hx)⟩, fun e => hno ⟨tx, Or.inr (e ▸ hx)⟩⟩

theorem crowded_crowd : Sys.Crowd 3 (Sys.new 1) crowded := by
  intro pre hpre L hnd h
  have hsub : ∀ t ∈ L, t ∈ [1, 2, 3] := by
    intro t ht
    obtain ⟨tx, hc⟩ := running_called (fun _ => rfl) (h t ht)
    have : ∀ x ∈ crowded, (∀ tx, x = .callInsert t tx ∨ x = .callPropose t tx → t ∈ [1, 2, 3]) := by
      intro x hx tx hxe
      simp only [crowded, List.mem_append, List.mem_cons, List.not_mem_nil, or_false, List.mem_replicate] at hx
      rcases hxe with rfl | rfl
      · simp at hx
        rcases hx with h | h | h <;> simp [h]
      · simp at hx
    rcases hc with hc | hc
    · exact this _ (hpre.subset hc) tx (Or.inl rfl)
    · exact this _ (hpre.subset hc) tx (Or.inr rfl)
  exact (List.subperm_of_subset hnd hsub).length_le

end Demo

/-- The hypotheses of `C25_concurrent_partial` hold, and its bound is reached: three
overlapping insertions put three transactions into a pool of size 1. -/
example : (∀ t tx, Label.callPropose t tx ∉ Demo.crowded) ∧ Sys.Crowd 3 (Sys.new 1) Demo.crowded ∧
    ((Sys.new 1).run Demo.crowded).cache.len = 3 :=
  ⟨by simp [Demo.crowded], Demo.crowded_crowd, by decide +kernel⟩

/-- `C21_rejected_leaves_nothing` at work: in a pool of size 1 the second of two insertions is refused, and leaves nothing. -/
example : ((Sys.new 1).run (Demo.whole 1 (Demo.ptx 1 10 4) ++ Demo.whole 2 (Demo.ptx 2 10 4))).cache.get (Demo.hash 1) = some (Demo.ptx 1 10 4) ∧
    ((Sys.new 1).run (Demo.whole 1 (Demo.ptx 1 10 4) ++ Demo.whole 2 (Demo.ptx 2 10 4))).cache.get (Demo.hash 2) = none := by decide +kernel

end Huobi
