import Verif.Proof.TxCacheConc2
import Verif.Props.TxCache
/-
C21, C18, C22, C25 under every interleaving of any number of inserting and flushing threads with a packaging thread.
-/
namespace Huobi

namespace Sys

/-- Thread `t` calls insert with `tx` in the schedule (through the public entry or from a peer's proposal). -/
def Called (sched : List Label) (t : Nat) (tx : SignedTx) : Prop :=
  Label.callInsert t tx ∈ sched ∨ Label.callPropose t tx ∈ sched

/-- Arguments of the package calls of a schedule. -/
def packages (sched : List Label) : List PkArgs :=
  sched.filterMap (fun l => match l with | .callPackage a => some a | _ => none)

/-- All hashes flushed in a schedule. -/
def flushed (sched : List Label) : List Hash :=
  sched.flatMap (fun l => match l with | .callFlush _ hs => hs | _ => [])

/-- Neither queue is full. -/
def HasRoom (s : Sys) : Prop := s.cache.q0.length < s.cache.cap ∧ s.cache.q1.length < s.cache.cap

/-- At no moment of the schedule a queue is full. -/
def Roomy (s : Sys) : List Label → Prop
  | [] => s.HasRoom
  | l :: ls => s.HasRoom ∧ (s.step l).Roomy ls

/-- The time-out of `tx` lies in the window of a package call. -/
def _root_.Huobi.PkArgs.covers (a : PkArgs) (tx : SignedTx) : Prop :=
  a.current < tx.raw.timeout ∧ tx.raw.timeout ≤ a.timeout

/-- No call is running. -/
def Quiescent (s : Sys) : Prop :=
  (∀ t, s.ins t = .idle ∨ ∃ id r, s.ins t = .done id r) ∧ (s.pk = .idle ∨ ∃ r, s.pk = .done r) ∧
  (∀ t, s.fl t = .idle ∨ s.fl t = .done)

/-- Between two package calls. -/
def NoPackage (s : Sys) : Prop := s.pk = .idle ∨ ∃ r, s.pk = .done r

theorem fits_of_mem {sched : List Label} {l : Label} (h : l ∈ sched) : l.fits (packages sched) (flushed sched) := by
  cases l with
  | callPackage a => exact List.mem_filterMap.2 ⟨_, h, rfl⟩
  | callFlush t hs => intro x hx; exact List.mem_flatMap.2 ⟨_, h, hx⟩
  | _ => trivial

/-- Wrapper identifier of a thread's call. -/
def _root_.Huobi.InsPc.id? : InsPc → Option Nat
  | .start id => some id
  | .inserted id => some id
  | .counted id => some id
  | .role id _ => some id
  | .pushed id _ => some id
  | .left id _ => some id
  | .done id (.ok _) => some id
  | _ => none

/-- Each thread's wrapper holds the transaction the thread was called with. -/
structure Origin (C : Nat → SignedTx → Prop) (s : Sys) : Prop where
  check : ∀ t tx, s.ins t = .check tx → C t tx
  id : ∀ t id, (s.ins t).id? = some id → id < s.cache.next ∧ C t (s.cache.heap id).tx

theorem Origin.setIns {C : Nat → SignedTx → Prop} {s s' : Sys} {t : Nat} {p : InsPc} (o : s.Origin C)
    (hn : s'.cache.next = s.cache.next) (hh : ∀ x, (s'.cache.heap x).tx = (s.cache.heap x).tx)
    (hi : ∀ t', s'.ins t' = if t' = t then p else s.ins t')
    (hc : ∀ tx, p = .check tx → C t tx) (hp : p.id? = none ∨ p.id? = (s.ins t).id?) : s'.Origin C := by
  constructor
  · intro t' tx h
    rw [hi] at h; split at h
    · rename_i e; rw [e]; exact hc tx h
    · exact o.check t' tx h
  · intro t' id h
    rw [hn, hh]
    rw [hi] at h; split at h
    · rename_i e; subst e
      rcases hp with hp | hp
      · rw [hp] at h; cases h
      · rw [hp] at h; exact o.id t' id h
    · exact o.id t' id h

theorem Origin.same {C : Nat → SignedTx → Prop} {s s' : Sys} (o : s.Origin C)
    (hn : s'.cache.next = s.cache.next) (hh : ∀ x, (s'.cache.heap x).tx = (s.cache.heap x).tx)
    (hi : s'.ins = s.ins) : s'.Origin C := by
  constructor
  · intro t tx h; rw [hi] at h; exact o.check t tx h
  · intro t id h; rw [hi] at h; rw [hn, hh]; exact o.id t id h

theorem Origin.alloc {C : Nat → SignedTx → Prop} {s : Sys} (o : s.Origin C) (t : Nat) (w : Wrapper) (hC : C t w.tx) :
    (({ s with cache := (s.cache.alloc w).2 } : Sys).setIns t (.start s.cache.next)).Origin C := by
  constructor
  · intro t' tx h
    simp only [setIns_ins] at h; split at h
    · cases h
    · exact o.check t' tx h
  · intro t' id h
    simp only [setIns_ins] at h
    simp only [setIns_cache, TxCache.alloc]
    split at h
    · rename_i e
      simp only [InsPc.id?, Option.some.injEq] at h
      subst h
      rw [if_pos rfl, e]; exact ⟨by omega, hC⟩
    · obtain ⟨h1, h2⟩ := o.id t' id h
      rw [if_neg (by omega)]; exact ⟨by omega, h2⟩

theorem Origin.step {C : Nat → SignedTx → Prop} {s : Sys} (o : s.Origin C) (l : Label)
    (hC : ∀ t tx, l = .callInsert t tx ∨ l = .callPropose t tx → C t tx) : (s.step l).Origin C := by
  cases l with
  | callInsert t tx =>
    simp only [Sys.step]; split
    · exact o.setIns (p := .check tx) rfl (fun _ => rfl) (fun _ => rfl) (by
        intro tx' e; cases e; exact hC t tx (Or.inl rfl)) (Or.inl rfl)
    · exact o
  | callPropose t tx =>
    simp only [Sys.step]; split
    · exact o.alloc t _ (hC t tx (Or.inr rfl))
    · exact o
  | ins t =>
    simp only [Sys.step, Sys.stepIns]
    split
    · exact o
    · rename_i tx ht
      split
      · exact o.setIns (p := .done 0 _) rfl (fun _ => rfl) (fun _ => rfl) (by intro _ e; cases e) (Or.inl rfl)
      · exact o.alloc t _ (o.check t tx ht)
    · rename_i id ht
      split
      · exact o.setIns (p := .done id _) rfl (fun _ => rfl) (fun _ => rfl) (by intro _ e; cases e) (Or.inl rfl)
      · exact o.setIns (p := .inserted id) rfl (fun _ => rfl) (fun _ => rfl) (by intro _ e; cases e) (Or.inr (by rw [ht]; rfl))
    · rename_i id ht
      exact o.setIns (p := .counted id) rfl (fun _ => rfl) (fun _ => rfl) (by intro _ e; cases e) (Or.inr (by rw [ht]; rfl))
    · rename_i id ht
      exact o.setIns (p := .role id _) rfl (fun _ => rfl) (fun _ => rfl) (by intro _ e; cases e) (Or.inr (by rw [ht]; rfl))
    · rename_i id z ht
      refine o.setIns (t := t) (p := .pushed id _) ?_ (fun _ => ?_) (fun _ => rfl) (by intro _ e; cases e) (Or.inr (by rw [ht]; rfl))
      · simp only [setIns_cache, TxCache.push]; split <;> simp
      · simp only [setIns_cache, TxCache.push]; split <;> simp
    · rename_i id ok ht
      exact o.setIns (p := .left id ok) rfl (fun _ => rfl) (fun _ => rfl) (by intro _ e; cases e) (Or.inr (by rw [ht]; rfl))
    · rename_i id ok ht
      split
      · exact o.setIns (p := .done id (.ok ())) rfl (fun _ => rfl) (fun _ => rfl) (by intro _ e; cases e) (Or.inr (by rw [ht]; rfl))
      · exact o.setIns (p := .done id _) rfl (fun _ => rfl) (fun _ => rfl) (by intro _ e; cases e) (Or.inl rfl)
    · exact o
  | callPackage a =>
    simp only [Sys.step]; split
    · exact o.same rfl (fun _ => rfl) rfl
    · exact o.same rfl (fun _ => rfl) rfl
    · exact o
  | pk =>
    have hpop : ∀ {z id c}, s.cache.pop z = some (id, c) → c.next = s.cache.next ∧ c.heap = s.cache.heap := by
      intro z id c h
      obtain ⟨rest, _, rfl⟩ := pop_some h
      simp
    have hpush : ∀ z id, (s.cache.push z id).2.next = s.cache.next ∧ (s.cache.push z id).2.heap = s.cache.heap := by
      intro z id; simp only [TxCache.push]; split <;> simp
    simp only [Sys.step, Sys.stepPk]
    split
    · exact o
    · split
      · rename_i h
        exact o.same (hpop h).1 (fun _ => by show (TxCache.heap _ _).tx = _; rw [(hpop h).2]) rfl
      · exact o.same rfl (fun _ => rfl) rfl
    · split
      · exact o.same rfl (fun _ => rfl) rfl
      · split
        · exact o.same rfl (fun _ => rfl) rfl
        · exact o.same rfl (fun _ => rfl) rfl
    · split
      · exact o.same (hpush _ _).1 (fun _ => by show (TxCache.heap _ _).tx = _; rw [(hpush _ _).2]) rfl
      · exact o.same rfl (fun _ => rfl) rfl
    · exact o.same rfl (fun _ => rfl) rfl
    · split
      · exact o.same rfl (fun _ => rfl) rfl
      · exact o
    · split
      · rename_i h
        exact o.same (hpop h).1 (fun _ => by show (TxCache.heap _ _).tx = _; rw [(hpop h).2]) rfl
      · exact o.same rfl (fun _ => rfl) rfl
    · exact o.same (hpush _ _).1 (fun _ => by show (TxCache.heap _ _).tx = _; rw [(hpush _ _).2]) rfl
    · exact o.same rfl (fun _ => rfl) rfl
    · exact o
  | callFlush t hs =>
    simp only [Sys.step]; split
    · exact o.same rfl (fun _ => rfl) rfl
    · exact o
  | fl t =>
    simp only [Sys.step, Sys.stepFl]
    split
    · exact o
    · exact o.same rfl (fun _ => rfl) rfl
    · split
      · exact o.same rfl (fun _ => rfl) rfl
      · exact o.same rfl (fun _ => rfl) rfl
    · refine o.same rfl (fun x => ?_) rfl
      simp only [Sys.setFl, TxCache.setRemoved]; split <;> rfl
    · exact o.same rfl (fun _ => rfl) rfl
    · exact o

theorem origin_run (n : Nat) (sched : List Label) : ((new n).run sched).Origin (Called sched) := by
  have key : ∀ (rest : List Label) (s : Sys), (∀ l ∈ rest, l ∈ sched) → s.Origin (Called sched) →
      (s.run rest).Origin (Called sched) := by
    intro rest
    induction rest with
    | nil => intro s _ o; exact o
    | cons l ls ih =>
      intro s hsub o
      refine ih (s.step l) (fun x hx => hsub x (by simp [hx])) (o.step l ?_)
      rintro t tx (rfl | rfl)
      · exact Or.inl (hsub _ (by simp))
      · exact Or.inr (hsub _ (by simp))
  exact key sched (new n) (fun _ h => h) ⟨(by intro t tx h; cases h), (by intro t id h; cases h)⟩

theorem inv_run {n : Nat} {sched : List Label} (hr : (new n).Roomy sched) :
    ((new n).run sched).Inv (packages sched) (flushed sched) ∧ ((new n).run sched).Chosen (packages sched) (flushed sched) := by
  have key : ∀ (rest : List Label) (s : Sys), (∀ l ∈ rest, l ∈ sched) → s.Roomy rest →
      s.Inv (packages sched) (flushed sched) → s.Chosen (packages sched) (flushed sched) →
      (s.run rest).Inv (packages sched) (flushed sched) ∧ (s.run rest).Chosen (packages sched) (flushed sched) := by
    intro rest
    induction rest with
    | nil => intro s _ _ i c; exact ⟨i, c⟩
    | cons l ls ih =>
      intro s hsub hr i c
      have hl := fits_of_mem (hsub l (by simp))
      exact ih (s.step l) (fun x hx => hsub x (by simp [hx])) hr.2 (i.step l hl hr.1.1 hr.1.2) (c.step i l hl hr.1.1 hr.1.2)
  exact key sched (new n) (fun _ h => h) hr (inv_new _ _ n) (chosen_new _ _ n)

theorem not_timeout {w : Wrapper} {a : PkArgs} (h : a.covers w.tx) : w.isTimeout a.current a.timeout = false := by
  obtain ⟨h1, h2⟩ := h
  rw [UInt64.lt_iff_toNat_lt] at h1
  rw [UInt64.le_iff_toNat_le] at h2
  simp only [Wrapper.isTimeout, Bool.or_eq_false_iff, decide_eq_false_iff_not, UInt64.le_iff_toNat_le, UInt64.lt_iff_toNat_lt]
  omega

theorem covers_of_not_timeout {w : Wrapper} {a : PkArgs} (h : w.isTimeout a.current a.timeout = false) : a.covers w.tx := by
  simp only [Wrapper.isTimeout, Bool.or_eq_false_iff, decide_eq_false_iff_not, UInt64.le_iff_toNat_le, UInt64.lt_iff_toNat_lt] at h
  refine ⟨?_, ?_⟩
  · rw [UInt64.lt_iff_toNat_lt]; omega
  · rw [UInt64.le_iff_toNat_le]; omega

theorem roomy_last {s : Sys} {sched : List Label} (h : s.Roomy sched) : (s.run sched).HasRoom := by
  induction sched generalizing s with
  | nil => exact h
  | cons l ls ih => exact ih h.2

/-- Number of insert calls in a schedule. -/
def inserts (sched : List Label) : Nat :=
  (sched.filter (fun l => match l with | .callInsert _ _ => true | .callPropose _ _ => true | _ => false)).length

theorem push_cap (c : TxCache) (z : Bool) (id : Nat) : (c.push z id).2.cap = c.cap := by
  unfold TxCache.push; split <;> simp

theorem pop_cap {c c' : TxCache} {z : Bool} {id : Nat} (h : c.pop z = some (id, c')) : c'.cap = c.cap := by
  obtain ⟨rest, _, rfl⟩ := pop_some h; simp

theorem step_cap (s : Sys) (l : Label) : (s.step l).cache.cap = s.cache.cap := by
  cases l with
  | callInsert t tx => simp only [Sys.step]; split <;> rfl
  | callPropose t tx => simp only [Sys.step]; split <;> rfl
  | ins t =>
    simp only [Sys.step, Sys.stepIns]; split
    · rfl
    · split <;> rfl
    · split <;> rfl
    · rfl
    · rfl
    · simp only [setIns_cache, push_cap]
    · rfl
    · split <;> rfl
    · rfl
  | callPackage a => simp only [Sys.step]; split <;> rfl
  | pk =>
    simp only [Sys.step, Sys.stepPk]; split
    · rfl
    · split
      · rename_i h; exact pop_cap h
      · rfl
    · split
      · rfl
      · split <;> rfl
    · split
      · simp only [push_cap]
      · rfl
    · rfl
    · split <;> rfl
    · split
      · rename_i h; exact pop_cap h
      · rfl
    · simp only [push_cap]
    · rfl
    · rfl
  | callFlush t hs => simp only [Sys.step]; split <;> rfl
  | fl t =>
    simp only [Sys.step, Sys.stepFl]; split
    · rfl
    · rfl
    · split <;> rfl
    · rfl
    · rfl
    · rfl

/-- Wrappers allocated so far and insert calls about to allocate one, `b` in all. -/
def Allocs (s : Sys) (b : Nat) : Prop :=
  ∃ L : List Nat, (∀ t tx, s.ins t = .check tx → t ∈ L) ∧ s.cache.next + L.length ≤ b

theorem Allocs.same {s s' : Sys} {b : Nat} (a : s.Allocs b) (hn : s'.cache.next = s.cache.next)
    (hi : ∀ t tx, s'.ins t = .check tx → s.ins t = .check tx) : s'.Allocs b := by
  obtain ⟨L, h1, h2⟩ := a
  exact ⟨L, fun t tx h => h1 t tx (hi t tx h), by omega⟩

theorem Allocs.setIns {s s' : Sys} {b t : Nat} {p : InsPc} (a : s.Allocs b) (hn : s'.cache.next = s.cache.next)
    (hi : ∀ t', s'.ins t' = if t' = t then p else s.ins t') (hp : ∀ tx, p ≠ .check tx) : s'.Allocs b := by
  refine a.same hn ?_
  intro t' tx h
  rw [hi] at h; split at h
  · exact absurd h (hp tx)
  · exact h

theorem Allocs.step {s : Sys} {b : Nat} (a : s.Allocs b) (l : Label) : (s.step l).Allocs (b + inserts [l]) := by
  cases l with
  | callInsert t tx =>
    simp only [Sys.step]; split
    · obtain ⟨L, h1, h2⟩ := a
      refine ⟨t :: L, ?_, by simp [inserts]; omega⟩
      intro t' tx' h
      simp only [setIns_ins] at h; split at h
      · rename_i e; simp [e]
      · exact List.mem_cons_of_mem _ (h1 t' tx' h)
    · obtain ⟨L, h1, h2⟩ := a; exact ⟨L, h1, by omega⟩
  | callPropose t tx =>
    simp only [Sys.step]; split
    · obtain ⟨L, h1, h2⟩ := a
      refine ⟨L, ?_, by simp [inserts, TxCache.alloc]; omega⟩
      intro t' tx' h
      simp only [setIns_ins] at h; split at h
      · cases h
      · exact h1 t' tx' h
    · obtain ⟨L, h1, h2⟩ := a; exact ⟨L, h1, by omega⟩
  | ins t =>
    have e0 : b + inserts [Label.ins t] = b := rfl
    rw [e0]
    simp only [Sys.step, Sys.stepIns]; split
    · exact a
    · rename_i tx ht
      split
      · exact a.setIns (p := .done 0 _) rfl (fun _ => rfl) (by intro _ h; cases h)
      · obtain ⟨L, h1, h2⟩ := a
        have htL := h1 t tx ht
        refine ⟨L.erase t, ?_, ?_⟩
        · intro t' tx' h
          simp only [setIns_ins] at h; split at h
          · cases h
          · rename_i e; exact (List.mem_erase_of_ne e).2 (h1 t' tx' h)
        · simp only [setIns_cache, TxCache.alloc, List.length_erase_of_mem htL]
          have := List.length_pos_of_mem htL
          omega
    · rename_i id ht
      split
      · exact a.setIns (p := .done id _) rfl (fun _ => rfl) (by intro _ h; cases h)
      · exact a.setIns (p := .inserted id) rfl (fun _ => rfl) (by intro _ h; cases h)
    · rename_i id ht
      exact a.setIns (p := .counted id) rfl (fun _ => rfl) (by intro _ h; cases h)
    · rename_i id ht
      exact a.setIns (p := .role id _) rfl (fun _ => rfl) (by intro _ h; cases h)
    · rename_i id z ht
      refine a.setIns (t := t) (p := .pushed id _) ?_ (fun _ => rfl) (by intro _ h; cases h)
      simp only [setIns_cache, TxCache.push]; split <;> simp
    · rename_i id ok ht
      exact a.setIns (p := .left id ok) rfl (fun _ => rfl) (by intro _ h; cases h)
    · rename_i id ok ht
      split
      · exact a.setIns (p := .done id (.ok ())) rfl (fun _ => rfl) (by intro _ h; cases h)
      · exact a.setIns (p := .done id _) rfl (fun _ => rfl) (by intro _ h; cases h)
    · exact a
  | callPackage pa =>
    simp only [Sys.step]; split
    · exact a.same rfl (fun _ _ h => h)
    · exact a.same rfl (fun _ _ h => h)
    · exact a
  | pk =>
    have hpop : ∀ {z id c}, s.cache.pop z = some (id, c) → c.next = s.cache.next := by
      intro z id c h; obtain ⟨rest, _, rfl⟩ := pop_some h; simp
    have hpush : ∀ z id, (s.cache.push z id).2.next = s.cache.next := by
      intro z id; simp only [TxCache.push]; split <;> simp
    have e0 : b + inserts [Label.pk] = b := rfl
    rw [e0]
    simp only [Sys.step, Sys.stepPk]; split
    · exact a
    · split
      · rename_i h; exact a.same (hpop h) (fun _ _ h => h)
      · exact a.same rfl (fun _ _ h => h)
    · split
      · exact a.same rfl (fun _ _ h => h)
      · split
        · exact a.same rfl (fun _ _ h => h)
        · exact a.same rfl (fun _ _ h => h)
    · split
      · exact a.same (hpush _ _) (fun _ _ h => h)
      · exact a.same rfl (fun _ _ h => h)
    · exact a.same rfl (fun _ _ h => h)
    · split
      · exact a.same rfl (fun _ _ h => h)
      · exact a
    · split
      · rename_i h; exact a.same (hpop h) (fun _ _ h => h)
      · exact a.same rfl (fun _ _ h => h)
    · exact a.same (hpush _ _) (fun _ _ h => h)
    · exact a.same rfl (fun _ _ h => h)
    · exact a
  | callFlush t hs =>
    simp only [Sys.step]; split
    · exact a.same rfl (fun _ _ h => h)
    · exact a
  | fl t =>
    have e0 : b + inserts [Label.fl t] = b := rfl
    rw [e0]
    simp only [Sys.step, Sys.stepFl]; split
    · exact a
    · exact a.same rfl (fun _ _ h => h)
    · split
      · exact a.same rfl (fun _ _ h => h)
      · exact a.same rfl (fun _ _ h => h)
    · exact a.same rfl (fun _ _ h => h)
    · exact a.same rfl (fun _ _ h => h)
    · exact a

theorem room_of_allocs {A : List PkArgs} {F : List Hash} {s : Sys} {b : Nat} (i : s.Inv A F) (a : s.Allocs b)
    (hb : b < s.cache.cap) : s.HasRoom := by
  obtain ⟨L, _, h2⟩ := a
  have hsub : s.places.Subperm (List.range s.cache.next) :=
    List.subperm_of_subset i.nodup (fun id h => List.mem_range.2 (i.placed id h).1)
  have hlen := hsub.length_le
  rw [List.length_range] at hlen
  simp only [places, List.length_append] at hlen
  exact ⟨by omega, by omega⟩

end Sys

/-- If a schedule contains fewer insert calls than the queues have slots (four times the pool size), no queue ever is
full: the hypothesis of the theorems below holds. -/
theorem roomy_of_few_inserts {n : Nat} {sched : List Label} (h : Sys.inserts sched < 4 * n) :
    (Sys.new n).Roomy sched := by
  have key : ∀ (rest : List Label) (s : Sys) (b : Nat), (∀ l ∈ rest, l ∈ sched) →
      s.Inv (Sys.packages sched) (Sys.flushed sched) → s.Allocs b → b + Sys.inserts rest < s.cache.cap → s.Roomy rest := by
    intro rest
    induction rest with
    | nil => intro s b _ i a hb; exact Sys.room_of_allocs i a (by simpa [Sys.inserts] using hb)
    | cons l ls ih =>
      intro s b hsub i a hb
      have hroom : s.HasRoom := Sys.room_of_allocs i a (by omega)
      have e : Sys.inserts (l :: ls) = Sys.inserts [l] + Sys.inserts ls := by
        simp only [Sys.inserts, ← List.length_append, ← List.filter_append]; rfl
      refine ⟨hroom, ih (s.step l) _ (fun x hx => hsub x (by simp [hx])) (i.step l (Sys.fits_of_mem (hsub l (by simp))) hroom.1 hroom.2) (a.step l) ?_⟩
      rw [Sys.step_cap]; omega
  refine key sched (Sys.new n) 0 (fun _ h => h) (Sys.inv_new _ _ n) ⟨[], (by intro t tx h; cases h), by simp [Sys.new, TxCache.new]⟩ ?_
  simp only [Sys.new, TxCache.new]; omega

open Sys in
/-- **C21, the true part.**  Under every interleaving of any number of inserting and flushing threads with package
calls, as long as no queue is full: if the insert call of thread `t` has returned `Ok`, the transaction it was called
with is retrievable from the pool unless its hash is flushed in the schedule or its time-out is outside the window of
some package call of the schedule; and whenever no package is running it is, unremoved, in the queue that the next package
reads.  (`C21_not_lost_refuted`: with a full queue an accepted transaction can be lost.) -/
theorem C21_not_lost_partial {n : Nat} {sched : List Label} (hroom : (Sys.new n).Roomy sched) {t id : Nat}
    (hok : ((Sys.new n).run sched).ins t = .done id (.ok ())) :
    ∃ tx, Called sched t tx ∧
      (tx.txHash ∉ flushed sched → (∀ a ∈ packages sched, a.covers tx) →
        ((Sys.new n).run sched).cache.get tx.txHash = some tx ∧
        (((Sys.new n).run sched).NoPackage →
          ∃ w ∈ (((Sys.new n).run sched).cache.queue ((Sys.new n).run sched).cache.isZero).map
            ((Sys.new n).run sched).cache.heap, w.tx = tx ∧ w.removed = false)) := by
  obtain ⟨i, _⟩ := inv_run hroom
  have o := origin_run n sched
  generalize hs : (Sys.new n).run sched = s at *
  obtain ⟨h1, h2⟩ := o.id t id (by rw [hok]; rfl)
  refine ⟨(s.cache.heap id).tx, h2, ?_⟩
  intro hF hw
  obtain ⟨_, hk⟩ := i.kept t id (by rw [hok]; rfl)
  have hp : id ∈ s.places := by
    rcases hk hF with hk | ⟨a, ha, ht⟩
    · exact hk
    · rw [not_timeout (hw a ha)] at ht; cases ht
  have hg := (i.placed id hp).2 hF
  refine ⟨?_, ?_⟩
  · have hg' : s.cache.map.get (s.cache.heap id).tx.txHash = some id := hg
    simp [TxCache.get, hg']
  · intro hnp
    refine ⟨s.cache.heap id, List.mem_map.2 ⟨id, ?_, rfl⟩, rfl, i.removed id hF⟩
    have hq := i.other (by rcases hnp with h | ⟨r, h⟩ <;> rw [h] <;> rfl)
    have hh : s.pk.hand = [] := by rcases hnp with h | ⟨r, h⟩ <;> rw [h] <;> rfl
    rw [mem_places, hh] at hp
    cases hz : s.cache.isZero <;> rw [hz] at hq <;> simp only [Bool.not_true, Bool.not_false] at hq <;> rw [hq] at hp <;>
      simpa using hp

open Sys in
/-- **C18, concurrent part.**  Under every interleaving in which no queue is full, the hashes returned by a
package that no flush of the schedule names are pairwise distinct, each belongs to a transaction still in the pool, and
its time-out lies in the window of a package call.  (`C18_flush_race_refuted`: hashes that are being
flushed during the package can be returned twice.) -/
theorem C18_concurrent_package {n : Nat} {sched : List Label} (hroom : (Sys.new n).Roomy sched) {o p : List Hash}
    (hok : ((Sys.new n).run sched).pk = .done (.ok (o, p))) :
    ((o ++ p).filter (fun h => h ∉ flushed sched)).Nodup ∧
    ∀ h ∈ o ++ p, h ∉ flushed sched → ∃ tx, ((Sys.new n).run sched).cache.get h = some tx ∧ tx.txHash = h ∧
      ∃ a ∈ packages sched, a.covers tx := by
  obtain ⟨i, c⟩ := inv_run hroom
  generalize hs : (Sys.new n).run sched = s at *
  have hch : s.pk.chosen = o ++ p := by rw [hok]; rfl
  refine ⟨by have := c.nodup; rw [hch] at this; exact this, ?_⟩
  intro h hm hF
  rw [← hch] at hm
  obtain ⟨id, h1, h2, ⟨a, h3, h4⟩, _⟩ := c.at_ h hm hF
  have hg := (i.placed id h1).2 (by rw [h2]; exact hF)
  rw [h2] at hg
  exact ⟨(s.cache.heap id).tx, by simp [TxCache.get, hg], h2, a, h3, covers_of_not_timeout h4⟩

open Sys in
/-- **C21, C61 after concurrency.**  When every call of a schedule without flushes has returned and no queue was ever
full, the cache again is a first-in-first-out pool: there is a list of entries, containing every accepted
transaction that every package of the schedule covers, such that all later call sequences are answered exactly as by the
reference pool with this content. -/
theorem C21_quiescent_is_pool {n : Nat} {sched : List Label} (hroom : (Sys.new n).Roomy sched)
    (hnf : flushed sched = []) (hq : ((Sys.new n).run sched).Quiescent) :
    ∃ p : RefPool, (hashesOf p.entries).Nodup ∧ p.slots = p.entries.length ∧ p.cap = 4 * n ∧
      (∀ t id, ((Sys.new n).run sched).ins t = .done id (.ok ()) →
        ∃ tx, Called sched t tx ∧ ((∀ a ∈ packages sched, a.covers tx) → ∃ e ∈ p.entries, e.tx = tx)) ∧
      ∀ ops, (callAll TxCache.call ((Sys.new n).run sched).cache ops).1 = (callAll RefPool.call p ops).1 := by
  have hlost := @C21_not_lost_partial n sched hroom
  obtain ⟨i, _⟩ := inv_run hroom
  have hr := roomy_last hroom
  have hcap : ((Sys.new n).run sched).cache.cap = 4 * n := by
    have : ∀ (rest : List Label) (s : Sys), (s.run rest).cache.cap = s.cache.cap := by
      intro rest
      induction rest with
      | nil => intro s; rfl
      | cons l ls ih => intro s; rw [show s.run (l :: ls) = (s.step l).run ls from rfl, ih, step_cap]
    rw [this]; simp only [Sys.new, TxCache.new]; omega
  rw [hnf] at i hlost
  generalize hs : (Sys.new n).run sched = s at *
  obtain ⟨hq1, hq2, hq3⟩ := hq
  have hnp : s.pk.quiet = true ∧ s.pk.hand = [] ∧ s.pk.dead = [] := by
    rcases hq2 with h | ⟨r, h⟩ <;> rw [h] <;> exact ⟨rfl, rfl, rfl⟩
  have hins : ∀ t, (s.ins t).pre = none ∧ (s.ins t).crit = false := by
    intro t
    rcases hq1 t with h | ⟨id, r, h⟩ <;> rw [h] <;> exact ⟨rfl, rfl⟩
  have hother := i.other hnp.1
  have hinc : ∀ id, id ∈ s.places ↔ id ∈ s.cache.inc := by
    intro id
    rw [mem_places, hnp.2.1]
    unfold TxCache.inc
    cases hz : s.cache.isZero <;> rw [hz] at hother <;> simp only [Bool.not_true, Bool.not_false] at hother <;> rw [hother] <;> simp
  have hnodup : s.cache.inc.Nodup := by
    have := i.nodup
    simp only [places, hnp.2.1, List.append_nil] at this
    unfold TxCache.inc
    unfold TxCache.queue
    rw [List.nodup_append] at this
    split
    · exact this.1
    · exact this.2.1
  have g : s.cache.Good := by
    refine ⟨i.wf, ?_, hother, hnodup, ?_, ?_, ?_, ?_⟩
    · obtain ⟨L, _, h2, h3⟩ := i.count
      rw [h3]
      cases L with
      | nil => rfl
      | cons t L => have := (h2 t).1 (by simp); rw [(hins t).2] at this; cases this
    · intro id h; exact (i.placed id ((hinc id).2 h)).1
    · unfold TxCache.inc TxCache.queue; split
      · exact Nat.le_of_lt hr.1
      · exact Nat.le_of_lt hr.2
    · intro id h _; exact (i.placed id ((hinc id).2 h)).2 (by simp)
    · intro h id hm
      refine ⟨?_, i.removed id (by simp), (i.mapped h id hm).1⟩
      rcases i.where_ h id hm (by simp) with h1 | ⟨t, h1⟩ | h1
      · exact (hinc id).1 h1
      · rw [(hins t).1] at h1; cases h1
      · rw [hnp.2.2] at h1; cases h1
  refine ⟨s.cache.abs, g.hashes_nodup, ?_, hcap, ?_, fun ops => (callAll_refines g ops).1⟩
  · simp only [TxCache.abs, List.length_map]
    rw [List.filter_eq_self.2]
    intro id _
    simp [TxCache.isLive, i.removed id (by simp)]
  · intro t id h
    obtain ⟨tx, h1, h2⟩ := hlost h
    refine ⟨tx, h1, fun hc => ?_⟩
    obtain ⟨e, he, h3, _⟩ := (get_eq_some g).1 (h2 (by simp) hc).1
    exact ⟨e, he, h3⟩


/-! Concrete schedules -/

namespace Demo

/-- The wrapper of a call that returned `Ok`. -/
def okId : InsPc → Option Nat
  | .done id (.ok _) => some id
  | _ => none

theorem okId_eq {p : InsPc} {id : Nat} (h : okId p = some id) : p = .done id (.ok ()) := by
  unfold okId at h
  split at h
  · simp only [Option.some.injEq] at h; rw [h]
  · cases h

/-- What a finished package returned. -/
def packaged : PkPc → Option (List Hash × List Hash)
  | .done (.ok r) => some r
  | _ => none

theorem packaged_eq {p : PkPc} {o q : List Hash} (h : packaged p = some (o, q)) : p = .done (.ok (o, q)) := by
  unfold packaged at h
  split at h
  · simp only [Option.some.injEq] at h; rw [h]
  · cases h

/-- A whole public insert call by thread `t`. -/
def whole (t : Nat) (tx : SignedTx) : List Label := .callInsert t tx :: List.replicate 7 (.ins t)

/-- A whole insertion from a proposal by thread `t`. -/
def wholeProposed (t : Nat) (tx : SignedTx) : List Label := .callPropose t tx :: List.replicate 6 (.ins t)

/-- Thread 2 has read the queue role when the package (which has processed the transaction of thread 1) flips it;
thread 2 then pushes to the old queue while the package waits; thread 3 is flushing another hash meanwhile. -/
def racy : List Label :=
  whole 1 (ptx 1 10 4) ++ [.callInsert 2 (ptx 2 10 4), .ins 2, .ins 2, .ins 2, .ins 2] ++
  [.callPackage ⟨9, 3, 20⟩] ++ List.replicate 5 .pk ++ [.callFlush 1 [hash 5], .fl 1] ++
  [.ins 2, .pk, .ins 2, .fl 1, .fl 1, .ins 2] ++ List.replicate 5 .pk

theorem racy_roomy : (Sys.new 2).Roomy racy := roomy_of_few_inserts (by decide)

end Demo

/-- The hypotheses of `C21_not_lost_partial` hold for a schedule with a race, for both threads, and the transaction of
thread 2 is in the queue the next package reads. -/
example : Demo.okId (((Sys.new 2).run Demo.racy).ins 1) = some 0 ∧ Demo.okId (((Sys.new 2).run Demo.racy).ins 2) = some 1 ∧
    ((Sys.new 2).run Demo.racy).cache.get (Demo.hash 2) = some (Demo.ptx 2 10 4) ∧
    (((Sys.new 2).run Demo.racy).cache.queue ((Sys.new 2).run Demo.racy).cache.isZero) = [0, 1] ∧
    Demo.packaged ((Sys.new 2).run Demo.racy).pk = some ([Demo.hash 1], []) := by decide +kernel

example : ∃ tx, Sys.Called Demo.racy 2 tx ∧ (tx.txHash ∉ Sys.flushed Demo.racy → (∀ a ∈ Sys.packages Demo.racy, a.covers tx) →
    ((Sys.new 2).run Demo.racy).cache.get tx.txHash = some tx) := by
  obtain ⟨tx, h1, h2⟩ := C21_not_lost_partial (id := 1) (t := 2) Demo.racy_roomy (Demo.okId_eq (by decide +kernel))
  exact ⟨tx, h1, fun a b => (h2 a b).1⟩

/-- The hypothesis of `C18_concurrent_package` holds for it. -/
example : ([Demo.hash 1] ++ []).filter (fun h => h ∉ Sys.flushed Demo.racy) = [Demo.hash 1] := by decide +kernel

example := C18_concurrent_package Demo.racy_roomy (Demo.packaged_eq (o := [Demo.hash 1]) (q := []) (by decide +kernel))

/-- The labels of thread `t`'s insert call. -/
def Label.isIns (t : Nat) : Label → Bool
  | .callInsert t' _ => t' = t
  | .callPropose t' _ => t' = t
  | .ins t' => t' = t
  | _ => false

theorem ins_untouched {t : Nat} (sched : List Label) : ∀ (s : Sys), (sched.all (fun l => !l.isIns t)) = true →
    (s.run sched).ins t = s.ins t := by
  induction sched with
  | nil => intro s _; rfl
  | cons l ls ih =>
    intro s h
    simp only [List.all_cons, Bool.and_eq_true] at h
    rw [show s.run (l :: ls) = (s.step l).run ls from rfl, ih _ h.2]
    have hl := h.1
    have hne : ∀ t' : Nat, (!decide (t' = t)) = true → t ≠ t' := by
      intro t' h e; simp [e] at h
    cases l with
    | callInsert t' tx =>
      simp only [Sys.step]; split
      · simp only [Sys.setIns_ins]; rw [if_neg (hne _ hl)]
      · rfl
    | callPropose t' tx =>
      simp only [Sys.step]; split
      · simp only [Sys.setIns_ins]; rw [if_neg (hne _ hl)]
      · rfl
    | ins t' =>
      have e := hne _ hl
      simp only [Sys.step, Sys.stepIns]; split
      · rfl
      · split <;> (simp only [Sys.setIns_ins]; rw [if_neg e])
      · split <;> (simp only [Sys.setIns_ins]; rw [if_neg e])
      · simp only [Sys.setIns_ins]; rw [if_neg e]
      · simp only [Sys.setIns_ins]; rw [if_neg e]
      · simp only [Sys.setIns_ins]; rw [if_neg e]
      · simp only [Sys.setIns_ins]; rw [if_neg e]
      · split <;> (simp only [Sys.setIns_ins]; rw [if_neg e])
      · rfl
    | callPackage a => simp only [Sys.step]; split <;> rfl
    | pk => simp only [Sys.step, Sys.stepPk]; split <;> (first | rfl | (split <;> (first | rfl | (split <;> rfl))))
    | callFlush t' hs => simp only [Sys.step]; split <;> rfl
    | fl t' => simp only [Sys.step, Sys.stepFl]; split <;> (first | rfl | (split <;> rfl))

/-- The race of `Demo.racy` without the flush. -/
def Demo.racy2 : List Label :=
  whole 1 (ptx 1 10 4) ++ [.callInsert 2 (ptx 2 10 4), .ins 2, .ins 2, .ins 2, .ins 2] ++
  [.callPackage ⟨9, 3, 20⟩] ++ List.replicate 5 .pk ++ [.ins 2, .pk, .ins 2, .ins 2] ++ List.replicate 5 .pk

/-- The hypotheses of `C21_quiescent_is_pool` hold for it. -/
example : (Sys.new 2).Roomy Demo.racy2 ∧ Sys.flushed Demo.racy2 = [] ∧ ((Sys.new 2).run Demo.racy2).Quiescent := by
  refine ⟨roomy_of_few_inserts (by decide), by decide, ?_, Or.inr ⟨_, Demo.packaged_eq (o := [Demo.hash 1]) (q := []) (by decide +kernel)⟩, ?_⟩
  · intro t
    by_cases h1 : t = 1
    · subst h1; exact Or.inr ⟨_, _, Demo.okId_eq (id := 0) (by decide +kernel)⟩
    · by_cases h2 : t = 2
      · subst h2; exact Or.inr ⟨_, _, Demo.okId_eq (id := 1) (by decide +kernel)⟩
      · left
        rw [ins_untouched]
        · rfl
        · have e1 : ¬ (1 = t) := fun h => h1 h.symm
          have e2 : ¬ (2 = t) := fun h => h2 h.symm
          simp [Demo.racy2, Demo.whole, Label.isIns, e1, e2]
  · intro t
    left
    have : ∀ (sched : List Label) (s : Sys), (sched.all (fun l => match l with | .callFlush _ _ => false | .fl _ => false | _ => true)) = true →
        (s.run sched).fl = s.fl := by
      intro sched
      induction sched with
      | nil => intro s _; rfl
      | cons l ls ih =>
        intro s h
        simp only [List.all_cons, Bool.and_eq_true] at h
        rw [show s.run (l :: ls) = (s.step l).run ls from rfl, ih _ h.2]
        have hl := h.1
        cases l with
        | callInsert t' tx => simp only [Sys.step]; split <;> rfl
        | callPropose t' tx => simp only [Sys.step]; split <;> rfl
        | ins t' => simp only [Sys.step, Sys.stepIns]; split <;> (first | rfl | (split <;> rfl))
        | callPackage a => simp only [Sys.step]; split <;> rfl
        | pk => simp only [Sys.step, Sys.stepPk]; split <;> (first | rfl | (split <;> (first | rfl | (split <;> rfl))))
        | callFlush t' hs => cases hl
        | fl t' => cases hl
    rw [this _ _ (by decide)]; rfl

/-- **C21 is false with a full queue.**  Pool size 1 (queues of 4 slots), four proposed transactions moved to the
candidate queue by a package, a fifth accepted between the last pop and the role switch: the package drops it from
the queues.  Its insertion returned `Ok`, it was never flushed and has not expired, yet after the package the queue the
next package reads does not contain it: it stays in the map, counts against the pool size, and is never packaged. -/
theorem C21_not_lost_refuted :
    ∃ (n : Nat) (sched : List Label) (t id : Nat) (tx : SignedTx), Sys.Called sched t tx ∧
      ((Sys.new n).run sched).ins t = .done id (.ok ()) ∧ (((Sys.new n).run sched).cache.heap id).tx = tx ∧
      Sys.flushed sched = [] ∧ (∀ a ∈ Sys.packages sched, a.covers tx) ∧
      (∃ r, ((Sys.new n).run sched).pk = .done (.ok r)) ∧
      ((Sys.new n).run sched).cache.get tx.txHash = some tx ∧
      ∀ w ∈ (((Sys.new n).run sched).cache.queue true ++ ((Sys.new n).run sched).cache.queue false).map
        ((Sys.new n).run sched).cache.heap, w.tx ≠ tx := by
  refine ⟨1, Demo.wholeProposed 1 (Demo.ptx 1 10 4) ++ Demo.wholeProposed 2 (Demo.ptx 2 10 4) ++
    Demo.wholeProposed 3 (Demo.ptx 3 10 4) ++ Demo.wholeProposed 4 (Demo.ptx 4 10 4) ++
    [.callPackage ⟨9, 3, 20⟩] ++ List.replicate 13 .pk ++ Demo.wholeProposed 5 (Demo.ptx 5 10 4) ++ List.replicate 6 .pk,
    5, 4, Demo.ptx 5 10 4, ?_, Demo.okId_eq (by decide +kernel), by decide +kernel, by decide +kernel, ?_, ?_, by decide +kernel,
    by decide +kernel⟩
  · exact Or.inr (by simp [Demo.wholeProposed])
  · intro a ha
    have : a = ⟨9, 3, 20⟩ := by simpa [Sys.packages, Demo.wholeProposed] using ha
    subst this
    exact ⟨by decide, by decide⟩
  · exact ⟨([Demo.hash 1, Demo.hash 2], [Demo.hash 3]), Demo.packaged_eq (by decide +kernel)⟩

/-- **C18 is false when a flush overlaps an insert.**  A flush of `h` looks `h` up before it is inserted and deletes it
from the map afterwards; the entry stays in the queue.  A second insert of `h` is accepted, and with both
calls long returned the next package returns `h` twice.  No queue is ever full. -/
theorem C18_flush_race_refuted :
    ∃ (n : Nat) (sched : List Label) (o p : List Hash), (Sys.new n).Roomy sched ∧
      ((Sys.new n).run sched).pk = .done (.ok (o, p)) ∧ ¬ (o ++ p).Nodup := by
  refine ⟨2, [.callFlush 0 [Demo.hash 1], .fl 0] ++ Demo.whole 1 (Demo.ptx 1 10 4) ++ [.fl 0, .fl 0] ++
    Demo.whole 2 (Demo.ptx 1 10 4) ++ [.callPackage ⟨9, 3, 20⟩] ++ List.replicate 11 .pk,
    [Demo.hash 1, Demo.hash 1], [], roomy_of_few_inserts (by decide), Demo.packaged_eq (by decide +kernel), by decide +kernel⟩

/-- **C25 is false.**  Two threads that compare the length with the pool size before either inserts are both
admitted: pool size 1, two transactions in the pool. -/
theorem C25_pool_size_refuted :
    ∃ (n : Nat) (sched : List Label), (∀ t tx, Label.callPropose t tx ∉ sched) ∧
      n < ((Sys.new n).run sched).cache.len := by
  refine ⟨1, [.callInsert 1 (Demo.ptx 1 10 4), .callInsert 2 (Demo.ptx 2 10 4), .ins 1, .ins 2] ++
    List.replicate 6 (.ins 1) ++ List.replicate 6 (.ins 2), by simp, by decide +kernel⟩

/-- **C25 is false without concurrency**: proposal synchronisation does not look at the pool size. -/
theorem C25_proposals_refuted :
    ∃ (n : Nat) (ops : List CacheOp), (∀ op ∈ ops, ∃ tx, op = .insert tx true) ∧
      n < (callAll TxCache.call (TxCache.new (n * 2)) ops).2.len := by
  refine ⟨1, [.insert (Demo.ptx 1 10 4) true, .insert (Demo.ptx 2 10 4) true], ?_, by decide +kernel⟩
  intro op h
  simp only [List.mem_cons, List.not_mem_nil, or_false] at h
  rcases h with rfl | rfl
  · exact ⟨_, rfl⟩
  · exact ⟨_, rfl⟩

end Huobi
