import Verif.Model.TxCacheConc
import Verif.Proof.TxCache
/-
Invariant of the concurrent transaction cache without flushes and with queues that do not fill up.
-/
namespace Huobi

/-- Wrapper in the packaging thread's hands. -/
def PkPc.hand : PkPc → List Nat
  | .got _ _ _ id => [id]
  | .live _ _ _ id => [id]
  | .move _ _ _ id => [id]
  | _ => []

/-- Expired transactions waiting for their removal from the map. -/
def PkPc.dead : PkPc → List Hash
  | .loop _ _ pk => pk.timeouts
  | .got _ _ pk _ => pk.timeouts
  | .live _ _ pk _ => pk.timeouts
  | .switch _ _ pk => pk.timeouts
  | .wait _ _ pk => pk.timeouts
  | .drain _ _ pk => pk.timeouts
  | .move _ _ pk _ => pk.timeouts
  | .delete _ pk => pk.timeouts
  | _ => []

def PkPc.args : PkPc → Option PkArgs
  | .loop a _ _ => some a
  | .got a _ _ _ => some a
  | .live a _ _ _ => some a
  | .switch a _ _ => some a
  | .wait a _ _ => some a
  | .drain a _ _ => some a
  | .move a _ _ _ => some a
  | .delete a _ => some a
  | _ => none

/-- The role flag the packaging thread believes to be the current one. -/
def PkPc.flag : PkPc → Option Bool
  | .loop _ z _ => some z
  | .got _ z _ _ => some z
  | .live _ z _ _ => some z
  | .switch _ z _ => some z
  | .wait _ z _ => some z
  | .drain _ z _ => some z
  | .move _ z _ _ => some z
  | _ => none

def PkPc.waiting : PkPc → Bool
  | .wait _ _ _ => true
  | _ => false

/-- Between packages, and at the final removal, the other queue is empty. -/
def PkPc.quiet : PkPc → Bool
  | .idle => true
  | .done _ => true
  | .delete _ _ => true
  | _ => false

/-- In the map but not yet in a queue. -/
def InsPc.pre : InsPc → Option Nat
  | .inserted id => some id
  | .counted id => some id
  | .role id _ => some id
  | _ => none

/-- Not yet in a queue. -/
def InsPc.own : InsPc → Option Nat
  | .start id => some id
  | .inserted id => some id
  | .counted id => some id
  | .role id _ => some id
  | _ => none

def InsPc.crit : InsPc → Bool
  | .counted _ => true
  | .role _ _ => true
  | .pushed _ _ => true
  | _ => false

/-- Pushed or about to be reported as inserted. -/
def InsPc.acc : InsPc → Option Nat
  | .pushed id true => some id
  | .left id true => some id
  | .done id (.ok _) => some id
  | _ => none

/-- A push has failed. -/
def InsPc.bad : InsPc → Bool
  | .pushed _ false => true
  | .left _ false => true
  | _ => false

namespace Sys

/-- All wrappers in the queues or in the packaging thread's hands. -/
def places (s : Sys) : List Nat := s.cache.q0 ++ s.cache.q1 ++ s.pk.hand

/-- Hash of a wrapper. -/
def hashAt (s : Sys) (id : Nat) : Hash := (s.cache.heap id).tx.txHash

/-- Hashes a flushing thread may still touch. -/
def _root_.Huobi.FlPc.hashes : FlPc → List Hash
  | .mark hs rest => hs ++ rest
  | .set hs rest _ => hs ++ rest
  | .delete hs => hs
  | _ => []

/-- The invariant; `A` contains the arguments of all package calls, `F` the hashes of all flushes. -/
structure Inv (A : List PkArgs) (F : List Hash) (s : Sys) : Prop where
  wf : s.cache.map.WF
  removed : ∀ id, s.hashAt id ∉ F → (s.cache.heap id).removed = false
  nodup : s.places.Nodup
  own : ∀ t id, (s.ins t).own = some id → id < s.cache.next ∧ id ∉ s.places
  ownInj : ∀ t t' id, (s.ins t).own = some id → (s.ins t').own = some id → t = t'
  startFree : ∀ t id, s.ins t = .start id → ∀ h, s.cache.map.get h ≠ some id
  pre : ∀ t id, (s.ins t).pre = some id → s.hashAt id ∉ F → s.cache.map.get (s.hashAt id) = some id
  mapped : ∀ h id, s.cache.map.get h = some id → s.hashAt id = h ∧ id < s.cache.next
  where_ : ∀ h id, s.cache.map.get h = some id → h ∉ F →
    id ∈ s.places ∨ (∃ t, (s.ins t).pre = some id) ∨ h ∈ s.pk.dead
  placed : ∀ id ∈ s.places, id < s.cache.next ∧ (s.hashAt id ∉ F → s.cache.map.get (s.hashAt id) = some id)
  dead : ∀ h ∈ s.pk.dead, h ∉ F → ∃ id, s.cache.map.get h = some id ∧ id ∉ s.places ∧ ∀ t, (s.ins t).pre ≠ some id
  kept : ∀ t id, (s.ins t).acc = some id → id < s.cache.next ∧
    (s.hashAt id ∉ F → id ∈ s.places ∨ ∃ a ∈ A, (s.cache.heap id).isTimeout a.current a.timeout = true)
  bad : ∀ t, (s.ins t).bad = false
  args : ∀ a, s.pk.args = some a → a ∈ A
  count : ∃ L : List Nat, L.Nodup ∧ (∀ t, t ∈ L ↔ (s.ins t).crit = true) ∧ s.cache.count = L.length
  roles : ∀ t id z, s.ins t = .role id z → z = s.cache.isZero ∨ s.pk.waiting = true
  flag : ∀ z, s.pk.flag = some z → z = s.cache.isZero
  other : s.pk.quiet = true → s.cache.queue (!s.cache.isZero) = []
  flHashes : ∀ t, ∀ h ∈ (s.fl t).hashes, h ∈ F
  flSet : ∀ t hs rest id, s.fl t = .set hs rest id → id < s.cache.next ∧ s.hashAt id ∈ F

theorem inv_new (A : List PkArgs) (F : List Hash) (n : Nat) : (new n).Inv A F := by
  have h0 : ∀ h, (new n).cache.map.get h = none := fun h => rfl
  refine ⟨TxMap.wf_new, fun _ _ => rfl, List.nodup_nil, ?_, ?_, ?_, ?_, ?_, ?_, ?_, ?_, ?_, ?_, ?_, ⟨[], List.nodup_nil, ?_, rfl⟩, ?_, ?_, ?_, ?_, ?_⟩
  all_goals simp [new, FlPc.hashes, InsPc.own, InsPc.pre, InsPc.acc, InsPc.bad, PkPc.dead, PkPc.args, InsPc.crit, PkPc.flag,
    places, PkPc.hand, TxCache.new, TxCache.queue, TxMap.get_new]

section steps

variable {A : List PkArgs} {F : List Hash} {s : Sys}

@[simp] theorem setIns_cache (s : Sys) (t : Nat) (p : InsPc) : (s.setIns t p).cache = s.cache := rfl
@[simp] theorem setIns_pk (s : Sys) (t : Nat) (p : InsPc) : (s.setIns t p).pk = s.pk := rfl
@[simp] theorem setIns_ins (s : Sys) (t : Nat) (p : InsPc) (i : Nat) :
    (s.setIns t p).ins i = if i = t then p else s.ins i := rfl
@[simp] theorem setIns_places (s : Sys) (t : Nat) (p : InsPc) : (s.setIns t p).places = s.places := rfl
@[simp] theorem setIns_hashAt (s : Sys) (t : Nat) (p : InsPc) (i : Nat) : (s.setIns t p).hashAt i = s.hashAt i := rfl

/-- A thread's program counter changes in a way the invariant does not see. -/
theorem Inv.setIns (i : s.Inv A F) {t : Nat} {p : InsPc} (ho : p.own = none ∨ p.own = (s.ins t).own)
    (hs : ∀ id, p = .start id → s.ins t = .start id)
    (hp : p.pre = (s.ins t).pre) (ha : ∀ id, p.acc = some id → (s.ins t).acc = some id)
    (hc : p.crit = (s.ins t).crit) (hb : p.bad = false)
    (hr : ∀ id z, p = .role id z → z = s.cache.isZero) : (s.setIns t p).Inv A F := by
  obtain ⟨wf, removed, nodup, own, ownInj, startFree, pre, mapped, where_, placed, dead, kept, bad, args, count, roles, flag, other, flHashes, flSet⟩ := i
  have hpre : ∀ t', ((s.setIns t p).ins t').pre = (s.ins t').pre := by
    intro t'; simp only [setIns_ins]; split
    · rename_i h; rw [h, hp]
    · rfl
  have hown : ∀ t' id, ((s.setIns t p).ins t').own = some id → (s.ins t').own = some id := by
    intro t' id h
    simp only [setIns_ins] at h
    split at h
    · rename_i e; subst e; rcases ho with ho | ho
      · rw [ho] at h; cases h
      · rw [← ho]; exact h
    · exact h
  refine ⟨wf, removed, nodup, ?_, ?_, ?_, ?_, mapped, ?_, placed, ?_, ?_, ?_, args, ?_, ?_, flag, other, flHashes, flSet⟩
  · intro t' id h; exact own t' id (hown t' id h)
  · intro t1 t2 id h1 h2; exact ownInj t1 t2 id (hown _ _ h1) (hown _ _ h2)
  · intro t' id h
    simp only [setIns_ins] at h
    split at h
    · exact startFree _ id (hs id h)
    · exact startFree t' id h
  · intro t' id h; rw [hpre] at h; exact pre t' id h
  · intro h id hm
    simp only [hpre]; exact where_ h id hm
  · intro h hd
    simp only [hpre]; exact dead h hd
  · intro t' id h
    simp only [setIns_ins] at h
    split at h
    · exact kept _ id (ha id h)
    · exact kept t' id h
  · intro t'; simp only [setIns_ins]; split
    · exact hb
    · exact bad t'
  · obtain ⟨L, h1, h2, h3⟩ := count
    refine ⟨L, h1, ?_, h3⟩
    intro t'; rw [h2]
    simp only [setIns_ins]; split
    · rename_i e; rw [e, hc]
    · rfl
  · intro t' id z h
    simp only [setIns_ins] at h
    split at h
    · exact Or.inl (hr id z h)
    · exact roles t' id z h

theorem Inv.alloc (i : s.Inv A F) {t : Nat} (tx : SignedTx) (p : Bool) (ht : (s.ins t).pre = none) (hc : (s.ins t).crit = false) :
    (({ s with cache := (s.cache.alloc ⟨tx, false, p⟩).2 } : Sys).setIns t (.start s.cache.next)).Inv A F := by
  obtain ⟨wf, removed, nodup, own, ownInj, startFree, pre, mapped, where_, placed, dead, kept, bad, args, count, roles, flag, other, flHashes, flSet⟩ := i
  generalize hs' : (({ s with cache := (s.cache.alloc ⟨tx, false, p⟩).2 } : Sys).setIns t (.start s.cache.next)) = s'
  have hmap : s'.cache.map = s.cache.map := by subst hs'; rfl
  have hplaces : s'.places = s.places := by subst hs'; rfl
  have hnext : s'.cache.next = s.cache.next + 1 := by subst hs'; rfl
  have hheap : ∀ id, id < s.cache.next → s'.cache.heap id = s.cache.heap id := by
    intro id h; subst hs'; simp only [setIns_cache, TxCache.alloc]; rw [if_neg (by omega)]
  have hash : ∀ id, id < s.cache.next → s'.hashAt id = s.hashAt id := fun id h => by simp only [hashAt, hheap id h]
  have hpk : s'.pk = s.pk := by subst hs'; rfl
  have hins : ∀ t', s'.ins t' = if t' = t then .start s.cache.next else s.ins t' := by intro t'; subst hs'; rfl
  have hpre : ∀ t', (s'.ins t').pre = (s.ins t').pre := by
    intro t'; rw [hins]; split
    · rename_i h; rw [h, ht]; rfl
    · rfl
  have hz : s'.cache.isZero = s.cache.isZero := by subst hs'; rfl
  have hq : ∀ z, s'.cache.queue z = s.cache.queue z := by intro z; subst hs'; rfl
  have hcount : s'.cache.count = s.cache.count := by subst hs'; rfl
  have hfl : s'.fl = s.fl := by subst hs'; rfl
  have hpreOwn : ∀ {t' id'}, (s.ins t').pre = some id' → (s.ins t').own = some id' := by
    intro t' id' h; revert h; cases s.ins t' <;> simp [InsPc.pre, InsPc.own]
  refine ⟨by rw [hmap]; exact wf, ?_, by rw [hplaces]; exact nodup, ?_, ?_, ?_, ?_, ?_, ?_, ?_, ?_, ?_, ?_, by rw [hpk]; exact args, ?_, ?_, ?_, ?_, by rw [hfl]; exact flHashes, ?_⟩
  · intro id
    by_cases e : id = s.cache.next
    · intro _; subst hs'; simp only [setIns_cache, TxCache.alloc]; rw [if_pos e]
    · have e' : s'.cache.heap id = s.cache.heap id := by
        subst hs'; simp only [setIns_cache, TxCache.alloc]; rw [if_neg e]
      simp only [hashAt, e']; exact removed id
  · intro t' id h
    rw [hins] at h; rw [hplaces, hnext]
    split at h
    · simp only [InsPc.own, Option.some.injEq] at h
      subst h
      exact ⟨by omega, fun hm => by have := (placed _ hm).1; omega⟩
    · have := own t' id h; exact ⟨by omega, this.2⟩
  · intro t1 t2 id h1 h2
    rw [hins] at h1 h2
    split at h1 <;> split at h2
    · rename_i a b; rw [a, b]
    · simp only [InsPc.own, Option.some.injEq] at h1
      have := (own t2 id h2).1; omega
    · simp only [InsPc.own, Option.some.injEq] at h2
      have := (own t1 id h1).1; omega
    · exact ownInj t1 t2 id h1 h2
  · intro t' id h h'
    rw [hins] at h; rw [hmap]
    split at h
    · simp only [InsPc.start.injEq] at h
      intro hg; have := (mapped h' id hg).2; omega
    · exact startFree t' id h h'
  · intro t' id h
    rw [hpre] at h; rw [hmap]
    rw [hash id (own t' id (hpreOwn h)).1]; exact pre t' id h
  · intro h id hm
    rw [hmap] at hm
    obtain ⟨h1, h2⟩ := mapped h id hm
    rw [hash id h2, hnext]; exact ⟨h1, by omega⟩
  · intro h id hm
    rw [hmap] at hm; simp only [hpre, hplaces, hpk]; exact where_ h id hm
  · intro id hm
    rw [hplaces] at hm; obtain ⟨h1, h2⟩ := placed id hm
    rw [hnext, hmap, hash id h1]; exact ⟨by omega, h2⟩
  · intro h hd
    rw [hpk] at hd; simp only [hmap, hplaces, hpre]; exact dead h hd
  · intro t' id h
    rw [hins] at h
    split at h
    · cases h
    · have := kept t' id h
      rw [hnext, hplaces, hheap id this.1, hash id this.1]; exact ⟨by omega, this.2⟩
  · intro t'; rw [hins]; split
    · rfl
    · exact bad t'
  · obtain ⟨L, h1, h2, h3⟩ := count
    refine ⟨L, h1, ?_, by rw [hcount]; exact h3⟩
    intro t'; rw [h2, hins]; split
    · rename_i e; rw [e, hc]; rfl
    · rfl
  · intro t' id z h
    rw [hins] at h; rw [hz, hpk]
    split at h
    · cases h
    · exact roles t' id z h
  · intro z h; rw [hpk] at h; rw [hz]; exact flag z h
  · intro h; rw [hpk] at h; rw [hz, hq]; exact other h
  · intro t' hs rest id h
    rw [hfl] at h
    obtain ⟨h1, h2⟩ := flSet t' hs rest id h
    rw [hnext, hash id h1]; exact ⟨by omega, h2⟩

theorem Inv.mapInsert (i : s.Inv A F) {t id : Nat} (ht : s.ins t = .start id)
    (hn : s.cache.map.get (s.hashAt id) = none) :
    (({ s with cache := { s.cache with map := (s.cache.map.insert (s.hashAt id) id).2 } } : Sys).setIns t
      (.inserted id)).Inv A F := by
  obtain ⟨wf, removed, nodup, own, ownInj, startFree, pre, mapped, where_, placed, dead, kept, bad, args, count, roles, flag, other, flHashes, flSet⟩ := i
  generalize hs' : (({ s with cache := { s.cache with map := (s.cache.map.insert (s.hashAt id) id).2 } } : Sys).setIns t
      (.inserted id)) = s'
  have hmap : ∀ k, s'.cache.map.get k = if k = s.hashAt id then some id else s.cache.map.get k := by
    intro k; subst hs'; simp only [setIns_cache]; rw [TxMap.get_insert]; simp [hn]
  have hown := own t id (by rw [ht]; rfl)
  have hplaces : s'.places = s.places := by subst hs'; rfl
  have hnext : s'.cache.next = s.cache.next := by subst hs'; rfl
  have hash : ∀ id, s'.hashAt id = s.hashAt id := fun id => by subst hs'; rfl
  have hheap : s'.cache.heap = s.cache.heap := by subst hs'; rfl
  have hpk : s'.pk = s.pk := by subst hs'; rfl
  have hins : ∀ t', s'.ins t' = if t' = t then .inserted id else s.ins t' := by intro t'; subst hs'; rfl
  have hz : s'.cache.isZero = s.cache.isZero := by subst hs'; rfl
  have hq : ∀ z, s'.cache.queue z = s.cache.queue z := by intro z; subst hs'; rfl
  have hcount : s'.cache.count = s.cache.count := by subst hs'; rfl
  have hpreOld : ∀ t' id', (s.ins t').pre = some id' → (s'.ins t').pre = some id' := by
    intro t' id' h; rw [hins]; split
    · rename_i e; rw [e, ht] at h; cases h
    · exact h
  have hpreNew : ∀ t' id', (s'.ins t').pre = some id' → (t' = t ∧ id' = id) ∨ (s.ins t').pre = some id' := by
    intro t' id' h; rw [hins] at h; split at h
    · rename_i e; simp only [InsPc.pre, Option.some.injEq] at h; exact Or.inl ⟨e, h.symm⟩
    · exact Or.inr h
  have hpreOwn : ∀ {t' id'}, (s.ins t').pre = some id' → (s.ins t').own = some id' := by
    intro t' id' h; revert h; cases s.ins t' <;> simp [InsPc.pre, InsPc.own]
  have hownNew : ∀ t' id', (s'.ins t').own = some id' → (s.ins t').own = some id' := by
    intro t' id' h; rw [hins] at h; split at h
    · rename_i e; rw [e, ht]; exact h
    · exact h
  have hfl : s'.fl = s.fl := by subst hs'; rfl
  refine ⟨?_, by intro id'; rw [hheap, hash]; exact removed id', by rw [hplaces]; exact nodup, ?_, ?_, ?_, ?_, ?_, ?_, ?_, ?_, ?_, ?_, by rw [hpk]; exact args, ?_, ?_, ?_, ?_, by rw [hfl]; exact flHashes, by intro t' hs rest id'; rw [hfl, hnext, hash]; exact flSet t' hs rest id'⟩
  · subst hs'; exact TxMap.wf_insert wf _ _
  · intro t' id' h; rw [hnext, hplaces]; exact own t' id' (hownNew t' id' h)
  · intro t1 t2 id' h1 h2; exact ownInj t1 t2 id' (hownNew _ _ h1) (hownNew _ _ h2)
  · intro t' id' h k
    rw [hins] at h; rw [hmap]
    split at h
    · cases h
    · rename_i hne
      split
      · intro e
        simp only [Option.some.injEq] at e
        subst e
        exact hne (ownInj t' t id (by rw [h]; rfl) (by rw [ht]; rfl))
      · exact startFree t' id' h k
  · intro t' id' h
    rw [hmap, hash]
    intro hF
    rcases hpreNew t' id' h with ⟨_, rfl⟩ | h
    · simp
    · have := pre t' id' h hF
      split
      · rename_i e; rw [e, hn] at this; cases this
      · exact this
  · intro h id' hm
    rw [hmap] at hm; rw [hash, hnext]
    split at hm
    · rename_i e; simp only [Option.some.injEq] at hm; subst hm; exact ⟨e.symm, hown.1⟩
    · exact mapped h id' hm
  · intro h id' hm
    rw [hmap] at hm; rw [hplaces, hpk]
    intro hF
    split at hm
    · simp only [Option.some.injEq] at hm; subst hm
      refine Or.inr (Or.inl ⟨t, ?_⟩); rw [hins, if_pos rfl]; rfl
    · rcases where_ h id' hm hF with h1 | ⟨t', h1⟩ | h1
      · exact Or.inl h1
      · exact Or.inr (Or.inl ⟨t', hpreOld t' id' h1⟩)
      · exact Or.inr (Or.inr h1)
  · intro id' hm
    rw [hplaces] at hm
    obtain ⟨h1, h2⟩ := placed id' hm
    rw [hnext, hmap, hash]
    refine ⟨h1, fun hF => ?_⟩
    have h2 := h2 hF
    split
    · rename_i e; rw [e, hn] at h2; cases h2
    · exact h2
  · intro h hd
    rw [hpk] at hd
    intro hF
    obtain ⟨id', h1, h2, h3⟩ := dead h hd hF
    refine ⟨id', ?_, by rw [hplaces]; exact h2, ?_⟩
    · rw [hmap]; split
      · rename_i e; rw [e, hn] at h1; cases h1
      · exact h1
    · intro t' h'
      rcases hpreNew t' id' h' with ⟨_, rfl⟩ | h'
      · exact startFree t id' ht h h1
      · exact h3 t' h'
  · intro t' id' h
    rw [hins] at h
    split at h
    · cases h
    · rw [hnext, hplaces, hheap, hash]; exact kept t' id' h
  · intro t'; rw [hins]; split
    · rfl
    · exact bad t'
  · obtain ⟨L, h1, h2, h3⟩ := count
    refine ⟨L, h1, ?_, by rw [hcount]; exact h3⟩
    intro t'; rw [h2, hins]; split
    · rename_i e; rw [e, ht]; rfl
    · rfl
  · intro t' id' z h
    rw [hins] at h; rw [hz, hpk]
    split at h
    · cases h
    · exact roles t' id' z h
  · intro z h; rw [hpk] at h; rw [hz]; exact flag z h
  · intro h; rw [hpk] at h; rw [hz, hq]; exact other h

/-- Entering the counted section. -/
theorem Inv.enter (i : s.Inv A F) {t id : Nat} (ht : s.ins t = .inserted id) :
    (({ s with cache := { s.cache with count := s.cache.count + 1 } } : Sys).setIns t (.counted id)).Inv A F := by
  obtain ⟨wf, removed, nodup, own, ownInj, startFree, pre, mapped, where_, placed, dead, kept, bad, args, count, roles, flag, other, flHashes, flSet⟩ := i
  have hpre : ∀ t', ((({ s with cache := { s.cache with count := s.cache.count + 1 } } : Sys).setIns t (.counted id)).ins t').pre = (s.ins t').pre := by
    intro t'; simp only [setIns_ins]; split
    · rename_i h; rw [h, ht]; rfl
    · rfl
  have hown : ∀ t', ((({ s with cache := { s.cache with count := s.cache.count + 1 } } : Sys).setIns t (.counted id)).ins t').own = (s.ins t').own := by
    intro t'; simp only [setIns_ins]; split
    · rename_i h; rw [h, ht]; rfl
    · rfl
  refine ⟨wf, removed, nodup, ?_, ?_, ?_, ?_, mapped, ?_, placed, ?_, ?_, ?_, args, ?_, ?_, flag, other, flHashes, flSet⟩
  · intro t' id' h; rw [hown] at h; exact own t' id' h
  · intro t1 t2 id' h1 h2; rw [hown] at h1 h2; exact ownInj t1 t2 id' h1 h2
  · intro t' id' h
    simp only [setIns_ins] at h
    split at h
    · cases h
    · exact startFree t' id' h
  · intro t' id' h; rw [hpre] at h; exact pre t' id' h
  · intro h id' hm; simp only [hpre]; exact where_ h id' hm
  · intro h hd; simp only [hpre]; exact dead h hd
  · intro t' id' h
    simp only [setIns_ins] at h
    split at h
    · cases h
    · exact kept t' id' h
  · intro t'; simp only [setIns_ins]; split
    · rfl
    · exact bad t'
  · obtain ⟨L, h1, h2, h3⟩ := count
    refine ⟨t :: L, ?_, ?_, ?_⟩
    · refine List.nodup_cons.2 ⟨?_, h1⟩
      rw [h2, ht]; simp [InsPc.crit]
    · intro t'
      simp only [setIns_ins, List.mem_cons, h2]
      by_cases e : t' = t <;> simp [e, InsPc.crit]
    · simp [h3]
  · intro t' id' z h
    simp only [setIns_ins] at h
    split at h
    · cases h
    · exact roles t' id' z h

/-- Leaving the counted section. -/
theorem Inv.leave (i : s.Inv A F) {t id : Nat} (ht : s.ins t = .pushed id true) :
    (({ s with cache := { s.cache with count := s.cache.count - 1 } } : Sys).setIns t (.left id true)).Inv A F := by
  obtain ⟨wf, removed, nodup, own, ownInj, startFree, pre, mapped, where_, placed, dead, kept, bad, args, count, roles, flag, other, flHashes, flSet⟩ := i
  have hpre : ∀ t', ((({ s with cache := { s.cache with count := s.cache.count - 1 } } : Sys).setIns t (.left id true)).ins t').pre = (s.ins t').pre := by
    intro t'; simp only [setIns_ins]; split
    · rename_i h; rw [h, ht]; rfl
    · rfl
  have hown : ∀ t', ((({ s with cache := { s.cache with count := s.cache.count - 1 } } : Sys).setIns t (.left id true)).ins t').own = (s.ins t').own := by
    intro t'; simp only [setIns_ins]; split
    · rename_i h; rw [h, ht]; rfl
    · rfl
  refine ⟨wf, removed, nodup, ?_, ?_, ?_, ?_, mapped, ?_, placed, ?_, ?_, ?_, args, ?_, ?_, flag, other, flHashes, flSet⟩
  · intro t' id' h; rw [hown] at h; exact own t' id' h
  · intro t1 t2 id' h1 h2; rw [hown] at h1 h2; exact ownInj t1 t2 id' h1 h2
  · intro t' id' h
    simp only [setIns_ins] at h
    split at h
    · cases h
    · exact startFree t' id' h
  · intro t' id' h; rw [hpre] at h; exact pre t' id' h
  · intro h id' hm; simp only [hpre]; exact where_ h id' hm
  · intro h hd; simp only [hpre]; exact dead h hd
  · intro t' id' h
    simp only [setIns_ins] at h
    split at h
    · rename_i e; exact kept t id' (by rw [ht]; exact h)
    · exact kept t' id' h
  · intro t'; simp only [setIns_ins]; split
    · rfl
    · exact bad t'
  · obtain ⟨L, h1, h2, h3⟩ := count
    have htL : t ∈ L := by rw [h2, ht]; rfl
    refine ⟨L.erase t, h1.erase t, ?_, ?_⟩
    · intro t'
      rw [h1.mem_erase_iff]
      simp only [setIns_ins, h2]
      by_cases e : t' = t <;> simp [e, InsPc.crit]
    · simp [h3, List.length_erase_of_mem htL]
  · intro t' id' z h
    simp only [setIns_ins] at h
    split at h
    · cases h
    · exact roles t' id' z h

theorem mem_places (s : Sys) (id : Nat) :
    id ∈ s.places ↔ id ∈ s.cache.queue true ∨ id ∈ s.cache.queue false ∨ id ∈ s.pk.hand := by
  simp [places, TxCache.queue, List.mem_append]

theorem count_places (s : Sys) (id : Nat) :
    s.places.count id = (s.cache.queue true).count id + (s.cache.queue false).count id + s.pk.hand.count id := by
  simp only [places, TxCache.queue, List.count_append]
  simp

/-- Places only matter up to permutation. -/
theorem Inv.insPush (i : s.Inv A F) {t id : Nat} {z : Bool} (ht : s.ins t = .role id z)
    (hcap : (s.cache.queue z).length < s.cache.cap) :
    (({ s with cache := (s.cache.push z id).2 } : Sys).setIns t (.pushed id (s.cache.push z id).1)).Inv A F := by
  have e0 : s.cache.push z id = (true, s.cache.setQueue z (s.cache.queue z ++ [id])) := by
    unfold TxCache.push; rw [if_pos hcap]
  rw [e0]
  have iorig := i
  obtain ⟨wf, removed, nodup, own, ownInj, startFree, pre, mapped, where_, placed, dead, kept, bad, args, count, roles, flag, other, flHashes, flSet⟩ := i
  generalize hs' : (({ s with cache := s.cache.setQueue z (s.cache.queue z ++ [id]) } : Sys).setIns t (.pushed id true)) = s'
  have hmap : s'.cache.map = s.cache.map := by subst hs'; simp
  have hcount : ∀ x, s'.places.count x = s.places.count x + [id].count x := by
    intro x; rw [count_places, count_places]; subst hs'
    simp only [setIns_cache, setIns_pk]
    cases z
    · rw [TxCache.queue_setQueue_same, show (s.cache.setQueue false (s.cache.queue false ++ [id])).queue true = s.cache.queue true from rfl, List.count_append]; omega
    · rw [TxCache.queue_setQueue_same, show (s.cache.setQueue true (s.cache.queue true ++ [id])).queue false = s.cache.queue false from rfl, List.count_append]; omega
  have hperm : s'.places.Perm (s.places ++ [id]) := List.perm_iff_count.2 (fun x => by rw [hcount, List.count_append])
  have hmem : ∀ x, x ∈ s'.places ↔ x ∈ s.places ∨ x = id := fun x => by rw [hperm.mem_iff]; simp
  have hown0 := own t id (by rw [ht]; rfl)
  have hnext : s'.cache.next = s.cache.next := by subst hs'; simp
  have hash : ∀ id, s'.hashAt id = s.hashAt id := fun id => by subst hs'; simp [hashAt]
  have hheap : s'.cache.heap = s.cache.heap := by subst hs'; simp
  have hpk : s'.pk = s.pk := by subst hs'; rfl
  have hins : ∀ t', s'.ins t' = if t' = t then .pushed id true else s.ins t' := by intro t'; subst hs'; rfl
  have hz : s'.cache.isZero = s.cache.isZero := by subst hs'; simp
  have hcnt : s'.cache.count = s.cache.count := by subst hs'; simp
  have hpreNew : ∀ t' id', (s'.ins t').pre = some id' → t' ≠ t ∧ (s.ins t').pre = some id' := by
    intro t' id' h; rw [hins] at h; split at h
    · cases h
    · rename_i e; exact ⟨e, h⟩
  have hpreOwn : ∀ {t' id'}, (s.ins t').pre = some id' → (s.ins t').own = some id' := by
    intro t' id' h; revert h; cases s.ins t' <;> simp [InsPc.pre, InsPc.own]
  have hownNew : ∀ t' id', (s'.ins t').own = some id' → t' ≠ t ∧ (s.ins t').own = some id' := by
    intro t' id' h; rw [hins] at h; split at h
    · cases h
    · rename_i e; exact ⟨e, h⟩
  have hfl : s'.fl = s.fl := by subst hs'; rfl
  refine ⟨by rw [hmap]; exact wf, by intro id'; rw [hheap, hash]; exact removed id', ?_, ?_, ?_, ?_, ?_, ?_, ?_, ?_, ?_, ?_, ?_, by rw [hpk]; exact args, ?_, ?_, ?_, ?_, by rw [hfl]; exact flHashes, by intro t' hs rest id'; rw [hfl, hnext, hash]; exact flSet t' hs rest id'⟩
  · rw [hperm.nodup_iff, List.nodup_append]
    refine ⟨nodup, List.nodup_singleton _, ?_⟩
    intro a ha b hb e
    rw [List.mem_singleton] at hb; subst hb; subst e; exact hown0.2 ha
  · intro t' id' h
    obtain ⟨hne, h⟩ := hownNew t' id' h
    obtain ⟨h1, h2⟩ := own t' id' h
    rw [hnext, hmem]
    refine ⟨h1, ?_⟩
    rintro (h3 | rfl)
    · exact h2 h3
    · exact hne (ownInj t' t id' h (by rw [ht]; rfl))
  · intro t1 t2 id' h1 h2; exact ownInj t1 t2 id' (hownNew _ _ h1).2 (hownNew _ _ h2).2
  · intro t' id' h
    rw [hins] at h; rw [hmap]
    split at h
    · cases h
    · exact startFree t' id' h
  · intro t' id' h; rw [hmap, hash]; exact pre t' id' (hpreNew t' id' h).2
  · intro h id' hm; rw [hmap] at hm; rw [hash, hnext]; exact mapped h id' hm
  · intro h id' hm
    rw [hmap] at hm; rw [hmem, hpk]
    intro hF
    rcases where_ h id' hm hF with h1 | ⟨t', h1⟩ | h1
    · exact Or.inl (Or.inl h1)
    · by_cases e : t' = t
      · subst e; rw [ht] at h1; simp only [InsPc.pre, Option.some.injEq] at h1
        exact Or.inl (Or.inr h1.symm)
      · refine Or.inr (Or.inl ⟨t', ?_⟩); rw [hins, if_neg e]; exact h1
    · exact Or.inr (Or.inr h1)
  · intro id' hm
    rw [hnext, hmap, hash]
    rcases (hmem id').1 hm with h1 | rfl
    · exact placed id' h1
    · exact ⟨hown0.1, pre t id' (by rw [ht]; rfl)⟩
  · intro h hd
    rw [hpk] at hd
    intro hF
    obtain ⟨id', h1, h2, h3⟩ := dead h hd hF
    refine ⟨id', by rw [hmap]; exact h1, ?_, fun t' h' => h3 t' (hpreNew t' id' h').2⟩
    rw [hmem]
    rintro (h4 | rfl)
    · exact h2 h4
    · exact h3 t (by rw [ht]; rfl)
  · intro t' id' h
    rw [hins] at h; rw [hnext, hmem, hheap, hash]
    split at h
    · simp only [InsPc.acc, Option.some.injEq] at h; subst h
      exact ⟨hown0.1, fun _ => Or.inl (Or.inr rfl)⟩
    · obtain ⟨h1, h2⟩ := kept t' id' h
      refine ⟨h1, fun hF => ?_⟩
      rcases h2 hF with h2 | h2
      · exact Or.inl (Or.inl h2)
      · exact Or.inr h2
  · intro t'; rw [hins]; split
    · rfl
    · exact bad t'
  · obtain ⟨L, h1, h2, h3⟩ := count
    refine ⟨L, h1, ?_, by rw [hcnt]; exact h3⟩
    intro t'; rw [h2, hins]; split
    · rename_i e; rw [e, ht]; rfl
    · rfl
  · intro t' id' z' h
    rw [hins] at h; rw [hz, hpk]
    split at h
    · cases h
    · exact roles t' id' z' h
  · intro z' h; rw [hpk] at h; rw [hz]; exact flag z' h
  · intro h
    rw [hpk] at h
    have hzz : z = s.cache.isZero := by
      rcases roles t id z ht with h1 | h1
      · exact h1
      · revert h h1; cases s.pk <;> simp [PkPc.quiet, PkPc.waiting]
    rw [hz]
    subst hs'
    simp only [setIns_cache]
    rw [← hzz, TxCache.queue_setQueue_not, hzz]
    exact other h

theorem Inv.stepIns (i : s.Inv A F) (t : Nat) (hf0 : s.cache.q0.length < s.cache.cap) (hf1 : s.cache.q1.length < s.cache.cap) :
    (s.stepIns t).Inv A F := by
  unfold Sys.stepIns
  split
  · exact i
  · rename_i tx ht
    split
    · exact i.setIns (Or.inl rfl) (by intro id h; cases h) (by rw [ht]; rfl) (by intro id h; cases h) (by rw [ht]; rfl) rfl
        (by intro id z h; cases h)
    · exact i.alloc tx false (by rw [ht]; rfl) (by rw [ht]; rfl)
  · rename_i id ht
    simp only
    have e := TxMap.insert_fst s.cache.map (s.hashAt id) id
    by_cases hn : s.cache.map.get (s.hashAt id) = none
    · rw [hn] at e
      have e' : (s.cache.map.insert (s.cache.heap id).tx.txHash id).1 = none := e
      rw [e']
      exact i.mapInsert ht hn
    · have hsome : (s.cache.map.get (s.hashAt id)).isSome = true := by
        cases hx : s.cache.map.get (s.hashAt id) with
        | none => exact absurd hx hn
        | some _ => rfl
      rw [if_pos hsome] at e
      have e' : (s.cache.map.insert (s.cache.heap id).tx.txHash id).1 = some id := e
      rw [e']
      exact i.setIns (Or.inl rfl) (by intro id h; cases h) (by rw [ht]; rfl) (by intro id h; cases h) (by rw [ht]; rfl) rfl
        (by intro id z h; cases h)
  · rename_i id ht; exact i.enter ht
  · rename_i id ht
    exact i.setIns (Or.inr (by rw [ht]; rfl)) (by intro id h; cases h) (by rw [ht]; rfl) (by intro id h; cases h)
      (by rw [ht]; rfl) rfl (by intro id z h; simp only [InsPc.role.injEq] at h; exact h.2.symm)
  · rename_i id z ht
    exact i.insPush ht (by cases z <;> assumption)
  · rename_i id ok ht
    have hb := i.bad t
    rw [ht] at hb
    cases ok with
    | false => cases hb
    | true => exact i.leave ht
  · rename_i id ok ht
    have hb := i.bad t
    rw [ht] at hb
    cases ok with
    | false => cases hb
    | true =>
      simp only [if_true]
      exact i.setIns (Or.inl rfl) (by intro id h; cases h) (by rw [ht]; rfl) (by intro id h; rw [ht]; exact h)
        (by rw [ht]; rfl) rfl (by intro id z h; cases h)
  · exact i

/-- The packaging thread moves wrappers around. -/
theorem Inv.pkMove (i : s.Inv A F) {s' : Sys} (hmap : s'.cache.map = s.cache.map) (hheap : s'.cache.heap = s.cache.heap)
    (hnext : s'.cache.next = s.cache.next) (hcount : s'.cache.count = s.cache.count) (hins : s'.ins = s.ins)
    (hfl : s'.fl = s.fl)
    (hperm : s'.places.Perm s.places) (hdead : s'.pk.dead = s.pk.dead)
    (hargs : ∀ a, s'.pk.args = some a → a ∈ A)
    (hroles : ∀ t id z, s.ins t = .role id z → z = s'.cache.isZero ∨ s'.pk.waiting = true)
    (hflag : ∀ z, s'.pk.flag = some z → z = s'.cache.isZero)
    (hother : s'.pk.quiet = true → s'.cache.queue (!s'.cache.isZero) = []) : s'.Inv A F := by
  obtain ⟨wf, removed, nodup, own, ownInj, startFree, pre, mapped, where_, placed, dead, kept, bad, args, count, roles, flag, other, flHashes, flSet⟩ := i
  have hash : ∀ id, s'.hashAt id = s.hashAt id := fun id => by simp only [hashAt, hheap]
  have hmem : ∀ x, x ∈ s'.places ↔ x ∈ s.places := fun x => hperm.mem_iff
  refine ⟨by rw [hmap]; exact wf, by intro id'; rw [hheap, hash]; exact removed id', hperm.nodup_iff.2 nodup, ?_, ?_, ?_, ?_, ?_, ?_, ?_, ?_, ?_, ?_, hargs, ?_, ?_, hflag, hother, by rw [hfl]; exact flHashes, by intro t' hs rest id'; rw [hfl, hnext, hash]; exact flSet t' hs rest id'⟩
  · intro t id h; rw [hins] at h; rw [hnext, hmem]; exact own t id h
  · intro t t' id h h'; rw [hins] at h h'; exact ownInj t t' id h h'
  · intro t id h; rw [hins] at h; rw [hmap]; exact startFree t id h
  · intro t id h; rw [hins] at h; rw [hmap, hash]; exact pre t id h
  · intro h id hm; rw [hmap] at hm; rw [hash, hnext]; exact mapped h id hm
  · intro h id hm; rw [hmap] at hm; rw [hmem, hins, hdead]; exact where_ h id hm
  · intro id hm; rw [hmem] at hm; rw [hnext, hmap, hash]; exact placed id hm
  · intro h hd; rw [hdead] at hd; rw [hmap, hins]; simp only [hmem]; exact dead h hd
  · intro t id h; rw [hins] at h; rw [hnext, hmem, hheap, hash]; exact kept t id h
  · intro t; rw [hins]; exact bad t
  · rw [hins, hcount]; exact count
  · intro t id z h; rw [hins] at h; exact hroles t id z h

/-- The packaging thread drops an expired wrapper. -/
theorem Inv.pkExpire (i : s.Inv A F) {a : PkArgs} {z : Bool} {pk : Pk} {id : Nat} (hpk : s.pk = .got a z pk id)
    (ht : (s.cache.heap id).isTimeout a.current a.timeout = true) :
    ({ s with pk := .loop a z (pk.expire (s.cache.heap id)) } : Sys).Inv A F := by
  obtain ⟨wf, removed, nodup, own, ownInj, startFree, pre, mapped, where_, placed, dead, kept, bad, args, count, roles, flag, other, flHashes, flSet⟩ := i
  have hp : s.places = s.cache.q0 ++ s.cache.q1 ++ [id] := by simp [places, hpk, PkPc.hand]
  have hp' : ({ s with pk := .loop a z (pk.expire (s.cache.heap id)) } : Sys).places = s.cache.q0 ++ s.cache.q1 := by
    simp [places, PkPc.hand]
  generalize hs' : ({ s with pk := .loop a z (pk.expire (s.cache.heap id)) } : Sys) = s'
  rw [hs'] at hp'
  have hmem : ∀ x, x ∈ s.places ↔ x ∈ s'.places ∨ x = id := by
    intro x; rw [hp, hp']; simp [or_assoc]
  have hnot : id ∉ s'.places := by
    rw [hp, List.nodup_append] at nodup
    rw [hp']
    intro hm
    exact nodup.2.2 id hm id (by simp) rfl
  have hid := placed id ((hmem id).2 (Or.inr rfl))
  have hdead : ∀ h, h ∈ s'.pk.dead ↔ h ∈ s.pk.dead ∨ h = s.hashAt id := by
    intro h; subst hs'; rw [hpk]; simp [PkPc.dead, Pk.expire, hashAt]
  have hc : s'.cache = s.cache := by subst hs'; rfl
  have hins : s'.ins = s.ins := by subst hs'; rfl
  have hash : ∀ id, s'.hashAt id = s.hashAt id := fun id => by simp only [hashAt, hc]
  have hfl : s'.fl = s.fl := by subst hs'; rfl
  refine ⟨by rw [hc]; exact wf, by intro id'; rw [hc, hash]; exact removed id', ?_, ?_, ?_, ?_, ?_, ?_, ?_, ?_, ?_, ?_, ?_, ?_, ?_, ?_, ?_, ?_, by rw [hfl]; exact flHashes, by intro t' hs rest id'; rw [hfl, hc, hash]; exact flSet t' hs rest id'⟩
  · rw [hp, List.nodup_append] at nodup
    rw [hp']; exact nodup.1
  · intro t id' h; rw [hins] at h; rw [hc]
    obtain ⟨h1, h2⟩ := own t id' h
    exact ⟨h1, fun hm => h2 ((hmem id').2 (Or.inl hm))⟩
  · intro t t' id' h h'; rw [hins] at h h'; exact ownInj t t' id' h h'
  · intro t id' h; rw [hins] at h; rw [hc]; exact startFree t id' h
  · intro t id' h; rw [hins] at h; rw [hc, hash]; exact pre t id' h
  · intro h id' hm; rw [hc] at hm; rw [hash, hc]; exact mapped h id' hm
  · intro h id' hm
    rw [hc] at hm; rw [hins, hdead]
    intro hF
    rcases where_ h id' hm hF with h1 | h1 | h1
    · rcases (hmem id').1 h1 with h2 | rfl
      · exact Or.inl h2
      · exact Or.inr (Or.inr (Or.inr (mapped h id' hm).1.symm))
    · exact Or.inr (Or.inl h1)
    · exact Or.inr (Or.inr (Or.inl h1))
  · intro id' hm; rw [hc, hash]; exact placed id' ((hmem id').2 (Or.inl hm))
  · intro h hd
    rw [hc, hins]
    intro hF
    rcases (hdead h).1 hd with hd | rfl
    · obtain ⟨id', h1, h2, h3⟩ := dead h hd hF
      exact ⟨id', h1, fun hm => h2 ((hmem id').2 (Or.inl hm)), h3⟩
    · refine ⟨id, hid.2 hF, hnot, fun t h => ?_⟩
      have : (s.ins t).own = some id := by
        revert h; cases s.ins t <;> simp [InsPc.pre, InsPc.own]
      exact (own t id this).2 ((hmem id).2 (Or.inr rfl))
  · intro t id' h
    rw [hins] at h; rw [hc, hash]
    obtain ⟨h1, h2⟩ := kept t id' h
    refine ⟨h1, fun hF => ?_⟩
    rcases h2 hF with h2 | h2
    · rcases (hmem id').1 h2 with h3 | rfl
      · exact Or.inl h3
      · exact Or.inr ⟨a, args a (by rw [hpk]; rfl), ht⟩
    · exact Or.inr h2
  · intro t; rw [hins]; exact bad t
  · intro a' h
    apply args a'
    subst hs'; rw [hpk]; exact h
  · rw [hins, hc]; exact count
  · intro t id' z' h
    rw [hins] at h; rw [hc]
    rcases roles t id' z' h with h1 | h1
    · exact Or.inl h1
    · rw [hpk] at h1; cases h1
  · intro z' h; rw [hc]; apply flag z'; subst hs'; rw [hpk]; exact h
  · intro h; subst hs'; cases h

/-- The packaging thread drops a flushed wrapper. -/
theorem Inv.pkSkip (i : s.Inv A F) {a : PkArgs} {z : Bool} {pk : Pk} {id : Nat} (hpk : s.pk = .got a z pk id)
    (ht : (s.cache.heap id).removed = true) : ({ s with pk := .loop a z pk } : Sys).Inv A F := by
  obtain ⟨wf, removed, nodup, own, ownInj, startFree, pre, mapped, where_, placed, dead, kept, bad, args, count, roles, flag, other, flHashes, flSet⟩ := i
  have hp : s.places = s.cache.q0 ++ s.cache.q1 ++ [id] := by simp [places, hpk, PkPc.hand]
  have hp' : ({ s with pk := .loop a z pk } : Sys).places = s.cache.q0 ++ s.cache.q1 := by
    simp [places, PkPc.hand]
  generalize hs' : ({ s with pk := .loop a z pk } : Sys) = s'
  rw [hs'] at hp'
  have hmem : ∀ x, x ∈ s.places ↔ x ∈ s'.places ∨ x = id := by
    intro x; rw [hp, hp']; simp [or_assoc]
  have hidF : s.hashAt id ∈ F := by
    by_contra hF; rw [removed id hF] at ht; cases ht
  have hdead : s'.pk.dead = s.pk.dead := by subst hs'; rw [hpk]; rfl
  have hc : s'.cache = s.cache := by subst hs'; rfl
  have hins : s'.ins = s.ins := by subst hs'; rfl
  have hfl : s'.fl = s.fl := by subst hs'; rfl
  have hash : ∀ id, s'.hashAt id = s.hashAt id := fun id => by simp only [hashAt, hc]
  refine ⟨by rw [hc]; exact wf, by intro id'; rw [hc, hash]; exact removed id', ?_, ?_, ?_, ?_, ?_, ?_, ?_, ?_, ?_, ?_, ?_, ?_, ?_, ?_, ?_, ?_, by rw [hfl]; exact flHashes, by intro t' hs rest id'; rw [hfl, hc, hash]; exact flSet t' hs rest id'⟩
  · rw [hp, List.nodup_append] at nodup
    rw [hp']; exact nodup.1
  · intro t id' h; rw [hins] at h; rw [hc]
    obtain ⟨h1, h2⟩ := own t id' h
    exact ⟨h1, fun hm => h2 ((hmem id').2 (Or.inl hm))⟩
  · intro t t' id' h h'; rw [hins] at h h'; exact ownInj t t' id' h h'
  · intro t id' h; rw [hins] at h; rw [hc]; exact startFree t id' h
  · intro t id' h; rw [hins] at h; rw [hc, hash]; exact pre t id' h
  · intro h id' hm; rw [hc] at hm; rw [hash, hc]; exact mapped h id' hm
  · intro h id' hm
    rw [hc] at hm; rw [hins, hdead]
    intro hF
    rcases where_ h id' hm hF with h1 | h1 | h1
    · rcases (hmem id').1 h1 with h2 | rfl
      · exact Or.inl h2
      · rw [(mapped h id' hm).1] at hidF; exact absurd hidF hF
    · exact Or.inr (Or.inl h1)
    · exact Or.inr (Or.inr h1)
  · intro id' hm; rw [hc, hash]; exact placed id' ((hmem id').2 (Or.inl hm))
  · intro h hd
    rw [hc, hins]
    intro hF
    rw [hdead] at hd
    obtain ⟨id', h1, h2, h3⟩ := dead h hd hF
    exact ⟨id', h1, fun hm => h2 ((hmem id').2 (Or.inl hm)), h3⟩
  · intro t id' h
    rw [hins] at h; rw [hc, hash]
    obtain ⟨h1, h2⟩ := kept t id' h
    refine ⟨h1, fun hF => ?_⟩
    rcases h2 hF with h2 | h2
    · rcases (hmem id').1 h2 with h3 | rfl
      · exact Or.inl h3
      · exact absurd hidF hF
    · exact Or.inr h2
  · intro t; rw [hins]; exact bad t
  · intro a' h
    apply args a'
    subst hs'; rw [hpk]; exact h
  · rw [hins, hc]; exact count
  · intro t id' z' h
    rw [hins] at h; rw [hc]
    rcases roles t id' z' h with h1 | h1
    · exact Or.inl h1
    · rw [hpk] at h1; cases h1
  · intro z' h; rw [hc]; apply flag z'; subst hs'; rw [hpk]; exact h
  · intro h; subst hs'; cases h

/-- The final removal of the expired transactions. -/
theorem Inv.pkDelete (i : s.Inv A F) {a : PkArgs} {pk : Pk} (hpk : s.pk = .delete a pk) :
    ({ s with cache := { s.cache with map := s.cache.map.deletes pk.timeouts }, pk := .done (.ok (pk.order, pk.propose)) } : Sys).Inv A F := by
  obtain ⟨wf, removed, nodup, own, ownInj, startFree, pre, mapped, where_, placed, dead, kept, bad, args, count, roles, flag, other, flHashes, flSet⟩ := i
  have hd0 : s.pk.dead = pk.timeouts := by rw [hpk]; rfl
  rw [hd0] at dead where_
  generalize hs' : ({ s with cache := { s.cache with map := s.cache.map.deletes pk.timeouts }, pk := .done (.ok (pk.order, pk.propose)) } : Sys) = s'
  have hmap : ∀ k, s'.cache.map.get k = if k ∈ pk.timeouts then none else s.cache.map.get k := by
    intro k; subst hs'; exact TxMap.get_deletes wf _ k
  have hp : s'.places = s.places := by subst hs'; simp [places, hpk, PkPc.hand]
  have hins : s'.ins = s.ins := by subst hs'; rfl
  have hash : ∀ id, s'.hashAt id = s.hashAt id := fun id => by subst hs'; rfl
  have hheap : s'.cache.heap = s.cache.heap := by subst hs'; rfl
  have hnext : s'.cache.next = s.cache.next := by subst hs'; rfl
  have hz : s'.cache.isZero = s.cache.isZero := by subst hs'; rfl
  have hq : ∀ z, s'.cache.queue z = s.cache.queue z := by intro z; subst hs'; rfl
  have hcnt : s'.cache.count = s.cache.count := by subst hs'; rfl
  have hfl : s'.fl = s.fl := by subst hs'; rfl
  refine ⟨?_, by intro id'; rw [hheap, hash]; exact removed id', by rw [hp]; exact nodup, ?_, ?_, ?_, ?_, ?_, ?_, ?_, ?_, ?_, ?_, ?_, ?_, ?_, ?_, ?_, by rw [hfl]; exact flHashes, by intro t' hs rest id'; rw [hfl, hnext, hash]; exact flSet t' hs rest id'⟩
  · subst hs'; exact TxMap.wf_deletes wf _
  · intro t id h; rw [hins] at h; rw [hnext, hp]; exact own t id h
  · intro t t' id h h'; rw [hins] at h h'; exact ownInj t t' id h h'
  · intro t id h k; rw [hins] at h; rw [hmap]; split
    · simp
    · exact startFree t id h k
  · intro t id h; rw [hins] at h; rw [hmap, hash]
    intro hF
    have h1 := pre t id h hF
    rw [if_neg]
    · exact h1
    · intro hd
      obtain ⟨id', h2, _, h4⟩ := dead _ hd hF
      rw [h1] at h2; simp only [Option.some.injEq] at h2; subst h2
      exact h4 t h
  · intro h id hm; rw [hmap] at hm; rw [hash, hnext]; split at hm
    · cases hm
    · exact mapped h id hm
  · intro h id hm
    rw [hmap] at hm; rw [hp, hins]
    intro hF
    split at hm
    · cases hm
    · rename_i hn
      rcases where_ h id hm hF with h1 | h1 | h1
      · exact Or.inl h1
      · exact Or.inr (Or.inl h1)
      · exact absurd h1 hn
  · intro id hm
    rw [hp] at hm; rw [hnext, hmap, hash]
    obtain ⟨h1, h2⟩ := placed id hm
    refine ⟨h1, fun hF => ?_⟩
    have h2 := h2 hF
    rw [if_neg]
    · exact h2
    · intro hd
      obtain ⟨id', h3, h4, _⟩ := dead _ hd hF
      rw [h2] at h3; simp only [Option.some.injEq] at h3; subst h3
      exact h4 hm
  · intro h hd; subst hs'; cases hd
  · intro t id h; rw [hins] at h; rw [hnext, hp, hheap, hash]; exact kept t id h
  · intro t; rw [hins]; exact bad t
  · intro a' h; subst hs'; cases h
  · rw [hins, hcnt]; exact count
  · intro t id z h
    rw [hins] at h; rw [hz]
    rcases roles t id z h with h1 | h1
    · exact Or.inl h1
    · rw [hpk] at h1; cases h1
  · intro z h; subst hs'; cases h
  · intro _; rw [hz, hq]; exact other (by rw [hpk]; rfl)

theorem pop_some {c c' : TxCache} {z : Bool} {id : Nat} (h : c.pop z = some (id, c')) :
    ∃ rest, c.queue z = id :: rest ∧ c' = c.setQueue z rest := by
  unfold TxCache.pop at h
  split at h
  · cases h
  · rename_i a rest e
    simp only [Option.some.injEq, Prod.mk.injEq] at h
    exact ⟨rest, by rw [e, h.1], h.2.symm⟩

theorem pop_none {c : TxCache} {z : Bool} (h : c.pop z = none) : c.queue z = [] := by
  unfold TxCache.pop at h
  split at h
  · assumption
  · cases h

theorem perm_pop {z : Bool} {id : Nat} {rest : List Nat} {pc : PkPc} (hq : s.cache.queue z = id :: rest)
    (hh : s.pk.hand = []) (hh' : pc.hand = [id]) :
    ({ s with cache := s.cache.setQueue z rest, pk := pc } : Sys).places.Perm s.places := by
  rw [List.perm_iff_count]
  intro x
  rw [count_places, count_places, hh, hh']
  cases z
  · rw [TxCache.queue_setQueue_same, hq]
    rw [show (s.cache.setQueue false rest).queue true = s.cache.queue true from rfl]
    simp only [List.count_cons, List.count_nil]; omega
  · rw [TxCache.queue_setQueue_same, hq]
    rw [show (s.cache.setQueue true rest).queue false = s.cache.queue false from rfl]
    simp only [List.count_cons, List.count_nil]; omega

theorem perm_push {z : Bool} {id : Nat} {pc : PkPc} (hh : s.pk.hand = [id]) (hh' : pc.hand = []) :
    ({ s with cache := s.cache.setQueue z (s.cache.queue z ++ [id]), pk := pc } : Sys).places.Perm s.places := by
  rw [List.perm_iff_count]
  intro x
  rw [count_places, count_places, hh, hh']
  cases z
  · rw [TxCache.queue_setQueue_same]
    rw [show (s.cache.setQueue false (s.cache.queue false ++ [id])).queue true = s.cache.queue true from rfl]
    simp only [List.count_cons, List.count_nil, List.count_append]; omega
  · rw [TxCache.queue_setQueue_same]
    rw [show (s.cache.setQueue true (s.cache.queue true ++ [id])).queue false = s.cache.queue false from rfl]
    simp only [List.count_cons, List.count_nil, List.count_append]; omega

theorem take_timeouts (limit : UInt64) (pk : Pk) (w : Wrapper) : (pk.take limit w).timeouts = pk.timeouts := by
  unfold Pk.take
  split
  · rfl
  · simp only
    split <;> (split <;> rfl)

theorem places_of_hand {s s' : Sys} (h0 : s'.cache.q0 = s.cache.q0) (h1 : s'.cache.q1 = s.cache.q1)
    (hh : s'.pk.hand = s.pk.hand) : s'.places.Perm s.places := by
  simp only [places, h0, h1, hh]; exact List.Perm.refl _

theorem Inv.stepPk (i : s.Inv A F) (hf0 : s.cache.q0.length < s.cache.cap) (hf1 : s.cache.q1.length < s.cache.cap) :
    s.stepPk.Inv A F := by
  have hfull : ∀ z, (s.cache.queue z).length < s.cache.cap := by intro z; cases z <;> assumption
  unfold Sys.stepPk
  split
  · exact i
  · rename_i a z pk hpk
    have hz : z = s.cache.isZero := i.flag z (by rw [hpk]; rfl)
    split
    · rename_i id c hp
      obtain ⟨rest, hq, rfl⟩ := pop_some hp
      refine i.pkMove (by simp) (by simp) (by simp) (by simp) rfl rfl (perm_pop hq (by rw [hpk]; rfl) rfl) (by rw [hpk]; rfl)
        (fun a' h => i.args a' (by rw [hpk]; exact h)) ?_ ?_ (by intro h; cases h)
      · intro t id' z' h
        simp only [TxCache.setQueue_isZero]
        rcases i.roles t id' z' h with h1 | h1
        · exact Or.inl h1
        · rw [hpk] at h1; cases h1
      · intro z' h
        simp only [PkPc.flag, Option.some.injEq] at h
        simp only [TxCache.setQueue_isZero]
        rw [← h]; exact hz
    · refine i.pkMove rfl rfl rfl rfl rfl rfl (places_of_hand rfl rfl (by rw [hpk]; rfl)) (by rw [hpk]; rfl)
        (fun a' h => i.args a' (by rw [hpk]; exact h)) ?_ ?_ (by intro h; cases h)
      · intro t id' z' h
        rcases i.roles t id' z' h with h1 | h1
        · exact Or.inl h1
        · rw [hpk] at h1; cases h1
      · intro z' h
        simp only [PkPc.flag, Option.some.injEq] at h
        rw [← h]; exact hz
  · rename_i a z pk id hpk
    have hz : z = s.cache.isZero := i.flag z (by rw [hpk]; rfl)
    simp only
    split
    · rename_i hr; exact i.pkSkip hpk hr
    · split
      · rename_i ht; exact i.pkExpire hpk ht
      · refine i.pkMove rfl rfl rfl rfl rfl rfl (places_of_hand rfl rfl (by rw [hpk]; rfl)) (by rw [hpk]; rfl)
          (fun a' h => i.args a' (by rw [hpk]; exact h)) ?_ ?_ (by intro h; cases h)
        · intro t id' z' h
          rcases i.roles t id' z' h with h1 | h1
          · exact Or.inl h1
          · rw [hpk] at h1; cases h1
        · intro z' h
          simp only [PkPc.flag, Option.some.injEq] at h
          rw [← h]; exact hz
  · rename_i a z pk id hpk
    have hz : z = s.cache.isZero := i.flag z (by rw [hpk]; rfl)
    have e0 : s.cache.push (!z) id = (true, s.cache.setQueue (!z) (s.cache.queue (!z) ++ [id])) := by
      unfold TxCache.push; rw [if_pos (hfull _)]
    rw [e0]
    simp only [if_true]
    refine i.pkMove (by simp) (by simp) (by simp) (by simp) rfl rfl (perm_push (by rw [hpk]; rfl) rfl)
      (by rw [hpk]; simp only [PkPc.dead, take_timeouts])
      (fun a' h => i.args a' (by rw [hpk]; exact h)) ?_ ?_ (by intro h; cases h)
    · intro t id' z' h
      simp only [TxCache.setQueue_isZero]
      rcases i.roles t id' z' h with h1 | h1
      · exact Or.inl h1
      · rw [hpk] at h1; cases h1
    · intro z' h
      simp only [PkPc.flag, Option.some.injEq] at h
      simp only [TxCache.setQueue_isZero]
      rw [← h]; exact hz
  · rename_i a z pk hpk
    have hz : z = s.cache.isZero := i.flag z (by rw [hpk]; rfl)
    refine i.pkMove rfl rfl rfl rfl rfl rfl (places_of_hand rfl rfl (by rw [hpk]; rfl)) (by rw [hpk]; rfl)
      (fun a' h => i.args a' (by rw [hpk]; exact h)) (fun _ _ _ _ => Or.inr rfl) ?_ (by intro h; cases h)
    intro z' h
    simp only [PkPc.flag, Option.some.injEq] at h
    rw [← h, hz]
  · rename_i a z pk hpk
    have hz : z = s.cache.isZero := i.flag z (by rw [hpk]; rfl)
    split
    · rename_i hc
      refine i.pkMove rfl rfl rfl rfl rfl rfl (places_of_hand rfl rfl (by rw [hpk]; rfl)) (by rw [hpk]; rfl)
        (fun a' h => i.args a' (by rw [hpk]; exact h)) ?_ ?_ (by intro h; cases h)
      · intro t id' z' h
        obtain ⟨L, _, h2, h3⟩ := i.count
        rw [hc] at h3
        have : L = [] := List.eq_nil_of_length_eq_zero h3.symm
        have ht : t ∈ L := by rw [h2, h]; rfl
        rw [this] at ht; cases ht
      · intro z' h
        simp only [PkPc.flag, Option.some.injEq] at h
        rw [← h]; exact hz
    · exact i
  · rename_i a z pk hpk
    have hz : z = s.cache.isZero := i.flag z (by rw [hpk]; rfl)
    have hroles : ∀ t id' z', s.ins t = .role id' z' → z' = s.cache.isZero := by
      intro t id' z' h
      rcases i.roles t id' z' h with h1 | h1
      · exact h1
      · rw [hpk] at h1; cases h1
    split
    · rename_i id c hp
      obtain ⟨rest, hq, rfl⟩ := pop_some hp
      refine i.pkMove (by simp) (by simp) (by simp) (by simp) rfl rfl (perm_pop hq (by rw [hpk]; rfl) rfl) (by rw [hpk]; rfl)
        (fun a' h => i.args a' (by rw [hpk]; exact h)) ?_ ?_ (by intro h; cases h)
      · intro t id' z' h
        simp only [TxCache.setQueue_isZero]; exact Or.inl (hroles t id' z' h)
      · intro z' h
        simp only [PkPc.flag, Option.some.injEq] at h
        simp only [TxCache.setQueue_isZero]
        rw [← h]; exact hz
    · rename_i hp
      refine i.pkMove rfl rfl rfl rfl rfl rfl (places_of_hand rfl rfl (by rw [hpk]; rfl)) (by rw [hpk]; rfl)
        (fun a' h => i.args a' (by rw [hpk]; exact h)) ?_ (by intro z' h; cases h) ?_
      · intro t id' z' h; exact Or.inl (hroles t id' z' h)
      · intro _
        show s.cache.queue (!s.cache.isZero) = []
        rw [← hz]; exact pop_none hp
  · rename_i a z pk id hpk
    have hz : z = s.cache.isZero := i.flag z (by rw [hpk]; rfl)
    have e0 : s.cache.push z id = (true, s.cache.setQueue z (s.cache.queue z ++ [id])) := by
      unfold TxCache.push; rw [if_pos (hfull _)]
    rw [e0]
    refine i.pkMove (by simp) (by simp) (by simp) (by simp) rfl rfl (perm_push (by rw [hpk]; rfl) rfl) (by rw [hpk]; rfl)
      (fun a' h => i.args a' (by rw [hpk]; exact h)) ?_ ?_ (by intro h; cases h)
    · intro t id' z' h
      simp only [TxCache.setQueue_isZero]
      rcases i.roles t id' z' h with h1 | h1
      · exact Or.inl h1
      · rw [hpk] at h1; cases h1
    · intro z' h
      simp only [PkPc.flag, Option.some.injEq] at h
      simp only [TxCache.setQueue_isZero]
      rw [← h]; exact hz
  · rename_i a pk hpk; exact i.pkDelete hpk
  · exact i

theorem Inv.callPackage (i : s.Inv A F) {a : PkArgs} (ha : a ∈ A) (hd : s.pk.dead = []) (hh : s.pk.hand = [])
    (hw : s.pk.waiting = false) : ({ s with pk := .loop a s.cache.isZero Pk.init } : Sys).Inv A F := by
  refine i.pkMove rfl rfl rfl rfl rfl rfl (places_of_hand rfl rfl (by rw [hh]; rfl)) (by rw [hd]; rfl)
    ?_ ?_ ?_ (by intro h; cases h)
  · intro a' h; simp only [PkPc.args, Option.some.injEq] at h; rw [← h]; exact ha
  · intro t id' z' h
    rcases i.roles t id' z' h with h1 | h1
    · exact Or.inl h1
    · rw [hw] at h1; cases h1
  · intro z' h; simp only [PkPc.flag, Option.some.injEq] at h; exact h.symm

/-- Only a flushing thread's program counter changes. -/
theorem Inv.setFl (i : s.Inv A F) {t : Nat} {p : FlPc} (h1 : ∀ h ∈ p.hashes, h ∈ F)
    (h2 : ∀ hs rest id, p = .set hs rest id → id < s.cache.next ∧ s.hashAt id ∈ F) : (s.setFl t p).Inv A F := by
  obtain ⟨wf, removed, nodup, own, ownInj, startFree, pre, mapped, where_, placed, dead, kept, bad, args, count, roles, flag, other, flHashes, flSet⟩ := i
  refine ⟨wf, removed, nodup, own, ownInj, startFree, pre, mapped, where_, placed, dead, kept, bad, args, count, roles, flag, other, ?_, ?_⟩
  · intro t'
    simp only [Sys.setFl]
    split
    · exact h1
    · exact flHashes t'
  · intro t' hs rest id h
    simp only [Sys.setFl] at h
    split at h
    · exact h2 hs rest id h
    · exact flSet t' hs rest id h

/-- A flush marks a wrapper. -/
theorem Inv.setRemoved (i : s.Inv A F) {id : Nat} (hid : s.hashAt id ∈ F) :
    ({ s with cache := s.cache.setRemoved id } : Sys).Inv A F := by
  obtain ⟨wf, removed, nodup, own, ownInj, startFree, pre, mapped, where_, placed, dead, kept, bad, args, count, roles, flag, other, flHashes, flSet⟩ := i
  generalize hs' : ({ s with cache := s.cache.setRemoved id } : Sys) = s'
  have hheap : ∀ x, s'.cache.heap x = if x = id then { s.cache.heap id with removed := true } else s.cache.heap x := by
    intro x; subst hs'; simp only [TxCache.setRemoved]; split
    · rename_i e; rw [e]
    · rfl
  have hash : ∀ x, s'.hashAt x = s.hashAt x := by
    intro x; simp only [hashAt, hheap]; split
    · rename_i e; rw [e]
    · rfl
  have hmap : s'.cache.map = s.cache.map := by subst hs'; rfl
  have hplaces : s'.places = s.places := by subst hs'; rfl
  have hnext : s'.cache.next = s.cache.next := by subst hs'; rfl
  have hpk : s'.pk = s.pk := by subst hs'; rfl
  have hins : s'.ins = s.ins := by subst hs'; rfl
  have hfl : s'.fl = s.fl := by subst hs'; rfl
  have hz : s'.cache.isZero = s.cache.isZero := by subst hs'; rfl
  have hq : ∀ z, s'.cache.queue z = s.cache.queue z := by intro z; subst hs'; rfl
  have hcount : s'.cache.count = s.cache.count := by subst hs'; rfl
  refine ⟨by rw [hmap]; exact wf, ?_, by rw [hplaces]; exact nodup, ?_, by rw [hins]; exact ownInj, ?_, ?_, ?_, ?_, ?_, ?_, ?_,
    by rw [hins]; exact bad, by rw [hpk]; exact args, by rw [hins, hcount]; exact count, ?_, ?_, ?_, by rw [hfl]; exact flHashes, ?_⟩
  · intro x hx
    rw [hash] at hx
    rw [hheap, if_neg (by rintro rfl; exact hx hid)]
    exact removed x hx
  · rw [hins, hnext, hplaces]; exact own
  · rw [hins, hmap]; exact startFree
  · intro t x; rw [hins, hmap, hash]; exact pre t x
  · intro h x; rw [hmap, hash, hnext]; exact mapped h x
  · intro h x; rw [hmap, hplaces, hins, hpk]; exact where_ h x
  · intro x; rw [hmap, hplaces, hnext, hash]; exact placed x
  · intro h; rw [hmap, hplaces, hins, hpk]; exact dead h
  · intro t x h
    rw [hins] at h
    obtain ⟨h1, h2⟩ := kept t x h
    rw [hnext, hplaces, hash]
    refine ⟨h1, fun hF => ?_⟩
    rw [hheap, if_neg (by rintro rfl; exact hF hid)]
    exact h2 hF
  · intro t x z; rw [hins, hz, hpk]; exact roles t x z
  · intro z; rw [hpk, hz]; exact flag z
  · rw [hpk, hz, hq]; exact other
  · intro t hs rest x; rw [hfl, hnext, hash]; exact flSet t hs rest x

/-- A flush removes its hashes from the map. -/
theorem Inv.flDelete (i : s.Inv A F) {hs : List Hash} (hF : ∀ h ∈ hs, h ∈ F) :
    ({ s with cache := { s.cache with map := s.cache.map.deletes hs } } : Sys).Inv A F := by
  obtain ⟨wf, removed, nodup, own, ownInj, startFree, pre, mapped, where_, placed, dead, kept, bad, args, count, roles, flag, other, flHashes, flSet⟩ := i
  generalize hs' : ({ s with cache := { s.cache with map := s.cache.map.deletes hs } } : Sys) = s'
  have hmap : ∀ k, s'.cache.map.get k = if k ∈ hs then none else s.cache.map.get k := by
    intro k; subst hs'; exact TxMap.get_deletes wf _ k
  have hmapF : ∀ k, k ∉ F → s'.cache.map.get k = s.cache.map.get k := by
    intro k hk; rw [hmap, if_neg (fun h => hk (hF k h))]
  have hsub : ∀ k x, s'.cache.map.get k = some x → s.cache.map.get k = some x := by
    intro k x h; rw [hmap] at h; split at h
    · cases h
    · exact h
  have hwf : s'.cache.map.WF := by subst hs'; exact TxMap.wf_deletes wf _
  have hheap : s'.cache.heap = s.cache.heap := by subst hs'; rfl
  have hash : ∀ x, s'.hashAt x = s.hashAt x := by intro x; simp only [hashAt, hheap]
  have hplaces : s'.places = s.places := by subst hs'; rfl
  have hnext : s'.cache.next = s.cache.next := by subst hs'; rfl
  have hpk : s'.pk = s.pk := by subst hs'; rfl
  have hins : s'.ins = s.ins := by subst hs'; rfl
  have hfl : s'.fl = s.fl := by subst hs'; rfl
  have hz : s'.cache.isZero = s.cache.isZero := by subst hs'; rfl
  have hq : ∀ z, s'.cache.queue z = s.cache.queue z := by intro z; subst hs'; rfl
  have hcount : s'.cache.count = s.cache.count := by subst hs'; rfl
  refine ⟨hwf, ?_, by rw [hplaces]; exact nodup, ?_, by rw [hins]; exact ownInj, ?_, ?_, ?_, ?_, ?_, ?_, ?_,
    by rw [hins]; exact bad, by rw [hpk]; exact args, by rw [hins, hcount]; exact count, ?_, ?_, ?_, by rw [hfl]; exact flHashes, ?_⟩
  · intro x; rw [hash, hheap]; exact removed x
  · rw [hins, hnext, hplaces]; exact own
  · intro t x h k hk; rw [hins] at h; exact startFree t x h k (hsub k x hk)
  · intro t x h hx; rw [hins] at h; rw [hash] at hx ⊢; rw [hmapF _ hx]; exact pre t x h hx
  · intro h x hm; rw [hash, hnext]; exact mapped h x (hsub h x hm)
  · intro h x hm hh; rw [hplaces, hins, hpk]; exact where_ h x (hsub h x hm) hh
  · intro x hx
    rw [hplaces] at hx
    obtain ⟨h1, h2⟩ := placed x hx
    rw [hnext, hash]
    exact ⟨h1, fun hh => by rw [hmapF _ hh]; exact h2 hh⟩
  · intro h hd hh
    rw [hpk] at hd
    rw [hplaces, hins, hmapF _ hh]; exact dead h hd hh
  · intro t x h; rw [hins] at h; rw [hnext, hplaces, hash, hheap]; exact kept t x h
  · intro t x z; rw [hins, hz, hpk]; exact roles t x z
  · intro z; rw [hpk, hz]; exact flag z
  · rw [hpk, hz, hq]; exact other
  · intro t hs rest x; rw [hfl, hnext, hash]; exact flSet t hs rest x

theorem Inv.stepFl (i : s.Inv A F) (t : Nat) : (s.stepFl t).Inv A F := by
  have hF := i.flHashes t
  unfold Sys.stepFl
  split
  · exact i
  · rename_i hs ht
    rw [ht] at hF
    exact i.setFl (by simpa [FlPc.hashes] using hF) (by intro _ _ _ h; cases h)
  · rename_i hs h rest ht
    rw [ht] at hF
    split
    · rename_i id hg
      refine i.setFl (fun x hx => hF x ?_) ?_
      · simp only [FlPc.hashes, List.mem_append, List.mem_cons] at hx ⊢; tauto
      · intro hs' rest' id' e
        simp only [FlPc.set.injEq] at e
        obtain ⟨rfl, rfl, rfl⟩ := e
        obtain ⟨h1, h2⟩ := i.mapped h id hg
        refine ⟨h2, ?_⟩
        rw [h1]; exact hF h (by simp [FlPc.hashes])
    · refine i.setFl (fun x hx => hF x ?_) (by intro _ _ _ h; cases h)
      simp only [FlPc.hashes, List.mem_append, List.mem_cons] at hx ⊢; tauto
  · rename_i hs rest id ht
    rw [ht] at hF
    exact (i.setRemoved (i.flSet t hs rest id ht).2).setFl hF (by intro _ _ _ h; cases h)
  · rename_i hs ht
    rw [ht] at hF
    exact (i.flDelete hF).setFl (by intro h hh; cases hh) (by intro _ _ _ h; cases h)
  · exact i

/-- A label whose package arguments are in `A` and whose flushed hashes are in `F`. -/
def _root_.Huobi.Label.fits (A : List PkArgs) (F : List Hash) : Label → Prop
  | .callFlush _ hs => ∀ h ∈ hs, h ∈ F
  | .callPackage a => a ∈ A
  | _ => True

theorem Inv.step (i : s.Inv A F) (l : Label) (hl : l.fits A F) (hf0 : s.cache.q0.length < s.cache.cap)
    (hf1 : s.cache.q1.length < s.cache.cap) : (s.step l).Inv A F := by
  cases l with
  | callInsert t tx =>
    simp only [Sys.step]
    split
    · rename_i ht
      exact i.setIns (Or.inl rfl) (by intro id h; cases h) (by rw [ht]; rfl) (by intro id h; cases h) (by rw [ht]; rfl) rfl
        (by intro id z h; cases h)
    · exact i
  | callPropose t tx =>
    simp only [Sys.step]
    split
    · rename_i ht; exact i.alloc tx true (by rw [ht]; rfl) (by rw [ht]; rfl)
    · exact i
  | ins t => exact i.stepIns t hf0 hf1
  | callPackage a =>
    simp only [Sys.step]
    split
    · rename_i hpk
      exact i.callPackage hl (by rw [hpk]; rfl) (by rw [hpk]; rfl) (by rw [hpk]; rfl)
    · rename_i hpk
      exact i.callPackage hl (by rw [hpk]; rfl) (by rw [hpk]; rfl) (by rw [hpk]; rfl)
    · exact i
  | pk => exact i.stepPk hf0 hf1
  | callFlush t hs =>
    simp only [Sys.step]
    split
    · refine i.setFl (fun x hx => hl x ?_) (by intro _ _ _ h; cases h)
      simpa [FlPc.hashes] using hx
    · exact i
  | fl t => exact i.stepFl t

end steps

end Sys

end Huobi
