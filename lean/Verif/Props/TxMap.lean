import Verif.Proof.TxMap
import Verif.Spec.Run
import Verif.Spec.Demo
/-
C17: the sharded transaction map behaves like one map.
-/
namespace Huobi

/-- Calls on the map. -/
inductive MapOp (V : Type) where
  | insert (h : Hash) (v : V) | get (h : Hash) | containsKey (h : Hash) | remove (h : Hash)
  | deletes (hs : List Hash) | len | clear

/-- Answers of the map.  `insert` answers `some v` when the key was present (and nothing was stored). -/
inductive MapOut (V : Type) where
  | unit | value (v : Option V) | bool (b : Bool) | count (n : Nat)
deriving DecidableEq

/-- One call on the sharded map of the code. -/
def TxMap.call {V : Type} (m : TxMap V) : MapOp V → MapOut V × TxMap V
  | .insert h v => (.value (m.insert h v).1, (m.insert h v).2)
  | .get h => (.value (m.get h), m)
  | .containsKey h => (.bool (m.containsKey h), m)
  | .remove h => (.unit, m.remove h)
  | .deletes hs => (.unit, m.deletes hs)
  | .len => (.count m.len, m)
  | .clear => (.unit, m.clear)

/-- The number of keys of a map is `n`. -/
def SizeIs {V : Type} (f : Hash → Option V) (n : Nat) : Prop :=
  ∃ keys : List Hash, keys.Nodup ∧ (∀ h, h ∈ keys ↔ (f h).isSome) ∧ keys.length = n

/-- Specification of one call on a single map `f` from hash to value: the allowed answer and the new map. -/
def OneMap {V : Type} (f : Hash → Option V) (op : MapOp V) (out : MapOut V) (f' : Hash → Option V) : Prop :=
  match op with
  | .insert h v =>
    match f h with
    | some _ => out = .value (some v) ∧ f' = f
    | none => out = .value none ∧ f' = fun k => if k = h then some v else f k
  | .get h => out = .value (f h) ∧ f' = f
  | .containsKey h => out = .bool (f h).isSome ∧ f' = f
  | .remove h => out = .unit ∧ f' = fun k => if k = h then none else f k
  | .deletes hs => out = .unit ∧ f' = fun k => if k ∈ hs then none else f k
  | .len => (∃ n, out = .count n ∧ SizeIs f n) ∧ f' = f
  | .clear => out = .unit ∧ f' = fun _ => none

/-- The answers `outs` are answers of the single map started at `f` to the calls `ops`. -/
inductive OneMapRun {V : Type} : (Hash → Option V) → List (MapOp V) → List (MapOut V) → Prop
  | nil (f) : OneMapRun f [] []
  | cons {f op out f' ops outs} : OneMap f op out f' → OneMapRun f' ops outs → OneMapRun f (op :: ops) (out :: outs)

theorem TxMap.call_spec {V : Type} {m : TxMap V} (w : m.WF) (op : MapOp V) :
    (m.call op).2.WF ∧ OneMap m.get op (m.call op).1 (m.call op).2.get := by
  cases op with
  | insert h v =>
    refine ⟨wf_insert w h v, ?_⟩
    simp only [OneMap, call]
    split
    · rename_i x hx
      refine ⟨by rw [insert_fst]; simp [hx], ?_⟩
      funext k; rw [get_insert]; simp [hx]
    · rename_i hx
      refine ⟨by rw [insert_fst]; simp [hx], ?_⟩
      funext k; rw [get_insert]; simp [hx]
  | get h => exact ⟨w, rfl, rfl⟩
  | containsKey h => exact ⟨w, rfl, rfl⟩
  | remove h =>
    refine ⟨wf_remove w h, rfl, ?_⟩
    funext k; exact get_remove w h k
  | deletes hs =>
    refine ⟨wf_deletes w hs, rfl, ?_⟩
    funext k; exact get_deletes w hs k
  | len =>
    refine ⟨w, ⟨_, rfl, m.allKeys, nodup_allKeys w, mem_allKeys w, length_allKeys m⟩, rfl⟩
  | clear => exact ⟨wf_new, rfl, rfl⟩

/-- **C17.**  For every sequence of calls on a fresh sharded map, the answers are those of a single map whose insert
keeps an existing entry. -/
theorem C17_sharded_map_is_one_map {V : Type} (ops : List (MapOp V)) :
    OneMapRun (fun _ => none) ops (callAll TxMap.call TxMap.new ops).1 := by
  have key : ∀ (os : List (MapOp V)) (m : TxMap V), m.WF → OneMapRun m.get os (callAll TxMap.call m os).1 := by
    intro os
    induction os with
    | nil => intro m _; exact .nil _
    | cons o os ih =>
      intro m w
      obtain ⟨w', h⟩ := TxMap.call_spec w o
      exact .cons h (ih _ w')
  exact key ops TxMap.new TxMap.wf_new

/-- The size of a map is unique, so `len` has one allowed answer. -/
theorem SizeIs.unique {V : Type} {f : Hash → Option V} {n m : Nat} (a : SizeIs f n) (b : SizeIs f m) : n = m := by
  obtain ⟨k1, d1, m1, rfl⟩ := a
  obtain ⟨k2, d2, m2, rfl⟩ := b
  exact ((List.perm_ext_iff_of_nodup d1 d2).2 (fun h => (m1 h).trans (m2 h).symm)).length_eq

/-- C17, the specification leaves no freedom: two answer lists to the same calls are equal. -/
theorem C17_spec_deterministic {V : Type} {f : Hash → Option V} {ops : List (MapOp V)} {a b : List (MapOut V)}
    (ha : OneMapRun f ops a) (hb : OneMapRun f ops b) : a = b := by
  induction ha generalizing b with
  | nil f => cases hb; rfl
  | cons h _ ih =>
    cases hb with
    | cons h' hr' =>
      have : ∀ {f : Hash → Option V} {op o1 f1 o2 f2}, OneMap f op o1 f1 → OneMap f op o2 f2 → o1 = o2 ∧ f1 = f2 := by
        intro f op o1 f1 o2 f2 h1 h2
        cases op with
        | insert k v =>
          simp only [OneMap] at h1 h2
          split at h1
          · rename_i hx; rw [hx] at h2; exact ⟨h1.1.trans h2.1.symm, h1.2.trans h2.2.symm⟩
          · rename_i hx; rw [hx] at h2; exact ⟨h1.1.trans h2.1.symm, h1.2.trans h2.2.symm⟩
        | len =>
          obtain ⟨⟨n, e1, s1⟩, g1⟩ := h1
          obtain ⟨⟨m, e2, s2⟩, g2⟩ := h2
          refine ⟨?_, g1.trans g2.symm⟩
          rw [e1, e2, s1.unique s2]
        | _ => exact ⟨h1.1.trans h2.1.symm, h1.2.trans h2.2.symm⟩
      obtain ⟨rfl, rfl⟩ := this h h'
      rw [ih hr']

example : (callAll TxMap.call TxMap.new
    [.insert (Demo.hash 3) 5, .insert (Demo.hash 3) 6, .insert (Demo.hash 200) 7, .len, .get (Demo.hash 3),
      .deletes [Demo.hash 3, Demo.hash 4], .len, .get (Demo.hash 3), .containsKey (Demo.hash 200)]).1 =
    [.value none, .value (some 6), .value none, .count 2, .value (some 5), .unit, .count 1, .value none, .bool true] := by
  decide +kernel

end Huobi
