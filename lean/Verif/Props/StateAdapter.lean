import Verif.Proof.Executor
import Verif.Spec.Run
/-
C11: the layered contract state is a transactional map.
-/
namespace Huobi

/-- Calls on a contract's state adapter. -/
inductive AdapterOp (K V : Type) where
  | insert (k : K) (v : V) | get (k : K) | contains (k : K) | stash | revert | commit

/-- What a call returns; `commit` returns the root, here the contents it is the root of. -/
inductive AdapterOut (K V : Type) where
  | unit | value (v : Option V) | bool (b : Bool) | committed (m : PMap K V)

/-- One call on the adapter of the code. -/
def Layers.call {K V : Type} [DecidableEq K] (l : Layers K V) : AdapterOp K V → AdapterOut K V × Layers K V
  | .insert k v => (.unit, l.insertCache k v)
  | .get k => (.value (l.get k), l)
  | .contains k => (.bool (l.contains k), l)
  | .stash => (.unit, l.stashCache)
  | .revert => (.unit, l.revertCache)
  | .commit => (.committed l.commit.trie, l.commit)

/-- Specification: one map that reads and writes go to (`now`), the copy a revert goes back to (`saved`, made by the
last stash) and the copy that is persistent (`stored`, made by the last commit from `saved`). -/
structure TxnMap (K V : Type) where
  stored : PMap K V
  saved : PMap K V
  now : PMap K V

/-- One call on the specification. -/
def TxnMap.call {K V : Type} [DecidableEq K] (m : TxnMap K V) : AdapterOp K V → AdapterOut K V × TxnMap K V
  | .insert k v => (.unit, { m with now := fun j => if j = k then some v else m.now j })
  | .get k => (.value (m.now k), m)
  | .contains k => (.bool (m.now k).isSome, m)
  | .stash => (.unit, { m with saved := m.now })
  | .revert => (.unit, { m with now := m.saved })
  | .commit => (.committed m.saved, { m with stored := m.saved })

/-- The abstraction. -/
def Layers.abs {K V : Type} [DecidableEq K] (l : Layers K V) : TxnMap K V := ⟨l.trie, l.base, l.get⟩

theorem Layers.call_abs {K V : Type} [DecidableEq K] (l : Layers K V) (op : AdapterOp K V) :
    (l.call op).1 = (l.abs.call op).1 ∧ (l.call op).2.abs = (l.abs.call op).2 := by
  cases op with
  | insert k v =>
    refine ⟨rfl, ?_⟩
    simp only [Layers.call, Layers.abs, TxnMap.call, Layers.get_insertCache]
    rfl
  | get k => exact ⟨rfl, rfl⟩
  | contains k => simp [Layers.call, Layers.abs, TxnMap.call, Layers.contains_eq]
  | stash =>
    refine ⟨rfl, ?_⟩
    simp only [Layers.call, Layers.abs, TxnMap.call, Layers.get_stashCache, Layers.base_stashCache,
      Layers.trie_stashCache]
  | revert =>
    refine ⟨rfl, ?_⟩
    simp only [Layers.call, Layers.abs, TxnMap.call, Layers.get_revertCache, Layers.base_revertCache,
      Layers.trie_revertCache]
  | commit =>
    refine ⟨rfl, ?_⟩
    simp only [Layers.call, Layers.abs, TxnMap.call, Layers.trie_commit, TxnMap.mk.injEq, true_and]
    have hb : l.commit.base = l.base := by
      show PMap.over PMap.empty _ = _
      rw [PMap.over_empty]; rfl
    refine ⟨hb, ?_⟩
    rw [Layers.get_eq_over, Layers.get_eq_over]
    show PMap.over l.cache (l.commit.base) = PMap.over l.cache l.base
    rw [hb]

/-- **C11.**  For every sequence of calls on a fresh adapter over stored contents `t`, every answer is the one the
transactional map gives. -/
theorem C11_adapter_refines {K V : Type} [DecidableEq K] (t : PMap K V) (ops : List (AdapterOp K V)) :
    (callAll Layers.call (Layers.ofTrie t) ops).1 = (callAll TxnMap.call ⟨t, t, t⟩ ops).1 ∧
    (callAll Layers.call (Layers.ofTrie t) ops).2.trie = (callAll TxnMap.call ⟨t, t, t⟩ ops).2.stored := by
  have key : ∀ (l : Layers K V) (os : List (AdapterOp K V)),
      (callAll Layers.call l os).1 = (callAll TxnMap.call l.abs os).1 ∧
      (callAll Layers.call l os).2.abs = (callAll TxnMap.call l.abs os).2 := by
    intro l os
    induction os generalizing l with
    | nil => exact ⟨rfl, rfl⟩
    | cons o os ih =>
      obtain ⟨h1, h2⟩ := l.call_abs o
      obtain ⟨i1, i2⟩ := ih (l.call o).2
      simp only [callAll]
      rw [h1, i1, h2, i2, h2]
      exact ⟨rfl, rfl⟩
  have h0 : (Layers.ofTrie t).abs = ⟨t, t, t⟩ := by
    simp only [Layers.abs, Layers.get_ofTrie, Layers.base_ofTrie]; rfl
  have := key (Layers.ofTrie t) ops
  rw [h0] at this
  refine ⟨this.1, ?_⟩
  rw [← this.2]
  rfl

/-- C11, spelled out: a revert undoes exactly the writes since the last stash. -/
theorem C11_revert_undoes {K V : Type} [DecidableEq K] (l : Layers K V) (writes : List (K × V)) (k : K) :
    ((writes.foldl (fun l w => l.insertCache w.1 w.2) l.stashCache).revertCache).get k = l.get k := by
  have : ∀ (m : Layers K V), (writes.foldl (fun l w => l.insertCache w.1 w.2) m).base = m.base := by
    induction writes with
    | nil => intro m; rfl
    | cons w ws ih => intro m; simp only [List.foldl_cons]; rw [ih]; rfl
  rw [Layers.get_revertCache, this, Layers.base_stashCache]

/-- C11, spelled out: writes not stashed are not made persistent by a commit, and stay readable. -/
theorem C11_unstashed_not_persistent {K V : Type} [DecidableEq K] (l : Layers K V) (k : K) (v : V) :
    (l.stashCache.insertCache k v).commit.trie = l.get ∧ (l.stashCache.insertCache k v).commit.get k = some v := by
  constructor
  · rw [Layers.trie_commit, Layers.base_insertCache, Layers.base_stashCache]
  · simp [Layers.commit, Layers.insertCache, Layers.get, PMap.set]

example : (callAll Layers.call (Layers.ofTrie (fun k : Nat => if k = 0 then some 7 else none))
    [.insert 1 5, .stash, .insert 1 6, .get 1, .revert, .get 1, .commit, .get 0]).1.length = 8 := rfl

end Huobi
