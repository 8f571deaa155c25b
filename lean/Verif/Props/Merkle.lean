import Verif.Model.Merkle
import Verif.Spec.Demo
/-
C52.
-/
namespace Huobi

/-- The byte strings that are hashed when a tree is evaluated over `hs`. -/
def IdxTree.hashed (digest : Bytes → Hash) (hs : List Hash) : IdxTree → List Bytes
  | .leaf _ => []
  | .node l r => ((l.eval digest hs).bytes ++ (r.eval digest hs).bytes) :: (l.hashed digest hs ++ r.hashed digest hs)

/-- The byte strings that are hashed when the root of `hs` is computed. -/
def merkleHashed (digest : Bytes → Hash) (lay : MerkleLayout) (hs : List Hash) : List Bytes := (lay.tree hs.length).hashed digest hs

theorem IdxTree.eval_inj {digest : Bytes → Hash} (xs ys : List Hash) (t : IdxTree)
    (hc : ∀ a ∈ t.hashed digest xs, ∀ b ∈ t.hashed digest ys, digest a = digest b → a = b)
    (h : t.eval digest xs = t.eval digest ys) : ∀ i ∈ t.positions, xs.getD i default = ys.getD i default := by
  induction t with
  | leaf i => intro j hj; simp [IdxTree.positions] at hj; subst hj; exact h
  | node l r ihl ihr =>
    have hb : (l.eval digest xs).bytes ++ (r.eval digest xs).bytes = (l.eval digest ys).bytes ++ (r.eval digest ys).bytes :=
      hc _ (.head _) _ (.head _) h
    have hlen : (l.eval digest xs).bytes.length = (l.eval digest ys).bytes.length := by
      rw [Hash.size, Hash.size]
    obtain ⟨h1, h2⟩ := List.append_inj hb hlen
    have e1 : l.eval digest xs = l.eval digest ys := by
      cases hx : l.eval digest xs; cases hy : l.eval digest ys; simp_all
    have e2 : r.eval digest xs = r.eval digest ys := by
      cases hx : r.eval digest xs; cases hy : r.eval digest ys; simp_all
    intro i hi
    simp only [IdxTree.positions, List.mem_append] at hi
    have m1 : ∀ zs, ∀ a ∈ l.hashed digest zs, a ∈ (IdxTree.node l r).hashed digest zs :=
      fun zs a ha => .tail _ (List.mem_append.2 (.inl ha))
    have m2 : ∀ zs, ∀ a ∈ r.hashed digest zs, a ∈ (IdxTree.node l r).hashed digest zs :=
      fun zs a ha => .tail _ (List.mem_append.2 (.inr ha))
    rcases hi with hi | hi
    · exact ihl (fun a ha b hb => hc a (m1 _ a ha) b (m1 _ b hb)) e1 i hi
    · exact ihr (fun a ha b hb => hc a (m2 _ a ha) b (m2 _ b hb)) e2 i hi

/-- **C52 (partial).** The empty list, and only it, has no root; two different lists *of the same length* with the same root
exhibit a collision of the hash function, among the byte strings hashed for the two roots (that some two byte strings have
the same hash would say nothing: there are more byte strings than hashes).  For lists of different lengths the claim is
false, see `C52_refuted`. -/
theorem C52_merkle_partial (digest : Bytes → Hash) (lay : MerkleLayout) :
    (∀ hs, merkleRoot digest lay hs = none ↔ hs = []) ∧
    ∀ xs ys : List Hash, xs.length = ys.length → merkleRoot digest lay xs = merkleRoot digest lay ys → xs ≠ ys →
      ∃ a ∈ merkleHashed digest lay xs, ∃ b ∈ merkleHashed digest lay ys, a ≠ b ∧ digest a = digest b := by
  refine ⟨fun hs => ?_, fun xs ys hl hr hne => ?_⟩
  · unfold merkleRoot; split <;> simp_all
  · refine Classical.byContradiction fun hc => ?_
    apply hne
    unfold merkleRoot at hr
    by_cases hx : xs = []
    · subst hx; symm; simpa using hl.symm
    · have hy : ys ≠ [] := by
        rintro rfl; apply hx; simpa using hl
      rw [if_neg hx, if_neg hy, Option.some.injEq, hl] at hr
      have hpos := IdxTree.eval_inj xs ys _ (fun a ha b hb e => Classical.byContradiction fun hab =>
        hc ⟨a, by unfold merkleHashed; rw [hl]; exact ha, b, hb, hab, e⟩) hr
      apply List.ext_getElem hl
      intro i h1 h2
      have := hpos i (lay.complete _ _ h2)
      simpa [List.getD_eq_getElem?_getD, h1, h2] using this

/-- C52 as users rely on it: if the hash function does not give two of the byte strings hashed for the roots the same hash, the
roots of two different lists of the same length differ. -/
theorem C52_distinct_partial (digest : Bytes → Hash) (lay : MerkleLayout) {xs ys : List Hash} (hl : xs.length = ys.length)
    (hc : ∀ a ∈ merkleHashed digest lay xs, ∀ b ∈ merkleHashed digest lay ys, digest a = digest b → a = b) (hne : xs ≠ ys) :
    merkleRoot digest lay xs ≠ merkleRoot digest lay ys := by
  intro h
  obtain ⟨a, ha, b, hb, hab, e⟩ := (C52_merkle_partial digest lay).2 xs ys hl h hne
  exact hab (hc a ha b hb e)

/-- **C52 is false of the code as it stands** for lists of different lengths, whatever the hash function and the layout: the
list holding only the parent of `a` and `b` has the same root as `[a, b]`. -/
theorem C52_refuted (digest : Bytes → Hash) (lay : MerkleLayout) (a b : Hash) :
    ∃ xs ys : List Hash, xs ≠ ys ∧ merkleRoot digest lay xs = merkleRoot digest lay ys ∧
      merkleRoot digest lay xs = some (digest (a.bytes ++ b.bytes)) := by
  refine ⟨[digest (a.bytes ++ b.bytes)], [a, b], by simp, ?_, ?_⟩
  · simp [merkleRoot, lay.one, lay.two, IdxTree.eval, merkleMerge]
  · simp [merkleRoot, lay.one, IdxTree.eval]

/-! ### The array layout is a layout -/

theorem heap_valid (n : Nat) (hn : 0 < n) : ∀ fuel k i, k < 2 * n - 1 → i ∈ (heapTree n fuel k).positions → i < n
  | 0, k, i, _, h => by simp [heapTree, IdxTree.positions] at h; omega
  | fuel + 1, k, i, hk, h => by
    unfold heapTree at h
    split at h
    · simp [IdxTree.positions] at h; omega
    · simp only [IdxTree.positions, List.mem_append] at h
      rcases h with h | h
      · exact heap_valid n hn fuel _ i (by omega) h
      · exact heap_valid n hn fuel _ i (by omega) h

/-- Node `j` lies in the subtree of node `k`. -/
inductive HeapBelow : Nat → Nat → Prop
  | refl (k) : HeapBelow k k
  | left {k j} : HeapBelow (2 * k + 1) j → HeapBelow k j
  | right {k j} : HeapBelow (2 * k + 2) j → HeapBelow k j

theorem HeapBelow.le {k j : Nat} (h : HeapBelow k j) : k ≤ j := by
  induction h with
  | refl => omega
  | left _ ih => omega
  | right _ ih => omega

theorem HeapBelow.trans {a b c : Nat} (h1 : HeapBelow a b) (h2 : HeapBelow b c) : HeapBelow a c := by
  induction h1 with
  | refl => exact h2
  | left _ ih => exact .left (ih h2)
  | right _ ih => exact .right (ih h2)

theorem heapBelow_zero (j : Nat) : HeapBelow 0 j := by
  induction j using Nat.strongRecOn with
  | _ j ih =>
    cases j with
    | zero => exact .refl 0
    | succ m =>
      by_cases hm : m % 2 = 0
      · have : m + 1 = 2 * (m / 2) + 1 := by omega
        rw [this]
        exact (ih (m / 2) (by omega)).trans (.left (.refl _))
      · have : m + 1 = 2 * (m / 2) + 2 := by omega
        rw [this]
        exact (ih (m / 2) (by omega)).trans (.right (.refl _))

theorem heap_complete (n : Nat) {k j : Nat} (h : HeapBelow k j) (hj : n - 1 ≤ j) (hn : j < 2 * n - 1) :
    ∀ fuel, j < k + fuel → j - (n - 1) ∈ (heapTree n fuel k).positions := by
  induction h with
  | refl k =>
    intro fuel hf
    cases fuel with
    | zero => omega
    | succ f => unfold heapTree; rw [if_pos hj]; simp [IdxTree.positions]
  | @left k j hb ih =>
    intro fuel hf
    have := hb.le
    cases fuel with
    | zero => omega
    | succ f =>
      unfold heapTree
      rw [if_neg (by omega)]
      exact List.mem_append.2 (Or.inl (ih hj hn f (by omega)))
  | @right k j hb ih =>
    intro fuel hf
    have := hb.le
    cases fuel with
    | zero => omega
    | succ f =>
      unfold heapTree
      rw [if_neg (by omega)]
      exact List.mem_append.2 (Or.inr (ih hj hn f (by omega)))

/-- The array layout. -/
def heapLayout : MerkleLayout where
  tree n := heapTree n (2 * n) 0
  complete n i h := by
    have := heap_complete n (heapBelow_zero (i + (n - 1))) (by omega) (by omega) (2 * n) (by omega)
    simpa using this
  valid n i hn h := heap_valid n hn _ 0 i (by omega) h
  one := by decide
  two := by decide

namespace Demo

/-- The example hash, made sensitive to all bytes of the example inputs. -/
def merkleDigest (b : Bytes) : Hash := hash (b.foldl (fun a x => a * 3 + x) 1)

/-- The hypotheses of `C52_merkle_partial` are met: three leaves in two orders, with different roots. -/
example : merkleRoot merkleDigest heapLayout [hash 1, hash 2, hash 3] ≠
    merkleRoot merkleDigest heapLayout [hash 2, hash 1, hash 3] := by
  refine C52_distinct_partial merkleDigest heapLayout rfl ?_ (by decide)
  decide +kernel

/-- `C52_merkle_partial` on a weak hash function (the last byte): the collision lies where it says. -/
example :
    let weak : Bytes → Hash := fun b => hash (b.getLastD 0)
    merkleRoot weak heapLayout [hash 1, hash 2, hash 3] = merkleRoot weak heapLayout [hash 1, hash 4, hash 3] ∨
    merkleRoot weak heapLayout [hash 1, hash 2, hash 3] = merkleRoot weak heapLayout [hash 5, hash 2, hash 3] := by decide +kernel

/-- And lists of different lengths with the same root (`C52_refuted`). -/
example : merkleRoot digest heapLayout [hash 1, hash 2] = merkleRoot digest heapLayout [digest ((hash 1).bytes ++ (hash 2).bytes)] := by
  decide +kernel

end Demo
end Huobi
