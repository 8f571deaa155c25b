import Verif.Model.Types
/-
Model of `common/merkle/src/lib.rs`.  The shape of the tree is that of the crate `static_merkle_tree`, which is not part of
the repository: a binary tree over the positions of the input.  It is left abstract; `MerkleLayout` lists what is used of it.
-/
namespace Huobi

/-- A binary tree whose leaves are positions in the input. -/
inductive IdxTree where
  | leaf (i : Nat)
  | node (l r : IdxTree)
deriving DecidableEq, Repr

/-- The positions of a tree, from left to right. -/
def IdxTree.positions : IdxTree → List Nat
  | .leaf i => [i]
  | .node l r => l.positions ++ r.positions

/-- `Tree::from_hashes` of the crate: the shape used for `n` leaves.  Every position is used, no other; one leaf is its own
root; two leaves are combined in order. -/
structure MerkleLayout where
  tree : Nat → IdxTree
  complete : ∀ n i, i < n → i ∈ (tree n).positions
  valid : ∀ n i, 0 < n → i ∈ (tree n).positions → i < n
  one : tree 1 = .leaf 0
  two : tree 2 = .node (.leaf 0) (.leaf 1)

/-- `merge`: common/merkle/src/lib.rs:44-52. -/
def merkleMerge (digest : Bytes → Hash) (l r : Hash) : Hash := digest (l.bytes ++ r.bytes)

/-- The value of a tree over the input `hs`. -/
def IdxTree.eval (digest : Bytes → Hash) (hs : List Hash) : IdxTree → Hash
  | .leaf i => hs.getD i default
  | .node l r => merkleMerge digest (l.eval digest hs) (r.eval digest hs)

/-- `Merkle::from_hashes(hashes).get_root_hash()`: common/merkle/src/lib.rs:18-28. -/
def merkleRoot (digest : Bytes → Hash) (lay : MerkleLayout) (hs : List Hash) : Option Hash :=
  if hs = [] then none else some ((lay.tree hs.length).eval digest hs)

/-! ### The layout of an array of `2n - 1` nodes, node `i` above nodes `2i + 1` and `2i + 2`, leaves at the end. -/

/-- The subtree of node `k` in the array for `n` leaves (`fuel` bounds the depth). -/
def heapTree (n : Nat) : Nat → Nat → IdxTree
  | 0, _ => .leaf 0
  | fuel + 1, k =>
    if n - 1 ≤ k then .leaf (k - (n - 1)) else .node (heapTree n fuel (2 * k + 1)) (heapTree n fuel (2 * k + 2))

end Huobi
