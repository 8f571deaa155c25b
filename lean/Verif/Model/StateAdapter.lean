/-
Model of `GeneralContractStateAdapter` (core/executor/src/adapter/contract.rs) with typed keys and values.
`Model/ByteExecutor.lean` is the byte-level adapter; `Props/ByteExecutor.lean` relates the two.
-/
namespace Huobi

/-- A map with keys `K` and values `V` (a Rust `HashMap`, or the contents of a trie). -/
abbrev PMap (K V : Type) := K → Option V

/-- `HashMap::insert`. -/
def PMap.set {K V : Type} [DecidableEq K] (m : PMap K V) (k : K) (v : V) : PMap K V :=
  fun k' => if k' = k then some v else m k'

/-- The empty map. -/
def PMap.empty {K V : Type} : PMap K V := fun _ => none

/-- All entries of `top`, and those of `bottom` for the other keys: what remains in `bottom` after inserting every
entry of `top` (the `for (k, v) in top.drain() { bottom.insert(k, v) }` loops; keys of a `HashMap` are distinct so
the iteration order is irrelevant). -/
def PMap.over {K V : Type} (top bottom : PMap K V) : PMap K V := fun k =>
  match top k with
  | some v => some v
  | none => bottom k

/-- `GeneralContractStateAdapter`: core/executor/src/adapter/contract.rs:19-26. -/
structure Layers (K V : Type) where
  trie : PMap K V
  stash : PMap K V
  cache : PMap K V

namespace Layers
variable {K V : Type} [DecidableEq K]

/-- `new(trie)`: core/executor/src/adapter/contract.rs:29-36. -/
def ofTrie (t : PMap K V) : Layers K V := ⟨t, PMap.empty, PMap.empty⟩

/-- `get`: core/executor/src/adapter/contract.rs:40-61. -/
def get (l : Layers K V) (k : K) : Option V :=
  match l.cache k with
  | some v => some v
  | none =>
    match l.stash k with
    | some v => some v
    | none => l.trie k

/-- `contains`: core/executor/src/adapter/contract.rs:63-78. -/
def contains (l : Layers K V) (k : K) : Bool :=
  if (l.cache k).isSome then true
  else if (l.stash k).isSome then true
  else (l.trie k).isSome

/-- `insert_cache`: core/executor/src/adapter/contract.rs:80-88. -/
def insertCache (l : Layers K V) (k : K) (v : V) : Layers K V := { l with cache := l.cache.set k v }

/-- `revert_cache`: core/executor/src/adapter/contract.rs:90-93. -/
def revertCache (l : Layers K V) : Layers K V := { l with cache := PMap.empty }

/-- `stash`: core/executor/src/adapter/contract.rs:95-101. -/
def stashCache (l : Layers K V) : Layers K V :=
  { l with stash := l.cache.over l.stash, cache := PMap.empty }

/-- `commit`: core/executor/src/adapter/contract.rs:103-110 (the root is computed by the caller from `trie`). -/
def commit (l : Layers K V) : Layers K V :=
  { l with trie := l.stash.over l.trie, stash := PMap.empty }

end Layers
end Huobi
