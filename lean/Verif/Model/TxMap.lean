import Verif.Model.Types
/-
Model of `core/mempool/src/map.rs`: the 16-bucket hash map of the memory pool.
-/
namespace Huobi

/-- One bucket's `HashMap<Hash, V>`: core/mempool/src/map.rs:89-91, as an association list.  Iteration order is never
observed by the code. -/
abbrev Bucket (V : Type) := List (Hash × V)

/-- `HashMap::get`, used by `Bucket::get`: core/mempool/src/map.rs:110-112. -/
def Bucket.get {V : Type} (h : Hash) : Bucket V → Option V
  | [] => none
  | (k, v) :: rest => if h = k then some v else Bucket.get h rest

/-- `Bucket::contains_key`: core/mempool/src/map.rs:106-108. -/
def Bucket.containsKey {V : Type} (b : Bucket V) (h : Hash) : Bool := (Bucket.get h b).isSome

/-- `Bucket::insert`: core/mempool/src/map.rs:97-104.  A present key keeps its value and the *new* value is handed
back; an absent key is added and `None` is returned. -/
def Bucket.insert {V : Type} (b : Bucket V) (h : Hash) (v : V) : Option V × Bucket V :=
  if b.containsKey h then (some v, b) else (none, (h, v) :: b)

/-- `HashMap::remove` as used by `Bucket::remove`: core/mempool/src/map.rs:121-124. -/
def Bucket.remove {V : Type} (h : Hash) : Bucket V → Bucket V
  | [] => []
  | (k, v) :: rest => if h = k then rest else (k, v) :: Bucket.remove h rest

/-- `Bucket::deletes`: core/mempool/src/map.rs:114-119. -/
def Bucket.deletes {V : Type} (b : Bucket V) (hs : List Hash) : Bucket V := hs.foldl (fun b h => Bucket.remove h b) b

/-- `get_index`: core/mempool/src/map.rs:85-87, the upper four bits of the first byte (a hash has 32 bytes, so the
indexing never panics). -/
def Hash.index (h : Hash) : Fin 16 :=
  ⟨((h.bytes.headD 0) >>> 4).toNat, by
    rw [UInt8.toNat_shiftRight, Nat.shiftRight_eq_div_pow]
    have := (h.bytes.headD 0).toNat_lt
    simp only [UInt8.reduceToNat, Nat.reduceMod, Nat.reducePow]
    omega⟩

/-- `Map`: core/mempool/src/map.rs:12-14; 16 buckets. -/
def TxMap (V : Type) := Fin 16 → Bucket V

namespace TxMap

/-- `Map::new`: core/mempool/src/map.rs:20-29 (the reserved capacity is not observable). -/
def new {V : Type} : TxMap V := fun _ => []

/-- Replaces one bucket. -/
def setBucket {V : Type} (m : TxMap V) (i : Fin 16) (b : Bucket V) : TxMap V := fun j => if j = i then b else m j

/-- `Map::insert`: core/mempool/src/map.rs:31-34. -/
def insert {V : Type} (m : TxMap V) (h : Hash) (v : V) : Option V × TxMap V :=
  let r := (m h.index).insert h v
  (r.1, m.setBucket h.index r.2)

/-- `Map::contains_key`: core/mempool/src/map.rs:36-39. -/
def containsKey {V : Type} (m : TxMap V) (h : Hash) : Bool := (m h.index).containsKey h

/-- `Map::get`: core/mempool/src/map.rs:41-44. -/
def get {V : Type} (m : TxMap V) (h : Hash) : Option V := (m h.index).get h

/-- `Map::deletes`: core/mempool/src/map.rs:47-58.  The hashes are grouped by index and every group is handed to its
bucket; the parallel iteration touches disjoint buckets, so its order is not observable. -/
def deletes {V : Type} (m : TxMap V) (hs : List Hash) : TxMap V :=
  fun i => (m i).deletes (hs.filter (fun h => h.index = i))

/-- `Map::remove`: core/mempool/src/map.rs:60-63. -/
def remove {V : Type} (m : TxMap V) (h : Hash) : TxMap V := m.setBucket h.index ((m h.index).remove h)

/-- `Map::len`: core/mempool/src/map.rs:65-71.  The code locks one bucket after the other; here the sum is one
atomic read. -/
def len {V : Type} (m : TxMap V) : Nat := ((List.finRange 16).map (fun i => (m i).length)).sum

/-- `Map::clear`: core/mempool/src/map.rs:74-78. -/
def clear {V : Type} (_m : TxMap V) : TxMap V := fun _ => []

end TxMap

end Huobi
