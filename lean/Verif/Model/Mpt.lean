import Verif.Props.Rlp
import Verif.Model.Types
/-
The state trie: `MPTTrie` (core/executor/src/trie/mod.rs) over `RocksTrieDB` (core/executor/src/trie/trie_db.rs).

The trie itself is `PatriciaTrie` of the crate `cita_trie` 2.0, which is not part of the repository; it is modelled from its
documentation (it is the modified Merkle Patricia trie of the Ethereum yellow paper, appendix D: paths of nibbles, the
hex-prefix coding of paths, RLP coding of nodes, nodes shorter than 32 bytes embedded in their parents).

Simplifications: a trie is loaded from the database when it is opened, the crate loads a node when it is first visited;
`commit` writes all nodes of the trie, the crate those that were not loaded from the database (the others are there
already, under the same hashes).
-/
namespace Huobi

/-- Half a byte. -/
abbrev Nib := Fin 16

/-- The nibbles of a key, high half first. -/
def nibblesOf : Bytes → List Nib
  | [] => []
  | b :: bs => Fin.ofNat 16 (b.toNat / 16) :: Fin.ofNat 16 (b.toNat % 16) :: nibblesOf bs

/-- `Node` of the crate, with all nodes loaded. -/
inductive Mpt where
  | empty
  | leaf (path : List Nib) (value : Bytes)
  | ext (path : List Nib) (child : Mpt)
  | branch (kids : Nib → Mpt) (value : Option Bytes)

namespace Mpt

/-- What follows the path `p` in the key `k`, if `k` starts with `p`. -/
def strip : List Nib → List Nib → Option (List Nib)
  | [], k => some k
  | _ :: _, [] => none
  | x :: p, y :: k => if x = y then strip p k else none

/-- The common start of two paths and what is left of each. -/
def split : List Nib → List Nib → List Nib × List Nib × List Nib
  | x :: p, y :: k =>
    if x = y then
      let r := split p k
      (x :: r.1, r.2.1, r.2.2)
    else ([], x :: p, y :: k)
  | p, k => ([], p, k)

/-- Replace one child. -/
def setKid (kids : Nib → Mpt) (i : Nib) (t : Mpt) : Nib → Mpt := fun j => if j = i then t else kids j

/-- `get_at`: the value under a path. -/
def get : Mpt → List Nib → Option Bytes
  | empty, _ => none
  | leaf p v, k => if k = p then some v else none
  | ext p c, k =>
    match strip p k with
    | some r => get c r
    | none => none
  | branch _ v, [] => v
  | branch kids _, x :: k => get (kids x) k

/-- A subtree below a path: nothing is put in between if the path is empty, a leaf or an extension gets the longer path. -/
def join (p : List Nib) : Mpt → Mpt
  | empty => empty
  | leaf q v => leaf (p ++ q) v
  | ext q c => ext (p ++ q) c
  | branch kids v => if p = [] then branch kids v else ext p (branch kids v)

/-- Put a value in a branch below which there is nothing on its path. -/
def seat (kids : Nib → Mpt) (bv : Option Bytes) (k : List Nib) (v : Bytes) : Mpt :=
  match k with
  | [] => branch kids (some v)
  | x :: r => branch (setKid kids x (leaf r v)) bv

/-- `insert_at`: put a value under a path.  Where the path leaves that of a leaf or an extension, a branch is made. -/
def insert : Mpt → List Nib → Bytes → Mpt
  | empty, k, v => leaf k v
  | leaf p w, k, v =>
    match split p k with
    | (_, [], []) => leaf p v
    | (c, [], x :: r) => join c (seat (fun _ => empty) (some w) (x :: r) v)
    | (c, y :: q, r) => join c (seat (setKid (fun _ => empty) y (leaf q w)) none r v)
  | ext p c, k, v =>
    match split p k with
    | (_, [], r) => ext p (insert c r v)
    | (q, y :: s, r) => join q (seat (setKid (fun _ => empty) y (join s c)) none r v)
  | branch kids _, [], v => branch kids (some v)
  | branch kids bv, x :: k, v => branch (setKid kids x (insert (kids x) k v)) bv

/-- No node. -/
def isEmpty : Mpt → Bool
  | empty => true
  | _ => false

/-- The children that are there. -/
def occupied (kids : Nib → Mpt) : List Nib := (List.ofFn (fun i : Nib => i)).filter (fun i => !(kids i).isEmpty)

/-- `degenerate`: a branch with a single child, or with a value only, is replaced by a shorter form. -/
def shrink (kids : Nib → Mpt) (v : Option Bytes) : Mpt :=
  match occupied kids, v with
  | [], none => empty
  | [], some w => leaf [] w
  | [i], none => join [i] (kids i)
  | _, _ => branch kids v

/-- `delete_at`: remove what is under a path. -/
def remove : Mpt → List Nib → Mpt
  | empty, _ => empty
  | leaf p v, k => if k = p then empty else leaf p v
  | ext p c, k =>
    match strip p k with
    | some r => join p (remove c r)
    | none => ext p c
  | branch kids _, [] => shrink kids none
  | branch kids v, x :: k => shrink (setKid kids x (remove (kids x) k)) v

/-! ### Coding of nodes -/

/-- Two nibbles to a byte. -/
def pack : List Nib → Bytes
  | x :: y :: r => UInt8.ofNat (x.val * 16 + y.val) :: pack r
  | _ => []

/-- Hex-prefix coding of a path, with a mark for leaves. -/
def compact (leaf : Bool) (p : List Nib) : Bytes :=
  let flag := if leaf then 2 else 0
  match p.length % 2, p with
  | 1, x :: r => UInt8.ofNat ((flag + 1) * 16 + x.val) :: pack r
  | _, p => UInt8.ofNat (flag * 16) :: pack p

/-- Reading the hex-prefix coding. -/
def uncompact : Bytes → Option (Bool × List Nib)
  | [] => none
  | b :: r =>
    let flag := b.toNat / 16
    if flag = 0 then some (false, nibblesOf r)
    else if flag = 1 then some (false, Fin.ofNat 16 (b.toNat % 16) :: nibblesOf r)
    else if flag = 2 then some (true, nibblesOf r)
    else if flag = 3 then some (true, Fin.ofNat 16 (b.toNat % 16) :: nibblesOf r)
    else none

/-- How a node stands in its parent: itself if its coding is shorter than 32 bytes, else its hash. -/
def ref (digest : Bytes → Hash) (x : Item) : Item := if x.enc.length < 32 then x else .data (digest x.enc).bytes

/-- `encode_node`: a node as RLP. -/
def item (digest : Bytes → Hash) : Mpt → Item
  | empty => .data []
  | leaf p v => .list [.data (compact true p), .data v]
  | ext p c => .list [.data (compact false p), ref digest (item digest c)]
  | branch kids v => .list (List.ofFn (fun i : Nib => ref digest (item digest (kids i))) ++ [.data (v.getD [])])

/-- The bytes of a node. -/
def coding (digest : Bytes → Hash) (t : Mpt) : Bytes := (t.item digest).enc

/-- The bytes of a trie's nodes, the root first. -/
def codings (digest : Bytes → Hash) : Mpt → List Bytes
  | empty => [(item digest empty).enc]
  | leaf p v => [(item digest (leaf p v)).enc]
  | ext p c => (item digest (ext p c)).enc :: codings digest c
  | branch kids v => (item digest (branch kids v)).enc :: (List.ofFn (fun i : Nib => codings digest (kids i))).flatten

/-- The root hash of a trie. -/
def root (digest : Bytes → Hash) (t : Mpt) : Hash := digest (t.coding digest)

end Mpt

/-! ### The database of nodes: core/executor/src/trie/trie_db.rs -/

/-- `RocksTrieDB`: what is stored under each key, and whether removals are carried out (trie_db.rs:12-15). -/
structure TrieDb where
  light : Bool
  data : Bytes → Option Bytes

namespace TrieDb

/-- `RocksTrieDB::new` on a new directory: trie_db.rs:17-29. -/
def new (light : Bool) : TrieDb := ⟨light, fun _ => none⟩

/-- `get`: trie_db.rs:35-41. -/
def get (db : TrieDb) (k : Bytes) : Option Bytes := db.data k

/-- `contains`: trie_db.rs:43-45. -/
def contains (db : TrieDb) (k : Bytes) : Bool := (db.data k).isSome

/-- `insert`: trie_db.rs:47-52. -/
def insert (db : TrieDb) (k v : Bytes) : TrieDb := { db with data := fun i => if i = k then some v else db.data i }

/-- `insert_batch`: trie_db.rs:54-68.  One atomic write; the lengths must agree (`none` = an error). -/
def insertBatch (db : TrieDb) (ks vs : List Bytes) : Option TrieDb :=
  if ks.length ≠ vs.length then none else some ((ks.zip vs).foldl (fun db x => db.insert x.1 x.2) db)

/-- `remove`: trie_db.rs:70-75.  Nothing happens unless the database is light. -/
def remove (db : TrieDb) (k : Bytes) : TrieDb :=
  if db.light then { db with data := fun i => if i = k then none else db.data i } else db

/-- `remove_batch`: trie_db.rs:77-88. -/
def removeBatch (db : TrieDb) (ks : List Bytes) : TrieDb :=
  if db.light then ks.foldl (fun db k => { db with data := fun i => if i = k then none else db.data i }) db else db

/-- `decode_node` and `recover_from_db` of the crate, for a whole subtree (`fuel` bounds the depth). -/
def load (db : TrieDb) : Nat → Item → Option Mpt
  | 0, _ => none
  | _ + 1, .data [] => some .empty
  | fuel + 1, .data h =>
    if h.length = 32 then
      match db.get h with
      | none => none
      | some b =>
        match Rlp.tree b with
        | none => none
        | some x => load db fuel x
    else none
  | fuel + 1, .list [.data p, x] =>
    match Mpt.uncompact p with
    | none => none
    | some (true, p) =>
      match x with
      | .data v => some (.leaf p v)
      | .list _ => none
    | some (false, p) => (load db fuel x).map (.ext p)
  | fuel + 1, .list xs =>
    if xs.length ≠ 17 then none
    else
      match xs.drop 16 with
      | [.data v] =>
        match (xs.take 16).mapM (load db fuel) with
        | none => none
        | some ks => some (.branch (fun i => ks.getD i.val .empty) (if v = [] then none else some v))
      | _ => none

/-- `MPTTrie::from(root, db)`: trie/mod.rs:36-41, with the nodes below the root: the trie that can be read from a root. -/
def Opens (db : TrieDb) (root : Hash) (t : Mpt) : Prop := ∃ fuel, db.load fuel (.data root.bytes) = some t

end TrieDb

namespace Mpt

/-- `MPTTrie::new`: trie/mod.rs:27-34. -/
def new : Mpt := .empty

/-- `MPTTrie::get`: trie/mod.rs:43-49. -/
def read (t : Mpt) (k : Bytes) : Option Bytes := t.get (nibblesOf k)

/-- `MPTTrie::contains`: trie/mod.rs:51-53. -/
def has (t : Mpt) (k : Bytes) : Bool := (t.read k).isSome

/-- `MPTTrie::insert`: trie/mod.rs:55-60.  The crate takes the empty value as a removal. -/
def write (t : Mpt) (k v : Bytes) : Mpt := if v = [] then t.remove (nibblesOf k) else t.insert (nibblesOf k) v

/-- The nodes that are stored under their hashes: the root, and those too long to be embedded in their parents. -/
def stored (digest : Bytes → Hash) (t : Mpt) : List Bytes :=
  t.coding digest :: (t.codings digest).filter (fun b => 32 ≤ b.length)

/-- `MPTTrie::commit`: trie/mod.rs:62-67.  The nodes are written in one batch, then the nodes `stale` that the crate passed on
the way and that are no longer part of the trie are removed; the answer is the root (`none` = an error). -/
def commit (digest : Bytes → Hash) (t : Mpt) (stale : List Bytes) (db : TrieDb) : Option (Hash × TrieDb) :=
  (db.insertBatch ((t.stored digest).map (fun b => (digest b).bytes)) (t.stored digest)).map
    (fun db => (t.root digest, db.removeBatch stale))

end Mpt
end Huobi
