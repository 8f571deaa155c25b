import Verif.Model.Storage
/-
Model of the interface `StorageAdapter` (protocol/src/traits/storage.rs:56-94) as `RocksAdapter` and `MemoryAdapter`
(core/storage/src/adapter/{rocks,memory}.rs) implement it, for any schemas.  (Storage models what `ImplStorage` uses of it.)
-/
namespace Huobi

/-- `StorageSchema` with the codecs of its keys and values: protocol/src/traits/storage.rs:18-23.  Any of the codecs may report an error. -/
structure StoreSchema where
  category : Category
  Key : Type
  Value : Type
  encodeKey : Key → Option Bytes
  encode : Value → Option Bytes
  decode : Bytes → Option Value

/-- `StorageBatchModify`: protocol/src/traits/storage.rs:51-54. -/
inductive Modify (V : Type) where
  | remove
  | insert (v : V)

/-- Errors: of a codec, of RocksDB, `BatchLengthMismatch` (rocks.rs:143-154, memory.rs:120-124). -/
inductive AdapterErr where
  | codec | db | mismatch
deriving DecidableEq, Repr

/-- A call of the adapter; the schemas in use are `S i`. -/
inductive AdapterCall {ι : Type} (S : ι → StoreSchema) where
  | insert (i : ι) (k : (S i).Key) (v : (S i).Value)
  | get (i : ι) (k : (S i).Key)
  | getBatch (i : ι) (ks : List (S i).Key)
  | remove (i : ι) (k : (S i).Key)
  | contains (i : ι) (k : (S i).Key)
  | batch (i : ι) (ks : List (S i).Key) (ms : List (Modify (S i).Value))

/-- What a successful call returns. -/
inductive AdapterAns {ι : Type} (S : ι → StoreSchema) where
  | unit
  | value (i : ι) (v : Option (S i).Value)
  | values (i : ι) (vs : List (Option (S i).Value))
  | bool (b : Bool)

/-- `delete_cf` / `HashMap::remove`. -/
def Db.del (db : Db) (col : Nat) (key : Bytes) : Db :=
  fun c k => if c = col ∧ k = key then none else db c k

/-- One entry of a batch: `put_cf` or `delete_cf`, rocks.rs:131-136; memory.rs:109-114. -/
def Db.modify (db : Db) (col : Nat) : Bytes × Option Bytes → Db
  | (k, some v) => db.put col k v
  | (k, none) => db.del col k

/-- The value of an entry, encoded: rocks.rs:122-125, memory.rs:99-102. -/
def StoreSchema.encodeMod (s : StoreSchema) : Modify s.Value → Option (Option Bytes)
  | .insert v => (s.encode v).map some
  | .remove => some none

/-- The loop that encodes the keys and values of a batch: rocks.rs:119-128, memory.rs:96-107.  Nothing is written before it has ended. -/
def StoreSchema.pairs (s : StoreSchema) : List s.Key → List (Modify s.Value) → Option (List (Bytes × Option Bytes))
  | k :: ks, m :: ms => do
    let kb ← s.encodeKey k
    let vb ← s.encodeMod m
    let rest ← s.pairs ks ms
    pure ((kb, vb) :: rest)
  | _, _ => some []

/-- `get`: rocks.rs:63-80, memory.rs:50-65.  `io`: RocksDB reports no error (`MemoryAdapter` never does). -/
def StoreSchema.read (s : StoreSchema) (be : Backend) (io : Bool) (db : Db) (k : s.Key) : Except AdapterErr (Option s.Value) :=
  match s.encodeKey k with
  | none => .error .codec
  | some kb =>
    if io = false then .error .db else
    match db (be s.category) kb with
    | none => .ok none
    | some b => match s.decode b with
      | none => .error .codec
      | some v => .ok (some v)

/-- The calls.  `insert`: rocks.rs:49-61, memory.rs:37-48; `remove`: rocks.rs:82-92, memory.rs:67-76; `contains`: rocks.rs:94-103,
memory.rs:78-85; `batch_modify`: rocks.rs:105-140, memory.rs:87-117; `get_batch`: protocol/src/traits/storage.rs:69-80 (an error of one
`get` ends it; *one flag stands for all its accesses to RocksDB*).  The columns exist: `RocksAdapter::new` opens every category
(rocks.rs:20-34), so `get_column` does not fail. -/
def Db.call {ι : Type} {S : ι → StoreSchema} (be : Backend) (io : Bool) (db : Db) : AdapterCall S → Except AdapterErr (AdapterAns S) × Db
  | .insert i k v =>
    match (S i).encodeKey k with
    | none => (.error .codec, db)
    | some kb =>
      match (S i).encode v with
      | none => (.error .codec, db)
      | some vb => if io = false then (.error .db, db) else (.ok .unit, db.put (be (S i).category) kb vb)
  | .get i k => ((S i).read be io db k |>.map (.value i), db)
  | .getBatch i ks => (ks.mapM ((S i).read be io db) |>.map (.values i), db)
  | .remove i k =>
    match (S i).encodeKey k with
    | none => (.error .codec, db)
    | some kb => if io = false then (.error .db, db) else (.ok .unit, db.del (be (S i).category) kb)
  | .contains i k =>
    match (S i).encodeKey k with
    | none => (.error .codec, db)
    | some kb => if io = false then (.error .db, db) else (.ok (.bool (db (be (S i).category) kb).isSome), db)
  | .batch i ks ms =>
    if ks.length ≠ ms.length then (.error .mismatch, db) else
    match (S i).pairs ks ms with
    | none => (.error .codec, db)
    | some ps => if io = false then (.error .db, db) else (.ok .unit, ps.foldl (fun d p => d.modify (be (S i).category) p) db)

/-- Calls one after the other, each with whether RocksDB serves it. -/
def Db.calls {ι : Type} {S : ι → StoreSchema} (be : Backend) (db : Db) : List (Bool × AdapterCall S) → List (Except AdapterErr (AdapterAns S)) × Db
  | [] => ([], db)
  | (io, c) :: cs => ((db.call be io c).1 :: (((db.call be io c).2).calls be cs).1, (((db.call be io c).2).calls be cs).2)

/-- The databases others can see while a batch is written, from the one before to the one after.  RocksDB writes a `WriteBatch` at once
(rocks.rs:130-138); `MemoryAdapter` takes the lock anew for each pair (memory.rs:109-114). -/
def Db.seen (atomic : Bool) (col : Nat) (db : Db) (ps : List (Bytes × Option Bytes)) : List Db :=
  if atomic then [db, ps.foldl (fun d p => d.modify col p) db]
  else (List.range (ps.length + 1)).map fun j => (ps.take j).foldl (fun d p => d.modify col p) db

end Huobi
