import Verif.Model.Protobuf
/-
Model of `core/storage`: `ImplStorage` (src/lib.rs) over the adapters `RocksAdapter` and `MemoryAdapter`
(src/adapter/{rocks,memory}.rs).

A database is a finite number of columns, each a map from byte strings to byte strings.  Every mutation of the interface
is a sequence of atomic writes: `RocksAdapter::insert` is one `put_cf`, `RocksAdapter::batch_modify` one `WriteBatch`; a crash
keeps a prefix of the writes (RocksDB's log is sequential).  Failures of the database itself are not modelled.
-/
namespace Huobi

/-- `StorageCategory`: protocol/src/traits/storage.rs:11-15. -/
inductive Category where
  | epoch | receipt | signedTx
deriving DecidableEq, Repr

/-- Which column an adapter keeps a category in. -/
abbrev Backend := Category → Nat

/-- `RocksAdapter`, `map_category`: core/storage/src/adapter/rocks.rs:164-174. -/
def Backend.rocks : Backend
  | .epoch => 1
  | .signedTx => 2
  | .receipt => 3

/-- `MemoryAdapter`: one map for everything, core/storage/src/adapter/memory.rs:15-17, 45, 56. -/
def Backend.memory : Backend := fun _ => 0

/-- Contents of the columns. -/
abbrev Db := Nat → Bytes → Option Bytes

/-- The empty database. -/
def Db.empty : Db := fun _ _ => none

/-- `put_cf` / `HashMap::insert`. -/
def Db.put (db : Db) (col : Nat) (key val : Bytes) : Db :=
  fun c k => if c = col ∧ k = key then some val else db c k

/-- The atomic writes, one constructor per schema: core/storage/src/lib.rs:54-64. -/
inductive Write where
  /-- batch for `TransactionSchema`, keyed by `tx_hash` -/
  | txs (l : List SignedTx)
  /-- batch for `ReceiptSchema`, keyed by `tx_hash` -/
  | receipts (l : List Receipt)
  /-- `EpochSchema` -/
  | epoch (id : EpochId) (e : Epoch)
  /-- `HashEpochSchema` -/
  | hashEpoch (h : Hash) (id : EpochId)
  /-- `LatestEpochSchema` -/
  | latestEpoch (e : Epoch)
  /-- `LatestProofSchema` -/
  | latestProof (p : Proof)

/-- `LATEST_EPOCH_KEY`, `LATEST_PROOF_KEY`: core/storage/src/lib.rs:23-26. -/
structure LatestKeys where
  epoch : Hash
  proof : Hash

/-- Digests of the two strings, core/storage/src/lib.rs:24-25. -/
def LatestKeys.of (digest : Bytes → Hash) : LatestKeys := ⟨digest (utf8 "latest_hash"), digest (utf8 "latest_proof")⟩

/-- The key-value pairs of a write; keys and values are in protobuf coding: rocks.rs:49-61, 105-140. -/
def Write.puts (lk : LatestKeys) : Write → List (Category × Bytes × Bytes)
  | .txs l => l.map (fun t => (.signedTx, pbEncode t.txHash, pbEncode t))
  | .receipts l => l.map (fun r => (.receipt, pbEncode r.txHash, pbEncode r))
  | .epoch id e => [(.epoch, pbEncode id, pbEncode e)]
  | .hashEpoch h id => [(.epoch, pbEncode h, pbEncode id)]
  | .latestEpoch e => [(.epoch, pbEncode lk.epoch, pbEncode e)]
  | .latestProof p => [(.epoch, pbEncode lk.proof, pbEncode p)]

/-- Effect of a write on the database. -/
def Db.write (be : Backend) (lk : LatestKeys) (db : Db) (w : Write) : Db :=
  (w.puts lk).foldl (fun db p => db.put (be p.1) p.2.1 p.2.2) db

/-- Effect of a sequence of writes. -/
def Db.writes (be : Backend) (lk : LatestKeys) (db : Db) (ws : List Write) : Db := ws.foldl (Db.write be lk) db

/-- The mutations of the `Storage` interface. -/
inductive StoreOp where
  | insertTransactions (l : List SignedTx)
  | insertReceipts (l : List Receipt)
  | insertEpoch (e : Epoch)
  | updateLatestProof (p : Proof)

/-- The writes of a mutation in order: core/storage/src/lib.rs:102-142.  `insert_epoch` writes the epoch under its id, its
id under the digest of the protobuf coding of the header, and the latest epoch. -/
def StoreOp.writes (digest : Bytes → Hash) : StoreOp → List Write
  | .insertTransactions l => [.txs l]
  | .insertReceipts l => [.receipts l]
  | .insertEpoch e =>
    [.epoch ⟨e.header.epochId⟩ e, .hashEpoch (digest (pbEncode e.header)) ⟨e.header.epochId⟩, .latestEpoch e]
  | .updateLatestProof p => [.latestProof p]

/-- Errors of the queries. -/
inductive SErr where
  /-- `StorageError::GetNone` -/
  | getNone
  /-- error (or abort) of the protobuf decoding -/
  | codec (e : PErr)
deriving DecidableEq, Repr

/-- `StorageAdapter::get`: rocks.rs:63-80, memory.rs:50-65. -/
def Db.get {V : Type} [Protobuf V] (be : Backend) (db : Db) (c : Category) (key : Bytes) : Except SErr (Option V) :=
  match db (be c) key with
  | none => .ok none
  | some b => match pbDecode b with
    | .ok v => .ok (some v)
    | .error e => .error (.codec e)

/-- `check_none`, macro `get!`: core/storage/src/lib.rs:93-98, 203-205. -/
def checkNone {V : Type} : Option V → Except SErr V
  | some v => .ok v
  | none => .error .getNone

/-- `get_transaction_by_hash`: core/storage/src/lib.rs:144-148. -/
def Db.getTransaction (be : Backend) (db : Db) (h : Hash) : Except SErr SignedTx :=
  db.get be .signedTx (pbEncode h) >>= checkNone

/-- `get_transactions`: core/storage/src/lib.rs:150-154; the default `get_batch` (traits/storage.rs) gets one after the
other, `opts_to_flat` (195-201) keeps those that are present. -/
def Db.getTransactions (be : Backend) (db : Db) (hs : List Hash) : Except SErr (List SignedTx) := do
  let opts ← hs.mapM (fun h => db.get be .signedTx (pbEncode h))
  pure (opts.filterMap id)

/-- `get_latest_epoch`: core/storage/src/lib.rs:156-160. -/
def Db.getLatestEpoch (be : Backend) (lk : LatestKeys) (db : Db) : Except SErr Epoch :=
  db.get be .epoch (pbEncode lk.epoch) >>= checkNone

/-- `get_epoch_by_epoch_id`: core/storage/src/lib.rs:162-167. -/
def Db.getEpochById (be : Backend) (db : Db) (id : UInt64) : Except SErr Epoch :=
  db.get be .epoch (pbEncode (EpochId.mk id)) >>= checkNone

/-- `get_epoch_by_hash`: core/storage/src/lib.rs:169-174. -/
def Db.getEpochByHash (be : Backend) (db : Db) (h : Hash) : Except SErr Epoch := do
  let id : EpochId ← db.get be .epoch (pbEncode h) >>= checkNone
  db.getEpochById be id.id

/-- `get_receipt`: core/storage/src/lib.rs:176-180. -/
def Db.getReceipt (be : Backend) (db : Db) (h : Hash) : Except SErr Receipt :=
  db.get be .receipt (pbEncode h) >>= checkNone

/-- `get_receipts`: core/storage/src/lib.rs:182-186. -/
def Db.getReceipts (be : Backend) (db : Db) (hs : List Hash) : Except SErr (List Receipt) := do
  let opts ← hs.mapM (fun h => db.get be .receipt (pbEncode h))
  pure (opts.filterMap id)

/-- `get_latest_proof`: core/storage/src/lib.rs:188-192. -/
def Db.getLatestProof (be : Backend) (lk : LatestKeys) (db : Db) : Except SErr Proof :=
  db.get be .epoch (pbEncode lk.proof) >>= checkNone

end Huobi
