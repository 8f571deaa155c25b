import Verif.Model.TxCache
/-
Model of `core/mempool/src/lib.rs` (`HashMemPool`) and of the admission checks of
`core/mempool/src/adapter/mod.rs` (`DefaultMemPoolAdapter`), one call at a time.
-/
namespace Huobi

/-- The cryptographic functions the checks use: `C::verify_signature` (as the set of accepted triples) and
`Hash::digest` of `RawTransaction::encode_fixed` (which never fails).  Both are left abstract. -/
structure MemCrypto where
  sigOk : Hash → Bytes → Bytes → Bool
  rawHash : RawTx → Hash

/-- Answer of `storage.get_transaction_by_hash` as `check_storage_exist` distinguishes it. -/
inductive StoreAns where
  | found | getNone | failed
deriving DecidableEq

/-- What the outside world answers during one call of the pool: storage, peers and the broadcaster. -/
structure MemView where
  /-- chain id and epoch id of `storage.get_latest_epoch()`; `none` when it fails -/
  latest : Option (Hash × UInt64)
  /-- `storage.get_transaction_by_hash` -/
  stored : Hash → StoreAns
  /-- the adapter's own `timeout_gap` -/
  gap : UInt64
  /-- answer of the peer to `pull_txs`; `none` when the rpc fails -/
  pull : List Hash → Option (List SignedTx)
  /-- whether `broadcast_tx` returns `Ok` -/
  broadcastOk : Bool

/-- `HashMemPool`: core/mempool/src/lib.rs:31-43. -/
structure MemPool where
  poolSize : Nat
  gap : UInt64
  cache : TxCache
  callback : TxMap SignedTx

namespace MemPool

/-- `HashMemPool::new`: core/mempool/src/lib.rs:49-57. -/
def new (poolSize : Nat) (gap : UInt64) : MemPool :=
  { poolSize := poolSize, gap := gap, cache := TxCache.new (poolSize * 2), callback := TxMap.new }

/-- `TxCache::check_reach_limit`: core/mempool/src/tx_cache.rs:259-265. -/
def checkReachLimit (p : MemPool) : Except MemErr Unit :=
  if p.poolSize ≤ p.cache.len then .error (.reachLimit p.poolSize) else .ok ()

/-- `TxCache::check_exist`: core/mempool/src/tx_cache.rs:248-257. -/
def checkExist (p : MemPool) (h : Hash) : Except MemErr Unit :=
  if p.cache.contain h then .error (.dup h) else .ok ()

/-- `check_signature`: core/mempool/src/adapter/mod.rs:227-238. -/
def checkSignature (cr : MemCrypto) (tx : SignedTx) : Except MemErr Unit :=
  if cr.sigOk tx.txHash tx.signature tx.pubkey then .ok () else .error (.checkSig tx.txHash)

/-- `check_transaction`: core/mempool/src/adapter/mod.rs:243-289.  `latest_epoch_id + timeout_gap` wraps. -/
def checkTransaction (cr : MemCrypto) (v : MemView) (tx : SignedTx) : Except MemErr Unit :=
  if cr.rawHash tx.raw ≠ tx.txHash then .error (.checkHash tx.txHash (cr.rawHash tx.raw))
  else
    match v.latest with
    | none => .error (.other "get_latest_epoch")
    | some (chainId, epochId) =>
      if chainId ≠ tx.raw.chainId then .error (.wrongChain tx.txHash)
      else if epochId + v.gap < tx.raw.timeout then .error (.invalidTimeout tx.txHash)
      else if tx.raw.timeout < epochId then .error (.timeout tx.txHash tx.raw.timeout)
      else .ok ()

/-- `check_storage_exist`: core/mempool/src/adapter/mod.rs:291-303. -/
def checkStorageExist (v : MemView) (h : Hash) : Except MemErr Unit :=
  match v.stored h with
  | .found => .error (.committedTx h)
  | .getNone => .ok ()
  | .failed => .error (.other "get_transaction_by_hash")

/-- `insert`: core/mempool/src/lib.rs:77-99. -/
def insert (cr : MemCrypto) (v : MemView) (netOrigin : Bool) (tx : SignedTx) (p : MemPool) :
    Except MemErr Unit × MemPool :=
  let checks : Except MemErr Unit := do
    p.checkReachLimit
    p.checkExist tx.txHash
    checkSignature cr tx
    checkTransaction cr v tx
    checkStorageExist v tx.txHash
  match checks with
  | .error e => (.error e, p)
  | .ok () =>
    match p.cache.insert tx false with
    | (.error e, c) => (.error e, { p with cache := c })
    | (.ok (), c) =>
      if netOrigin || v.broadcastOk then (.ok (), { p with cache := c })
      else (.error (.other "broadcast_tx"), { p with cache := c })

/-- What `insert` hands to the broadcaster: core/mempool/src/lib.rs:93-95.  The broadcaster is reached exactly when all that comes before
succeeds, that is when the call would succeed with a broadcaster that accepts. -/
def gossips (cr : MemCrypto) (v : MemView) (netOrigin : Bool) (tx : SignedTx) (p : MemPool) : List SignedTx :=
  match (p.insert cr { v with broadcastOk := true } netOrigin tx).1 with
  | .ok () => if netOrigin then [] else [tx]
  | .error _ => []

/-- `package`: core/mempool/src/lib.rs:101-109. -/
def package (v : MemView) (limit : UInt64) (p : MemPool) : Except MemErr (List Hash × List Hash) × MemPool :=
  match v.latest with
  | none => (.error (.other "get_latest_epoch"), p)
  | some (_, epochId) =>
    let r := p.cache.package limit epochId (epochId + p.gap)
    (r.1, { p with cache := r.2 })

/-- `flush`: core/mempool/src/lib.rs:111-115. -/
def flush (hs : List Hash) (p : MemPool) : MemPool :=
  { p with cache := p.cache.flush hs, callback := p.callback.clear }

/-- The loop body of `get_full_txs`: core/mempool/src/lib.rs:125-131. -/
def lookup (p : MemPool) (h : Hash) : Option SignedTx :=
  match p.cache.get h with
  | some tx => some tx
  | none => p.callback.get h

/-- `get_full_txs`: core/mempool/src/lib.rs:116-141. -/
def getFullTxs (hs : List Hash) (p : MemPool) : Except MemErr (List SignedTx) :=
  let full := hs.filterMap p.lookup
  if full.length ≠ hs.length then .error (.misMatch hs.length full.length) else .ok full

/-- `ensure_order_txs`: core/mempool/src/lib.rs:143-166. -/
def ensureOrderTxs (v : MemView) (hs : List Hash) (p : MemPool) : Except MemErr Unit × MemPool :=
  let unknown := p.cache.showUnknown hs
  if unknown.isEmpty then (.ok (), p)
  else
    match v.pull unknown with
    | none => (.error (.other "pull_txs"), p)
    | some txs =>
      if txs.length ≠ unknown.length then (.error (.ensureBreak unknown.length txs.length), p)
      else (.ok (), { p with callback := txs.foldl (fun m tx => (m.insert tx.txHash tx).2) p.callback })

/-- `sync_propose_txs`: core/mempool/src/lib.rs:168-183. -/
def syncProposeTxs (v : MemView) (hs : List Hash) (p : MemPool) : Except MemErr Unit × MemPool :=
  let unknown := p.cache.showUnknown hs
  if unknown.isEmpty then (.ok (), p)
  else
    match v.pull unknown with
    | none => (.error (.other "pull_txs"), p)
    | some txs => (.ok (), { p with cache := txs.foldl (fun c tx => (c.insert tx true).2) p.cache })

end MemPool

/-- One call on the pool together with what the outside world answers during it. -/
inductive MemOp where
  | insert (v : MemView) (netOrigin : Bool) (tx : SignedTx)
  | package (v : MemView) (limit : UInt64)
  | flush (hs : List Hash)
  | getFullTxs (hs : List Hash)
  | ensureOrderTxs (v : MemView) (hs : List Hash)
  | syncProposeTxs (v : MemView) (hs : List Hash)

/-- The pool after one call. -/
def MemPool.step (cr : MemCrypto) (p : MemPool) : MemOp → MemPool
  | .insert v o tx => (p.insert cr v o tx).2
  | .package v l => (p.package v l).2
  | .flush hs => p.flush hs
  | .getFullTxs _ => p
  | .ensureOrderTxs v hs => (p.ensureOrderTxs v hs).2
  | .syncProposeTxs v hs => (p.syncProposeTxs v hs).2

/-- The pool after a history. -/
def MemPool.after (cr : MemCrypto) (poolSize : Nat) (gap : UInt64) (ops : List MemOp) : MemPool :=
  ops.foldl (MemPool.step cr) (MemPool.new poolSize gap)

end Huobi
