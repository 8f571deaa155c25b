import Verif.Model.TxMap
/-
Model of `core/mempool/src/tx_cache.rs`.

An `Arc<TxWrapper>` is shared between the map and the queues, and `removed` is mutated through it, so wrappers live in
a heap (`heap`, addressed by allocation number) and the map and the queues hold addresses.  The sequential operations
below are built from the same atomic pieces (`push`, `pop`, `Pk.take`, …) as the concurrent model in
`Verif/Model/TxCacheConc.lean`.
-/
namespace Huobi

/-- `MemPoolError`: core/mempool/src/lib.rs:186-223, plus `other` for errors of the adapter's back ends. -/
inductive MemErr where
  | insert (h : Hash) | reachLimit (n : Nat) | dup (h : Hash) | ensureBreak (require response : Nat)
  | misMatch (require response : Nat) | insertCandidate (len : Nat) | checkSig (h : Hash)
  | checkHash (expect actual : Hash) | committedTx (h : Hash) | wrongChain (h : Hash)
  | timeout (h : Hash) (t : UInt64) | invalidTimeout (h : Hash) | other (msg : String)
deriving DecidableEq

instance : Inhabited Action := ⟨.transfer default ⟨default, 0⟩⟩
instance : Inhabited RawTx := ⟨⟨default, default, 0, default, default⟩⟩
instance : Inhabited SignedTx := ⟨⟨default, default, [], []⟩⟩

/-- `TxWrapper`: core/mempool/src/tx_cache.rs:21-33. -/
structure Wrapper where
  tx : SignedTx
  removed : Bool
  proposed : Bool
deriving DecidableEq, Inhabited

/-- `TxWrapper::is_timeout`: core/mempool/src/tx_cache.rs:68-71. -/
def Wrapper.isTimeout (w : Wrapper) (current timeout : UInt64) : Bool :=
  w.tx.raw.timeout ≤ current || timeout < w.tx.raw.timeout

/-- `Stage`: core/mempool/src/tx_cache.rs:79-86. -/
inductive Stage where
  | orderTxs | proposeTxs | finished
deriving DecidableEq, Inhabited

/-- `Stage::next`: core/mempool/src/tx_cache.rs:89-95.  On `Finished` the code panics; `package` never calls it there
(it skips the transaction first), which is how `Pk.take` is written. -/
def Stage.next : Stage → Stage
  | .orderTxs => .proposeTxs
  | .proposeTxs => .finished
  | .finished => .finished

/-- Local variables of `package`: core/mempool/src/tx_cache.rs:187-192. -/
structure Pk where
  order : List Hash
  propose : List Hash
  timeouts : List Hash
  cycles : UInt64
  stage : Stage
deriving DecidableEq, Inhabited

/-- Initial values: core/mempool/src/tx_cache.rs:187-192. -/
def Pk.init : Pk := ⟨[], [], [], 0, .orderTxs⟩

/-- What `package` does with a transaction after putting it into the candidate queue:
core/mempool/src/tx_cache.rs:213-231.  `cycle_count +=` wraps (release build). -/
def Pk.take (limit : UInt64) (pk : Pk) (w : Wrapper) : Pk :=
  if pk.stage = .finished ∨ (pk.stage = .proposeTxs ∧ w.proposed = true) then pk
  else
    let sum := pk.cycles + w.tx.raw.fee.cycle
    let pk1 : Pk := if limit < sum then { pk with stage := pk.stage.next, cycles := w.tx.raw.fee.cycle }
      else { pk with cycles := sum }
    match pk1.stage with
    | .orderTxs => { pk1 with order := pk1.order ++ [w.tx.txHash] }
    | .proposeTxs => { pk1 with propose := pk1.propose ++ [w.tx.txHash] }
    | .finished => pk1

/-- Line 201 of core/mempool/src/tx_cache.rs: an expired transaction is remembered for removal. -/
def Pk.expire (pk : Pk) (w : Wrapper) : Pk := { pk with timeouts := pk.timeouts ++ [w.tx.txHash] }

/-- `TxCache`: core/mempool/src/tx_cache.rs:115-130.  `heap`/`next` are the allocated wrappers; `cap` is the capacity
of both `ArrayQueue`s. -/
structure TxCache where
  heap : Nat → Wrapper
  next : Nat
  q0 : List Nat
  q1 : List Nat
  cap : Nat
  map : TxMap Nat
  isZero : Bool
  count : Nat

namespace TxCache

/-- `TxCache::new`: core/mempool/src/tx_cache.rs:133-141. -/
def new (poolSize : Nat) : TxCache :=
  { heap := fun _ => default, next := 0, q0 := [], q1 := [], cap := poolSize * 2, map := TxMap.new, isZero := true,
    count := 0 }

/-- The queue a role flag selects: core/mempool/src/tx_cache.rs:336-346 (`true` is `queue_0`). -/
def queue (c : TxCache) (z : Bool) : List Nat := if z then c.q0 else c.q1

/-- Replaces a queue. -/
def setQueue (c : TxCache) (z : Bool) (q : List Nat) : TxCache := if z then { c with q0 := q } else { c with q1 := q }

/-- `Arc::new(TxWrapper…)`: core/mempool/src/tx_cache.rs:148-150, 155-157. -/
def alloc (c : TxCache) (w : Wrapper) : Nat × TxCache :=
  (c.next, { c with heap := fun i => if i = c.next then w else c.heap i, next := c.next + 1 })

/-- `ArrayQueue::push`: fails when the queue is full. -/
def push (c : TxCache) (z : Bool) (id : Nat) : Bool × TxCache :=
  if (c.queue z).length < c.cap then (true, c.setQueue z (c.queue z ++ [id])) else (false, c)

/-- `ArrayQueue::pop`. -/
def pop (c : TxCache) (z : Bool) : Option (Nat × TxCache) :=
  match c.queue z with
  | [] => none
  | id :: rest => some (id, c.setQueue z rest)

/-- `TxWrapper::set_removed`: core/mempool/src/tx_cache.rs:53-55. -/
def setRemoved (c : TxCache) (id : Nat) : TxCache :=
  { c with heap := fun i => if i = id then { c.heap i with removed := true } else c.heap i }

/-- `TxCache::len`: core/mempool/src/tx_cache.rs:143-145. -/
def len (c : TxCache) : Nat := c.map.len

/-- `TxCache::contain`: core/mempool/src/tx_cache.rs:267-270. -/
def contain (c : TxCache) (h : Hash) : Bool := c.map.containsKey h

/-- `TxCache::get`: core/mempool/src/tx_cache.rs:272-275. -/
def get (c : TxCache) (h : Hash) : Option SignedTx := (c.map.get h).map (fun id => (c.heap id).tx)

/-- `TxCache::insert` with the allocation done by its callers `insert_new_tx` (`proposed = false`) and
`insert_propose_tx` (`true`): core/mempool/src/tx_cache.rs:147-159, 286-312. -/
def insert (c : TxCache) (tx : SignedTx) (proposed : Bool) : Except MemErr Unit × TxCache :=
  let id := (c.alloc ⟨tx, false, proposed⟩).1
  let c1 := (c.alloc ⟨tx, false, proposed⟩).2
  let r := c1.map.insert tx.txHash id
  match r.1 with
  | some _ => (.error (.dup tx.txHash), c1)
  | none =>
    let c2 := { c1 with map := r.2, count := c1.count + 1 }
    let p := c2.push c2.isZero id
    let c3 := { p.2 with count := p.2.count - 1 }
    if p.1 then (.ok (), c3)
    else (.error (.insert tx.txHash), { c3 with map := c3.map.remove tx.txHash })

/-- `TxCache::show_unknown`: core/mempool/src/tx_cache.rs:161-166. -/
def showUnknown (c : TxCache) (hs : List Hash) : List Hash := hs.filter (fun h => !c.contain h)

/-- The marking loop of `flush`: core/mempool/src/tx_cache.rs:169-174. -/
def markRemoved (c : TxCache) : List Hash → TxCache
  | [] => c
  | h :: hs =>
    match c.map.get h with
    | some id => (c.setRemoved id).markRemoved hs
    | none => c.markRemoved hs

/-- `TxCache::flush`: core/mempool/src/tx_cache.rs:168-177. -/
def flush (c : TxCache) (hs : List Hash) : TxCache :=
  let c1 := c.markRemoved hs
  { c1 with map := c1.map.deletes hs }

/-- The pop loop of `package`: core/mempool/src/tx_cache.rs:194-231, over the remaining incumbent queue and the
candidate queue.  `Except.error` is the `InsertCandidate` error (line 209), which leaves the queues as they are at
that point, the popped element gone. -/
def packageLoop (heap : Nat → Wrapper) (cap : Nat) (limit current timeout : UInt64) :
    Pk → List Nat → List Nat → Except MemErr Pk × List Nat × List Nat
  | pk, [], cand => (.ok pk, [], cand)
  | pk, id :: inc, cand =>
    let w := heap id
    if w.removed then packageLoop heap cap limit current timeout pk inc cand
    else if w.isTimeout current timeout then packageLoop heap cap limit current timeout (pk.expire w) inc cand
    else if cand.length < cap then
      packageLoop heap cap limit current timeout (pk.take limit w) inc (cand ++ [id])
    else (.error (.insertCandidate cand.length), inc, cand)

/-- The loop of `process_omission_txs`: core/mempool/src/tx_cache.rs:320-324 (`let _ =` ignores a full queue). -/
def omissionLoop (cap : Nat) (inc : List Nat) : List Nat → List Nat
  | [] => inc
  | id :: rest => omissionLoop cap (if inc.length < cap then inc ++ [id] else inc) rest

/-- `TxCache::package`: core/mempool/src/tx_cache.rs:179-247, run alone (the wait for `concurrent_count == 0` at line
319 is the concurrent model's concern). -/
def package (c : TxCache) (limit current timeout : UInt64) :
    Except MemErr (List Hash × List Hash) × TxCache :=
  let z := c.isZero
  match packageLoop c.heap c.cap limit current timeout Pk.init (c.queue z) (c.queue !z) with
  | (.error e, inc, cand) => (.error e, (c.setQueue z inc).setQueue (!z) cand)
  | (.ok pk, inc, cand) =>
    let c1 := ((c.setQueue z []).setQueue (!z) (omissionLoop c.cap cand inc))
    (.ok (pk.order, pk.propose), { c1 with isZero := !z, map := c1.map.deletes pk.timeouts })

end TxCache

end Huobi
