import Verif.Model.TxCache
/-
Concurrent model of `core/mempool/src/tx_cache.rs`: any number of threads inserting, any number flushing and one
packaging, interleaved at the granularity of single atomic operations (one map bucket operation, one atomic load or
store, one queue push or pop).  All atomics of the code are `SeqCst`, so an execution is an interleaving.

Only one package runs at a time: the consensus engine calls it from one task (core/consensus/src/engine.rs:54-75).
`map.deletes` and `map.len` lock the 16 buckets one after the other; here each is one step.
-/
namespace Huobi

/-- Where an inserting thread is (`HashMemPool::insert`: core/mempool/src/lib.rs:80, then `TxCache::insert`:
core/mempool/src/tx_cache.rs:286-312). -/
inductive InsPc where
  /-- not started -/
  | idle
  /-- about to compare the pool's length with its size (core/mempool/src/lib.rs:80); the other admission checks do
  not touch the cache, except `check_exist`, which `map.insert` repeats -/
  | check (tx : SignedTx)
  /-- wrapper allocated, about to `map.insert` (line 289) -/
  | start (id : Nat)
  /-- about to increment `concurrent_count` (line 297) -/
  | inserted (id : Nat)
  /-- about to load `is_zero` (line 299) -/
  | counted (id : Nat)
  /-- about to push to the queue loaded (line 300) -/
  | role (id : Nat) (z : Bool)
  /-- about to decrement `concurrent_count` (line 301) -/
  | pushed (id : Nat) (ok : Bool)
  /-- about to return, or to remove from the map after a failed push (lines 304-311) -/
  | left (id : Nat) (ok : Bool)
  /-- returned -/
  | done (id : Nat) (r : Except MemErr Unit)

/-- Arguments of a package call. -/
structure PkArgs where
  limit : UInt64
  current : UInt64
  timeout : UInt64
deriving DecidableEq, Inhabited

/-- Where the packaging thread is (`TxCache::package`: core/mempool/src/tx_cache.rs:179-247). -/
inductive PkPc where
  | idle
  /-- about to pop the incumbent queue `z` (line 195) -/
  | loop (a : PkArgs) (z : Bool) (pk : Pk)
  /-- popped, about to read `removed` (line 198) -/
  | got (a : PkArgs) (z : Bool) (pk : Pk) (id : Nat)
  /-- about to push to the candidate queue (lines 205-211) -/
  | live (a : PkArgs) (z : Bool) (pk : Pk) (id : Nat)
  /-- the queue was empty, about to flip `is_zero` (line 331) -/
  | switch (a : PkArgs) (z : Bool) (pk : Pk)
  /-- waiting for `concurrent_count` to be 0 (line 319); `z` is the new incumbent -/
  | wait (a : PkArgs) (z : Bool) (pk : Pk)
  /-- about to pop the old incumbent (line 320) -/
  | drain (a : PkArgs) (z : Bool) (pk : Pk)
  /-- about to push to the new incumbent (lines 321-323) -/
  | move (a : PkArgs) (z : Bool) (pk : Pk) (id : Nat)
  /-- about to remove the expired ones from the map (line 240) -/
  | delete (a : PkArgs) (pk : Pk)
  | done (r : Except MemErr (List Hash × List Hash))

/-- Where a flushing thread is (`TxCache::flush`: core/mempool/src/tx_cache.rs:168-177). -/
inductive FlPc where
  | idle
  /-- about to look up the next hash of `rest` (line 170) -/
  | mark (hs rest : List Hash)
  /-- about to set `removed` (line 172) -/
  | set (hs rest : List Hash) (id : Nat)
  /-- about to delete from the map (line 176) -/
  | delete (hs : List Hash)
  | done

/-- The shared cache and all threads. -/
structure Sys where
  cache : TxCache
  poolSize : Nat
  ins : Nat → InsPc
  pk : PkPc
  fl : Nat → FlPc

/-- What the scheduler can do next. -/
inductive Label where
  /-- thread `t` calls `HashMemPool::insert` (all other admission rules assumed to hold) -/
  | callInsert (t : Nat) (tx : SignedTx)
  /-- thread `t` calls `TxCache::insert_propose_tx`, as `sync_propose_txs` does without any check -/
  | callPropose (t : Nat) (tx : SignedTx)
  /-- inserting thread `t` does its next atomic operation -/
  | ins (t : Nat)
  | callPackage (a : PkArgs)
  /-- the packaging thread does its next atomic operation -/
  | pk
  | callFlush (t : Nat) (hs : List Hash)
  /-- flushing thread `t` does its next atomic operation -/
  | fl (t : Nat)

namespace Sys

/-- `HashMemPool::new`: core/mempool/src/lib.rs:49-57 (the cache is made with twice the pool size). -/
def new (poolSize : Nat) : Sys :=
  { cache := TxCache.new (poolSize * 2), poolSize := poolSize, ins := fun _ => .idle, pk := .idle, fl := fun _ => .idle }

def setIns (s : Sys) (t : Nat) (p : InsPc) : Sys := { s with ins := fun i => if i = t then p else s.ins i }
def setFl (s : Sys) (t : Nat) (p : FlPc) : Sys := { s with fl := fun i => if i = t then p else s.fl i }

/-- Next atomic operation of an inserting thread: core/mempool/src/tx_cache.rs:286-312. -/
def stepIns (s : Sys) (t : Nat) : Sys :=
  match s.ins t with
  | .idle => s
  | .check tx =>
    if s.poolSize ≤ s.cache.len then s.setIns t (.done 0 (.error (.reachLimit s.poolSize)))
    else { s with cache := (s.cache.alloc ⟨tx, false, false⟩).2 }.setIns t (.start s.cache.next)
  | .start id =>
    let h := (s.cache.heap id).tx.txHash
    let r := s.cache.map.insert h id
    match r.1 with
    | some _ => s.setIns t (.done id (.error (.dup h)))
    | none => { s with cache := { s.cache with map := r.2 } }.setIns t (.inserted id)
  | .inserted id => { s with cache := { s.cache with count := s.cache.count + 1 } }.setIns t (.counted id)
  | .counted id => s.setIns t (.role id s.cache.isZero)
  | .role id z => { s with cache := (s.cache.push z id).2 }.setIns t (.pushed id (s.cache.push z id).1)
  | .pushed id ok => { s with cache := { s.cache with count := s.cache.count - 1 } }.setIns t (.left id ok)
  | .left id ok =>
    let h := (s.cache.heap id).tx.txHash
    if ok then s.setIns t (.done id (.ok ()))
    else { s with cache := { s.cache with map := s.cache.map.remove h } }.setIns t (.done id (.error (.insert h)))
  | .done _ _ => s

/-- Next atomic operation of the packaging thread: core/mempool/src/tx_cache.rs:194-246, 315-334. -/
def stepPk (s : Sys) : Sys :=
  match s.pk with
  | .idle => s
  | .loop a z pk =>
    match s.cache.pop z with
    | some (id, c) => { s with cache := c, pk := .got a z pk id }
    | none => { s with pk := .switch a z pk }
  | .got a z pk id =>
    let w := s.cache.heap id
    if w.removed then { s with pk := .loop a z pk }
    else if w.isTimeout a.current a.timeout then { s with pk := .loop a z (pk.expire w) }
    else { s with pk := .live a z pk id }
  | .live a z pk id =>
    if (s.cache.push (!z) id).1 then
      { s with cache := (s.cache.push (!z) id).2, pk := .loop a z (pk.take a.limit (s.cache.heap id)) }
    else { s with pk := .done (.error (.insertCandidate (s.cache.queue (!z)).length)) }
  | .switch a z pk => { s with cache := { s.cache with isZero := !s.cache.isZero }, pk := .wait a (!z) pk }
  | .wait a z pk => if s.cache.count = 0 then { s with pk := .drain a z pk } else s
  | .drain a z pk =>
    match s.cache.pop (!z) with
    | some (id, c) => { s with cache := c, pk := .move a z pk id }
    | none => { s with pk := .delete a pk }
  | .move a z pk id => { s with cache := (s.cache.push z id).2, pk := .drain a z pk }
  | .delete _ pk =>
    { s with cache := { s.cache with map := s.cache.map.deletes pk.timeouts }, pk := .done (.ok (pk.order, pk.propose)) }
  | .done _ => s

/-- Next atomic operation of a flushing thread: core/mempool/src/tx_cache.rs:168-177. -/
def stepFl (s : Sys) (t : Nat) : Sys :=
  match s.fl t with
  | .idle => s
  | .mark hs [] => s.setFl t (.delete hs)
  | .mark hs (h :: rest) =>
    match s.cache.map.get h with
    | some id => s.setFl t (.set hs rest id)
    | none => s.setFl t (.mark hs rest)
  | .set hs rest id => { s with cache := s.cache.setRemoved id }.setFl t (.mark hs rest)
  | .delete hs => { s with cache := { s.cache with map := s.cache.map.deletes hs } }.setFl t .done
  | .done => s

/-- One step of the system; a label that is not possible now changes nothing.  A thread identifier is used for one
call; a package may start when none is running. -/
def step (s : Sys) : Label → Sys
  | .callInsert t tx =>
    match s.ins t with
    | .idle => s.setIns t (.check tx)
    | _ => s
  | .callPropose t tx =>
    match s.ins t with
    | .idle => { s with cache := (s.cache.alloc ⟨tx, false, true⟩).2 }.setIns t (.start s.cache.next)
    | _ => s
  | .ins t => s.stepIns t
  | .callPackage a =>
    match s.pk with
    | .idle => { s with pk := .loop a s.cache.isZero Pk.init }
    | .done _ => { s with pk := .loop a s.cache.isZero Pk.init }
    | _ => s
  | .pk => s.stepPk
  | .callFlush t hs =>
    match s.fl t with
    | .idle => s.setFl t (.mark hs hs)
    | _ => s
  | .fl t => s.stepFl t

/-- The system after a schedule. -/
def run (s : Sys) (sched : List Label) : Sys := sched.foldl step s

end Sys

end Huobi
