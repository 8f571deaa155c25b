import Verif.Model.Types
/-
Model of the batch broadcaster of `core/mempool/src/adapter/mod.rs`: the task `IntervalTxsBroadcaster::broadcast`, its
timer and the callers of `broadcast_tx`, connected by channels.  The scheduler is arbitrary: a run is any list of labels.
-/
namespace Huobi

/-- The broadcaster, its channels, and the history of what it handed to the gossip network. -/
structure Bcast where
  /-- `tx_size` -/
  size : Nat
  /-- the unbounded channel `stx_tx`/`stx_rx` -/
  chan : List SignedTx
  /-- signals waiting in the timer channel -/
  ticks : Nat
  /-- `txs_cache` -/
  buf : List SignedTx
  /-- the batches handed to `gossip.broadcast`, oldest first, with its result -/
  sent : List (List SignedTx × Bool)
  /-- the error channel `err_tx`/`err_rx`: the batches whose error nobody has read yet -/
  errs : List (List SignedTx)

namespace Bcast

/-- `DefaultMemPoolAdapter::new`: core/mempool/src/adapter/mod.rs:155-187. -/
def new (size : Nat) : Bcast := ⟨size, [], 0, [], [], []⟩

/-- Atomic actions. -/
inductive Label where
  /-- a caller of `broadcast_tx` sends a transaction; `locked`: another caller holds the error receiver -/
  | submit (tx : SignedTx) (locked : Bool)
  /-- the timer fires -/
  | timer
  /-- the task receives the next transaction; `ok` is the result of the gossip call, if one is made -/
  | recvTx (ok : Bool)
  /-- the task receives a timer signal -/
  | recvTick (ok : Bool)

/-- `do_broadcast`: core/mempool/src/adapter/mod.rs:99-128. -/
def doBroadcast (b : Bcast) (ok : Bool) : Bcast :=
  if b.buf.isEmpty then b
  else { b with buf := [], sent := b.sent ++ [(b.buf, ok)], errs := if ok then b.errs else b.errs ++ [b.buf] }

/-- One action.
`submit`: `broadcast_tx`, core/mempool/src/adapter/mod.rs:211-226.
`timer`: core/mempool/src/adapter/mod.rs:78-97; a signal that finds the bounded channel full is dropped (a
`futures` channel of buffer 1 with one sender holds 2).
`recvTx`, `recvTick`: the `select!` of core/mempool/src/adapter/mod.rs:57-75.  A receive from an empty channel is no step. -/
def step (b : Bcast) : Label → Bcast
  | .submit tx locked => { b with chan := b.chan ++ [tx], errs := if locked then b.errs else b.errs.drop 1 }
  | .timer => if b.ticks < 2 then { b with ticks := b.ticks + 1 } else b
  | .recvTx ok =>
    match b.chan with
    | [] => b
    | tx :: rest =>
      let b1 := { b with chan := rest, buf := b.buf ++ [tx] }
      if b1.buf.length = b1.size then b1.doBroadcast ok else b1
  | .recvTick ok =>
    match b.ticks with
    | 0 => b
    | n + 1 => { b with ticks := n }.doBroadcast ok

/-- The result of `broadcast_tx`: `some batch` is the error of an earlier batch. core/mempool/src/adapter/mod.rs:216-225. -/
def submitResult (b : Bcast) (locked : Bool) : Option (List SignedTx) := if locked then none else b.errs.head?

/-- The state after a run. -/
def run (b : Bcast) (ls : List Label) : Bcast := ls.foldl step b

end Bcast

end Huobi
