import Verif.Model.TxCache
/-
Reference pool: what the transaction cache is supposed to be when its operations do not overlap.
-/
namespace Huobi

/-- A pooled transaction; `proposed` marks one learnt from another node's proposal. -/
structure Entry where
  tx : SignedTx
  proposed : Bool
deriving DecidableEq, Inhabited

/-- Longest prefix whose fee cycles, added to `acc` (as `u64`), stay within the limit, and the rest. -/
def takeGreedy (limit : UInt64) : UInt64 → List Entry → List Entry × List Entry
  | _, [] => ([], [])
  | acc, e :: es =>
    if acc + e.tx.raw.fee.cycle ≤ limit then
      (e :: (takeGreedy limit (acc + e.tx.raw.fee.cycle) es).1, (takeGreedy limit (acc + e.tx.raw.fee.cycle) es).2)
    else ([], e :: es)

/-- The transactions a package puts in its order list. -/
def selectOrder (limit : UInt64) (live : List Entry) : List Entry := (takeGreedy limit 0 live).1

/-- The transactions a package puts in its propose list: the first one that did not fit the order list, then, among
the following ones not learnt from a proposal, as many as fit. -/
def selectPropose (limit : UInt64) (live : List Entry) : List Entry :=
  match (takeGreedy limit 0 live).2 with
  | [] => []
  | e :: rest => e :: (takeGreedy limit e.tx.raw.fee.cycle (rest.filter (fun e => !e.proposed))).1

/-- Whether a time-out lies in the window of a package call. -/
def Entry.inWindow (current timeout : UInt64) (e : Entry) : Bool :=
  current < e.tx.raw.timeout ∧ e.tx.raw.timeout ≤ timeout

/-- The pool: its transactions in order of arrival, and the queue slots in use (a flushed transaction keeps its slot
until the next package). -/
structure RefPool where
  entries : List Entry
  slots : Nat
  cap : Nat
deriving DecidableEq

/-- Calls on a pool. -/
inductive CacheOp where
  | insert (tx : SignedTx) (proposed : Bool) | flush (hs : List Hash) | package (limit current timeout : UInt64)
  | get (h : Hash) | contain (h : Hash) | len | showUnknown (hs : List Hash)

/-- Answers of a pool. -/
inductive CacheOut where
  | unit | inserted (r : Except MemErr Unit) | packaged (r : Except MemErr (List Hash × List Hash))
  | tx (t : Option SignedTx) | bool (b : Bool) | count (n : Nat) | hashes (hs : List Hash)

/-- Hashes of entries. -/
def hashesOf (es : List Entry) : List Hash := es.map (fun e => e.tx.txHash)

namespace RefPool

/-- Lookup. -/
def get (p : RefPool) (h : Hash) : Option SignedTx :=
  (p.entries.find? (fun e => e.tx.txHash = h)).map (fun e => e.tx)

/-- One call on the reference pool. -/
def call (p : RefPool) : CacheOp → CacheOut × RefPool
  | .insert tx proposed =>
    if tx.txHash ∈ hashesOf p.entries then (.inserted (.error (.dup tx.txHash)), p)
    else if p.slots < p.cap then
      (.inserted (.ok ()), { p with entries := p.entries ++ [⟨tx, proposed⟩], slots := p.slots + 1 })
    else (.inserted (.error (.insert tx.txHash)), p)
  | .flush hs => (.unit, { p with entries := p.entries.filter (fun e => e.tx.txHash ∉ hs) })
  | .package limit current timeout =>
    let live := p.entries.filter (Entry.inWindow current timeout)
    (.packaged (.ok (hashesOf (selectOrder limit live), hashesOf (selectPropose limit live))),
      { p with entries := live, slots := live.length })
  | .get h => (.tx (p.get h), p)
  | .contain h => (.bool (h ∈ hashesOf p.entries), p)
  | .len => (.count p.entries.length, p)
  | .showUnknown hs => (.hashes (hs.filter (fun h => h ∉ hashesOf p.entries)), p)

end RefPool

/-- One call on the transaction cache of the code. -/
def TxCache.call (c : TxCache) : CacheOp → CacheOut × TxCache
  | .insert tx proposed => (.inserted (c.insert tx proposed).1, (c.insert tx proposed).2)
  | .flush hs => (.unit, c.flush hs)
  | .package limit current timeout =>
    (.packaged (c.package limit current timeout).1, (c.package limit current timeout).2)
  | .get h => (.tx (c.get h), c)
  | .contain h => (.bool (c.contain h), c)
  | .len => (.count c.len, c)
  | .showUnknown hs => (.hashes (c.showUnknown hs), c)

end Huobi
