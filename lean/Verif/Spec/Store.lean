import Verif.Model.Storage
/-
What a user expects of the storage: six independent tables.  Refers to no bytes and no columns.
-/
namespace Huobi

/-- The tables of the storage as a user sees them. -/
structure Store where
  /-- transaction by hash -/
  txs : Hash → Option SignedTx
  /-- receipt by transaction hash -/
  receipts : Hash → Option Receipt
  /-- epoch by id -/
  epochs : UInt64 → Option Epoch
  /-- epoch id by hash -/
  byHash : Hash → Option UInt64
  latest : Option Epoch
  proof : Option Proof

/-- Nothing stored. -/
def Store.empty : Store := ⟨fun _ => none, fun _ => none, fun _ => none, fun _ => none, none, none⟩

/-- A table after inserting the records of `l` in order: the last record with a given key counts. -/
def insertAll {K V : Type} [DecidableEq K] (key : V → K) (l : List V) (m : K → Option V) : K → Option V :=
  fun k => ((l.reverse.find? (fun v => key v = k)).orElse (fun _ => m k))

/-- Effect of one atomic write. -/
def Store.write (s : Store) : Write → Store
  | .txs l => { s with txs := insertAll SignedTx.txHash l s.txs }
  | .receipts l => { s with receipts := insertAll Receipt.txHash l s.receipts }
  | .epoch id e => { s with epochs := fun i => if i = id.id then some e else s.epochs i }
  | .hashEpoch h id => { s with byHash := fun k => if k = h then some id.id else s.byHash k }
  | .latestEpoch e => { s with latest := some e }
  | .latestProof p => { s with proof := some p }

/-- Effect of a sequence of writes. -/
def Store.writes (s : Store) (ws : List Write) : Store := ws.foldl Store.write s

end Huobi
