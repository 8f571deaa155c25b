import Verif.Model.Consensus
import Verif.Spec.Executor
/-
What a user expects of a chain of epochs.  Uses the executor only through `Executes` and the storage only through its tables.
-/
namespace Huobi

/-- The stored epochs are a hash-linked chain of consecutive heights: every height up to the latest is stored, under its own
number, and carries the hash of the epoch stored under the height before. -/
def Store.Linked (digest : Bytes → Hash) (s : Store) : Prop :=
  ∃ last, s.latest = some last ∧ s.epochs last.header.epochId = some last ∧
    ∀ id, id ≤ last.header.epochId → ∃ e, s.epochs id = some e ∧ e.header.epochId = id ∧
      (id ≠ 0 → ∃ p, s.epochs (id - 1) = some p ∧ e.header.preHash = digest (encode p))

/-- Executing the epochs of `ds` one after the other, each on the world the one before left, starting from `w`, gives `w'`, and the
responses are those recorded.  Every epoch is executed with its own height and proposer. -/
inductive Replays (cfg : NodeCfg) : World → List Done → World → Prop
  | nil (w) : Replays cfg w [] w
  | cons {w d w1 ds w'} : Executes (cfg.env d.height cfg.cyclesPrice (.user d.epoch.header.proposer)) w d.txs d.resp w1 →
      Replays cfg w1 ds w' → Replays cfg w (d :: ds) w'

/-- Each recorded epoch was executed on the state root that the execution of the one recorded before it produced (`ds` is latest
first). -/
def RootsChain : List Done → Prop
  | d2 :: d1 :: rest => d2.root = d1.resp.stateRoot ∧ RootsChain (d1 :: rest)
  | _ => True

/-- The state database can reproduce world `w` from `root`. -/
def Resolves (cfg : NodeCfg) (db : StateDB) (root : MerkleRoot) (w : World) : Prop :=
  if root = cfg.emptyHash then w = World.empty else db root = some w

end Huobi
