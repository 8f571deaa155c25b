import Verif.Model.Disk
/-
The machine of `Model/Disk.lean` without its encodings: the node of `Model/Consensus.lean` on tables of records, with the same
calls.
-/
namespace Huobi

/-- `handle_init` on tables, killed after `writes` of its four writes: whether the process goes on. -/
def tableInit (cfg : NodeCfg) (g : Genesis) (writes : Nat) (store : Store) (tries : StateDB) : Bool × Store × StateDB :=
  match store.latest with
  | some _ => (true, store, tries)
  | none =>
    match runGenesis (cfg.env 0 cfg.cyclesPrice (.user cfg.selfAddress)) tries g with
    | (some (.ok root), tries') =>
      let e := cfg.genesisEpoch g.timestamp root
      let ws := StoreOp.writes cfg.digest (.insertEpoch e) ++ StoreOp.writes cfg.digest (.updateLatestProof e.header.proof)
      (decide (4 ≤ writes), store.writes (ws.take writes), tries')
    | (_, tries') => (false, store, tries')

/-- A balance, with the reason when there is none. -/
def Node.balanceAt (cfg : NodeCfg) (n : Node) (a : Address) (id : AssetID) (epochId : Option UInt64) : Except CErr Nat :=
  match n.queryEpoch epochId with
  | none => .error .storage
  | some e =>
    match fromRoot (cfg.env e.header.epochId 0 (.user e.header.proposer)) n.tries e.header.stateRoot with
    | none => .error .openRoot
    | some s =>
      match getBalance id a s with
      | .ok b => .ok b
      | .error (.err e) => .error (.exec e)
      | .error .panic => .error .panic

/-- The tables, and the node if one is running. -/
inductive Machine where
  | off (store : Store) (tries : StateDB)
  | on (n : Node)

/-- The records of a machine. -/
def Machine.store : Machine → Store
  | .off s _ => s
  | .on n => n.store

/-- The states of a machine. -/
def Machine.tries : Machine → StateDB
  | .off _ t => t
  | .on n => n.tries

/-- A record that is there, or not. -/
def present {V : Type} : Option V → Except SErr V
  | some v => .ok v
  | none => .error .getNone

/-- What a call on a node answers. -/
def Node.answer (cfg : NodeCfg) (n : Node) : NodeOp → MachineAns CErr
  | .insertTx o b tx => .inserted (n.pool.insert cfg.mem (n.view cfg (fun _ => none) b) o tx).1
  | .propose now id => .proposed (n.getEpoch cfg now id).1
  | .check p1 p2 h pill => .checked (n.checkEpoch cfg p1 p2 h pill).1
  | .commit io id pill proof => .committed (n.commit cfg io id pill proof).1
  | .sync io msg => .synced (n.updateEpoch cfg io msg).1

/-- What the calls of `DiskMachine.call` do on tables. -/
def Machine.call (cfg : NodeCfg) (g : Genesis) (m : Machine) : MachineCall → MachineAns CErr × Machine
  | .start _ writes =>
    match tableInit cfg g writes m.store m.tries with
    | (false, s, t) => (.started (.ok false), .off s t)
    | (true, s, t) =>
      match startNode cfg s t with
      | none => (.started (.ok false), .off s t)
      | some n => (.started (.ok true), .on n)
  | .killed _ => (.killed, .off m.store m.tries)
  | c =>
    match m with
    | .off _ _ => (.down, m)
    | .on n =>
      match c with
      | .op _ o => (n.answer cfg o, .on (n.step cfg o))
      | .epoch id => (.epoch (present (n.queryEpoch id)), m)
      | .receipt h => (.receipt (present (n.store.receipts h)), m)
      | .transactions hs => (.transactions (.ok (hs.filterMap n.store.txs)), m)
      | .balance a id e => (.balance (n.balanceAt cfg a id e), m)
      | _ => (.down, m)

/-- The same answer of the machine on bytes. -/
def MachineAns.onDisk : MachineAns CErr → MachineAns DiskErr
  | .down => .down
  | .started r => .started (r.mapError .node)
  | .killed => .killed
  | .inserted r => .inserted r
  | .proposed r => .proposed (r.mapError .node)
  | .checked r => .checked (r.mapError .node)
  | .committed r => .committed (r.mapError .node)
  | .synced r => .synced (r.mapError .node)
  | .epoch r => .epoch r
  | .receipt r => .receipt r
  | .transactions r => .transactions r
  | .balance r => .balance (r.mapError .node)

/-- The error of an answer, if it has one of the given type. -/
def MachineAns.failure {E : Type} : MachineAns E → Option E
  | .started (.error e) | .proposed (.error e) | .checked (.error e) | .committed (.error e) | .synced (.error e)
  | .balance (.error e) => some e
  | _ => none

end Huobi
