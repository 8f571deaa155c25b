import Verif.Model.Consensus
/-! The first start of a node, cut off at any write (src/main.rs:69-153). -/
namespace Huobi

/-- The writes of `handle_init` to the block database, after the state was committed: src/main.rs:144-151.  `insert_epoch` makes three. -/
def initWrites (cfg : NodeCfg) (g : Genesis) (root : MerkleRoot) : List Write :=
  StoreOp.writes cfg.digest (.insertEpoch (cfg.genesisEpoch g.timestamp root)) ++
    StoreOp.writes cfg.digest (.updateLatestProof (cfg.genesisEpoch g.timestamp root).header.proof)

/-- What a call of `handle_init` leaves that is killed: src/main.rs:69-153.  `none`: before the state of the genesis is in the state database,
`some k`: after `k` writes to the block database.  *The commit of the state is one step: before its last write the state database holds nodes of the
trie under no root.* -/
def initCut (cfg : NodeCfg) (g : Genesis) (cut : Option Nat) (store : Store) (tries : StateDB) : Store × StateDB :=
  match store.latest, cut with
  | some _, _ => (store, tries)
  | none, none => (store, tries)
  | none, some k =>
    match runGenesis (cfg.env 0 cfg.cyclesPrice (.user cfg.selfAddress)) tries g with
    | (some (.ok root), tries') => (store.writes ((initWrites cfg g root).take k), tries')
    | _ => (store, tries)

/-- The data of a node that was started any number of times and never came to the end of `handle_init`. -/
inductive CutStarts (cfg : NodeCfg) (g : Genesis) : Store → StateDB → Prop
  | new : CutStarts cfg g Store.empty PMap.empty
  | cut {store tries} (k : Option Nat) : CutStarts cfg g store tries → CutStarts cfg g (initCut cfg g k store tries).1 (initCut cfg g k store tries).2

end Huobi
