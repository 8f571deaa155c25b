import Verif.Model.Executor
/-
Observations of a world state and of an execution, used to state the executor properties.  They read the world
directly and use none of the executor's helpers.
-/
namespace Huobi

/-- Balance of an account in an asset; an absent account or asset counts as zero. -/
def balance (w : World) (a : Address) (id : AssetID) : Nat :=
  match w.accounts a with
  | none => 0
  | some (.user u) => match u.assets.get id with
    | none => 0
    | some info => info.balance
  | some (.contract c) => match c.assets.get id with
    | none => 0
    | some b => b

/-- Nonce of an account; an absent account has nonce zero. -/
def nonceOf (w : World) (a : Address) : UInt64 :=
  match w.accounts a with
  | none => 0
  | some (.user u) => u.nonce
  | some (.contract c) => c.nonce

/-- Approvals recorded in a user account for an asset. -/
def approvals (w : World) (a : Address) (id : AssetID) : BMap ContractAddress ApprovedInfo :=
  match w.accounts a with
  | some (.user u) => match u.assets.get id with
    | none => []
    | some info => info.approved
  | _ => []

/-- The account exists. -/
def World.HasAccount (w : World) (a : Address) : Prop := (w.accounts a).isSome = true

instance (w : World) (a : Address) : Decidable (w.HasAccount a) := inferInstanceAs (Decidable (_ = true))

/-- User addresses hold user accounts.  True of the empty world and kept by everything the executor does
(`reachable_wellTyped`). -/
def World.WellTyped (w : World) : Prop :=
  ∀ u acc, w.accounts (.user u) = some acc → ∃ x, acc = .user x

/-- Executing `txs` with a fresh executor opened on world `w` succeeds with response `resp` and commits `w'`. -/
def Executes (env : Env) (w : World) (txs : List SignedTx) (resp : ExecResp) (w' : World) : Prop :=
  (exec env txs (St.open w)).1 = .ok resp ∧ (exec env txs (St.open w)).2.committed = w'

/-- Genesis on an empty store succeeds and commits `w`. -/
def CreatesGenesis (env : Env) (g : Genesis) (w : World) : Prop :=
  (∃ root, (createGenesis env g (St.open World.empty)).1 = .ok root) ∧
    (createGenesis env g (St.open World.empty)).2.committed = w

/-- Worlds a node can have committed: genesis, then any number of executed blocks (with any epoch id, coinbase and
price each). -/
inductive Reachable : World → Prop
  | genesis {env g w} : CreatesGenesis env g w → Reachable w
  | block {env w txs resp w'} : Reachable w → Executes env w txs resp w' → Reachable w'

/-- `w'` is committed some number of blocks after `w`. -/
inductive BlocksLater : World → World → Prop
  | refl (w) : BlocksLater w w
  | step {env w w1 txs resp w2} : BlocksLater w w1 → Executes env w1 txs resp w2 → BlocksLater w w2

/-- The sum of all balances of an asset is `n`: there is a duplicate-free list of addresses outside of which every
balance is zero, and the balances in the list add up to `n`. -/
def TotalIs (w : World) (id : AssetID) (n : Nat) : Prop :=
  ∃ L : List Address, L.Nodup ∧ (∀ a, a ∉ L → balance w a id = 0) ∧ (L.map (fun a => balance w a id)).sum = n

/-- What a transaction with this receipt takes out of account `a` in asset `id`: the amount of a successful
transfer sent by `a`. -/
def outgoing (env : Env) (a : Address) (id : AssetID) (t : SignedTx × Receipt) : Nat :=
  match t.1.raw.action with
  | .transfer _ c =>
    if t.2.result.isFail = false ∧ a = .user (senderOf env t.1) ∧ id = c.assetId then c.amount else 0
  | _ => 0

/-- What a transaction with this receipt brings into account `a` in asset `id`. -/
def incoming (a : Address) (id : AssetID) (t : SignedTx × Receipt) : Nat :=
  match t.1.raw.action with
  | .transfer receiver c => if t.2.result.isFail = false ∧ a = .user receiver ∧ id = c.assetId then c.amount else 0
  | _ => 0

/-- Number of transactions sent by `a` that are directly followed, in the same block, by a successful one. -/
def survivingBumps (env : Env) (a : Address) : List (SignedTx × Receipt) → Nat
  | t :: t' :: rest =>
    (if a = .user (senderOf env t.1) ∧ t'.2.result.isFail = false then 1 else 0) +
      survivingBumps env a (t' :: rest)
  | _ => 0

end Huobi
