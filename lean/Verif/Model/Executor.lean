import Verif.Model.Types
import Verif.Model.Hex
import Verif.Model.StateAdapter
/-
Model of the transaction executor: core/executor/src/lib.rs, native_contract/{account,bank}.rs, cycles.rs.

A method that takes `&mut self` and returns a `Result` is a function `St → Except Fault α × St`: the state is
returned on the error path too, because the Rust code keeps whatever was written before the error.
-/
namespace Huobi

/-- The errors the executor's native contracts produce: native_contract/account.rs:282-291,
native_contract/bank.rs:104-112 and cycles.rs:44-46. -/
inductive ExecErr where
  | insufficientBalance
  | accountNotFound (a : Address)
  | assetExists (id : AssetID)
  | assetNotFound (id : AssetID)
  | invalidAddress
  | outOfCycles
  /-- hex / length errors while reading the genesis description -/
  | badGenesis
deriving DecidableEq

/-- An `Err(_)` or a panic. -/
inductive Fault where
  | err (e : ExecErr)
  | panic
deriving DecidableEq

/-- The committed world state: the contents of the account contract's trie and of the bank contract's trie. -/
structure World where
  accounts : PMap Address Account
  assets : PMap AssetID Asset

/-- The world with nothing in it. -/
def World.empty : World := ⟨PMap.empty, PMap.empty⟩

/-- What an executor is created with (`from_root`, core/executor/src/lib.rs:36-46,289-337), and the external
functions it uses: keccak, the trie root of a world state (both contract tries hang under one top trie whose root
is returned, lines 275-283), and the text of an error (`e.to_string()`). -/
structure Env where
  digest : Bytes → Hash
  rootOf : World → MerkleRoot
  showErr : ExecErr → String
  chainId : Hash
  epochId : UInt64
  cyclesPrice : UInt64
  coinbase : Address

/-- `Hash::from_empty()`: digest of the RLP of the empty string, protocol/src/types/primitive.rs:43-48. -/
def Env.emptyHash (env : Env) : Hash := env.digest [0x80]

/-- The mutable part of `TransactionExecutor` and of the current `InvokeContext` (its `cycles_used`):
core/executor/src/lib.rs:42-45, protocol/src/traits/executor/mod.rs `InvokeContext`. -/
structure St where
  acc : Layers Address Account
  bank : Layers AssetID Asset
  used : UInt64

/-- `from_root` on a stored world: core/executor/src/lib.rs:289-356 (both adapters start with empty caches). -/
def St.open (w : World) : St := ⟨Layers.ofTrie w.accounts, Layers.ofTrie w.assets, 0⟩

/-- The world as committed in the tries. -/
def St.committed (s : St) : World := ⟨s.acc.trie, s.bank.trie⟩

/-- A native call: its result and the state it leaves, also when it fails. -/
abbrev Act (α : Type) := St → Except Fault α × St

/-- The `CYCLES_TABLE`: core/executor/src/cycles.rs:9-18. -/
inductive CyclesAction where
  | accountTransfer | bankRegister
deriving DecidableEq

/-- Cycles of an action: core/executor/src/cycles.rs:9-18. -/
def CyclesAction.cost : CyclesAction → UInt64
  | .accountTransfer => 10 * 21
  | .bankRegister => 10 * 210

/-- `consume_cycles`: core/executor/src/cycles.rs:26-41. -/
def consumeCycles (a : CyclesAction) (used limit : UInt64) : Except Fault UInt64 :=
  let used' := used + a.cost
  if used' > limit then .error (.err .outOfCycles) else .ok used'

/-! ### Account contract (core/executor/src/native_contract/account.rs) -/

/-- `find_or_create`: account.rs:170-191 (does not insert the account it creates). -/
def findOrCreate (env : Env) (s : St) (a : Address) : Account :=
  match s.acc.get a with
  | some x => x
  | none =>
    match a with
    | .user _ => .user ⟨0, []⟩
    | .contract _ => .contract ⟨0, [], env.emptyHash⟩

/-- `get_account`: account.rs:148-157. -/
def getAccount (s : St) (a : Address) : Except Fault Account :=
  match s.acc.get a with
  | some x => .ok x
  | none => .error (.err (.accountNotFound a))

/-- `get_balance_with_user` / `get_balance_with_contract`: account.rs:193-215. -/
def accountBalance (id : AssetID) : Account → Nat
  | .user u => match u.assets.get id with
    | some info => info.balance
    | none => 0
  | .contract c => match c.assets.get id with
    | some b => b
    | none => 0

/-- `get_balance`: account.rs:133-146. -/
def getBalance (id : AssetID) (a : Address) (s : St) : Except Fault Nat :=
  match getAccount s a with
  | .ok acc => .ok (accountBalance id acc)
  | .error f => .error f

/-- `get_nonce`: account.rs:159-166. -/
def accountNonce : Account → UInt64
  | .user u => u.nonce
  | .contract c => c.nonce

/-- `add_balance_with_user`: account.rs:217-232. -/
def addBalanceUser (id : AssetID) (u : UserAccount) (amount : Nat) : UserAccount :=
  match u.assets.get id with
  | some info => { u with assets := u.assets.insert id { info with balance := info.balance + amount } }
  | none => { u with assets := u.assets.insert id ⟨amount, []⟩ }

/-- `add_balance_with_contract`: account.rs:234-246. -/
def addBalanceContract (id : AssetID) (c : ContractAccount) (amount : Nat) : ContractAccount :=
  match c.assets.get id with
  | some b => { c with assets := c.assets.insert id (b + amount) }
  | none => { c with assets := c.assets.insert id amount }

/-- `sub_balance_with_user`: account.rs:248-264. -/
def subBalanceUser (id : AssetID) (u : UserAccount) (amount : Nat) : Except Fault UserAccount :=
  match u.assets.get id with
  | some info =>
    if info.balance < amount then .error (.err .insufficientBalance)
    else .ok { u with assets := u.assets.insert id { info with balance := info.balance - amount } }
  | none => .error (.err .insufficientBalance)

/-- `sub_balance_with_contract`: account.rs:266-278.  `BigUint` subtraction panics when it would underflow; an
absent asset is inserted with the amount. -/
def subBalanceContract (id : AssetID) (c : ContractAccount) (amount : Nat) : Except Fault ContractAccount :=
  match c.assets.get id with
  | some b => if b < amount then .error .panic else .ok { c with assets := c.assets.insert id (b - amount) }
  | none => .ok { c with assets := c.assets.insert id amount }

/-- `insert_cache::<FixedAccountSchema>`. -/
def putAccount (a : Address) (x : Account) (s : St) : St := { s with acc := s.acc.insertCache a x }

/-- `add_balance`: account.rs:61-84. -/
def addBalance (env : Env) (id : AssetID) (a : Address) (amount : Nat) (s : St) : St :=
  match findOrCreate env s a with
  | .user u => putAccount a (.user (addBalanceUser id u amount)) s
  | .contract c => putAccount a (.contract (addBalanceContract id c amount)) s

/-- `sub_balance`: account.rs:86-109. -/
def subBalance (env : Env) (id : AssetID) (a : Address) (amount : Nat) : Act Unit := fun s =>
  match findOrCreate env s a with
  | .user u =>
    match subBalanceUser id u amount with
    | .ok u' => (.ok (), putAccount a (.user u') s)
    | .error f => (.error f, s)
  | .contract c =>
    match subBalanceContract id c amount with
    | .ok c' => (.ok (), putAccount a (.contract c') s)
    | .error f => (.error f, s)

/-- The account with its nonce incremented (`user.nonce + 1`, wrapping in release builds): account.rs:115-125. -/
def bumpNonce : Account → Account
  | .user u => .user { u with nonce := u.nonce + 1 }
  | .contract c => .contract { c with nonce := c.nonce + 1 }

/-- `inc_nonce`: account.rs:111-131. -/
def incNonce (caller : Address) : Act Unit := fun s =>
  match getAccount s caller with
  | .error f => (.error f, s)
  | .ok acc => (.ok (), putAccount caller (bumpNonce acc) s)

/-- `transfer`: account.rs:31-55.  `carrying` is `ictx.carrying_asset`, `limit` is `ictx.cycles_limit`. -/
def accTransfer (env : Env) (caller to : Address) (carrying : CarryingAsset) (limit : UInt64) : Act Unit := fun s =>
  match subBalance env carrying.assetId caller carrying.amount s with
  | (.error f, s1) => (.error f, s1)
  | (.ok (), s1) =>
    let s2 := addBalance env carrying.assetId to carrying.amount s1
    match consumeCycles .accountTransfer s.used limit with
    | .error f => (.error f, s2)
    | .ok used => (.ok (), { s2 with used := used })

/-! ### Bank contract (core/executor/src/native_contract/bank.rs) -/

/-- The asset id of an asset contract: bank.rs:57-59. -/
def assetIdOf (env : Env) (address : ContractAddress) : AssetID :=
  env.digest (env.chainId.bytes ++ address.toBytes)

/-- `register`: bank.rs:45-91. -/
def bankRegister (env : Env) (address : ContractAddress) (name symbol : String) (supply : Nat)
    (limit : UInt64) : Act Asset := fun s =>
  if address.ty ≠ .asset then (.error (.err .invalidAddress), s)
  else
    let id := assetIdOf env address
    if s.bank.contains id then (.error (.err (.assetExists id)), s)
    else
      let asset : Asset :=
        { id := id, name := name, symbol := symbol, supply := supply, manageContract := address,
          storageRoot := env.emptyHash }
      let s1 := { s with bank := s.bank.insertCache id asset }
      match consumeCycles .bankRegister s1.used limit with
      | .error f => (.error f, s1)
      | .ok used => (.ok asset, { s1 with used := used })

/-- `get_asset`: bank.rs:93-100. -/
def getAsset (id : AssetID) (s : St) : Except Fault Asset :=
  match s.bank.get id with
  | some a => .ok a
  | none => .error (.err (.assetNotFound id))

/-! ### Executor (core/executor/src/lib.rs) -/

/-- The caller of a transaction: `gen_invoke_ctx`, core/executor/src/lib.rs:386. -/
def senderOf (env : Env) (tx : SignedTx) : UserAddress := UserAddress.fromPubkey env.digest tx.pubkey

/-- `handle_transfer`: core/executor/src/lib.rs:197-230 (`UserAddress::from_bytes(to.as_bytes())` gives back the
receiver). -/
def handleTransfer (env : Env) (caller : Address) (receiver : UserAddress) (carrying : CarryingAsset)
    (limit : UInt64) : Act ReceiptResult := fun s =>
  match getAsset carrying.assetId s with
  | .error f => (.error f, s)
  | .ok _ =>
    match getBalance carrying.assetId caller s with
    | .error f => (.error f, s)
    | .ok before =>
      match accTransfer env caller (.user receiver) carrying limit s with
      | (.error f, s1) => (.error f, s1)
      | (.ok (), s1) =>
        match getBalance carrying.assetId caller s1 with
        | .error f => (.error f, s1)
        | .ok after => (.ok (.transfer receiver carrying.assetId before after), s1)

/-- `handle_deploy`: core/executor/src/lib.rs:232-259. -/
def handleDeploy (env : Env) (caller : Address) (code : Bytes) (ty : ContractType) (limit : UInt64) :
    Act ReceiptResult := fun s =>
  match ty with
  | .asset =>
    match getAccount s caller with
    | .error f => (.error f, s)
    | .ok acc =>
      let address := ContractAddress.fromCode env.digest code (accountNonce acc) .asset
      match bankRegister env address "System token" "ST" 21000000000000000 limit s with
      | (.error f, s1) => (.error f, s1)
      | (.ok _, s1) => (.ok (.deploy address .asset), s1)
  | _ => (.error .panic, s)

/-- `dispatch`: core/executor/src/lib.rs:175-195. -/
def dispatch (env : Env) (tx : SignedTx) : Act ReceiptResult := fun s =>
  let caller := Address.user (senderOf env tx)
  match tx.raw.action with
  | .transfer receiver carrying => handleTransfer env caller receiver carrying tx.raw.fee.cycle s
  | .deploy code ty => handleDeploy env caller code ty tx.raw.fee.cycle s
  | .approve _ _ _ => (.error .panic, s)
  | .call _ _ _ _ => (.error .panic, s)

/-- `stash` of the executor: core/executor/src/lib.rs:261-266. -/
def St.stash (s : St) : St := { s with acc := s.acc.stashCache, bank := s.bank.stashCache }

/-- `revert` of the executor: core/executor/src/lib.rs:268-273. -/
def St.revert (s : St) : St := { s with acc := s.acc.revertCache, bank := s.bank.revertCache }

/-- `commit` of the executor: core/executor/src/lib.rs:275-283 (the returned root is `env.rootOf` of
`St.committed` of the result). -/
def St.commit (s : St) : St := { s with acc := s.acc.commit, bank := s.bank.commit }

/-- The outcome of dispatch as the receipt result, with the state stashed or reverted (`none` = panic):
core/executor/src/lib.rs:113-125. -/
def settle (env : Env) : Except Fault ReceiptResult × St → Option (ReceiptResult × St)
  | (.ok r, s) => some (r, s.stash)
  | (.error (.err e), s) => some (.fail (env.showErr e) "", s.revert)
  | (.error .panic, _) => none

/-- One iteration of the loop of `exec`: core/executor/src/lib.rs:102-140. -/
def execTx (env : Env) (tx : SignedTx) : Act Receipt := fun s0 =>
  let s := { s0 with used := 0 }
  match settle env (dispatch env tx s) with
  | none => (.error .panic, s)
  | some (res, s1) =>
    match incNonce (.user (senderOf env tx)) s1 with
    | (.error f, s2) => (.error f, s2)
    | (.ok (), s2) =>
      (.ok { stateRoot := env.emptyHash
             epochId := env.epochId
             txHash := tx.txHash
             cyclesUsed := { assetId := tx.raw.fee.assetId, cycle := s2.used * env.cyclesPrice }
             result := res }, s2)

/-- The loop of `exec`: core/executor/src/lib.rs:102-140. -/
def execLoop (env : Env) : List SignedTx → Act (List Receipt)
  | [], s => (.ok [], s)
  | tx :: txs, s =>
    match execTx env tx s with
    | (.error f, s1) => (.error f, s1)
    | (.ok r, s1) =>
      match execLoop env txs s1 with
      | (.error f, s2) => (.error f, s2)
      | (.ok rs, s2) => (.ok (r :: rs), s2)

/-- `modify_all_cycles_used`: core/executor/src/lib.rs:358-372. -/
def modifyAllCyclesUsed : List Fee → Fee → List Fee
  | [], f => [f]
  | g :: gs, f =>
    if g.assetId = f.assetId then { g with cycle := g.cycle + f.cycle } :: gs
    else g :: modifyAllCyclesUsed gs f

/-- `all_cycles_used`: core/executor/src/lib.rs:143-146. -/
def allCyclesUsed (rs : List Receipt) : List Fee :=
  rs.foldl (fun acc r => modifyAllCyclesUsed acc r.cyclesUsed) []

/-- The coinbase reward loop: core/executor/src/lib.rs:147-153. -/
def rewardCoinbase (env : Env) (fees : List Fee) (s : St) : St :=
  fees.foldl (fun s f => addBalance env f.assetId env.coinbase f.cycle.toNat s) s

/-- `ExecutorExecResp`: protocol/src/traits/executor/mod.rs. -/
structure ExecResp where
  receipts : List Receipt
  allCyclesUsed : List Fee
  logsBloom : Bloom
  stateRoot : MerkleRoot

/-- `exec`: core/executor/src/lib.rs:99-167. -/
def exec (env : Env) (txs : List SignedTx) : Act ExecResp := fun s =>
  match execLoop env txs s with
  | (.error f, s1) => (.error f, s1)
  | (.ok receipts, s1) =>
    let fees := allCyclesUsed receipts
    let s2 := rewardCoinbase env fees s1
    let s3 := s2.commit
    let root := env.rootOf s3.committed
    (.ok { receipts := receipts.map (fun r => { r with stateRoot := root })
           allCyclesUsed := fees
           logsBloom := Bloom.zero
           stateRoot := root }, s3)

/-! ### Genesis (core/executor/src/lib.rs:49-97) -/

/-- The inner loop of `create_genesis` over the assets of one allocation: core/executor/src/lib.rs:82-92. -/
def genesisAssets (env : Env) (a : Address) : List GenesisStateAsset → Act Unit
  | [], s => (.ok (), s)
  | x :: xs, s =>
    match Hash.fromHex x.assetId.toList, hexDecode x.balance.toList with
    | some id, some b => genesisAssets env a xs (addBalance env id a (natOfBE b) s)
    | _, _ => (.error (.err .badGenesis), s)

/-- The loop of `create_genesis` over the allocations: core/executor/src/lib.rs:78-93 (`create_account` only looks
the account up, account.rs:57-59). -/
def genesisAllocs (env : Env) : List GenesisStateAlloc → Act Unit
  | [], s => (.ok (), s)
  | x :: xs, s =>
    match Address.fromHex x.address.toList with
    | none => (.error (.err .badGenesis), s)
    | some a =>
      match genesisAssets env a x.assets s with
      | (.error f, s1) => (.error f, s1)
      | (.ok (), s1) => genesisAllocs env xs s1

/-- `create_genesis`: core/executor/src/lib.rs:49-97. -/
def createGenesis (env : Env) (g : Genesis) : Act MerkleRoot := fun s0 =>
  let s := { s0 with used := 0 }
  match hexDecode g.systemToken.code.toList with
  | none => (.error (.err .badGenesis), s)
  | some code =>
    let address := ContractAddress.fromCode env.digest code 0 .asset
    match bankRegister env address g.systemToken.name g.systemToken.symbol g.systemToken.supply.toNat
        999999999999 s with
    | (.error f, s1) => (.error f, s1)
    | (.ok _, s1) =>
      match genesisAllocs env g.stateAlloc s1 with
      | (.error f, s2) => (.error f, s2)
      | (.ok (), s2) =>
        let s3 := s2.stash.commit
        (.ok (env.rootOf s3.committed), s3)

end Huobi

namespace Huobi

/-! ### Executors over a shared database (core/executor/src/lib.rs:289-356, core/executor/src/trie/mod.rs:22-70) -/

/-- The trie database as the worlds it can reproduce, by root.  Simplification: a root names a whole world (both
contract tries) or nothing; `cita_trie` stores the nodes under their hashes.
The full (not `light`) mode of trie/trie_db.rs is modelled: nodes are never deleted (lines 71-88). -/
abbrev StateDB := MerkleRoot → Option World

/-- `MPTTrie::commit` writes the nodes of the committed world: trie/mod.rs:62-67. -/
def StateDB.put (env : Env) (db : StateDB) (w : World) : StateDB := PMap.set db (env.rootOf w) w

/-- `from_root`: the empty root opens the empty world, an unknown root is an error (`none`);
core/executor/src/lib.rs:298-304, trie/mod.rs:36-41. -/
def fromRoot (env : Env) (db : StateDB) (root : MerkleRoot) : Option St :=
  if root = env.emptyHash then some (St.open World.empty) else (db root).map St.open

/-- Open an executor on a root and execute a block: core/consensus/src/adapter.rs:95-113.  `none` =
the root cannot be opened. -/
def runBlock (env : Env) (db : StateDB) (root : MerkleRoot) (txs : List SignedTx) :
    Option (Except Fault ExecResp) × StateDB :=
  match fromRoot env db root with
  | none => (none, db)
  | some s =>
    match exec env txs s with
    | (.ok resp, s') => (some (.ok resp), db.put env s'.committed)
    | (.error f, _) => (some (.error f), db)

/-- Open an executor on the empty root and create genesis: src/main.rs:105-117. -/
def runGenesis (env : Env) (db : StateDB) (g : Genesis) : Option (Except Fault MerkleRoot) × StateDB :=
  match fromRoot env db env.emptyHash with
  | none => (none, db)
  | some s =>
    match createGenesis env g s with
    | (.ok root, s') => (some (.ok root), db.put env s'.committed)
    | (.error f, _) => (some (.error f), db)

end Huobi
