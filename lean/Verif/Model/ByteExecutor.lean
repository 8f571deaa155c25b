import Verif.Model.Executor
import Verif.Model.FixedCodec
/-
The executor on bytes: core/executor/src/adapter/contract.rs with its `HashMap<Bytes, Bytes>`s and its trie of bytes,
the native contracts and the executor on top of it, the trie of contract roots and the trie database
(core/executor/src/lib.rs:275-356, core/executor/src/trie/mod.rs, core/executor/src/fixed_types/mod.rs).
`Model/Executor.lean` is the same code with typed contents; `Props/ByteExecutor.lean` relates the two.

Simplifications: a buffer of 2^64 bytes or more cannot be allocated and aborts (`BFault.memory`); the Patricia trie of
`cita_trie` is its contents, with an abstract root function; the database is the list of the tries committed to it,
opened by root (the crate stores the nodes by their hashes); database errors are not modelled.
-/
namespace Huobi

/-- A `HashMap<Bytes, Bytes>`, or the contents of a trie. -/
abbrev ByteMap := PMap Bytes Bytes

/-- A `ContractSchema` with its fixed codec: core/executor/src/fixed_types/mod.rs. -/
structure Schema (K V : Type) where
  encKey : K → Bytes
  encVal : V → Bytes
  decVal : Bytes → Dec V

/-- `FixedAccountSchema`: core/executor/src/fixed_types/mod.rs:19-23. -/
def accountSchema : Schema Address Account := ⟨fun a => a.item.enc, fun x => x.item.enc, Account.dec⟩

/-- `FixedAssetSchema`: core/executor/src/fixed_types/mod.rs:13-17. -/
def assetSchema : Schema AssetID Asset := ⟨fun a => a.item.enc, fun x => x.item.enc, Asset.dec⟩

/-- An `Err(_)` (of a contract or of the codec), a panic, or running out of memory. -/
inductive BFault where
  | err (e : ExecErr)
  | codec (e : DErr)
  | panic
  | memory
deriving DecidableEq

/-- `GeneralContractStateAdapter`: core/executor/src/adapter/contract.rs:19-26. -/
abbrev Adapter := Layers Bytes Bytes

/-- `get::<Schema>`: core/executor/src/adapter/contract.rs:40-61. -/
def Adapter.read {K V : Type} (S : Schema K V) (l : Adapter) (k : K) : Except BFault (Option V) :=
  match l.get (S.encKey k) with
  | none => .ok none
  | some b =>
    match S.decVal b with
    | .ok v => .ok (some v)
    | .error e => .error (.codec e)

/-- `contains::<Schema>`: core/executor/src/adapter/contract.rs:63-78. -/
def Adapter.has {K V : Type} (S : Schema K V) (l : Adapter) (k : K) : Bool := l.contains (S.encKey k)

/-- `insert_cache::<Schema>`: core/executor/src/adapter/contract.rs:80-88. -/
def Adapter.write {K V : Type} (S : Schema K V) (l : Adapter) (k : K) (v : V) : Except BFault Adapter :=
  if (S.encVal v).length < 2 ^ 64 then .ok (l.insertCache (S.encKey k) (S.encVal v)) else .error .memory

/-- `commit` up to the root: core/executor/src/adapter/contract.rs:103-110 (`cita_trie` removes a key given the
empty value). -/
def Adapter.commitTrie (l : Adapter) : Adapter :=
  { l with
    trie := fun k => match l.stash k with
      | some v => if v = [] then none else some v
      | none => l.trie k
    stash := PMap.empty }

/-- `TransactionExecutor` and the current `cycles_used`: core/executor/src/lib.rs:36-46. -/
structure BSt where
  top : ByteMap
  acc : Adapter
  bank : Adapter
  used : UInt64

/-- A call: its result and the state it leaves, also when it fails. -/
abbrev BAct (α : Type) := BSt → Except BFault α × BSt

/-- A typed fault as a fault of the byte level (the contracts' own errors and panics are the same). -/
def Fault.toB : Fault → BFault
  | .err e => .err e
  | .panic => .panic

/-! ### Account contract (core/executor/src/native_contract/account.rs) -/

/-- `find_or_create`: account.rs:170-191. -/
def bFindOrCreate (env : Env) (s : BSt) (a : Address) : Except BFault Account :=
  match s.acc.read accountSchema a with
  | .error f => .error f
  | .ok (some x) => .ok x
  | .ok none =>
    match a with
    | .user _ => .ok (.user ⟨0, []⟩)
    | .contract _ => .ok (.contract ⟨0, [], env.emptyHash⟩)

/-- `get_account`: account.rs:148-157. -/
def bGetAccount (s : BSt) (a : Address) : Except BFault Account :=
  match s.acc.read accountSchema a with
  | .error f => .error f
  | .ok (some x) => .ok x
  | .ok none => .error (.err (.accountNotFound a))

/-- `get_balance`: account.rs:133-146. -/
def bGetBalance (id : AssetID) (a : Address) (s : BSt) : Except BFault Nat :=
  match bGetAccount s a with
  | .ok acc => .ok (accountBalance id acc)
  | .error f => .error f

/-- `insert_cache::<FixedAccountSchema>`. -/
def bPutAccount (a : Address) (x : Account) : BAct Unit := fun s =>
  match s.acc.write accountSchema a x with
  | .ok l => (.ok (), { s with acc := l })
  | .error f => (.error f, s)

/-- `add_balance`: account.rs:61-84. -/
def bAddBalance (env : Env) (id : AssetID) (a : Address) (amount : Nat) : BAct Unit := fun s =>
  match bFindOrCreate env s a with
  | .error f => (.error f, s)
  | .ok (.user u) => bPutAccount a (.user (addBalanceUser id u amount)) s
  | .ok (.contract c) => bPutAccount a (.contract (addBalanceContract id c amount)) s

/-- `sub_balance`: account.rs:86-109. -/
def bSubBalance (env : Env) (id : AssetID) (a : Address) (amount : Nat) : BAct Unit := fun s =>
  match bFindOrCreate env s a with
  | .error f => (.error f, s)
  | .ok (.user u) =>
    match subBalanceUser id u amount with
    | .ok u' => bPutAccount a (.user u') s
    | .error f => (.error f.toB, s)
  | .ok (.contract c) =>
    match subBalanceContract id c amount with
    | .ok c' => bPutAccount a (.contract c') s
    | .error f => (.error f.toB, s)

/-- `inc_nonce`: account.rs:111-131. -/
def bIncNonce (caller : Address) : BAct Unit := fun s =>
  match bGetAccount s caller with
  | .error f => (.error f, s)
  | .ok acc => bPutAccount caller (bumpNonce acc) s

/-- `transfer`: account.rs:31-55. -/
def bAccTransfer (env : Env) (caller to : Address) (carrying : CarryingAsset) (limit : UInt64) : BAct Unit := fun s =>
  match bSubBalance env carrying.assetId caller carrying.amount s with
  | (.error f, s1) => (.error f, s1)
  | (.ok (), s1) =>
    match bAddBalance env carrying.assetId to carrying.amount s1 with
    | (.error f, s2) => (.error f, s2)
    | (.ok (), s2) =>
      match consumeCycles .accountTransfer s.used limit with
      | .error f => (.error f.toB, s2)
      | .ok used => (.ok (), { s2 with used := used })

/-! ### Bank contract (core/executor/src/native_contract/bank.rs) -/

/-- `register`: bank.rs:45-91. -/
def bBankRegister (env : Env) (address : ContractAddress) (name symbol : String) (supply : Nat)
    (limit : UInt64) : BAct Asset := fun s =>
  if address.ty ≠ .asset then (.error (.err .invalidAddress), s)
  else
    let id := assetIdOf env address
    if s.bank.has assetSchema id then (.error (.err (.assetExists id)), s)
    else
      let asset : Asset :=
        { id := id, name := name, symbol := symbol, supply := supply, manageContract := address,
          storageRoot := env.emptyHash }
      match s.bank.write assetSchema id asset with
      | .error f => (.error f, s)
      | .ok l =>
        match consumeCycles .bankRegister s.used limit with
        | .error f => (.error f.toB, { s with bank := l })
        | .ok used => (.ok asset, { s with bank := l, used := used })

/-- `get_asset`: bank.rs:93-100. -/
def bGetAsset (id : AssetID) (s : BSt) : Except BFault Asset :=
  match s.bank.read assetSchema id with
  | .error f => .error f
  | .ok (some a) => .ok a
  | .ok none => .error (.err (.assetNotFound id))

/-! ### Executor (core/executor/src/lib.rs) -/

/-- `handle_transfer`: core/executor/src/lib.rs:197-230. -/
def bHandleTransfer (env : Env) (caller : Address) (receiver : UserAddress) (carrying : CarryingAsset)
    (limit : UInt64) : BAct ReceiptResult := fun s =>
  match bGetAsset carrying.assetId s with
  | .error f => (.error f, s)
  | .ok _ =>
    match bGetBalance carrying.assetId caller s with
    | .error f => (.error f, s)
    | .ok before =>
      match bAccTransfer env caller (.user receiver) carrying limit s with
      | (.error f, s1) => (.error f, s1)
      | (.ok (), s1) =>
        match bGetBalance carrying.assetId caller s1 with
        | .error f => (.error f, s1)
        | .ok after => (.ok (.transfer receiver carrying.assetId before after), s1)

/-- `handle_deploy`: core/executor/src/lib.rs:232-259. -/
def bHandleDeploy (env : Env) (caller : Address) (code : Bytes) (ty : ContractType) (limit : UInt64) :
    BAct ReceiptResult := fun s =>
  match ty with
  | .asset =>
    match bGetAccount s caller with
    | .error f => (.error f, s)
    | .ok acc =>
      let address := ContractAddress.fromCode env.digest code (accountNonce acc) .asset
      match bBankRegister env address "System token" "ST" 21000000000000000 limit s with
      | (.error f, s1) => (.error f, s1)
      | (.ok _, s1) => (.ok (.deploy address .asset), s1)
  | _ => (.error .panic, s)

/-- `dispatch`: core/executor/src/lib.rs:175-195. -/
def bDispatch (env : Env) (tx : SignedTx) : BAct ReceiptResult := fun s =>
  let caller := Address.user (senderOf env tx)
  match tx.raw.action with
  | .transfer receiver carrying => bHandleTransfer env caller receiver carrying tx.raw.fee.cycle s
  | .deploy code ty => bHandleDeploy env caller code ty tx.raw.fee.cycle s
  | .approve _ _ _ => (.error .panic, s)
  | .call _ _ _ _ => (.error .panic, s)

/-- `stash` of the executor: core/executor/src/lib.rs:261-266. -/
def BSt.stash (s : BSt) : BSt := { s with acc := s.acc.stashCache, bank := s.bank.stashCache }

/-- `revert` of the executor: core/executor/src/lib.rs:268-273. -/
def BSt.revert (s : BSt) : BSt := { s with acc := s.acc.revertCache, bank := s.bank.revertCache }

/-- The outcome of dispatch as the receipt result, with the state stashed or reverted: core/executor/src/lib.rs:113-125.
`showCodec` is the text of a codec error. -/
def bSettle (env : Env) (showCodec : DErr → String) :
    Except BFault ReceiptResult × BSt → Except BFault (ReceiptResult × BSt)
  | (.ok r, s) => .ok (r, s.stash)
  | (.error (.err e), s) => .ok (.fail (env.showErr e) "", s.revert)
  | (.error (.codec .panic), _) => .error .panic
  | (.error (.codec e), s) => .ok (.fail (showCodec e) "", s.revert)
  | (.error .panic, _) => .error .panic
  | (.error .memory, _) => .error .memory

/-- One iteration of the loop of `exec`: core/executor/src/lib.rs:102-140. -/
def bExecTx (env : Env) (showCodec : DErr → String) (tx : SignedTx) : BAct Receipt := fun s0 =>
  let s := { s0 with used := 0 }
  match bSettle env showCodec (bDispatch env tx s) with
  | .error f => (.error f, s)
  | .ok (res, s1) =>
    match bIncNonce (.user (senderOf env tx)) s1 with
    | (.error f, s2) => (.error f, s2)
    | (.ok (), s2) =>
      (.ok { stateRoot := env.emptyHash
             epochId := env.epochId
             txHash := tx.txHash
             cyclesUsed := { assetId := tx.raw.fee.assetId, cycle := s2.used * env.cyclesPrice }
             result := res }, s2)

/-- The loop of `exec`: core/executor/src/lib.rs:102-140. -/
def bExecLoop (env : Env) (showCodec : DErr → String) : List SignedTx → BAct (List Receipt)
  | [], s => (.ok [], s)
  | tx :: txs, s =>
    match bExecTx env showCodec tx s with
    | (.error f, s1) => (.error f, s1)
    | (.ok r, s1) =>
      match bExecLoop env showCodec txs s1 with
      | (.error f, s2) => (.error f, s2)
      | (.ok rs, s2) => (.ok (r :: rs), s2)

/-- The coinbase reward loop: core/executor/src/lib.rs:147-153. -/
def bRewardCoinbase (env : Env) : List Fee → BAct Unit
  | [], s => (.ok (), s)
  | f :: fs, s =>
    match bAddBalance env f.assetId env.coinbase f.cycle.toNat s with
    | (.error e, s1) => (.error e, s1)
    | (.ok (), s1) => bRewardCoinbase env fs s1

/-! ### Tries and their database -/

/-- What is used of `cita_trie`: the root of a trie with given contents. -/
structure TrieLib where
  root : ByteMap → MerkleRoot

/-- The trie database: the contents of the tries committed to it, latest first. -/
abbrev TrieStore := List ByteMap

/-- `PatriciaTrie::from(db, root)`: core/executor/src/trie/mod.rs:36-41 (`none` = `InvalidStateRoot`). -/
def TrieStore.open (T : TrieLib) (db : TrieStore) (root : MerkleRoot) : Option ByteMap :=
  db.find? (fun m => T.root m = root)

/-- `ACCOUNT_CONTRACT_ADDRESS`: core/executor/src/native_contract/mod.rs:9-12. -/
def accountContract : Address :=
  .contract ⟨.native, 0xC0 :: List.replicate 18 0 ++ [1], by simp⟩

/-- `BANK_CONTRACT_ADDRESS`: core/executor/src/native_contract/mod.rs:13-16. -/
def bankContract : Address :=
  .contract ⟨.native, List.replicate 19 0 ++ [2], by simp⟩

/-- `commit` of the executor: core/executor/src/lib.rs:275-283.  Every contract's trie is committed to the database and
its root written in the top trie, in the order the `HashMap` of contracts gives (`accFirst`), then the top trie is
committed. -/
def BSt.commit (T : TrieLib) (accFirst : Bool) (s : BSt) (db : TrieStore) : MerkleRoot × BSt × TrieStore :=
  let acc := s.acc.commitTrie
  let bank := s.bank.commitTrie
  let accRoot := T.root acc.trie
  let bankRoot := T.root bank.trie
  let top :=
    if accFirst then PMap.set (PMap.set s.top accountContract.toBytes accRoot.bytes) bankContract.toBytes bankRoot.bytes
    else PMap.set (PMap.set s.top bankContract.toBytes bankRoot.bytes) accountContract.toBytes accRoot.bytes
  let db1 := if accFirst then bank.trie :: acc.trie :: db else acc.trie :: bank.trie :: db
  (T.root top, { s with top := top, acc := acc, bank := bank }, top :: db1)

/-- `gen_contract_state`: core/executor/src/lib.rs:340-356 (`none` = an error). -/
def openContract (T : TrieLib) (db : TrieStore) (top : ByteMap) (a : Address) : Option Adapter :=
  match top a.toBytes with
  | none => some (Layers.ofTrie PMap.empty)
  | some val =>
    match Hash.fromBytes val with
    | none => none
    | some root => (db.open T root).map Layers.ofTrie

/-- `from_root`: core/executor/src/lib.rs:289-337 (`none` = an error). -/
def bFromRoot (T : TrieLib) (env : Env) (db : TrieStore) (root : MerkleRoot) : Option BSt :=
  match (if root = env.emptyHash then some PMap.empty else db.open T root) with
  | none => none
  | some top =>
    match openContract T db top accountContract, openContract T db top bankContract with
    | some acc, some bank => some ⟨top, acc, bank, 0⟩
    | _, _ => none

/-- `exec`: core/executor/src/lib.rs:99-167. -/
def bExec (T : TrieLib) (env : Env) (showCodec : DErr → String) (accFirst : Bool) (txs : List SignedTx) (s : BSt)
    (db : TrieStore) : Except BFault ExecResp × TrieStore :=
  match bExecLoop env showCodec txs s with
  | (.error f, _) => (.error f, db)
  | (.ok receipts, s1) =>
    let fees := allCyclesUsed receipts
    match bRewardCoinbase env fees s1 with
    | (.error f, _) => (.error f, db)
    | (.ok (), s2) =>
      let (root, _, db') := s2.commit T accFirst db
      (.ok { receipts := receipts.map (fun r => { r with stateRoot := root })
             allCyclesUsed := fees
             logsBloom := Bloom.zero
             stateRoot := root }, db')

/-- The inner loop of `create_genesis`: core/executor/src/lib.rs:82-92. -/
def bGenesisAssets (env : Env) (a : Address) : List GenesisStateAsset → BAct Unit
  | [], s => (.ok (), s)
  | x :: xs, s =>
    match Hash.fromHex x.assetId.toList, hexDecode x.balance.toList with
    | some id, some b =>
      match bAddBalance env id a (natOfBE b) s with
      | (.error f, s1) => (.error f, s1)
      | (.ok (), s1) => bGenesisAssets env a xs s1
    | _, _ => (.error (.err .badGenesis), s)

/-- The loop of `create_genesis` over the allocations: core/executor/src/lib.rs:78-93. -/
def bGenesisAllocs (env : Env) : List GenesisStateAlloc → BAct Unit
  | [], s => (.ok (), s)
  | x :: xs, s =>
    match Address.fromHex x.address.toList with
    | none => (.error (.err .badGenesis), s)
    | some a =>
      match bFindOrCreate env s a with
      | .error f => (.error f, s)
      | .ok _ =>
        match bGenesisAssets env a x.assets s with
        | (.error f, s1) => (.error f, s1)
        | (.ok (), s1) => bGenesisAllocs env xs s1

/-- `create_genesis`: core/executor/src/lib.rs:49-97. -/
def bCreateGenesis (T : TrieLib) (env : Env) (accFirst : Bool) (g : Genesis) (s0 : BSt) (db : TrieStore) :
    Except BFault MerkleRoot × TrieStore :=
  let s := { s0 with used := 0 }
  match hexDecode g.systemToken.code.toList with
  | none => (.error (.err .badGenesis), db)
  | some code =>
    let address := ContractAddress.fromCode env.digest code 0 .asset
    match bBankRegister env address g.systemToken.name g.systemToken.symbol g.systemToken.supply.toNat
        999999999999 s with
    | (.error f, _) => (.error f, db)
    | (.ok _, s1) =>
      match bGenesisAllocs env g.stateAlloc s1 with
      | (.error f, _) => (.error f, db)
      | (.ok (), s2) =>
        let (root, _, db') := s2.stash.commit T accFirst db
        (.ok root, db')

/-- Open an executor on a root and execute a block: core/consensus/src/adapter.rs:95-113 (`none` = the root cannot be
opened). -/
def bRunBlock (T : TrieLib) (env : Env) (showCodec : DErr → String) (accFirst : Bool) (db : TrieStore)
    (root : MerkleRoot) (txs : List SignedTx) : Option (Except BFault ExecResp) × TrieStore :=
  match bFromRoot T env db root with
  | none => (none, db)
  | some s =>
    let (r, db') := bExec T env showCodec accFirst txs s db
    (some r, db')

/-- Open an executor on the empty root and create genesis: src/main.rs:105-117. -/
def bRunGenesis (T : TrieLib) (env : Env) (accFirst : Bool) (db : TrieStore) (g : Genesis) :
    Option (Except BFault MerkleRoot) × TrieStore :=
  match bFromRoot T env db env.emptyHash with
  | none => (none, db)
  | some s =>
    let (r, db') := bCreateGenesis T env accFirst g s db
    (some r, db')

/-- `get_balance` of an executor opened on a root: core/executor/src/lib.rs:169-172 (`none` = the root cannot be
opened). -/
def bQueryBalance (T : TrieLib) (env : Env) (db : TrieStore) (root : MerkleRoot) (a : Address) (id : AssetID) :
    Option (Except BFault Nat) :=
  (bFromRoot T env db root).map (bGetBalance id a)

end Huobi
