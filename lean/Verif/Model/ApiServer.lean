import Verif.Model.Api
import Verif.Model.Consensus
/-
The queries and mutations of the GraphQL API on a node: `core/api/src/lib.rs`, `core/api/src/schema/epoch.rs`,
`core/api/src/adapter/mod.rs`.  GraphQL itself (juniper) and HTTP are not modelled: a call is a call of the resolver with
its arguments.
-/
namespace Huobi

/-- `EpochHeader` of the API: core/api/src/schema/epoch.rs:19-48.  (`logs_bloom`, `proof` and `validators` are not shown.) -/
structure HeaderView where
  chainId : List Char
  epochId : List Char
  preHash : List Char
  timestamp : List Char
  orderRoot : List Char
  confirmRoot : List (List Char)
  stateRoot : List Char
  receiptRoot : List (List Char)
  cyclesUsed : List Char
  proposer : List Char
  validatorVersion : List Char
deriving DecidableEq

/-- `Epoch` of the API: core/api/src/schema/epoch.rs:10-15. -/
structure EpochView where
  header : HeaderView
  orderedTxHashes : List (List Char)
deriving DecidableEq

/-- `EpochHeader::from`: core/api/src/schema/epoch.rs:50-74. -/
def HeaderView.of (h : EpochHeader) : HeaderView :=
  { chainId := h.chainId.toHex, epochId := Api.showU64 h.epochId, preHash := h.preHash.toHex, timestamp := Api.showU64 h.timestamp
    orderRoot := h.orderRoot.toHex, confirmRoot := h.confirmRoot.map Hash.toHex, stateRoot := h.stateRoot.toHex
    receiptRoot := h.receiptRoot.map Hash.toHex, cyclesUsed := Api.showU64 h.cyclesUsed, proposer := (Address.user h.proposer).toHex
    validatorVersion := Api.showU64 h.validatorVersion }

/-- `Epoch::from`: core/api/src/schema/epoch.rs:76-86. -/
def EpochView.of (e : Epoch) : EpochView := ⟨HeaderView.of e.header, e.orderedTxHashes.map Hash.toHex⟩

/-- `opt_hex_to_u64`: core/api/src/lib.rs:250-258.  The outer `none` is the error. -/
def Api.readOptU64 : Option (List Char) → Option (Option UInt64)
  | none => some none
  | some s => (Api.readU64 s).map some

/-- Outcome of a resolver that failed. -/
inductive ApiErr where
  /-- an argument could not be read -/
  | badInput
  /-- the storage has no such epoch -/
  | storage
  | mempool (e : MemErr)
deriving DecidableEq

/-- `getLatestEpoch`: core/api/src/lib.rs:63-70. -/
def Node.apiEpoch (n : Node) (epochId : Option (List Char)) : Except ApiErr EpochView :=
  match Api.readOptU64 epochId with
  | none => .error .badInput
  | some id =>
    match n.queryEpoch id with
    | none => .error .storage
    | some e => .ok (EpochView.of e)

/-- `getBalance`: core/api/src/lib.rs:81-102. -/
def Node.apiGetBalance (cfg : NodeCfg) (n : Node) (address assetId : List Char) (epochId : Option (List Char)) :
    Except ApiErr (List Char) :=
  match Api.readOptU64 epochId, Api.readAddress address, Api.readHash assetId with
  | some q, some a, some id =>
    match n.queryBalance cfg a id q with
    | some b => .ok (Api.showBalance b)
    | none => .ok (Api.showBalance 0)
  | _, _, _ => .error .badInput

/-- Hand a transaction to the pool: core/api/src/adapter/mod.rs:35-41 (`Context::new()`: not from the network), lib.rs:120-127. -/
def Node.apiInsert (cfg : NodeCfg) (broadcastOk : Bool) (tx : SignedTx) (answer : List Char) (n : Node) :
    Except ApiErr (List Char) × Node :=
  match n.pool.insert cfg.mem (n.view cfg (fun _ => none) broadcastOk) false tx with
  | (.error e, p) => (.error (.mempool e), { n with pool := p })
  | (.ok (), p) => (.ok answer, { n with pool := p })

/-- The end of the two mutations for signed transactions: core/api/src/lib.rs:118-128, 140-150. -/
def Node.apiSend (cfg : NodeCfg) (broadcastOk : Bool) (action : Option Action) (raw : Api.InputRaw) (sig : Api.InputSig) (n : Node) :
    Except ApiErr (List Char) × Node :=
  match action with
  | none => (.error .badInput, n)
  | some act =>
    match Api.coverSigned act raw sig with
    | none => (.error .badInput, n)
    | some tx => n.apiInsert cfg broadcastOk tx sig.txHash

/-- `sendTransferTransaction`: core/api/src/lib.rs:108-128. -/
def Node.sendTransfer (cfg : NodeCfg) (broadcastOk : Bool) (raw : Api.InputRaw) (a : Api.InputTransfer) (sig : Api.InputSig) (n : Node) :
    Except ApiErr (List Char) × Node := n.apiSend cfg broadcastOk (Api.coverTransfer a) raw sig

/-- `sendDeployTransaction`: core/api/src/lib.rs:130-150. -/
def Node.sendDeploy (cfg : NodeCfg) (broadcastOk : Bool) (raw : Api.InputRaw) (a : Api.InputDeploy) (sig : Api.InputSig) (n : Node) :
    Except ApiErr (List Char) × Node := n.apiSend cfg broadcastOk (Api.coverDeploy a) raw sig

/-- secp256k1 as `gen_input_tx_encryption` uses it: `Secp256k1PrivateKey::try_from` and `pub_key` (`none`: not a private key), and
`sign_message`. -/
structure Signer where
  pubkey : Bytes → Option Bytes
  sign : Bytes → Hash → Bytes

/-- `gen_input_tx_encryption`: core/api/src/lib.rs:260-279. -/
def Api.genSig (sg : Signer) (privkey : List Char) (txHash : List Char) : Option Api.InputSig :=
  match Api.readBytes privkey with
  | none => none
  | some sk =>
    match sg.pubkey sk with
    | none => none
    | some pk =>
      match (Api.readBytes txHash).bind Hash.fromBytes with
      | none => none
      | some h => some ⟨txHash, Api.showBytes pk, Api.showBytes (sg.sign sk h)⟩

/-- `sendUnsafeTransferTransaction`, `sendUnsafeDeployTransaction`: core/api/src/lib.rs:156-178, 184-206, after the action was read. -/
def Node.apiSendUnsafe (cfg : NodeCfg) (sg : Signer) (broadcastOk : Bool) (action : Option Action) (raw : Api.InputRaw)
    (privkey : List Char) (n : Node) : Except ApiErr (List Char) × Node :=
  match action with
  | none => (.error .badInput, n)
  | some act =>
    match Api.coverRaw act raw with
    | none => (.error .badInput, n)
    | some rawTx =>
      let txHash := (cfg.digest (encode rawTx)).toHex
      match Api.genSig sg privkey txHash with
      | none => (.error .badInput, n)
      | some sig =>
        match Api.coverSigned act raw sig with
        | none => (.error .badInput, n)
        | some tx => n.apiInsert cfg broadcastOk tx txHash

/-- `sendUnsafeTransferTransaction`. -/
def Node.sendUnsafeTransfer (cfg : NodeCfg) (sg : Signer) (broadcastOk : Bool) (raw : Api.InputRaw) (a : Api.InputTransfer)
    (privkey : List Char) (n : Node) : Except ApiErr (List Char) × Node :=
  n.apiSendUnsafe cfg sg broadcastOk (Api.coverTransfer a) raw privkey

/-- `sendUnsafeDeployTransaction`. -/
def Node.sendUnsafeDeploy (cfg : NodeCfg) (sg : Signer) (broadcastOk : Bool) (raw : Api.InputRaw) (a : Api.InputDeploy)
    (privkey : List Char) (n : Node) : Except ApiErr (List Char) × Node :=
  n.apiSendUnsafe cfg sg broadcastOk (Api.coverDeploy a) raw privkey

end Huobi
