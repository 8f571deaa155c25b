import Verif.Model.Consensus
/-
The statuses a node hands to Overlord: height, interval and the list of authorities.
`core/consensus/src/engine.rs`, `core/consensus/src/consensus.rs`, `src/main.rs`.
-/
namespace Huobi

/-- `overlord::types::Node`, built at core/consensus/src/engine.rs:268-275, 417-425, consensus.rs:251-258. -/
structure OvNode where
  address : Bytes
  proposeWeight : UInt8
  voteWeight : UInt8
deriving DecidableEq

/-- The conversion of a validator: engine.rs:420-424. -/
def OvNode.ofValidator (v : Validator) : OvNode := ⟨v.address.toBytes, v.proposeWeight, v.voteWeight⟩

/-- The order of `Node`s: by address only (overlord 0.1, `impl Ord for Node`), byte strings compared lexicographically. -/
def OvNode.le (a b : OvNode) : Bool := decide (a.address ≤ b.address)

/-- `covert_to_overlord_authority`: engine.rs:417-428, and the same code at engine.rs:268-277 (`get_authority_list`) and
consensus.rs:250-260 (`gen_overlord_status`).  `Vec::sort` is a stable sort. -/
def authorityOf (vs : List Validator) : List OvNode := (vs.map OvNode.ofValidator).mergeSort OvNode.le

/-- `overlord::types::Status`. -/
structure OvStatus where
  epochId : UInt64
  interval : Option UInt64
  authority : List OvNode
deriving DecidableEq

/-- The status made from the node's own status with a given height: engine.rs:202-207, consensus.rs:177-181, 250-266. -/
def Node.ovStatus (n : Node) (height : UInt64) : OvStatus := ⟨height, some n.status.interval, authorityOf n.status.validators⟩

/-- The status sent when the process starts: consensus.rs:213-222. -/
def Node.startOvStatus (n : Node) : OvStatus := n.ovStatus n.status.epochId

/-- The status that a successful `commit` returns: engine.rs:201-209.  `none` = error. -/
def Node.commitOvStatus (cfg : NodeCfg) (io : CommitIo) (epochId : UInt64) (pill : Pill) (proof : OverlordProof) (n : Node) :
    Option OvStatus :=
  match n.commit cfg io epochId pill proof with
  | (.ok h, n') => some (n'.ovStatus h)
  | (.error _, _) => none

/-- The status that a synchronisation sends: consensus.rs:173-185.  `none` = none sent. -/
def Node.syncOvStatus (cfg : NodeCfg) (io : SyncIo) (msg : Bytes) (n : Node) : Option OvStatus :=
  match n.updateEpoch cfg io msg with
  | (.ok (some h), n') => some (n'.ovStatus h)
  | _ => none

/-- `get_authority_list`: engine.rs:262-280, adapter.rs:139-146 (`get_last_validators`).  `none` = error, the epoch is not stored. -/
def Node.getAuthorityList (n : Node) (epochId : UInt64) : Option (List OvNode) :=
  (n.store.epochs epochId).map (fun e => authorityOf e.header.validators)

/-- The validators of the configuration file: src/main.rs:265-274.  `none` = abort, a string is not an address. -/
def configValidators : List String → Option (List Validator)
  | [] => some []
  | s :: ss =>
    match UserAddress.fromHex s.toList, configValidators ss with
    | some a, some vs => some (⟨a, 1, 1⟩ :: vs)
    | _, _ => none

/-- The addressee of a vote sent to a relayer: engine.rs:238-258 (`UserAddress::from_bytes(addr)?`).  `none` = error. -/
def relayTarget (addr : Bytes) : Option UserAddress := UserAddress.fromBytes addr

end Huobi
