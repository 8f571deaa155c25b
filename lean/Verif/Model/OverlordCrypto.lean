import Verif.Model.Consensus
/-
Model of `core/consensus/src/util.rs`, the cryptography given to Overlord.  The signature scheme (crate `ophelia-secp256k1`) is
abstract: a set of accepted triples and a signing function.
-/
namespace Huobi

/-- How a call ends. -/
inductive Verdict where
  | ok (address : Bytes)
  | err
  /-- the task aborts -/
  | panic
deriving DecidableEq

/-- `OverlordCrypto` (util.rs:16-20) together with the abstract functions: `verify hash signature pubkey` is
`Secp256k1::verify_signature(..).is_ok()`; `signWith` is `Secp256k1::sign_message` with the private key, `none` = error. -/
structure OverlordCrypto where
  digest : Bytes → Hash
  verify : Bytes → Bytes → Bytes → Bool
  signWith : Bytes → Option Bytes
  pubkey : Bytes

/-- `hash`: util.rs:23-25. -/
def OverlordCrypto.hash (c : OverlordCrypto) (msg : Bytes) : Bytes := (c.digest msg).bytes

/-- `sign`: util.rs:27-35. -/
def OverlordCrypto.sign (c : OverlordCrypto) (hash : Bytes) : Option Bytes :=
  match c.signWith hash with
  | none => none
  | some s => some (c.pubkey ++ s)

/-- `verify_signature`: util.rs:37-50.  `Bytes::split_off(33)` asserts that there are 33 bytes. -/
def OverlordCrypto.verifySignature (c : OverlordCrypto) (signature hash : Bytes) : Verdict :=
  if signature.length < 33 then .panic
  else
    let tmp := signature.drop 33
    let pubkey := signature.take 33
    if c.verify hash tmp pubkey then .ok (UserAddress.fromPubkey c.digest pubkey).toBytes else .err

/-- `aggregate_signatures`: util.rs:52-58. -/
def OverlordCrypto.aggregate (_c : OverlordCrypto) (_signatures _voters : List Bytes) : Verdict := .ok []

/-- `verify_aggregated_signature`: util.rs:60-65.  The arguments are the fields of `AggregatedSignature`. -/
def OverlordCrypto.verifyAggregated (_c : OverlordCrypto) (_signature _bitmap : Bytes) : Verdict := .ok []

/-- `check_proof`: core/consensus/src/consensus.rs:245-247. -/
def checkProof (_epochId : UInt64) (_proof : Proof) : Verdict := .ok []

end Huobi
