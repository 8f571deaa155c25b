import Verif.Model.FixedCodec
/-
Model of `protocol/src/codec`: the protobuf coding (crate `prost` 0.5) used for storage and for network messages.
`v.pb` is the message `From<T>` builds, written as the list of wire fields prost encodes (fields in tag order; scalars,
strings and bytes equal to their default are omitted); `T.ofPb` is prost's decoding of the fields followed by
`TryFrom`.  prost is a dependency and is modelled from the protobuf specification.

Simplifications: error values are reduced to four kinds; errors inside a oneof member that a later member replaces are
not reported.
-/
namespace Huobi

/-- Why decoding failed. -/
inductive PErr where
  /-- prost `DecodeError` -/
  | malformed
  /-- `CodecError::MissingField` -/
  | missing
  /-- `CodecError::InvalidContractType` -/
  | contractType
  /-- error of `Hash::from_bytes`, `UserAddress::from_bytes`, `ContractAddress::from_bytes` -/
  | badValue
  /-- the process aborts -/
  | panic
deriving DecidableEq, Repr

abbrev PDec (α : Type) := Except PErr α

/-! ### Wire format -/

/-- Base-128 varint; the first argument bounds the number of bytes. -/
def encVarint : Nat → Nat → Bytes
  | 0, _ => []
  | c + 1, n => if n < 128 then [UInt8.ofNat n] else UInt8.ofNat (n % 128 + 128) :: encVarint c (n / 128)

/-- prost `decode_varint`: at most ten bytes, bits beyond the 64th are dropped. -/
def readVarint : Nat → Nat → Nat → Bytes → Option (Nat × Bytes)
  | 0, _, _, _ => none
  | _ + 1, _, _, [] => none
  | c + 1, sh, acc, b :: rest =>
    let acc := acc + (b.toNat % 128) * 2 ^ sh
    if b.toNat < 128 then some (acc % 2 ^ 64, rest) else readVarint c (sh + 7) acc rest

/-- Payload of a wire field. -/
inductive PVal where
  | varint (n : UInt64)
  | bytes (b : Bytes)
  | fixed (b : Bytes)
deriving DecidableEq

/-- The fields of a message in order of appearance, with their tags. -/
abbrev PFields := List (Nat × PVal)

/-- Bytes of one field: key, then payload. -/
def encField : Nat × PVal → Bytes
  | (t, .varint n) => encVarint 10 (t * 8) ++ encVarint 10 n.toNat
  | (t, .bytes b) => encVarint 10 (t * 8 + 2) ++ encVarint 10 b.length ++ b
  | (t, .fixed b) => encVarint 10 (t * 8 + 1) ++ b

/-- `Message::encode`. -/
def encFields (fs : PFields) : Bytes := fs.flatMap encField

/-- One field; `decode_key` and the payload by wire type. -/
def readField (bs : Bytes) : Option ((Nat × PVal) × Bytes) :=
  match readVarint 10 0 0 bs with
  | none => none
  | some (key, rest) =>
    if 2 ^ 32 ≤ key ∨ key / 8 = 0 then none
    else if key % 8 = 0 then
      (readVarint 10 0 0 rest).map (fun (n, r) => ((key / 8, .varint (UInt64.ofNat n)), r))
    else if key % 8 = 2 then
      match readVarint 10 0 0 rest with
      | none => none
      | some (n, r) => if r.length < n then none else some ((key / 8, .bytes (r.take n)), r.drop n)
    else if key % 8 = 1 then if rest.length < 8 then none else some ((key / 8, .fixed (rest.take 8)), rest.drop 8)
    else if key % 8 = 5 then if rest.length < 4 then none else some ((key / 8, .fixed (rest.take 4)), rest.drop 4)
    else none

/-- All fields; the first argument bounds their number. -/
def parseAux : Nat → Bytes → PDec PFields
  | _, [] => .ok []
  | 0, _ :: _ => .error .malformed
  | f + 1, b :: bs =>
    match readField (b :: bs) with
    | none => .error .malformed
    | some (fld, rest) => (parseAux f rest).map (fld :: ·)

/-- The fields of a byte string. -/
def parse (bs : Bytes) : PDec PFields := parseAux bs.length bs

/-! ### Fields as prost writes them -/

/-- `bytes`/`string` field: omitted when empty. -/
def fBytes (t : Nat) (b : Bytes) : PFields := if b = [] then [] else [(t, .bytes b)]
/-- `uint64`, `uint32`, enumeration field: omitted when 0. -/
def fU64 (t : Nat) (n : UInt64) : PFields := if n = 0 then [] else [(t, .varint n)]
/-- Present message field. -/
def fMsg (t : Nat) (m : PFields) : PFields := [(t, .bytes (encFields m))]
/-- Repeated message field. -/
def fMsgs (t : Nat) (ms : List PFields) : PFields := ms.map (fun m => (t, .bytes (encFields m)))
/-- Repeated bytes field. -/
def fReps (t : Nat) (bs : List Bytes) : PFields := bs.map (fun b => (t, .bytes b))

/-! ### Fields as prost reads them -/

/-- Occurrences of a tag. -/
def occ (t : Nat) (fs : PFields) : List PVal := fs.filterMap (fun f => if f.1 = t then some f.2 else none)

/-- Scalar field: last occurrence, default 0. -/
def getU64 (t : Nat) (fs : PFields) : PDec UInt64 :=
  (occ t fs).foldlM (fun _ v => match v with | .varint n => .ok n | _ => .error .malformed) 0

/-- Bytes field: last occurrence, default empty. -/
def getBytes (t : Nat) (fs : PFields) : PDec Bytes :=
  (occ t fs).foldlM (fun _ v => match v with | .bytes b => .ok b | _ => .error .malformed) []

/-- String field: as bytes, every occurrence must be UTF-8. -/
def getString (t : Nat) (fs : PFields) : PDec String :=
  (occ t fs).foldlM (fun _ v => match v with
    | .bytes b => (match fromUtf8 .custom b with | .ok s => .ok s | .error _ => .error .malformed)
    | _ => .error .malformed) ""

/-- Message field: absent, or all occurrences merged. -/
def getMsg (t : Nat) (fs : PFields) : PDec (Option PFields) :=
  (occ t fs).foldlM (fun acc v => match v with
    | .bytes b => (parse b).map (fun m => some (acc.getD [] ++ m))
    | _ => .error .malformed) none

/-- Repeated message field. -/
def getMsgs (t : Nat) (fs : PFields) : PDec (List PFields) :=
  (occ t fs).mapM (fun v => match v with | .bytes b => parse b | _ => .error .malformed)

/-- Repeated bytes field. -/
def getReps (t : Nat) (fs : PFields) : PDec (List Bytes) :=
  (occ t fs).mapM (fun v => match v with | .bytes b => .ok b | _ => .error .malformed)

/-- Oneof of message members: the member set last, with consecutive occurrences of the same member merged. -/
def getOneof (ts : List Nat) (fs : PFields) : PDec (Option (Nat × PFields)) :=
  (fs.filter (fun f => decide (f.1 ∈ ts))).foldlM (fun acc f => match f.2 with
    | .bytes b => (parse b).map (fun m =>
        match acc with
        | some (t, m0) => if t = f.1 then some (t, m0 ++ m) else some (f.1, m)
        | none => some (f.1, m))
    | _ => .error .malformed) none

/-- `field!`: protocol/src/codec/macro.rs:1-9. -/
def need {α : Type} : Option α → PDec α
  | some x => .ok x
  | none => .error .missing

/-- Error of the `from_bytes` constructors. -/
def valid {α : Type} : Option α → PDec α
  | some x => .ok x
  | none => .error .badValue

/-- A required message field. -/
def needMsg (t : Nat) (fs : PFields) : PDec PFields := getMsg t fs >>= need

/-! ### Primitives: protocol/src/codec/primitive.rs -/

/-- `Balance`: primitive.rs:108-123. -/
def balancePb (n : Nat) : PFields := fBytes 1 (bigBE n)
/-- `Balance`: primitive.rs:115-123. -/
def balanceOf (fs : PFields) : PDec Nat := (getBytes 1 fs).map natOfBE

/-- `Hash`: primitive.rs:127-133. -/
def Hash.pb (h : Hash) : PFields := fBytes 1 h.bytes
/-- `Hash`: primitive.rs:135-143. -/
def Hash.ofPb (fs : PFields) : PDec Hash := do let b ← getBytes 1 fs; valid (Hash.fromBytes b)

/-- `MerkleRoot` and `AssetID` (a hash one level deeper): primitive.rs:147-153, 167-173. -/
def rootPb (h : Hash) : PFields := fMsg 1 h.pb
/-- `MerkleRoot` and `AssetID`: primitive.rs:155-163, 175-183. -/
def rootOf (fs : PFields) : PDec Hash := needMsg 1 fs >>= Hash.ofPb

/-- `UserAddress`: primitive.rs:187-196. -/
def UserAddress.pb (a : UserAddress) : PFields := fMsg 1 (fBytes 1 a.toBytes)
/-- `UserAddress`: primitive.rs:198-207. -/
def UserAddress.ofPb (fs : PFields) : PDec UserAddress := do
  let m ← needMsg 1 fs; let b ← getBytes 1 m; valid (UserAddress.fromBytes b)

/-- The enumeration of the protobuf `ContractType`: primitive.rs:55-61, chosen at 216-221. -/
def ContractType.pbEnum : ContractType → UInt64
  | .asset => 0
  | .library => 1
  | .app => 2
  | .native => 3

/-- `ContractAddress`: primitive.rs:211-228. -/
def ContractAddress.pb (a : ContractAddress) : PFields := fMsg 1 (fBytes 1 a.toBytes) ++ fU64 2 a.ty.pbEnum
/-- `ContractAddress`: primitive.rs:230-241 (the type is taken from the address bytes). -/
def ContractAddress.ofPb (fs : PFields) : PDec ContractAddress := do
  let m ← needMsg 1 fs; let _ ← getU64 2 fs; let b ← getBytes 1 m; valid (ContractAddress.fromBytes b)

/-- `Asset`: primitive.rs:245-261. -/
def Asset.pb (a : Asset) : PFields :=
  fMsg 1 (rootPb a.id) ++ fBytes 2 (utf8 a.name) ++ fBytes 3 (utf8 a.symbol) ++ fMsg 4 (balancePb a.supply) ++
  fMsg 5 a.manageContract.pb ++ fMsg 6 (rootPb a.storageRoot)
/-- `Asset`: primitive.rs:263-283. -/
def Asset.ofPb (fs : PFields) : PDec Asset := do
  let id ← needMsg 1 fs >>= rootOf
  let name ← getString 2 fs
  let symbol ← getString 3 fs
  let supply ← needMsg 4 fs >>= balanceOf
  let manageContract ← needMsg 5 fs >>= ContractAddress.ofPb
  let storageRoot ← needMsg 6 fs >>= rootOf
  pure { id, name, symbol, supply, manageContract, storageRoot }

/-- `Fee`: primitive.rs:287-299. -/
def Fee.pb (f : Fee) : PFields := fMsg 1 (rootPb f.assetId) ++ fU64 2 f.cycle
/-- `Fee`: primitive.rs:301-315. -/
def Fee.ofPb (fs : PFields) : PDec Fee := do
  let assetId ← needMsg 1 fs >>= rootOf
  let cycle ← getU64 2 fs
  pure { assetId, cycle }

/-! ### Transactions: protocol/src/codec/transaction.rs -/

/-- `CarryingAsset`: transaction.rs:123-130, 157-160, 202-205. -/
def CarryingAsset.pb (c : CarryingAsset) : PFields := fMsg 1 (rootPb c.assetId) ++ fMsg 2 (balancePb c.amount)
/-- `CarryingAsset`: transaction.rs:132-144. -/
def CarryingAsset.ofPb (fs : PFields) : PDec CarryingAsset := do
  let assetId ← needMsg 1 fs >>= rootOf
  let amount ← needMsg 2 fs >>= balanceOf
  pure { assetId, amount }

/-- `contract_type as i32` on the protocol enum `{Asset, App, Library, Native}`: transaction.rs:184, receipt.rs:144;
the enum is protocol/src/types/primitive.rs:105-114. -/
def ContractType.asI32 : ContractType → UInt64
  | .asset => 0
  | .app => 1
  | .library => 2
  | .native => 3

/-- The match on the received number: transaction.rs:253-258, receipt.rs:214-220. -/
def ContractType.ofI32 (n : UInt64) : PDec ContractType :=
  if n = 0 then .ok .asset
  else if n = 1 then .ok .library
  else if n = 2 then .ok .app
  else .error .contractType

/-- `TransactionAction`: transaction.rs:148-217, members with tags 5-8 (71-83). -/
def Action.pb : Action → PFields
  | .transfer receiver c => fMsg 5 (fMsg 1 receiver.pb ++ fMsg 2 c.pb)
  | .approve spender asset max => fMsg 6 (fMsg 1 spender.pb ++ fMsg 2 (rootPb asset) ++ fMsg 3 (balancePb max))
  | .deploy code ty => fMsg 7 (fBytes 1 code ++ fU64 2 ty.asI32)
  | .call contract method args c =>
    fMsg 8 (fMsg 1 contract.pb ++ fBytes 2 (utf8 method) ++ fReps 3 args ++ (match c with | some c => fMsg 4 c.pb | none => []))

/-- An optional message converted by `f`: transaction.rs:277-283. -/
def optMsg {α : Type} (f : PFields → PDec α) : Option PFields → PDec (Option α)
  | some m => (f m).map some
  | none => .ok none

/-- `TransactionAction`: transaction.rs:219-290. -/
def Action.ofPb (x : Nat × PFields) : PDec Action :=
  if x.1 = 5 then do
    let receiver ← needMsg 1 x.2 >>= UserAddress.ofPb
    let c ← needMsg 2 x.2 >>= CarryingAsset.ofPb
    pure (.transfer receiver c)
  else if x.1 = 6 then do
    let spender ← needMsg 1 x.2 >>= ContractAddress.ofPb
    let asset ← needMsg 2 x.2 >>= rootOf
    let max ← needMsg 3 x.2 >>= balanceOf
    pure (.approve spender asset max)
  else if x.1 = 7 then do
    let code ← getBytes 1 x.2
    let ty ← getU64 2 x.2 >>= ContractType.ofI32
    pure (.deploy code ty)
  else do
    let contract ← needMsg 1 x.2 >>= ContractAddress.ofPb
    let method ← getString 2 x.2
    let args ← getReps 3 x.2
    let c ← getMsg 4 x.2 >>= optMsg CarryingAsset.ofPb
    pure (.call contract method args c)

/-- `RawTransaction`: transaction.rs:294-309. -/
def RawTx.pb (t : RawTx) : PFields :=
  fMsg 1 t.chainId.pb ++ fMsg 2 t.nonce.pb ++ fU64 3 t.timeout ++ fMsg 4 t.fee.pb ++ t.action.pb
/-- `RawTransaction`: transaction.rs:311-330. -/
def RawTx.ofPb (fs : PFields) : PDec RawTx := do
  let chainId ← needMsg 1 fs >>= Hash.ofPb
  let nonce ← needMsg 2 fs >>= Hash.ofPb
  let timeout ← getU64 3 fs
  let fee ← needMsg 4 fs >>= Fee.ofPb
  let action ← getOneof [5, 6, 7, 8] fs >>= need >>= Action.ofPb
  pure { chainId, nonce, timeout, fee, action }

/-- `SignedTransaction`: transaction.rs:334-346. -/
def SignedTx.pb (t : SignedTx) : PFields :=
  fMsg 1 t.raw.pb ++ fMsg 2 t.txHash.pb ++ fBytes 3 t.pubkey ++ fBytes 4 t.signature
/-- `SignedTransaction`: transaction.rs:348-364. -/
def SignedTx.ofPb (fs : PFields) : PDec SignedTx := do
  let raw ← needMsg 1 fs >>= RawTx.ofPb
  let txHash ← needMsg 2 fs >>= Hash.ofPb
  let pubkey ← getBytes 3 fs
  let signature ← getBytes 4 fs
  pure { raw, txHash, pubkey, signature }

/-! ### Receipts: protocol/src/codec/receipt.rs -/

/-- `Bloom::from_slice`, which aborts on a wrong length (`fixed-hash` crate): receipt.rs:235, epoch.rs:239. -/
def Bloom.fromSlice (b : Bytes) : PDec Bloom := if h : b.length = 256 then .ok ⟨b, h⟩ else .error .panic

/-- `ReceiptResult`: receipt.rs:107-169, members with tags 5-9 (39-51). -/
def ReceiptResult.pb : ReceiptResult → PFields
  | .transfer receiver asset before after =>
    fMsg 5 (fMsg 1 receiver.pb ++ fMsg 2 (rootPb asset) ++ fMsg 3 (balancePb before) ++ fMsg 4 (balancePb after))
  | .approve spender asset max => fMsg 6 (fMsg 1 spender.pb ++ fMsg 2 (rootPb asset) ++ fMsg 3 (balancePb max))
  | .deploy contract ty => fMsg 7 (fMsg 1 contract.pb ++ fU64 2 ty.asI32)
  | .call contract ret bloom => fMsg 8 (fMsg 1 contract.pb ++ fBytes 2 ret ++ fBytes 3 bloom.bytes)
  | .fail system user => fMsg 9 (fBytes 1 (utf8 system) ++ fBytes 2 (utf8 user))

/-- `ReceiptResult`: receipt.rs:171-250. -/
def ReceiptResult.ofPb (x : Nat × PFields) : PDec ReceiptResult :=
  if x.1 = 5 then do
    let receiver ← needMsg 1 x.2 >>= UserAddress.ofPb
    let asset ← needMsg 2 x.2 >>= rootOf
    let before ← needMsg 3 x.2 >>= balanceOf
    let after ← needMsg 4 x.2 >>= balanceOf
    pure (.transfer receiver asset before after)
  else if x.1 = 6 then do
    let spender ← needMsg 1 x.2 >>= ContractAddress.ofPb
    let asset ← needMsg 2 x.2 >>= rootOf
    let max ← needMsg 3 x.2 >>= balanceOf
    pure (.approve spender asset max)
  else if x.1 = 7 then do
    let contract ← needMsg 1 x.2 >>= ContractAddress.ofPb
    let ty ← getU64 2 x.2 >>= ContractType.ofI32
    pure (.deploy contract ty)
  else if x.1 = 8 then do
    let contract ← needMsg 1 x.2 >>= ContractAddress.ofPb
    let ret ← getBytes 2 x.2
    let bloom ← getBytes 3 x.2 >>= Bloom.fromSlice
    pure (.call contract ret bloom)
  else do
    let system ← getString 1 x.2
    let user ← getString 2 x.2
    pure (.fail system user)

/-- `Receipt`: receipt.rs:254-269. -/
def Receipt.pb (r : Receipt) : PFields :=
  fMsg 1 r.stateRoot.pb ++ fU64 2 r.epochId ++ fMsg 3 r.txHash.pb ++ fMsg 4 r.cyclesUsed.pb ++ r.result.pb
/-- `Receipt`: receipt.rs:271-290. -/
def Receipt.ofPb (fs : PFields) : PDec Receipt := do
  let stateRoot ← needMsg 1 fs >>= Hash.ofPb
  let epochId ← getU64 2 fs
  let txHash ← needMsg 3 fs >>= Hash.ofPb
  let cyclesUsed ← needMsg 4 fs >>= Fee.ofPb
  let result ← getOneof [5, 6, 7, 8, 9] fs >>= need >>= ReceiptResult.ofPb
  pure { stateRoot, epochId, txHash, cyclesUsed, result }

/-! ### Epochs: protocol/src/codec/epoch.rs -/

/-- `Proof`: epoch.rs:257-269. -/
def Proof.pb (p : Proof) : PFields :=
  fU64 1 p.epochId ++ fU64 2 p.round ++ fMsg 3 p.epochHash.pb ++ fBytes 4 p.signature ++ fBytes 5 p.bitmap
/-- `Proof`: epoch.rs:271-287. -/
def Proof.ofPb (fs : PFields) : PDec Proof := do
  let epochId ← getU64 1 fs
  let round ← getU64 2 fs
  let epochHash ← needMsg 3 fs >>= Hash.ofPb
  let signature ← getBytes 4 fs
  let bitmap ← getBytes 5 fs
  pure { epochId, round, epochHash, signature, bitmap }

/-- `Validator`: epoch.rs:291-301. -/
def Validator.pb (v : Validator) : PFields :=
  fMsg 1 v.address.pb ++ fU64 2 (UInt64.ofNat v.proposeWeight.toNat) ++ fU64 3 (UInt64.ofNat v.voteWeight.toNat)
/-- `Validator`: epoch.rs:303-317 (`as u8` drops the high bits). -/
def Validator.ofPb (fs : PFields) : PDec Validator := do
  let address ← needMsg 1 fs >>= UserAddress.ofPb
  let p ← getU64 2 fs
  let v ← getU64 3 fs
  pure { address, proposeWeight := UInt8.ofNat p.toNat, voteWeight := UInt8.ofNat v.toNat }

/-- `EpochHeader`: epoch.rs:164-206. -/
def EpochHeader.pb (h : EpochHeader) : PFields :=
  fMsg 1 h.chainId.pb ++ fU64 2 h.epochId ++ fMsg 3 h.preHash.pb ++ fU64 4 h.timestamp ++ fBytes 5 h.logsBloom.bytes ++
  fMsg 6 h.orderRoot.pb ++ fMsgs 7 (h.confirmRoot.map Hash.pb) ++ fMsg 8 h.stateRoot.pb ++
  fMsgs 9 (h.receiptRoot.map Hash.pb) ++ fU64 10 h.cyclesUsed ++ fMsg 11 h.proposer.pb ++ fMsg 12 h.proof.pb ++
  fU64 13 h.validatorVersion ++ fMsgs 14 (h.validators.map Validator.pb)
/-- `EpochHeader`: epoch.rs:208-253. -/
def EpochHeader.ofPb (fs : PFields) : PDec EpochHeader := do
  let chainId ← needMsg 1 fs >>= Hash.ofPb
  let epochId ← getU64 2 fs
  let preHash ← needMsg 3 fs >>= Hash.ofPb
  let timestamp ← getU64 4 fs
  let orderRoot ← needMsg 6 fs >>= Hash.ofPb
  let confirmRoot ← getMsgs 7 fs >>= fun l => l.mapM Hash.ofPb
  let stateRoot ← needMsg 8 fs >>= Hash.ofPb
  let receiptRoot ← getMsgs 9 fs >>= fun l => l.mapM Hash.ofPb
  let cyclesUsed ← getU64 10 fs
  let proposer ← needMsg 11 fs >>= UserAddress.ofPb
  let proof ← needMsg 12 fs >>= Proof.ofPb
  let validatorVersion ← getU64 13 fs
  let validators ← getMsgs 14 fs >>= fun l => l.mapM Validator.ofPb
  let logsBloom ← getBytes 5 fs >>= Bloom.fromSlice
  pure { chainId, epochId, preHash, timestamp, logsBloom, orderRoot, confirmRoot, stateRoot, receiptRoot, cyclesUsed,
         proposer, proof, validatorVersion, validators }

/-- `Epoch`: epoch.rs:126-140. -/
def Epoch.pb (e : Epoch) : PFields := fMsg 1 e.header.pb ++ fMsgs 2 (e.orderedTxHashes.map Hash.pb)
/-- `Epoch`: epoch.rs:142-160. -/
def Epoch.ofPb (fs : PFields) : PDec Epoch := do
  let header ← needMsg 1 fs >>= EpochHeader.ofPb
  let orderedTxHashes ← getMsgs 2 fs >>= fun l => l.mapM Hash.ofPb
  pure { header, orderedTxHashes }

/-- `Pill`: epoch.rs:321-335. -/
def Pill.pb (p : Pill) : PFields := fMsg 1 p.epoch.pb ++ fMsgs 2 (p.proposeHashes.map Hash.pb)
/-- `Pill`: epoch.rs:337-355. -/
def Pill.ofPb (fs : PFields) : PDec Pill := do
  let epoch ← needMsg 1 fs >>= Epoch.ofPb
  let proposeHashes ← getMsgs 2 fs >>= fun l => l.mapM Hash.ofPb
  pure { epoch, proposeHashes }

/-- `EpochId`: epoch.rs:359-363. -/
def EpochId.pb (e : EpochId) : PFields := fU64 1 e.id
/-- `EpochId`: epoch.rs:365-372. -/
def EpochId.ofPb (fs : PFields) : PDec EpochId := (getU64 1 fs).map EpochId.mk

/-- `ProtocolCodec`/`ProtocolCodecSync`: protocol/src/codec/mod.rs:22-51 and macro.rs:11-35. -/
class Protobuf (T : Type) where
  /-- message of a value -/
  toFields : T → PFields
  /-- value of a message -/
  ofFields : PFields → PDec T

/-- `encode`. -/
def pbEncode {T : Type} [Protobuf T] (v : T) : Bytes := encFields (Protobuf.toFields v)

/-- `decode`. -/
def pbDecode {T : Type} [Protobuf T] (bs : Bytes) : PDec T := parse bs >>= Protobuf.ofFields

instance : Protobuf Nat := ⟨balancePb, balanceOf⟩
instance : Protobuf Hash := ⟨Hash.pb, Hash.ofPb⟩
instance : Protobuf UserAddress := ⟨UserAddress.pb, UserAddress.ofPb⟩
instance : Protobuf ContractAddress := ⟨ContractAddress.pb, ContractAddress.ofPb⟩
instance : Protobuf Asset := ⟨Asset.pb, Asset.ofPb⟩
instance : Protobuf Fee := ⟨Fee.pb, Fee.ofPb⟩
instance : Protobuf RawTx := ⟨RawTx.pb, RawTx.ofPb⟩
instance : Protobuf SignedTx := ⟨SignedTx.pb, SignedTx.ofPb⟩
instance : Protobuf Receipt := ⟨Receipt.pb, Receipt.ofPb⟩
instance : Protobuf Proof := ⟨Proof.pb, Proof.ofPb⟩
instance : Protobuf Validator := ⟨Validator.pb, Validator.ofPb⟩
instance : Protobuf EpochHeader := ⟨EpochHeader.pb, EpochHeader.ofPb⟩
instance : Protobuf Epoch := ⟨Epoch.pb, Epoch.ofPb⟩
instance : Protobuf Pill := ⟨Pill.pb, Pill.ofPb⟩
instance : Protobuf EpochId := ⟨EpochId.pb, EpochId.ofPb⟩

end Huobi
