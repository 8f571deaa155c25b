/-
Model of the value types of `protocol/src/types`.  `BigUint` (`Balance`, primitive.rs:26) is `Nat`.
-/
namespace Huobi

/-- `bytes::Bytes` / `Vec<u8>`. -/
abbrev Bytes := List UInt8


/-- `Hash([u8; 32])`: protocol/src/types/primitive.rs:20-30 (also `MerkleRoot`, `AssetID`). -/
structure Hash where
  bytes : Bytes
  size : bytes.length = 32
deriving DecidableEq

instance : Inhabited Hash := ⟨⟨List.replicate 32 0, List.length_replicate⟩⟩

/-- `AssetID = Hash`: protocol/src/types/primitive.rs:30. -/
abbrev AssetID := Hash
/-- `MerkleRoot = Hash`: protocol/src/types/primitive.rs:28. -/
abbrev MerkleRoot := Hash

/-- `ethbloom::Bloom` (2048 bits), re-exported at protocol/src/types/mod.rs:14. -/
structure Bloom where
  bytes : Bytes
  size : bytes.length = 256
deriving DecidableEq

/-- `Bloom::default()` is all zero. -/
def Bloom.zero : Bloom := ⟨List.replicate 256 0, List.length_replicate⟩

instance : Inhabited Bloom := ⟨Bloom.zero⟩

/-- `ContractType`: protocol/src/types/primitive.rs:105-114. -/
inductive ContractType where
  | asset | app | library | native
deriving DecidableEq, Repr, Inhabited

/-- Magic number of a contract address: protocol/src/types/primitive.rs:94-101. -/
def ContractType.magic : ContractType → UInt8
  | .asset => 0x20
  | .app => 0x21
  | .library => 0x22
  | .native => 0x23

/-- Magic number of a user address: protocol/src/types/primitive.rs:93. -/
def accountMagic : UInt8 := 0x10

/-- `UserAddress { inner: [u8; 21] }`: protocol/src/types/primitive.rs:163-169.  The only constructors
(`from_bytes`, lines 203-217) force the first byte to be `0x10`, so only the 20 other bytes are kept. -/
structure UserAddress where
  body : Bytes
  size : body.length = 20
deriving DecidableEq

instance : Inhabited UserAddress := ⟨⟨List.replicate 20 0, by simp⟩⟩

/-- `ContractAddress { inner, contract_type }`: protocol/src/types/primitive.rs:172-176.  The only constructor
(`from_bytes`, lines 249-272) ties `contract_type` to the first byte, so type and 20 bytes determine it. -/
structure ContractAddress where
  ty : ContractType
  body : Bytes
  size : body.length = 20
deriving DecidableEq

instance : Inhabited ContractAddress := ⟨⟨.asset, List.replicate 20 0, by simp⟩⟩

/-- `Address`: protocol/src/types/primitive.rs:117-120. -/
inductive Address where
  | user (a : UserAddress)
  | contract (a : ContractAddress)
deriving DecidableEq

instance : Inhabited Address := ⟨.user default⟩

/-- `Hash::from_bytes`: protocol/src/types/primitive.rs:53-59 (`none` = `LengthMismatch`). -/
def Hash.fromBytes (b : Bytes) : Option Hash :=
  if h : b.length = 32 then some ⟨b, h⟩ else none

/-- `UserAddress::as_bytes`: protocol/src/types/primitive.rs:243-245. -/
def UserAddress.toBytes (a : UserAddress) : Bytes := accountMagic :: a.body

/-- `UserAddress::from_bytes`: protocol/src/types/primitive.rs:203-217. -/
def UserAddress.fromBytes (b : Bytes) : Option UserAddress :=
  match b with
  | [] => none
  | magic :: rest =>
    if magic ≠ accountMagic then none
    else if h : rest.length = 20 then some ⟨rest, h⟩ else none

/-- `ContractAddress::as_bytes`: protocol/src/types/primitive.rs:330-332. -/
def ContractAddress.toBytes (a : ContractAddress) : Bytes := a.ty.magic :: a.body

/-- The magic-number match of `ContractAddress::from_bytes`: protocol/src/types/primitive.rs:254-265. -/
def ContractType.ofMagic (m : UInt8) : Option ContractType :=
  if m = 0x20 then some .asset
  else if m = 0x21 then some .app
  else if m = 0x22 then some .library
  else if m = 0x23 then some .native
  else none

/-- `ContractAddress::from_bytes`: protocol/src/types/primitive.rs:249-272. -/
def ContractAddress.fromBytes (b : Bytes) : Option ContractAddress :=
  match b with
  | [] => none
  | magic :: rest =>
    match ContractType.ofMagic magic with
    | none => none
    | some ty => if h : rest.length = 20 then some ⟨ty, rest, h⟩ else none

/-- `Address::as_bytes`: protocol/src/types/primitive.rs:145-150. -/
def Address.toBytes : Address → Bytes
  | .user a => a.toBytes
  | .contract a => a.toBytes

/-- `Address::from_bytes`: protocol/src/types/primitive.rs:123-135. -/
def Address.fromBytes (b : Bytes) : Option Address :=
  match b with
  | [] => none
  | magic :: _ =>
    if magic = accountMagic then (UserAddress.fromBytes b).map .user
    else (ContractAddress.fromBytes b).map .contract

/-- The first 20 bytes of a hash. -/
def Hash.take20 (h : Hash) : { b : Bytes // b.length = 20 } :=
  ⟨h.bytes.take 20, by simp [List.length_take, h.size]⟩

/-- `UserAddress::from_pubkey_bytes`: protocol/src/types/primitive.rs:219-229.  The code goes through hex text
(40 hex digits = 20 bytes, prefixed by the magic); the text always decodes, so it never fails. -/
def UserAddress.fromPubkey (digest : Bytes → Hash) (pubkey : Bytes) : UserAddress :=
  ⟨(digest pubkey).take20.1, (digest pubkey).take20.2⟩

/-- Big-endian bytes of a `u64` (`u64::to_be_bytes`). -/
def u64BE (n : UInt64) : Bytes :=
  [(n >>> 56).toUInt8, (n >>> 48).toUInt8, (n >>> 40).toUInt8, (n >>> 32).toUInt8,
   (n >>> 24).toUInt8, (n >>> 16).toUInt8, (n >>> 8).toUInt8, n.toUInt8]

/-- `ContractAddress::from_code`: protocol/src/types/primitive.rs:274-316. -/
def ContractAddress.fromCode (digest : Bytes → Hash) (code : Bytes) (nonce : UInt64) (ty : ContractType) :
    ContractAddress :=
  let h := (digest (code ++ u64BE nonce)).take20
  ⟨ty, h.1, h.2⟩

/-- `Asset`: protocol/src/types/primitive.rs:340-347. -/
structure Asset where
  id : AssetID
  name : String
  symbol : String
  supply : Nat
  manageContract : ContractAddress
  storageRoot : MerkleRoot
deriving DecidableEq

/-- `Fee`: protocol/src/types/primitive.rs:350-353. -/
structure Fee where
  assetId : AssetID
  cycle : UInt64
deriving DecidableEq, Inhabited

/-- `ApprovedInfo`: protocol/src/types/primitive.rs:374-377. -/
structure ApprovedInfo where
  max : Nat
  used : Nat
deriving DecidableEq

/-- Lexicographic order on bytes, the derived `Ord` of byte arrays. -/
def bytesLt : Bytes → Bytes → Bool
  | [], [] => false
  | [], _ :: _ => true
  | _ :: _, [] => false
  | a :: as, b :: bs => if a < b then true else if a = b then bytesLt as bs else false

/-- Keys of a `BTreeMap`, with the derived `Ord`. -/
class KeyOrd (K : Type) where
  lt : K → K → Bool

instance : KeyOrd Hash := ⟨fun a b => bytesLt a.bytes b.bytes⟩
instance : KeyOrd ContractAddress := ⟨fun a b => bytesLt a.toBytes b.toBytes⟩

/-- A `BTreeMap` as the list of its entries in key order. -/
abbrev BMap (K V : Type) := List (K × V)

/-- `BTreeMap::get`. -/
def BMap.get {K V : Type} [DecidableEq K] (k : K) : BMap K V → Option V
  | [] => none
  | (k', v) :: rest => if k = k' then some v else BMap.get k rest

/-- `BTreeMap::insert`: replaces the value of an existing key, else inserts at the ordered position. -/
def BMap.insert {K V : Type} [DecidableEq K] [KeyOrd K] (k : K) (v : V) : BMap K V → BMap K V
  | [] => [(k, v)]
  | (k', v') :: rest =>
    if k = k' then (k, v) :: rest
    else if KeyOrd.lt k k' then (k, v) :: (k', v') :: rest
    else (k', v') :: BMap.insert k v rest

/-- `AssetInfo`: protocol/src/types/primitive.rs:368-371. -/
structure AssetInfo where
  balance : Nat
  approved : BMap ContractAddress ApprovedInfo
deriving DecidableEq

/-- `UserAccount`: protocol/src/types/primitive.rs:362-365. -/
structure UserAccount where
  nonce : UInt64
  assets : BMap AssetID AssetInfo
deriving DecidableEq

/-- `ContractAccount`: protocol/src/types/primitive.rs:380-384. -/
structure ContractAccount where
  nonce : UInt64
  assets : BMap AssetID Nat
  storageRoot : MerkleRoot
deriving DecidableEq

/-- `Account`: protocol/src/types/primitive.rs:356-359. -/
inductive Account where
  | user (a : UserAccount)
  | contract (a : ContractAccount)
deriving DecidableEq

/-- `CarryingAsset`: protocol/src/types/transaction.rs:40-43. -/
structure CarryingAsset where
  assetId : AssetID
  amount : Nat
deriving DecidableEq

/-- `TransactionAction`: protocol/src/types/transaction.rs:17-38. -/
inductive Action where
  | transfer (receiver : UserAddress) (carrying : CarryingAsset)
  | approve (spender : ContractAddress) (assetId : AssetID) (max : Nat)
  | deploy (code : Bytes) (ty : ContractType)
  | call (contract : ContractAddress) (method : String) (args : List Bytes) (carrying : Option CarryingAsset)
deriving DecidableEq

/-- `RawTransaction`: protocol/src/types/transaction.rs:8-14. -/
structure RawTx where
  chainId : Hash
  nonce : Hash
  timeout : UInt64
  fee : Fee
  action : Action
deriving DecidableEq

/-- `SignedTransaction`: protocol/src/types/transaction.rs:46-51. -/
structure SignedTx where
  raw : RawTx
  txHash : Hash
  pubkey : Bytes
  signature : Bytes
deriving DecidableEq

/-- `ReceiptResult`: protocol/src/types/receipt.rs:17-42. -/
inductive ReceiptResult where
  | transfer (receiver : UserAddress) (assetId : AssetID) (before after : Nat)
  | approve (spender : ContractAddress) (assetId : AssetID) (max : Nat)
  | deploy (contract : ContractAddress) (ty : ContractType)
  | call (contract : ContractAddress) (returnValue : Bytes) (logsBloom : Bloom)
  | fail (system user : String)
deriving DecidableEq

/-- A failed transaction is one whose receipt is `ReceiptResult::Fail`. -/
def ReceiptResult.isFail : ReceiptResult → Bool
  | .fail _ _ => true
  | _ => false

/-- `Receipt`: protocol/src/types/receipt.rs:8-14. -/
structure Receipt where
  stateRoot : MerkleRoot
  epochId : UInt64
  txHash : Hash
  cyclesUsed : Fee
  result : ReceiptResult
deriving DecidableEq

/-- `Proof`: protocol/src/types/epoch.rs:30-36. -/
structure Proof where
  epochId : UInt64
  round : UInt64
  epochHash : Hash
  signature : Bytes
  bitmap : Bytes
deriving DecidableEq, Inhabited

/-- `Validator`: protocol/src/types/epoch.rs:39-43. -/
structure Validator where
  address : UserAddress
  proposeWeight : UInt8
  voteWeight : UInt8
deriving DecidableEq

/-- `EpochHeader`: protocol/src/types/epoch.rs:12-27. -/
structure EpochHeader where
  chainId : Hash
  epochId : UInt64
  preHash : Hash
  timestamp : UInt64
  logsBloom : Bloom
  orderRoot : MerkleRoot
  confirmRoot : List MerkleRoot
  stateRoot : MerkleRoot
  receiptRoot : List MerkleRoot
  cyclesUsed : UInt64
  proposer : UserAddress
  proof : Proof
  validatorVersion : UInt64
  validators : List Validator
deriving DecidableEq

/-- `Epoch`: protocol/src/types/epoch.rs:6-9. -/
structure Epoch where
  header : EpochHeader
  orderedTxHashes : List Hash
deriving DecidableEq

/-- `Pill`: protocol/src/types/epoch.rs:46-49. -/
structure Pill where
  epoch : Epoch
  proposeHashes : List Hash
deriving DecidableEq

/-- `GenesisStateAsset`: protocol/src/types/genesis.rs:18-21 (strings are lists of characters). -/
structure GenesisStateAsset where
  assetId : String
  balance : String
deriving DecidableEq

/-- `GenesisStateAlloc`: protocol/src/types/genesis.rs:12-15. -/
structure GenesisStateAlloc where
  address : String
  assets : List GenesisStateAsset
deriving DecidableEq

/-- `GenesisSystemToken`: protocol/src/types/genesis.rs:24-29. -/
structure GenesisSystemToken where
  code : String
  name : String
  symbol : String
  supply : UInt64
deriving DecidableEq

/-- `Genesis`: protocol/src/types/genesis.rs:4-9. -/
structure Genesis where
  timestamp : UInt64
  prevhash : String
  systemToken : GenesisSystemToken
  stateAlloc : List GenesisStateAlloc
deriving DecidableEq

end Huobi
