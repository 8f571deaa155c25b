import Verif.Model.Rlp
import Verif.Model.Hex
import Verif.Model.FixedCodec
/-
Model of the conversions of the GraphQL API: `core/api/src/lib.rs`, `core/api/src/schema/mod.rs`,
`core/api/src/schema/transaction.rs`.  Strings are lists of characters.
-/
namespace Huobi.Api

/-- `str::to_uppercase` on one character.  The characters whose upper case is made of hex digits are `a`..`f` and the
ligature `ﬀ` (U+FB00), whose upper case is `FF`; simplification: any other non-ASCII character is kept, which changes
nothing here because neither it nor its upper case is made of hex digits. -/
def upperChar (c : Char) : List Char :=
  if 97 ≤ c.toNat ∧ c.toNat ≤ 122 then [Char.ofNat (c.toNat - 32)]
  else if c.toNat = 0xFB00 then ['F', 'F']
  else [c]

/-- `as_hex` of the scalar types: core/api/src/schema/mod.rs:39-67. -/
def asHex (s : List Char) : List Char := (clean0x s).flatMap upperChar

/-- Value of a string of hex digits. -/
def digitsVal : List Char → Option Nat
  | cs => cs.foldlM (fun acc c => (hexVal c).map (fun d => 16 * acc + d)) 0

/-- The sign of `from_str_radix` for an unsigned type. -/
def stripPlus : List Char → List Char
  | '+' :: rest => rest
  | s => s

/-- `u64::from_str_radix(s, 16)`: an optional `+`, at least one digit, no overflow. -/
def fromStrRadix16 (s : List Char) : Option UInt64 :=
  if stripPlus s = [] then none
  else match digitsVal (stripPlus s) with
    | some n => if n < 2 ^ 64 then some (UInt64.ofNat n) else none
    | none => none

/-- What the API understands by a `Uint64` argument: `hex_to_u64(&x.as_hex())`, core/api/src/lib.rs:245-248. -/
def readU64 (s : List Char) : Option UInt64 := fromStrRadix16 (asHex s)

/-- `Uint64::from(u64)`: core/api/src/schema/mod.rs:81-85. -/
def showU64 (n : UInt64) : List Char := hexEncode (u64BE n)

/-- `Balance::from(BigUint)`: core/api/src/schema/mod.rs:87-91. -/
def showBalance (n : Nat) : List Char := hexEncode (bigBE n)

/-- What the API understands by a `Balance` argument: core/api/src/lib.rs:331-333. -/
def readBalance (s : List Char) : Option Nat := (hexDecode (asHex s)).map natOfBE

/-- What the API understands by a `Bytes` argument: core/api/src/lib.rs:241-243. -/
def readBytes (s : List Char) : Option Bytes := hexDecode (asHex s)

/-- `Bytes::from(bytes)`: core/api/src/schema/mod.rs:102-106. -/
def showBytes (b : Bytes) : List Char := hexEncode b

/-- What the API understands by a `Hash` argument: core/api/src/lib.rs:89, 288-294, 313. -/
def readHash (s : List Char) : Option Hash := Hash.fromHex (asHex s)

/-- What the API understands by an `Address` argument of `getBalance`: core/api/src/lib.rs:88. -/
def readAddress (s : List Char) : Option Address := Address.fromHex (asHex s)

/-- What the API understands by a receiver: core/api/src/lib.rs:326. -/
def readUser (s : List Char) : Option UserAddress := UserAddress.fromHex (asHex s)

/-- `InputRawTransaction`: core/api/src/schema/transaction.rs:30-50. -/
structure InputRaw where
  chainId : List Char
  feeCycle : List Char
  feeAssetId : List Char
  nonce : List Char
  timeout : List Char

/-- `InputTransactionEncryption`: core/api/src/schema/transaction.rs:54-61. -/
structure InputSig where
  txHash : List Char
  pubkey : List Char
  signature : List Char

/-- `InputTransferAction`: core/api/src/schema/transaction.rs:65-72. -/
structure InputTransfer where
  carryingAmount : List Char
  carryingAssetId : List Char
  receiver : List Char

/-- `InputDeployAction` with its three contract types: core/api/src/schema/transaction.rs:3-19, 76-81. -/
structure InputDeploy where
  code : List Char
  ty : ContractType

/-- `cover_to_raw_tx`: core/api/src/lib.rs:283-302. -/
def coverRaw (action : Action) (i : InputRaw) : Option RawTx := do
  let chainId ← readHash i.chainId
  let nonce ← readHash i.nonce
  let timeout ← readU64 i.timeout
  let assetId ← readHash i.feeAssetId
  let cycle ← readU64 i.feeCycle
  pure { chainId, nonce, timeout, fee := { assetId, cycle }, action }

/-- `cover_to_signed_tx`: core/api/src/lib.rs:304-320. -/
def coverSigned (action : Action) (i : InputRaw) (e : InputSig) : Option SignedTx := do
  let raw ← coverRaw action i
  let txHash ← readHash e.txHash
  let pubkey ← readBytes e.pubkey
  let signature ← readBytes e.signature
  pure { raw, txHash, pubkey, signature }

/-- `cover_transfer_action`: core/api/src/lib.rs:322-338. -/
def coverTransfer (i : InputTransfer) : Option Action := do
  let receiver ← readUser i.receiver
  let assetId ← readHash i.carryingAssetId
  let amount ← readBalance i.carryingAmount
  pure (.transfer receiver { assetId, amount })

/-- `cover_deploy_action`: core/api/src/lib.rs:340-355. -/
def coverDeploy (i : InputDeploy) : Option Action := do
  let code ← readBytes i.code
  pure (.deploy code i.ty)

end Huobi.Api
