import Verif.Model.Rlp
/-
Model of `protocol/src/fixed_codec`: the RLP coding used for hashing (transaction hash, epoch hash) and for the
consensus messages.  `v.item`/`v.items` is what `rlp_append` gives to the stream, `T.dec` is `Decodable::decode` on the
bytes of an item, and the instances of `FixedCodec` are the trait `ProtocolFixedCodec` (mod.rs:18-22).
-/
namespace Huobi

/-- `ProtocolFixedCodec`: protocol/src/fixed_codec/mod.rs:18-22 (encoding of the types modelled here cannot fail). -/
class FixedCodec (T : Type) where
  /-- `encode_fixed`. -/
  encode : T → Bytes
  /-- `decode_fixed`. -/
  decode : Bytes → Dec T

export FixedCodec (encode decode)

/-- The check at the head of most decoders, `!r.is_list() && r.size() != n` (for instance
protocol/src/fixed_codec/primitive.rs:62-64): it only rejects strings whose payload does not have length `n`. -/
def Rlp.check (n : Nat) (bs : Bytes) : Dec Unit :=
  if !Rlp.isList bs && Rlp.size bs ≠ n then .error .incorrectListLen else .ok ()

/-- `r.at(i)?.data()?`. -/
def Rlp.dataAt (bs : Bytes) (i : Nat) : Dec Bytes := do let x ← Rlp.at bs i; Rlp.data x

/-- `Option` to result, for `map_err(|_| RlpInvalidLength)`. -/
def orErr {α : Type} (e : DErr) : Option α → Dec α
  | some x => .ok x
  | none => .error e

/-! ### Primitives: protocol/src/fixed_codec/primitive.rs -/

/-- Encodable for `Hash`: primitive.rs:34-38. -/
def Hash.item (h : Hash) : Item := .list [.data h.bytes]

/-- Decodable for `Hash`: primitive.rs:40-46. -/
def Hash.dec (bs : Bytes) : Dec Hash := do let b ← Rlp.dataAt bs 0; orErr .invalidLength (Hash.fromBytes b)

/-- Encodable for `UserAddress`: primitive.rs:127-131. -/
def UserAddress.item (a : UserAddress) : Item := .list [.data a.toBytes]

/-- Decodable for `UserAddress`: primitive.rs:133-140. -/
def UserAddress.dec (bs : Bytes) : Dec UserAddress := do
  let b ← Rlp.dataAt bs 0; orErr .invalidLength (UserAddress.fromBytes b)

/-- Encodable for `ContractAddress`: primitive.rs:142-146. -/
def ContractAddress.item (a : ContractAddress) : Item := .list [.data a.toBytes]

/-- Decodable for `ContractAddress`: primitive.rs:148-155. -/
def ContractAddress.dec (bs : Bytes) : Dec ContractAddress := do
  let b ← Rlp.dataAt bs 0; orErr .invalidLength (ContractAddress.fromBytes b)

/-- Encodable for `Address`: primitive.rs:105-116. -/
def Address.item (a : Address) : Item := .list [.data a.toBytes]

/-- Decodable for `Address`: primitive.rs:118-125. -/
def Address.dec (bs : Bytes) : Dec Address := do
  let b ← Rlp.dataAt bs 0; orErr .invalidLength (Address.fromBytes b)

/-- Encodable for `Asset`: primitive.rs:48-58. -/
def Asset.item (a : Asset) : Item :=
  .list [a.id.item, a.manageContract.item, .data (utf8 a.name), a.storageRoot.item, .data (bigBE a.supply),
    .data (utf8 a.symbol)]

/-- Decodable for `Asset`: primitive.rs:60-84. -/
def Asset.dec (bs : Bytes) : Dec Asset := do
  Rlp.check 6 bs
  let id ← (Rlp.at bs 0) >>= Hash.dec
  let manageContract ← (Rlp.at bs 1) >>= ContractAddress.dec
  let name ← (Rlp.dataAt bs 2) >>= fromUtf8 .invalidLength
  let storageRoot ← (Rlp.at bs 3) >>= Hash.dec
  let supply ← Rlp.dataAt bs 4
  let symbol ← (Rlp.dataAt bs 5) >>= fromUtf8 .invalidLength
  pure { id, manageContract, name, storageRoot, supply := natOfBE supply, symbol }

/-- Encodable for `Fee`: primitive.rs:86-90. -/
def Fee.item (f : Fee) : Item := .list [f.assetId.item, .u64 f.cycle]

/-- Decodable for `Fee`: primitive.rs:92-103. -/
def Fee.dec (bs : Bytes) : Dec Fee := do
  Rlp.check 2 bs
  let assetId ← (Rlp.at bs 0) >>= Hash.dec
  let cycle ← (Rlp.at bs 1) >>= Rlp.u64
  pure { assetId, cycle }

/-- Encodable for `FixedUserAssetApproved`: primitive.rs:306-313, built at 261-269. -/
def approvedItem (x : ContractAddress × ApprovedInfo) : Item :=
  .list [x.1.item, .data (bigBE x.2.max), .data (bigBE x.2.used)]

/-- Decodable for `FixedUserAssetApproved`: primitive.rs:315-327. -/
def approvedDec (bs : Bytes) : Dec (ContractAddress × ApprovedInfo) := do
  let c ← (Rlp.at bs 0) >>= ContractAddress.dec
  let max ← Rlp.dataAt bs 1
  let used ← Rlp.dataAt bs 2
  pure (c, { max := natOfBE max, used := natOfBE used })

/-- `BTreeMap::insert` of all entries in turn: primitive.rs:281-287, 216-221, 230-232. -/
def BMap.ofList {K V : Type} [DecidableEq K] [KeyOrd K] (xs : List (K × V)) : BMap K V :=
  xs.foldl (fun m x => m.insert x.1 x.2) []

/-- Encodable for `FixedUserAsset`: primitive.rs:255-275. -/
def userAssetItem (x : AssetID × AssetInfo) : Item :=
  .list [.list (x.2.approved.map approvedItem), .data (bigBE x.2.balance), x.1.item]

/-- Decodable for `FixedUserAsset`: primitive.rs:277-297. -/
def userAssetDec (bs : Bytes) : Dec (AssetID × AssetInfo) := do
  let approved ← (Rlp.at bs 0) >>= Rlp.list approvedDec
  let balance ← Rlp.dataAt bs 1
  let id ← (Rlp.at bs 2) >>= Hash.dec
  pure (id, { balance := natOfBE balance, approved := BMap.ofList approved })

/-- Encodable for `FixedContractAsset`: primitive.rs:335-341. -/
def contractAssetItem (x : AssetID × Nat) : Item := .list [.data (bigBE x.2), x.1.item]

/-- Decodable for `FixedContractAsset`: primitive.rs:343-350. -/
def contractAssetDec (bs : Bytes) : Dec (AssetID × Nat) := do
  let balance ← Rlp.dataAt bs 0
  let id ← (Rlp.at bs 1) >>= Hash.dec
  pure (id, natOfBE balance)

/-- Encodable for `Account`: primitive.rs:160-203. -/
def Account.item : Account → Item
  | .user a => .list [.u8 0, .list (a.assets.map userAssetItem), .u64 a.nonce]
  | .contract a => .list [.u8 1, .list (a.assets.map contractAssetItem), .u64 a.nonce, a.storageRoot.item]

/-- Decodable for `Account`: primitive.rs:205-246. -/
def Account.dec (bs : Bytes) : Dec Account := do
  let flag ← (Rlp.at bs 0) >>= Rlp.u8
  if flag = 0 then
    let assets ← (Rlp.at bs 1) >>= Rlp.list userAssetDec
    let nonce ← (Rlp.at bs 2) >>= Rlp.u64
    pure (.user { nonce, assets := BMap.ofList assets })
  else if flag = 1 then
    let assets ← (Rlp.at bs 1) >>= Rlp.list contractAssetDec
    let nonce ← (Rlp.at bs 2) >>= Rlp.u64
    let storageRoot ← (Rlp.at bs 3) >>= Hash.dec
    pure (.contract { nonce, assets := BMap.ofList assets, storageRoot })
  else .error .listLenZeroPrefix

/-! ### Transactions: protocol/src/fixed_codec/transaction.rs -/

/-- The contract type flag: transaction.rs:57-62, receipt.rs:71-76. -/
def ContractType.flag : ContractType → UInt8
  | .asset => 0
  | .app => 1
  | .library => 2
  | .native => 3

/-- The inverse match: transaction.rs:145-152, receipt.rs:121-128. -/
def ContractType.ofFlag (n : UInt8) : Dec ContractType :=
  if n = 0 then .ok .asset
  else if n = 1 then .ok .app
  else if n = 2 then .ok .library
  else if n = 3 then .ok .native
  else .error .custom

/-- The basic fields: transaction.rs:28-33, 48-53, 83-88. -/
def RawTx.basic (t : RawTx) : List Item :=
  [.data t.chainId.bytes, .data t.fee.assetId.bytes, .u64 t.fee.cycle, .data t.nonce.bytes, .u64 t.timeout]

/-- Encodable for `RawTransaction`: transaction.rs:18-108.  An `Approve` transaction appends nothing (`_ => {}`, line
105). -/
def RawTx.items (t : RawTx) : List Item :=
  match t.action with
  | .transfer receiver carrying =>
    [.list (.u8 0 :: t.basic ++
      [.data (bigBE carrying.amount), .data carrying.assetId.bytes, .data receiver.toBytes])]
  | .deploy code ty => [.list (.u8 1 :: t.basic ++ [.data code, .u8 ty.flag])]
  | .call contract method args (some c) =>
    [.list (.u8 2 :: t.basic ++
      [.list (args.map (fun a => .data (utf8 (String.ofList (hexEncode a))))), .data (bigBE c.amount),
        .data c.assetId.bytes, .data contract.toBytes, .data (utf8 method)])]
  | .call contract method args none =>
    [.list (.u8 3 :: t.basic ++
      [.list (args.map (fun a => .data (utf8 (String.ofList (hexEncode a))))), .data contract.toBytes,
        .data (utf8 method)])]
  | .approve _ _ _ => []

/-- `Decodable for String` of the rlp crate, used by `decode_list::<String>`: transaction.rs:172. -/
def stringDec (bs : Bytes) : Dec String := do let b ← Rlp.value bs; fromUtf8 .expectedData b

/-- `Hash::from_bytes(r.at(i)?.data()?)`, as in transaction.rs:260-261. -/
def hashAt (bs : Bytes) (i : Nat) : Dec Hash := do let b ← Rlp.dataAt bs i; orErr .invalidLength (Hash.fromBytes b)

/-- `help_decode_raw_tx`: transaction.rs:259-276. -/
def rawBasic (bs : Bytes) : Dec (Hash × Fee × Hash × UInt64) := do
  let chainId ← hashAt bs 1
  let assetId ← hashAt bs 2
  let cycle ← (Rlp.at bs 3) >>= Rlp.u64
  let nonce ← hashAt bs 4
  let timeout ← (Rlp.at bs 5) >>= Rlp.u64
  pure (chainId, ⟨assetId, cycle⟩, nonce, timeout)

/-- `hex_to_bytes`: transaction.rs:285-291. -/
def hexArg (s : String) : Dec Bytes := orErr .custom (hexDecode (clean0x s.toList))

/-- Decodable for `RawTransaction`: transaction.rs:110-227. -/
def RawTx.dec (bs : Bytes) : Dec RawTx := do
  let flag ← (Rlp.at bs 0) >>= Rlp.u8
  if flag = 0 then
    let (chainId, fee, nonce, timeout) ← rawBasic bs
    let receiver ← (Rlp.dataAt bs 8) >>= fun b => orErr .invalidLength (UserAddress.fromBytes b)
    let assetId ← hashAt bs 7
    let amount ← Rlp.dataAt bs 6
    pure { chainId, nonce, timeout, fee, action := .transfer receiver ⟨assetId, natOfBE amount⟩ }
  else if flag = 1 then
    let (chainId, fee, nonce, timeout) ← rawBasic bs
    let code ← Rlp.dataAt bs 6
    let ty ← (Rlp.at bs 7) >>= Rlp.u8 >>= ContractType.ofFlag
    pure { chainId, nonce, timeout, fee, action := .deploy code ty }
  else if flag = 2 ∨ flag = 3 then
    let (chainId, fee, nonce, timeout) ← rawBasic bs
    let strs ← (Rlp.at bs 6) >>= Rlp.list stringDec
    let args ← strs.mapM hexArg
    if flag = 2 then
      let assetId ← hashAt bs 8
      let amount ← Rlp.dataAt bs 7
      let contract ← (Rlp.dataAt bs 9) >>= fun b => orErr .invalidLength (ContractAddress.fromBytes b)
      let method ← (Rlp.dataAt bs 10) >>= fromUtf8 .invalidLength
      pure { chainId, nonce, timeout, fee, action := .call contract method args (some ⟨assetId, natOfBE amount⟩) }
    else
      let contract ← (Rlp.dataAt bs 7) >>= fun b => orErr .invalidLength (ContractAddress.fromBytes b)
      let method ← (Rlp.dataAt bs 8) >>= fromUtf8 .invalidLength
      pure { chainId, nonce, timeout, fee, action := .call contract method args none }
  else .error .listLenZeroPrefix

/-- Encodable for `SignedTransaction`: transaction.rs:229-237. -/
def SignedTx.item (t : SignedTx) : Item :=
  .list ([.data t.pubkey] ++ t.raw.items ++ [.data t.signature, t.txHash.item])

/-- Decodable for `SignedTransaction`: transaction.rs:239-257. -/
def SignedTx.dec (bs : Bytes) : Dec SignedTx := do
  Rlp.check 4 bs
  let pubkey ← Rlp.dataAt bs 0
  let raw ← (Rlp.at bs 1) >>= RawTx.dec
  let signature ← Rlp.dataAt bs 2
  let txHash ← (Rlp.at bs 3) >>= Hash.dec
  pure { raw, txHash, pubkey, signature }

/-! ### Receipts: protocol/src/fixed_codec/receipt.rs -/

/-- `Bloom` is encoded as one string of 256 bytes (`impl_rlp` crate). -/
def Bloom.item (b : Bloom) : Item := .data b.bytes

/-- Decodable for `Bloom`: exactly 256 bytes. -/
def Bloom.dec (bs : Bytes) : Dec Bloom := do
  let b ← Rlp.value bs
  if h : b.length = 256 then pure ⟨b, h⟩ else if b.length < 256 then .error .tooShort else .error .tooBig

/-- Encodable for `ReceiptResult`: receipt.rs:49-99.  An `Approve` result appends nothing (line 96). -/
def ReceiptResult.items : ReceiptResult → List Item
  | .transfer receiver assetId before after =>
    [.list [.u8 0, .data (bigBE after), assetId.item, .data (bigBE before), receiver.item]]
  | .deploy contract ty => [.list [.u8 1, contract.item, .u8 ty.flag]]
  | .call contract ret bloom => [.list [.u8 2, contract.item, bloom.item, .data ret]]
  | .fail system user => [.list [.u8 3, .data (utf8 system), .data (utf8 user)]]
  | .approve _ _ _ => []

/-- Decodable for `ReceiptResult`: receipt.rs:101-158. -/
def ReceiptResult.dec (bs : Bytes) : Dec ReceiptResult := do
  let flag ← (Rlp.at bs 0) >>= Rlp.u8
  if flag = 0 then
    let after ← Rlp.dataAt bs 1
    let assetId ← (Rlp.at bs 2) >>= Hash.dec
    let before ← Rlp.dataAt bs 3
    let receiver ← (Rlp.at bs 4) >>= UserAddress.dec
    pure (.transfer receiver assetId (natOfBE before) (natOfBE after))
  else if flag = 1 then
    let contract ← (Rlp.at bs 1) >>= ContractAddress.dec
    let ty ← (Rlp.at bs 2) >>= Rlp.u8 >>= ContractType.ofFlag
    pure (.deploy contract ty)
  else if flag = 2 then
    let contract ← (Rlp.at bs 1) >>= ContractAddress.dec
    let bloom ← (Rlp.at bs 2) >>= Bloom.dec
    let ret ← Rlp.dataAt bs 3
    pure (.call contract ret bloom)
  else if flag = 3 then
    let system ← (Rlp.dataAt bs 1) >>= fromUtf8 .invalidLength
    let user ← (Rlp.dataAt bs 2) >>= fromUtf8 .invalidLength
    pure (.fail system user)
  else .error .listLenZeroPrefix

/-- Encodable for `Receipt`: receipt.rs:11-20. -/
def Receipt.item (r : Receipt) : Item :=
  .list ([r.cyclesUsed.item, .u64 r.epochId] ++ r.result.items ++ [r.stateRoot.item, r.txHash.item])

/-- Decodable for `Receipt`: receipt.rs:22-42. -/
def Receipt.dec (bs : Bytes) : Dec Receipt := do
  Rlp.check 5 bs
  let cyclesUsed ← (Rlp.at bs 0) >>= Fee.dec
  let epochId ← (Rlp.at bs 1) >>= Rlp.u64
  let result ← (Rlp.at bs 2) >>= ReceiptResult.dec
  let stateRoot ← (Rlp.at bs 3) >>= Hash.dec
  let txHash ← (Rlp.at bs 4) >>= Hash.dec
  pure { stateRoot, epochId, txHash, cyclesUsed, result }

/-! ### Epochs: protocol/src/fixed_codec/epoch.rs -/

/-- Encodable for `Proof`: epoch.rs:12-21. -/
def Proof.item (p : Proof) : Item :=
  .list [.data p.bitmap, p.epochHash.item, .u64 p.epochId, .u64 p.round, .data p.signature]

/-- Decodable for `Proof`: epoch.rs:23-43. -/
def Proof.dec (bs : Bytes) : Dec Proof := do
  Rlp.check 5 bs
  let bitmap ← Rlp.dataAt bs 0
  let epochHash ← (Rlp.at bs 1) >>= Hash.dec
  let epochId ← (Rlp.at bs 2) >>= Rlp.u64
  let round ← (Rlp.at bs 3) >>= Rlp.u64
  let signature ← Rlp.dataAt bs 4
  pure { epochId, round, epochHash, signature, bitmap }

/-- Encodable for `Validator`: epoch.rs:45-52. -/
def Validator.item (v : Validator) : Item := .list [v.address.item, .u8 v.proposeWeight, .u8 v.voteWeight]

/-- Decodable for `Validator`: epoch.rs:54-70. -/
def Validator.dec (bs : Bytes) : Dec Validator := do
  Rlp.check 3 bs
  let address ← (Rlp.at bs 0) >>= UserAddress.dec
  let proposeWeight ← (Rlp.at bs 1) >>= Rlp.u8
  let voteWeight ← (Rlp.at bs 2) >>= Rlp.u8
  pure { address, proposeWeight, voteWeight }

/-- Encodable for `EpochHeader`: epoch.rs:72-90. -/
def EpochHeader.item (h : EpochHeader) : Item :=
  .list [h.chainId.item, .list (h.confirmRoot.map Hash.item), .u64 h.cyclesUsed, .u64 h.epochId, h.logsBloom.item,
    h.orderRoot.item, h.preHash.item, h.proof.item, h.proposer.item, .list (h.receiptRoot.map Hash.item),
    h.stateRoot.item, .u64 h.timestamp, .u64 h.validatorVersion, .list (h.validators.map Validator.item)]

/-- Decodable for `EpochHeader`: epoch.rs:92-130. -/
def EpochHeader.dec (bs : Bytes) : Dec EpochHeader := do
  Rlp.check 14 bs
  let chainId ← (Rlp.at bs 0) >>= Hash.dec
  let confirmRoot ← (Rlp.at bs 1) >>= Rlp.list Hash.dec
  let cyclesUsed ← (Rlp.at bs 2) >>= Rlp.u64
  let epochId ← (Rlp.at bs 3) >>= Rlp.u64
  let logsBloom ← (Rlp.at bs 4) >>= Bloom.dec
  let orderRoot ← (Rlp.at bs 5) >>= Hash.dec
  let preHash ← (Rlp.at bs 6) >>= Hash.dec
  let proof ← (Rlp.at bs 7) >>= Proof.dec
  let proposer ← (Rlp.at bs 8) >>= UserAddress.dec
  let receiptRoot ← (Rlp.at bs 9) >>= Rlp.list Hash.dec
  let stateRoot ← (Rlp.at bs 10) >>= Hash.dec
  let timestamp ← (Rlp.at bs 11) >>= Rlp.u64
  let validatorVersion ← (Rlp.at bs 12) >>= Rlp.u64
  let validators ← (Rlp.at bs 13) >>= Rlp.list Validator.dec
  pure { chainId, epochId, preHash, timestamp, logsBloom, orderRoot, confirmRoot, stateRoot, receiptRoot, cyclesUsed,
         proposer, proof, validatorVersion, validators }

/-- Encodable for `Epoch`: epoch.rs:132-138. -/
def Epoch.item (e : Epoch) : Item := .list [e.header.item, .list (e.orderedTxHashes.map Hash.item)]

/-- Decodable for `Epoch`: epoch.rs:140-154. -/
def Epoch.dec (bs : Bytes) : Dec Epoch := do
  Rlp.check 2 bs
  let header ← (Rlp.at bs 0) >>= EpochHeader.dec
  let orderedTxHashes ← (Rlp.at bs 1) >>= Rlp.list Hash.dec
  pure { header, orderedTxHashes }

/-- Encodable for `Pill`: epoch.rs:156-162. -/
def Pill.item (p : Pill) : Item := .list [p.epoch.item, .list (p.proposeHashes.map Hash.item)]

/-- Decodable for `Pill`: epoch.rs:164-178. -/
def Pill.dec (bs : Bytes) : Dec Pill := do
  Rlp.check 2 bs
  let epoch ← (Rlp.at bs 0) >>= Epoch.dec
  let proposeHashes ← (Rlp.at bs 1) >>= Rlp.list Hash.dec
  pure { epoch, proposeHashes }

/-- `EpochId { id }`: protocol/src/types/epoch.rs:51-54. -/
structure EpochId where
  id : UInt64
deriving DecidableEq

/-- Encodable for `EpochId`: epoch.rs:180-184. -/
def EpochId.item (e : EpochId) : Item := .list [.u64 e.id]

/-- Decodable for `EpochId`: epoch.rs:186-192. -/
def EpochId.dec (bs : Bytes) : Dec EpochId := do let id ← (Rlp.at bs 0) >>= Rlp.u64; pure { id }

/-! ### Genesis: protocol/src/fixed_codec/genesis.rs -/

/-- Encodable for `GenesisSystemToken`: genesis.rs:14-22. -/
def GenesisSystemToken.item (t : GenesisSystemToken) : Item :=
  .list [.data (utf8 t.code), .data (utf8 t.name), .u64 t.supply, .data (utf8 t.symbol)]

/-- `values[i]`, which panics out of range: genesis.rs:37-44. -/
def nth (xs : List Bytes) (i : Nat) : Dec Bytes := orErr .panic xs[i]?

/-- Decodable for `GenesisSystemToken`: genesis.rs:24-52. -/
def GenesisSystemToken.dec (bs : Bytes) : Dec GenesisSystemToken := do
  Rlp.check 4 bs
  let values ← (Rlp.items bs).mapM Rlp.data
  let code ← nth values 0 >>= fromUtf8 .invalidLength
  let name ← nth values 1 >>= fromUtf8 .invalidLength
  let supply ← (Rlp.at bs 2) >>= Rlp.u64
  let symbol ← nth values 3 >>= fromUtf8 .invalidLength
  pure { code, name, symbol, supply }

/-- Encodable for `GenesisStateAsset`: genesis.rs:54-60. -/
def GenesisStateAsset.item (a : GenesisStateAsset) : Item := .list [.data (utf8 a.assetId), .data (utf8 a.balance)]

/-- Decodable for `GenesisStateAsset`: genesis.rs:62-75. -/
def GenesisStateAsset.dec (bs : Bytes) : Dec GenesisStateAsset := do
  Rlp.check 2 bs
  let assetId ← (Rlp.dataAt bs 0) >>= fromUtf8 .invalidLength
  let balance ← (Rlp.dataAt bs 1) >>= fromUtf8 .invalidLength
  pure { assetId, balance }

/-- Encodable for `GenesisStateAlloc`: genesis.rs:77-83. -/
def GenesisStateAlloc.item (a : GenesisStateAlloc) : Item :=
  .list [.data (utf8 a.address), .list (a.assets.map GenesisStateAsset.item)]

/-- Decodable for `GenesisStateAlloc`: genesis.rs:85-97. -/
def GenesisStateAlloc.dec (bs : Bytes) : Dec GenesisStateAlloc := do
  Rlp.check 2 bs
  let address ← (Rlp.dataAt bs 0) >>= fromUtf8 .invalidLength
  let assets ← (Rlp.at bs 1) >>= Rlp.list GenesisStateAsset.dec
  pure { address, assets }

/-- Encodable for `Genesis`: genesis.rs:99-107. -/
def Genesis.item (g : Genesis) : Item :=
  .list [.data (utf8 g.prevhash), .list (g.stateAlloc.map GenesisStateAlloc.item), g.systemToken.item, .u64 g.timestamp]

/-- Decodable for `Genesis`: genesis.rs:109-128. -/
def Genesis.dec (bs : Bytes) : Dec Genesis := do
  Rlp.check 4 bs
  let prevhash ← (Rlp.dataAt bs 0) >>= fromUtf8 .invalidLength
  let stateAlloc ← (Rlp.at bs 1) >>= Rlp.list GenesisStateAlloc.dec
  let systemToken ← (Rlp.at bs 2) >>= GenesisSystemToken.dec
  let timestamp ← (Rlp.at bs 3) >>= Rlp.u64
  pure { timestamp, prevhash, systemToken, stateAlloc }

/-! ### The trait instances (`impl_default_fixed_codec_for!`, protocol/src/fixed_codec/macro.rs) -/

instance : FixedCodec Hash := ⟨fun v => v.item.enc, Hash.dec⟩
instance : FixedCodec Asset := ⟨fun v => v.item.enc, Asset.dec⟩
instance : FixedCodec Fee := ⟨fun v => v.item.enc, Fee.dec⟩
instance : FixedCodec Address := ⟨fun v => v.item.enc, Address.dec⟩
instance : FixedCodec UserAddress := ⟨fun v => v.item.enc, UserAddress.dec⟩
instance : FixedCodec ContractAddress := ⟨fun v => v.item.enc, ContractAddress.dec⟩
instance : FixedCodec Account := ⟨fun v => v.item.enc, Account.dec⟩
instance : FixedCodec RawTx := ⟨fun v => Item.encs v.items, RawTx.dec⟩
instance : FixedCodec SignedTx := ⟨fun v => v.item.enc, SignedTx.dec⟩
instance : FixedCodec Receipt := ⟨fun v => v.item.enc, Receipt.dec⟩
instance : FixedCodec ReceiptResult := ⟨fun v => Item.encs v.items, ReceiptResult.dec⟩
instance : FixedCodec Proof := ⟨fun v => v.item.enc, Proof.dec⟩
instance : FixedCodec Validator := ⟨fun v => v.item.enc, Validator.dec⟩
instance : FixedCodec EpochHeader := ⟨fun v => v.item.enc, EpochHeader.dec⟩
instance : FixedCodec Epoch := ⟨fun v => v.item.enc, Epoch.dec⟩
instance : FixedCodec Pill := ⟨fun v => v.item.enc, Pill.dec⟩
instance : FixedCodec EpochId := ⟨fun v => v.item.enc, EpochId.dec⟩
instance : FixedCodec Genesis := ⟨fun v => v.item.enc, Genesis.dec⟩
instance : FixedCodec GenesisStateAlloc := ⟨fun v => v.item.enc, GenesisStateAlloc.dec⟩
instance : FixedCodec GenesisStateAsset := ⟨fun v => v.item.enc, GenesisStateAsset.dec⟩
instance : FixedCodec GenesisSystemToken := ⟨fun v => v.item.enc, GenesisSystemToken.dec⟩
/-- `Bytes` are coded as themselves: primitive.rs:24-32. -/
instance : FixedCodec Bytes := ⟨id, .ok⟩

end Huobi
