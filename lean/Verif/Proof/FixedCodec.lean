import Verif.Model.FixedCodec
import Verif.Proof.Rlp
import Verif.Proof.Hex
/- Round trips of the fixed codec. -/
namespace Huobi

theorem ok_bind {α β : Type} (a : α) (f : α → Dec β) : (Except.ok a >>= f) = f a := rfl
theorem err_bind {α β : Type} (e : DErr) (f : α → Dec β) : ((Except.error e : Dec α) >>= f) = .error e := rfl
theorem pure_ok {α : Type} (a : α) : (pure a : Dec α) = .ok a := rfl

namespace Rlp

theorem at_get (xs : List Item) (i : Nat) (h : i < xs.length) (hl : (Item.list xs).enc.length < 2 ^ 64) :
    Rlp.at (Item.list xs).enc i = .ok (xs[i]).enc := at_enc (List.getElem?_eq_getElem h) hl

theorem dataAt_get (xs : List Item) (i : Nat) (h : i < xs.length) (hl : (Item.list xs).enc.length < 2 ^ 64) :
    Rlp.dataAt (Item.list xs).enc i = .ok (xs[i]).payload := by
  unfold dataAt
  rw [at_get xs i h hl, ok_bind, data_enc _ (enc_lt_of_mem (List.getElem_mem h) hl)]

theorem check_list (n : Nat) (xs : List Item) (hl : (Item.list xs).enc.length < 2 ^ 64) :
    check n (Item.list xs).enc = .ok () := by
  unfold check; rw [isList_enc_list xs hl]; rfl

end Rlp

/-- What a byte string must satisfy to be an in-memory buffer. -/
abbrev Fits (t : Item) : Prop := t.enc.length < 2 ^ 64

theorem Fits.mem {xs : List Item} (hl : Fits (.list xs)) {x : Item} (h : x ∈ xs) : Fits x := Rlp.enc_lt_of_mem h hl

theorem hash_rt (h : Hash) (hl : Fits h.item) : Hash.dec h.item.enc = .ok h := by
  unfold Hash.dec Hash.item at *
  rw [Rlp.dataAt_get _ 0 (by simp) hl]
  simp only [ok_bind, List.getElem_cons_zero, Item.payload, Hash.fromBytes_bytes, orErr]

theorem userAddress_rt (h : UserAddress) (hl : Fits h.item) : UserAddress.dec h.item.enc = .ok h := by
  unfold UserAddress.dec UserAddress.item at *
  rw [Rlp.dataAt_get _ 0 (by simp) hl]
  simp only [ok_bind, List.getElem_cons_zero, Item.payload, UserAddress.fromBytes_toBytes, orErr]

theorem contractAddress_rt (h : ContractAddress) (hl : Fits h.item) : ContractAddress.dec h.item.enc = .ok h := by
  unfold ContractAddress.dec ContractAddress.item at *
  rw [Rlp.dataAt_get _ 0 (by simp) hl]
  simp only [ok_bind, List.getElem_cons_zero, Item.payload, ContractAddress.fromBytes_toBytes, orErr]

theorem address_rt (h : Address) (hl : Fits h.item) : Address.dec h.item.enc = .ok h := by
  unfold Address.dec Address.item at *
  rw [Rlp.dataAt_get _ 0 (by simp) hl]
  simp only [ok_bind, List.getElem_cons_zero, Item.payload, Address.fromBytes_toBytes, orErr]

theorem bloom_rt (b : Bloom) (hl : Fits b.item) : Bloom.dec b.item.enc = .ok b := by
  unfold Bloom.dec Bloom.item at *
  rw [Rlp.value_enc _ hl, ok_bind, dif_pos b.size]; rfl

theorem fee_rt (f : Fee) (hl : Fits f.item) : Fee.dec f.item.enc = .ok f := by
  unfold Fee.dec Fee.item at *
  rw [Rlp.check_list _ _ hl, Rlp.at_get _ 0 (by simp) hl, Rlp.at_get _ 1 (by simp) hl]
  simp only [ok_bind, List.getElem_cons_zero, List.getElem_cons_succ]
  rw [hash_rt _ (hl.mem (by simp))]
  simp only [ok_bind, Rlp.u64_enc, pure_ok]

theorem asset_rt (a : Asset) (hl : Fits a.item) : Asset.dec a.item.enc = .ok a := by
  unfold Asset.dec Asset.item at *
  rw [Rlp.check_list _ _ hl, Rlp.at_get _ 0 (by simp) hl, Rlp.at_get _ 1 (by simp) hl, Rlp.dataAt_get _ 2 (by simp) hl,
    Rlp.at_get _ 3 (by simp) hl, Rlp.dataAt_get _ 4 (by simp) hl, Rlp.dataAt_get _ 5 (by simp) hl]
  simp only [ok_bind, List.getElem_cons_zero, List.getElem_cons_succ, Item.payload]
  rw [hash_rt _ (hl.mem (by simp)), contractAddress_rt _ (hl.mem (by simp)), hash_rt _ (hl.mem (by simp))]
  simp only [ok_bind, fromUtf8_utf8, natOfBE_bigBE, pure_ok]

/-! ### Ordered maps -/

/-- The keys of a `BTreeMap` are strictly increasing. -/
def BMap.Ordered {K V : Type} [KeyOrd K] (m : BMap K V) : Prop := m.Pairwise (fun a b => KeyOrd.lt a.1 b.1 = true)

theorem bytesLt_irrefl (a : Bytes) : bytesLt a a = false := by
  induction a with
  | nil => rfl
  | cons x xs ih => simp [bytesLt, ih]

theorem bytesLt_asymm (a b : Bytes) (h : bytesLt a b = true) : bytesLt b a = false := by
  induction a generalizing b with
  | nil => cases b <;> simp_all [bytesLt]
  | cons x xs ih =>
    cases b with
    | nil => simp [bytesLt] at h
    | cons y ys =>
      simp only [bytesLt] at h ⊢
      by_cases h1 : x < y
      · rw [if_neg, if_neg]
        · intro hc; subst hc; simp [UInt8.lt_iff_toNat_lt] at h1
        · rw [UInt8.lt_iff_toNat_lt] at h1 ⊢; omega
      · rw [if_neg h1] at h
        by_cases h2 : x = y
        · subst h2; rw [if_pos rfl] at h; rw [if_neg h1, if_pos rfl]; exact ih _ h
        · rw [if_neg h2] at h; simp at h

/-- Orders in which a smaller key is different and not larger. -/
class KeyOrd.Strict (K : Type) [KeyOrd K] : Prop where
  irrefl : ∀ a : K, KeyOrd.lt a a = false
  asymm : ∀ a b : K, KeyOrd.lt a b = true → KeyOrd.lt b a = false

instance : KeyOrd.Strict Hash := ⟨fun _ => bytesLt_irrefl _, fun _ _ => bytesLt_asymm _ _⟩
instance : KeyOrd.Strict ContractAddress := ⟨fun _ => bytesLt_irrefl _, fun _ _ => bytesLt_asymm _ _⟩

theorem BMap.insert_last {K V : Type} [DecidableEq K] [KeyOrd K] [KeyOrd.Strict K] (m : BMap K V) (k : K) (v : V)
    (h : ∀ x ∈ m, KeyOrd.lt x.1 k = true) : m.insert k v = m ++ [(k, v)] := by
  induction m with
  | nil => rfl
  | cons x m ih =>
    obtain ⟨k', v'⟩ := x
    have hk := h (k', v') (by simp)
    simp only at hk
    simp only [BMap.insert, List.cons_append]
    rw [if_neg, if_neg, ih (fun x hx => h x (by simp [hx]))]
    · rw [KeyOrd.Strict.asymm _ _ hk]; simp
    · intro hc; subst hc; rw [KeyOrd.Strict.irrefl] at hk; simp at hk

theorem BMap.ofList_ordered {K V : Type} [DecidableEq K] [KeyOrd K] [KeyOrd.Strict K] (m : BMap K V) (h : m.Ordered) :
    BMap.ofList m = m := by
  have key : ∀ (xs : BMap K V) (acc : BMap K V), (acc ++ xs).Pairwise (fun a b => KeyOrd.lt a.1 b.1 = true) →
      xs.foldl (fun m x => m.insert x.1 x.2) acc = acc ++ xs := by
    intro xs
    induction xs with
    | nil => intro acc _; simp
    | cons x xs ih =>
      intro acc hp
      rw [List.foldl_cons, BMap.insert_last acc x.1 x.2]
      · rw [ih]
        · simp
        · simpa using hp
      · intro y hy
        exact (List.pairwise_append.1 hp).2.2 y hy x (by simp)
  exact key m [] (by rw [List.nil_append]; exact h)

/-- An account whose maps are `BTreeMap`s. -/
def Account.Ordered : Account → Prop
  | .user a => a.assets.Ordered ∧ ∀ x ∈ a.assets, x.2.approved.Ordered
  | .contract a => a.assets.Ordered

theorem approved_rt (x : ContractAddress × ApprovedInfo) (hl : Fits (approvedItem x)) :
    approvedDec (approvedItem x).enc = .ok x := by
  unfold approvedDec approvedItem at *
  rw [Rlp.at_get _ 0 (by simp) hl, Rlp.dataAt_get _ 1 (by simp) hl, Rlp.dataAt_get _ 2 (by simp) hl]
  simp only [ok_bind, List.getElem_cons_zero, List.getElem_cons_succ, Item.payload]
  rw [contractAddress_rt _ (hl.mem (by simp))]
  simp only [ok_bind, natOfBE_bigBE, pure_ok]

theorem userAsset_rt (x : AssetID × AssetInfo) (ho : x.2.approved.Ordered) (hl : Fits (userAssetItem x)) :
    userAssetDec (userAssetItem x).enc = .ok x := by
  unfold userAssetDec userAssetItem at *
  rw [Rlp.at_get _ 0 (by simp) hl, Rlp.dataAt_get _ 1 (by simp) hl, Rlp.at_get _ 2 (by simp) hl]
  simp only [ok_bind, List.getElem_cons_zero, List.getElem_cons_succ, Item.payload]
  rw [Rlp.list_enc (hl.mem (by simp)) (fun a _ h => approved_rt a h), hash_rt _ (hl.mem (by simp))]
  simp only [ok_bind, natOfBE_bigBE, pure_ok, BMap.ofList_ordered _ ho]

theorem contractAsset_rt (x : AssetID × Nat) (hl : Fits (contractAssetItem x)) :
    contractAssetDec (contractAssetItem x).enc = .ok x := by
  unfold contractAssetDec contractAssetItem at *
  rw [Rlp.dataAt_get _ 0 (by simp) hl, Rlp.at_get _ 1 (by simp) hl]
  simp only [ok_bind, List.getElem_cons_zero, List.getElem_cons_succ, Item.payload]
  rw [hash_rt _ (hl.mem (by simp))]
  simp only [ok_bind, natOfBE_bigBE, pure_ok]

theorem account_rt (a : Account) (ho : a.Ordered) (hl : Fits a.item) : Account.dec a.item.enc = .ok a := by
  unfold Account.dec
  cases a with
  | user a =>
    unfold Account.item at *
    rw [Rlp.at_get _ 0 (by simp) hl, Rlp.at_get _ 1 (by simp) hl, Rlp.at_get _ 2 (by simp) hl]
    simp only [ok_bind, List.getElem_cons_zero, List.getElem_cons_succ, Rlp.u8_enc, if_true]
    rw [Rlp.list_enc (hl.mem (by simp)) (fun x hx h => userAsset_rt x (ho.2 x hx) h)]
    simp only [ok_bind, Rlp.u64_enc, pure_ok, BMap.ofList_ordered _ ho.1]
  | contract a =>
    unfold Account.item at *
    rw [Rlp.at_get _ 0 (by simp) hl, Rlp.at_get _ 1 (by simp) hl, Rlp.at_get _ 2 (by simp) hl, Rlp.at_get _ 3 (by simp) hl]
    simp only [ok_bind, List.getElem_cons_zero, List.getElem_cons_succ, Rlp.u8_enc, if_true]
    rw [if_neg (by decide), Rlp.list_enc (hl.mem (by simp)) (fun x _ h => contractAsset_rt x h),
      hash_rt _ (hl.mem (by simp))]
    simp only [ok_bind, Rlp.u64_enc, pure_ok, BMap.ofList_ordered _ ho]

/-! ### Transactions -/

/-- The kinds of transaction the codec implements. -/
def Action.isApprove : Action → Bool
  | .approve _ _ _ => true
  | _ => false

theorem ofFlag_flag (t : ContractType) : ContractType.ofFlag t.flag = .ok t := by cases t <;> rfl

theorem string_rt (s : String) (hl : Fits (.data (utf8 s))) : stringDec (Item.data (utf8 s)).enc = .ok s := by
  unfold stringDec
  rw [Rlp.value_enc _ hl, ok_bind, fromUtf8_utf8]

theorem hexArgs_rt (args : List Bytes) : (args.map (fun a => String.ofList (hexEncode a))).mapM hexArg = .ok args := by
  induction args with
  | nil => rfl
  | cons a as ih =>
    have : hexArg (String.ofList (hexEncode a)) = .ok a := by
      simp only [hexArg, String.toList_ofList, clean0x_hexEncode, hexDecode_hexEncode, orErr]
    simp only [List.map_cons, List.mapM_cons, this, ok_bind, ih, pure_ok]

/-- The basic fields are found behind the flag, whatever follows them. -/
theorem rawBasic_rt (t : RawTx) (fl : Item) (rest : List Item) (hl : Fits (.list (fl :: t.basic ++ rest))) :
    rawBasic (Item.list (fl :: t.basic ++ rest)).enc = .ok (t.chainId, t.fee, t.nonce, t.timeout) := by
  unfold rawBasic hashAt
  unfold RawTx.basic at *
  simp only [List.cons_append, List.nil_append] at hl ⊢
  rw [Rlp.dataAt_get _ 1 (by simp) hl, Rlp.dataAt_get _ 2 (by simp) hl, Rlp.at_get _ 3 (by simp) hl,
    Rlp.dataAt_get _ 4 (by simp) hl, Rlp.at_get _ 5 (by simp) hl]
  simp only [ok_bind, List.getElem_cons_zero, List.getElem_cons_succ, Item.payload, Hash.fromBytes_bytes, orErr,
    Rlp.u64_enc, pure_ok]

theorem raw_rt (t : RawTx) (ha : t.action.isApprove = false) (hl : (Item.encs t.items).length < 2 ^ 64) :
    ∃ x, t.items = [x] ∧ RawTx.dec x.enc = .ok t := by
  obtain ⟨chainId, nonce, timeout, fee, action⟩ := t
  cases action with
  | approve _ _ _ => simp [Action.isApprove] at ha
  | transfer receiver carrying =>
    refine ⟨_, rfl, ?_⟩
    simp only [RawTx.items, Item.encs, List.append_nil] at hl
    have hb := rawBasic_rt _ _ _ hl
    unfold RawTx.dec
    unfold hashAt
    unfold RawTx.basic at *
    simp only [List.cons_append, List.nil_append] at hl hb ⊢
    rw [hb]
    rw [Rlp.at_get _ 0 (by simp) hl, Rlp.dataAt_get _ 8 (by simp) hl, Rlp.dataAt_get _ 7 (by simp) hl,
      Rlp.dataAt_get _ 6 (by simp) hl]
    simp only [ok_bind, List.getElem_cons_zero, List.getElem_cons_succ, Item.payload, Hash.fromBytes_bytes, orErr,
      Rlp.u8_enc, if_true, UserAddress.fromBytes_toBytes, natOfBE_bigBE, pure_ok]
  | deploy code ty =>
    refine ⟨_, rfl, ?_⟩
    simp only [RawTx.items, Item.encs, List.append_nil] at hl
    have hb := rawBasic_rt _ _ _ hl
    unfold RawTx.dec
    unfold RawTx.basic at *
    simp only [List.cons_append, List.nil_append] at hl hb ⊢
    rw [hb]
    rw [Rlp.at_get _ 0 (by simp) hl, Rlp.dataAt_get _ 6 (by simp) hl, Rlp.at_get _ 7 (by simp) hl]
    simp only [ok_bind, List.getElem_cons_zero, List.getElem_cons_succ, Item.payload,
      Rlp.u8_enc, if_true, ofFlag_flag, pure_ok]
    rw [if_neg (by decide)]
  | call contract method args carrying =>
    have hargs : ∀ (l : Fits (.list (args.map (fun a => Item.data (utf8 (String.ofList (hexEncode a))))))),
        Rlp.list stringDec (Item.list (args.map (fun a => Item.data (utf8 (String.ofList (hexEncode a)))))).enc
          = .ok (args.map (fun a => String.ofList (hexEncode a))) := by
      intro l
      have e : args.map (fun a => Item.data (utf8 (String.ofList (hexEncode a))))
          = (args.map (fun a => String.ofList (hexEncode a))).map (fun s => Item.data (utf8 s)) := by
        simp [List.map_map, Function.comp_def]
      rw [e] at l ⊢
      exact Rlp.list_enc l (fun a _ h => string_rt a h)
    cases carrying with
    | some c =>
      refine ⟨_, rfl, ?_⟩
      simp only [RawTx.items, Item.encs, List.append_nil] at hl
      have hb := rawBasic_rt _ _ _ hl
      unfold RawTx.dec
      unfold hashAt
      unfold RawTx.basic at *
      simp only [List.cons_append, List.nil_append] at hl hb ⊢
      rw [hb]
      rw [Rlp.at_get _ 0 (by simp) hl, Rlp.at_get _ 6 (by simp) hl, Rlp.dataAt_get _ 8 (by simp) hl,
        Rlp.dataAt_get _ 7 (by simp) hl, Rlp.dataAt_get _ 9 (by simp) hl, Rlp.dataAt_get _ 10 (by simp) hl]
      simp only [ok_bind, List.getElem_cons_zero, List.getElem_cons_succ, Item.payload, Hash.fromBytes_bytes, orErr,
        Rlp.u8_enc, if_true, ContractAddress.fromBytes_toBytes, natOfBE_bigBE, pure_ok, fromUtf8_utf8]
      rw [if_neg (by decide), if_neg (by decide), if_pos (by decide), hargs (Fits.mem hl (by simp)), ok_bind, hexArgs_rt, ok_bind]
    | none =>
      refine ⟨_, rfl, ?_⟩
      simp only [RawTx.items, Item.encs, List.append_nil] at hl
      have hb := rawBasic_rt _ _ _ hl
      unfold RawTx.dec
      unfold hashAt
      unfold RawTx.basic at *
      simp only [List.cons_append, List.nil_append] at hl hb ⊢
      rw [hb]
      rw [Rlp.at_get _ 0 (by simp) hl, Rlp.at_get _ 6 (by simp) hl,
        Rlp.dataAt_get _ 7 (by simp) hl, Rlp.dataAt_get _ 8 (by simp) hl]
      simp only [ok_bind, List.getElem_cons_zero, List.getElem_cons_succ, Item.payload, Hash.fromBytes_bytes, orErr,
        Rlp.u8_enc, if_true, ContractAddress.fromBytes_toBytes, natOfBE_bigBE, pure_ok, fromUtf8_utf8]
      rw [if_neg (by decide), if_neg (by decide), if_pos (by decide), hargs (Fits.mem hl (by simp)), ok_bind, hexArgs_rt, ok_bind,
        if_neg (by decide)]

theorem signed_rt (t : SignedTx) (ha : t.raw.action.isApprove = false) (hl : Fits t.item) : SignedTx.dec t.item.enc = .ok t := by
  obtain ⟨raw, txHash, pubkey, signature⟩ := t
  have hr : (Item.encs raw.items).length < 2 ^ 64 := by
    have := Rlp.encs_lt hl
    simp only [Rlp.encs_append, List.length_append] at this
    omega
  obtain ⟨x, hx, hd⟩ := raw_rt raw ha hr
  unfold SignedTx.dec SignedTx.item at *
  simp only [hx, List.cons_append, List.nil_append] at hl ⊢
  rw [Rlp.check_list _ _ hl, Rlp.dataAt_get _ 0 (by simp) hl, Rlp.at_get _ 1 (by simp) hl, Rlp.dataAt_get _ 2 (by simp) hl,
    Rlp.at_get _ 3 (by simp) hl]
  simp only [ok_bind, List.getElem_cons_zero, List.getElem_cons_succ, Item.payload]
  rw [hd, hash_rt _ (hl.mem (by simp))]
  simp only [ok_bind, pure_ok]

/-! ### Receipts -/

/-- The results the codec implements. -/
def ReceiptResult.isApprove : ReceiptResult → Bool
  | .approve _ _ _ => true
  | _ => false

theorem result_rt (r : ReceiptResult) (ha : r.isApprove = false) (hl : (Item.encs r.items).length < 2 ^ 64) :
    ∃ x, r.items = [x] ∧ ReceiptResult.dec x.enc = .ok r := by
  cases r with
  | approve _ _ _ => simp [ReceiptResult.isApprove] at ha
  | transfer receiver assetId before after =>
    refine ⟨_, rfl, ?_⟩
    simp only [ReceiptResult.items, Item.encs, List.append_nil] at hl
    unfold ReceiptResult.dec
    rw [Rlp.at_get _ 0 (by simp) hl, Rlp.dataAt_get _ 1 (by simp) hl, Rlp.at_get _ 2 (by simp) hl,
      Rlp.dataAt_get _ 3 (by simp) hl, Rlp.at_get _ 4 (by simp) hl]
    simp only [ok_bind, List.getElem_cons_zero, List.getElem_cons_succ, Item.payload, Rlp.u8_enc, if_true]
    rw [hash_rt _ (Fits.mem hl (by simp)), userAddress_rt _ (Fits.mem hl (by simp))]
    simp only [ok_bind, natOfBE_bigBE, pure_ok]
  | deploy contract ty =>
    refine ⟨_, rfl, ?_⟩
    simp only [ReceiptResult.items, Item.encs, List.append_nil] at hl
    unfold ReceiptResult.dec
    rw [Rlp.at_get _ 0 (by simp) hl, Rlp.at_get _ 1 (by simp) hl, Rlp.at_get _ 2 (by simp) hl]
    simp only [ok_bind, List.getElem_cons_zero, List.getElem_cons_succ, Rlp.u8_enc, if_true, ofFlag_flag]
    rw [if_neg (by decide), contractAddress_rt _ (Fits.mem hl (by simp))]
    simp only [ok_bind, pure_ok]
  | call contract ret bloom =>
    refine ⟨_, rfl, ?_⟩
    simp only [ReceiptResult.items, Item.encs, List.append_nil] at hl
    unfold ReceiptResult.dec
    rw [Rlp.at_get _ 0 (by simp) hl, Rlp.at_get _ 1 (by simp) hl, Rlp.at_get _ 2 (by simp) hl,
      Rlp.dataAt_get _ 3 (by simp) hl]
    simp only [ok_bind, List.getElem_cons_zero, List.getElem_cons_succ, Rlp.u8_enc, if_true, Item.payload]
    rw [if_neg (by decide), if_neg (by decide), contractAddress_rt _ (Fits.mem hl (by simp)), bloom_rt _ (Fits.mem hl (by simp))]
    simp only [ok_bind, pure_ok]
  | fail system user =>
    refine ⟨_, rfl, ?_⟩
    simp only [ReceiptResult.items, Item.encs, List.append_nil] at hl
    unfold ReceiptResult.dec
    rw [Rlp.at_get _ 0 (by simp) hl, Rlp.dataAt_get _ 1 (by simp) hl, Rlp.dataAt_get _ 2 (by simp) hl]
    simp only [ok_bind, List.getElem_cons_zero, List.getElem_cons_succ, Rlp.u8_enc, if_true, Item.payload, fromUtf8_utf8]
    rw [if_neg (by decide), if_neg (by decide), if_neg (by decide)]
    rfl

theorem receipt_rt (r : Receipt) (ha : r.result.isApprove = false) (hl : Fits r.item) : Receipt.dec r.item.enc = .ok r := by
  obtain ⟨stateRoot, epochId, txHash, cyclesUsed, result⟩ := r
  have hr : (Item.encs result.items).length < 2 ^ 64 := by
    have := Rlp.encs_lt hl
    simp only [Rlp.encs_append, List.length_append] at this
    omega
  obtain ⟨x, hx, hd⟩ := result_rt result ha hr
  unfold Receipt.dec Receipt.item at *
  simp only [hx, List.cons_append, List.nil_append] at hl ⊢
  rw [Rlp.check_list _ _ hl, Rlp.at_get _ 0 (by simp) hl, Rlp.at_get _ 1 (by simp) hl, Rlp.at_get _ 2 (by simp) hl,
    Rlp.at_get _ 3 (by simp) hl, Rlp.at_get _ 4 (by simp) hl]
  simp only [ok_bind, List.getElem_cons_zero, List.getElem_cons_succ]
  rw [hd, fee_rt _ (hl.mem (by simp)), hash_rt _ (hl.mem (by simp)), hash_rt _ (hl.mem (by simp))]
  simp only [ok_bind, pure_ok, Rlp.u64_enc]

/-! ### Epochs -/

theorem proof_rt (p : Proof) (hl : Fits p.item) : Proof.dec p.item.enc = .ok p := by
  unfold Proof.dec Proof.item at *
  rw [Rlp.check_list _ _ hl, Rlp.dataAt_get _ 0 (by simp) hl, Rlp.at_get _ 1 (by simp) hl, Rlp.at_get _ 2 (by simp) hl,
    Rlp.at_get _ 3 (by simp) hl, Rlp.dataAt_get _ 4 (by simp) hl]
  simp only [ok_bind, List.getElem_cons_zero, List.getElem_cons_succ, Item.payload]
  rw [hash_rt _ (hl.mem (by simp))]
  simp only [ok_bind, Rlp.u64_enc, pure_ok]

theorem validator_rt (v : Validator) (hl : Fits v.item) : Validator.dec v.item.enc = .ok v := by
  unfold Validator.dec Validator.item at *
  rw [Rlp.check_list _ _ hl, Rlp.at_get _ 0 (by simp) hl, Rlp.at_get _ 1 (by simp) hl, Rlp.at_get _ 2 (by simp) hl]
  simp only [ok_bind, List.getElem_cons_zero, List.getElem_cons_succ]
  rw [userAddress_rt _ (hl.mem (by simp))]
  simp only [ok_bind, Rlp.u8_enc, pure_ok]

theorem hashes_rt (hs : List Hash) (hl : Fits (.list (hs.map Hash.item))) :
    Rlp.list Hash.dec (Item.list (hs.map Hash.item)).enc = .ok hs := Rlp.list_enc hl (fun a _ h => hash_rt a h)

theorem header_rt (h : EpochHeader) (hl : Fits h.item) : EpochHeader.dec h.item.enc = .ok h := by
  unfold EpochHeader.dec EpochHeader.item at *
  rw [Rlp.check_list _ _ hl, Rlp.at_get _ 0 (by simp) hl, Rlp.at_get _ 1 (by simp) hl, Rlp.at_get _ 2 (by simp) hl,
    Rlp.at_get _ 3 (by simp) hl, Rlp.at_get _ 4 (by simp) hl, Rlp.at_get _ 5 (by simp) hl, Rlp.at_get _ 6 (by simp) hl,
    Rlp.at_get _ 7 (by simp) hl, Rlp.at_get _ 8 (by simp) hl, Rlp.at_get _ 9 (by simp) hl, Rlp.at_get _ 10 (by simp) hl,
    Rlp.at_get _ 11 (by simp) hl, Rlp.at_get _ 12 (by simp) hl, Rlp.at_get _ 13 (by simp) hl]
  simp only [ok_bind, List.getElem_cons_zero, List.getElem_cons_succ]
  rw [hash_rt _ (hl.mem (by simp)), hashes_rt _ (hl.mem (by simp)), bloom_rt _ (hl.mem (by simp)),
    hash_rt _ (hl.mem (by simp)), hash_rt _ (hl.mem (by simp)), proof_rt _ (hl.mem (by simp)),
    userAddress_rt _ (hl.mem (by simp)), hashes_rt _ (hl.mem (by simp)), hash_rt _ (hl.mem (by simp)),
    Rlp.list_enc (hl.mem (by simp)) (fun a _ h => validator_rt a h)]
  simp only [ok_bind, Rlp.u64_enc, pure_ok]

theorem epoch_rt (e : Epoch) (hl : Fits e.item) : Epoch.dec e.item.enc = .ok e := by
  unfold Epoch.dec Epoch.item at *
  rw [Rlp.check_list _ _ hl, Rlp.at_get _ 0 (by simp) hl, Rlp.at_get _ 1 (by simp) hl]
  simp only [ok_bind, List.getElem_cons_zero, List.getElem_cons_succ]
  rw [header_rt _ (hl.mem (by simp)), hashes_rt _ (hl.mem (by simp))]
  simp only [ok_bind, pure_ok]

theorem pill_rt (e : Pill) (hl : Fits e.item) : Pill.dec e.item.enc = .ok e := by
  unfold Pill.dec Pill.item at *
  rw [Rlp.check_list _ _ hl, Rlp.at_get _ 0 (by simp) hl, Rlp.at_get _ 1 (by simp) hl]
  simp only [ok_bind, List.getElem_cons_zero, List.getElem_cons_succ]
  rw [epoch_rt _ (hl.mem (by simp)), hashes_rt _ (hl.mem (by simp))]
  simp only [ok_bind, pure_ok]

theorem epochId_rt (e : EpochId) (hl : Fits e.item) : EpochId.dec e.item.enc = .ok e := by
  unfold EpochId.dec EpochId.item at *
  rw [Rlp.at_get _ 0 (by simp) hl]
  simp only [ok_bind, List.getElem_cons_zero, Rlp.u64_enc, pure_ok]

/-! ### Genesis -/

theorem token_rt (t : GenesisSystemToken) (hl : Fits t.item) : GenesisSystemToken.dec t.item.enc = .ok t := by
  unfold GenesisSystemToken.dec GenesisSystemToken.item at *
  rw [Rlp.check_list _ _ hl, Rlp.at_get _ 2 (by simp) hl, Rlp.items_enc _ hl]
  simp only [List.map_cons, List.map_nil, List.mapM_cons, List.mapM_nil, ok_bind]
  rw [Rlp.data_enc _ (hl.mem (by simp)), Rlp.data_enc _ (hl.mem (by simp)), Rlp.data_enc _ (hl.mem (by simp)),
    Rlp.data_enc _ (hl.mem (by simp))]
  simp only [ok_bind, pure_ok, nth, List.getElem?_cons_zero, List.getElem?_cons_succ, orErr, Item.payload, fromUtf8_utf8,
    List.getElem_cons_zero, List.getElem_cons_succ, Rlp.u64_enc]

theorem stateAsset_rt (a : GenesisStateAsset) (hl : Fits a.item) : GenesisStateAsset.dec a.item.enc = .ok a := by
  unfold GenesisStateAsset.dec GenesisStateAsset.item at *
  rw [Rlp.check_list _ _ hl, Rlp.dataAt_get _ 0 (by simp) hl, Rlp.dataAt_get _ 1 (by simp) hl]
  simp only [ok_bind, List.getElem_cons_zero, List.getElem_cons_succ, Item.payload, fromUtf8_utf8, pure_ok]

theorem stateAlloc_rt (a : GenesisStateAlloc) (hl : Fits a.item) : GenesisStateAlloc.dec a.item.enc = .ok a := by
  unfold GenesisStateAlloc.dec GenesisStateAlloc.item at *
  rw [Rlp.check_list _ _ hl, Rlp.dataAt_get _ 0 (by simp) hl, Rlp.at_get _ 1 (by simp) hl]
  simp only [ok_bind, List.getElem_cons_zero, List.getElem_cons_succ, Item.payload, fromUtf8_utf8]
  rw [Rlp.list_enc (hl.mem (by simp)) (fun x _ h => stateAsset_rt x h)]
  simp only [ok_bind, pure_ok]

theorem genesis_rt (g : Genesis) (hl : Fits g.item) : Genesis.dec g.item.enc = .ok g := by
  unfold Genesis.dec Genesis.item at *
  rw [Rlp.check_list _ _ hl, Rlp.dataAt_get _ 0 (by simp) hl, Rlp.at_get _ 1 (by simp) hl, Rlp.at_get _ 2 (by simp) hl,
    Rlp.at_get _ 3 (by simp) hl]
  simp only [ok_bind, List.getElem_cons_zero, List.getElem_cons_succ, Item.payload, fromUtf8_utf8]
  rw [Rlp.list_enc (hl.mem (by simp)) (fun x _ h => stateAlloc_rt x h), token_rt _ (hl.mem (by simp))]
  simp only [ok_bind, pure_ok, Rlp.u64_enc]

end Huobi
