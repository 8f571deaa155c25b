import Verif.Proof.FixedCodec
import Verif.Props.Rlp
import Verif.Model.Mempool
import Verif.Spec.Demo
/-
C44-C47: the fixed codec (`encode_fixed`, `decode_fixed`).  Hypotheses of the form `(encode v).length < 2 ^ 64` say that
the encoding fits into memory.
-/
namespace Huobi

/-- `decode_fixed(encode_fixed(v)) = v` for all values of `T` with property `P`. -/
def RoundTrips (T : Type) [FixedCodec T] (P : T → Prop) : Prop :=
  ∀ v : T, P v → (encode v : Bytes).length < 2 ^ 64 → decode (encode v : Bytes) = .ok v

/-- **C44, the true part.**  Every value of every type round-trips, except transactions and receipts of kind `Approve`;
the maps of an account are `BTreeMap`s, that is, ordered by key.  (`C44_approve_refuted`: the exception is real.) -/
theorem C44_round_trip_partial :
    RoundTrips Hash (fun _ => True) ∧ RoundTrips UserAddress (fun _ => True) ∧ RoundTrips ContractAddress (fun _ => True) ∧
    RoundTrips Address (fun _ => True) ∧ RoundTrips Asset (fun _ => True) ∧ RoundTrips Fee (fun _ => True) ∧
    RoundTrips Account Account.Ordered ∧
    RoundTrips RawTx (fun t => t.action.isApprove = false) ∧
    RoundTrips SignedTx (fun t => t.raw.action.isApprove = false) ∧
    RoundTrips ReceiptResult (fun r => r.isApprove = false) ∧
    RoundTrips Receipt (fun r => r.result.isApprove = false) ∧
    RoundTrips Proof (fun _ => True) ∧ RoundTrips Validator (fun _ => True) ∧ RoundTrips EpochHeader (fun _ => True) ∧
    RoundTrips Epoch (fun _ => True) ∧ RoundTrips Pill (fun _ => True) ∧ RoundTrips EpochId (fun _ => True) ∧
    RoundTrips Genesis (fun _ => True) ∧ RoundTrips GenesisStateAlloc (fun _ => True) ∧
    RoundTrips GenesisStateAsset (fun _ => True) ∧ RoundTrips GenesisSystemToken (fun _ => True) ∧
    RoundTrips Bytes (fun _ => True) := by
  refine ⟨fun v _ h => hash_rt v h, fun v _ h => userAddress_rt v h, fun v _ h => contractAddress_rt v h,
    fun v _ h => address_rt v h, fun v _ h => asset_rt v h, fun v _ h => fee_rt v h, fun v ho h => account_rt v ho h,
    ?_, fun v ha h => signed_rt v ha h, ?_, fun v ha h => receipt_rt v ha h, fun v _ h => proof_rt v h,
    fun v _ h => validator_rt v h, fun v _ h => header_rt v h, fun v _ h => epoch_rt v h, fun v _ h => pill_rt v h,
    fun v _ h => epochId_rt v h, fun v _ h => genesis_rt v h, fun v _ h => stateAlloc_rt v h,
    fun v _ h => stateAsset_rt v h, fun v _ h => token_rt v h, fun v _ _ => rfl⟩
  · intro v ha h
    obtain ⟨x, hx, hd⟩ := raw_rt v ha h
    show RawTx.dec (Item.encs v.items) = _
    rw [hx]; simpa [Item.encs] using hd
  · intro v ha h
    obtain ⟨x, hx, hd⟩ := result_rt v ha h
    show ReceiptResult.dec (Item.encs v.items) = _
    rw [hx]; simpa [Item.encs] using hd

/-- **C44 is false for `Approve`.**  Every `Approve` transaction and receipt result is encoded as the empty byte string,
which does not decode; the same holds for the signed transaction and the receipt around it. -/
theorem C44_approve_refuted :
    (∀ t : RawTx, t.action.isApprove = true → encode t = ([] : Bytes) ∧ decode (T := RawTx) (encode t) ≠ .ok t) ∧
    (∀ r : ReceiptResult, r.isApprove = true → encode r = ([] : Bytes) ∧ decode (T := ReceiptResult) (encode r) ≠ .ok r) ∧
    (∀ t : SignedTx, t.raw.action.isApprove = true → (encode t).length < 2 ^ 64 → decode (T := SignedTx) (encode t) ≠ .ok t) ∧
    (∀ r : Receipt, r.result.isApprove = true → (encode r).length < 2 ^ 64 → decode (T := Receipt) (encode r) ≠ .ok r) := by
  have h1 : ∀ t : RawTx, t.action.isApprove = true → t.items = [] := by
    intro t h
    obtain ⟨_, _, _, _, action⟩ := t
    cases action <;> simp_all [Action.isApprove, RawTx.items]
  have h2 : ∀ r : ReceiptResult, r.isApprove = true → r.items = [] := by
    intro r h; cases r <;> simp_all [ReceiptResult.isApprove, ReceiptResult.items]
  refine ⟨?_, ?_, ?_, ?_⟩
  · intro t h
    have he : encode t = ([] : Bytes) := by show Item.encs t.items = []; rw [h1 t h]; rfl
    refine ⟨he, ?_⟩
    rw [he]; intro hc
    have : RawTx.dec [] = .error .expectedList := rfl
    have hc' : RawTx.dec [] = .ok t := hc
    rw [this] at hc'; cases hc'
  · intro t h
    have he : encode t = ([] : Bytes) := by show Item.encs t.items = []; rw [h2 t h]; rfl
    refine ⟨he, ?_⟩
    rw [he]; intro hc
    have : ReceiptResult.dec [] = .error .expectedList := rfl
    have hc' : ReceiptResult.dec [] = .ok t := hc
    rw [this] at hc'; cases hc'
  · intro t h hl hc
    have hc' : SignedTx.dec t.item.enc = .ok t := hc
    have hl' : t.item.enc.length < 2 ^ 64 := hl
    unfold SignedTx.dec SignedTx.item at hc'
    unfold SignedTx.item at hl'
    rw [h1 t.raw h] at hc' hl'
    simp only [List.append_nil, List.cons_append, List.nil_append] at hc' hl'
    obtain ⟨e, he⟩ := Rlp.at_enc_none (xs := [Item.data t.pubkey, .data t.signature, t.txHash.item]) (i := 3) (by simp) hl'
    rw [Rlp.check_list _ _ hl', Rlp.dataAt_get _ 0 (by simp) hl', Rlp.at_get _ 1 (by simp) hl', he,
      Rlp.dataAt_get _ 2 (by simp) hl'] at hc'
    simp only [ok_bind, err_bind, List.getElem_cons_zero, List.getElem_cons_succ] at hc'
    generalize RawTx.dec _ = d at hc'
    cases d <;> simp [ok_bind, err_bind] at hc'
  · intro t h hl hc
    have hc' : Receipt.dec t.item.enc = .ok t := hc
    have hl' : t.item.enc.length < 2 ^ 64 := hl
    unfold Receipt.dec Receipt.item at hc'
    unfold Receipt.item at hl'
    rw [h2 t.result h] at hc' hl'
    simp only [List.append_nil, List.cons_append, List.nil_append] at hc' hl'
    obtain ⟨e, he⟩ := Rlp.at_enc_none (xs := [t.cyclesUsed.item, .u64 t.epochId, t.stateRoot.item, t.txHash.item]) (i := 4) (by simp) hl'
    rw [Rlp.check_list _ _ hl', Rlp.at_get _ 0 (by simp) hl', Rlp.at_get _ 1 (by simp) hl', he,
      Rlp.at_get _ 2 (by simp) hl', Rlp.at_get _ 3 (by simp) hl'] at hc'
    simp only [ok_bind, err_bind, List.getElem_cons_zero, List.getElem_cons_succ, Rlp.u64_enc] at hc'
    rw [fee_rt _ (Fits.mem hl' (by simp)), hash_rt _ (Fits.mem hl' (by simp))] at hc'
    simp only [ok_bind] at hc'
    generalize ReceiptResult.dec _ = d at hc'
    cases d <;> simp [ok_bind, err_bind] at hc'

/-! ### C45 -/

/-- **C45, the true part.**  Two different raw transactions have different hash preimages unless both are `Approve`. -/
theorem C45_preimage_injective_partial (t t' : RawTx) (hl : (encode t).length < 2 ^ 64) (hl' : (encode t').length < 2 ^ 64)
    (ha : t.action.isApprove = false ∨ t'.action.isApprove = false) (h : encode t = encode t') : t = t' := by
  have key : ∀ s s' : RawTx, (encode s).length < 2 ^ 64 → (encode s').length < 2 ^ 64 → s.action.isApprove = false →
      encode s = encode s' → s = s' := by
    intro s s' hs hs' hn he
    have h1 := C44_round_trip_partial.2.2.2.2.2.2.2.1 s hn hs
    cases hn' : s'.action.isApprove with
    | false =>
      have h2 := C44_round_trip_partial.2.2.2.2.2.2.2.1 s' hn' hs'
      rw [he, h2] at h1
      exact (Except.ok.inj h1).symm
    | true =>
      have h2 := (C44_approve_refuted.1 s' hn').1
      rw [he, h2] at h1
      have : RawTx.dec [] = .error .expectedList := rfl
      have h1' : RawTx.dec [] = .ok s := h1
      rw [this] at h1'; cases h1'
  rcases ha with ha | ha
  · exact key t t' hl hl' ha h
  · exact (key t' t hl' hl ha h.symm).symm

/-- **C45, in terms of hashes.**  If two different transactions, not both `Approve`, have the same hash, then two
different byte strings with the same digest are at hand. -/
theorem C45_hash_collision_partial (digest : Bytes → Hash) (t t' : RawTx) (hl : (encode t).length < 2 ^ 64)
    (hl' : (encode t').length < 2 ^ 64) (ha : t.action.isApprove = false ∨ t'.action.isApprove = false) (hne : t ≠ t')
    (h : digest (encode t) = digest (encode t')) :
    (encode t : Bytes) ≠ encode t' ∧ digest (encode t) = digest (encode t') :=
  ⟨fun hc => hne (C45_preimage_injective_partial t t' hl hl' ha hc), h⟩

/-- **C45 is false for `Approve`.**  All `Approve` transactions have the same hash, so a signature made for one of them
is accepted by the pool's hash and signature checks for every other one on the same chain with an admissible
time-out: spender, asset and amount can be replaced. -/
theorem C45_approve_refuted (digest : Bytes → Hash) (sigOk : Hash → Bytes → Bytes → Bool) (v : MemView) (t : SignedTx)
    (ha : t.raw.action.isApprove = true)
    (hs : MemPool.checkSignature ⟨sigOk, fun r => digest (encode r)⟩ t = .ok ())
    (hc : MemPool.checkTransaction ⟨sigOk, fun r => digest (encode r)⟩ v t = .ok ())
    (spender : ContractAddress) (asset : AssetID) (max : Nat) :
    let forged : SignedTx := { t with raw := { t.raw with action := .approve spender asset max } }
    MemPool.checkSignature ⟨sigOk, fun r => digest (encode r)⟩ forged = .ok () ∧
    MemPool.checkTransaction ⟨sigOk, fun r => digest (encode r)⟩ v forged = .ok () := by
  intro forged
  have he : ∀ r : RawTx, r.action.isApprove = true → encode r = ([] : Bytes) := fun r h => (C44_approve_refuted.1 r h).1
  have heq : (encode forged.raw : Bytes) = encode t.raw := by
    rw [he t.raw ha, he forged.raw rfl]
  constructor
  · exact hs
  · unfold MemPool.checkTransaction at hc ⊢
    simp only [heq]
    exact hc

/-! ### C46 -/

theorem eq_ok_of_toOption {α : Type} {d : Dec α} {v : α} (h : d.toOption = some v) : d = .ok v := by
  cases d with
  | error e => cases h
  | ok a => rw [Option.some.inj h]

/-- **C46 is false.**  Two different byte strings decode to the same epoch id (items beyond the expected ones are
ignored), and likewise for a hash (a length written in long form is accepted). -/
theorem C46_canonical_refuted :
    (∃ (a b : Bytes) (v : EpochId), a ≠ b ∧ decode a = .ok v ∧ decode b = .ok v) ∧
    (∃ (a b : Bytes) (v : Hash), a ≠ b ∧ decode a = .ok v ∧ decode b = .ok v) := by
  refine ⟨⟨[0xc1, 5], [0xc2, 5, 6], ⟨5⟩, by decide, rfl, rfl⟩,
    ⟨0xe1 :: 0xa0 :: List.replicate 32 0, 0xe2 :: 0xb8 :: 0x20 :: List.replicate 32 0, default, by decide,
      eq_ok_of_toOption (by decide +kernel), eq_ok_of_toOption (by decide +kernel)⟩⟩

/-- **C46, a true part.**  A canonical RLP tree that decodes to an epoch id consists of that id, followed at most by
ignored items. -/
theorem C46_epoch_id_partial (xs : List Item) (hl : (Item.list xs).enc.length < 2 ^ 64) (v : EpochId)
    (h : decode (Item.list xs).enc = .ok v) : ∃ extra, xs = .u64 v.id :: extra := by
  have h' : EpochId.dec (Item.list xs).enc = .ok v := h
  unfold EpochId.dec at h'
  cases xs with
  | nil =>
    obtain ⟨e, he⟩ := Rlp.at_enc_none (xs := []) (i := 0) (by simp) hl
    rw [he] at h'; cases h'
  | cons x xs =>
    rw [Rlp.at_get _ 0 (by simp) hl] at h'
    simp only [ok_bind, List.getElem_cons_zero] at h'
    refine ⟨xs, ?_⟩
    congr 1
    have hx : x.enc.length < 2 ^ 64 := Rlp.enc_lt_of_mem (by simp) hl
    cases hu : Rlp.u64 x.enc with
    | error e => rw [hu] at h'; cases h'
    | ok n =>
      rw [hu] at h'
      have hn : v = ⟨n⟩ := (Except.ok.inj h').symm
      subst hn
      show x = Item.u64 n
      cases x with
      | list ys =>
        obtain ⟨l, r, h1, h2⟩ := Rlp.head_enc_list ys hx
        unfold Rlp.u64 at hu
        rw [h1] at hu
        have : Rlp.value (l :: r) = .error .expectedData := by
          simp only [Rlp.value]
          rw [if_neg (by omega), if_neg (by omega), if_neg (by omega)]
        rw [this] at hu; cases hu
      | data b =>
        unfold Rlp.u64 at hu
        rw [Rlp.value_enc b hx, ok_bind] at hu
        cases b with
        | nil =>
          have : n = 0 := (Except.ok.inj hu).symm
          subst this; rfl
        | cons y ys =>
          simp only [Rlp.intOf] at hu
          by_cases h8 : 8 < (y :: ys).length
          · rw [if_pos h8] at hu; cases hu
          · rw [if_neg h8] at hu
            by_cases hz : y = 0
            · rw [if_pos hz] at hu; cases hu
            · rw [if_neg hz] at hu
              have hn : UInt64.ofNat (natOfBE (y :: ys)) = n := Except.ok.inj hu
              subst hn
              show Item.data (y :: ys) = Item.data (natBE (UInt64.ofNat (natOfBE (y :: ys))).toNat)
              rw [UInt64.toNat_ofNat_of_lt', natBE_natOfBE _ (by simpa using hz)]
              have := natOfBE_lt (y :: ys)
              have h9 : 256 ^ (y :: ys).length ≤ 256 ^ 8 := Nat.pow_le_pow_right (by omega) (by omega)
              have : (256 : Nat) ^ 8 = 2 ^ 64 := by norm_num
              rw [UInt64.size]; omega

/-! ### C47 -/

/-- The decoder did not abort the process. -/
def NoPanic {α : Type} (d : Dec α) : Prop := d ≠ .error .panic

namespace NoPanic

theorem bind {α β : Type} {d : Dec α} {f : α → Dec β} (h : NoPanic d) (hf : ∀ a, NoPanic (f a)) : NoPanic (d >>= f) := by
  cases d with
  | ok a => exact hf a
  | error e => intro hc; apply h; have := Except.error.inj hc; rw [this]

theorem ok {α : Type} (a : α) : NoPanic (Except.ok a : Dec α) := fun h => by cases h

theorem err {α : Type} {e : DErr} (h : e ≠ .panic) : NoPanic (Except.error e : Dec α) := fun hc => h (Except.error.inj hc)

theorem longInfo (bs : Bytes) (n : Nat) : NoPanic (Rlp.longInfo bs n) := by
  unfold Rlp.longInfo Rlp.decodeUsize
  split
  · split
    · intro h; cases h
    · split
      · intro h; cases h
      · split
        · intro h; cases h
        · split
          · intro h; cases h
          · intro h; cases h
  · intro h; cases h

theorem payloadInfo (bs : Bytes) : NoPanic (Rlp.payloadInfo bs) := by
  have hh : NoPanic (Rlp.headerInfo bs) := by
    unfold Rlp.headerInfo
    split
    · intro h; cases h
    · split
      · exact ok _
      · split
        · exact ok _
        · split
          · exact longInfo _ _
          · split
            · exact ok _
            · exact longInfo _ _
  unfold Rlp.payloadInfo
  cases hd : Rlp.headerInfo bs with
  | error e => rw [hd] at hh; intro hc; apply hh; have := Except.error.inj hc; rw [this]
  | ok x => obtain ⟨h, v⟩ := x; simp only; split <;> intro hc <;> cases hc

theorem map {α β : Type} {d : Dec α} (f : α → β) (h : NoPanic d) : NoPanic (d.map f) := by
  cases d with
  | ok a => exact ok _
  | error e => intro hc; apply h; have := Except.error.inj hc; rw [this]

theorem data (bs : Bytes) : NoPanic (Rlp.data bs) := map _ (payloadInfo bs)
theorem first (bs : Bytes) : NoPanic (Rlp.first bs) := map _ (payloadInfo bs)

theorem skip (n : Nat) (bs : Bytes) : NoPanic (Rlp.skip n bs) := by
  induction n generalizing bs with
  | zero => exact ok _
  | succ n ih =>
    simp only [Rlp.skip]
    cases hd : Rlp.payloadInfo bs with
    | error e => have := payloadInfo bs; rw [hd] at this; intro hc; apply this; have := Except.error.inj hc; rw [this]
    | ok x => exact ih _

theorem «at» (bs : Bytes) (i : Nat) : NoPanic (Rlp.at bs i) := by
  have hrest : NoPanic (do let payload ← Rlp.data bs; let rest ← Rlp.skip i payload; Rlp.first rest) :=
    bind (data _) (fun _ => bind (skip _ _) (fun _ => first _))
  unfold Rlp.at
  cases Rlp.isList bs with
  | false => intro h; cases h
  | true => exact hrest

theorem dataAt (bs : Bytes) (i : Nat) : NoPanic (Rlp.dataAt bs i) := bind (NoPanic.at bs i) (fun _ => data _)

theorem value (bs : Bytes) : NoPanic (Rlp.value bs) := by
  unfold Rlp.value
  split
  · exact err (by decide)
  · rename_i l rest
    split
    · exact ok _
    · split
      · simp only
        split
        · exact err (by decide)
        · split
          · exact err (by decide)
          · exact ok _
      · split
        · simp only
          split
          · exact err (by decide)
          · generalize rest.take _ = y
            cases hd : Rlp.decodeUsize y with
            | error e =>
              simp only
              apply err
              rintro rfl
              unfold Rlp.decodeUsize at hd
              split at hd
              · cases hd
              · split at hd <;> cases hd
            | ok len =>
              simp only
              split
              · exact err (by decide)
              · exact ok _
        · exact err (by decide)

theorem intOf (w : Nat) (b : Bytes) : NoPanic (Rlp.intOf w b) := by
  unfold Rlp.intOf
  repeat' split
  all_goals (intro h; cases h)

theorem u64 (bs : Bytes) : NoPanic (Rlp.u64 bs) := bind (value _) (fun _ => bind (intOf _ _) (fun _ => ok _))
theorem u8 (bs : Bytes) : NoPanic (Rlp.u8 bs) := bind (value _) (fun _ => bind (intOf _ _) (fun _ => ok _))

theorem check (n : Nat) (bs : Bytes) : NoPanic (Rlp.check n bs) := by
  unfold Rlp.check; split <;> (intro h; cases h)

theorem orErr {α : Type} {e : DErr} (he : e ≠ .panic) (o : Option α) : NoPanic (Huobi.orErr e o) := by
  cases o with
  | none => intro h; exact he (Except.error.inj h)
  | some x => exact ok _

theorem fromUtf8 {e : DErr} (he : e ≠ .panic) (b : Bytes) : NoPanic (Huobi.fromUtf8 e b) := by
  unfold Huobi.fromUtf8; split
  · exact ok _
  · intro h; exact he (Except.error.inj h)

theorem ofFlag (n : UInt8) : NoPanic (ContractType.ofFlag n) := by
  unfold ContractType.ofFlag
  repeat' split
  all_goals (intro h; cases h)

theorem hash (bs : Bytes) : NoPanic (Hash.dec bs) := bind (dataAt _ _) (fun _ => orErr (by decide) _)
theorem user (bs : Bytes) : NoPanic (UserAddress.dec bs) := bind (dataAt _ _) (fun _ => orErr (by decide) _)
theorem contract (bs : Bytes) : NoPanic (ContractAddress.dec bs) := bind (dataAt _ _) (fun _ => orErr (by decide) _)
theorem address (bs : Bytes) : NoPanic (Address.dec bs) := bind (dataAt _ _) (fun _ => orErr (by decide) _)

theorem bloom (bs : Bytes) : NoPanic (Bloom.dec bs) := by
  refine bind (value _) (fun b => ?_)
  repeat' split
  all_goals (intro h; cases h)

theorem fee (bs : Bytes) : NoPanic (Fee.dec bs) :=
  bind (check _ _) (fun _ => bind (bind (NoPanic.at _ _) (fun _ => hash _)) (fun _ => bind (bind (NoPanic.at _ _) (fun _ => u64 _))
    (fun _ => ok _)))

theorem asset (bs : Bytes) : NoPanic (Asset.dec bs) :=
  bind (check _ _) (fun _ => bind (bind (NoPanic.at _ _) (fun _ => hash _)) (fun _ => bind (bind (NoPanic.at _ _) (fun _ => contract _))
    (fun _ => bind (bind (dataAt _ _) (fun _ => fromUtf8 (by decide) _)) (fun _ => bind (bind (NoPanic.at _ _) (fun _ => hash _))
    (fun _ => bind (dataAt _ _) (fun _ => bind (bind (dataAt _ _) (fun _ => fromUtf8 (by decide) _)) (fun _ => ok _)))))))

theorem proof (bs : Bytes) : NoPanic (Proof.dec bs) :=
  bind (check _ _) (fun _ => bind (dataAt _ _) (fun _ => bind (bind (NoPanic.at _ _) (fun _ => hash _)) (fun _ =>
    bind (bind (NoPanic.at _ _) (fun _ => u64 _)) (fun _ => bind (bind (NoPanic.at _ _) (fun _ => u64 _)) (fun _ =>
    bind (dataAt _ _) (fun _ => ok _))))))

theorem validator (bs : Bytes) : NoPanic (Validator.dec bs) :=
  bind (check _ _) (fun _ => bind (bind (NoPanic.at _ _) (fun _ => user _)) (fun _ =>
    bind (bind (NoPanic.at _ _) (fun _ => u8 _)) (fun _ => bind (bind (NoPanic.at _ _) (fun _ => u8 _)) (fun _ => ok _))))

theorem result (bs : Bytes) : NoPanic (ReceiptResult.dec bs) := by
  refine bind (bind (NoPanic.at _ _) (fun _ => u8 _)) (fun flag => ?_)
  split
  · exact bind (dataAt _ _) (fun _ => bind (bind (NoPanic.at _ _) (fun _ => hash _)) (fun _ => bind (dataAt _ _) (fun _ =>
      bind (bind (NoPanic.at _ _) (fun _ => user _)) (fun _ => ok _))))
  · split
    · exact bind (bind (NoPanic.at _ _) (fun _ => contract _)) (fun _ =>
        bind (bind (bind (NoPanic.at _ _) (fun _ => u8 _)) (fun _ => ofFlag _)) (fun _ => ok _))
    · split
      · exact bind (bind (NoPanic.at _ _) (fun _ => contract _)) (fun _ =>
          bind (bind (NoPanic.at _ _) (fun _ => bloom _)) (fun _ => bind (dataAt _ _) (fun _ => ok _)))
      · split
        · exact bind (bind (dataAt _ _) (fun _ => fromUtf8 (by decide) _)) (fun _ =>
            bind (bind (dataAt _ _) (fun _ => fromUtf8 (by decide) _)) (fun _ => ok _))
        · intro h; cases h

theorem receipt (bs : Bytes) : NoPanic (Receipt.dec bs) :=
  bind (check _ _) (fun _ => bind (bind (NoPanic.at _ _) (fun _ => fee _)) (fun _ =>
    bind (bind (NoPanic.at _ _) (fun _ => u64 _)) (fun _ => bind (bind (NoPanic.at _ _) (fun _ => result _)) (fun _ =>
    bind (bind (NoPanic.at _ _) (fun _ => hash _)) (fun _ => bind (bind (NoPanic.at _ _) (fun _ => hash _)) (fun _ => ok _))))))

theorem epochId (bs : Bytes) : NoPanic (EpochId.dec bs) := bind (bind (NoPanic.at _ _) (fun _ => u64 _)) (fun _ => ok _)

theorem stateAsset (bs : Bytes) : NoPanic (GenesisStateAsset.dec bs) :=
  bind (check _ _) (fun _ => bind (bind (dataAt _ _) (fun _ => fromUtf8 (by decide) _)) (fun _ =>
    bind (bind (dataAt _ _) (fun _ => fromUtf8 (by decide) _)) (fun _ => ok _)))

end NoPanic

/-- **C47, the true part.**  For the types without embedded lists decoding returns a value or an error on every byte
string. -/
theorem C47_no_panic_partial (bs : Bytes) :
    NoPanic (decode bs : Dec Hash) ∧ NoPanic (decode bs : Dec UserAddress) ∧ NoPanic (decode bs : Dec ContractAddress) ∧
    NoPanic (decode bs : Dec Address) ∧ NoPanic (decode bs : Dec Asset) ∧ NoPanic (decode bs : Dec Fee) ∧
    NoPanic (decode bs : Dec Receipt) ∧ NoPanic (decode bs : Dec ReceiptResult) ∧ NoPanic (decode bs : Dec Proof) ∧
    NoPanic (decode bs : Dec Validator) ∧ NoPanic (decode bs : Dec EpochId) ∧ NoPanic (decode bs : Dec GenesisStateAsset) :=
  ⟨.hash bs, .user bs, .contract bs, .address bs, .asset bs, .fee bs, .receipt bs, .result bs, .proof bs, .validator bs,
    .epochId bs, .stateAsset bs⟩

/-- A list decoder aborts exactly when some element does not decode. -/
theorem C47_list_panics_iff {α : Type} (f : Bytes → Dec α) (bs : Bytes) :
    Rlp.list f bs = .error .panic ↔ ∃ x ∈ Rlp.items bs, ∃ e, f x = .error e := by
  unfold Rlp.list
  generalize Rlp.items bs = xs
  have key : (∃ e, xs.mapM f = .error e) ↔ ∃ x ∈ xs, ∃ e, f x = .error e := by
    induction xs with
    | nil => simp [pure_ok]
    | cons x xs ih =>
      rw [List.mapM_cons]
      cases hx : f x with
      | error e => simp only [err_bind]; exact ⟨fun _ => ⟨x, by simp, e, hx⟩, fun _ => ⟨e, rfl⟩⟩
      | ok a =>
        rw [ok_bind]
        cases hm : xs.mapM f with
        | error e =>
          rw [err_bind]
          obtain ⟨y, hy, e', he'⟩ := ih.1 ⟨e, hm⟩
          exact ⟨fun _ => ⟨y, by simp [hy], e', he'⟩, fun _ => ⟨e, rfl⟩⟩
        | ok as =>
          rw [ok_bind]
          constructor
          · rintro ⟨e, he⟩; cases he
          · rintro ⟨y, hy, e, he⟩
            rcases List.mem_cons.1 hy with rfl | hy
            · rw [hx] at he; cases he
            · obtain ⟨e', he'⟩ := ih.2 ⟨y, hy, e, he⟩
              rw [hm] at he'; cases he'
  rw [← key]
  cases xs.mapM f with
  | ok as => simp
  | error e => simp

/-- **C47, the other direction for transactions.**  Decoding a raw transaction aborts only if an element of its argument
list is not an RLP string with UTF-8 text. -/
theorem C47_raw_tx_panic_cause (bs : Bytes) (h : (decode bs : Dec RawTx) = .error .panic) :
    ∃ l, Rlp.at bs 6 = .ok l ∧ ∃ x ∈ Rlp.items l, ∃ e, stringDec x = .error e := by
  by_contra hno
  have hlist : NoPanic (Rlp.at bs 6 >>= Rlp.list stringDec) := by
    cases hat : Rlp.at bs 6 with
    | error e => have := NoPanic.at bs 6; rw [hat] at this; exact fun hc => this (congrArg Except.error (Except.error.inj hc))
    | ok l =>
      rw [ok_bind]
      intro hc
      exact hno ⟨l, hat, (C47_list_panics_iff _ _).1 hc⟩
  have hhash : ∀ i, NoPanic (hashAt bs i) := fun i => .bind (.dataAt _ _) (fun _ => .orErr (by decide) _)
  have hbasic : NoPanic (rawBasic bs) :=
    .bind (hhash _) (fun _ => .bind (hhash _) (fun _ => .bind (.bind (.at _ _) (fun _ => .u64 _)) (fun _ =>
      .bind (hhash _) (fun _ => .bind (.bind (.at _ _) (fun _ => .u64 _)) (fun _ => .ok _)))))
  have hargs : ∀ strs : List String, NoPanic (strs.mapM hexArg) := by
    intro strs
    induction strs with
    | nil => exact .ok _
    | cons s ss ih => rw [List.mapM_cons]; exact .bind (.orErr (by decide) _) (fun _ => .bind ih (fun _ => .ok _))
  revert h
  show NoPanic (RawTx.dec bs)
  unfold RawTx.dec
  refine .bind (.bind (.at _ _) (fun _ => .u8 _)) (fun flag => ?_)
  split
  · exact .bind hbasic (fun _ => .bind (.bind (.dataAt _ _) (fun _ => .orErr (by decide) _)) (fun _ => .bind (hhash _)
      (fun _ => .bind (.dataAt _ _) (fun _ => .ok _))))
  · split
    · exact .bind hbasic (fun _ => .bind (.dataAt _ _) (fun _ => .bind (.bind (.bind (.at _ _) (fun _ => .u8 _)) (fun _ => .ofFlag _))
        (fun _ => .ok _)))
    · split
      · refine .bind hbasic (fun _ => .bind hlist (fun _ => .bind (hargs _) (fun _ => ?_)))
        split
        · exact .bind (hhash _) (fun _ => .bind (.dataAt _ _) (fun _ => .bind (.bind (.dataAt _ _) (fun _ => .orErr (by decide) _))
            (fun _ => .bind (.bind (.dataAt _ _) (fun _ => .fromUtf8 (by decide) _)) (fun _ => .ok _))))
        · exact .bind (.bind (.dataAt _ _) (fun _ => .orErr (by decide) _))
            (fun _ => .bind (.bind (.dataAt _ _) (fun _ => .fromUtf8 (by decide) _)) (fun _ => .ok _))
      · intro h; cases h

/-- Whether decoding aborts. -/
def panics {α : Type} : Dec α → Bool
  | .error .panic => true
  | _ => false

theorem eq_panic_of_panics {α : Type} {d : Dec α} (h : panics d = true) : d = .error .panic := by
  unfold panics at h; split at h
  · rfl
  · simp at h

/-- The header of an epoch whose first root list contains an element that is not a hash. -/
def Demo.badHeader : Item := .list [(Demo.hash 1).item, .list [.data []]]

/-- **C47 is false.**  A malformed element inside a list aborts the process, although the same bytes come from other
nodes: epochs and pills (consensus), transactions, accounts and genesis files. -/
theorem C47_panic_refuted :
    (∃ bs, (decode bs : Dec Epoch) = .error .panic) ∧ (∃ bs, (decode bs : Dec Pill) = .error .panic) ∧
    (∃ bs, (decode bs : Dec EpochHeader) = .error .panic) ∧
    (∃ bs, (decode bs : Dec RawTx) = .error .panic) ∧ (∃ bs, (decode bs : Dec SignedTx) = .error .panic) ∧
    (∃ bs, (decode bs : Dec Account) = .error .panic) ∧ (∃ bs, (decode bs : Dec GenesisSystemToken) = .error .panic) := by
  refine ⟨⟨(Item.list [Demo.badHeader]).enc, eq_panic_of_panics (by decide +kernel)⟩,
    ⟨(Item.list [.list [Demo.badHeader]]).enc, eq_panic_of_panics (by decide +kernel)⟩,
    ⟨Demo.badHeader.enc, eq_panic_of_panics (by decide +kernel)⟩,
    ⟨(Item.list [.u8 3, .data (Demo.hash 1).bytes, .data (Demo.hash 1).bytes, .u64 1,
      .data (Demo.hash 1).bytes, .u64 1, .list [.list []]]).enc, eq_panic_of_panics (by decide +kernel)⟩,
    ⟨(Item.list [.data [], .list [.u8 3, .data (Demo.hash 1).bytes, .data (Demo.hash 1).bytes, .u64 1,
      .data (Demo.hash 1).bytes, .u64 1, .list [.list []]]]).enc, eq_panic_of_panics (by decide +kernel)⟩,
    ⟨(Item.list [.u8 0, .list [.data []]]).enc, eq_panic_of_panics (by decide +kernel)⟩,
    ⟨(Item.list []).enc, eq_panic_of_panics (by decide +kernel)⟩⟩

/-! ### Cases meeting the hypotheses -/

/-- A call transaction with arguments and an asset. -/
def Demo.callTx : RawTx :=
  (Demo.tx 1 (.call (ContractAddress.fromCode Demo.digest [1] 2 .app) "mint" [[1, 2], [], [255]] (some ⟨Demo.gold, 300⟩))).raw

example : Demo.callTx.action.isApprove = false ∧ (encode Demo.callTx : Bytes).length < 2 ^ 64 ∧ 100 < (encode Demo.callTx : Bytes).length :=
  ⟨rfl, by decide +kernel, by decide +kernel⟩

/-- An account with two assets and an approval. -/
def Demo.account : Account :=
  .user { nonce := 7, assets := [(Demo.hash 1, ⟨5, [(ContractAddress.fromCode Demo.digest [1] 2 .app, ⟨10, 3⟩)]⟩), (Demo.hash 2, ⟨0, []⟩)] }

example : Demo.account.Ordered ∧ (encode Demo.account : Bytes).length < 2 ^ 64 :=
  ⟨⟨by unfold BMap.Ordered; decide +kernel, by unfold BMap.Ordered; decide +kernel⟩, by decide +kernel⟩

/-- An approval accepted by the checks, as `C45_approve_refuted` assumes. -/
example : ∃ (digest : Bytes → Hash) (sigOk : Hash → Bytes → Bytes → Bool) (v : MemView) (t : SignedTx),
    t.raw.action.isApprove = true ∧
    MemPool.checkSignature ⟨sigOk, fun r => digest (encode r)⟩ t = .ok () ∧
    MemPool.checkTransaction ⟨sigOk, fun r => digest (encode r)⟩ v t = .ok () := by
  refine ⟨Demo.digest, fun h _ _ => h = Demo.digest [], ⟨some (Demo.hash 9, 5), fun _ => .getNone, 20, fun _ => none, true⟩,
    { Demo.tx 1 (.approve (ContractAddress.fromCode Demo.digest [1] 2 .app) Demo.gold 5) with txHash := Demo.digest [] },
    rfl, rfl, rfl⟩

end Huobi
