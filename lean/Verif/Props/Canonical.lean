import Verif.Props.FixedCodec
import Verif.Proof.ByteExecutor
/-
C46, for all types: what was decoded from any bytes has one canonical coding, which every node understands in the same way.
-/
namespace Huobi

/-! ### What decoders return -/

theorem bind_ok {α β : Type} {d : Dec α} {f : α → Dec β} {b : β} (h : d >>= f = .ok b) : ∃ a, d = .ok a ∧ f a = .ok b := by
  cases d with
  | error e => cases h
  | ok a => exact ⟨a, rfl, h⟩

theorem ContractAddress.toBytes_inj {a b : ContractAddress} (h : a.toBytes = b.toBytes) : a = b := by
  have h1 := ContractAddress.fromBytes_toBytes a
  rw [h, ContractAddress.fromBytes_toBytes b] at h1
  exact (Option.some.inj h1).symm

instance : KeyOrd.Total ContractAddress :=
  ⟨fun _ _ _ => bytesLt_trans _ _ _, fun _ _ h => bytesLt_total _ _ (fun hc => h (ContractAddress.toBytes_inj hc))⟩

/-- Inserting entries into a `BTreeMap` gives an ordered map, of entries that were inserted. -/
theorem BMap.ofList_spec {K V : Type} [DecidableEq K] [KeyOrd K] [KeyOrd.Total K] (xs : List (K × V)) :
    (BMap.ofList xs).Ordered ∧ ∀ x ∈ BMap.ofList xs, x ∈ xs := by
  have key : ∀ (ys : List (K × V)) (acc : BMap K V), acc.Ordered → (∀ x ∈ acc, x ∈ xs) → (∀ y ∈ ys, y ∈ xs) →
      (ys.foldl (fun m x => m.insert x.1 x.2) acc).Ordered ∧ ∀ x ∈ ys.foldl (fun m x => m.insert x.1 x.2) acc, x ∈ xs := by
    intro ys
    induction ys with
    | nil => intro acc h1 h2 _; exact ⟨h1, h2⟩
    | cons y ys ih =>
      intro acc h1 h2 h3
      refine ih _ (BMap.insert_ordered _ _ h1) ?_ (fun z hz => h3 z (by simp [hz]))
      intro x hx
      rcases BMap.mem_insert hx with hx | hx
      · subst hx; exact h3 y (by simp)
      · exact h2 x hx
  exact key xs [] List.Pairwise.nil (fun _ h => by cases h) (fun _ h => h)

theorem mapM_ok_mem {α β : Type} {f : α → Dec β} : ∀ {xs : List α} {ys : List β}, xs.mapM f = .ok ys →
    ∀ y ∈ ys, ∃ x ∈ xs, f x = .ok y
  | [], ys, h, y, hy => by cases h; cases hy
  | x :: xs, ys, h, y, hy => by
    rw [List.mapM_cons] at h
    obtain ⟨a, ha, h⟩ := bind_ok h
    obtain ⟨as, has, h⟩ := bind_ok h
    cases h
    rcases List.mem_cons.1 hy with rfl | hy
    · exact ⟨x, by simp, ha⟩
    · obtain ⟨z, hz, hf⟩ := mapM_ok_mem has y hy
      exact ⟨z, by simp [hz], hf⟩

theorem list_ok_mem {α : Type} {f : Bytes → Dec α} {bs : Bytes} {xs : List α} (h : Rlp.list f bs = .ok xs) :
    ∀ x ∈ xs, ∃ b, f b = .ok x := by
  unfold Rlp.list at h
  split at h
  · rename_i ys hys
    cases h
    intro x hx
    obtain ⟨b, _, hb⟩ := mapM_ok_mem hys x hx
    exact ⟨b, hb⟩
  · cases h

theorem userAssetDec_ordered {bs : Bytes} {x : AssetID × AssetInfo} (h : userAssetDec bs = .ok x) : x.2.approved.Ordered := by
  unfold userAssetDec at h
  obtain ⟨_, _, h⟩ := bind_ok h
  obtain ⟨_, _, h⟩ := bind_ok h
  obtain ⟨_, _, h⟩ := bind_ok h
  cases h
  exact (BMap.ofList_spec _).1

/-- A decoded account has ordered maps. -/
theorem accountDec_ordered {bs : Bytes} {a : Account} (h : Account.dec bs = .ok a) : a.Ordered := by
  unfold Account.dec at h
  obtain ⟨flag, _, h⟩ := bind_ok h
  split at h
  · obtain ⟨assets, ha, h⟩ := bind_ok h
    obtain ⟨_, _, h⟩ := bind_ok h
    cases h
    refine ⟨(BMap.ofList_spec _).1, ?_⟩
    intro x hx
    obtain ⟨_, _, hl⟩ := bind_ok ha
    obtain ⟨b, hb⟩ := list_ok_mem hl x ((BMap.ofList_spec _).2 x hx)
    exact userAssetDec_ordered hb
  · split at h
    · obtain ⟨assets, ha, h⟩ := bind_ok h
      obtain ⟨_, _, h⟩ := bind_ok h
      obtain ⟨_, _, h⟩ := bind_ok h
      cases h
      exact (BMap.ofList_spec _).1
    · cases h

/-- No byte string decodes to an `Approve` transaction. -/
theorem rawDec_not_approve {bs : Bytes} {t : RawTx} (h : RawTx.dec bs = .ok t) : t.action.isApprove = false := by
  unfold RawTx.dec at h
  obtain ⟨flag, _, h⟩ := bind_ok h
  simp only at h
  split at h
  · obtain ⟨⟨_, _, _, _⟩, _, h⟩ := bind_ok h
    obtain ⟨_, _, h⟩ := bind_ok h
    obtain ⟨_, _, h⟩ := bind_ok h
    obtain ⟨_, _, h⟩ := bind_ok h
    cases h; rfl
  · split at h
    · obtain ⟨⟨_, _, _, _⟩, _, h⟩ := bind_ok h
      obtain ⟨_, _, h⟩ := bind_ok h
      obtain ⟨_, _, h⟩ := bind_ok h
      cases h; rfl
    · split at h
      · obtain ⟨⟨_, _, _, _⟩, _, h⟩ := bind_ok h
        obtain ⟨_, _, h⟩ := bind_ok h
        obtain ⟨_, _, h⟩ := bind_ok h
        simp only at h
        split at h
        · obtain ⟨_, _, h⟩ := bind_ok h
          obtain ⟨_, _, h⟩ := bind_ok h
          obtain ⟨_, _, h⟩ := bind_ok h
          obtain ⟨_, _, h⟩ := bind_ok h
          cases h; rfl
        · obtain ⟨_, _, h⟩ := bind_ok h
          obtain ⟨_, _, h⟩ := bind_ok h
          cases h; rfl
      · cases h

theorem signedDec_not_approve {bs : Bytes} {t : SignedTx} (h : SignedTx.dec bs = .ok t) : t.raw.action.isApprove = false := by
  unfold SignedTx.dec at h
  obtain ⟨_, _, h⟩ := bind_ok h
  obtain ⟨_, _, h⟩ := bind_ok h
  obtain ⟨raw, hr, h⟩ := bind_ok h
  obtain ⟨_, _, h⟩ := bind_ok h
  obtain ⟨_, _, h⟩ := bind_ok h
  cases h
  obtain ⟨_, _, hr⟩ := bind_ok hr
  exact rawDec_not_approve hr

/-- No byte string decodes to the result of an `Approve`. -/
theorem resultDec_not_approve {bs : Bytes} {r : ReceiptResult} (h : ReceiptResult.dec bs = .ok r) : r.isApprove = false := by
  unfold ReceiptResult.dec at h
  obtain ⟨flag, _, h⟩ := bind_ok h
  split at h
  · obtain ⟨_, _, h⟩ := bind_ok h
    obtain ⟨_, _, h⟩ := bind_ok h
    obtain ⟨_, _, h⟩ := bind_ok h
    obtain ⟨_, _, h⟩ := bind_ok h
    cases h; rfl
  · split at h
    · obtain ⟨_, _, h⟩ := bind_ok h
      obtain ⟨_, _, h⟩ := bind_ok h
      cases h; rfl
    · split at h
      · obtain ⟨_, _, h⟩ := bind_ok h
        obtain ⟨_, _, h⟩ := bind_ok h
        obtain ⟨_, _, h⟩ := bind_ok h
        cases h; rfl
      · split at h
        · obtain ⟨_, _, h⟩ := bind_ok h
          obtain ⟨_, _, h⟩ := bind_ok h
          cases h; rfl
        · cases h

theorem receiptDec_not_approve {bs : Bytes} {r : Receipt} (h : Receipt.dec bs = .ok r) : r.result.isApprove = false := by
  unfold Receipt.dec at h
  obtain ⟨_, _, h⟩ := bind_ok h
  obtain ⟨_, _, h⟩ := bind_ok h
  obtain ⟨_, _, h⟩ := bind_ok h
  obtain ⟨res, hr, h⟩ := bind_ok h
  obtain ⟨_, _, h⟩ := bind_ok h
  obtain ⟨_, _, h⟩ := bind_ok h
  cases h
  obtain ⟨_, _, hr⟩ := bind_ok hr
  exact resultDec_not_approve hr

/-! ### C46 -/

/-- Whatever bytes a value of `T` was decoded from: its coding is decoded to the same value again (`(encode v).length < 2 ^ 64`: it fits
into memory), and no other value that is ever decoded has this coding. -/
def Canonical (T : Type) [FixedCodec T] : Prop :=
  ∀ (b : Bytes) (v : T), decode b = .ok v → (encode v : Bytes).length < 2 ^ 64 →
    decode (encode v : Bytes) = .ok v ∧
    ∀ (b' : Bytes) (v' : T), decode b' = .ok v' → (encode v' : Bytes) = encode v → v' = v

theorem Canonical.of {T : Type} [FixedCodec T] {P : T → Prop} (h : RoundTrips T P) (hP : ∀ b (v : T), decode b = .ok v → P v) : Canonical T := by
  intro b v hb hl
  have h1 := h v (hP b v hb) hl
  refine ⟨h1, ?_⟩
  intro b' v' hb' he
  have h2 := h v' (hP b' v' hb') (by rw [he]; exact hl)
  rw [he, h1] at h2
  exact (Except.ok.inj h2).symm

/-- **C46, the true part, for every type.**  Received values have a canonical coding: a node that re-encodes what it decoded, from whatever
bytes, produces bytes that everyone decodes to the same value, and different received values have different codings (so also different
hashes, up to collisions of the digest).  What is missing: that the received bytes were the canonical ones (`C46_canonical_refuted`). -/
theorem C46_canonical_form_partial :
    Canonical Hash ∧ Canonical UserAddress ∧ Canonical ContractAddress ∧ Canonical Address ∧ Canonical Asset ∧ Canonical Fee ∧
    Canonical Account ∧ Canonical RawTx ∧ Canonical SignedTx ∧ Canonical ReceiptResult ∧ Canonical Receipt ∧ Canonical Proof ∧
    Canonical Validator ∧ Canonical EpochHeader ∧ Canonical Epoch ∧ Canonical Pill ∧ Canonical EpochId ∧ Canonical Genesis ∧
    Canonical GenesisStateAlloc ∧ Canonical GenesisStateAsset ∧ Canonical GenesisSystemToken ∧ Canonical Bytes := by
  obtain ⟨h1, h2, h3, h4, h5, h6, h7, h8, h9, h10, h11, h12, h13, h14, h15, h16, h17, h18, h19, h20, h21, h22⟩ := C44_round_trip_partial
  have tr : ∀ {T : Type} [FixedCodec T], RoundTrips T (fun _ => True) → Canonical T := fun h => .of h (fun _ _ _ => trivial)
  exact ⟨tr h1, tr h2, tr h3, tr h4, tr h5, tr h6, .of h7 (fun _ _ h => accountDec_ordered h), .of h8 (fun _ _ h => rawDec_not_approve h),
    .of h9 (fun _ _ h => signedDec_not_approve h), .of h10 (fun _ _ h => resultDec_not_approve h),
    .of h11 (fun _ _ h => receiptDec_not_approve h), tr h12, tr h13, tr h14, tr h15, tr h16, tr h17, tr h18, tr h19, tr h20, tr h21, tr h22⟩

/-- A byte string that is not canonical, and what becomes of it. -/
example : decode (T := EpochId) [0xc2, 5, 6] = .ok ⟨5⟩ ∧ encode (⟨5⟩ : EpochId) = [0xc1, 5] := ⟨rfl, by decide⟩

end Huobi
