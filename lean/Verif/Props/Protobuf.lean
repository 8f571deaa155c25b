import Verif.Proof.Protobuf
import Verif.Props.FixedCodec
/-
C48: the protobuf codec (`encode`, `decode`), used for storage and for network messages.  Hypotheses of the form
`(pbEncode v).length < 2 ^ 64` say that the encoding fits into memory.  C47 for this codec is at the end.
-/
namespace Huobi

/-- `decode(encode(v)) = v` for all values of `T` with property `P`. -/
def PbRoundTrips (T : Type) [Protobuf T] (P : T → Prop) : Prop :=
  ∀ v : T, P v → (pbEncode v).length < 2 ^ 64 → pbDecode (pbEncode v) = .ok v

theorem pb_round_trip {T : Type} [Protobuf T] (v : T) (ht : Tags (Protobuf.toFields v))
    (hrt : PFits (Protobuf.toFields v) → Protobuf.ofFields (Protobuf.toFields v) = .ok v)
    (hl : (pbEncode v).length < 2 ^ 64) : pbDecode (pbEncode v) = .ok v := by
  unfold pbDecode
  unfold pbEncode at hl ⊢
  rw [parse_encFields ht hl]
  exact hrt hl

/-- **C48, the true part.**  Every value of every type round-trips, except transactions that deploy, and receipts of
deploying, a contract other than an asset.  (`C48_deploy_exact`: the exception is real.) -/
theorem C48_round_trip_partial :
    PbRoundTrips Nat (fun _ => True) ∧ PbRoundTrips Hash (fun _ => True) ∧ PbRoundTrips UserAddress (fun _ => True) ∧
    PbRoundTrips ContractAddress (fun _ => True) ∧ PbRoundTrips Asset (fun _ => True) ∧ PbRoundTrips Fee (fun _ => True) ∧
    PbRoundTrips RawTx (fun t => t.action.deploysNonAsset = false) ∧
    PbRoundTrips SignedTx (fun t => t.raw.action.deploysNonAsset = false) ∧
    PbRoundTrips Receipt (fun r => r.result.deploysNonAsset = false) ∧
    PbRoundTrips Proof (fun _ => True) ∧ PbRoundTrips Validator (fun _ => True) ∧
    PbRoundTrips EpochHeader (fun _ => True) ∧ PbRoundTrips Epoch (fun _ => True) ∧ PbRoundTrips Pill (fun _ => True) ∧
    PbRoundTrips EpochId (fun _ => True) :=
  ⟨fun v _ h => pb_round_trip v (balance_tags v) (fun _ => balance_prt v) h,
   fun v _ h => pb_round_trip v (hash_tags v) (fun _ => hash_prt v) h,
   fun v _ h => pb_round_trip v (userAddress_tags v) (userAddress_prt v) h,
   fun v _ h => pb_round_trip v (contractAddress_tags v) (contractAddress_prt v) h,
   fun v _ h => pb_round_trip v (asset_tags v) (asset_prt v) h,
   fun v _ h => pb_round_trip v (fee_tags v) (fee_prt v) h,
   fun v hd h => pb_round_trip v (rawTx_tags v) (rawTx_prt v hd) h,
   fun v hd h => pb_round_trip v (signedTx_tags v) (signedTx_prt v hd) h,
   fun v hd h => pb_round_trip v (receipt_tags v) (receipt_prt v hd) h,
   fun v _ h => pb_round_trip v (proof_tags v) (proof_prt v) h,
   fun v _ h => pb_round_trip v (validator_tags v) (validator_prt v) h,
   fun v _ h => pb_round_trip v (header_tags v) (header_prt v) h,
   fun v _ h => pb_round_trip v (epoch_tags v) (epoch_prt v) h,
   fun v _ h => pb_round_trip v (pill_tags v) (pill_prt v) h,
   fun v _ h => pb_round_trip v (epochId_tags v) (fun _ => epochId_prt v) h⟩

/-- What a node reads instead of a deployment of code as contract type `ty`: assets are kept, `App` and `Library` are
exchanged, `Native` is an error. -/
def deployReadAs : ContractType → Option ContractType
  | .asset => some .asset
  | .app => some .library
  | .library => some .app
  | .native => none

theorem ofI32_asI32 (ty : ContractType) :
    ContractType.ofI32 ty.asI32 = (match deployReadAs ty with | some ty' => .ok ty' | none => .error .contractType) := by
  cases ty <;> rfl

/-- A signed transaction with another action. -/
def SignedTx.withAction (t : SignedTx) (a : Action) : SignedTx := { t with raw := { t.raw with action := a } }

/-- **C48 is false for deployments.**  A signed transaction that deploys code as an `App` is decoded as one that deploys a
`Library` and vice versa, and one that deploys a `Native` contract does not decode.  The same holds for receipts. -/
theorem C48_deploy_exact :
    (∀ (t : SignedTx) (code : Bytes) (ty : ContractType), t.raw.action = .deploy code ty → (pbEncode t).length < 2 ^ 64 →
      pbDecode (pbEncode t) = (match deployReadAs ty with
        | some ty' => .ok (t.withAction (.deploy code ty'))
        | none => .error .contractType)) ∧
    (∀ (r : Receipt) (addr : ContractAddress) (ty : ContractType), r.result = .deploy addr ty →
      (pbEncode r).length < 2 ^ 64 →
      pbDecode (pbEncode r) = (match deployReadAs ty with
        | some ty' => .ok { r with result := .deploy addr ty' }
        | none => .error .contractType)) := by
  constructor
  · intro t code ty ha hl
    have hf : PFits t.pb := hl
    show parse (encFields t.pb) >>= SignedTx.ofPb = _
    rw [parse_encFields (signedTx_tags t) hf, pok_bind]
    have ho1 : occ 1 t.pb = [.bytes (encFields t.raw.pb)] := by unfold SignedTx.pb; pocc
    obtain ⟨h1, hr⟩ := needMsg_rt hf (rawTx_tags t.raw) ho1
    have hm : t.raw.action.member = (7, fBytes 1 code ++ fU64 2 ty.asI32) := by rw [ha]; rfl
    have ho : t.raw.pb.filter (fun f => decide (f.1 ∈ [5, 6, 7, 8])) =
        [(t.raw.action.member.1, .bytes (encFields t.raw.action.member.2))] := by
      unfold RawTx.pb
      rw [Action.pb_eq]
      simp only [List.filter_append, filter_fMsg, filter_fU64]
      have hm : t.raw.action.member.1 ∈ [5, 6, 7, 8] := by simpa using t.raw.action.member_fst
      rw [if_pos hm]
      simp [fMsg]
    obtain ⟨h2, h3⟩ := getOneof_rt hr t.raw.action.member_tags ho
    rw [hm] at h2 h3
    have hact : Action.ofPb (7, fBytes 1 code ++ fU64 2 ty.asI32) =
        (match deployReadAs ty with | some ty' => .ok (.deploy code ty') | none => .error .contractType) := by
      simp only [Action.ofPb]
      rw [if_neg (by decide), if_neg (by decide), if_pos trivial,
        getBytes_rt (b := code) (by pocc), pok_bind, getU64_rt (n := ty.asI32) (by pocc), pok_bind, ofI32_asI32]
      cases ty <;> rfl
    have hraw : RawTx.ofPb t.raw.pb = (match deployReadAs ty with
        | some ty' => .ok { t.raw with action := .deploy code ty' }
        | none => .error .contractType) := by
      unfold RawTx.ofPb
      rw [msg_rt hr (hash_tags t.raw.chainId) (by unfold RawTx.pb; simp [occ_append, occ_action]; pocc) (fun _ => hash_prt _), pok_bind,
        msg_rt hr (hash_tags t.raw.nonce) (by unfold RawTx.pb; simp [occ_append, occ_action]; pocc) (fun _ => hash_prt _), pok_bind,
        getU64_rt (n := t.raw.timeout) (by unfold RawTx.pb; simp [occ_append, occ_action]; pocc), pok_bind,
        msg_rt hr (fee_tags t.raw.fee) (by unfold RawTx.pb; simp [occ_append, occ_action]; pocc) (fee_prt _), pok_bind,
        h2, pok_bind]
      show (Action.ofPb (7, fBytes 1 code ++ fU64 2 ty.asI32) >>= _) = _
      rw [hact]
      cases ty <;> rfl
    unfold SignedTx.ofPb
    rw [h1, pok_bind, hraw,
      msg_rt hf (hash_tags t.txHash) (by unfold SignedTx.pb; pocc) (fun _ => hash_prt _),
      getBytes_rt (b := t.pubkey) (by unfold SignedTx.pb; pocc),
      getBytes_rt (b := t.signature) (by unfold SignedTx.pb; pocc)]
    cases ty <;> rfl
  · intro t addr ty ha hl
    have hf : PFits t.pb := hl
    show parse (encFields t.pb) >>= Receipt.ofPb = _
    rw [parse_encFields (receipt_tags t) hf, pok_bind]
    have hm : t.result.member = (7, fMsg 1 addr.pb ++ fU64 2 ty.asI32) := by rw [ha]; rfl
    have ho : t.pb.filter (fun f => decide (f.1 ∈ [5, 6, 7, 8, 9])) =
        [(t.result.member.1, .bytes (encFields t.result.member.2))] := by
      unfold Receipt.pb
      rw [ReceiptResult.pb_eq]
      simp only [List.filter_append, filter_fMsg, filter_fU64]
      have hm : t.result.member.1 ∈ [5, 6, 7, 8, 9] := by simpa using t.result.member_fst
      rw [if_pos hm]
      simp [fMsg]
    obtain ⟨h1, h2⟩ := getOneof_rt hf t.result.member_tags ho
    rw [hm] at h1 h2
    have hact : ReceiptResult.ofPb (7, fMsg 1 addr.pb ++ fU64 2 ty.asI32) =
        (match deployReadAs ty with | some ty' => .ok (.deploy addr ty') | none => .error .contractType) := by
      simp only [ReceiptResult.ofPb]
      rw [if_neg (by decide), if_neg (by decide), if_pos trivial,
        msg_rt h2 (contractAddress_tags addr) (by pocc) (contractAddress_prt _), pok_bind,
        getU64_rt (n := ty.asI32) (by pocc), pok_bind, ofI32_asI32]
      cases ty <;> rfl
    unfold Receipt.ofPb
    rw [msg_rt hf (hash_tags t.stateRoot) (by unfold Receipt.pb; simp [occ_append, occ_result]; pocc) (fun _ => hash_prt _),
      pok_bind,
      getU64_rt (n := t.epochId) (by unfold Receipt.pb; simp [occ_append, occ_result]; pocc), pok_bind,
      msg_rt hf (hash_tags t.txHash) (by unfold Receipt.pb; simp [occ_append, occ_result]; pocc) (fun _ => hash_prt _), pok_bind,
      msg_rt hf (fee_tags t.cyclesUsed) (by unfold Receipt.pb; simp [occ_append, occ_result]; pocc) (fee_prt _), pok_bind,
      h1, pok_bind]
    show (ReceiptResult.ofPb (7, fMsg 1 addr.pb ++ fU64 2 ty.asI32) >>= _) = _
    rw [hact]
    cases ty <;> rfl

/-- A transaction deploying an application. -/
def Demo.deployTx (ty : ContractType := .app) : SignedTx := Demo.tx 1 (.deploy [1, 2, 3] ty)

/-- **C48 refuted.**  A transaction deploying an `App` that passed all checks of its author's node decodes, on the
receiving node, to a different transaction under the same hash and signature; a `Native` deployment does not decode. -/
theorem C48_refuted :
    (∃ t : SignedTx, (pbEncode t).length < 2 ^ 64 ∧
      ∃ t' : SignedTx, pbDecode (pbEncode t) = .ok t' ∧ t' ≠ t ∧ t'.txHash = t.txHash ∧ t'.signature = t.signature) ∧
    (∃ t : SignedTx, (pbEncode t).length < 2 ^ 64 ∧ pbDecode (T := SignedTx) (pbEncode t) = .error .contractType) := by
  refine ⟨⟨Demo.deployTx, by decide +kernel, _, C48_deploy_exact.1 (Demo.deployTx) _ _ rfl (by decide +kernel), ?_, rfl, rfl⟩,
    ⟨Demo.deployTx .native, by decide +kernel, C48_deploy_exact.1 (Demo.deployTx .native) _ _ rfl (by decide +kernel)⟩⟩
  intro h
  exact absurd (congrArg (fun t : SignedTx => t.raw.action) h) (by decide)

/-- Hypotheses of `C48_round_trip_partial` are met by a transaction with a large contract call. -/
example : (Demo.tx 1 Demo.callTx.action).raw.action.deploysNonAsset = false ∧
    (pbEncode (Demo.tx 1 Demo.callTx.action)).length < 2 ^ 64 ∧ 100 < (pbEncode (Demo.tx 1 Demo.callTx.action)).length :=
  ⟨rfl, by decide +kernel, by decide +kernel⟩

/-- **C48, distinct values.**  Two different values of a type (other than non-asset deployments) have different
encodings, so a stored or transmitted record identifies the value. -/
theorem C48_injective_partial {T : Type} [Protobuf T] {P : T → Prop} (hrt : PbRoundTrips T P) {v w : T} (hv : P v) (hw : P w)
    (hlv : (pbEncode v).length < 2 ^ 64) (h : pbEncode v = pbEncode w) : v = w := by
  have h1 := hrt v hv hlv
  have h2 := hrt w hw (h ▸ hlv)
  rw [h, h2] at h1
  exact (Except.ok.inj h1).symm

/-! ### C47 for the protobuf codec -/

/-- The computation does not abort the process. -/
def PNoPanic {α : Type} (d : PDec α) : Prop := d ≠ .error .panic

namespace PNoPanic

theorem ok {α : Type} (x : α) : PNoPanic (.ok x) := fun h => by cases h
theorem bind {α β : Type} {d : PDec α} {f : α → PDec β} (hd : PNoPanic d) (hf : ∀ x, PNoPanic (f x)) : PNoPanic (d >>= f) := by
  cases d with
  | error e => intro h; exact hd (by cases h; rfl)
  | ok x => exact hf x
theorem map {α β : Type} {d : PDec α} {f : α → β} (hd : PNoPanic d) : PNoPanic (d.map f) := by
  cases d with
  | error e => intro h; exact hd (by cases h; rfl)
  | ok x => exact ok _
theorem foldlM {α β : Type} {f : β → α → PDec β} (hf : ∀ b a, PNoPanic (f b a)) (l : List α) : ∀ b, PNoPanic (l.foldlM f b) := by
  induction l with
  | nil => intro b; exact ok _
  | cons a l ih => intro b; rw [List.foldlM_cons]; exact bind (hf b a) ih
theorem mapM {α β : Type} {f : α → PDec β} (hf : ∀ a, PNoPanic (f a)) (l : List α) : PNoPanic (l.mapM f) := by
  induction l with
  | nil => exact ok _
  | cons a l ih => rw [List.mapM_cons]; exact bind (hf a) (fun _ => bind ih (fun _ => ok _))

theorem parseAux : ∀ (n : Nat) (bs : Bytes), PNoPanic (Huobi.parseAux n bs) := by
  intro n
  induction n with
  | zero => intro bs; cases bs with
    | nil => exact ok _
    | cons b bs => intro h; cases h
  | succ n ih =>
    intro bs
    cases bs with
    | nil => exact ok _
    | cons b bs =>
      rw [Huobi.parseAux]
      split
      · intro h; cases h
      · exact map (ih _)

theorem parse (bs : Bytes) : PNoPanic (Huobi.parse bs) := parseAux _ _
theorem getU64 (t : Nat) (fs : PFields) : PNoPanic (Huobi.getU64 t fs) :=
  foldlM (fun _ v => by cases v <;> intro h <;> cases h) _ _
theorem getBytes (t : Nat) (fs : PFields) : PNoPanic (Huobi.getBytes t fs) :=
  foldlM (fun _ v => by cases v <;> intro h <;> cases h) _ _
theorem getString (t : Nat) (fs : PFields) : PNoPanic (Huobi.getString t fs) :=
  foldlM (fun _ v => by
    cases v with
    | bytes b => simp only; split <;> intro h <;> cases h
    | _ => intro h; cases h) _ _
theorem getMsg (t : Nat) (fs : PFields) : PNoPanic (Huobi.getMsg t fs) :=
  foldlM (fun _ v => by
    cases v with
    | bytes b => exact map (parse _)
    | _ => intro h; cases h) _ _
theorem getMsgs (t : Nat) (fs : PFields) : PNoPanic (Huobi.getMsgs t fs) :=
  mapM (fun v => by
    cases v with
    | bytes b => exact parse _
    | _ => intro h; cases h) _
theorem getReps (t : Nat) (fs : PFields) : PNoPanic (Huobi.getReps t fs) :=
  mapM (fun v => by cases v <;> intro h <;> cases h) _
theorem getOneof (ts : List Nat) (fs : PFields) : PNoPanic (Huobi.getOneof ts fs) :=
  foldlM (fun _ f => by
    obtain ⟨t, v⟩ := f
    cases v with
    | bytes b => exact map (parse _)
    | _ => intro h; cases h) _ _
theorem need {α : Type} (x : Option α) : PNoPanic (Huobi.need x) := by cases x <;> intro h <;> cases h
theorem valid {α : Type} (x : Option α) : PNoPanic (Huobi.valid x) := by cases x <;> intro h <;> cases h
theorem needMsg (t : Nat) (fs : PFields) : PNoPanic (Huobi.needMsg t fs) := bind (getMsg t fs) need

theorem balance (fs : PFields) : PNoPanic (balanceOf fs) := map (getBytes _ _)
theorem hash (fs : PFields) : PNoPanic (Hash.ofPb fs) := bind (getBytes _ _) (fun _ => valid _)
theorem root (fs : PFields) : PNoPanic (rootOf fs) := bind (needMsg _ _) hash
theorem userAddress (fs : PFields) : PNoPanic (UserAddress.ofPb fs) :=
  bind (needMsg _ _) (fun _ => bind (getBytes _ _) (fun _ => valid _))
theorem contractAddress (fs : PFields) : PNoPanic (ContractAddress.ofPb fs) :=
  bind (needMsg _ _) (fun _ => bind (getU64 _ _) (fun _ => bind (getBytes _ _) (fun _ => valid _)))
theorem asset (fs : PFields) : PNoPanic (Asset.ofPb fs) :=
  bind (bind (needMsg _ _) root) fun _ => bind (getString _ _) fun _ => bind (getString _ _) fun _ =>
  bind (bind (needMsg _ _) balance) fun _ => bind (bind (needMsg _ _) contractAddress) fun _ =>
  bind (bind (needMsg _ _) root) fun _ => ok _
theorem fee (fs : PFields) : PNoPanic (Fee.ofPb fs) :=
  bind (bind (needMsg _ _) root) fun _ => bind (getU64 _ _) fun _ => ok _
theorem carrying (fs : PFields) : PNoPanic (CarryingAsset.ofPb fs) :=
  bind (bind (needMsg _ _) root) fun _ => bind (bind (needMsg _ _) balance) fun _ => ok _
theorem ofI32 (n : UInt64) : PNoPanic (ContractType.ofI32 n) := by
  unfold ContractType.ofI32
  repeat' split
  all_goals intro h; cases h
theorem optMsg {α : Type} {f : PFields → PDec α} (hf : ∀ m, PNoPanic (f m)) (m : Option PFields) : PNoPanic (Huobi.optMsg f m) := by
  cases m with
  | none => exact ok _
  | some m => exact map (hf m)
theorem action (x : Nat × PFields) : PNoPanic (Action.ofPb x) := by
  unfold Action.ofPb
  split
  · exact bind (bind (needMsg _ _) userAddress) fun _ => bind (bind (needMsg _ _) carrying) fun _ => ok _
  split
  · exact bind (bind (needMsg _ _) contractAddress) fun _ => bind (bind (needMsg _ _) root) fun _ =>
      bind (bind (needMsg _ _) balance) fun _ => ok _
  split
  · exact bind (getBytes _ _) fun _ => bind (bind (getU64 _ _) ofI32) fun _ => ok _
  · exact bind (bind (needMsg _ _) contractAddress) fun _ => bind (getString _ _) fun _ => bind (getReps _ _) fun _ =>
      bind (bind (getMsg _ _) (optMsg carrying)) fun _ => ok _
theorem rawTx (fs : PFields) : PNoPanic (RawTx.ofPb fs) :=
  bind (bind (needMsg _ _) hash) fun _ => bind (bind (needMsg _ _) hash) fun _ => bind (getU64 _ _) fun _ =>
  bind (bind (needMsg _ _) fee) fun _ => bind (bind (bind (getOneof _ _) need) action) fun _ => ok _
theorem signedTx (fs : PFields) : PNoPanic (SignedTx.ofPb fs) :=
  bind (bind (needMsg _ _) rawTx) fun _ => bind (bind (needMsg _ _) hash) fun _ => bind (getBytes _ _) fun _ =>
  bind (getBytes _ _) fun _ => ok _
theorem proof (fs : PFields) : PNoPanic (Proof.ofPb fs) :=
  bind (getU64 _ _) fun _ => bind (getU64 _ _) fun _ => bind (bind (needMsg _ _) hash) fun _ => bind (getBytes _ _) fun _ =>
  bind (getBytes _ _) fun _ => ok _
theorem validator (fs : PFields) : PNoPanic (Validator.ofPb fs) :=
  bind (bind (needMsg _ _) userAddress) fun _ => bind (getU64 _ _) fun _ => bind (getU64 _ _) fun _ => ok _
theorem epochId (fs : PFields) : PNoPanic (EpochId.ofPb fs) := map (getU64 _ _)

end PNoPanic

/-- **C47 for the protobuf codec, the true part.**  Decoding any byte string as a transaction or one of the other types
without a log bloom never aborts the process. -/
theorem C47_protobuf_no_panic_partial (bs : Bytes) :
    pbDecode (T := SignedTx) bs ≠ .error .panic ∧ pbDecode (T := RawTx) bs ≠ .error .panic ∧
    pbDecode (T := Hash) bs ≠ .error .panic ∧ pbDecode (T := Nat) bs ≠ .error .panic ∧
    pbDecode (T := UserAddress) bs ≠ .error .panic ∧ pbDecode (T := ContractAddress) bs ≠ .error .panic ∧
    pbDecode (T := Asset) bs ≠ .error .panic ∧ pbDecode (T := Fee) bs ≠ .error .panic ∧
    pbDecode (T := Proof) bs ≠ .error .panic ∧ pbDecode (T := Validator) bs ≠ .error .panic ∧
    pbDecode (T := EpochId) bs ≠ .error .panic :=
  ⟨PNoPanic.bind (PNoPanic.parse bs) PNoPanic.signedTx, PNoPanic.bind (PNoPanic.parse bs) PNoPanic.rawTx,
   PNoPanic.bind (PNoPanic.parse bs) PNoPanic.hash, PNoPanic.bind (PNoPanic.parse bs) PNoPanic.balance,
   PNoPanic.bind (PNoPanic.parse bs) PNoPanic.userAddress, PNoPanic.bind (PNoPanic.parse bs) PNoPanic.contractAddress,
   PNoPanic.bind (PNoPanic.parse bs) PNoPanic.asset, PNoPanic.bind (PNoPanic.parse bs) PNoPanic.fee,
   PNoPanic.bind (PNoPanic.parse bs) PNoPanic.proof, PNoPanic.bind (PNoPanic.parse bs) PNoPanic.validator,
   PNoPanic.bind (PNoPanic.parse bs) PNoPanic.epochId⟩

/-- Does a decoding abort? -/
def ppanics {α : Type} : PDec α → Bool
  | .error .panic => true
  | _ => false

theorem eq_panic_of_ppanics {α : Type} {d : PDec α} (h : ppanics d = true) : d = .error .panic := by
  cases d with
  | ok x => simp [ppanics] at h
  | error e => cases e <;> simp_all [ppanics]

/-- A header message without a log bloom. -/
def Demo.bloomless : PFields :=
  fMsg 1 (Demo.hash 1).pb ++ fMsg 3 (Demo.hash 1).pb ++ fMsg 6 (Demo.hash 1).pb ++ fMsg 8 (Demo.hash 1).pb ++
  fMsg 11 (Demo.user 1).pb ++ fMsg 12 (fMsg 3 (Demo.hash 1).pb)

/-- **C47 is false for the protobuf codec of types with a log bloom.**  A message whose bloom field is not 256 bytes long
(for instance, absent) aborts the process: epochs, headers, pills and call receipts. -/
theorem C47_protobuf_refuted :
    (∃ bs, pbDecode (T := EpochHeader) bs = .error .panic) ∧ (∃ bs, pbDecode (T := Epoch) bs = .error .panic) ∧
    (∃ bs, pbDecode (T := Pill) bs = .error .panic) ∧ (∃ bs, pbDecode (T := Receipt) bs = .error .panic) :=
  ⟨⟨encFields Demo.bloomless, eq_panic_of_ppanics (by decide +kernel)⟩,
   ⟨encFields (fMsg 1 Demo.bloomless), eq_panic_of_ppanics (by decide +kernel)⟩,
   ⟨encFields (fMsg 1 (fMsg 1 Demo.bloomless)), eq_panic_of_ppanics (by decide +kernel)⟩,
   ⟨encFields (fMsg 1 (Demo.hash 1).pb ++ fMsg 3 (Demo.hash 1).pb ++ fMsg 4 (Fee.pb ⟨Demo.gold, 1⟩) ++
      fMsg 8 (fMsg 1 (ContractAddress.fromCode Demo.digest [1] 2 .app).pb)), eq_panic_of_ppanics (by decide +kernel)⟩⟩

/-- An epoch header aborts decoding only through the length of its bloom: if the bloom field decodes to 256 bytes, the
header decodes or is rejected. -/
theorem C47_protobuf_header_panic_exact (fs : PFields) (h : EpochHeader.ofPb fs = .error .panic) :
    ∃ b, getBytes 5 fs = .ok b ∧ b.length ≠ 256 := by
  by_contra hc
  push Not at hc
  refine absurd h ?_
  show PNoPanic _
  refine PNoPanic.bind (PNoPanic.bind (PNoPanic.needMsg _ _) PNoPanic.hash) fun _ => PNoPanic.bind (PNoPanic.getU64 _ _) fun _ =>
    PNoPanic.bind (PNoPanic.bind (PNoPanic.needMsg _ _) PNoPanic.hash) fun _ => PNoPanic.bind (PNoPanic.getU64 _ _) fun _ =>
    PNoPanic.bind (PNoPanic.bind (PNoPanic.needMsg _ _) PNoPanic.hash) fun _ =>
    PNoPanic.bind (PNoPanic.bind (PNoPanic.getMsgs _ _) (fun l => PNoPanic.mapM PNoPanic.hash l)) fun _ =>
    PNoPanic.bind (PNoPanic.bind (PNoPanic.needMsg _ _) PNoPanic.hash) fun _ =>
    PNoPanic.bind (PNoPanic.bind (PNoPanic.getMsgs _ _) (fun l => PNoPanic.mapM PNoPanic.hash l)) fun _ =>
    PNoPanic.bind (PNoPanic.getU64 _ _) fun _ =>
    PNoPanic.bind (PNoPanic.bind (PNoPanic.needMsg _ _) PNoPanic.userAddress) fun _ =>
    PNoPanic.bind (PNoPanic.bind (PNoPanic.needMsg _ _) PNoPanic.proof) fun _ =>
    PNoPanic.bind (PNoPanic.getU64 _ _) fun _ =>
    PNoPanic.bind (PNoPanic.bind (PNoPanic.getMsgs _ _) (fun l => PNoPanic.mapM PNoPanic.validator l)) fun _ =>
    PNoPanic.bind ?_ fun _ => PNoPanic.ok _
  cases hb : getBytes 5 fs with
  | error e =>
    have := PNoPanic.getBytes 5 fs
    rw [hb] at this
    intro h2; exact this (by cases h2; rfl)
  | ok b =>
    rw [pok_bind, Bloom.fromSlice, dif_pos (hc b hb)]
    exact PNoPanic.ok _

end Huobi
