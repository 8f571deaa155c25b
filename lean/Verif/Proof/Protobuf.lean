import Verif.Model.Protobuf
import Verif.Proof.FixedCodec
/-
Proofs about the protobuf coding: reading what was written gives the same fields, and the same value for every type.
-/
namespace Huobi

/-! ### Varints -/

theorem toNat_ofNat_small {n : Nat} (h : n < 256) : (UInt8.ofNat n).toNat = n := by
  simp [UInt8.toNat_ofNat']; omega

theorem readVarint_encVarint (c : Nat) : ∀ (n sh acc : Nat) (rest : Bytes), n < 128 ^ c →
    readVarint c sh acc (encVarint c n ++ rest) = if c = 0 then none else some ((acc + n * 2 ^ sh) % 2 ^ 64, rest) := by
  induction c with
  | zero => intro n sh acc rest _; simp [readVarint]
  | succ c ih =>
    intro n sh acc rest hn
    by_cases h : n < 128
    · have h1 : (UInt8.ofNat n).toNat = n := toNat_ofNat_small (by omega)
      rw [encVarint, if_pos h]
      simp only [List.singleton_append, readVarint, h1, if_pos h, Nat.mod_eq_of_lt h]
      simp
    · have h1 : (UInt8.ofNat (n % 128 + 128)).toNat = n % 128 + 128 := toNat_ofNat_small (by omega)
      have hc : c ≠ 0 := by rintro rfl; simp at hn; omega
      have hd : n / 128 < 128 ^ c := by
        rw [Nat.div_lt_iff_lt_mul (by omega)]; rw [Nat.pow_succ] at hn; exact hn
      rw [encVarint, if_neg h]
      simp only [List.cons_append, readVarint, h1]
      rw [if_neg (by omega), ih _ _ _ _ hd, if_neg hc, if_neg (by omega)]
      have hm : (n % 128 + 128) % 128 = n % 128 := by omega
      rw [hm, Nat.pow_add]
      have : n * 2 ^ sh = n % 128 * 2 ^ sh + n / 128 * (2 ^ sh * 2 ^ 7) := by
        conv_lhs => rw [← Nat.mod_add_div n 128]
        ring
      rw [this, Nat.add_assoc]

theorem readVarint_u64 (n : Nat) (rest : Bytes) (h : n < 2 ^ 64) :
    readVarint 10 0 0 (encVarint 10 n ++ rest) = some (n, rest) := by
  rw [readVarint_encVarint 10 n 0 0 rest (lt_of_lt_of_le h (by norm_num))]
  simp only [Nat.pow_zero, Nat.mul_one, Nat.zero_add, Nat.mod_eq_of_lt h]
  simp

theorem encVarint_pos (n : Nat) : 0 < (encVarint 10 n).length := by
  rw [encVarint]; split <;> simp

/-! ### Fields -/

/-- Tags and payloads the protocol messages use. -/
def PVal.plain : PVal → Bool
  | .fixed _ => false
  | _ => true

/-- All fields have a tag between 1 and 15 and a varint or length-delimited payload. -/
def Tags (fs : PFields) : Prop := ∀ f ∈ fs, 1 ≤ f.1 ∧ f.1 ≤ 15 ∧ f.2.plain = true

/-- The encoding is shorter than 2^64 bytes. -/
def PFits (fs : PFields) : Prop := (encFields fs).length < 2 ^ 64

theorem encFields_cons (f : Nat × PVal) (fs : PFields) : encFields (f :: fs) = encField f ++ encFields fs := by
  simp [encFields]

theorem encFields_append (a b : PFields) : encFields (a ++ b) = encFields a ++ encFields b := by
  simp [encFields]

theorem PFits.mem {fs : PFields} (h : PFits fs) {t : Nat} {b : Bytes} (hm : (t, PVal.bytes b) ∈ fs) : b.length < 2 ^ 64 := by
  unfold PFits at h
  induction fs with
  | nil => simp at hm
  | cons f fs ih =>
    rw [encFields_cons, List.length_append] at h
    rcases List.mem_cons.mp hm with rfl | hm
    · simp [encField] at h; omega
    · exact ih (by omega) hm

theorem encField_pos (f : Nat × PVal) : 0 < (encField f).length := by
  obtain ⟨t, v⟩ := f
  cases v <;> simp only [encField, List.length_append]
  · have := encVarint_pos (t * 8); omega
  · have := encVarint_pos (t * 8 + 2); omega
  · have := encVarint_pos (t * 8 + 1); omega

theorem readField_encField (f : Nat × PVal) (rest : Bytes) (ht : 1 ≤ f.1 ∧ f.1 ≤ 15 ∧ f.2.plain = true)
    (hl : (encField f).length < 2 ^ 64) : readField (encField f ++ rest) = some (f, rest) := by
  obtain ⟨t, v⟩ := f
  obtain ⟨h1, h2, h3⟩ := ht
  simp only at h1 h2 h3
  cases v with
  | fixed b => simp [PVal.plain] at h3
  | varint n =>
    simp only [encField, List.append_assoc, readField]
    rw [readVarint_u64 _ _ (by omega)]
    simp only
    rw [if_neg (by omega), if_pos (by omega), readVarint_u64 _ _ n.toNat_lt]
    simp only [Option.map_some, UInt64.ofNat_toNat]
    rw [Nat.mul_div_cancel _ (by omega)]
  | bytes b =>
    have hb : b.length < 2 ^ 64 := by simp only [encField, List.length_append] at hl; omega
    simp only [encField, List.append_assoc, readField]
    rw [readVarint_u64 _ _ (by omega)]
    simp only
    rw [if_neg (by omega), if_neg (by omega), if_pos (by omega), readVarint_u64 _ _ hb]
    simp only [List.length_append]
    rw [if_neg (by omega), List.take_left, List.drop_left]
    have : (t * 8 + 2) / 8 = t := by omega
    rw [this]

theorem parseAux_encFields (fs : PFields) : ∀ n, (encFields fs).length ≤ n → Tags fs → PFits fs →
    parseAux n (encFields fs) = .ok fs := by
  induction fs with
  | nil => intro n _ _ _; cases n <;> rfl
  | cons f fs ih =>
    intro n hn ht hf
    have hp := encField_pos f
    unfold PFits at hf
    rw [encFields_cons] at hn hf ⊢
    rw [List.length_append] at hn hf
    obtain ⟨n, rfl⟩ : ∃ m, n = m + 1 := ⟨n - 1, by omega⟩
    obtain ⟨b, bs, hb⟩ : ∃ b bs, encField f ++ encFields fs = b :: bs := by
      cases hx : encField f with
      | nil => rw [hx] at hp; simp at hp
      | cons b bs => exact ⟨b, bs ++ encFields fs, by simp⟩
    rw [hb, parseAux, ← hb, readField_encField f _ (ht f (by simp)) (by omega)]
    simp only
    rw [ih n (by omega) (fun x hx => ht x (by simp [hx])) (by unfold PFits; omega)]
    rfl

theorem parse_encFields {fs : PFields} (ht : Tags fs) (hf : PFits fs) : parse (encFields fs) = .ok fs :=
  parseAux_encFields fs _ (Nat.le_refl _) ht hf

/-! ### Occurrences -/

theorem occ_append (t : Nat) (a b : PFields) : occ t (a ++ b) = occ t a ++ occ t b := by simp [occ]

theorem occ_nil (t : Nat) : occ t [] = [] := rfl

theorem occ_fBytes (t t' : Nat) (b : Bytes) : occ t (fBytes t' b) = if t' = t ∧ b ≠ [] then [.bytes b] else [] := by
  unfold fBytes; by_cases hb : b = [] <;> by_cases ht : t' = t <;> simp [occ, hb, ht]

theorem occ_fU64 (t t' : Nat) (n : UInt64) : occ t (fU64 t' n) = if t' = t ∧ n ≠ 0 then [.varint n] else [] := by
  unfold fU64; by_cases hb : n = 0 <;> by_cases ht : t' = t <;> simp [occ, hb, ht]

theorem occ_fMsg (t t' : Nat) (m : PFields) : occ t (fMsg t' m) = if t' = t then [.bytes (encFields m)] else [] := by
  by_cases ht : t' = t <;> simp [occ, fMsg, ht]

theorem occ_fMsgs (t t' : Nat) (ms : List PFields) :
    occ t (fMsgs t' ms) = if t' = t then ms.map (fun m => .bytes (encFields m)) else [] := by
  by_cases ht : t' = t
  · simp only [occ, fMsgs, ht, if_true, List.filterMap_map]
    rw [← List.filterMap_eq_map]; congr 1; funext x; simp
  · simp [occ, fMsgs, ht]

theorem occ_fReps (t t' : Nat) (bs : List Bytes) : occ t (fReps t' bs) = if t' = t then bs.map .bytes else [] := by
  by_cases ht : t' = t
  · simp only [occ, fReps, ht, if_true, List.filterMap_map]
    rw [← List.filterMap_eq_map]; congr 1; funext x; simp
  · simp [occ, fReps, ht]

theorem mem_of_occ {t : Nat} {fs : PFields} {v : PVal} (h : v ∈ occ t fs) : (t, v) ∈ fs := by
  unfold occ at h
  obtain ⟨⟨t', v'⟩, hm, he⟩ := List.mem_filterMap.mp h
  simp only at he
  split at he
  · rename_i ht; cases he; rw [← ht]; exact hm
  · cases he

theorem tags_nil : Tags [] := by simp [Tags]
theorem tags_append {a b : PFields} : Tags (a ++ b) ↔ Tags a ∧ Tags b := by
  constructor
  · intro h; exact ⟨fun f hf => h f (by simp [hf]), fun f hf => h f (by simp [hf])⟩
  · rintro ⟨ha, hb⟩ f hf; rcases List.mem_append.mp hf with hf | hf
    · exact ha f hf
    · exact hb f hf
theorem tags_fBytes {t : Nat} {b : Bytes} (h : 1 ≤ t ∧ t ≤ 15) : Tags (fBytes t b) := by
  unfold fBytes; split <;> simp [Tags, PVal.plain, h]
theorem tags_fU64 {t : Nat} {n : UInt64} (h : 1 ≤ t ∧ t ≤ 15) : Tags (fU64 t n) := by
  unfold fU64; split <;> simp [Tags, PVal.plain, h]
theorem tags_fMsg {t : Nat} {m : PFields} (h : 1 ≤ t ∧ t ≤ 15) : Tags (fMsg t m) := by
  simp [Tags, PVal.plain, h, fMsg]
theorem tags_fMsgs {t : Nat} {m : List PFields} (h : 1 ≤ t ∧ t ≤ 15) : Tags (fMsgs t m) := by
  intro f hf; obtain ⟨x, _, rfl⟩ := List.mem_map.mp hf; exact ⟨h.1, h.2, rfl⟩
theorem tags_fReps {t : Nat} {m : List Bytes} (h : 1 ≤ t ∧ t ≤ 15) : Tags (fReps t m) := by
  intro f hf; obtain ⟨x, _, rfl⟩ := List.mem_map.mp hf; exact ⟨h.1, h.2, rfl⟩

/-! ### Readers -/

theorem getU64_rt {t : Nat} {fs : PFields} {n : UInt64} (h : occ t fs = if n ≠ 0 then [.varint n] else []) :
    getU64 t fs = .ok n := by
  rw [getU64, h]; split
  · rfl
  · rename_i hn; simp at hn; rw [hn]; rfl

theorem getBytes_rt {t : Nat} {fs : PFields} {b : Bytes} (h : occ t fs = if b ≠ [] then [.bytes b] else []) :
    getBytes t fs = .ok b := by
  rw [getBytes, h]; split
  · rfl
  · rename_i hn; simp at hn; rw [hn]; rfl

theorem utf8_eq_nil {s : String} : utf8 s = [] → s = "" := by
  intro h
  have := fromUtf8_utf8 .custom s
  rw [h] at this
  have h2 : fromUtf8 .custom [] = .ok "" := by decide +kernel
  rw [h2] at this
  exact (Except.ok.inj this).symm

theorem getString_rt {t : Nat} {fs : PFields} {s : String} (h : occ t fs = if utf8 s ≠ [] then [.bytes (utf8 s)] else []) :
    getString t fs = .ok s := by
  rw [getString, h]; split
  · simp only [List.foldlM_cons, List.foldlM_nil, fromUtf8_utf8]; rfl
  · rename_i hn; simp only [ne_eq, not_not] at hn; rw [utf8_eq_nil hn]; rfl

theorem needMsg_rt {t : Nat} {fs m : PFields} (hf : PFits fs) (ht : Tags m) (ho : occ t fs = [.bytes (encFields m)]) :
    needMsg t fs = .ok m ∧ PFits m := by
  have hm : PFits m := hf.mem (mem_of_occ (t := t) (by rw [ho]; simp))
  refine ⟨?_, hm⟩
  rw [needMsg, getMsg, ho]
  simp only [List.foldlM_cons, List.foldlM_nil, parse_encFields ht hm]
  rfl

theorem mapM_ok {α β : Type} {ε : Type} (f : α → Except ε β) (g : α → β) (l : List α) (h : ∀ x ∈ l, f x = .ok (g x)) :
    l.mapM f = .ok (l.map g) := by
  induction l with
  | nil => rfl
  | cons a l ih =>
    rw [List.mapM_cons, h a (by simp), ih (fun x hx => h x (by simp [hx]))]
    rfl

theorem getMsgs_rt {α : Type} {t : Nat} {fs : PFields} {l : List α} (pb : α → PFields) (ofPb : PFields → PDec α)
    (hf : PFits fs) (ht : ∀ x ∈ l, Tags (pb x)) (hrt : ∀ x ∈ l, PFits (pb x) → ofPb (pb x) = .ok x)
    (ho : occ t fs = (l.map pb).map (fun m => .bytes (encFields m))) :
    (getMsgs t fs >>= fun ms => ms.mapM ofPb) = .ok l := by
  have hm : ∀ x ∈ l, PFits (pb x) := fun x hx => hf.mem (mem_of_occ (t := t) (by rw [ho]; simp; exact ⟨x, hx, rfl⟩))
  have h1 : getMsgs t fs = .ok (l.map pb) := by
    rw [getMsgs, ho, List.map_map, List.mapM_map]
    exact mapM_ok _ _ _ (fun x hx => parse_encFields (ht x hx) (hm x hx))
  rw [h1]
  show (l.map pb).mapM ofPb = _
  rw [List.mapM_map, mapM_ok (g := id)]
  · simp
  · exact fun x hx => hrt x hx (hm x hx)

theorem getReps_rt {t : Nat} {fs : PFields} {l : List Bytes} (ho : occ t fs = l.map .bytes) : getReps t fs = .ok l := by
  rw [getReps, ho, List.mapM_map, mapM_ok (g := id)]
  · simp
  · intro x _; rfl

theorem getOneof_rt {ts : List Nat} {fs m : PFields} {t : Nat} (hf : PFits fs) (ht : Tags m)
    (ho : fs.filter (fun f => decide (f.1 ∈ ts)) = [(t, .bytes (encFields m))]) :
    getOneof ts fs = .ok (some (t, m)) ∧ PFits m := by
  have hm : PFits m := hf.mem (t := t) (List.mem_filter.mp (by rw [ho]; simp)).1
  refine ⟨?_, hm⟩
  rw [getOneof, ho]
  simp only [List.foldlM_cons, List.foldlM_nil, parse_encFields ht hm]
  rfl

theorem pok_bind {α β : Type} (a : α) (f : α → PDec β) : ((Except.ok a : PDec α) >>= f) = f a := rfl

theorem msg_rt {α : Type} {t : Nat} {fs m : PFields} {f : PFields → PDec α} {x : α} (hf : PFits fs) (ht : Tags m)
    (ho : occ t fs = [.bytes (encFields m)]) (hr : PFits m → f m = .ok x) : (needMsg t fs >>= f) = .ok x := by
  obtain ⟨h1, h2⟩ := needMsg_rt hf ht ho
  rw [h1]; exact hr h2

/-- Evaluate the occurrences of a tag in a message. -/
macro "pocc" : tactic => `(tactic| simp [occ_append, occ_nil, occ_fBytes, occ_fU64, occ_fMsg, occ_fMsgs, occ_fReps])
/-- All tags are in range. -/
macro "ptags" : tactic => `(tactic| (
  try simp only [tags_append]
  repeat' first
    | refine ⟨?_, ?_⟩
    | exact tags_nil
    | exact tags_fBytes (by decide)
    | exact tags_fU64 (by decide)
    | exact tags_fMsg (by decide)
    | exact tags_fMsgs (by decide)
    | exact tags_fReps (by decide)))

/-! ### Primitives -/

theorem balance_tags (n : Nat) : Tags (balancePb n) := by unfold balancePb; ptags
theorem balance_prt (n : Nat) : balanceOf (balancePb n) = .ok n := by
  unfold balanceOf balancePb
  rw [getBytes_rt (b := bigBE n) (by pocc)]
  show Except.ok _ = _
  rw [natOfBE_bigBE]

theorem hash_tags (h : Hash) : Tags h.pb := by unfold Hash.pb; ptags
theorem hash_prt (h : Hash) : Hash.ofPb h.pb = .ok h := by
  unfold Hash.ofPb Hash.pb
  rw [getBytes_rt (b := h.bytes) (by pocc), pok_bind, Hash.fromBytes_bytes]; rfl

theorem root_tags (h : Hash) : Tags (rootPb h) := by unfold rootPb; ptags
theorem root_prt (h : Hash) (hf : PFits (rootPb h)) : rootOf (rootPb h) = .ok h :=
  msg_rt hf (hash_tags h) (by unfold rootPb; pocc) (fun _ => hash_prt h)

theorem userAddress_tags (a : UserAddress) : Tags a.pb := by unfold UserAddress.pb; ptags
theorem userAddress_prt (a : UserAddress) (hf : PFits a.pb) : UserAddress.ofPb a.pb = .ok a := by
  unfold UserAddress.ofPb
  refine msg_rt (m := fBytes 1 a.toBytes) hf (tags_fBytes (by decide)) (by unfold UserAddress.pb; pocc) (fun _ => ?_)
  rw [getBytes_rt (b := a.toBytes) (by pocc), pok_bind, UserAddress.fromBytes_toBytes]; rfl

theorem contractAddress_tags (a : ContractAddress) : Tags a.pb := by unfold ContractAddress.pb; ptags
theorem contractAddress_prt (a : ContractAddress) (hf : PFits a.pb) : ContractAddress.ofPb a.pb = .ok a := by
  unfold ContractAddress.ofPb
  refine msg_rt (m := fBytes 1 a.toBytes) hf (tags_fBytes (by decide)) (by unfold ContractAddress.pb; pocc) (fun _ => ?_)
  rw [getU64_rt (n := a.ty.pbEnum) (by unfold ContractAddress.pb; pocc), pok_bind,
    getBytes_rt (b := a.toBytes) (by pocc), pok_bind, ContractAddress.fromBytes_toBytes]; rfl

theorem asset_tags (a : Asset) : Tags a.pb := by unfold Asset.pb; ptags
theorem asset_prt (a : Asset) (hf : PFits a.pb) : Asset.ofPb a.pb = .ok a := by
  unfold Asset.ofPb
  rw [msg_rt hf (root_tags a.id) (by unfold Asset.pb; pocc) (root_prt a.id), pok_bind,
    getString_rt (s := a.name) (by unfold Asset.pb; pocc), pok_bind,
    getString_rt (s := a.symbol) (by unfold Asset.pb; pocc), pok_bind,
    msg_rt hf (balance_tags a.supply) (by unfold Asset.pb; pocc) (fun _ => balance_prt a.supply), pok_bind,
    msg_rt hf (contractAddress_tags a.manageContract) (by unfold Asset.pb; pocc) (contractAddress_prt _), pok_bind,
    msg_rt hf (root_tags a.storageRoot) (by unfold Asset.pb; pocc) (root_prt _), pok_bind]
  rfl

theorem fee_tags (a : Fee) : Tags a.pb := by unfold Fee.pb; ptags
theorem fee_prt (a : Fee) (hf : PFits a.pb) : Fee.ofPb a.pb = .ok a := by
  unfold Fee.ofPb
  rw [msg_rt hf (root_tags a.assetId) (by unfold Fee.pb; pocc) (root_prt _), pok_bind,
    getU64_rt (n := a.cycle) (by unfold Fee.pb; pocc), pok_bind]
  rfl

theorem carrying_tags (a : CarryingAsset) : Tags a.pb := by unfold CarryingAsset.pb; ptags
theorem carrying_prt (a : CarryingAsset) (hf : PFits a.pb) : CarryingAsset.ofPb a.pb = .ok a := by
  unfold CarryingAsset.ofPb
  rw [msg_rt hf (root_tags a.assetId) (by unfold CarryingAsset.pb; pocc) (root_prt _), pok_bind,
    msg_rt hf (balance_tags a.amount) (by unfold CarryingAsset.pb; pocc) (fun _ => balance_prt _), pok_bind]
  rfl

/-! ### Transactions and receipts -/

/-- A deployment of a contract whose type the codec does not keep: `App` and `Library` are exchanged, `Native` is
rejected. -/
def Action.deploysNonAsset : Action → Bool
  | .deploy _ ty => ty != .asset
  | _ => false

/-- Same for the result of such a deployment. -/
def ReceiptResult.deploysNonAsset : ReceiptResult → Bool
  | .deploy _ ty => ty != .asset
  | _ => false

/-- The wire fields of an action: the tag of its member and the fields of the member. -/
def Action.member : Action → Nat × PFields
  | .transfer receiver c => (5, fMsg 1 receiver.pb ++ fMsg 2 c.pb)
  | .approve spender asset max => (6, fMsg 1 spender.pb ++ fMsg 2 (rootPb asset) ++ fMsg 3 (balancePb max))
  | .deploy code ty => (7, fBytes 1 code ++ fU64 2 ty.asI32)
  | .call contract method args c =>
    (8, fMsg 1 contract.pb ++ fBytes 2 (utf8 method) ++ fReps 3 args ++ (match c with | some c => fMsg 4 c.pb | none => []))

theorem Action.pb_eq (a : Action) : a.pb = fMsg a.member.1 a.member.2 := by cases a <;> rfl

theorem Action.member_tags (a : Action) : Tags a.member.2 := by
  cases a with
  | call contract method args c => cases c <;> · simp only [member]; ptags
  | _ => simp only [member]; ptags

theorem Action.member_fst (a : Action) : a.member.1 = 5 ∨ a.member.1 = 6 ∨ a.member.1 = 7 ∨ a.member.1 = 8 := by
  cases a <;> simp [member]

theorem action_prt (a : Action) (hd : a.deploysNonAsset = false) (hf : PFits a.member.2) :
    Action.ofPb a.member = .ok a := by
  cases a with
  | transfer receiver c =>
    simp only [Action.member] at hf ⊢
    simp only [Action.ofPb, if_true]
    rw [msg_rt hf (userAddress_tags receiver) (by pocc) (userAddress_prt _), pok_bind,
      msg_rt hf (carrying_tags c) (by pocc) (carrying_prt _), pok_bind]
    rfl
  | approve spender asset max =>
    simp only [Action.member] at hf ⊢
    simp only [Action.ofPb]
    rw [if_neg (by decide), if_pos trivial]
    rw [msg_rt hf (contractAddress_tags spender) (by pocc) (contractAddress_prt _), pok_bind,
      msg_rt hf (root_tags asset) (by pocc) (root_prt _), pok_bind,
      msg_rt hf (balance_tags max) (by pocc) (fun _ => balance_prt _), pok_bind]
    rfl
  | deploy code ty =>
    simp only [Action.member] at hf ⊢
    simp only [Action.ofPb]
    rw [if_neg (by decide), if_neg (by decide), if_pos trivial]
    have : ty = .asset := by simpa [Action.deploysNonAsset] using hd
    subst this
    rw [getBytes_rt (b := code) (by pocc), pok_bind, getU64_rt (n := ContractType.asset.asI32) (by pocc), pok_bind]
    rfl
  | call contract method args c =>
    simp only [Action.member] at hf ⊢
    simp only [Action.ofPb]
    rw [if_neg (by decide), if_neg (by decide), if_neg (by decide)]
    cases c with
    | none =>
      simp only at hf ⊢
      rw [msg_rt hf (contractAddress_tags contract) (by pocc) (contractAddress_prt _), pok_bind,
        getString_rt (s := method) (by pocc), pok_bind, getReps_rt (l := args) (by pocc), pok_bind]
      have : occ 4 (fMsg 1 contract.pb ++ fBytes 2 (utf8 method) ++ fReps 3 args ++ []) = [] := by pocc
      rw [getMsg, this]
      rfl
    | some c =>
      simp only at hf ⊢
      rw [msg_rt hf (contractAddress_tags contract) (by pocc) (contractAddress_prt _), pok_bind,
        getString_rt (s := method) (by pocc), pok_bind, getReps_rt (l := args) (by pocc), pok_bind]
      have ho : occ 4 (fMsg 1 contract.pb ++ fBytes 2 (utf8 method) ++ fReps 3 args ++ fMsg 4 c.pb) =
        [.bytes (encFields c.pb)] := by pocc
      have hc : PFits c.pb := (needMsg_rt hf (carrying_tags c) ho).2
      rw [getMsg, ho]
      simp only [List.foldlM_cons, List.foldlM_nil, parse_encFields (carrying_tags c) hc]
      show ((CarryingAsset.ofPb ([] ++ c.pb)).map some >>= _) = _
      rw [List.nil_append, carrying_prt c hc]
      rfl

theorem rawTx_tags (t : RawTx) : Tags t.pb := by
  unfold RawTx.pb
  rw [Action.pb_eq]
  have := t.action.member_fst
  have h : 1 ≤ t.action.member.1 ∧ t.action.member.1 ≤ 15 := by omega
  simp only [tags_append]
  exact ⟨⟨⟨⟨tags_fMsg (by decide), tags_fMsg (by decide)⟩, tags_fU64 (by decide)⟩, tags_fMsg (by decide)⟩, tags_fMsg h⟩

theorem occ_action (t : Nat) (a : Action) (ht : t < 5) : occ t a.pb = [] := by
  rw [Action.pb_eq, occ_fMsg]
  have := a.member_fst
  rw [if_neg (by omega)]

theorem filter_fMsg (ts : List Nat) (t : Nat) (m : PFields) :
    (fMsg t m).filter (fun f => decide (f.1 ∈ ts)) = if t ∈ ts then fMsg t m else [] := by
  by_cases h : t ∈ ts <;> simp [fMsg, h]

theorem filter_fU64 (ts : List Nat) (t : Nat) (n : UInt64) :
    (fU64 t n).filter (fun f => decide (f.1 ∈ ts)) = if t ∈ ts then fU64 t n else [] := by
  by_cases h : t ∈ ts <;> by_cases hn : n = 0 <;> simp [fU64, h, hn]

theorem rawTx_prt (t : RawTx) (hd : t.action.deploysNonAsset = false) (hf : PFits t.pb) : RawTx.ofPb t.pb = .ok t := by
  have ho : t.pb.filter (fun f => decide (f.1 ∈ [5, 6, 7, 8])) =
      [(t.action.member.1, .bytes (encFields t.action.member.2))] := by
    unfold RawTx.pb
    rw [Action.pb_eq]
    simp only [List.filter_append, filter_fMsg, filter_fU64]
    have := t.action.member_fst
    have hm : t.action.member.1 ∈ [5, 6, 7, 8] := by simpa using this
    rw [if_pos hm]
    simp [fMsg]
  obtain ⟨h1, h2⟩ := getOneof_rt hf t.action.member_tags ho
  unfold RawTx.ofPb
  rw [msg_rt hf (hash_tags t.chainId) (by unfold RawTx.pb; simp [occ_append, occ_action]; pocc) (fun _ => hash_prt _), pok_bind,
    msg_rt hf (hash_tags t.nonce) (by unfold RawTx.pb; simp [occ_append, occ_action]; pocc) (fun _ => hash_prt _), pok_bind,
    getU64_rt (n := t.timeout) (by unfold RawTx.pb; simp [occ_append, occ_action]; pocc), pok_bind,
    msg_rt hf (fee_tags t.fee) (by unfold RawTx.pb; simp [occ_append, occ_action]; pocc) (fee_prt _), pok_bind,
    h1, pok_bind]
  show (Action.ofPb (t.action.member.1, t.action.member.2) >>= _) = _
  rw [action_prt _ hd h2]
  rfl

theorem signedTx_tags (t : SignedTx) : Tags t.pb := by unfold SignedTx.pb; ptags
theorem signedTx_prt (t : SignedTx) (hd : t.raw.action.deploysNonAsset = false) (hf : PFits t.pb) :
    SignedTx.ofPb t.pb = .ok t := by
  unfold SignedTx.ofPb
  rw [msg_rt hf (rawTx_tags t.raw) (by unfold SignedTx.pb; pocc) (rawTx_prt _ hd), pok_bind,
    msg_rt hf (hash_tags t.txHash) (by unfold SignedTx.pb; pocc) (fun _ => hash_prt _), pok_bind,
    getBytes_rt (b := t.pubkey) (by unfold SignedTx.pb; pocc), pok_bind,
    getBytes_rt (b := t.signature) (by unfold SignedTx.pb; pocc), pok_bind]
  rfl

theorem bloom_prt (b : Bloom) : Bloom.fromSlice b.bytes = .ok b := by
  unfold Bloom.fromSlice; rw [dif_pos b.size]

/-- The wire fields of a receipt result. -/
def ReceiptResult.member : ReceiptResult → Nat × PFields
  | .transfer receiver asset before after =>
    (5, fMsg 1 receiver.pb ++ fMsg 2 (rootPb asset) ++ fMsg 3 (balancePb before) ++ fMsg 4 (balancePb after))
  | .approve spender asset max => (6, fMsg 1 spender.pb ++ fMsg 2 (rootPb asset) ++ fMsg 3 (balancePb max))
  | .deploy contract ty => (7, fMsg 1 contract.pb ++ fU64 2 ty.asI32)
  | .call contract ret bloom => (8, fMsg 1 contract.pb ++ fBytes 2 ret ++ fBytes 3 bloom.bytes)
  | .fail system user => (9, fBytes 1 (utf8 system) ++ fBytes 2 (utf8 user))

theorem ReceiptResult.pb_eq (a : ReceiptResult) : a.pb = fMsg a.member.1 a.member.2 := by cases a <;> rfl

theorem ReceiptResult.member_tags (a : ReceiptResult) : Tags a.member.2 := by
  cases a <;> · simp only [member]; ptags

theorem ReceiptResult.member_fst (a : ReceiptResult) :
    a.member.1 = 5 ∨ a.member.1 = 6 ∨ a.member.1 = 7 ∨ a.member.1 = 8 ∨ a.member.1 = 9 := by
  cases a <;> simp [member]

theorem result_prt (a : ReceiptResult) (hd : a.deploysNonAsset = false) (hf : PFits a.member.2) :
    ReceiptResult.ofPb a.member = .ok a := by
  cases a with
  | transfer receiver asset before after =>
    simp only [ReceiptResult.member] at hf ⊢
    simp only [ReceiptResult.ofPb, if_true]
    rw [msg_rt hf (userAddress_tags receiver) (by pocc) (userAddress_prt _), pok_bind,
      msg_rt hf (root_tags asset) (by pocc) (root_prt _), pok_bind,
      msg_rt hf (balance_tags before) (by pocc) (fun _ => balance_prt _), pok_bind,
      msg_rt hf (balance_tags after) (by pocc) (fun _ => balance_prt _), pok_bind]
    rfl
  | approve spender asset max =>
    simp only [ReceiptResult.member] at hf ⊢
    simp only [ReceiptResult.ofPb]
    rw [if_neg (by decide), if_pos trivial]
    rw [msg_rt hf (contractAddress_tags spender) (by pocc) (contractAddress_prt _), pok_bind,
      msg_rt hf (root_tags asset) (by pocc) (root_prt _), pok_bind,
      msg_rt hf (balance_tags max) (by pocc) (fun _ => balance_prt _), pok_bind]
    rfl
  | deploy contract ty =>
    simp only [ReceiptResult.member] at hf ⊢
    simp only [ReceiptResult.ofPb]
    rw [if_neg (by decide), if_neg (by decide), if_pos trivial]
    have : ty = .asset := by simpa [ReceiptResult.deploysNonAsset] using hd
    subst this
    rw [msg_rt hf (contractAddress_tags contract) (by pocc) (contractAddress_prt _), pok_bind,
      getU64_rt (n := ContractType.asset.asI32) (by pocc), pok_bind]
    rfl
  | call contract ret bloom =>
    simp only [ReceiptResult.member] at hf ⊢
    simp only [ReceiptResult.ofPb]
    rw [if_neg (by decide), if_neg (by decide), if_neg (by decide), if_pos trivial]
    rw [msg_rt hf (contractAddress_tags contract) (by pocc) (contractAddress_prt _), pok_bind,
      getBytes_rt (b := ret) (by pocc), pok_bind, getBytes_rt (b := bloom.bytes) (by pocc), pok_bind, bloom_prt, pok_bind]
    rfl
  | fail system user =>
    simp only [ReceiptResult.member] at hf ⊢
    simp only [ReceiptResult.ofPb]
    rw [if_neg (by decide), if_neg (by decide), if_neg (by decide), if_neg (by decide)]
    rw [getString_rt (s := system) (by pocc), pok_bind, getString_rt (s := user) (by pocc), pok_bind]
    rfl

theorem occ_result (t : Nat) (a : ReceiptResult) (ht : t < 5) : occ t a.pb = [] := by
  rw [ReceiptResult.pb_eq, occ_fMsg]
  have := a.member_fst
  rw [if_neg (by omega)]

theorem receipt_tags (t : Receipt) : Tags t.pb := by
  unfold Receipt.pb
  rw [ReceiptResult.pb_eq]
  have := t.result.member_fst
  have h : 1 ≤ t.result.member.1 ∧ t.result.member.1 ≤ 15 := by omega
  simp only [tags_append]
  exact ⟨⟨⟨⟨tags_fMsg (by decide), tags_fU64 (by decide)⟩, tags_fMsg (by decide)⟩, tags_fMsg (by decide)⟩, tags_fMsg h⟩

theorem receipt_prt (t : Receipt) (hd : t.result.deploysNonAsset = false) (hf : PFits t.pb) :
    Receipt.ofPb t.pb = .ok t := by
  have ho : t.pb.filter (fun f => decide (f.1 ∈ [5, 6, 7, 8, 9])) =
      [(t.result.member.1, .bytes (encFields t.result.member.2))] := by
    unfold Receipt.pb
    rw [ReceiptResult.pb_eq]
    simp only [List.filter_append, filter_fMsg, filter_fU64]
    have := t.result.member_fst
    have hm : t.result.member.1 ∈ [5, 6, 7, 8, 9] := by simpa using this
    rw [if_pos hm]
    simp [fMsg]
  obtain ⟨h1, h2⟩ := getOneof_rt hf t.result.member_tags ho
  unfold Receipt.ofPb
  rw [msg_rt hf (hash_tags t.stateRoot) (by unfold Receipt.pb; simp [occ_append, occ_result]; pocc) (fun _ => hash_prt _),
    pok_bind,
    getU64_rt (n := t.epochId) (by unfold Receipt.pb; simp [occ_append, occ_result]; pocc), pok_bind,
    msg_rt hf (hash_tags t.txHash) (by unfold Receipt.pb; simp [occ_append, occ_result]; pocc) (fun _ => hash_prt _), pok_bind,
    msg_rt hf (fee_tags t.cyclesUsed) (by unfold Receipt.pb; simp [occ_append, occ_result]; pocc) (fee_prt _), pok_bind,
    h1, pok_bind]
  show (ReceiptResult.ofPb (t.result.member.1, t.result.member.2) >>= _) = _
  rw [result_prt _ hd h2]
  rfl

/-! ### Epochs -/

theorem proof_tags (p : Proof) : Tags p.pb := by unfold Proof.pb; ptags
theorem proof_prt (p : Proof) (hf : PFits p.pb) : Proof.ofPb p.pb = .ok p := by
  unfold Proof.ofPb
  rw [getU64_rt (n := p.epochId) (by unfold Proof.pb; pocc), pok_bind,
    getU64_rt (n := p.round) (by unfold Proof.pb; pocc), pok_bind,
    msg_rt hf (hash_tags p.epochHash) (by unfold Proof.pb; pocc) (fun _ => hash_prt _), pok_bind,
    getBytes_rt (b := p.signature) (by unfold Proof.pb; pocc), pok_bind,
    getBytes_rt (b := p.bitmap) (by unfold Proof.pb; pocc), pok_bind]
  rfl

theorem weight_rt (w : UInt8) : UInt8.ofNat (UInt64.ofNat w.toNat).toNat = w := by
  have h := w.toNat_lt
  have : (UInt64.ofNat w.toNat).toNat = w.toNat := by
    rw [UInt64.toNat_ofNat']; exact Nat.mod_eq_of_lt (by omega)
  rw [this]; exact UInt8.ofNat_toNat

theorem validator_tags (v : Validator) : Tags v.pb := by unfold Validator.pb; ptags
theorem validator_prt (v : Validator) (hf : PFits v.pb) : Validator.ofPb v.pb = .ok v := by
  unfold Validator.ofPb
  rw [msg_rt hf (userAddress_tags v.address) (by unfold Validator.pb; pocc) (userAddress_prt _), pok_bind,
    getU64_rt (n := UInt64.ofNat v.proposeWeight.toNat) (by unfold Validator.pb; pocc), pok_bind,
    getU64_rt (n := UInt64.ofNat v.voteWeight.toNat) (by unfold Validator.pb; pocc), pok_bind]
  rw [weight_rt, weight_rt]
  rfl

theorem header_tags (h : EpochHeader) : Tags h.pb := by unfold EpochHeader.pb; ptags
theorem header_prt (h : EpochHeader) (hf : PFits h.pb) : EpochHeader.ofPb h.pb = .ok h := by
  unfold EpochHeader.ofPb
  rw [msg_rt hf (hash_tags h.chainId) (by unfold EpochHeader.pb; pocc) (fun _ => hash_prt _), pok_bind,
    getU64_rt (n := h.epochId) (by unfold EpochHeader.pb; pocc), pok_bind,
    msg_rt hf (hash_tags h.preHash) (by unfold EpochHeader.pb; pocc) (fun _ => hash_prt _), pok_bind,
    getU64_rt (n := h.timestamp) (by unfold EpochHeader.pb; pocc), pok_bind,
    msg_rt hf (hash_tags h.orderRoot) (by unfold EpochHeader.pb; pocc) (fun _ => hash_prt _), pok_bind,
    getMsgs_rt (l := h.confirmRoot) Hash.pb Hash.ofPb hf (fun x _ => hash_tags x) (fun x _ _ => hash_prt x)
      (by unfold EpochHeader.pb; pocc), pok_bind,
    msg_rt hf (hash_tags h.stateRoot) (by unfold EpochHeader.pb; pocc) (fun _ => hash_prt _), pok_bind,
    getMsgs_rt (l := h.receiptRoot) Hash.pb Hash.ofPb hf (fun x _ => hash_tags x) (fun x _ _ => hash_prt x)
      (by unfold EpochHeader.pb; pocc), pok_bind,
    getU64_rt (n := h.cyclesUsed) (by unfold EpochHeader.pb; pocc), pok_bind,
    msg_rt hf (userAddress_tags h.proposer) (by unfold EpochHeader.pb; pocc) (userAddress_prt _), pok_bind,
    msg_rt hf (proof_tags h.proof) (by unfold EpochHeader.pb; pocc) (proof_prt _), pok_bind,
    getU64_rt (n := h.validatorVersion) (by unfold EpochHeader.pb; pocc), pok_bind,
    getMsgs_rt (l := h.validators) Validator.pb Validator.ofPb hf (fun x _ => validator_tags x)
      (fun x _ => validator_prt x) (by unfold EpochHeader.pb; pocc), pok_bind,
    getBytes_rt (b := h.logsBloom.bytes) (by unfold EpochHeader.pb; pocc), pok_bind, bloom_prt, pok_bind]
  rfl

theorem epoch_tags (e : Epoch) : Tags e.pb := by unfold Epoch.pb; ptags
theorem epoch_prt (e : Epoch) (hf : PFits e.pb) : Epoch.ofPb e.pb = .ok e := by
  unfold Epoch.ofPb
  rw [msg_rt hf (header_tags e.header) (by unfold Epoch.pb; pocc) (header_prt _), pok_bind,
    getMsgs_rt (l := e.orderedTxHashes) Hash.pb Hash.ofPb hf (fun x _ => hash_tags x) (fun x _ _ => hash_prt x)
      (by unfold Epoch.pb; pocc), pok_bind]
  rfl

theorem pill_tags (p : Pill) : Tags p.pb := by unfold Pill.pb; ptags
theorem pill_prt (p : Pill) (hf : PFits p.pb) : Pill.ofPb p.pb = .ok p := by
  unfold Pill.ofPb
  rw [msg_rt hf (epoch_tags p.epoch) (by unfold Pill.pb; pocc) (epoch_prt _), pok_bind,
    getMsgs_rt (l := p.proposeHashes) Hash.pb Hash.ofPb hf (fun x _ => hash_tags x) (fun x _ _ => hash_prt x)
      (by unfold Pill.pb; pocc), pok_bind]
  rfl

theorem epochId_tags (e : EpochId) : Tags e.pb := by unfold EpochId.pb; ptags
theorem epochId_prt (e : EpochId) : EpochId.ofPb e.pb = .ok e := by
  unfold EpochId.ofPb
  rw [getU64_rt (n := e.id) (by unfold EpochId.pb; pocc)]
  rfl

end Huobi
