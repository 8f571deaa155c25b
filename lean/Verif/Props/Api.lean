import Verif.Model.Api
import Verif.Proof.Hex
import Verif.Proof.Rlp
import Verif.Spec.Demo
/-
C49 (addresses, hashes), C51 (numbers of the API) and C62 (transactions submitted through the API).
-/
namespace Huobi

/-! ### Texts that denote the same bytes -/

/-- `t` is `s` up to the case of ASCII letters. -/
def Recased (s t : List Char) : Prop := s.map Char.toLower = t.map Char.toLower

/-- `txt` is the text `s`, in either case and with or without `0x` in front. -/
def Writes (txt s : List Char) : Prop := ∃ t, Recased s t ∧ (txt = t ∨ txt = '0' :: 'x' :: t)

theorem toLower_hexDigit {n : Nat} (h : n < 16) : (hexDigit n).toLower = hexDigit n := by
  have : ∀ m : Fin 16, (hexDigit m.1).toLower = hexDigit m.1 := by decide
  exact this ⟨n, h⟩

/-- A character whose lower case is a hex digit is one of at most two. -/
theorem of_toLower_eq {c d : Char} (h : c.toLower = d) : c = d ∨ c.toNat + 32 = d.toNat := by
  by_cases hc : c.toNat ≥ 65 ∧ c.toNat ≤ 90
  · right
    rw [← h]
    have : ∀ m : Fin 26, (Char.ofNat (65 + m.1)).toLower.toNat = 65 + m.1 + 32 := by decide
    have h1 := this ⟨c.toNat - 65, by omega⟩
    simp only at h1
    have h2 : 65 + (c.toNat - 65) = c.toNat := by omega
    rw [h2, Char.ofNat_toNat] at h1
    omega
  · left
    rw [← h]
    unfold Char.toLower
    rw [dif_neg]
    intro hx
    apply hc
    obtain ⟨h1, h2⟩ := hx
    simp only [ge_iff_le, UInt32.le_iff_toNat_le] at h1 h2
    exact ⟨h1, h2⟩

theorem char_cases {c : Char} {n : Nat} (hn : n < 16) (h : c.toLower = hexDigit n) :
    ∃ u, Api.upperChar c = [u] ∧ hexVal u = some n ∧ hexVal c = some n ∧ c ≠ 'x' ∧ u ≠ 'x' ∧ u ≠ '+' := by
  have key : ∀ m : Fin 16, ∀ b : Bool,
      let c := if b then hexDigit m.1 else Char.ofNat ((hexDigit m.1).toNat - 32)
      (b = true ∨ (c.toLower = hexDigit m.1)) →
      ∃ u ∈ [Char.ofNat (c.toNat - 32), c], Api.upperChar c = [u] ∧ hexVal u = some m.1 ∧ hexVal c = some m.1 ∧ c ≠ 'x' ∧ u ≠ 'x' ∧ u ≠ '+' := by
    decide
  rcases of_toLower_eq h with h1 | h1
  · obtain ⟨u, _, hu⟩ := key ⟨n, hn⟩ true (.inl rfl)
    subst h1
    exact ⟨u, hu⟩
  · have hc : c = Char.ofNat ((hexDigit n).toNat - 32) := by
      rw [← h1, Nat.add_sub_cancel, Char.ofNat_toNat]
    obtain ⟨u, _, hu⟩ := key ⟨n, hn⟩ false (.inr (by simp only [Bool.false_eq_true, if_false]; rw [← hc]; exact h))
    simp only [Bool.false_eq_true, if_false] at hu
    rw [← hc] at hu
    exact ⟨u, hu⟩

/-- The 4-bit digits of a byte string. -/
def nibbles (b : Bytes) : List Nat := b.flatMap (fun x => [x.toNat / 16, x.toNat % 16])

theorem hexEncode_eq (b : Bytes) : hexEncode b = (nibbles b).map hexDigit := by
  induction b with
  | nil => rfl
  | cons x xs ih => simp [hexEncode, nibbles, ih]

theorem nibbles_lt (b : Bytes) : ∀ n ∈ nibbles b, n < 16 := by
  intro n hn
  obtain ⟨x, _, hx⟩ := List.mem_flatMap.mp hn
  have := x.toNat_lt
  simp at hx; omega

/-- Decoding depends only on the values of the digits. -/
theorem hexDecode_of_vals (b : Bytes) : ∀ s : List Char, s.map hexVal = (nibbles b).map some → hexDecode s = some b := by
  induction b with
  | nil => intro s h; simp [nibbles] at h; subst h; rfl
  | cons x xs ih =>
    intro s h
    match s, h with
    | c :: d :: rest, h =>
      simp only [nibbles, List.flatMap_cons, List.cons_append, List.nil_append, List.map_cons, List.cons.injEq] at h
      obtain ⟨h1, h2, h3⟩ := h
      rw [hexDecode, h1, h2, ih rest h3]
      simp only [Option.some.injEq, List.cons.injEq, and_true]
      rw [Nat.div_add_mod]; simp
    | [c], h => simp [nibbles] at h
    | [], h => simp [nibbles] at h

theorem digitsVal_of_vals (ns : List Nat) : ∀ (s : List Char) (acc : Nat), s.map hexVal = ns.map some →
    s.foldlM (fun acc c => (hexVal c).map (fun d => 16 * acc + d)) acc = some (ns.foldl (fun a d => 16 * a + d) acc) := by
  induction ns with
  | nil => intro s acc h; simp at h; subst h; rfl
  | cons n ns ih =>
    intro s acc h
    match s, h with
    | c :: rest, h =>
      simp only [List.map_cons, List.cons.injEq] at h
      rw [List.foldlM_cons, h.1]
      exact ih rest _ h.2
    | [], h => simp at h

theorem foldl_nibbles (b : Bytes) : ∀ acc, (nibbles b).foldl (fun a d => 16 * a + d) acc = b.foldl (fun a x => a * 256 + x.toNat) acc := by
  induction b with
  | nil => intro acc; rfl
  | cons x xs ih =>
    intro acc
    simp only [nibbles, List.flatMap_cons, List.cons_append, List.nil_append, List.foldl_cons] at ih ⊢
    have : 16 * (16 * acc + x.toNat / 16) + x.toNat % 16 = acc * 256 + x.toNat := by
      have := Nat.div_add_mod x.toNat 16; omega
    rw [this]; exact ih _

theorem recased_vals (ns : List Nat) (hn : ∀ n ∈ ns, n < 16) : ∀ t, Recased (ns.map hexDigit) t →
    (t.flatMap Api.upperChar).map hexVal = ns.map some ∧ t.map hexVal = ns.map some ∧ (∀ c ∈ t, c ≠ 'x') ∧
    (∀ c ∈ t.flatMap Api.upperChar, c ≠ 'x' ∧ c ≠ '+') := by
  induction ns with
  | nil =>
    intro t h
    have : t = [] := by simpa [Recased] using h.symm
    subst this; simp
  | cons n ns ih =>
    intro t h
    match t, h with
    | c :: t, h =>
      simp only [Recased, List.map_cons, List.cons.injEq] at h
      rw [toLower_hexDigit (hn n (by simp))] at h
      obtain ⟨u, hu, hv, hv', h1, h2, h3⟩ := char_cases (hn n (by simp)) h.1.symm
      obtain ⟨i1, i2, i3, i4⟩ := ih (fun m hm => hn m (by simp [hm])) t h.2
      refine ⟨by simp [hu, hv, i1], by simp [hv', i2], ?_, ?_⟩
      · intro d hd; rcases List.mem_cons.mp hd with rfl | hd
        · exact h1
        · exact i3 d hd
      · intro d hd
        rw [List.flatMap_cons, hu] at hd
        rcases List.mem_cons.mp hd with rfl | hd
        · exact ⟨h2, h3⟩
        · exact i4 d hd
    | [], h => simp [Recased] at h

theorem clean0x_of_no_x {t : List Char} (h : ∀ c ∈ t, c ≠ 'x') : clean0x t = t := by
  unfold clean0x
  split
  · exact absurd rfl (h 'x' (by simp))
  · rfl

/-- The digits of any text that writes the hex form of `b`, as `from_hex` and as the API see them. -/
theorem writes_vals {txt : List Char} {b : Bytes} (h : Writes txt (hexEncode b)) :
    (clean0x txt).map hexVal = (nibbles b).map some ∧
    (Api.asHex txt).map hexVal = (nibbles b).map some ∧ (∀ c ∈ Api.asHex txt, c ≠ 'x' ∧ c ≠ '+') := by
  obtain ⟨t, hr, ht⟩ := h
  rw [hexEncode_eq] at hr
  obtain ⟨i1, i2, i3, i4⟩ := recased_vals _ (nibbles_lt b) t hr
  have hc : clean0x txt = t := by
    rcases ht with rfl | rfl
    · exact clean0x_of_no_x i3
    · rfl
  rw [Api.asHex, hc]
  exact ⟨i2, i1, i4⟩

theorem writes_decode {txt : List Char} {b : Bytes} (h : Writes txt (hexEncode b)) : hexDecode (clean0x txt) = some b :=
  hexDecode_of_vals b _ (writes_vals h).1

theorem writes_asHex {txt : List Char} {b : Bytes} (h : Writes txt (hexEncode b)) : hexDecode (Api.asHex txt) = some b :=
  hexDecode_of_vals b _ (writes_vals h).2.1

theorem writes_clean_asHex {txt : List Char} {b : Bytes} (h : Writes txt (hexEncode b)) :
    hexDecode (clean0x (Api.asHex txt)) = some b := by
  rw [clean0x_of_no_x (fun c hc => ((writes_vals h).2.2 c hc).1)]
  exact writes_asHex h

/-! ### C49 -/

/-- **C49, bytes.**  The constructors accept exactly the byte strings of the right length and tag, and the value keeps
the bytes. -/
theorem C49_bytes_exact (b : Bytes) :
    ((Hash.fromBytes b).isSome ↔ b.length = 32) ∧
    ((UserAddress.fromBytes b).isSome ↔ b.length = 21 ∧ b.head? = some 0x10) ∧
    ((ContractAddress.fromBytes b).isSome ↔
      b.length = 21 ∧ (b.head? = some 0x20 ∨ b.head? = some 0x21 ∨ b.head? = some 0x22 ∨ b.head? = some 0x23)) ∧
    ((Address.fromBytes b).isSome ↔ b.length = 21 ∧
      (b.head? = some 0x10 ∨ b.head? = some 0x20 ∨ b.head? = some 0x21 ∨ b.head? = some 0x22 ∨ b.head? = some 0x23)) := by
  have hu : (UserAddress.fromBytes b).isSome ↔ b.length = 21 ∧ b.head? = some 0x10 := by
    unfold UserAddress.fromBytes accountMagic
    cases b with
    | nil => simp
    | cons x xs =>
      by_cases hx : x = 0x10
      · by_cases hl : xs.length = 20 <;> simp [hx, hl]
      · simp [hx]
  have hc : (ContractAddress.fromBytes b).isSome ↔
      b.length = 21 ∧ (b.head? = some 0x20 ∨ b.head? = some 0x21 ∨ b.head? = some 0x22 ∨ b.head? = some 0x23) := by
    unfold ContractAddress.fromBytes
    cases b with
    | nil => simp
    | cons x xs =>
      simp only [ContractType.ofMagic, List.length_cons, List.head?_cons, Option.some.injEq]
      by_cases h0 : x = 0x20
      · by_cases hl : xs.length = 20 <;> simp [h0, hl]
      · by_cases h1 : x = 0x21
        · by_cases hl : xs.length = 20 <;> simp [h1, hl]
        · by_cases h2 : x = 0x22
          · by_cases hl : xs.length = 20 <;> simp [h2, hl]
          · by_cases h3 : x = 0x23
            · by_cases hl : xs.length = 20 <;> simp [h3, hl]
            · simp [h0, h1, h2, h3]
  refine ⟨?_, hu, hc, ?_⟩
  · unfold Hash.fromBytes; by_cases h : b.length = 32 <;> simp [h]
  · cases b with
    | nil => simp [Address.fromBytes]
    | cons x xs =>
      simp only [Address.fromBytes]
      by_cases hx : x = accountMagic
      · rw [if_pos hx, Option.isSome_map, hu]
        have hx' : x = 0x10 := hx
        simp [hx']
      · rw [if_neg hx, Option.isSome_map, hc]
        have hx' : ¬ x = 0x10 := hx
        simp [hx']

/-- **C49, bytes round trip both ways**: a value's bytes give back the value, and the accepted byte string is the value's. -/
theorem C49_bytes_round_trip :
    (∀ h : Hash, Hash.fromBytes h.bytes = some h) ∧ (∀ b h, Hash.fromBytes b = some h → h.bytes = b) ∧
    (∀ a : UserAddress, UserAddress.fromBytes a.toBytes = some a) ∧ (∀ b a, UserAddress.fromBytes b = some a → a.toBytes = b) ∧
    (∀ a : ContractAddress, ContractAddress.fromBytes a.toBytes = some a) ∧
    (∀ b a, ContractAddress.fromBytes b = some a → a.toBytes = b) ∧
    (∀ a : Address, Address.fromBytes a.toBytes = some a) ∧ (∀ b a, Address.fromBytes b = some a → a.toBytes = b) := by
  have hu : ∀ b a, UserAddress.fromBytes b = some a → a.toBytes = b := by
    intro b a h
    unfold UserAddress.fromBytes at h
    cases b with
    | nil => cases h
    | cons x xs =>
      simp only at h
      split at h
      · cases h
      · rename_i hx
        split at h
        · cases h; simp only [ne_eq, not_not] at hx; rw [UserAddress.toBytes, hx]
        · cases h
  have hc : ∀ b a, ContractAddress.fromBytes b = some a → a.toBytes = b := by
    intro b a h
    unfold ContractAddress.fromBytes at h
    cases b with
    | nil => cases h
    | cons x xs =>
      simp only at h
      split at h
      · cases h
      · rename_i ty hty
        split at h
        · cases h
          have : ty.magic = x := by
            unfold ContractType.ofMagic at hty
            repeat' split at hty
            all_goals (try cases hty)
            all_goals simp_all [ContractType.magic]
          rw [ContractAddress.toBytes, this]
        · cases h
  refine ⟨Hash.fromBytes_bytes, ?_, UserAddress.fromBytes_toBytes, hu, ContractAddress.fromBytes_toBytes, hc,
    Address.fromBytes_toBytes, ?_⟩
  · intro b h hb
    unfold Hash.fromBytes at hb
    split at hb
    · cases hb; rfl
    · cases hb
  · intro b a h
    unfold Address.fromBytes at h
    cases b with
    | nil => cases h
    | cons x xs =>
      simp only at h
      split at h
      · obtain ⟨u, h1, rfl⟩ := Option.map_eq_some_iff.mp h; exact hu _ u h1
      · obtain ⟨u, h1, rfl⟩ := Option.map_eq_some_iff.mp h; exact hc _ u h1

/-- **C49, kinds.**  Two addresses with the same bytes are the same address; so a user address never coincides with a
contract address, and the type of a contract is determined by its address. -/
theorem C49_unambiguous :
    (∀ a a' : Address, a.toBytes = a'.toBytes → a = a') ∧
    (∀ (u : UserAddress) (c : ContractAddress), u.toBytes ≠ c.toBytes) ∧
    (∀ c c' : ContractAddress, c.toBytes = c'.toBytes → c.ty = c'.ty) := by
  have hinj : ∀ a a' : Address, a.toBytes = a'.toBytes → a = a' := by
    intro a a' h
    have h1 := Address.fromBytes_toBytes a
    have h2 := Address.fromBytes_toBytes a'
    rw [h, h2] at h1
    exact (Option.some.inj h1).symm
  refine ⟨hinj, fun u c h => ?_, fun c c' h => ?_⟩
  · have := hinj (.user u) (.contract c) h
    cases this
  · have := hinj (.contract c) (.contract c') h
    cases this; rfl

/-- **C49, hex.**  The hex text of a hash or address, in either case and with or without `0x`, is read as that value. -/
theorem C49_hex_round_trip (txt : List Char) :
    (∀ h : Hash, Writes txt (Hash.toHex h) → Hash.fromHex txt = some h) ∧
    (∀ a : Address, Writes txt (Address.toHex a) → Address.fromHex txt = some a) ∧
    (∀ a : UserAddress, Writes txt (hexEncode a.toBytes) → UserAddress.fromHex txt = some a) ∧
    (∀ a : ContractAddress, Writes txt (hexEncode a.toBytes) → ContractAddress.fromHex txt = some a) := by
  refine ⟨fun h hw => ?_, fun h hw => ?_, fun h hw => ?_, fun h hw => ?_⟩
  · rw [Hash.fromHex, writes_decode hw]; exact Hash.fromBytes_bytes h
  · rw [Address.fromHex, writes_decode hw]; exact Address.fromBytes_toBytes h
  · rw [UserAddress.fromHex, writes_decode hw]; exact UserAddress.fromBytes_toBytes h
  · rw [ContractAddress.fromHex, writes_decode hw]; exact ContractAddress.fromBytes_toBytes h

/-- Decoding succeeds only on an even number of hex digits, whose values are the bytes. -/
theorem hexDecode_some : ∀ (s : List Char) (b : Bytes), hexDecode s = some b → s.map hexVal = (nibbles b).map some
  | [], b, h => by cases h; rfl
  | [_], b, h => by cases h
  | c :: d :: rest, b, h => by
    rw [hexDecode] at h
    split at h
    · rename_i x y bs hx hy hr
      cases h
      have hv : ∀ c n, hexVal c = some n → n < 16 := by
        intro c n h; unfold hexVal at h; simp only at h
        repeat' split at h
        all_goals (try cases h)
        all_goals omega
      have h1 := hv c x hx
      have h2 := hv d y hy
      have hn : (UInt8.ofNat (16 * x + y)).toNat = 16 * x + y := by
        rw [UInt8.toNat_ofNat']; omega
      have e1 : (16 * x + y) / 16 = x := by omega
      have e2 : (16 * x + y) % 16 = y := by omega
      simp only [nibbles, List.flatMap_cons, List.cons_append, List.nil_append, List.map_cons, hn, e1, e2, hx, hy]
      rw [hexDecode_some rest bs hr]; rfl
    · cases h

/-- **C49, hex, exactly what is accepted.**  A text is accepted as a hash iff, after an optional `0x`, it is the hex digits
of the hash's 32 bytes: 64 digits with those values. -/
theorem C49_hex_exact (txt : List Char) (h : Hash) :
    Hash.fromHex txt = some h ↔ (clean0x txt).map hexVal = (nibbles h.bytes).map some := by
  constructor
  · intro hx
    unfold Hash.fromHex at hx
    obtain ⟨b, hb, hf⟩ := Option.bind_eq_some_iff.mp hx
    rw [C49_bytes_round_trip.2.1 b h hf]
    exact hexDecode_some _ _ hb
  · intro hv
    rw [Hash.fromHex, hexDecode_of_vals h.bytes _ hv]
    exact Hash.fromBytes_bytes h

/-- A mixed-case text with `0x` is a case of `C49_hex_round_trip`. -/
example : Writes ("0xAb".toList ++ List.replicate 62 '0') (Hash.toHex (⟨171 :: List.replicate 31 0, rfl⟩ : Hash)) :=
  ⟨"Ab".toList ++ List.replicate 62 '0', by unfold Recased; decide, .inr rfl⟩

/-! ### C51 -/

theorem natOfBE_u64BE (n : UInt64) : natOfBE (u64BE n) = n.toNat := by
  have e : ∀ k : UInt64, k.toUInt8.toNat = k.toNat % 256 := fun k => by simp
  have hlt := n.toNat_lt
  have s56 : (56 : UInt64).toNat % 64 = 56 := by decide
  have s48 : (48 : UInt64).toNat % 64 = 48 := by decide
  have s40 : (40 : UInt64).toNat % 64 = 40 := by decide
  have s32 : (32 : UInt64).toNat % 64 = 32 := by decide
  have s24 : (24 : UInt64).toNat % 64 = 24 := by decide
  have s16 : (16 : UInt64).toNat % 64 = 16 := by decide
  have s8 : (8 : UInt64).toNat % 64 = 8 := by decide
  simp only [natOfBE, u64BE, List.foldl_cons, List.foldl_nil, e, UInt64.toNat_shiftRight, Nat.shiftRight_eq_div_pow,
    s56, s48, s40, s32, s24, s16, s8]
  omega

/-- **C51, numbers.**  The text the API shows for a `u64` or a balance, sent back in either case and with or without
`0x`, denotes the same number. -/
theorem C51_round_trip (txt : List Char) :
    (∀ n : UInt64, Writes txt (Api.showU64 n) → Api.readU64 txt = some n) ∧
    (∀ n : Nat, Writes txt (Api.showBalance n) → Api.readBalance txt = some n) := by
  constructor
  · intro n h
    obtain ⟨_, hv, hx⟩ := writes_vals h
    have hne : Api.asHex txt ≠ [] := by
      intro h0; rw [h0] at hv; simp [nibbles, u64BE] at hv
    unfold Api.readU64 Api.fromStrRadix16
    have hd : Api.stripPlus (Api.asHex txt) = Api.asHex txt := by
      unfold Api.stripPlus
      split
      · rename_i heq; exact absurd rfl (hx '+' (by rw [heq]; simp)).2
      · rfl
    rw [hd]
    simp only [if_neg hne, Api.digitsVal]
    rw [digitsVal_of_vals _ _ 0 hv, foldl_nibbles]
    have := natOfBE_u64BE n
    unfold natOfBE at this
    simp only [this, n.toNat_lt, if_true, UInt64.ofNat_toNat]
  · intro n h
    rw [Api.readBalance, writes_asHex h]
    simp only [Option.map_some, natOfBE_bigBE]

/-- The characters the API takes for hex digits: the hex digits, and the ligature `ﬀ`. -/
theorem upperChar_hex {c : Char} (h : ∀ u ∈ Api.upperChar c, (hexVal u).isSome = true) :
    (hexVal c).isSome = true ∨ c.toNat = 0xFB00 := by
  unfold Api.upperChar at h
  split at h
  · rename_i hc
    left
    have : ∀ m : Fin 26, (hexVal (Char.ofNat (97 + m.1 - 32))).isSome = true → (hexVal (Char.ofNat (97 + m.1))).isSome = true := by
      decide
    have h1 := this ⟨c.toNat - 97, by omega⟩
    simp only at h1
    have h2 : 97 + (c.toNat - 97) = c.toNat := by omega
    rw [h2, Char.ofNat_toNat] at h1
    exact h1 (h _ (by simp))
  · split at h
    · right; assumption
    · left; exact h c (by simp)

theorem digitsVal_some : ∀ (s : List Char) (acc n : Nat),
    s.foldlM (fun acc c => (hexVal c).map (fun d => 16 * acc + d)) acc = some n →
    ∃ ns : List Nat, s.map hexVal = ns.map some ∧ n = ns.foldl (fun a d => 16 * a + d) acc
  | [], acc, n, h => ⟨[], rfl, by cases h; rfl⟩
  | c :: s, acc, n, h => by
    rw [List.foldlM_cons] at h
    cases hc : hexVal c with
    | none => rw [hc] at h; cases h
    | some d =>
      rw [hc] at h
      obtain ⟨ns, h1, h2⟩ := digitsVal_some s (16 * acc + d) n h
      exact ⟨d :: ns, by simp [hc, h1], h2⟩

/-- **C51, what is accepted as a `u64`**: after an optional `0x`, an optional `+` and at least one digit; the characters
are hex digits (or the ligature `ﬀ`, see `C51_malformed_refuted`), and the number is their value in base 16. -/
theorem C51_u64_accepts_partial (txt : List Char) (n : UInt64) (h : Api.readU64 txt = some n) :
    (∃ ns : List Nat, ns ≠ [] ∧
      ((Api.asHex txt).map hexVal = ns.map some ∨ ∃ ds, Api.asHex txt = '+' :: ds ∧ ds.map hexVal = ns.map some) ∧
      n.toNat = ns.foldl (fun a d => 16 * a + d) 0) ∧
    (∀ c ∈ clean0x txt, (hexVal c).isSome = true ∨ c.toNat = 0xFB00 ∨ c = '+') := by
  unfold Api.readU64 Api.fromStrRadix16 at h
  have key : ∀ ds : List Char, (if ds = [] then none else match Api.digitsVal ds with
        | some n => if n < 2 ^ 64 then some (UInt64.ofNat n) else none
        | none => none) = some n →
      ∃ ns : List Nat, ns ≠ [] ∧ ds.map hexVal = ns.map some ∧ n.toNat = ns.foldl (fun a d => 16 * a + d) 0 := by
    intro ds hds
    split at hds
    · cases hds
    · rename_i hne
      split at hds
      · rename_i m hm
        obtain ⟨ns, h1, h2⟩ := digitsVal_some ds 0 m hm
        split at hds
        · rename_i hlt
          cases hds
          refine ⟨ns, ?_, h1, ?_⟩
          · rintro rfl; exact hne (by simpa using h1)
          · rw [UInt64.toNat_ofNat', Nat.mod_eq_of_lt hlt, h2]
        · cases hds
      · cases hds
  have fin : ∀ ns : List Nat, ((Api.asHex txt).map hexVal = ns.map some ∨
      ∃ ds, Api.asHex txt = '+' :: ds ∧ ds.map hexVal = ns.map some) →
      ∀ c ∈ clean0x txt, (hexVal c).isSome = true ∨ c.toNat = 0xFB00 ∨ c = '+' := by
    intro ns hns c hc
    have hall : ∀ u ∈ Api.asHex txt, (hexVal u).isSome = true ∨ u = '+' := by
      intro u hu
      rcases hns with h1 | ⟨ds, h1, h2⟩
      · left
        have : hexVal u ∈ ns.map some := by rw [← h1]; exact List.mem_map_of_mem hu
        obtain ⟨k, _, hk⟩ := List.mem_map.mp this
        rw [← hk]; rfl
      · rw [h1] at hu
        rcases List.mem_cons.mp hu with rfl | hu
        · right; rfl
        · left
          have : hexVal u ∈ ns.map some := by rw [← h2]; exact List.mem_map_of_mem hu
          obtain ⟨k, _, hk⟩ := List.mem_map.mp this
          rw [← hk]; rfl
    have hsub : ∀ u ∈ Api.upperChar c, (hexVal u).isSome = true ∨ u = '+' :=
      fun u hu => hall u (List.mem_flatMap.mpr ⟨c, hc, hu⟩)
    by_cases hp : '+' ∈ Api.upperChar c
    · right; right
      unfold Api.upperChar at hp
      split at hp
      · rename_i hcc
        have : ∀ m : Fin 26, '+' ≠ Char.ofNat (97 + m.1 - 32) := by decide
        have h1 := this ⟨c.toNat - 97, by omega⟩
        simp only at h1
        have h2 : 97 + (c.toNat - 97) = c.toNat := by omega
        rw [h2] at h1
        exact absurd (List.mem_singleton.mp hp) h1
      · split at hp
        · exact absurd hp (by decide)
        · exact (List.mem_singleton.mp hp).symm
    · rcases upperChar_hex (c := c) (fun u hu => (hsub u hu).resolve_right (fun h => hp (h ▸ hu))) with h1 | h1
      · exact .inl h1
      · exact .inr (.inl h1)
  have hk := key _ h
  unfold Api.stripPlus at hk
  split at hk
  · rename_i rest heq
    obtain ⟨ns, h0, h1, h2⟩ := hk
    have hor : (Api.asHex txt).map hexVal = ns.map some ∨ ∃ ds, Api.asHex txt = '+' :: ds ∧ ds.map hexVal = ns.map some :=
      .inr ⟨rest, heq, h1⟩
    exact ⟨⟨ns, h0, hor, h2⟩, fin ns hor⟩
  · obtain ⟨ns, h0, h1, h2⟩ := hk
    exact ⟨⟨ns, h0, .inl h1, h2⟩, fin ns (.inl h1)⟩

/-- **C51 refuted for malformed numbers.**  `+1` and the ligature `ﬀ` are accepted as the numbers 1 and 255, an empty
amount is accepted as 0, while the well-formed amount `f` is rejected because its number of digits is odd. -/
theorem C51_malformed_refuted :
    Api.readU64 "+1".toList = some 1 ∧ Api.readU64 "ﬀ".toList = some 255 ∧ Api.readBalance [] = some 0 ∧
    Api.readBalance "0x".toList = some 0 ∧ Api.readBalance "f".toList = none := by
  decide

example : Writes "0x00000000000000Ff".toList (Api.showU64 255) := ⟨"00000000000000Ff".toList, by unfold Recased; decide, .inr rfl⟩

/-! ### C62 -/

/-- The input fields write the parts of the transaction. -/
structure Describes (i : Api.InputRaw) (e : Api.InputSig) (t : SignedTx) : Prop where
  chainId : Writes i.chainId (Hash.toHex t.raw.chainId)
  nonce : Writes i.nonce (Hash.toHex t.raw.nonce)
  timeout : Writes i.timeout (Api.showU64 t.raw.timeout)
  feeAsset : Writes i.feeAssetId (Hash.toHex t.raw.fee.assetId)
  feeCycle : Writes i.feeCycle (Api.showU64 t.raw.fee.cycle)
  txHash : Writes e.txHash (Hash.toHex t.txHash)
  pubkey : Writes e.pubkey (Api.showBytes t.pubkey)
  signature : Writes e.signature (Api.showBytes t.signature)

theorem readHash_writes {txt : List Char} {h : Hash} (hw : Writes txt (Hash.toHex h)) : Api.readHash txt = some h := by
  rw [Api.readHash, Hash.fromHex, writes_clean_asHex hw]; exact Hash.fromBytes_bytes h

theorem coverSigned_writes {i : Api.InputRaw} {e : Api.InputSig} {t : SignedTx} (h : Describes i e t) :
    Api.coverSigned t.raw.action i e = some t := by
  have hb : ∀ {txt : List Char} {b : Bytes}, Writes txt (Api.showBytes b) → Api.readBytes txt = some b :=
    fun hw => writes_asHex hw
  simp only [Api.coverSigned, Api.coverRaw, readHash_writes h.chainId, readHash_writes h.nonce, readHash_writes h.feeAsset,
    readHash_writes h.txHash, (C51_round_trip _).1 _ h.timeout, (C51_round_trip _).1 _ h.feeCycle, hb h.pubkey, hb h.signature]
  rfl

/-- **C62.**  A transfer or deployment submitted through the API with the hex forms of its parts (in either case, with or
without `0x`) enters the node as exactly that transaction. -/
theorem C62_submitted_transaction (i : Api.InputRaw) (e : Api.InputSig) (t : SignedTx) (h : Describes i e t) :
    (∀ (a : Api.InputTransfer) receiver asset amount, t.raw.action = .transfer receiver ⟨asset, amount⟩ →
      Writes a.receiver (hexEncode receiver.toBytes) → Writes a.carryingAssetId (Hash.toHex asset) →
      Writes a.carryingAmount (Api.showBalance amount) →
      ∃ act, Api.coverTransfer a = some act ∧ Api.coverSigned act i e = some t) ∧
    (∀ (a : Api.InputDeploy) code ty, t.raw.action = .deploy code ty → Writes a.code (Api.showBytes code) → a.ty = ty →
      ∃ act, Api.coverDeploy a = some act ∧ Api.coverSigned act i e = some t) := by
  constructor
  · intro a receiver asset amount ha h1 h2 h3
    refine ⟨t.raw.action, ?_, coverSigned_writes h⟩
    have hr : Api.readUser a.receiver = some receiver := by
      rw [Api.readUser, UserAddress.fromHex, writes_clean_asHex h1]; exact UserAddress.fromBytes_toBytes receiver
    simp only [Api.coverTransfer, hr, readHash_writes h2, (C51_round_trip _).2 _ h3, ha]
    rfl
  · intro a code ty ha h1 h2
    refine ⟨t.raw.action, ?_, coverSigned_writes h⟩
    have hr : Api.readBytes a.code = some code := writes_asHex h1
    simp only [Api.coverDeploy, hr, ha, h2]
    rfl

/-- **C62, only that transaction**: what the API builds has the parts the fields denote, so the node's check of the hash
(C23) rejects fields that do not belong to the signed transaction. -/
theorem C62_fields_determine (act : Action) (i : Api.InputRaw) (e : Api.InputSig) (t : SignedTx)
    (h : Api.coverSigned act i e = some t) :
    t.raw.action = act ∧ Api.readHash i.chainId = some t.raw.chainId ∧ Api.readHash i.nonce = some t.raw.nonce ∧
    Api.readU64 i.timeout = some t.raw.timeout ∧ Api.readHash i.feeAssetId = some t.raw.fee.assetId ∧
    Api.readU64 i.feeCycle = some t.raw.fee.cycle ∧ Api.readHash e.txHash = some t.txHash ∧
    Api.readBytes e.pubkey = some t.pubkey ∧ Api.readBytes e.signature = some t.signature := by
  simp only [Api.coverSigned, Api.coverRaw, Option.bind_eq_bind, Option.bind_eq_some_iff, Option.pure_def,
    Option.some.injEq] at h
  obtain ⟨raw, ⟨c, hc, n, hn, tm, ht, fa, hfa, fc, hfc, rfl⟩, th, hth, pk, hpk, sg, hsg, rfl⟩ := h
  exact ⟨rfl, hc, hn, ht, hfa, hfc, hth, hpk, hsg⟩

theorem writes_self (s : List Char) : Writes s s := ⟨s, rfl, .inl rfl⟩

/-- Every transaction is described by its own hex forms. -/
example : ∃ i e, Describes i e (Demo.pay 1 2 5) :=
  ⟨⟨_, _, _, _, _⟩, ⟨_, _, _⟩, writes_self _, writes_self _, writes_self _, writes_self _, writes_self _, writes_self _,
   writes_self _, writes_self _⟩

end Huobi
