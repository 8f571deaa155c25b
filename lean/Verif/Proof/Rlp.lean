import Verif.Model.Rlp
import Mathlib.Tactic.Ring
import Mathlib.Data.List.Induction
import Mathlib.Data.Nat.Log
/-
Round trip of the RLP layer.
-/
namespace Huobi

/-! ### Big-endian numbers -/

theorem natOfBE_append (a b : Bytes) : natOfBE (a ++ b) = natOfBE a * 256 ^ b.length + natOfBE b := by
  unfold natOfBE
  induction b using List.reverseRecOn with
  | nil => simp
  | append_singleton b x ih =>
    rw [← List.append_assoc, List.foldl_append, List.foldl_append (l := b)]
    simp only [List.foldl_cons, List.foldl_nil, List.length_append, List.length_singleton]
    rw [ih]; ring

theorem natOfBE_nil : natOfBE [] = 0 := rfl

theorem natOfBE_singleton (x : UInt8) : natOfBE [x] = x.toNat := by simp [natOfBE]

theorem natBEAux_spec (f n : Nat) (h : n ≤ f) : natOfBE (natBEAux f n) = n := by
  induction f generalizing n with
  | zero => simp only [natBEAux, natOfBE_nil]; omega
  | succ f ih =>
    simp only [natBEAux]
    split
    · simp [natOfBE, *]
    · rename_i hn
      rw [natOfBE_append, ih _ (by omega), natOfBE_singleton]
      simp only [List.length_singleton, pow_one, UInt8.toNat_ofNat']
      omega

theorem natOfBE_natBE (n : Nat) : natOfBE (natBE n) = n := natBEAux_spec n n (Nat.le_refl _)

theorem natBEAux_nil (f n : Nat) (h : n ≤ f) : natBEAux f n = [] ↔ n = 0 := by
  cases f with
  | zero => simp only [natBEAux]; simp only [true_iff]; omega
  | succ f => simp only [natBEAux]; split <;> simp_all

theorem natBE_nil (n : Nat) : natBE n = [] ↔ n = 0 := natBEAux_nil n n (Nat.le_refl _)

theorem natBEAux_head (f n : Nat) (h : n ≤ f) (hn : n ≠ 0) : (natBEAux f n).headD 0 ≠ 0 := by
  induction f generalizing n with
  | zero => omega
  | succ f ih =>
    simp only [natBEAux, if_neg hn]
    by_cases hq : n / 256 = 0
    · have : natBEAux f (n / 256) = [] := (natBEAux_nil _ _ (by omega)).2 hq
      rw [this]
      simp only [List.nil_append, List.headD_cons]
      intro hc
      have := congrArg UInt8.toNat hc
      simp only [UInt8.toNat_ofNat', UInt8.toNat_ofNat] at this
      omega
    · have hne : natBEAux f (n / 256) ≠ [] := fun hc => hq ((natBEAux_nil _ _ (by omega)).1 hc)
      have := ih (n / 256) (by omega) hq
      cases hx : natBEAux f (n / 256) with
      | nil => exact absurd hx hne
      | cons a as => rw [hx] at this; simpa using this

theorem natBE_head {n : Nat} (hn : n ≠ 0) : (natBE n).headD 0 ≠ 0 := natBEAux_head n n (Nat.le_refl _) hn

theorem natBEAux_length (f n k : Nat) (h : n ≤ f) (hk : n < 256 ^ k) : (natBEAux f n).length ≤ k := by
  induction f generalizing n k with
  | zero => simp [natBEAux]
  | succ f ih =>
    simp only [natBEAux]
    split
    · simp
    · rename_i hn
      cases k with
      | zero => simp at hk; omega
      | succ k =>
        have := ih (n / 256) k (by omega) (by rw [pow_succ] at hk; omega)
        simp only [List.length_append, List.length_singleton]; omega

theorem natBE_length {n k : Nat} (hk : n < 256 ^ k) : (natBE n).length ≤ k := natBEAux_length n n k (Nat.le_refl _) hk

theorem natOfBE_bigBE (n : Nat) : natOfBE (bigBE n) = n := by
  unfold bigBE; split
  · simp [natOfBE, *]
  · exact natOfBE_natBE n

theorem natBE_pos_length {n : Nat} (h : n ≠ 0) : 0 < (natBE n).length := by
  rw [List.length_pos_iff]; exact fun hc => h ((natBE_nil n).1 hc)

theorem natOfBE_lt (b : Bytes) : natOfBE b < 256 ^ b.length := by
  induction b using List.reverseRecOn with
  | nil => simp [natOfBE]
  | append_singleton xs x ih =>
    rw [natOfBE_append, natOfBE_singleton]
    have hx := x.toNat_lt
    simp only [List.length_append, List.length_singleton, pow_one, pow_succ]
    omega

theorem natBEAux_natOfBE (f : Nat) (b : Bytes) (h : b.headD 1 ≠ 0) (hf : natOfBE b ≤ f) : natBEAux f (natOfBE b) = b := by
  induction b using List.reverseRecOn generalizing f with
  | nil => cases f <;> simp [natBEAux, natOfBE]
  | append_singleton xs x ih =>
    rw [natOfBE_append, natOfBE_singleton] at hf ⊢
    have hx := x.toNat_lt
    simp only [List.length_singleton, pow_one] at hf ⊢
    have hne : natOfBE xs * 256 + x.toNat ≠ 0 := by
      cases xs with
      | nil =>
        simp only [List.nil_append, List.headD_cons] at h
        intro hc
        apply h
        rw [← UInt8.toNat_inj]; simp; omega
      | cons y ys =>
        simp only [List.cons_append, List.headD_cons] at h
        have : natOfBE (y :: ys) ≠ 0 := by
          have e : natOfBE ([y] ++ ys) = natOfBE [y] * 256 ^ ys.length + natOfBE ys := natOfBE_append _ _
          rw [natOfBE_singleton] at e
          have : 0 < y.toNat := by
            rcases Nat.eq_zero_or_pos y.toNat with h0 | h0
            · exact absurd (UInt8.toNat_inj.1 (by simpa using h0)) h
            · exact h0
          have hp : 0 < y.toNat * 256 ^ ys.length := Nat.mul_pos this (Nat.pow_pos (by omega))
          have e' : natOfBE (y :: ys) = y.toNat * 256 ^ ys.length + natOfBE ys := e
          omega
        omega
    cases f with
    | zero => omega
    | succ f =>
      simp only [natBEAux]
      rw [if_neg hne]
      have h1 : (natOfBE xs * 256 + x.toNat) / 256 = natOfBE xs := by omega
      have h2 : (natOfBE xs * 256 + x.toNat) % 256 = x.toNat := by omega
      rw [h1, h2, ih f]
      · simp
      · cases xs with
        | nil => simp
        | cons y ys => simpa using h
      · omega

theorem natBE_natOfBE (b : Bytes) (h : b.headD 1 ≠ 0) : natBE (natOfBE b) = b := natBEAux_natOfBE _ b h (Nat.le_refl _)

/-! ### Headers -/

theorem ofNat_toNat {n : Nat} (h : n < 256) : (UInt8.ofNat n).toNat = n := by
  rw [UInt8.toNat_ofNat']; omega

/-- The header of a string or list followed by its payload and anything else. -/
theorem headerInfo_header {base len : Nat} (hb : base = 0x80 ∨ base = 0xc0) (hl : len < 2 ^ 64) (payload rest : Bytes)
    (hp : payload.length = len) :
    Rlp.payloadInfo (rlpHeader base len ++ payload ++ rest) = .ok ((rlpHeader base len).length, len) := by
  have hlen8 : (natBE len).length ≤ 8 := natBE_length (by simpa using hl)
  have key : Rlp.headerInfo (rlpHeader base len ++ payload ++ rest) = .ok ((rlpHeader base len).length, len) := by
    unfold rlpHeader
    split
    · rename_i h55
      simp only [List.singleton_append, List.cons_append, Rlp.headerInfo, List.length_singleton]
      rcases hb with rfl | rfl
      · have e := ofNat_toNat (n := 128 + len) (by omega)
        generalize UInt8.ofNat (128 + len) = l at e
        simp only [e]
        rw [if_neg (by omega), if_pos (by omega), Nat.add_sub_cancel_left]
      · have e := ofNat_toNat (n := 192 + len) (by omega)
        generalize UInt8.ofNat (192 + len) = l at e
        simp only [e]
        rw [if_neg (by omega), if_neg (by omega), if_neg (by omega), if_pos (by omega), Nat.add_sub_cancel_left]
    · rename_i h55
      have hpos := natBE_pos_length (n := len) (by omega)
      have hhead := natBE_head (n := len) (by omega)
      have hval := natOfBE_natBE len
      generalize natBE len = bs at *
      cases bs with
      | nil => simp at hpos
      | cons x xs =>
        simp only [List.headD_cons] at hhead
        have hlong : Rlp.longInfo (UInt8.ofNat (base + 55 + (x :: xs).length) :: x :: xs ++ payload ++ rest) (x :: xs).length
            = .ok (1 + (x :: xs).length, len) := by
          simp only [Rlp.longInfo, List.cons_append]
          rw [if_neg hhead, if_neg (by simp only [List.length_cons, List.length_append]; omega)]
          have htake : (x :: (xs ++ payload ++ rest)).take (x :: xs).length = x :: xs := by
            simp only [List.length_cons, List.take_succ_cons, List.append_assoc, List.take_left']
          rw [htake]
          unfold Rlp.decodeUsize
          rw [if_neg (by omega), if_neg (by simpa using hhead), hval]
          rfl
        have h1 : 1 ≤ (x :: xs).length := by simp
        simp only [List.cons_append] at hlong ⊢
        simp only [Rlp.headerInfo]
        rcases hb with rfl | rfl
        · rw [ofNat_toNat (by omega), if_neg (by omega), if_neg (by omega), if_pos (by omega),
            show 128 + 55 + (x :: xs).length - 0xb7 = (x :: xs).length by omega, hlong]
          simp [Nat.add_comm]
        · rw [ofNat_toNat (by omega), if_neg (by omega), if_neg (by omega), if_neg (by omega), if_neg (by omega),
            show 0xc0 + 55 + (x :: xs).length - 0xf7 = (x :: xs).length by omega, hlong]
          simp [Nat.add_comm]
  unfold Rlp.payloadInfo
  rw [key]
  simp only
  rw [if_pos]
  simp only [List.length_append]; omega

theorem header_length_pos (base len : Nat) : 0 < (rlpHeader base len).length := by
  unfold rlpHeader; split <;> simp

/-- Payload of an item. -/
def Item.payload : Item → Bytes
  | .data b => b
  | .list xs => Item.encs xs

theorem encData_cases (b : Bytes) : (∃ x, b = [x] ∧ x.toNat < 0x80 ∧ encData b = [x]) ∨
    (encData b = rlpHeader 0x80 b.length ++ b ∧ ∀ x, b = [x] → ¬ x.toNat < 0x80) := by
  match b with
  | [] => right; exact ⟨rfl, fun x h => by cases h⟩
  | [x] =>
    simp only [encData]
    by_cases hx : x < 0x80
    · left; rw [if_pos hx]; exact ⟨x, rfl, by simpa [UInt8.lt_iff_toNat_lt] using hx, rfl⟩
    · right; rw [if_neg hx]
      refine ⟨rfl, ?_⟩
      intro y hy; simp only [List.cons.injEq, and_true] at hy; subst hy
      simpa [UInt8.lt_iff_toNat_lt] using hx
  | x :: y :: r => right; exact ⟨rfl, fun x h => by cases h⟩

/-- `payload_info` of an encoded item, whatever follows it. -/
theorem payloadInfo_enc (t : Item) (rest : Bytes) (hl : t.enc.length < 2 ^ 64) :
    ∃ h v, Rlp.payloadInfo (t.enc ++ rest) = .ok (h, v) ∧ h + v = t.enc.length ∧ (t.enc.drop h).take v = t.payload := by
  cases t with
  | data b =>
    simp only [Item.enc, Item.payload] at *
    rcases encData_cases b with ⟨x, rfl, hx, he⟩ | ⟨he, _⟩
    · rw [he]
      refine ⟨0, 1, ?_, rfl, rfl⟩
      simp only [Rlp.payloadInfo, Rlp.headerInfo, List.singleton_append]
      rw [if_pos (by omega)]
      simp
    · rw [he] at hl ⊢
      refine ⟨_, _, headerInfo_header (Or.inl rfl) ?_ b rest rfl, by simp, ?_⟩
      · simp only [List.length_append] at hl; omega
      · rw [List.drop_left', List.take_length] <;> rfl
  | list xs =>
    simp only [Item.enc, Item.payload] at *
    refine ⟨_, _, headerInfo_header (Or.inr rfl) ?_ (Item.encs xs) rest rfl, by simp, ?_⟩
    · simp only [List.length_append] at hl; omega
    · rw [List.drop_left', List.take_length] <;> rfl

theorem enc_ne_nil (t : Item) : t.enc ≠ [] := by
  cases t with
  | data b =>
    simp only [Item.enc]
    rcases encData_cases b with ⟨x, rfl, hx, he⟩ | ⟨he, _⟩
    · rw [he]; simp
    · rw [he]; intro h
      have := header_length_pos 0x80 b.length
      simp [List.append_eq_nil_iff] at h
      rw [h.1] at this; simp at this
  | list xs =>
    simp only [Item.enc]; intro h
    have := header_length_pos 0xc0 (Item.encs xs).length
    simp [List.append_eq_nil_iff] at h
    rw [h.1] at this; simp at this

namespace Rlp

theorem data_enc (t : Item) (hl : t.enc.length < 2 ^ 64) : data t.enc = .ok t.payload := by
  obtain ⟨h, v, h1, _, h3⟩ := payloadInfo_enc t [] hl
  rw [List.append_nil] at h1
  simp only [data, h1, Except.map]
  rw [h3]

theorem first_enc (t : Item) (rest : Bytes) (hl : t.enc.length < 2 ^ 64) : first (t.enc ++ rest) = .ok t.enc := by
  obtain ⟨h, v, h1, h2, _⟩ := payloadInfo_enc t rest hl
  simp only [first, h1, Except.map]
  rw [h2, List.take_left']; rfl

theorem head_enc_list (xs : List Item) (hl : (Item.list xs).enc.length < 2 ^ 64) : ∃ l r, (Item.list xs).enc = l :: r ∧ 0xc0 ≤ l.toNat := by
  simp only [Item.enc] at *
  have hlen8 : (natBE (Item.encs xs).length).length ≤ 8 :=
    natBE_length (by simp only [List.length_append] at hl; omega)
  unfold rlpHeader at *
  split
  · exact ⟨_, _, rfl, by rw [ofNat_toNat (by omega)]; omega⟩
  · exact ⟨_, _, rfl, by rw [ofNat_toNat (by omega)]; omega⟩

theorem isList_enc_list (xs : List Item) (hl : (Item.list xs).enc.length < 2 ^ 64) : isList (Item.list xs).enc = true := by
  obtain ⟨l, r, he, h⟩ := head_enc_list xs hl
  rw [he]; simp only [isList]; simpa using h

theorem head_enc_data (b : Bytes) (hl : (Item.data b).enc.length < 2 ^ 64) : ∃ l r, (Item.data b).enc = l :: r ∧ l.toNat < 0xc0 := by
  simp only [Item.enc] at *
  rcases encData_cases b with ⟨x, rfl, hx, he⟩ | ⟨he, _⟩
  · exact ⟨x, [], he, by omega⟩
  · rw [he] at hl ⊢
    have hlen8 : (natBE b.length).length ≤ 8 := natBE_length (by simp only [List.length_append] at hl; omega)
    unfold rlpHeader
    split
    · exact ⟨_, _, rfl, by rw [ofNat_toNat (by omega)]; omega⟩
    · exact ⟨_, _, rfl, by rw [ofNat_toNat (by omega)]; omega⟩

theorem isData_enc_data (b : Bytes) (hl : (Item.data b).enc.length < 2 ^ 64) : isData (Item.data b).enc = true := by
  obtain ⟨l, r, he, h⟩ := head_enc_data b hl
  rw [he]; simp only [isData]; simpa using h

theorem isList_enc_data (b : Bytes) (hl : (Item.data b).enc.length < 2 ^ 64) : isList (Item.data b).enc = false := by
  obtain ⟨l, r, he, h⟩ := head_enc_data b hl
  rw [he]; simp only [isList, decide_eq_false_iff_not]; omega

theorem encs_append (xs ys : List Item) : Item.encs (xs ++ ys) = Item.encs xs ++ Item.encs ys := by
  induction xs with
  | nil => rfl
  | cons x xs ih => simp only [List.cons_append, Item.encs, ih, List.append_assoc]

theorem enc_length_le_encs {x : Item} {xs : List Item} (h : x ∈ xs) : x.enc.length ≤ (Item.encs xs).length := by
  induction xs with
  | nil => cases h
  | cons y ys ih =>
    simp only [Item.encs, List.length_append]
    rcases List.mem_cons.1 h with rfl | h
    · omega
    · have := ih h; omega

theorem encs_lt {xs : List Item} (hl : (Item.list xs).enc.length < 2 ^ 64) : (Item.encs xs).length < 2 ^ 64 := by
  simp only [Item.enc, List.length_append] at hl; omega

theorem enc_lt_of_mem {x : Item} {xs : List Item} (h : x ∈ xs) (hl : (Item.list xs).enc.length < 2 ^ 64) :
    x.enc.length < 2 ^ 64 := by
  have := enc_length_le_encs h
  have := encs_lt hl
  omega

theorem skip_encs (pre xs : List Item) (rest : Bytes) (hl : ∀ x ∈ pre, x.enc.length < 2 ^ 64) :
    skip pre.length (Item.encs (pre ++ xs) ++ rest) = .ok (Item.encs xs ++ rest) := by
  induction pre with
  | nil => rfl
  | cons y ys ih =>
    obtain ⟨h, v, h1, h2, _⟩ := payloadInfo_enc y (Item.encs (ys ++ xs) ++ rest) (hl y (by simp))
    simp only [List.length_cons, skip, List.cons_append, Item.encs, List.append_assoc] at *
    rw [h1]
    simp only
    rw [h2, List.drop_left']
    · exact ih (fun x hx => hl x (by simp [hx]))
    · rfl

/-- `at` on an encoded list. -/
theorem at_enc {xs : List Item} {i : Nat} {x : Item} (hx : xs[i]? = some x) (hl : (Item.list xs).enc.length < 2 ^ 64) :
    «at» (Item.list xs).enc i = .ok x.enc := by
  obtain ⟨hi, rfl⟩ := List.getElem?_eq_some_iff.1 hx
  have hsplit : xs = xs.take i ++ xs[i] :: xs.drop (i + 1) := by
    rw [List.getElem_cons_drop, List.take_append_drop]
  have hmem : ∀ x ∈ xs.take i, x.enc.length < 2 ^ 64 := fun x h => enc_lt_of_mem (List.mem_of_mem_take h) hl
  have hskip := skip_encs (xs.take i) (xs[i] :: xs.drop (i + 1)) [] hmem
  rw [← hsplit, List.append_nil, List.append_nil, List.length_take, Nat.min_eq_left (by omega)] at hskip
  unfold «at»
  rw [isList_enc_list xs hl, data_enc _ hl]
  show (skip i (Item.encs xs)).bind first = _
  rw [hskip]
  show first (Item.encs (xs[i] :: xs.drop (i + 1))) = _
  simp only [Item.encs]
  exact first_enc _ _ (enc_lt_of_mem (List.getElem_mem hi) hl)

theorem at_enc_none {xs : List Item} {i : Nat} (hx : xs.length ≤ i) (hl : (Item.list xs).enc.length < 2 ^ 64) :
    ∃ e, «at» (Item.list xs).enc i = .error e := by
  have hmem : ∀ x ∈ xs, x.enc.length < 2 ^ 64 := fun x h => enc_lt_of_mem h hl
  have hnil : ∀ n, ∃ e, (skip n []).bind first = .error e := by
    intro n; cases n with
    | zero => exact ⟨.tooShort, rfl⟩
    | succ n => exact ⟨.tooShort, rfl⟩
  have hskip : ∀ (xs : List Item) (n : Nat), (∀ x ∈ xs, x.enc.length < 2 ^ 64) → skip (xs.length + n) (Item.encs xs) = skip n [] := by
    intro xs
    induction xs with
    | nil => intro n _; simp [Item.encs]
    | cons y ys ih =>
      intro n hm
      obtain ⟨h, v, h1, h2, _⟩ := payloadInfo_enc y (Item.encs ys) (hm y (by simp))
      rw [List.length_cons, show ys.length + 1 + n = (ys.length + n) + 1 by omega]
      simp only [skip, Item.encs]
      rw [h1]; simp only
      rw [h2, List.drop_left' rfl]
      exact ih n (fun x hx => hm x (by simp [hx]))
  obtain ⟨n, rfl⟩ : ∃ n, i = xs.length + n := ⟨i - xs.length, by omega⟩
  unfold «at»
  rw [isList_enc_list xs hl, data_enc _ hl]
  show ∃ e, (skip (xs.length + n) (Item.encs xs)).bind first = .error e
  rw [hskip xs n hmem]
  exact hnil n

theorem splitAux_encs (f : Nat) (xs : List Item) (hf : (Item.encs xs).length ≤ f) (hl : ∀ x ∈ xs, x.enc.length < 2 ^ 64) :
    splitAux f (Item.encs xs) = xs.map Item.enc := by
  induction xs generalizing f with
  | nil =>
    cases f with
    | zero => rfl
    | succ f => rfl
  | cons y ys ih =>
    have hpos : 0 < y.enc.length := List.length_pos_iff.2 (enc_ne_nil y)
    simp only [Item.encs, List.length_append] at hf
    cases f with
    | zero => omega
    | succ f =>
      obtain ⟨h, v, h1, h2, _⟩ := payloadInfo_enc y (Item.encs ys) (hl y (by simp))
      simp only [splitAux, Item.encs, List.map_cons]
      rw [h1]
      simp only
      rw [h2, List.take_left' rfl, List.drop_left' rfl, ih f (by omega) (fun x hx => hl x (by simp [hx]))]

/-- Iterating over an encoded list yields its encoded items. -/
theorem items_enc (xs : List Item) (hl : (Item.list xs).enc.length < 2 ^ 64) : items (Item.list xs).enc = xs.map Item.enc := by
  unfold items
  rw [if_pos (isList_enc_list xs hl), data_enc _ hl]
  exact splitAux_encs _ xs (Nat.le_refl _) (fun x h => enc_lt_of_mem h hl)

/-- `decode_list` on an encoded list whose elements decode. -/
theorem list_enc {α : Type} {f : Bytes → Dec α} {g : α → Item} {as : List α}
    (hl : (Item.list (as.map g)).enc.length < 2 ^ 64)
    (hf : ∀ a ∈ as, (g a).enc.length < 2 ^ 64 → f (g a).enc = .ok a) : list f (Item.list (as.map g)).enc = .ok as := by
  unfold list
  rw [items_enc _ hl]
  have hall : ∀ a ∈ as, f (g a).enc = .ok a := fun a ha => hf a ha (enc_lt_of_mem (List.mem_map_of_mem ha) hl)
  have : ((as.map g).map Item.enc).mapM f = .ok as := by
    clear hl hf
    induction as with
    | nil => rfl
    | cons a as ih =>
      simp only [List.map_cons, List.mapM_cons, hall a (by simp)]
      have ih' := ih (fun b hb => hall b (by simp [hb]))
      rw [ih']; rfl
  rw [this]

theorem value_enc (b : Bytes) (hl : (Item.data b).enc.length < 2 ^ 64) : value (Item.data b).enc = .ok b := by
  simp only [Item.enc] at *
  rcases encData_cases b with ⟨x, rfl, hx, he⟩ | ⟨he, hns⟩
  · rw [he]; simp only [value]; rw [if_pos (by omega)]
  · rw [he] at hl ⊢
    have hlt : b.length < 2 ^ 64 := by simp only [List.length_append] at hl; omega
    have hlen8 : (natBE b.length).length ≤ 8 := natBE_length (by simpa using hlt)
    unfold rlpHeader
    split
    · rename_i h55
      simp only [List.singleton_append, value]
      have e := ofNat_toNat (n := 128 + b.length) (by omega)
      generalize UInt8.ofNat (128 + b.length) = l at e
      simp only [e]
      rw [if_neg (by omega), if_pos (by omega)]
      have hn : 0x80 + b.length - 0x80 = b.length := by omega
      simp only [hn]
      rw [if_neg (by omega), if_neg, List.take_length]
      rintro ⟨h1, h2⟩
      obtain ⟨x, rfl⟩ := List.length_eq_one_iff.1 h1
      simp only [List.headD_cons, UInt8.lt_iff_toNat_lt] at h2
      exact hns x rfl h2
    · rename_i h55
      have hpos := natBE_pos_length (n := b.length) (by omega)
      have hhead := natBE_head (n := b.length) (by omega)
      have hval := natOfBE_natBE b.length
      generalize natBE b.length = bs at *
      simp only [List.cons_append, value]
      rw [ofNat_toNat (by omega), if_neg (by omega), if_neg (by omega), if_pos (by omega)]
      have hn : 0x80 + 55 + bs.length - 0xb7 = bs.length := by omega
      simp only [hn]
      rw [if_neg (by simp), List.take_left' rfl]
      unfold decodeUsize
      rw [if_neg (by omega), if_neg hhead, hval]
      simp only
      rw [if_neg (by simp), List.drop_left' rfl, List.take_length]

theorem intOf_natBE {w n : Nat} (h : n < 256 ^ w) : intOf w (natBE n) = .ok n := by
  have h1 := natBE_length h
  have h2 := natOfBE_natBE n
  by_cases hn : n = 0
  · subst hn; rw [(natBE_nil 0).2 rfl]; rfl
  · have h3 := natBE_head hn
    have h4 := natBE_pos_length hn
    generalize natBE n = bs at *
    cases bs with
    | nil => simp at h4
    | cons x xs =>
      simp only [intOf]
      rw [if_neg (by omega), if_neg (by simpa using h3), h2]

theorem u64_enc (n : UInt64) : u64 (Item.u64 n).enc = .ok n := by
  have hn := n.toNat_lt
  have hlen : (natBE n.toNat).length ≤ 8 := natBE_length (by simpa using hn)
  unfold u64 Item.u64
  rw [value_enc]
  · show (intOf 8 (natBE n.toNat)).bind _ = _
    rw [intOf_natBE (by simpa using hn)]
    show Except.ok (UInt64.ofNat n.toNat) = _
    simp
  · simp only [Item.enc]
    rcases encData_cases (natBE n.toNat) with ⟨x, hx, _, he⟩ | ⟨he, _⟩
    · rw [he]; simp
    · rw [he]; unfold rlpHeader; rw [if_pos (by omega)]; simp; omega

theorem u8_enc (n : UInt8) : u8 (Item.u8 n).enc = .ok n := by
  have hn := n.toNat_lt
  have hlen : (natBE n.toNat).length ≤ 1 := natBE_length (by simpa using hn)
  unfold u8 Item.u8
  rw [value_enc]
  · show (intOf 1 (natBE n.toNat)).bind _ = _
    rw [intOf_natBE (by simpa using hn)]
    show Except.ok (UInt8.ofNat n.toNat) = _
    simp
  · simp only [Item.enc]
    rcases encData_cases (natBE n.toNat) with ⟨x, hx, _, he⟩ | ⟨he, _⟩
    · rw [he]; simp
    · rw [he]; unfold rlpHeader; rw [if_pos (by omega)]; simp; omega

end Rlp

theorem fromUtf8_utf8 (e : DErr) (s : String) : fromUtf8 e (utf8 s) = .ok s := by
  unfold fromUtf8 utf8
  have : (⟨s.toByteArray.data.toList.toArray⟩ : ByteArray) = s.toByteArray := by simp
  rw [this]
  have : String.fromUTF8? s.toByteArray = some s := by
    unfold String.fromUTF8?
    rw [dif_pos s.isValidUTF8]
    rfl
  rw [this]

end Huobi
