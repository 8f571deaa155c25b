import Verif.Proof.Rlp
/-
C43: RLP coding of byte strings, integers and nested lists is lossless.
-/
namespace Huobi

/-- A decoder of arbitrary RLP trees, written with the operations of the crate (`payload_info`, `is_list`, iteration):
the first item of a byte string.  The first argument bounds the nesting depth. -/
def Rlp.treeAux : Nat → Bytes → Option Item
  | 0, _ => none
  | f + 1, bs =>
    match Rlp.payloadInfo bs with
    | .error _ => none
    | .ok (h, v) =>
      if Rlp.isList bs then
        ((Rlp.splitAux v ((bs.drop h).take v)).mapM (Rlp.treeAux f)).map .list
      else some (.data ((bs.drop h).take v))

/-- The first item of a byte string; nesting is at most as deep as the string is long. -/
def Rlp.tree (bs : Bytes) : Option Item := Rlp.treeAux (bs.length + 1) bs

namespace Rlp

theorem isList_append (a b : Bytes) (h : a ≠ []) : isList (a ++ b) = isList a := by
  cases a with
  | nil => exact absurd rfl h
  | cons x xs => rfl

theorem mapM_map_some {α β : Type} (f : α → Option β) (g : β → α) (xs : List β) (h : ∀ x ∈ xs, f (g x) = some x) :
    (xs.map g).mapM f = some xs := by
  induction xs with
  | nil => rfl
  | cons x xs ih =>
    rw [List.map_cons, List.mapM_cons, h x (by simp), ih (fun y hy => h y (by simp [hy]))]
    rfl

theorem treeAux_enc (f : Nat) (t : Item) (rest : Bytes) (hl : t.enc.length < 2 ^ 64) (hf : t.enc.length ≤ f) :
    treeAux f (t.enc ++ rest) = some t := by
  induction f generalizing t rest with
  | zero =>
    have := List.length_pos_iff.2 (enc_ne_nil t)
    omega
  | succ f ih =>
    obtain ⟨h, v, h1, h2, h3⟩ := payloadInfo_enc t rest hl
    have hdrop : ((t.enc ++ rest).drop h).take v = t.payload := by
      rw [← h3, List.drop_append_of_le_length (by omega), List.take_append_of_le_length (by rw [List.length_drop]; omega)]
    simp only [treeAux, h1, hdrop, isList_append _ _ (enc_ne_nil t)]
    cases t with
    | data b => rw [isList_enc_data b hl]; rfl
    | list xs =>
      rw [isList_enc_list xs hl]
      simp only [if_true, Item.payload]
      have hvle : (Item.encs xs).length ≤ v := by
        have : ((Item.list xs).enc.drop h).take v = Item.encs xs := h3
        rw [← this]; simp
      rw [splitAux_encs v xs hvle (fun x hx => enc_lt_of_mem hx hl)]
      rw [mapM_map_some]
      · rfl
      · intro x hx
        have hlx := enc_lt_of_mem hx hl
        have hle := enc_length_le_encs hx
        have hpos : (Item.encs xs).length < (Item.list xs).enc.length := by
          have := header_length_pos 0xc0 (Item.encs xs).length
          simp only [Item.enc, List.length_append]; omega
        have := ih x [] hlx (by omega)
        simpa using this

end Rlp

/-- **C43.** Decoding the encoding of any tree followed by any bytes returns the tree. -/
theorem C43_tree_round_trip (t : Item) (rest : Bytes) (hl : t.enc.length < 2 ^ 64) : Rlp.tree (t.enc ++ rest) = some t := by
  unfold Rlp.tree
  exact Rlp.treeAux_enc _ t rest hl (by simp only [List.length_append]; omega)

/-- **C43.** No encoding is a proper prefix of another, and different trees have different encodings. -/
theorem C43_prefix_free (t t' : Item) (r r' : Bytes) (hl : t.enc.length < 2 ^ 64) (hl' : t'.enc.length < 2 ^ 64)
    (h : t.enc ++ r = t'.enc ++ r') : t = t' ∧ r = r' := by
  have h1 := C43_tree_round_trip t r hl
  have h2 := C43_tree_round_trip t' r' hl'
  rw [h, h2, Option.some.injEq] at h1
  subst h1
  exact ⟨rfl, List.append_cancel_left h⟩

/-- **C43.** Different lists of trees have different encodings. -/
theorem C43_lists_injective (xs ys : List Item) (hx : ∀ x ∈ xs, x.enc.length < 2 ^ 64)
    (hy : ∀ y ∈ ys, y.enc.length < 2 ^ 64) (h : Item.encs xs = Item.encs ys) : xs = ys := by
  induction xs generalizing ys with
  | nil =>
    cases ys with
    | nil => rfl
    | cons y ys =>
      simp only [Item.encs] at h
      have := (List.append_eq_nil_iff.1 h.symm).1
      exact absurd this (enc_ne_nil y)
  | cons x xs ih =>
    cases ys with
    | nil =>
      simp only [Item.encs] at h
      have := (List.append_eq_nil_iff.1 h).1
      exact absurd this (enc_ne_nil x)
    | cons y ys =>
      simp only [Item.encs] at h
      obtain ⟨rfl, h2⟩ := C43_prefix_free _ _ _ _ (hx x (by simp)) (hy y (by simp)) h
      rw [ih ys (fun a ha => hx a (by simp [ha])) (fun a ha => hy a (by simp [ha])) h2]

/-- **C43.** The typed readers of the crate return what was written: strings, `u64`, `u8`, and the items of a list by
position and by iteration. -/
theorem C43_readers (b : Bytes) (xs : List Item) (hb : (Item.data b).enc.length < 2 ^ 64)
    (hxs : (Item.list xs).enc.length < 2 ^ 64) :
    Rlp.value (Item.data b).enc = .ok b ∧ Rlp.data (Item.data b).enc = .ok b ∧
    (∀ n : UInt64, Rlp.u64 (Item.u64 n).enc = .ok n) ∧ (∀ n : UInt8, Rlp.u8 (Item.u8 n).enc = .ok n) ∧
    Rlp.items (Item.list xs).enc = xs.map Item.enc ∧
    (∀ i x, xs[i]? = some x → Rlp.at (Item.list xs).enc i = .ok x.enc) ∧
    (∀ i, xs.length ≤ i → ∃ e, Rlp.at (Item.list xs).enc i = .error e) :=
  ⟨Rlp.value_enc b hb, Rlp.data_enc _ hb, Rlp.u64_enc, Rlp.u8_enc, Rlp.items_enc xs hxs, fun _ _ h => Rlp.at_enc h hxs,
    fun _ h => Rlp.at_enc_none h hxs⟩

/-- A nested tree with a long string meets the hypothesis. -/
example : ∃ t : Item, t.enc.length < 2 ^ 64 ∧ 70 < t.enc.length ∧
    t = .list [.data (List.replicate 70 1), .list [.u64 0, .list []], .u8 200] := by
  refine ⟨_, ?_, ?_, rfl⟩ <;> decide +kernel

end Huobi
