import Verif.Model.Hex
import Mathlib.Tactic.IntervalCases
/- Facts about hex text and the byte forms of hashes and addresses. -/
namespace Huobi

theorem hexVal_hexDigit {n : Nat} (h : n < 16) : hexVal (hexDigit n) = some n := by
  have : ∀ m : Fin 16, hexVal (hexDigit m.1) = some m.1 := by decide
  exact this ⟨n, h⟩

theorem hexDecode_hexEncode (b : Bytes) : hexDecode (hexEncode b) = some b := by
  induction b with
  | nil => rfl
  | cons x xs ih =>
    have hx := x.toNat_lt
    simp only [hexEncode, hexDecode]
    rw [hexVal_hexDigit (by omega), hexVal_hexDigit (by omega), ih]
    simp only [Option.some.injEq, List.cons.injEq, and_true]
    rw [Nat.div_add_mod]; simp

theorem hexDigit_ne_x {n : Nat} (h : n < 16) : hexDigit n ≠ 'x' := by
  have : ∀ m : Fin 16, hexDigit m.1 ≠ 'x' := by decide
  exact this ⟨n, h⟩

theorem clean0x_hexEncode (b : Bytes) : clean0x (hexEncode b) = hexEncode b := by
  cases b with
  | nil => rfl
  | cons x xs =>
    have hx := x.toNat_lt
    simp only [hexEncode, clean0x]
    split
    · rename_i h
      simp only [List.cons.injEq] at h
      exact absurd h.2.1 (hexDigit_ne_x (by omega))
    · rfl

theorem Hash.fromBytes_bytes (h : Hash) : Hash.fromBytes h.bytes = some h := by
  unfold Hash.fromBytes; rw [dif_pos h.size]

theorem UserAddress.fromBytes_toBytes (a : UserAddress) : UserAddress.fromBytes a.toBytes = some a := by
  unfold UserAddress.fromBytes UserAddress.toBytes
  simp only [ne_eq, not_true_eq_false, if_false]
  rw [dif_pos a.size]

theorem ContractType.ofMagic_magic (t : ContractType) : ContractType.ofMagic t.magic = some t := by cases t <;> decide

theorem ContractAddress.fromBytes_toBytes (a : ContractAddress) : ContractAddress.fromBytes a.toBytes = some a := by
  unfold ContractAddress.fromBytes ContractAddress.toBytes
  simp only [ContractType.ofMagic_magic]
  rw [dif_pos a.size]

theorem ContractType.magic_ne_account (t : ContractType) : t.magic ≠ accountMagic := by cases t <;> decide

theorem Address.fromBytes_toBytes (a : Address) : Address.fromBytes a.toBytes = some a := by
  cases a with
  | user u =>
    have := UserAddress.fromBytes_toBytes u
    simp only [Address.fromBytes, Address.toBytes, UserAddress.toBytes, if_true] at *
    rw [this]; rfl
  | contract c =>
    have := ContractAddress.fromBytes_toBytes c
    have hm := ContractType.magic_ne_account c.ty
    simp only [Address.fromBytes, Address.toBytes, ContractAddress.toBytes, if_neg hm] at *
    rw [this]; rfl

end Huobi
