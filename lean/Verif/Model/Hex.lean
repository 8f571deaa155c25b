import Verif.Model.Types
/-
Model of the textual forms: the `hex` crate (0.3) and the `from_hex` constructors.
Text is modelled as `List Char`; Rust strings are UTF-8, and `hex::decode` works on the bytes: every byte of a
non-ASCII character is an invalid hex digit, so working on characters gives the same accept/reject answer.
-/
namespace Huobi

/-- Lower-case hex digit (`hex` crate `CHARS` table). -/
def hexDigit (n : Nat) : Char :=
  if n < 10 then Char.ofNat (48 + n) else Char.ofNat (87 + n)

/-- `hex::encode`: two lower-case digits per byte. -/
def hexEncode : Bytes → List Char
  | [] => []
  | b :: bs => hexDigit (b.toNat / 16) :: hexDigit (b.toNat % 16) :: hexEncode bs

/-- Value of a hex digit, upper or lower case (`hex::val`). -/
def hexVal (c : Char) : Option Nat :=
  let n := c.toNat
  if 48 ≤ n ∧ n ≤ 57 then some (n - 48)
  else if 97 ≤ n ∧ n ≤ 102 then some (n - 87)
  else if 65 ≤ n ∧ n ≤ 70 then some (n - 55)
  else none

/-- `hex::decode`: an odd length or an invalid digit is an error. -/
def hexDecode : List Char → Option Bytes
  | [] => some []
  | [_] => none
  | a :: b :: rest =>
    match hexVal a, hexVal b, hexDecode rest with
    | some x, some y, some bs => some (UInt8.ofNat (16 * x + y) :: bs)
    | _, _, _ => none

/-- `clean_0x`: protocol/src/types/primitive.rs:386-392 and core/api/src/schema/mod.rs:108-114. -/
def clean0x : List Char → List Char
  | '0' :: 'x' :: rest => rest
  | s => s

/-- `Hash::from_hex`: protocol/src/types/primitive.rs:61-67. -/
def Hash.fromHex (s : List Char) : Option Hash := (hexDecode (clean0x s)).bind Hash.fromBytes

/-- `Hash::as_hex`: protocol/src/types/primitive.rs:73-75. -/
def Hash.toHex (h : Hash) : List Char := hexEncode h.bytes

/-- `Address::from_hex`: protocol/src/types/primitive.rs:137-143. -/
def Address.fromHex (s : List Char) : Option Address := (hexDecode (clean0x s)).bind Address.fromBytes

/-- `Address::as_hex`: protocol/src/types/primitive.rs:152-157. -/
def Address.toHex (a : Address) : List Char := hexEncode a.toBytes

/-- `UserAddress::from_hex`: protocol/src/types/primitive.rs:231-237. -/
def UserAddress.fromHex (s : List Char) : Option UserAddress := (hexDecode (clean0x s)).bind UserAddress.fromBytes

/-- `ContractAddress::from_hex`: protocol/src/types/primitive.rs:318-324. -/
def ContractAddress.fromHex (s : List Char) : Option ContractAddress :=
  (hexDecode (clean0x s)).bind ContractAddress.fromBytes

/-- `BigUint::from_bytes_be`. -/
def natOfBE (b : Bytes) : Nat := b.foldl (fun acc x => acc * 256 + x.toNat) 0

end Huobi
