import Verif.Model.Hex
/-
Model of the part of the `rlp` crate (0.4) that `protocol/src/fixed_codec` uses: `RlpStream` on the encoding side, `Rlp`
on the decoding side.  The crate is a dependency and not part of /repo; it is modelled from its documented behaviour
because every property of the fixed codec rests on it.

Simplification: `Rlp::at` keeps a cursor cache; the model recomputes the position from the start of the list.  The two
agree when the byte string ends where its outermost item ends, which holds for everything the encoder produces, for
every nested item, and for all witnesses used below.
-/
namespace Huobi

/-- `rlp::DecoderError`, plus `panic` for the places where decoding aborts the process. -/
inductive DErr where
  | tooBig | tooShort | expectedList | expectedData | incorrectListLen | dataLenZeroPrefix | listLenZeroPrefix
  | invalidIndirection | inconsistent | invalidLength | custom | panic
deriving DecidableEq, Repr

/-- Result of decoding. -/
abbrev Dec (α : Type) := Except DErr α

/-- Big-endian bytes without leading zeros; empty for 0.  The first argument bounds the recursion. -/
def natBEAux : Nat → Nat → Bytes
  | 0, _ => []
  | f + 1, n => if n = 0 then [] else natBEAux f (n / 256) ++ [UInt8.ofNat (n % 256)]

/-- Big-endian bytes without leading zeros; empty for 0 (how the crate writes integers and lengths). -/
def natBE (n : Nat) : Bytes := natBEAux n n

/-- `BigUint::to_bytes_be`: one zero byte for 0. -/
def bigBE (n : Nat) : Bytes := if n = 0 then [0] else natBE n

/-- What an `RlpStream` is given: byte strings and lists. -/
inductive Item where
  | data (b : Bytes)
  | list (xs : List Item)

/-- Header of a string (`base = 0x80`) or list (`base = 0xc0`) with the given payload length:
`encode_value`, `insert_list_payload`. -/
def rlpHeader (base : Nat) (len : Nat) : Bytes :=
  if len ≤ 55 then [UInt8.ofNat (base + len)] else UInt8.ofNat (base + 55 + (natBE len).length) :: natBE len

/-- `BasicEncoder::encode_value`. -/
def encData (b : Bytes) : Bytes :=
  match b with
  | [x] => if x < 0x80 then [x] else rlpHeader 0x80 1 ++ [x]
  | _ => rlpHeader 0x80 b.length ++ b

mutual
/-- Bytes of an item. -/
def Item.enc : Item → Bytes
  | .data b => encData b
  | .list xs => rlpHeader 0xc0 (Item.encs xs).length ++ Item.encs xs
/-- Bytes of consecutive items. -/
def Item.encs : List Item → Bytes
  | [] => []
  | x :: xs => x.enc ++ Item.encs xs
end

/-- `Encodable for u64`/`u8`: minimal big-endian bytes. -/
def Item.u64 (n : UInt64) : Item := .data (natBE n.toNat)
/-- `Encodable for u8`. -/
def Item.u8 (n : UInt8) : Item := .data (natBE n.toNat)

namespace Rlp

/-- `decode_usize`: at most 8 bytes, no leading zero. -/
def decodeUsize (b : Bytes) : Dec Nat :=
  if 8 < b.length then .error .tooBig
  else if b.headD 0 = 0 then .error .invalidIndirection
  else .ok (natOfBE b)

/-- `calculate_payload_info`. -/
def longInfo (bs : Bytes) (lenOfLen : Nat) : Dec (Nat × Nat) :=
  match bs with
  | _ :: x :: rest =>
    if x = 0 then .error .dataLenZeroPrefix
    else if bs.length < 1 + lenOfLen then .error .tooShort
    else (decodeUsize ((x :: rest).take lenOfLen)).map (fun v => (1 + lenOfLen, v))
  | _ => .error .tooShort

/-- `PayloadInfo::from`: header length and payload length. -/
def headerInfo (bs : Bytes) : Dec (Nat × Nat) :=
  match bs with
  | [] => .error .tooShort
  | l :: _ =>
    if l.toNat ≤ 0x7f then .ok (0, 1)
    else if l.toNat ≤ 0xb7 then .ok (1, l.toNat - 0x80)
    else if l.toNat ≤ 0xbf then longInfo bs (l.toNat - 0xb7)
    else if l.toNat ≤ 0xf7 then .ok (1, l.toNat - 0xc0)
    else longInfo bs (l.toNat - 0xf7)

/-- `BasicDecoder::payload_info`: also checks that the payload is there. -/
def payloadInfo (bs : Bytes) : Dec (Nat × Nat) :=
  match headerInfo bs with
  | .error e => .error e
  | .ok (h, v) => if h + v ≤ bs.length then .ok (h, v) else .error .tooShort

/-- `Rlp::is_list`. -/
def isList (bs : Bytes) : Bool :=
  match bs with
  | [] => false
  | l :: _ => 0xc0 ≤ l.toNat

/-- `Rlp::is_data`. -/
def isData (bs : Bytes) : Bool :=
  match bs with
  | [] => false
  | l :: _ => l.toNat < 0xc0

/-- `Rlp::size`. -/
def size (bs : Bytes) : Nat :=
  if isData bs then
    match payloadInfo bs with
    | .ok (_, v) => v
    | .error _ => 0
  else 0

/-- `Rlp::data`: the payload of a string (and also of a list). -/
def data (bs : Bytes) : Dec Bytes := (payloadInfo bs).map (fun hv => (bs.drop hv.1).take hv.2)

/-- Skips items. -/
def skip : Nat → Bytes → Dec Bytes
  | 0, bs => .ok bs
  | n + 1, bs =>
    match payloadInfo bs with
    | .error e => .error e
    | .ok (h, v) => skip n (bs.drop (h + v))

/-- The item at the start of a byte string. -/
def first (bs : Bytes) : Dec Bytes := (payloadInfo bs).map (fun hv => bs.take (hv.1 + hv.2))

/-- `Rlp::at`. -/
def «at» (bs : Bytes) (i : Nat) : Dec Bytes := do
  if !isList bs then throw .expectedList
  let payload ← data bs
  let rest ← skip i payload
  first rest

/-- The items of a payload up to the first malformed one (`RlpIterator` stops there).  The first argument bounds the
recursion. -/
def splitAux : Nat → Bytes → List Bytes
  | 0, _ => []
  | f + 1, bs =>
    match payloadInfo bs with
    | .error _ => []
    | .ok (h, v) => bs.take (h + v) :: splitAux f (bs.drop (h + v))

/-- `Rlp::iter`: the items of a list; nothing if it is not a list. -/
def items (bs : Bytes) : List Bytes :=
  if isList bs then
    match data bs with
    | .error _ => []
    | .ok p => splitAux p.length p
  else []

/-- `BasicDecoder::decode_value`. -/
def value (bs : Bytes) : Dec Bytes :=
  match bs with
  | [] => .error .tooShort
  | l :: rest =>
    if l.toNat ≤ 0x7f then .ok [l]
    else if l.toNat ≤ 0xb7 then
      let n := l.toNat - 0x80
      if rest.length < n then .error .inconsistent
      else if n = 1 ∧ rest.headD 0 < 0x80 then .error .invalidIndirection
      else .ok (rest.take n)
    else if l.toNat ≤ 0xbf then
      let n := l.toNat - 0xb7
      if rest.length < n then .error .inconsistent
      else
        match decodeUsize (rest.take n) with
        | .error e => .error e
        | .ok len => if rest.length < n + len then .error .inconsistent else .ok ((rest.drop n).take len)
    else .error .expectedData

/-- The integer closure of `Decodable for u64`/`u8`: at most `w` bytes, no leading zero. -/
def intOf (w : Nat) (b : Bytes) : Dec Nat :=
  match b with
  | [] => .ok 0
  | x :: _ => if w < b.length then .error .tooBig else if x = 0 then .error .invalidIndirection else .ok (natOfBE b)

/-- `as_val::<u64>`. -/
def u64 (bs : Bytes) : Dec UInt64 := do let b ← value bs; let n ← intOf 8 b; pure (UInt64.ofNat n)
/-- `as_val::<u8>`. -/
def u8 (bs : Bytes) : Dec UInt8 := do let b ← value bs; let n ← intOf 1 b; pure (UInt8.ofNat n)

/-- `rlp::decode_list`: a malformed element aborts the process ("trusted rlp should be valid"). -/
def list {α : Type} (f : Bytes → Dec α) (bs : Bytes) : Dec (List α) :=
  match (items bs).mapM f with
  | .ok xs => .ok xs
  | .error _ => .error .panic

end Rlp

/-- UTF-8 bytes of a string (`as_bytes`). -/
def utf8 (s : String) : Bytes := s.toByteArray.data.toList

/-- `String::from_utf8`; `e` is the error the caller maps to. -/
def fromUtf8 (e : DErr) (b : Bytes) : Dec String :=
  match String.fromUTF8? ⟨b.toArray⟩ with
  | some s => .ok s
  | none => .error e

end Huobi
