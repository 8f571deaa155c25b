import Verif.Model.Protobuf
/-
Model of the message bodies: `core/network/src/message/{serde,serde_multi}.rs`, `core/consensus/src/fixed_types.rs`,
`core/mempool/src/adapter/message.rs`.  The byte format is that of the `bincode` crate (1.1): lengths are 8-byte
little-endian numbers, structures are the concatenation of their fields, bytes after the value are ignored.
-/
namespace Huobi

/-- `u64` in bincode: 8 bytes, least significant first. -/
def u64LE (n : Nat) : Bytes := (List.range 8).map (fun i => UInt8.ofNat (n / 256 ^ i % 256))

/-- The number of 8 little-endian bytes. -/
def natOfLE : Bytes → Nat
  | [] => 0
  | b :: bs => b.toNat + 256 * natOfLE bs

/-- Read an 8-byte length. -/
def readU64LE (bs : Bytes) : Option (Nat × Bytes) :=
  if bs.length < 8 then none else some (natOfLE (bs.take 8), bs.drop 8)

/-- A byte buffer: length and contents.  `serialize_bytes`, used by serde.rs:7-15. -/
def encBuf (b : Bytes) : Bytes := u64LE b.length ++ b

/-- `deserialize_byte_buf`, used by serde.rs:19-27. -/
def readBuf (bs : Bytes) : Option (Bytes × Bytes) :=
  match readU64LE bs with
  | none => none
  | some (n, rest) => if rest.length < n then none else some (rest.take n, rest.drop n)

/-- A vector of protocol values, each in its protobuf coding: serde_multi.rs:19-35. -/
def encMulti {T : Type} [Protobuf T] (l : List T) : Bytes := u64LE l.length ++ l.flatMap (fun v => encBuf (pbEncode v))

/-- The elements of a vector of the given length; the decoding error of an element becomes a bincode error
(serde.rs:26), an abort stays one. -/
def readElems {T : Type} [Protobuf T] : Nat → Bytes → PDec (List T)
  | 0, _ => .ok []
  | n + 1, bs =>
    match readBuf bs with
    | none => .error .malformed
    | some (b, rest) => do
      let v ← pbDecode b
      let vs ← readElems n rest
      pure (v :: vs)

/-- serde_multi.rs:37-108. -/
def decMulti {T : Type} [Protobuf T] (bs : Bytes) : PDec (List T) :=
  match readU64LE bs with
  | none => .error .malformed
  | some (n, rest) => readElems n rest

/-- `ConsensusRpcResponse`: core/consensus/src/fixed_types.rs:22-25. -/
inductive RpcResponse where
  | pullEpochs (e : Epoch)
  | pullTxs (txs : List SignedTx)
deriving DecidableEq

/-- How `ConsensusRpcResponse::decode` can fail. -/
inductive RpcErr where
  /-- an error value is returned -/
  | rejected
  /-- the process aborts -/
  | panic
deriving DecidableEq, Repr

/-- The byte `'a'`. -/
def flagEpoch : UInt8 := 97
/-- The byte `'b'`. -/
def flagTxs : UInt8 := 98

/-- `ConsensusRpcResponse::encode`: core/consensus/src/fixed_types.rs:29-46. -/
def RpcResponse.enc : RpcResponse → Bytes
  | .pullEpochs e => FixedCodec.encode e ++ [flagEpoch]
  | .pullTxs txs => encMulti txs ++ [flagTxs]

/-- `ConsensusRpcResponse::decode`: core/consensus/src/fixed_types.rs:48-65.  `split_off(len - 1)` aborts on the empty
string, and `unreachable!()` aborts on any other last byte. -/
def RpcResponse.dec (bs : Bytes) : Except RpcErr RpcResponse :=
  match bs.getLast? with
  | none => .error .panic
  | some flag =>
    if flag = flagEpoch then
      match (FixedCodec.decode bs.dropLast : Dec Epoch) with
      | .ok e => .ok (.pullEpochs e)
      | .error .panic => .error .panic
      | .error _ => .error .rejected
    else if flag = flagTxs then
      match (decMulti bs.dropLast : PDec (List SignedTx)) with
      | .ok txs => .ok (.pullTxs txs)
      | .error .panic => .error .panic
      | .error _ => .error .rejected
    else .error .panic

end Huobi
