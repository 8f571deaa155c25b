import Verif.Model.Server
/-
Model of what is put around a message on the wire: `core/network/src/message/mod.rs`, `core/network/src/outbound/{gossip,rpc}.rs`,
`core/network/src/reactor/router.rs`, `core/network/src/protocols/transmitter.rs`.

* Compression (`core/network/src/compression/snappy.rs`, crate `snap`) is a pair of functions; that one undoes the other is a
  hypothesis of the theorems (`Compression.Lossless`).  Compressing into a vector cannot fail.
* The transport delivers the bytes it was given, on the session at the other end.
-/
namespace Huobi

/-- `NetworkMessage`: core/network/src/message/mod.rs:19-26. -/
structure NetMsg where
  url : Str
  content : Bytes
deriving DecidableEq

/-- The derived prost message: string field 1, bytes field 2: core/network/src/message/mod.rs:19-26. -/
def NetMsg.pb (m : NetMsg) : PFields := fBytes 1 (utf8 (String.ofList m.url)) ++ fBytes 2 m.content

/-- The same, read: core/network/src/message/mod.rs:19-26. -/
def NetMsg.ofPb (fs : PFields) : PDec NetMsg := do
  let u ← getString 1 fs
  let c ← getBytes 2 fs
  pure ⟨u.toList, c⟩

/-- `NetworkMessage::encode` and `decode`: core/network/src/message/mod.rs:36-47. -/
instance : Protobuf NetMsg := ⟨NetMsg.pb, NetMsg.ofPb⟩

/-- `trait Compression`: core/network/src/traits.rs, implemented by compression/snappy.rs:10-38. -/
structure Compression where
  compress : Bytes → Bytes
  decompress : Bytes → Option Bytes

/-- What `package_message` of gossip makes: core/network/src/outbound/gossip.rs:36-52; `NetworkMessage::new`: message/mod.rs:28-34. -/
def packageGossip (z : Compression) (url : Str) (content : Bytes) : Except NetErr Bytes := do
  let e ← Endpoint.parse url
  pure (z.compress (pbEncode (NetMsg.mk e.url content)))

/-- What `call` and `response` hand to the transport: core/network/src/outbound/rpc.rs:39-44, 56-66, 87-95. -/
def packageRpc (z : Compression) (url : Str) (rid : UInt64) (content : Bytes) : Except NetErr Bytes := do
  let e ← Endpoint.parse url
  let e' ← e.extend (showNat rid.toNat)
  pure (z.compress (pbEncode (NetMsg.mk e'.url content)))

/-- The first half of `route_raw_message`: core/network/src/reactor/router.rs:71-73.  `none`: an error, which is only logged (line 97). -/
def unframe (z : Compression) (raw : Bytes) : Option NetMsg :=
  match z.decompress raw with
  | none => none
  | some b =>
    match (pbDecode b : PDec NetMsg) with
    | .ok m => some m
    | .error _ => none

/-- Bytes received on session `sid`: protocols/transmitter.rs:44-50, reactor/router.rs:66-98.  Returns the sessions and bytes handed to
the transport in reply, and the node afterwards. -/
def Node.receive (z : Compression) (cfg : NodeCfg) (io : SyncIo) (n : Node) (sid : Nat) (raw : Bytes) : List (Nat × Bytes) × Node :=
  match unframe z raw with
  | none => ([], n)
  | some m =>
    let r := n.serve cfg io sid m.url m.content
    (r.1.map (fun o => (o.sid, z.compress (pbEncode (NetMsg.mk o.url o.content)))), r.2)

/-- The event that received bytes are for the table of remote calls, if any: reactor/router.rs:66-98. -/
def rawEvent (z : Compression) (k sid : Nat) (raw : Bytes) : List RpcEvent :=
  match unframe z raw with
  | none => []
  | some m => [.receive k sid m.url m.content]

end Huobi
