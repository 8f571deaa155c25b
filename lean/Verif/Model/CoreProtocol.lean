import Verif.Model.Endpoint
/-
The protocols of a node: core/network/src/protocols (core.rs, macro.rs and the constants and `build_meta` of ping.rs, identify.rs, discovery.rs,
transmitter.rs), and how two services of the tentacle library agree on them.
What is given to the constructors (intervals, channels, callbacks) is one value of a type `H`.  How the library writes a protocol id in a name is
a parameter `shw` (the same for all nodes).
-/
namespace Huobi.Protocols

/-- The four handlers: `Ping`, `Identify`, `Discovery`, `Transmitter`. -/
inductive Kind where
  | ping | identify | discovery | transmitter
deriving DecidableEq

/-- core/network/src/protocols/core.rs:18-21. -/
def pingId : Nat := 1
def identifyId : Nat := 2
def discoveryId : Nat := 3
def transmitterId : Nat := 4

/-- `NAME` and `SUPPORT_VERSIONS`: core/network/src/protocols/ping.rs:21-22. -/
def pingName : Str := "chain_ping".toList
def pingVersions : List Str := ["0.1".toList]
/-- core/network/src/protocols/identify.rs:9-10. -/
def identifyName : Str := "chain_identify".toList
def identifyVersions : List Str := ["0.1".toList]
/-- core/network/src/protocols/discovery.rs:10-11. -/
def discoveryName : Str := "chain_discovery".toList
def discoveryVersions : List Str := ["0.1".toList]
/-- core/network/src/protocols/transmitter.rs:14-15. -/
def transmitterName : Str := "chain_transmitter".toList
def transmitterVersions : List Str := ["0.1".toList]

/-- `ProtocolMeta` of tentacle as the code fills it: id, name, versions, handler. -/
structure Meta (H : Type) where
  id : Nat
  name : Str
  versions : List Str
  kind : Kind
  handler : H

/-- `name!`: core/network/src/protocols/macro.rs:3-7. -/
def nameOf (shw : Nat → Str) (n : Str) (id : Nat) : Str := n ++ '/' :: shw id

/-- `CoreProtocolBuilder`: core/network/src/protocols/core.rs:24-29; `new` (69-76) has nothing. -/
structure Builder (H : Type) where
  ping : Option H := none
  identify : Option H := none
  discovery : Option H := none
  transmitter : Option H := none

/-- `ping`, `identify`, `discovery`, `transmitter`: core/network/src/protocols/core.rs:78-109: each takes the place of what was given before. -/
def Builder.give {H : Type} (b : Builder H) : Kind × H → Builder H
  | (.ping, h) => { b with ping := some h }
  | (.identify, h) => { b with identify := some h }
  | (.discovery, h) => { b with discovery := some h }
  | (.transmitter, h) => { b with transmitter := some h }

/-- `build`: core/network/src/protocols/core.rs:111-144; the four assertions come first and end the process with the name of what is missing.
The `build_meta` of the four: ping.rs:46-53, identify.rs:29-36, discovery.rs:32-39, transmitter.rs:26-33. -/
def Builder.build {H : Type} (shw : Nat → Str) (b : Builder H) : Except Kind (List (Meta H)) :=
  match b.ping with
  | none => .error .ping
  | some p =>
    match b.identify with
    | none => .error .identify
    | some i =>
      match b.discovery with
      | none => .error .discovery
      | some d =>
        match b.transmitter with
        | none => .error .transmitter
        | some t => .ok [
            ⟨pingId, nameOf shw pingName pingId, pingVersions, .ping, p⟩,
            ⟨identifyId, nameOf shw identifyName identifyId, identifyVersions, .identify, i⟩,
            ⟨discoveryId, nameOf shw discoveryName discoveryId, discoveryVersions, .discovery, d⟩,
            ⟨transmitterId, nameOf shw transmitterName transmitterId, transmitterVersions, .transmitter, t⟩]

/-- What `NetworkService::new` gives: core/network/src/service.rs:152-157. -/
def nodeCalls {H : Type} (ping ident disc trans : H) : List (Kind × H) :=
  [(.ping, ping), (.identify, ident), (.discovery, disc), (.transmitter, trans)]

/-- `NetworkProtocol::target`: core/network/src/protocols/core.rs:46-53: what a dial opens (core/network/src/connection/mod.rs:145-148). -/
def target : List Nat := [pingId, identifyId, discoveryId, transmitterId]

/-- `message_proto_id`: core/network/src/protocols/core.rs:59-61: on which messages are sent (core/network/src/connection/control.rs:52-57, connection/mod.rs:172). -/
def messageId : Nat := transmitterId

/-- tentacle: two services agree on a protocol that the dialling one (`a`) opens if it has a protocol with this id and the other (`b`) one with the same name; the
version is the greatest (here: the last one of `a`'s list) that both have.  The result: the other side's id and handler. -/
def agree {H : Type} (a b : List (Meta H)) (id : Nat) : Option (Nat × Kind × H × Str) :=
  (a.find? fun m => m.id == id).bind fun m =>
    (b.find? fun m' => m'.name == m.name).bind fun m' =>
      ((m.versions.filter fun v => m'.versions.contains v).getLast?).map fun v => (m'.id, m'.kind, m'.handler, v)

/-- A dial of `a` to `b` opens these. -/
def opened {H : Type} (a b : List (Meta H)) : List (Nat × Nat × Kind × H × Str) :=
  target.filterMap fun id => (agree a b id).map fun r => (id, r)

/-- tentacle: what is sent on an opened protocol reaches the handler of the other side for it; on a protocol that was not opened nothing arrives.  A message
of a node goes on `messageId` in either direction: `sends` by the side that dialled, `answers` by the other one. -/
def sends {H : Type} (a b : List (Meta H)) : Option (Kind × H) :=
  ((opened a b).find? fun r => r.1 == messageId).map fun r => (r.2.2.1, r.2.2.2.1)
def answers {H : Type} (a b : List (Meta H)) : Option (Kind × H) :=
  ((opened a b).find? fun r => r.2.1 == messageId).bind fun r => (a.find? fun m => m.id == r.1).map fun m => (m.kind, m.handler)

end Huobi.Protocols
