import Verif.Model.PeerManager
import Verif.Model.Messages
/-
Model of the peer file: `core/network/src/peer_manager/persist.rs`, `package_peers` and `insert_peers` of
`core/network/src/peer_manager/mod.rs`, and the start of the network service (`core/network/src/service.rs`).

* bincode 1.x (third party): numbers little-endian, lengths as u64, enum variants as u32, options as one byte; `deserialize` ignores
  bytes after the value and fails if there are too few.
* The coding of public keys (tentacle-secio) and multiaddresses (tentacle-multiaddr) is abstract.
-/
namespace Huobi

/-- `IpAddr` as serde serialises it in binary formats: the octets. -/
inductive Ip where
  | v4 (b : { l : Bytes // l.length = 4 })
  | v6 (b : { l : Bytes // l.length = 16 })
deriving DecidableEq

/-- An entry of `PeerData`: a key and the serialised fields of `PeerState` (the others are marked `serde(skip)`): persist.rs:67-68, peer.rs:29-54. -/
structure FilePeer where
  key : PubKey
  ip : Option Ip
  addrs : List Maddr
  connectAt : Nat
  disconnectAt : Nat
  alive : Nat
deriving DecidableEq

/-- `PublicKey::encode`/`decode` and the binary form of a `Multiaddr` (third party). -/
structure PeerCodec where
  encKey : PubKey → Bytes
  decKey : Bytes → Option PubKey
  encAddr : Maddr → Bytes
  decAddr : Bytes → Option Maddr

/-- A u32 in bincode, the variant of an enum. -/
def u32LE (n : Nat) : Bytes := (List.range 4).map (fun i => UInt8.ofNat (n / 256 ^ i % 256))

/-- `connection_ip`: an option of an enum of arrays. -/
def encIp : Option Ip → Bytes
  | none => [0]
  | some (.v4 b) => 1 :: (u32LE 0 ++ b.1)
  | some (.v6 b) => 1 :: (u32LE 1 ++ b.1)

/-- Reading an array of `n` bytes. -/
def readArr (n : Nat) (bs : Bytes) : Option ({ l : Bytes // l.length = n } × Bytes) :=
  if h : n ≤ bs.length then some (⟨bs.take n, by simp [h]⟩, bs.drop n) else none

/-- Reading `connection_ip`. -/
def readIp (bs : Bytes) : Option (Option Ip × Bytes) :=
  match bs with
  | [] => none
  | t :: bs =>
    if t = 0 then some (none, bs)
    else if t = 1 then
      if bs.length < 4 then none
      else if natOfLE (bs.take 4) = 0 then (readArr 4 (bs.drop 4)).map (fun x => (some (.v4 x.1), x.2))
      else if natOfLE (bs.take 4) = 1 then (readArr 16 (bs.drop 4)).map (fun x => (some (.v6 x.1), x.2))
      else none
    else none

/-- The set of addresses. -/
def encAddrs (c : PeerCodec) (as : List Maddr) : Bytes := u64LE as.length ++ as.flatMap (fun a => encBuf (c.encAddr a))

/-- Reading `n` addresses. -/
def readAddrs (c : PeerCodec) : Nat → Bytes → Option (List Maddr × Bytes)
  | 0, bs => some ([], bs)
  | n + 1, bs =>
    match readBuf bs with
    | none => none
    | some (b, bs) =>
      match c.decAddr b with
      | none => none
      | some a => (readAddrs c n bs).map (fun x => (a :: x.1, x.2))

/-- One entry: the pair of `PeerPubKey` (persist.rs:91-98) and `PeerState`. -/
def FilePeer.enc (c : PeerCodec) (p : FilePeer) : Bytes :=
  encBuf (c.encKey p.key) ++ (encIp p.ip ++ (encAddrs c p.addrs ++ (u64LE p.connectAt ++ (u64LE p.disconnectAt ++ u64LE p.alive))))

/-- Reading one entry; the visitor of persist.rs:100-138 is called with the bytes of the key. -/
def readPeer (c : PeerCodec) (bs : Bytes) : Option (FilePeer × Bytes) := do
  let (kb, bs) ← readBuf bs
  let key ← c.decKey kb
  let (ip, bs) ← readIp bs
  let (n, bs) ← readU64LE bs
  let (addrs, bs) ← readAddrs c n bs
  let (connectAt, bs) ← readU64LE bs
  let (disconnectAt, bs) ← readU64LE bs
  let (alive, bs) ← readU64LE bs
  return (⟨key, ip, addrs, connectAt, disconnectAt, alive⟩, bs)

/-- `PeerPersistence::save`: persist.rs:33-40, the contents of the file. -/
def peerFile (c : PeerCodec) (l : List FilePeer) : Bytes := u64LE l.length ++ l.flatMap (FilePeer.enc c)

/-- Reading `n` entries. -/
def readPeers (c : PeerCodec) : Nat → Bytes → Option (List FilePeer × Bytes)
  | 0, bs => some ([], bs)
  | n + 1, bs =>
    match readPeer c bs with
    | none => none
    | some (p, bs) => (readPeers c n bs).map (fun x => (p :: x.1, x.2))

/-- `PeerPersistence::load`: persist.rs:44-53.  `none`: an error. -/
def loadPeers (c : PeerCodec) (bs : Bytes) : Option (List FilePeer) :=
  match readU64LE bs with
  | none => none
  | some (n, bs) => (readPeers c n bs).map (·.1)

/-- `package_peers` (mod.rs:397-409) may give `l`: every known peer once, in any order, its addresses in any order.  `connection_ip` and
`disconnect_at`, which the model of the manager leaves out, are arbitrary. -/
def PM.Packages (s : PM) (l : List FilePeer) : Prop :=
  ∃ pids : List Pid, pids.Nodup ∧ (∀ pid, pid ∈ pids ↔ s.pool pid ≠ none) ∧
    pids.length = l.length ∧
    ∀ x ∈ pids.zip l, ∃ p, s.pool x.1 = some p ∧ x.2.key = p.key ∧ (∀ a, a ∈ x.2.addrs ↔ a ∈ p.addrs) ∧ x.2.connectAt = p.connectAt ∧ x.2.alive = p.alive

/-- The start of the network (service.rs:132-146, mod.rs:545-556): without persistence nothing is loaded; an error while loading is only logged.
`file` is the contents of the peer file, `none` if there is none. -/
def PM.boot (cfg : PMCfg) (c : PeerCodec) (persistence : Bool) (now : Clock) (file : Option Bytes) : PM × List ConnCmd :=
  PM.start cfg now (if persistence then
    match file.bind (loadPeers c) with
    | some l => l.map (fun f => (f.key, f.addrs))
    | none => []
  else [])

/-- The peer file after the manager is dropped (mod.rs:1001-1010): written anew with persistence, left alone without (`NoopPersistence`). -/
def PM.dropFile (c : PeerCodec) (persistence : Bool) (l : List FilePeer) (file : Option Bytes) : Option Bytes :=
  if persistence then some (peerFile c l) else file

end Huobi
