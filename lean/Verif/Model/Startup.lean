import Verif.Model.Consensus
import Verif.Model.Hex
import Verif.Model.Server
/-
Model of the start of a node: src/main.rs (`main`, `handle_init`, `start`), src/config.rs, core/network/src/config.rs,
core/network/src/common.rs, `NetworkService::{new, listen, poll}` and the registration of handlers in core/network/src/service.rs.

Not modelled: the TOML reader and the clap arguments (the configuration is the record they produce), the logger, the GraphQL server's own
addresses, and the JSON reader of the genesis file.  `unwrap`/`expect` at start abort the process: an `Abort`.
-/
namespace Huobi

/-- `std::net::IpAddr`. -/
inductive IpAddr where
  | v4 (octets : Bytes)
  | v6 (octets : Bytes)
deriving DecidableEq

/-- `std::net::SocketAddr`; `flow` and `scope` only exist for version 6. -/
inductive SocketAddr where
  | v4 (octets : Bytes) (port : UInt16)
  | v6 (octets : Bytes) (port : UInt16) (flow scope : UInt32)
deriving DecidableEq

/-- `SocketAddr::ip`. -/
def SocketAddr.ip : SocketAddr → IpAddr
  | .v4 b _ => .v4 b
  | .v6 b _ _ _ => .v6 b

/-- `SocketAddr::port`. -/
def SocketAddr.port : SocketAddr → UInt16
  | .v4 _ p => p
  | .v6 _ p _ _ => p

/-- Components of a multiaddress, as far as the code looks at them. -/
inductive MProto where
  | ip4 (octets : Bytes)
  | ip6 (octets : Bytes)
  | tcp (port : UInt16)
  | other (name : Bytes)
deriving DecidableEq

/-- `tentacle::multiaddr::Multiaddr`. -/
abbrev Multi := List MProto

/-- `Multiaddr::from(IpAddr)`. -/
def IpAddr.proto : IpAddr → MProto
  | .v4 b => .ip4 b
  | .v6 b => .ip6 b

/-- `socket_to_multi_addr`: core/network/src/common.rs:37-42. -/
def socketToMulti (a : SocketAddr) : Multi := [a.ip.proto, .tcp a.port]

/-- `multi_addr_ip`: core/network/src/common.rs:44-56. -/
def multiIp (a : Multi) : Option IpAddr :=
  match a with
  | .ip4 b :: _ :: _ => some (.v4 b)
  | .ip6 b :: _ :: _ => some (.v6 b)
  | _ => none

/-- The cryptography and the transport a start uses: public key of a secret key (`none`: not a secret key), and whether the transport can
listen on an address, with the address it then really listens on. -/
structure World0 where
  pubOf : Bytes → Option Bytes
  bind : Multi → Option Multi

/-- A bootstrap peer, `Peer::from_pair`: core/network/src/peer_manager/peer.rs:111-118 (peer id and user address are computed from the
key). -/
structure BootPeer where
  key : Bytes
  user : UserAddress
  addr : Multi
deriving DecidableEq

/-- The closure `to_peer` of `NetworkConfig::bootstraps`: core/network/src/config.rs:112-121. -/
def toPeer (digest : Bytes → Hash) (x : Str × SocketAddr) : Option BootPeer :=
  (hexDecode x.1).map (fun key => ⟨key, UserAddress.fromPubkey digest key, socketToMulti x.2⟩)

/-- `NetworkConfig::bootstraps`: core/network/src/config.rs:111-130 (`collect` into a `Result` stops at the first error). -/
def parseBootstraps (digest : Bytes → Hash) : List (Str × SocketAddr) → Option (List BootPeer)
  | [] => some []
  | x :: xs =>
    match toPeer digest x with
    | none => none
    | some p =>
      match parseBootstraps digest xs with
      | none => none
      | some ps => some (p :: ps)

/-- `NetworkService`, as far as listening is concerned: core/network/src/service.rs:88-114.  `bound`: the connection service is `Ready`,
with the address it listens on; `announced`: `listen` of the peer manager, which the identify protocol sends to peers
(core/network/src/peer_manager/ident.rs:73-75, mod.rs:469-474). -/
structure NetStart where
  keypair : Bytes
  bootstraps : List BootPeer
  bound : Option Multi
  announced : Option Multi
deriving DecidableEq

/-- `DEFAULT_LISTEN_IP_ADDR`, `DEFAULT_LISTEN_PORT`: core/network/src/config.rs:24-25, 73-74. -/
def defaultListen : Multi := [.ip4 [0, 0, 0, 0], .tcp 2337]

/-- `NetworkService::listen`: core/network/src/service.rs:249-274.  A second call does nothing and succeeds. -/
def NetStart.listen (w : World0) (s : NetStart) (a : SocketAddr) : Bool × NetStart :=
  match s.bound with
  | some _ => (true, s)
  | none =>
    match w.bind (socketToMulti a) with
    | none => (false, s)
    | some real => (true, { s with bound := some real, announced := some (socketToMulti a) })

/-- The preflight of `NetworkService::poll`: core/network/src/service.rs:298-319.  `none`: abort. -/
def NetStart.run (w : World0) (s : NetStart) : Option NetStart :=
  match s.bound with
  | some _ => some { s with announced := some (s.announced.getD defaultListen) }
  | none =>
    match w.bind defaultListen with
    | none => none
    | some real => some { s with bound := some real, announced := some (s.announced.getD defaultListen) }

/-- `register_endpoint_handler`: core/network/src/service.rs:184-209.  The reactor is registered before the service runs (the router is
there). -/
def registerHandler (rs : Reactors Handler) (url : Str) (h : Handler) : Except NetErr (Reactors Handler) :=
  match Endpoint.parse url with
  | .error e => .error e
  | .ok e => if e.scheme = some .rpcResp then .error .unexpectedScheme else .ok (rs.register e h)

/-- `register_rpc_response`: core/network/src/service.rs:213-233. -/
def registerResponse (rs : Reactors Handler) (url : Str) (h : Handler) : Except NetErr (Reactors Handler) :=
  match Endpoint.parse url with
  | .error e => .error e
  | .ok e => if e.scheme ≠ some .rpcResp then .error .unexpectedScheme else .ok (rs.register e h)

/-- The registrations of `start`, each unwrapped: src/main.rs:206-224, 285-323. -/
def registerAll : Except NetErr (Reactors Handler) := do
  let r ← registerHandler [] endNewTxs .newTxs
  let r ← registerHandler r endPullTxs .newTxs
  let r ← registerResponse r endRespPullTxs .respPushTxs
  let r ← registerHandler r endProposal .proposal
  let r ← registerHandler r endQC .qc
  let r ← registerHandler r endVote .vote
  let r ← registerHandler r endRichEpochId .richEpochId
  let r ← registerHandler r rpcSyncPull .rpc
  registerResponse r rpcRespSyncPull .respSync

/-- `Config`: src/config.rs:12-75 (what the start of the node looks at). -/
structure FileCfg where
  chainId : Str
  privkey : Str
  bootstraps : Option (List (Str × SocketAddr))
  listening : SocketAddr
  timeoutGap : UInt64
  poolSize : UInt64
  cyclesLimit : UInt64
  cyclesPrice : UInt64
  interval : UInt64
  verifiers : List Str
deriving DecidableEq

/-- What is not written in the configuration: hash function, state roots, error texts, signature check, Merkle layout. -/
structure Fixed where
  digest : Bytes → Hash
  rootOf : World → MerkleRoot
  showErr : ExecErr → String
  sigOk : Hash → Bytes → Bytes → Bool
  layout : MerkleLayout

/-- Where a start aborts. -/
inductive Abort where
  | chainId | privkey | genesis | bootstrap | listen | noEpoch | verifier
deriving DecidableEq

/-- `Hash::from_hex(&cfg.chain_id).unwrap()` and the own key: src/main.rs:70-77, 156-163.  The node's private key, public key and
address. -/
def parseIdentity (fx : Fixed) (w : World0) (f : FileCfg) : Except Abort (Hash × Bytes × UserAddress) :=
  match Hash.fromHex f.chainId with
  | none => .error .chainId
  | some chainId =>
    match hexDecode f.privkey with
    | none => .error .privkey
    | some sk =>
      match w.pubOf sk with
      | none => .error .privkey
      | some pk => .ok (chainId, sk, UserAddress.fromPubkey fx.digest pk)

/-- The verifier list: src/main.rs:266-276. -/
def parseVerifiers : List Str → Option (List Validator)
  | [] => some []
  | v :: vs =>
    match UserAddress.fromHex v with
    | none => none
    | some a =>
      match parseVerifiers vs with
      | none => none
      | some xs => some (⟨a, 1, 1⟩ :: xs)

/-- The parts of the configuration of a node. -/
def FileCfg.node (fx : Fixed) (f : FileCfg) (chainId : Hash) (self : UserAddress) (validators : List Validator) : NodeCfg :=
  { digest := fx.digest, rootOf := fx.rootOf, showErr := fx.showErr, sigOk := fx.sigOk, layout := fx.layout, chainId := chainId
    selfAddress := self, cyclesPrice := f.cyclesPrice, cyclesLimit := f.cyclesLimit, validators := validators, interval := f.interval
    poolSize := f.poolSize.toNat, timeoutGap := f.timeoutGap }

/-- A started node: its configuration, the node and the network service. -/
structure Started where
  cfg : NodeCfg
  node : Node
  net : NetStart

/-- `start`: src/main.rs:155-349, in the order of the code. -/
def startAll (fx : Fixed) (w : World0) (f : FileCfg) (store : Store) (tries : StateDB) : Except Abort Started :=
  match parseIdentity fx w f with
  | .error e => .error e
  | .ok (chainId, sk, self) =>
    match parseBootstraps fx.digest (f.bootstraps.getD []) with
    | none => .error .bootstrap
    | some peers =>
      match NetStart.listen w ⟨sk, peers, none, none⟩ f.listening with
      | (false, _) => .error .listen
      | (true, net) =>
        match store.latest with
        | none => .error .noEpoch
        | some _ =>
          match parseVerifiers f.verifiers with
          | none => .error .verifier
          | some vs =>
            match startNode (f.node fx chainId self vs) store tries, net.run w with
            | some n, some net' => .ok ⟨f.node fx chainId self vs, n, net'⟩
            | _, _ => .error .noEpoch

/-- `main`: src/main.rs:42-67.  The databases after the call, also when it aborts (an aborting genesis leaves them: nothing of it has been
written to the block database). -/
def boot (fx : Fixed) (w : World0) (f : FileCfg) (g : Genesis) (store : Store) (tries : StateDB) : Except Abort Started × Store × StateDB :=
  match parseIdentity fx w f with
  | .error e => (.error e, store, tries)
  | .ok (chainId, _, self) =>
    match handleInit (f.node fx chainId self []) g store tries with
    | none => (.error .genesis, store, tries)
    | some (s, t) => (startAll fx w f s t, s, t)

end Huobi
