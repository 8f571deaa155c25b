import Verif.Model.Startup
/-
Model of the life of `NetworkService` (core/network/src/service.rs:88-364): registration of handlers, listening, and the start of its parts when it is
polled for the first time.  The parts themselves are modelled elsewhere (Connection, PeerManager, Mail, Keeper).
-/
namespace Huobi

/-- The tasks that `NetworkService::poll` spawns: service.rs:314, 322, 326, 335. -/
inductive NetPart where
  | connection | peerManager | router | heartBeat
deriving DecidableEq

/-- `NetworkService`: service.rs:93-117.  A reactor is known by a name of type `R`.  `conn`, `mgr`, `beat`: the fields `net_conn_srv`, `peer_mgr`,
`heart_beat` are still there; `router`: the reactors of the router, while it is there; `running`: the tasks that were spawned; `table`: the reactors of the
router that runs.  *Not modelled: the report of errors on `sys_rx` (only logged) and the wakers.* -/
structure NetService (R : Type) where
  net : NetStart
  conn : Bool
  mgr : Bool
  beat : Bool
  router : Option (Reactors R)
  running : List NetPart
  table : Reactors R

/-- `NetworkService::new`: service.rs:120-181. -/
def NetService.new {R : Type} (keypair : Bytes) (bootstraps : List BootPeer) : NetService R :=
  ⟨⟨keypair, bootstraps, none, none⟩, true, true, true, some [], [], []⟩

/-- What is done with the service. -/
inductive NetCall (R : Type) where
  | register (url : Str) (r : R)
  | registerResponse (url : Str) (r : R)
  | listen (a : SocketAddr)
  | poll

/-- `register_endpoint_handler` (service.rs:184-209; `resp = false`) and `register_rpc_response` (service.rs:213-233; `resp = true`): after the scheme is
checked, the reactor is put into the router if that is still there; if not, the call succeeds all the same. -/
def NetService.addReactor {R : Type} (s : NetService R) (resp : Bool) (url : Str) (r : R) : Bool × NetService R :=
  match Endpoint.parse url with
  | .error _ => (false, s)
  | .ok e =>
    if (e.scheme = some .rpcResp) = (resp = true) then
      match s.router with
      | some m => (true, { s with router := some (m.register e r) })
      | none => (true, s)
    else (false, s)

/-- `NetworkService::listen`: service.rs:249-274.  Only while the connection service is there and does not listen. -/
def NetService.listen {R : Type} (w : World0) (s : NetService R) (a : SocketAddr) : Bool × NetService R :=
  if s.conn then ((s.net.listen w a).1, { s with net := (s.net.listen w a).2 }) else (true, s)

/-- The connection service is started: service.rs:299-315.  `none`: abort, the default address cannot be listened on. -/
def NetService.startConn {R : Type} (w : World0) (s : NetService R) : Option (NetService R) :=
  if s.conn then
    match s.net.bound with
    | some _ => some { s with conn := false, running := s.running ++ [.connection] }
    | none =>
      match w.bind defaultListen with
      | none => none
      | some real => some { s with net := { s.net with bound := some real }, conn := false, running := s.running ++ [.connection] }
  else some s

/-- The peer manager is started: service.rs:317-323. -/
def NetService.startMgr {R : Type} (s : NetService R) : NetService R :=
  if s.mgr then
    { s with net := { s.net with announced := some (s.net.announced.getD defaultListen) }, mgr := false, running := s.running ++ [.peerManager] }
  else s

/-- The router is started: service.rs:325-327. -/
def NetService.startRouter {R : Type} (s : NetService R) : NetService R :=
  match s.router with
  | some m => { s with router := none, table := m, running := s.running ++ [.router] }
  | none => s

/-- The heart beat is started: service.rs:330-336. -/
def NetService.startBeat {R : Type} (s : NetService R) : NetService R :=
  if s.beat then { s with beat := false, running := s.running ++ [.heartBeat] } else s

/-- `NetworkService::poll`: service.rs:280-363. -/
def NetService.poll {R : Type} (w : World0) (s : NetService R) : Option (NetService R) :=
  (s.startConn w).map (fun s => s.startMgr.startRouter.startBeat)

/-- One call; its answer (`true`: success). -/
def NetService.step {R : Type} (w : World0) (s : NetService R) : NetCall R → Option (Bool × NetService R)
  | .register url r => some (s.addReactor false url r)
  | .registerResponse url r => some (s.addReactor true url r)
  | .listen a => some (s.listen w a)
  | .poll => (s.poll w).map (fun s => (true, s))

/-- Several calls, with their answers; `none`: abort. -/
def NetService.calls {R : Type} (w : World0) (s : NetService R) : List (NetCall R) → Option (List Bool × NetService R)
  | [] => some ([], s)
  | c :: cs =>
    match s.step w c with
    | none => none
    | some (b, s1) =>
      match NetService.calls w s1 cs with
      | none => none
      | some (bs, s2) => some (b :: bs, s2)

end Huobi
