import Verif.Model.Frame
/-
Model of the way of a received message from the transport to its handler: `core/network/src/protocols/transmitter.rs`,
`core/network/src/reactor/{router,mod}.rs`.  The router and every reactor are tasks that take messages out of a queue and start a
new task for each; all tasks run in any order.

* Queues are unbounded and stay open (their ends are owned by tasks that never end).
* `react` (decoding the content and running the handler) is one step; handlers that overlap are the subject of ConsensusLock.
* The reactors are registered before the network runs (src/main.rs:206-224, 285-323) and a reactor is known by a name of type `R`.
  The two reactors of the node that have the same handler share a name, hence one queue; as the tasks they start run in any order, this
  excludes no order of handling.
-/
namespace Huobi

/-- What the tasks need to know: the compression and the registered reactors of the router (router.rs:27-39), and what the handler of a
reactor does with a message of a session (reactor/mod.rs:64-97).  `ω`: what the outside world answers while it does it. -/
structure MailCfg (R σ ω : Type) where
  z : Compression
  reactors : Reactors R
  handle : R → Nat → NetMsg → ω → σ → σ

/-- Messages under way.  `raws`: `raw_msg_rx` (router.rs:32); `routing`: running `route_raw_message`; `queues`: the channels `smsg_rx` of
all reactors in one list, each entry tagged with its reactor (reactor/mod.rs:32); `reacting`: running `react`. -/
structure Mail (R σ : Type) where
  raws : List (Nat × Bytes)
  routing : List (Nat × Bytes)
  queues : List (R × Nat × NetMsg)
  reacting : List (R × Nat × NetMsg)
  node : σ

/-- Nothing under way: the network after its start. -/
def Mail.new {R σ : Type} (s : σ) : Mail R σ := ⟨[], [], [], [], s⟩

/-- One step of one task. -/
inductive MailEvent (R ω : Type) where
  /-- `Transmitter::received`: transmitter.rs:40-46 -/
  | arrive (sid : Nat) (raw : Bytes)
  /-- one turn of the loop of `MessageRouter::poll`: router.rs:107-117 -/
  | routerTake
  /-- the `i`th running `route_raw_message` runs: router.rs:66-98 -/
  | route (i : Nat)
  /-- one turn of the loop of `Reactor::poll`: reactor/mod.rs:108-119 -/
  | reactorTake (r : R)
  /-- the `i`th running `react` runs: reactor/mod.rs:55-98 -/
  | react (i : Nat) (io : ω)

/-- The first entry of the queue of a reactor, and what is left: `poll_next` in reactor/mod.rs:114. -/
def takeFor {R : Type} [DecidableEq R] (r : R) : List (R × Nat × NetMsg) → Option ((R × Nat × NetMsg) × List (R × Nat × NetMsg))
  | [] => none
  | x :: xs =>
    if x.1 = r then some (x, xs)
    else
      match takeFor r xs with
      | none => none
      | some (y, ys) => some (y, x :: ys)

/-- `route_raw_message`: router.rs:66-98.  An error is only logged. -/
def MailCfg.routed {R σ ω : Type} (cfg : MailCfg R σ ω) (x : Nat × Bytes) : Option (R × Nat × NetMsg) :=
  match unframe cfg.z x.2 with
  | none => none
  | some m =>
    match cfg.reactors.route m.url with
    | .error _ => none
    | .ok r => some (r, x.1, m)

/-- One step: see `MailEvent`. -/
def Mail.step {R σ ω : Type} [DecidableEq R] (cfg : MailCfg R σ ω) (s : Mail R σ) : MailEvent R ω → Mail R σ
  | .arrive sid raw => { s with raws := s.raws ++ [(sid, raw)] }
  | .routerTake =>
    match s.raws with
    | [] => s
    | x :: xs => { s with raws := xs, routing := s.routing ++ [x] }
  | .route i =>
    match s.routing[i]? with
    | none => s
    | some x =>
      match cfg.routed x with
      | none => { s with routing := s.routing.eraseIdx i }
      | some y => { s with routing := s.routing.eraseIdx i, queues := s.queues ++ [y] }
  | .reactorTake r =>
    match takeFor r s.queues with
    | none => s
    | some (y, ys) => { s with queues := ys, reacting := s.reacting ++ [y] }
  | .react i io =>
    match s.reacting[i]? with
    | none => s
    | some y => { s with reacting := s.reacting.eraseIdx i, node := cfg.handle y.1 y.2.1 y.2.2 io s.node }

/-- A schedule. -/
def Mail.run {R σ ω : Type} [DecidableEq R] (cfg : MailCfg R σ ω) (s : Mail R σ) (evs : List (MailEvent R ω)) : Mail R σ :=
  evs.foldl (fun s e => s.step cfg e) s

/-- What the handler of reactor `h` of the node does with a message: reactor/mod.rs:64-97 and the handlers of Server.  `io`: what peers
answer if a synchronisation starts.  The first component is what was handed to the transport in reply so far. -/
def Node.handle (z : Compression) (cfg : NodeCfg) (h : Handler) (sid : Nat) (m : NetMsg) (io : SyncIo) (s : List (Nat × Bytes) × Node) :
    List (Nat × Bytes) × Node :=
  let r : List OutMsg × Node :=
    match Endpoint.parse m.url with
    | .error _ => ([], s.2)
    | .ok e =>
      let rid : Option (Option UInt64) :=
        match e.scheme with
        | some .gossip => some none
        | some .rpcCall => match e.rpcId with
          | .ok r => some (some r)
          | .error _ => none
        | _ => none
      match rid with
      | none => ([], s.2)
      | some rid =>
        match h with
        | .newTxs => ([], newTxsHandler cfg s.2 m.content)
        | .pullTxs => (pullTxsHandler s.2.pool sid rid m.content, s.2)
        | .proposal => ([], s.2)
        | .vote => ([], s.2)
        | .qc => ([], s.2)
        | .richEpochId =>
          match readBuf m.content with
          | some (msg, _) => ([], (s.2.updateEpoch cfg io msg).2)
          | none => ([], s.2)
        | .rpc => (rpcHandler s.2 sid rid m.content, s.2)
        | .respPushTxs => ([], s.2)
        | .respSync => ([], s.2)
  (s.1 ++ r.1.map (fun o => (o.sid, z.compress (pbEncode (NetMsg.mk o.url o.content)))), r.2)

/-- The network of a node: the reactors of src/main.rs:206-224, 285-323 (Server). -/
def nodeMail (z : Compression) (cfg : NodeCfg) : MailCfg Handler (List (Nat × Bytes) × Node) SyncIo := ⟨z, mainReactors, Node.handle z cfg⟩

end Huobi
