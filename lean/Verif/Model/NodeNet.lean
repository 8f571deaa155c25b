import Verif.Model.Mail
import Verif.Model.ConsensusLock
/-
Model of a whole process: the tasks that bring messages from the transport to their handlers (Mail), the tasks that handlers start, and those of the
consensus and of the API (ConsensusLock), in any order, with single accesses to shared data as steps.

* A handler that inserts transactions starts one task for each of them (core/mempool/src/adapter/message.rs:47-63); the handler of an announcement awaits
  the synchronisation (core/consensus/src/message.rs:124-131), which is one task here.
* Tasks are numbered: those started by handlers have odd numbers, one after the other; the others even ones.
* The answer to a request is read from the node at one moment.
-/
namespace Huobi

/-- The state of a process.  `log`: what was given to handlers so far (only for the theorems; nothing depends on it); `spawned`: how many tasks handlers
started; `out`: what was handed to the transport in reply. -/
structure NodeTasks where
  conf : Conf
  spawned : Nat
  log : List (Handler × Nat × NetMsg)
  out : List (Nat × Bytes)

/-- The rpc id of the context of a handler: core/network/src/reactor/mod.rs:68-79.  Outer `none`: the message is not processed. -/
def contextId (url : Str) : Option (Option UInt64) :=
  match Endpoint.parse url with
  | .error _ => none
  | .ok e =>
    match e.scheme with
    | some .gossip => some none
    | some .rpcCall => match e.rpcId with
      | .ok r => some (some r)
      | .error _ => none
    | _ => none

/-- The calls that a handler makes for a message, each in a task of its own: core/mempool/src/adapter/message.rs:44-64 (`NewTxsHandler`),
core/consensus/src/message.rs:124-131 (`RichEpochIDMessageHandler`).  `k` tasks were started before.  `io`: what peers answer to the synchronisation. -/
def handlerCalls (k : Nat) (h : Handler) (m : NetMsg) (io : SyncIo) : List Event :=
  match contextId m.url with
  | none => []
  | some _ =>
    match h with
    | .newTxs =>
      match (decMulti m.content : PDec (List SignedTx)) with
      | .error _ => []
      | .ok txs => txs.mapIdx fun i tx => .callInsert (2 * (k + i) + 1) newTxsOrigin true tx
    | .richEpochId =>
      match readBuf m.content with
      | some (msg, _) => [.callSync (2 * k + 1) io msg]
      | none => []
    | _ => []

/-- What a handler replies: core/mempool/src/adapter/message.rs:99-107, core/consensus/src/message.rs:136-178. -/
def handlerReplies (n : Node) (h : Handler) (sid : Nat) (m : NetMsg) : List OutMsg :=
  match contextId m.url with
  | none => []
  | some rid =>
    match h with
    | .pullTxs => pullTxsHandler n.pool sid rid m.content
    | .rpc => rpcHandler n sid rid m.content
    | _ => []

/-- A reply as it is handed to the transport (Frame). -/
def OutMsg.wire (z : Compression) (o : OutMsg) : Nat × Bytes := (o.sid, z.compress (pbEncode (NetMsg.mk o.url o.content)))

/-- A message is given to its handler: core/network/src/reactor/mod.rs:64-97. -/
def NodeTasks.handle (z : Compression) (cfg : NodeCfg) (h : Handler) (sid : Nat) (m : NetMsg) (io : SyncIo) (s : NodeTasks) : NodeTasks :=
  { conf := (handlerCalls s.spawned h m io).foldl (Conf.step cfg) s.conf
    spawned := s.spawned + (handlerCalls s.spawned h m io).length
    log := s.log ++ [(h, sid, m)]
    out := s.out ++ (handlerReplies s.conf.node h sid m).map (OutMsg.wire z) }

/-- The network of a process: the reactors of src/main.rs:206-224, 285-323 (Server). -/
def tasksMail (z : Compression) (cfg : NodeCfg) : MailCfg Handler NodeTasks SyncIo := ⟨z, mainReactors, NodeTasks.handle z cfg⟩

/-- What can happen next in a process: a step on the way of a message, or a call of the consensus or of a client, or the next access of any task. -/
inductive NodeNetEvent where
  | net (e : MailEvent Handler SyncIo)
  | own (e : Event)

/-- The number of the task a call starts. -/
def Event.starts : Event → Option Nat
  | .callCommit t _ _ _ _ => some t
  | .callSync t _ _ => some t
  | .callInsert t _ _ _ => some t
  | .callPropose t _ _ => some t
  | .callCheck t _ _ _ _ => some t
  | .run _ => none

/-- Not the start of a task with a number that is kept for handlers. -/
def Event.isOwn (e : Event) : Bool :=
  match e.starts with
  | none => true
  | some t => t % 2 == 0

/-- One step of a process. -/
def nodeNetStep (z : Compression) (cfg : NodeCfg) (s : Mail Handler NodeTasks) : NodeNetEvent → Mail Handler NodeTasks
  | .net e => s.step (tasksMail z cfg) e
  | .own e => if e.isOwn then { s with node := { s.node with conf := s.node.conf.step cfg e } } else s

/-- A process that was started with the node `n`, after a schedule. -/
def nodeNet (z : Compression) (cfg : NodeCfg) (n : Node) (evs : List NodeNetEvent) : Mail Handler NodeTasks :=
  evs.foldl (nodeNetStep z cfg) (Mail.new ⟨Conf.after cfg n [], 0, [], []⟩)

end Huobi
