import Verif.Model.Endpoint
import Verif.Model.Types
/-
Model of remote calls: `core/network/src/rpc_map.rs`, `core/network/src/outbound/rpc.rs` and the handling of responses in
`core/network/src/reactor/{mod,router}.rs`.  Calls and received messages are tasks; the model has one event for each of their
accesses to the shared map, in any order.

* `α` is the type of decoded messages; a message type (`R` of `call`, `M` of a reactor) is a number with its decoder.
* `oneshot` channels: `chan c = some (some x)`: `x` was sent to call `c`; `some none`: the sender was dropped.
* Nothing in the repository removes an entry from the map or times a call out except `take`; the closing of a session is
  therefore an event that changes nothing here (connection/keeper.rs:199-207, peer_manager/mod.rs:669-690).
* Compression and the protobuf frame of `NetworkMessage` are left out: a message is its url and its content.
-/
namespace Huobi

/-- `Key`: rpc_map.rs:15-19. -/
structure RpcKey where
  sid : Nat
  rid : UInt64
deriving DecidableEq

/-- `BackSender`: rpc_map.rs:21: the call it leads to and the type of its channel. -/
structure RpcSender where
  call : Nat
  ty : Nat
deriving DecidableEq

/-- Where a call is: outbound/rpc.rs:51-76. -/
inductive CallPhase (α : Type) where
  /-- `next_rpc_id` done -/
  | drawn
  /-- `insert` done -/
  | inserted
  /-- the message was handed to the transport, the call waits -/
  | sent
  | finished (r : Except NetErr α)

/-- A call.  `ix` counts the calls: its id is `ix` as a `u64`. -/
structure RpcCall (α : Type) where
  sid : Nat
  ty : Nat
  ix : Nat
  phase : CallPhase α

/-- The id of a call: `fetch_add` wraps around, rpc_map.rs:37-39. -/
def RpcCall.rid {α : Type} (c : RpcCall α) : UInt64 := UInt64.ofNat c.ix

/-- The key under which a call registers. -/
def RpcCall.key {α : Type} (c : RpcCall α) : RpcKey := ⟨c.sid, c.rid⟩

/-- A response between the check and the removal of `take`. -/
structure Taking (α : Type) where
  key : RpcKey
  ty : Nat
  msg : α

/-- The shared data and the tasks. -/
structure RpcState (α : Type) where
  next : Nat
  map : RpcKey → Option RpcSender
  calls : Nat → Option (RpcCall α)
  chan : Nat → Option (Option α)
  takes : Nat → Option (Taking α)

/-- `RpcMap::new`: rpc_map.rs:30-35. -/
def RpcState.new {α : Type} : RpcState α := ⟨0, fun _ => none, fun _ => none, fun _ => none, fun _ => none⟩

/-- The registered reactors and the decoders of message types. -/
structure RpcCfg (α : Type) where
  reactors : Reactors Nat
  decode : Nat → Bytes → Option α

/-- What a received message asks of the map: `route_raw_message` and `react`, router.rs:71-98, reactor/mod.rs:64-97.  `none`: it is
dropped, or handed to a handler. -/
def RpcCfg.response {α : Type} (cfg : RpcCfg α) (sid : Nat) (url : Str) (content : Bytes) : Option (Taking α) :=
  match cfg.reactors.route url with
  | .error _ => none
  | .ok ty =>
    match Endpoint.parse url, cfg.decode ty content with
    | .ok e, some x =>
      if e.scheme = some .rpcResp then
        match e.rpcId with
        | .ok rid => some ⟨⟨sid, rid⟩, ty, x⟩
        | .error _ => none
      else none
    | _, _ => none

/-- What can happen. -/
inductive RpcEvent where
  /-- call `c` of type `ty` on session `sid`: `next_rpc_id` -/
  | start (c sid ty : Nat)
  /-- `insert` of call `c` -/
  | insert (c : Nat)
  /-- encoding, extending the url and sending: outbound/rpc.rs:62-66 -/
  | send (c : Nat) (ok : Bool)
  /-- call `c` looks at its channel -/
  | wake (c : Nat)
  /-- a message arrives on session `sid` and is handled in task `k` up to the check of `take`: rpc_map.rs:59-61 -/
  | receive (k sid : Nat) (url : Str) (content : Bytes)
  /-- the rest of `take`, and the sending: rpc_map.rs:63-72, reactor/mod.rs:86-92 -/
  | take (k : Nat)
  /-- session `sid` is closed -/
  | closed (sid : Nat)

def RpcState.setCall {α : Type} (s : RpcState α) (c : Nat) (x : RpcCall α) : RpcState α := { s with calls := fun i => if i = c then some x else s.calls i }
def RpcState.setMap {α : Type} (s : RpcState α) (k : RpcKey) (x : Option RpcSender) : RpcState α := { s with map := fun i => if i = k then x else s.map i }
def RpcState.setChan {α : Type} (s : RpcState α) (c : Nat) (x : Option α) : RpcState α := { s with chan := fun i => if i = c then some x else s.chan i }
def RpcState.setTake {α : Type} (s : RpcState α) (k : Nat) (x : Option (Taking α)) : RpcState α := { s with takes := fun i => if i = k then x else s.takes i }

/-- `insert`: rpc_map.rs:41-50.  A sender that is overwritten is dropped. -/
def RpcState.insert {α : Type} (s : RpcState α) (c : Nat) (x : RpcCall α) : RpcState α :=
  let s1 := match s.map x.key with
    | some old => s.setChan old.call none
    | none => s
  (s1.setMap x.key (some ⟨c, x.ty⟩)).setCall c { x with phase := .inserted }

/-- The end of `take` and the sending: rpc_map.rs:63-72, reactor/mod.rs:86-92. -/
def RpcState.take {α : Type} (s : RpcState α) (t : Taking α) : RpcState α :=
  match s.map t.key with
  | none => s
  | some b =>
    let s1 := s.setMap t.key none
    if b.ty = t.ty then s1.setChan b.call (some t.msg) else s1.setChan b.call none

/-- One event. -/
def RpcState.step {α : Type} (cfg : RpcCfg α) (s : RpcState α) : RpcEvent → RpcState α
  | .start c sid ty =>
    match s.calls c with
    | some _ => s
    | none => { s.setCall c ⟨sid, ty, s.next, .drawn⟩ with next := s.next + 1 }
  | .insert c =>
    match s.calls c with
    | some x => match x.phase with
      | .drawn => s.insert c x
      | _ => s
    | none => s
  | .send c ok =>
    match s.calls c with
    | some x => match x.phase with
      | .inserted => s.setCall c { x with phase := if ok then .sent else .finished (.error .send) }
      | _ => s
    | none => s
  | .wake c =>
    match s.calls c, s.chan c with
    | some x, some v => match x.phase with
      | .sent => s.setCall c { x with phase := .finished (match v with | some m => .ok m | none => .error .dropped) }
      | _ => s
    | _, _ => s
  | .receive k sid url content =>
    match s.takes k, cfg.response sid url content with
    | none, some t => if (s.map t.key).isSome then s.setTake k (some t) else s
    | _, _ => s
  | .take k =>
    match s.takes k with
    | some t => (s.take t).setTake k none
    | none => s
  | .closed _ => s

/-- After a sequence of events. -/
def RpcState.after {α : Type} (cfg : RpcCfg α) (evs : List RpcEvent) : RpcState α := evs.foldl (RpcState.step cfg) RpcState.new

end Huobi
