import Verif.Model.PeerManager
/-
Model of the connection service: `core/network/src/connection/{mod,control}.rs`.

* The transport (tentacle's `ServiceControl`) is an oracle: the answer to the n-th call made to it is `ans n`.
* Left out: the protocol a dial opens, priorities (part of the message), the polling of the transport itself, wakers, shutdown of the event channel.
-/
namespace Huobi

/-- What the transport answers to a call: connection/mod.rs:99-138. -/
inductive Answer where
  | ok
  | busy
  | unexpected
  | closed
deriving DecidableEq

/-- A call to the transport: `dial`, `disconnect`, `filter_broadcast` or `quick_filter_broadcast`. -/
inductive Call where
  | dial (a : Maddr)
  | disconnect (sid : Sid)
  | send (sids : List Sid) (msg : Nat)
deriving DecidableEq

/-- `ConnectionService`: connection/mod.rs:41-51, with the number of calls made so far and the calls accepted so far, in order. -/
structure ConnSvc where
  pending : List ConnCmd
  inbox : List ConnCmd
  calls : Nat
  accepted : List Call

/-- The loop over the addresses of a `Connect`: connection/mod.rs:147-151: the addresses not accepted, or `none` if the function returned early. -/
def ConnSvc.dials (ans : Nat → Answer) (s : ConnSvc) : List Maddr → ConnSvc × Option (List Maddr)
  | [] => (s, some [])
  | a :: rest =>
    match ans s.calls with
    | .ok => { s with calls := s.calls + 1, accepted := s.accepted ++ [Call.dial a] }.dials ans rest
    | .closed => ({ s with calls := s.calls + 1 }, none)
    | _ =>
      let (s', r) := { s with calls := s.calls + 1 }.dials ans rest
      (s', r.map (a :: ·))

/-- A single call, kept for later unless it is accepted or the transport is closed: connection/mod.rs:163-184. -/
def ConnSvc.single (ans : Nat → Answer) (s : ConnSvc) (c : Call) (cmd : ConnCmd) : ConnSvc :=
  match ans s.calls with
  | .ok => { s with calls := s.calls + 1, accepted := s.accepted ++ [c] }
  | .closed => { s with calls := s.calls + 1 }
  | _ => { s with calls := s.calls + 1, pending := s.pending ++ [cmd] }

/-- `process_event`: connection/mod.rs:106-186. -/
def ConnSvc.process (ans : Nat → Answer) (s : ConnSvc) : ConnCmd → ConnSvc
  | .connect addrs =>
    match s.dials ans addrs with
    | (s', none) => s'
    | (s', some left) => if left.isEmpty then s' else { s' with pending := s'.pending ++ [.connect left] }
  | .disconnect sid => s.single ans (.disconnect sid) (.disconnect sid)
  | .send sids msg => s.single ans (.send sids msg) (.send sids msg)

/-- `while pending_events.is_empty()`: connection/mod.rs:207-215. -/
def ConnSvc.receive (ans : Nat → Answer) (s : ConnSvc) : List ConnCmd → ConnSvc
  | [] => { s with inbox := [] }
  | c :: cs => if s.pending.isEmpty then (s.process ans c).receive ans cs else { s with inbox := c :: cs }

/-- `poll`: connection/mod.rs:192-225. -/
def ConnSvc.poll (ans : Nat → Answer) (s : ConnSvc) : ConnSvc :=
  let s1 := s.pending.foldl (fun s c => s.process ans c) { s with pending := [] }
  s1.receive ans s1.inbox

/-- What happens to the service: a command is put into its channel, or it is polled. -/
inductive ConnStep where
  | command (c : ConnCmd)
  | poll

def ConnSvc.step (ans : Nat → Answer) (s : ConnSvc) : ConnStep → ConnSvc
  | .command c => { s with inbox := s.inbox ++ [c] }
  | .poll => s.poll ans

/-- `ConnectionService::new`: connection/mod.rs:54-82. -/
def ConnSvc.new : ConnSvc := ⟨[], [], 0, []⟩

/-- A service after some steps. -/
def ConnSvc.run (ans : Nat → Answer) (l : List ConnStep) : ConnSvc := l.foldl (ConnSvc.step ans) .new

/-- `users_send`: control.rs:70-97: an error with the missed users, if any. -/
def usersSend (s : PM) (us : List UserId) (msg : Nat) : Except (List UserId) Unit :=
  let missed := (s.route us msg).2
  if missed.isEmpty then .ok () else .error missed

/-- `process_connect_error`: connection/keeper.rs:82-121: what the failure of a dial is reported as. -/
inductive DialError where
  | connectSelf
  | repeated (sid : Sid)
  | timedOut
  | interrupted
  | other

def DialError.event (dialer : Bool) (a : Maddr) : DialError → PMEvent
  | .connectSelf => .addListen a
  | .repeated sid => .repeated dialer sid a
  | .timedOut => .reconnectLater a
  | .interrupted => .reconnectLater a
  | .other => .unconnectable a

end Huobi
