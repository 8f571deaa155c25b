/-
The heart beat that keeps the network service and the peer manager of a node going: core/network/src/common.rs (`HeartBeat`) and the first lines of the
polls of the two services.  Time is a natural number.  The runtime is a timed automaton: things that are due (a delay that is over, a task that was woken)
happen at any moment within `lag`; the theorems quantify over all its runs.  `AtomicWaker`: `register` stores the waker of the task, `wake` takes it and wakes
the task, without a stored waker it does nothing.  Left out: the error that a delay gives when the timer thread of the process is gone.
-/
namespace Huobi.Beat

/-- A service with its heart beat. -/
structure State where
  now : Nat
  /-- when the delay is over -/
  deadline : Nat
  /-- since when the delay has been over and the task of the heart beat woken -/
  fired : Option Nat
  /-- the waker that the heart beat shares with the service is set -/
  registered : Bool
  /-- since when the service has been woken by the heart beat -/
  woken : Option Nat

/-- `HeartBeat::new` at time `created` (common.rs:65-73), and the first poll of the service at time `now`, which registers its waker and spawns the heart
beat: core/network/src/service.rs:280, 325-331, core/network/src/peer_manager/mod.rs:1016, 1019-1025. -/
def start (interval created now : Nat) : State where
  now := now
  deadline := created + interval
  fired := if created + interval ≤ now then some now else none
  registered := true
  woken := none

inductive Act where
  | tick | fire | beat | poll
deriving DecidableEq

/-- A tick passes only if nothing that is due would be late by more than `lag`. -/
def State.mayTick (s : State) (lag : Nat) : Prop :=
  (match s.fired with | none => s.now + 1 ≤ s.deadline + lag | some t => s.now + 1 ≤ t + lag) ∧
  (match s.woken with | none => True | some t => s.now + 1 ≤ t + lag)

/-- `HeartBeat::poll` when its delay is over: core/network/src/common.rs:82-97: the delay is set again, the service woken, and the second turn of the loop
finds the delay not over. -/
def State.beat (interval : Nat) (s : State) : State :=
  { s with
    fired := none
    deadline := s.now + interval
    registered := false
    woken := if s.registered then some s.now else s.woken }

/-- A poll of the service, for whatever reason (a command or an event also wakes it): it registers its waker first: service.rs:280, peer_manager/mod.rs:1016. -/
def State.poll (s : State) : State := { s with registered := true, woken := none }

/-- One step of the runtime. -/
inductive Step (interval lag : Nat) : State → Act → State → Prop
  | tick {s} (h : s.mayTick lag) : Step interval lag s .tick { s with now := s.now + 1 }
  | fire {s} (h : s.fired = none) (hd : s.deadline ≤ s.now) : Step interval lag s .fire { s with fired := some s.now }
  | beat {s} (h : s.fired ≠ none) : Step interval lag s .beat (s.beat interval)
  | poll {s} : Step interval lag s .poll s.poll

/-- What happened in a run, with the times, the latest first. -/
inductive Run (interval lag : Nat) : State → List (Nat × Act) → Prop
  | start {created now} (h : created ≤ now) : Run interval lag (start interval created now) [(now, .poll)]
  | step {s tr a s'} (h : Run interval lag s tr) (hs : Step interval lag s a s') : Run interval lag s' ((s'.now, a) :: tr)

end Huobi.Beat
