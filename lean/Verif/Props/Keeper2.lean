import Verif.Props.Keeper
import Verif.Props.PeerManager2
/-
C74-C77 and C84 for what the transport, the ping protocol and the discovery protocol report.
-/
namespace Huobi.PM
variable {cfg : PMCfg}

/-- The session is encrypted with a key of the peer `pid`. -/
def OfPeer (cfg : PMCfg) (c : SessionCtx) (pid : Pid) : Prop := ∃ k, c.key = some k ∧ cfg.pidOf k = pid

/-- A temporary trouble with the peer `pid`: its session timed out or its multiplexing failed, the transport could not agree on a protocol and
names none, a ping was not answered or answered wrongly. -/
inductive Trouble (cfg : PMCfg) (pid : Pid) : NetIn → Prop
  | timeout {c} : OfPeer cfg c pid → Trouble cfg pid (.error (.sessionTimeout c))
  | muxer {c} : OfPeer cfg c pid → Trouble cfg pid (.error (.muxer c))
  | protoSelect {c} : OfPeer cfg c pid → Trouble cfg pid (.error (.protoSelect c false))
  | noPong : Trouble cfg pid (.ping (.timeout pid))
  | badPong : Trouble cfg pid (.ping (.unexpected pid))

/-- A failure of the peer `pid`: a temporary trouble, the end of a session less than three seconds after it began, or a dial of one of its
addresses, while it is not connected, that timed out or was interrupted. -/
inductive NetFailure (cfg : PMCfg) (s : PM) (now : Clock) (pid : Pid) : NetIn → Prop
  | trouble {x} : Trouble cfg pid x → NetFailure cfg s now pid x
  | short {c p} : OfPeer cfg c pid → s.pool pid = some p → p.connectAt < now.secs + 3 → now.secs < p.connectAt + 3 → NetFailure cfg s now pid (.event (.closed c))
  | dial {e a} : e = .timedOut ∨ e = .interrupted → Belongs s a pid → pid ∉ s.connected → NetFailure cfg s now pid (.error (.dialer e a))
  | listen {e a} : e = .timedOut ∨ e = .interrupted → Belongs s a pid → pid ∉ s.connected → NetFailure cfg s now pid (.error (.listen e a))

/-- The transport or the discovery protocol complains about the peer `pid` itself. -/
inductive Complaint (cfg : PMCfg) (s : PM) (pid : Pid) : NetIn → Prop
  | unknownProtocol {c} : OfPeer cfg c pid → Complaint cfg s pid (.error (.protoSelect c true))
  | brokenProtocol {sid} : s.sessionPeer sid = some pid → Complaint cfg s pid (.error (.protocol sid))
  | blocked {c} : s.sessionPeer c.sid = some pid → Complaint cfg s pid (.error (.blocked c))
  | misbehave {sid} : s.sessionPeer sid = some pid → Complaint cfg s pid (.misbehave sid)

/-- The manager after hearing these things. -/
def hearAll (cfg : PMCfg) (s : PM) (xs : List (Clock × NetIn)) : PM := xs.foldl (fun (t : PM) x => (t.hear cfg x.1 x.2).1) s

/-- Nobody complains about the peer. -/
def NoComplaint (cfg : PMCfg) (pid : Pid) : PM → List (Clock × NetIn) → Prop
  | _, [] => True
  | s, (now, x) :: xs => ¬ Complaint cfg s pid x ∧ NoComplaint cfg pid (s.hear cfg now x).1 xs

/-- The times of the failures of `pid`. -/
noncomputable def netFailures (cfg : PMCfg) (pid : Pid) : PM → List (Clock × NetIn) → List Nat
  | _, [] => []
  | s, (now, x) :: xs =>
    open Classical in
    (if NetFailure cfg s now pid x then [now.secs] else []) ++ netFailures cfg pid (s.hear cfg now x).1 xs

theorem removal_complaint {s : PM} {pid : Pid} {x : NetIn} {e : PMEvent} (hr : x.report cfg = some e) (h : IsRemoval s pid e) :
    Complaint cfg s pid x := by
  cases x with
  | error er =>
    cases er with
    | dialer d a => cases d <;> (simp only [NetIn.report, SvcError.report, DialError.event, Option.some.injEq] at hr; subst hr; exact h.elim)
    | listen d a => cases d <;> (simp only [NetIn.report, SvcError.report, DialError.event, Option.some.injEq] at hr; subst hr; exact h.elim)
    | protoSelect c named =>
      simp only [NetIn.report, SvcError.report, Option.map_eq_some_iff] at hr
      obtain ⟨k, hk, rfl⟩ := hr
      cases named with
      | true => exact .unknownProtocol ⟨k, hk, h⟩
      | false => exact h.elim
    | protocol sid => simp only [NetIn.report, SvcError.report, Option.some.injEq] at hr; subst hr; exact .brokenProtocol h
    | sessionTimeout c =>
      simp only [NetIn.report, SvcError.report, Option.map_eq_some_iff] at hr
      obtain ⟨k, hk, rfl⟩ := hr; exact h.elim
    | muxer c =>
      simp only [NetIn.report, SvcError.report, Option.map_eq_some_iff] at hr
      obtain ⟨k, hk, rfl⟩ := hr; exact h.elim
    | protoHandle => cases hr
    | blocked c =>
      simp only [NetIn.report, SvcError.report, Option.map_eq_some_iff] at hr
      obtain ⟨k, hk, rfl⟩ := hr; exact .blocked h
  | event ev =>
    cases ev with
    | opened c =>
      simp only [NetIn.report, SvcEvent.report, Option.map_eq_some_iff] at hr
      obtain ⟨k, hk, rfl⟩ := hr; exact h.elim
    | closed c =>
      simp only [NetIn.report, SvcEvent.report, Option.map_eq_some_iff] at hr
      obtain ⟨k, hk, rfl⟩ := hr; exact h.elim
    | listenStarted a => simp only [NetIn.report, SvcEvent.report, Option.some.injEq] at hr; subst hr; exact h.elim
    | listenClose a => simp only [NetIn.report, SvcEvent.report, Option.some.injEq] at hr; subst hr; exact h.elim
  | ping p => cases p <;> (simp only [NetIn.report, PingEvent.report, Option.some.injEq] at hr; subst hr; exact h.elim)
  | discover as => simp only [NetIn.report, Option.some.injEq] at hr; subst hr; exact h.elim
  | misbehave sid => simp only [NetIn.report, Option.some.injEq] at hr; subst hr; exact .misbehave h
  | identified pid as => simp only [NetIn.report, Option.some.injEq] at hr; subst hr; exact h.elim
  | users us msg => simp only [NetIn.report, Option.some.injEq] at hr; subst hr; exact h.elim
  | round ps as => simp only [NetIn.report, Option.some.injEq] at hr; subst hr; exact h.elim

theorem failure_net {s : PM} {now : Clock} {pid : Pid} {x : NetIn} {e : PMEvent} (hr : x.report cfg = some e) (h : IsFailure s now pid e) :
    NetFailure cfg s now pid x := by
  cases x with
  | error er =>
    cases er with
    | dialer d a =>
      cases d <;> (simp only [NetIn.report, SvcError.report, DialError.event, Option.some.injEq] at hr; subst hr) <;>
        first | exact h.elim | exact .dial (by simp) h.1 h.2
    | listen d a =>
      cases d <;> (simp only [NetIn.report, SvcError.report, DialError.event, Option.some.injEq] at hr; subst hr) <;>
        first | exact h.elim | exact .listen (by simp) h.1 h.2
    | protoSelect c named =>
      simp only [NetIn.report, SvcError.report, Option.map_eq_some_iff] at hr
      obtain ⟨k, hk, rfl⟩ := hr
      cases named with
      | true => exact h.elim
      | false => exact .trouble (.protoSelect ⟨k, hk, h⟩)
    | protocol sid => simp only [NetIn.report, SvcError.report, Option.some.injEq] at hr; subst hr; exact h.elim
    | sessionTimeout c =>
      simp only [NetIn.report, SvcError.report, Option.map_eq_some_iff] at hr
      obtain ⟨k, hk, rfl⟩ := hr; exact .trouble (.timeout ⟨k, hk, h⟩)
    | muxer c =>
      simp only [NetIn.report, SvcError.report, Option.map_eq_some_iff] at hr
      obtain ⟨k, hk, rfl⟩ := hr; exact .trouble (.muxer ⟨k, hk, h⟩)
    | protoHandle => cases hr
    | blocked c =>
      simp only [NetIn.report, SvcError.report, Option.map_eq_some_iff] at hr
      obtain ⟨k, hk, rfl⟩ := hr; exact h.elim
  | event ev =>
    cases ev with
    | opened c =>
      simp only [NetIn.report, SvcEvent.report, Option.map_eq_some_iff] at hr
      obtain ⟨k, hk, rfl⟩ := hr; exact h.elim
    | closed c =>
      simp only [NetIn.report, SvcEvent.report, Option.map_eq_some_iff] at hr
      obtain ⟨k, hk, rfl⟩ := hr
      obtain ⟨h1, p, h2, h3⟩ := h
      exact .short ⟨k, hk, h1⟩ h2 h3.1 h3.2
    | listenStarted a => simp only [NetIn.report, SvcEvent.report, Option.some.injEq] at hr; subst hr; exact h.elim
    | listenClose a => simp only [NetIn.report, SvcEvent.report, Option.some.injEq] at hr; subst hr; exact h.elim
  | ping p =>
    cases p <;> (simp only [NetIn.report, PingEvent.report, Option.some.injEq] at hr; subst hr)
    · exact h.elim
    · exact h.elim
    · cases (show _ = pid from h); exact .trouble .noPong
    · cases (show _ = pid from h); exact .trouble .badPong
  | discover as => simp only [NetIn.report, Option.some.injEq] at hr; subst hr; exact h.elim
  | misbehave sid => simp only [NetIn.report, Option.some.injEq] at hr; subst hr; exact h.elim
  | identified pid as => simp only [NetIn.report, Option.some.injEq] at hr; subst hr; exact h.elim
  | users us msg => simp only [NetIn.report, Option.some.injEq] at hr; subst hr; exact h.elim
  | round ps as => simp only [NetIn.report, Option.some.injEq] at hr; subst hr; exact h.elim

/-- The events that reach the manager. -/
def events (cfg : PMCfg) (xs : List (Clock × NetIn)) : List (Clock × PMEvent) :=
  xs.filterMap (fun x => (x.2.report cfg).map (fun e => (x.1, e)))

theorem events_spec {pid : Pid} (xs : List (Clock × NetIn)) : ∀ s : PM,
    runAll cfg s (events cfg xs) = hearAll cfg s xs ∧ (NoComplaint cfg pid s xs → NoRemoval cfg pid s (events cfg xs)) ∧
    (failureTimes cfg pid s (events cfg xs)).Sublist (netFailures cfg pid s xs) := by
  induction xs with
  | nil => intro s; exact ⟨rfl, fun _ => trivial, List.Sublist.slnil⟩
  | cons x xs ih =>
    intro s
    obtain ⟨now, x⟩ := x
    cases hr : x.report cfg with
    | none =>
      have hh : s.hear cfg now x = (s, []) := by unfold PM.hear; rw [hr]
      have he : events cfg ((now, x) :: xs) = events cfg xs := by simp [events, hr]
      obtain ⟨i1, i2, i3⟩ := ih s
      rw [he]
      refine ⟨?_, ?_, ?_⟩
      · rw [i1]; simp only [hearAll, List.foldl_cons, hh]
      · intro hn; have := hn.2; rw [hh] at this; exact i2 this
      · simp only [netFailures, hh]; exact i3.trans (List.sublist_append_right ..)
    | some e =>
      have hh : s.hear cfg now x = s.step cfg now e := by unfold PM.hear; rw [hr]
      have he : events cfg ((now, x) :: xs) = (now, e) :: events cfg xs := by simp [events, hr]
      obtain ⟨i1, i2, i3⟩ := ih (s.step cfg now e).1
      rw [he]
      refine ⟨?_, ?_, ?_⟩
      · simp only [hearAll, List.foldl_cons, hh]; exact i1
      · intro hn
        have h2 := hn.2
        rw [hh] at h2
        exact ⟨fun h => hn.1 (removal_complaint hr h), i2 h2⟩
      · simp only [netFailures, failureTimes, hh]
        refine List.Sublist.append ?_ i3
        by_cases hf : IsFailure s now pid e
        · rw [if_pos hf, if_pos (failure_net hr hf)]; exact List.Sublist.refl _
        · rw [if_neg hf]; exact List.nil_sublist _

/-- **C74, as seen from the network.**  For every manager and every sequence of reports of the transport, the ping protocol and the discovery
protocol, messages and dial rounds: a known peer that has no failures so far, is not a bootstrap peer and is not complained about is forgotten
only after six failures, each of them at least four seconds away from the one before. -/
theorem C74_network {pid : Pid} (hb : isBootstrap cfg pid = false) {s : PM} {p : Peer} (hp : s.pool pid = some p) (h0 : p.retry = 0)
    {xs : List (Clock × NetIn)} (hc : NoComplaint cfg pid s xs) (hn : (hearAll cfg s xs).pool pid = none) :
    ∃ ts, ts.Sublist (netFailures cfg pid s xs) ∧ 6 ≤ ts.length ∧ Spaced p.attemptAt ts := by
  obtain ⟨e1, e2, e3⟩ := events_spec (cfg := cfg) (pid := pid) xs s
  rw [← e1] at hn
  obtain ⟨ts, t1, t2, t3⟩ := C74_forgotten_only_after_six_failures hb hp h0 (e2 hc) hn
  exact ⟨ts, t1.trans e3, t2, t3⟩

/-- Six troubles of different kinds with the peer of key 2, on session 7. -/
def demoTroubles : List (Clock × NetIn) :=
  [(⟨20, 20⟩, .ping (.timeout 12)), (⟨30, 30⟩, .error (.sessionTimeout ⟨some 2, 7, [], false⟩)), (⟨40, 40⟩, .error (.muxer ⟨some 2, 7, [], false⟩)),
    (⟨50, 50⟩, .error (.protoSelect ⟨some 2, 7, [], false⟩ false)), (⟨60, 60⟩, .ping (.unexpected 12)), (⟨70, 70⟩, .ping (.timeout 12))]

theorem demoTroubles_quiet (xs : List (Clock × NetIn)) (h : ∀ x ∈ xs, (∃ t, x.2 = .ping t) ∨ (∃ c, x.2 = .error (.sessionTimeout c)) ∨
    (∃ c, x.2 = .error (.muxer c)) ∨ ∃ c, x.2 = .error (.protoSelect c false)) (s : PM) (pid : Pid) : NoComplaint cfg pid s xs := by
  induction xs generalizing s with
  | nil => exact trivial
  | cons x xs ih =>
    refine ⟨?_, ih (fun y hy => h y (List.mem_cons_of_mem _ hy)) _⟩
    obtain ⟨t, h⟩ | ⟨c, h⟩ | ⟨c, h⟩ | ⟨c, h⟩ := h x (List.mem_cons_self ..) <;> rw [h] <;> intro k <;> cases k

/-- C74 on a real case: a peer that connected and then had six troubles of four different kinds, ten seconds apart, is forgotten; after five of them
it is still known. -/
example : ∃ s p, PM.Heard demoCfg [.event (.opened ⟨some 2, 7, [], false⟩)] s ∧ s.pool 12 = some p ∧ p.retry = 0 ∧ isBootstrap demoCfg 12 = false ∧
    NoComplaint demoCfg 12 s demoTroubles ∧ (hearAll demoCfg s demoTroubles).pool 12 = none ∧
    (hearAll demoCfg s (demoTroubles.take 5)).pool 12 ≠ none := by
  refine ⟨_, ⟨12, 102, 2, [], 0, 10, 10, 0, 0⟩, demoHear_heard _, by decide +kernel, rfl, by decide +kernel,
    demoTroubles_quiet _ ?_ _ _, by decide +kernel, by decide +kernel⟩
  intro x hx
  simp only [demoTroubles, List.mem_cons, List.not_mem_nil, or_false] at hx
  rcases hx with rfl | rfl | rfl | rfl | rfl | rfl <;> simp

/-- **C74, signs of life.**  A ping from the peer or an answer to ours clears its failures. -/
theorem C74_ping_clears (s : PM) (now : Clock) {pid : Pid} {p : Peer} (hp : s.pool pid = some p) {e : PingEvent} (he : e = .ping pid ∨ e = .pong pid) :
    ∃ q, (s.hear cfg now (.ping e)).1.pool pid = some q ∧ q.retry = 0 := by
  rcases he with rfl | rfl <;> exact (C74_fresh (cfg := cfg) now s).1 pid p hp

/-- **C77, as seen from the network.**  Up to the fifth failure that counts, every temporary trouble with a connected peer has its session closed. -/
theorem C77_network_partial {s : PM} {pid : Pid} {p : Peer} {sid : Sid} (hp : s.pool pid = some p) (hs : s.peerSession pid = some sid) (now : Clock)
    (hr : p.retry + 1 < 6) {x : NetIn} (hx : Trouble cfg pid x) : ConnCmd.disconnect sid ∈ (s.hear cfg now x).2 := by
  have key : s.hear cfg now x = s.step cfg now (.retryLater pid) := by
    cases hx with
    | timeout h => obtain ⟨k, hk, rfl⟩ := h; simp [PM.hear, NetIn.report, SvcError.report, hk]
    | muxer h => obtain ⟨k, hk, rfl⟩ := h; simp [PM.hear, NetIn.report, SvcError.report, hk]
    | protoSelect h => obtain ⟨k, hk, rfl⟩ := h; simp [PM.hear, NetIn.report, SvcError.report, hk]
    | noPong => rfl
    | badPong => rfl
  rw [key]
  exact C77_session_closed_partial hp hs now hr

/-- **C76, as seen from the network.**  Whatever a started manager heard before, and for any addresses from the discovery protocol: each of them is
afterwards taken to be an address of a peer it knows or is kept to be dialled. -/
theorem C76_network (now : Clock) {saved : List (PubKey × List Maddr)} (hd : (saved.map (fun x => cfg.pidOf x.1)).Nodup)
    (xs : List (Clock × NetIn)) (c : Clock) (addrs : List Maddr) {a : Maddr} (ha : a ∈ addrs) :
    Placed ((hearAll cfg (PM.start cfg now saved).1 xs).hear cfg c (.discover addrs)).1 a := by
  rw [← (events_spec (cfg := cfg) (pid := 0) xs _).1]
  exact C76_discovered_addresses_placed now hd _ c addrs ha

/-- **C76, dialling a peer under a second address.**  If the transport reports that a dialled address leads to a peer that already has session
`sid`, the address is recorded for that peer; the same report about a connection that the peer opened records nothing. -/
theorem C76_repeated (s : PM) (now : Clock) {sid : Sid} {pid : Pid} {p : Peer} (hs : s.sessionPeer sid = some pid) (hp : s.pool pid = some p) (a : Maddr) :
    ((s.hear cfg now (.error (.dialer (.repeated sid) a))).1.addrPid a = some pid ∧
      (∃ q, (s.hear cfg now (.error (.dialer (.repeated sid) a))).1.pool pid = some q ∧ a ∈ q.addrs) ∧
      (s.hear cfg now (.error (.dialer (.repeated sid) a))).1.unknown a = none) ∧
    s.hear cfg now (.error (.listen (.repeated sid) a)) = (s, []) := by
  refine ⟨?_, rfl⟩
  have : s.hear cfg now (.error (.dialer (.repeated sid) a)) = (s.addSessionAddr sid a, []) := rfl
  rw [this]
  have h2 : s.addSessionAddr sid a = ({ s with unknown := upd s.unknown a none } : PM).addPeerAddr pid a := by
    unfold PM.addSessionAddr; simp only [hs]
  rw [h2]
  unfold PM.addPeerAddr
  simp only [hp]
  refine ⟨by simp [upd], ⟨_, by simp [upd]; rfl, ?_⟩, by simp [upd]⟩
  simp only [setInsert]
  split <;> simp_all

/-- **C84, misbehaviour.**  A peer about which the discovery protocol complains (it has the transport close the session itself) loses its session
in the tables and is forgotten, unless it is a bootstrap peer. -/
theorem C84_misbehaving_forgotten (s : PM) (now : Clock) {sid : Sid} {pid : Pid} (hs : s.sessionPeer sid = some pid) :
    (s.hear cfg now (.misbehave sid)).1.peerSession pid = none ∧
    (isBootstrap cfg pid = false → (s.hear cfg now (.misbehave sid)).1.pool pid = none) := by
  have : s.hear cfg now (.misbehave sid) = (s.cleanlyRemove cfg now pid, []) := by
    simp [PM.hear, NetIn.report, PM.step, hs]
  rw [this]
  exact ⟨cleanlyRemove_closes now s _, cleanlyRemove_forgets now s _⟩

/-- **C57, the start.**  Whatever peers were saved, a starting node has every configured address of every bootstrap peer dialled. -/
theorem C57_dialled_at_start (now : Clock) (saved : List (PubKey × List Maddr)) {p : Peer} (hp : p ∈ cfg.bootstraps) {a : Maddr} (ha : a ∈ p.addrs) :
    ∃ as, ConnCmd.connect as ∈ (PM.start cfg now saved).2 ∧ a ∈ as :=
  ⟨_, List.mem_singleton.2 rfl, List.mem_flatMap.2 ⟨p, hp, ha⟩⟩

example : ∃ as, ConnCmd.connect as ∈ (PM.start demoCfg ⟨0, 0⟩ []).2 ∧ [.other 1, .other 2] ∈ as :=
  C57_dialled_at_start ⟨0, 0⟩ [] (p := ⟨11, 101, 1, [[.other 1, .other 2]], 0, 0, 0, 0, 0⟩) (by decide) (by decide)

/-- **C58, no dial twice.**  What one round dials, a peer or an unknown address, the next round does not dial again, if nothing is heard in between.
(`C58_refuted_rounds` has two such rounds.) -/
theorem C58_no_repeated_dial {s : PM} {now now' : Clock} {n n' : Nat} {pids pids' : List Pid} {addrs addrs' : List Maddr}
    (hc : s.connectionCount = some n) (hn : n < cfg.maxConnections) (hv : ValidChoice cfg now s n pids addrs)
    (hv' : ValidChoice cfg now' (s.routine cfg pids addrs).1 n' pids' addrs') :
    (∀ a ∈ addrs, a ∉ addrs') ∧ ∀ pid ∈ pids, pid ∉ pids' := by
  have ht : (s.routine cfg pids addrs).1 = { (pids.foldl PM.connectPeer s) with
      unknown := fun a => if a ∈ addrs then ((pids.foldl PM.connectPeer s).unknown a).map (fun u => { u with connecting := true })
        else (pids.foldl PM.connectPeer s).unknown a } := by
    simp only [PM.routine, hc, if_pos hn]
  rw [ht] at hv'
  refine ⟨fun a ha ha' => ?_, fun pid hp hp' => ?_⟩
  · obtain ⟨u, hu, hf⟩ := hv'.addrsOk a ha'
    simp only [if_pos ha, Option.map_eq_some_iff] at hu
    obtain ⟨w, _, rfl⟩ := hu
    cases hf
  · have hq := hv'.pidsOk pid hp'
    have hin : ∀ (l : List Pid) (s : PM), pid ∉ s.connected → pid ∈ l ∨ pid ∈ s.connecting → pid ∈ (l.foldl PM.connectPeer s).connecting := by
      intro l
      induction l with
      | nil => intro s _ h; exact h.resolve_left (by simp)
      | cons q l ih =>
        intro s hnc h
        rw [List.foldl_cons]
        refine ih _ ?_ ?_
        · unfold PM.connectPeer; split <;> exact hnc
        · rcases h with h | h
          · rcases List.mem_cons.1 h with rfl | h
            · right; unfold PM.connectPeer; rw [if_neg hnc]; simp only [setInsert]; split <;> simp_all
            · exact .inl h
          · right; unfold PM.connectPeer; split
            · exact h
            · simp only [setInsert]; split <;> simp_all
    have h0 := hv.pidsOk pid hp
    unfold PM.qualified at hq h0
    split at h0
    · simp only [Bool.and_eq_true, Bool.not_eq_true', decide_eq_false_iff_not] at h0
      split at hq
      · simp only [Bool.and_eq_true, Bool.not_eq_true', decide_eq_false_iff_not] at hq
        exact hq.1.2 (hin pids s h0.1.1 (.inl hp))
      · cases hq
    · cases h0

end Huobi.PM
