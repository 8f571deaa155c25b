import Verif.Props.PeerManager
import Verif.Model.Connection
/-
C74 (when a peer is forgotten), C75 (pauses between dials), C76 (discovered addresses), C77 (ending the session of a failing peer).
-/
namespace Huobi
namespace PM
variable {cfg : PMCfg}

/-! ### What happens to the counters of one peer -/

/-- The address `a` is taken to be an address of `pid`: it is recorded for `pid`, or it is not recorded and extends a recorded two-component
address of `pid` by nothing or by the id of `pid`. -/
def Belongs (s : PM) (a : Maddr) (pid : Pid) : Prop :=
  s.addrPid a = some pid ∨ (s.addrPid a = none ∧ ∃ c0 c1, s.addrPid [c0, c1] = some pid ∧ ∃ rest, a = c0 :: c1 :: .p2p pid :: rest)

theorem matchPid_some {s : PM} {a : Maddr} {pid : Pid} : s.matchPid a = some pid ↔ Belongs s a pid := by
  unfold matchPid Belongs
  cases h : s.addrPid a with
  | some q => simp
  | none =>
    simp only [reduceCtorEq, true_and, false_or]
    constructor
    · intro hm
      split at hm
      · rename_i c0 c1 rest
        split at hm
        · rename_i q hq
          split at hm
          · rename_i r tl
            split at hm
            · rename_i hqr
              cases hm
              exact ⟨c0, c1, hq, tl, by rw [hqr]⟩
            · cases hm
          · rw [h] at hq; cases hq
          · cases hm
        · cases hm
      · cases hm
    · rintro ⟨c0, c1, hq, rest, rfl⟩
      simp [hq]

/-- The event is a failure of the peer `pid`: it is to be retried later, its session ended less than three seconds after it began, or a dial
of one of its addresses failed temporarily while it was not connected. -/
def IsFailure (s : PM) (now : Clock) (pid : Pid) : PMEvent → Prop
  | .retryLater q => q = pid
  | .detach q => q = pid ∧ ∃ p, s.pool pid = some p ∧ (p.connectAt < now.secs + 3 ∧ now.secs < p.connectAt + 3)
  | .reconnectLater a => Belongs s a pid ∧ pid ∉ s.connected
  | _ => False

/-- The event asks for the removal of the peer `pid`. -/
def IsRemoval (s : PM) (pid : Pid) : PMEvent → Prop
  | .remove q => q = pid
  | .removeBySession sid => s.sessionPeer sid = some pid
  | _ => False

/-- The peer `pid` keeps its counters. -/
def Same (pid : Pid) (s t : PM) : Prop :=
  ∀ p, s.pool pid = some p → ∃ q, t.pool pid = some q ∧ q.retry = p.retry ∧ q.attemptAt = p.attemptAt ∧ q.nextRetry = p.nextRetry

theorem Same.of_pool {pid : Pid} {s t : PM} (h : t.pool = s.pool) : Same pid s t := fun p hp => ⟨p, by rw [h]; exact hp, rfl, rfl, rfl⟩

theorem Same.trans {pid : Pid} {s t u : PM} (h : Same pid s t) (k : Same pid t u) : Same pid s u := by
  intro p hp
  obtain ⟨q, hq, h1, h2, h3⟩ := h p hp
  obtain ⟨r, hr, k1, k2, k3⟩ := k q hq
  exact ⟨r, hr, k1.trans h1, k2.trans h2, k3.trans h3⟩

theorem Same.map {pid : Pid} {s t : PM} (i : Pid) (f : Peer → Peer)
    (hf : i = pid → ∀ p, (f p).retry = p.retry ∧ (f p).attemptAt = p.attemptAt ∧ (f p).nextRetry = p.nextRetry)
    (h : t.pool = upd s.pool i ((s.pool i).map f)) : Same pid s t := by
  intro p hp
  rw [h]
  by_cases e : i = pid
  · subst e; rw [upd_same, hp]; exact ⟨f p, rfl, hf rfl p⟩
  · rw [upd_ne _ _ (Ne.symm e)]; exact ⟨p, hp, rfl, rfl, rfl⟩

theorem same_addPeerAddr (pid : Pid) (s : PM) (i : Pid) (a : Maddr) : Same pid s (s.addPeerAddr i a) := by
  unfold addPeerAddr
  split
  · exact .of_pool rfl
  · rename_i p e
    refine .map i (fun p => { p with addrs := setInsert p.addrs a }) (fun _ _ => ⟨rfl, rfl, rfl⟩) ?_
    simp [e]

theorem same_removePeerAddr (pid : Pid) (s : PM) (i : Pid) (a : Maddr) : Same pid s (s.removePeerAddr i a) :=
  .map i (fun p => { p with addrs := setRemove p.addrs a }) (fun _ _ => ⟨rfl, rfl, rfl⟩) rfl

theorem same_close (pid : Pid) (now : Clock) (s : PM) (i : Pid) : Same pid s (s.closeSession now i) :=
  .map i (fun p => { p with alive := secsBetween now.secs p.connectAt }) (fun _ _ => ⟨rfl, rfl, rfl⟩) (close_pool ..)

theorem same_foldl {α : Type} (pid : Pid) (f : PM → α → PM) (hf : ∀ s a, Same pid s (f s a)) (l : List α) (s : PM) : Same pid s (l.foldl f s) := by
  induction l generalizing s with
  | nil => exact .of_pool rfl
  | cons a l ih => exact (hf s a).trans (ih _)

theorem same_identifyAddr (pid : Pid) (s : PM) (a : Maddr) : Same pid s (s.identifyAddr a) := by
  unfold identifyAddr; split
  · split
    · exact same_addPeerAddr _ _ _ _
    · exact .of_pool rfl
  · split <;> exact .of_pool rfl

theorem same_removeOther (pid : Pid) (now : Clock) (s : PM) {i : Pid} (hi : i ≠ pid) : Same pid s (s.cleanlyRemove cfg now i) := by
  unfold PM.cleanlyRemove
  simp only
  split
  · exact (same_close pid now s i).trans (.map i _ (fun e => absurd e hi) rfl)
  · refine (same_close pid now s i).trans fun p hp => ⟨p, ?_, rfl, rfl, rfl⟩
    rw [remove_pool, upd_ne _ _ (Ne.symm hi)]; exact hp

/-- One more failure of `pid` is counted from `s` to `t`. -/
def Counted (pid : Pid) (now : Clock) (s t : PM) : Prop :=
  ∀ p, s.pool pid = some p →
    (∃ q, t.pool pid = some q ∧ (p.increaseRetry now).retry < maxRetryCount ∧ q.retry = (p.increaseRetry now).retry ∧
      q.attemptAt = (p.increaseRetry now).attemptAt ∧ q.nextRetry = (p.increaseRetry now).nextRetry) ∨
    (t.pool pid = none ∧ maxRetryCount ≤ (p.increaseRetry now).retry)

theorem Counted.after {pid : Pid} {now : Clock} {s t u : PM} (h : Same pid s t) (k : Counted pid now t u) : Counted pid now s u := by
  intro p hp
  obtain ⟨q, hq, h1, h2, h3⟩ := h p hp
  have e1 : (q.increaseRetry now).retry = (p.increaseRetry now).retry := by
    unfold Peer.increaseRetry; rw [h2]; split <;> simp [h1]
  have e2 : (q.increaseRetry now).attemptAt = (p.increaseRetry now).attemptAt := by
    unfold Peer.increaseRetry; rw [h2]; split <;> simp [h2]
  have e3 : (q.increaseRetry now).nextRetry = (p.increaseRetry now).nextRetry := by
    unfold Peer.increaseRetry; rw [h2]; split <;> simp [h1, h3]
  have := k q hq
  rw [e1, e2, e3] at this
  exact this

theorem counted_increase {pid : Pid} (hb : isBootstrap cfg pid = false) (now : Clock) (s : PM) : Counted pid now s (s.increasePeerRetry cfg now pid) := by
  intro p hp
  have hm : (s.modify pid (fun p => p.increaseRetry now)).pool pid = some (p.increaseRetry now) := by simp [PM.modify, hp]
  unfold PM.increasePeerRetry
  simp only
  split
  · rename_i h
    right
    unfold reachMaxRetry at h
    rw [hm] at h
    refine ⟨?_, of_decide_eq_true h⟩
    unfold PM.cleanlyRemove
    simp only [hb]
    rw [if_neg (by simp), remove_pool, upd_same]
  · rename_i h
    left
    unfold reachMaxRetry at h
    rw [hm] at h
    simp only [decide_eq_true_eq, Nat.not_le] at h
    exact ⟨_, hm, h, rfl, rfl, rfl⟩

theorem same_increaseOther (pid : Pid) (now : Clock) (s : PM) {i : Pid} (hi : i ≠ pid) : Same pid s (s.increasePeerRetry cfg now i) := by
  have h1 : Same pid s (s.modify i (fun p => p.increaseRetry now)) := .map i _ (fun e => absurd e hi) rfl
  unfold PM.increasePeerRetry
  simp only
  split
  · exact h1.trans (same_removeOther pid now _ hi)
  · exact h1

theorem same_attach (pid : Pid) (now : Clock) (s : PM) (key : PubKey) (sid : Sid) (a : Maddr) (ob : Bool) (hp : s.pool pid ≠ none) :
    Same pid s (s.attach cfg now key sid a ob) := by
  have h1 : ∀ l, Same pid s (s.attachPool cfg now key l) := by
    intro l
    cases hs : s.pool (cfg.pidOf key) with
    | none =>
      have hne : pid ≠ cfg.pidOf key := by rintro rfl; exact hp hs
      intro p hp'
      refine ⟨p, ?_, rfl, rfl, rfl⟩
      simp only [attachPool, hs]
      cases l <;> simp only [addNewPeer, PM.addPeer, PMCfg.newPeer] <;> rw [upd_ne _ _ hne] <;> exact hp'
    | some q =>
      cases l with
      | none => simp only [attachPool, hs]; exact .of_pool rfl
      | some b => simp only [attachPool, hs]; exact same_addPeerAddr _ _ _ _
  refine (h1 (if ob then some a else none)).trans ?_
  exact .map (cfg.pidOf key) (fun p => { p with connectAt := now.secs }) (fun _ _ => ⟨rfl, rfl, rfl⟩) rfl

/-- Every event: `pid`, not a bootstrap peer, keeps its counters, or is reported alive, or one failure is counted, or its removal is asked for. -/
theorem step_counters {pid : Pid} (hb : isBootstrap cfg pid = false) (now : Clock) (s : PM) (hp : s.pool pid ≠ none) (e : PMEvent) :
    Same pid s (s.step cfg now e).1 ∨ (e = .alive pid ∧ (s.step cfg now e).1 = s.modify pid Peer.resetRetry) ∨
    (IsFailure s now pid e ∧ Counted pid now s (s.step cfg now e).1) ∨ IsRemoval s pid e := by
  cases e with
  | attach key sid a ob => exact .inl (same_attach pid now s key sid a ob hp)
  | detach i =>
    simp only [PM.step]
    unfold PM.detach
    simp only
    split
    · rename_i p h
      split
      · rename_i hal
        by_cases hi : i = pid
        · subst hi
          refine .inr (.inr (.inl ⟨?_, Counted.after (same_close i now s i) (counted_increase hb now _)⟩))
          rw [close_pool, upd_same] at h
          cases hs : s.pool i with
          | none => exact absurd hs hp
          | some p0 =>
            rw [hs] at h
            cases h
            simp only [secsBetween, aliveRetryInterval] at hal
            exact ⟨rfl, p0, hs, by omega, by omega⟩
        · exact .inl ((same_close pid now s i).trans (same_increaseOther pid now _ hi))
      · exact .inl (same_close pid now s i)
    · exact .inl (same_close pid now s i)
  | alive i =>
    by_cases hi : i = pid
    · subst hi; exact .inr (.inl ⟨rfl, rfl⟩)
    · exact .inl (.map i _ (fun e => absurd e hi) rfl)
  | remove i =>
    by_cases hi : i = pid
    · exact .inr (.inr (.inr hi))
    · exact .inl (same_removeOther pid now s hi)
  | removeBySession sid =>
    simp only [PM.step]
    split
    · rename_i i hs
      by_cases hi : i = pid
      · subst hi; exact .inr (.inr (.inr hs))
      · exact .inl (same_removeOther pid now s hi)
    · rename_i hs
      refine .inl ?_
      simp only [PM.detachSession, hs]
      exact .of_pool rfl
  | retryLater i =>
    simp only [PM.step]
    by_cases hi : i = pid
    · subst hi
      refine .inr (.inr (.inl ⟨rfl, ?_⟩))
      split <;> exact counted_increase hb now s
    · refine .inl ?_
      split <;> exact same_increaseOther pid now s hi
  | discover addrs => exact .inl (same_foldl pid _ (same_identifyAddr pid) _ _)
  | identified i addrs => exact .inl (same_foldl pid _ (fun s a => same_addPeerAddr pid s i a) _ _)
  | repeated dialer sid a =>
    refine .inl ?_
    simp only [PM.step]
    split
    · unfold addSessionAddr
      simp only
      split
      · refine Same.trans (t := { s with unknown := upd s.unknown a none }) (.of_pool rfl) (same_addPeerAddr _ _ _ _)
      · exact .of_pool rfl
    · exact .of_pool rfl
  | unconnectable a =>
    refine .inl ?_
    simp only [PM.step, PM.unconnectable]
    split
    · exact .of_pool rfl
    · unfold tryRemoveAddr
      split
      · refine Same.trans (t := { s with unknown := upd s.unknown a none }) (.of_pool rfl) (same_removePeerAddr _ _ _ _)
      · exact .of_pool rfl
  | reconnectLater a =>
    have hq : (s.reconnectUnknown a).pool = s.pool ∧ (s.reconnectUnknown a).connected = s.connected ∧
        (s.reconnectUnknown a).addrPid = s.addrPid := by
      unfold PM.reconnectUnknown; split <;> exact ⟨rfl, rfl, rfl⟩
    simp only [PM.step]
    unfold PM.reconnectLater
    simp only
    split
    · rename_i i hm
      split
      · exact .inl (.of_pool hq.1)
      · rename_i hc
        by_cases hi : i = pid
        · subst hi
          refine .inr (.inr (.inl ⟨⟨?_, by rw [← hq.2.1]; exact hc⟩, ?_⟩))
          · have := matchPid_some.1 hm
            unfold Belongs at this ⊢
            rw [hq.2.2] at this
            exact this
          · exact Counted.after (Same.of_pool hq.1) (counted_increase hb now _)
        · exact .inl ((Same.of_pool hq.1).trans (same_increaseOther pid now _ hi))
    · exact .inl (.of_pool hq.1)
  | addListen a => exact .inl (same_addPeerAddr _ _ _ _)
  | removeListen a => exact .inl (same_removePeerAddr _ _ _ _)
  | route us msg => exact .inl (.of_pool rfl)
  | routine pids addrs =>
    refine .inl (.of_pool ?_)
    simp only [PM.step, PM.routine]
    split
    · rfl
    · split
      · exact dials_pool pids s
      · rfl

/-! ### C74 -/

/-- The times of the failures of `pid` among the events. -/
noncomputable def failureTimes (cfg : PMCfg) (pid : Pid) : PM → List (Clock × PMEvent) → List Nat
  | _, [] => []
  | s, (now, e) :: es =>
    open Classical in
    (if IsFailure s now pid e then [now.secs] else []) ++ failureTimes cfg pid (s.step cfg now e).1 es

/-- No event asks for the removal of `pid`. -/
def NoRemoval (cfg : PMCfg) (pid : Pid) : PM → List (Clock × PMEvent) → Prop
  | _, [] => True
  | s, (now, e) :: es => ¬ IsRemoval s pid e ∧ NoRemoval cfg pid (s.step cfg now e).1 es

/-- The first moment of a list is four seconds or more away from `t`, and so on. -/
def Spaced : Nat → List Nat → Prop
  | _, [] => True
  | t, u :: us => (t + 4 ≤ u ∨ u + 4 ≤ t) ∧ Spaced u us

theorem forgotten_after {pid : Pid} (hb : isBootstrap cfg pid = false) (es : List (Clock × PMEvent)) :
    ∀ (s : PM) (p : Peer), s.pool pid = some p → NoRemoval cfg pid s es → (runAll cfg s es).pool pid = none →
      ∃ ts, ts.Sublist (failureTimes cfg pid s es) ∧ maxRetryCount ≤ p.retry + ts.length ∧ Spaced p.attemptAt ts := by
  induction es with
  | nil => intro s p hp _ hn; rw [show runAll cfg s [] = s from rfl, hp] at hn; cases hn
  | cons x es ih =>
    intro s p hp hr hn
    obtain ⟨now, e⟩ := x
    have hn' : (runAll cfg (s.step cfg now e).1 es).pool pid = none := hn
    rcases step_counters hb now s (by rw [hp]; simp) e with h | ⟨rfl, h⟩ | ⟨hf, h⟩ | h
    · obtain ⟨q, hq, h1, h2, -⟩ := h p hp
      obtain ⟨ts, t1, t2, t3⟩ := ih _ q hq hr.2 hn'
      refine ⟨ts, t1.trans (List.sublist_append_right ..), by omega, by rw [← h2]; exact t3⟩
    · have hq : (s.step cfg now (.alive pid)).1.pool pid = some p.resetRetry := by rw [h]; simp [PM.modify, hp]
      obtain ⟨ts, t1, t2, t3⟩ := ih _ _ hq hr.2 hn'
      refine ⟨ts, t1.trans (List.sublist_append_right ..), ?_, t3⟩
      have : p.resetRetry.retry = 0 := rfl
      omega
    · have hft : failureTimes cfg pid s ((now, e) :: es) = now.secs :: failureTimes cfg pid (s.step cfg now e).1 es := by
        simp [failureTimes, hf]
      rw [hft]
      by_cases hsp : secsBetween now.secs p.attemptAt < validAttemptInterval
      · have hinc : p.increaseRetry now = p := by unfold Peer.increaseRetry; rw [if_pos hsp]
        rcases h p hp with ⟨q, hq, -, h1, h2, -⟩ | ⟨-, h1⟩
        · rw [hinc] at h1 h2
          obtain ⟨ts, t1, t2, t3⟩ := ih _ q hq hr.2 hn'
          exact ⟨ts, t1.cons _, by omega, by rw [← h2]; exact t3⟩
        · rw [hinc] at h1
          exact ⟨[], List.nil_sublist _, by simpa using h1, trivial⟩
      · have hinc : (p.increaseRetry now).retry = p.retry + 1 ∧ (p.increaseRetry now).attemptAt = now.secs := by
          unfold Peer.increaseRetry; rw [if_neg hsp]; exact ⟨rfl, rfl⟩
        rcases h p hp with ⟨q, hq, -, h1, h2, -⟩ | ⟨-, h1⟩
        · rw [hinc.1] at h1
          rw [hinc.2] at h2
          obtain ⟨ts, t1, t2, t3⟩ := ih _ q hq hr.2 hn'
          refine ⟨now.secs :: ts, t1.cons_cons _, by simp only [List.length_cons]; omega, by simp only [secsBetween, validAttemptInterval] at hsp; omega, by rw [← h2]; exact t3⟩
        · rw [hinc.1] at h1
          exact ⟨[now.secs], (List.nil_sublist _).cons_cons _, by simp only [List.length_cons, List.length_nil]; omega, by simp only [secsBetween, validAttemptInterval] at hsp; omega, trivial⟩
    · exact absurd h hr.1

/-- **C74.**  For every manager and every sequence of events: a known peer that has no failures so far, is not a bootstrap peer and whose
removal is not asked for is forgotten only after six failures, each of them at least four seconds away from the one before. -/
theorem C74_forgotten_only_after_six_failures {pid : Pid} (hb : isBootstrap cfg pid = false) {s : PM} {p : Peer} (hp : s.pool pid = some p)
    (h0 : p.retry = 0) {es : List (Clock × PMEvent)} (hr : NoRemoval cfg pid s es) (hn : (runAll cfg s es).pool pid = none) :
    ∃ ts, ts.Sublist (failureTimes cfg pid s es) ∧ 6 ≤ ts.length ∧ Spaced p.attemptAt ts := by
  obtain ⟨ts, t1, t2, t3⟩ := forgotten_after hb es s p hp hr hn
  exact ⟨ts, t1, by simp only [maxRetryCount] at t2; omega, t3⟩

/-- **C74, fresh starts.**  A peer that is reported alive, or that the manager learns of by a session, has no failures. -/
theorem C74_fresh (now : Clock) (s : PM) :
    (∀ pid p, s.pool pid = some p → ∃ q, (s.step cfg now (.alive pid)).1.pool pid = some q ∧ q.retry = 0) ∧
    (∀ key sid a ob, s.pool (cfg.pidOf key) = none → ∃ q, (s.step cfg now (.attach key sid a ob)).1.pool (cfg.pidOf key) = some q ∧ q.retry = 0) := by
  constructor
  · intro pid p hp
    exact ⟨p.resetRetry, by simp [PM.step, PM.modify, hp], rfl⟩
  · intro key sid a ob hp
    refine ⟨{ cfg.newPeer key (if ob then [a] else []) now with connectAt := now.secs }, ?_, rfl⟩
    cases ob <;> simp [PM.step, PM.attach, attachPool, hp, addNewPeer, PM.addPeer, PM.setConnected, PM.modify, PMCfg.newPeer]

/-- **C74, the dials.**  A dial that times out or is interrupted is a temporary failure: the manager keeps the address, and the peer unless this
was its sixth failure. -/
theorem C74_timed_out_dial_keeps_address {s : PM} {a : Maddr} {pid : Pid} {p : Peer} (ha : s.addrPid a = some pid) (hp : s.pool pid = some p)
    (hr : p.retry + 1 < 6) (err : DialError) (herr : err = .timedOut ∨ err = .interrupted) (now : Clock) (dialer : Bool) :
    (s.step cfg now (err.event dialer a)).1.addrPid a = some pid ∧
    ∃ q, (s.step cfg now (err.event dialer a)).1.pool pid = some q ∧ q.addrs = p.addrs ∧ q.retry ≤ p.retry + 1 := by
  have he : err.event dialer a = .reconnectLater a := by rcases herr with rfl | rfl <;> rfl
  rw [he]
  have hq : (s.reconnectUnknown a).pool = s.pool ∧ (s.reconnectUnknown a).connected = s.connected ∧
      (s.reconnectUnknown a).addrPid = s.addrPid := by
    unfold PM.reconnectUnknown; split <;> exact ⟨rfl, rfl, rfl⟩
  have hm : (s.reconnectUnknown a).matchPid a = some pid := matchPid_some.2 (.inl (by rw [hq.2.2]; exact ha))
  have hinc : (p.increaseRetry now).retry ≤ p.retry + 1 := by
    unfold Peer.increaseRetry; split
    · omega
    · simp
  simp only [PM.step]
  unfold PM.reconnectLater
  simp only [hm]
  split
  · exact ⟨by rw [hq.2.2]; exact ha, p, by rw [hq.1]; exact hp, rfl, by omega⟩
  · have hmod : ((s.reconnectUnknown a).modify pid (fun p => p.increaseRetry now)).pool pid = some (p.increaseRetry now) := by
      simp [PM.modify, hq.1, hp]
    unfold PM.increasePeerRetry
    simp only
    split
    · rename_i h
      unfold reachMaxRetry at h
      rw [hmod] at h
      have h := of_decide_eq_true h
      simp only [maxRetryCount] at h
      omega
    · exact ⟨by simp only [PM.modify, hq.2.2]; exact ha, _, hmod, increaseRetry_addrs p now, hinc⟩

/-- C74 on a real case: a peer that came by a session and had six failures ten seconds apart, and no other trouble, is forgotten; after five it is
still known. -/
example : ∃ s p, PM.Reach demoCfg (fun _ _ _ => True) s ∧ s.pool 12 = some p ∧ p.retry = 0 ∧ isBootstrap demoCfg 12 = false ∧
    NoRemoval demoCfg 12 s [(⟨20, 20⟩, .retryLater 12), (⟨30, 30⟩, .retryLater 12), (⟨40, 40⟩, .retryLater 12), (⟨50, 50⟩, .retryLater 12),
      (⟨60, 60⟩, .retryLater 12), (⟨70, 70⟩, .retryLater 12)] ∧
    (runAll demoCfg s [(⟨20, 20⟩, .retryLater 12), (⟨30, 30⟩, .retryLater 12), (⟨40, 40⟩, .retryLater 12), (⟨50, 50⟩, .retryLater 12),
      (⟨60, 60⟩, .retryLater 12), (⟨70, 70⟩, .retryLater 12)]).pool 12 = none ∧
    (runAll demoCfg s [(⟨20, 20⟩, .retryLater 12), (⟨30, 30⟩, .retryLater 12), (⟨40, 40⟩, .retryLater 12), (⟨50, 50⟩, .retryLater 12),
      (⟨60, 60⟩, .retryLater 12)]).pool 12 ≠ none := by
  refine ⟨_, ⟨12, 102, 2, [], 0, 10, 10, 0, 0⟩, .step ⟨10, 10⟩ (.attach 2 7 [] false) (.start ⟨0, 0⟩ []) trivial, by decide +kernel, rfl, by decide +kernel,
    ⟨id, id, id, id, id, id, trivial⟩, by decide +kernel, by decide +kernel⟩

/-! ### C75 -/

/-- A failure four seconds or more after the last one counts. -/
theorem failure_counted {pid : Pid} (hb : isBootstrap cfg pid = false) (now : Clock) (s : PM) (e : PMEvent) (hf : IsFailure s now pid e) :
    Counted pid now s (s.step cfg now e).1 := by
  cases e with
  | retryLater i =>
    have : i = pid := hf
    subst this
    simp only [PM.step]
    split <;> exact counted_increase hb now s
  | detach i =>
    obtain ⟨rfl, p, hp, hal⟩ := hf
    simp only [PM.step]
    have hc : (s.closeSession now i).pool i = some { p with alive := secsBetween now.secs p.connectAt } := by rw [close_pool, upd_same, hp]; rfl
    unfold PM.detach
    simp only [hc]
    rw [if_pos (by simp only [secsBetween, aliveRetryInterval]; omega)]
    exact Counted.after (same_close i now s i) (counted_increase hb now _)
  | reconnectLater a =>
    obtain ⟨hbel, hc⟩ := hf
    have hq : (s.reconnectUnknown a).pool = s.pool ∧ (s.reconnectUnknown a).connected = s.connected ∧
        (s.reconnectUnknown a).addrPid = s.addrPid := by
      unfold PM.reconnectUnknown; split <;> exact ⟨rfl, rfl, rfl⟩
    have hm : (s.reconnectUnknown a).matchPid a = some pid := matchPid_some.2 (by unfold Belongs at hbel ⊢; rw [hq.2.2]; exact hbel)
    simp only [PM.step]
    unfold PM.reconnectLater
    simp only [hm]
    rw [if_neg (by rw [hq.2.1]; exact hc)]
    exact Counted.after (Same.of_pool hq.1) (counted_increase hb now _)
  | _ => exact hf.elim

/-- The peer stays known, is not reported alive, and the clock does not go back before `c`. -/
def StaysKnown (cfg : PMCfg) (pid : Pid) (c : Clock) : PM → List (Clock × PMEvent) → Prop
  | _, [] => True
  | s, (now, e) :: es => c.tick ≤ now.tick ∧ e ≠ .alive pid ∧ (s.step cfg now e).1.pool pid ≠ none ∧ StaysKnown cfg pid c (s.step cfg now e).1 es

theorem pause_kept {pid : Pid} (hb : isBootstrap cfg pid = false) (c : Clock) (k : Nat) (es : List (Clock × PMEvent)) :
    ∀ (s : PM) (p : Peer), s.pool pid = some p → k ≤ p.retry → c.tick + backoffBase ^ k ≤ p.nextRetry → StaysKnown cfg pid c s es →
      ∃ q, (runAll cfg s es).pool pid = some q ∧ c.tick + backoffBase ^ k ≤ q.nextRetry := by
  induction es with
  | nil => intro s p hp _ hn _; exact ⟨p, hp, hn⟩
  | cons x es ih =>
    intro s p hp hk hn hs
    obtain ⟨now, e⟩ := x
    obtain ⟨s1, s2, s3, s4⟩ := hs
    rcases step_counters hb now s (by rw [hp]; simp) e with h | ⟨h, -⟩ | ⟨-, h⟩ | h
    · obtain ⟨q, hq, h1, -, h3⟩ := h p hp
      exact ih _ q hq (by omega) (by omega) s4
    · exact absurd h s2
    · rcases h p hp with ⟨q, hq, -, h1, -, h3⟩ | ⟨h, -⟩
      · refine ih _ q hq ?_ ?_ s4
        · rw [h1]; unfold Peer.increaseRetry; split
          · exact hk
          · simp only; omega
        · rw [h3]; unfold Peer.increaseRetry; split
          · exact hn
          · have := Nat.pow_le_pow_right (n := backoffBase) (by decide) (show k ≤ p.retry + 1 by omega)
            simp only; omega
      · exact absurd h s3
    · exfalso
      apply s3
      have hrm : ∀ i, i = pid → (s.cleanlyRemove cfg now i).pool pid = none := by
        rintro i rfl
        unfold PM.cleanlyRemove
        simp only [hb]
        rw [if_neg (by simp), remove_pool, upd_same]
      cases e with
      | remove i => exact hrm i h
      | removeBySession sid =>
        have h' : s.sessionPeer sid = some pid := h
        simp only [PM.step, h']
        exact hrm pid rfl
      | _ => exact h.elim

/-- **C75, the rounds.**  A peer that is not a bootstrap peer and whose `k`-th failure in a row counts at the moment `c` is not dialled by any
later round until more than `5 ^ k` seconds have passed, whatever happens meanwhile, unless it is reported alive or forgotten. -/
theorem C75_round_waits_partial {pid : Pid} (hb : isBootstrap cfg pid = false) {s : PM} {p : Peer} (hp : s.pool pid = some p) {c : Clock} {e : PMEvent}
    (hf : IsFailure s c pid e) (hcount : p.attemptAt + 4 ≤ c.secs ∨ c.secs + 4 ≤ p.attemptAt) {es : List (Clock × PMEvent)}
    (hs : StaysKnown cfg pid c s ((c, e) :: es)) {now : Clock} {n : Nat} {pids : List Pid} {addrs : List Maddr}
    (hv : ValidChoice cfg now (runAll cfg s ((c, e) :: es)) n pids addrs) (hin : pid ∈ pids) : c.tick + 5 ^ (p.retry + 1) < now.tick := by
  have hinc : p.increaseRetry c = { p with retry := p.retry + 1, attemptAt := c.secs, nextRetry := c.tick + backoffBase ^ (p.retry + 1) } := by
    unfold Peer.increaseRetry; rw [if_neg (by simp only [validAttemptInterval, secsBetween]; omega)]
  rcases failure_counted hb c s e hf p hp with ⟨q, hq, -, h1, -, h3⟩ | ⟨h, -⟩
  · rw [hinc] at h1 h3
    obtain ⟨r, hr, hn⟩ := pause_kept hb c (p.retry + 1) es _ q hq (by rw [h1]; exact Nat.le_refl _) (by rw [h3]; exact Nat.le_refl _) hs.2.2.2
    have := hv.pidsOk pid hin
    unfold qualified at this
    have hr' : (runAll cfg s ((c, e) :: es)).pool pid = some r := hr
    rw [hr'] at this
    simp only [Bool.and_eq_true] at this
    have h' := of_decide_eq_true this.2
    simp only [backoffBase] at hn
    omega
  · exact absurd h hs.2.2.1

/-- **C75 refuted** in general: a message to the user of a peer without a session has the peer dialled at once, however recently it failed. -/
theorem C75_refuted {s : PM} {u : UserId} {p : Peer} (hu : s.userPeer u = some p) (hs : s.peerSession p.id = none) (now : Clock) (msg : Nat) :
    ConnCmd.connect p.addrs ∈ (s.step cfg now (.route [u] msg)).2 := by
  simp [PM.step, PM.route, PM.routeUsers, hu, hs]

/-- C75 on a real case: a session that lasted a second is a failure that counts; four seconds later no round dials the peer, but a message to its
user does; six seconds later a round may dial it. -/
example : ∃ s p, PM.Reach demoCfg (fun _ _ _ => True) s ∧ s.pool 12 = some p ∧ IsFailure s ⟨11, 11⟩ 12 (.detach 12) ∧
    (p.attemptAt + 4 ≤ 11 ∨ 11 + 4 ≤ p.attemptAt) ∧ StaysKnown demoCfg 12 ⟨11, 11⟩ s [(⟨11, 11⟩, .detach 12)] ∧
    (s.step demoCfg ⟨11, 11⟩ (.detach 12)).1.qualified ⟨15, 15⟩ 12 = false ∧
    (s.step demoCfg ⟨11, 11⟩ (.detach 12)).1.qualified ⟨17, 17⟩ 12 = true ∧
    ((s.step demoCfg ⟨11, 11⟩ (.detach 12)).1.step demoCfg ⟨15, 15⟩ (.route [102] 42)).2 = [.send [] 42, .connect [[.other 5, .other 6]]] := by
  refine ⟨_, ⟨12, 102, 2, [[.other 5, .other 6]], 0, 10, 10, 0, 0⟩, .step ⟨10, 10⟩ (.attach 2 7 [.other 5, .other 6] true) (.start ⟨0, 0⟩ []) trivial,
    by decide +kernel, ⟨rfl, ⟨12, 102, 2, [[.other 5, .other 6]], 0, 10, 10, 0, 0⟩, by decide +kernel, by decide⟩, by decide,
    ⟨Nat.le_refl _, by simp, by decide +kernel, trivial⟩, by decide +kernel, by decide +kernel, by decide +kernel⟩

/-! ### C76 -/

/-- Recorded addresses belong to known peers. -/
def AddrInv (cfg : PMCfg) (s : PM) : Prop :=
  ∀ a pid, s.addrPid a = some pid → ∃ p, s.pool pid = some p ∧ (a ∈ p.addrs ∨ isBootstrap cfg pid = true)

/-- `t` differs from `s` in no recorded address and in no address of a peer. -/
def SameAddrs (s t : PM) : Prop := t.addrPid = s.addrPid ∧ ∀ pid p, s.pool pid = some p → ∃ q, t.pool pid = some q ∧ q.addrs = p.addrs

theorem SameAddrs.of_pool {s t : PM} (h : t.addrPid = s.addrPid) (k : t.pool = s.pool) : SameAddrs s t := ⟨h, fun _ p hp => ⟨p, by rw [k]; exact hp, rfl⟩⟩

theorem SameAddrs.map {s t : PM} (h : t.addrPid = s.addrPid) (i : Pid) (f : Peer → Peer) (hf : ∀ p, (f p).addrs = p.addrs)
    (k : t.pool = upd s.pool i ((s.pool i).map f)) : SameAddrs s t := by
  refine ⟨h, fun pid p hp => ?_⟩
  rw [k]
  by_cases e : pid = i
  · subst e; rw [upd_same, hp]; exact ⟨f p, rfl, hf p⟩
  · rw [upd_ne _ _ e]; exact ⟨p, hp, rfl⟩

theorem AddrInv.same {s t : PM} (h : AddrInv cfg s) (k : SameAddrs s t) : AddrInv cfg t := by
  intro a pid ha
  rw [k.1] at ha
  obtain ⟨p, hp, hor⟩ := h a pid ha
  obtain ⟨q, hq, e⟩ := k.2 pid p hp
  exact ⟨q, hq, by rw [e]; exact hor⟩

theorem AddrInv.addPeerAddr {s : PM} (h : AddrInv cfg s) (i : Pid) (b : Maddr) : AddrInv cfg (s.addPeerAddr i b) := by
  unfold PM.addPeerAddr
  split
  · exact h
  · rename_i p hp
    intro a pid ha
    simp only at ha ⊢
    by_cases e : a = b
    · subst e
      rw [upd_same] at ha; cases ha
      rw [upd_same]
      exact ⟨_, rfl, .inl (mem_setInsert.2 (.inl rfl))⟩
    · rw [upd_ne _ _ e] at ha
      obtain ⟨q, hq, hor⟩ := h a pid ha
      by_cases e2 : pid = i
      · subst e2
        rw [upd_same]
        rw [hp] at hq; cases hq
        exact ⟨_, rfl, hor.imp_left (fun x => mem_setInsert.2 (.inr x))⟩
      · rw [upd_ne _ _ e2]; exact ⟨q, hq, hor⟩

theorem AddrInv.removePeerAddr {s : PM} (h : AddrInv cfg s) (i : Pid) (b : Maddr) : AddrInv cfg (s.removePeerAddr i b) := by
  intro a pid ha
  simp only [PM.removePeerAddr, PM.modify] at ha ⊢
  by_cases e : a = b
  · subst e; rw [upd_same] at ha; cases ha
  · rw [upd_ne _ _ e] at ha
    obtain ⟨q, hq, hor⟩ := h a pid ha
    by_cases e2 : pid = i
    · subst e2
      rw [upd_same, hq]
      exact ⟨_, rfl, hor.imp_left (fun x => mem_setRemove.2 ⟨x, e⟩)⟩
    · rw [upd_ne _ _ e2]; exact ⟨q, hq, hor⟩

theorem AddrInv.addPeer {s : PM} (h : AddrInv cfg s) (p : Peer) (hn : s.pool p.id = none ∨ isBootstrap cfg p.id = true) : AddrInv cfg (s.addPeer p) := by
  intro a pid ha
  simp only [PM.addPeer] at ha ⊢
  split at ha
  · rename_i hm
    cases ha
    rw [upd_same]; exact ⟨p, rfl, .inl hm⟩
  · obtain ⟨q, hq, hor⟩ := h a pid ha
    by_cases e2 : pid = p.id
    · subst e2
      rw [upd_same]
      rcases hn with hn | hn
      · rw [hn] at hq; cases hq
      · exact ⟨p, rfl, .inr hn⟩
    · rw [upd_ne _ _ e2]; exact ⟨q, hq, hor⟩

theorem close_addrPid (now : Clock) (s : PM) (pid : Pid) : (s.closeSession now pid).addrPid = s.addrPid := by
  unfold PM.closeSession; simp only; split <;> rfl

theorem sameAddrs_close (now : Clock) (s : PM) (pid : Pid) : SameAddrs s (s.closeSession now pid) :=
  .map (close_addrPid ..) pid (fun p => { p with alive := secsBetween now.secs p.connectAt }) (fun _ => rfl) (close_pool ..)

theorem AddrInv.removePeer {s : PM} (h : AddrInv cfg s) (i : Pid) (hb : isBootstrap cfg i = false) : AddrInv cfg (s.removePeer i) := by
  unfold PM.removePeer
  simp only
  split
  · exact h
  · rename_i p hp
    intro a pid ha
    simp only at ha ⊢
    split at ha
    · cases ha
    · rename_i hna
      obtain ⟨q, hq, hor⟩ := h a pid ha
      by_cases e : pid = i
      · subst e
        rw [hp] at hq; cases hq
        rcases hor with hor | hor
        · exact absurd hor hna
        · rw [hb] at hor; cases hor
      · rw [upd_ne _ _ e]; exact ⟨q, hq, hor⟩

theorem AddrInv.cleanlyRemove {s : PM} (h : AddrInv cfg s) (now : Clock) (i : Pid) : AddrInv cfg (s.cleanlyRemove cfg now i) := by
  unfold PM.cleanlyRemove
  simp only
  split
  · refine (h.same (sameAddrs_close now s i)).same (.map rfl i (fun p => (p.resetRetry.increaseRetry now).increaseRetry now) (fun p => ?_) rfl)
    rw [increaseRetry_addrs, increaseRetry_addrs]; rfl
  · rename_i hb
    exact (h.same (sameAddrs_close now s i)).removePeer i (by simpa using hb)

theorem AddrInv.increase {s : PM} (h : AddrInv cfg s) (now : Clock) (i : Pid) : AddrInv cfg (s.increasePeerRetry cfg now i) := by
  have h1 : AddrInv cfg (s.modify i (fun p => p.increaseRetry now)) := h.same (.map rfl i _ (fun p => increaseRetry_addrs p now) rfl)
  unfold PM.increasePeerRetry
  simp only
  split
  · exact h1.cleanlyRemove now i
  · exact h1

theorem AddrInv.foldl {α : Type} (f : PM → α → PM) (hf : ∀ s a, AddrInv cfg s → AddrInv cfg (f s a)) (l : List α) {s : PM} (h : AddrInv cfg s) :
    AddrInv cfg (l.foldl f s) := by
  induction l generalizing s with
  | nil => exact h
  | cons a l ih => exact ih (hf s a h)

theorem AddrInv.identify {s : PM} (h : AddrInv cfg s) (a : Maddr) : AddrInv cfg (s.identifyAddr a) := by
  unfold identifyAddr; split
  · split
    · exact h.addPeerAddr _ _
    · exact h
  · split
    · exact h
    · exact h.same (.of_pool rfl rfl)

theorem AddrInv.attach {s : PM} (h : AddrInv cfg s) (now : Clock) (key : PubKey) (sid : Sid) (a : Maddr) (ob : Bool) :
    AddrInv cfg (s.attach cfg now key sid a ob) := by
  have h1 : ∀ l, AddrInv cfg (s.attachPool cfg now key l) := by
    intro l
    cases hs : s.pool (cfg.pidOf key) with
    | none =>
      cases l with
      | none => simp only [attachPool, hs, addNewPeer]; exact h.addPeer _ (.inl hs)
      | some b =>
        simp only [attachPool, hs, addNewPeer]
        exact AddrInv.addPeer (s := { s with unknown := upd s.unknown b none }) (h.same (.of_pool rfl rfl)) _ (.inl hs)
    | some q =>
      cases l with
      | none => simp only [attachPool, hs]; exact h
      | some b => simp only [attachPool, hs]; exact h.addPeerAddr _ _
  exact (h1 (if ob then some a else none)).same (.map rfl (cfg.pidOf key) (fun p => { p with connectAt := now.secs }) (fun _ => rfl) rfl)

theorem dials_addrPid (l : List Pid) (s : PM) : (l.foldl PM.connectPeer s).addrPid = s.addrPid := by
  induction l generalizing s with
  | nil => rfl
  | cons i l ih => rw [List.foldl_cons, ih]; unfold PM.connectPeer; split <;> rfl

theorem AddrInv.step {s : PM} (h : AddrInv cfg s) (now : Clock) (e : PMEvent) : AddrInv cfg (s.step cfg now e).1 := by
  cases e with
  | attach key sid a ob => exact h.attach now key sid a ob
  | detach i =>
    simp only [PM.step]
    unfold PM.detach
    have h1 := h.same (sameAddrs_close now s i)
    simp only
    split
    · split
      · exact h1.increase now i
      · exact h1
    · exact h1
  | alive i => exact h.same (.map rfl i Peer.resetRetry (fun _ => rfl) rfl)
  | remove i => exact h.cleanlyRemove now i
  | removeBySession sid =>
    simp only [PM.step]
    split
    · exact h.cleanlyRemove now _
    · rename_i hs
      simp only [PM.detachSession, hs]
      exact h
  | retryLater i =>
    simp only [PM.step]
    split <;> exact h.increase now i
  | discover addrs => exact AddrInv.foldl _ (fun s a h => AddrInv.identify h a) _ h
  | identified i addrs => exact AddrInv.foldl (fun s a => PM.addPeerAddr s i a) (fun s a h => AddrInv.addPeerAddr h i a) _ h
  | repeated dialer sid a =>
    simp only [PM.step]
    split
    · unfold addSessionAddr
      simp only
      split
      · exact AddrInv.addPeerAddr (s := { s with unknown := upd s.unknown a none }) (h.same (.of_pool rfl rfl)) _ _
      · exact h.same (.of_pool rfl rfl)
    · exact h
  | unconnectable a =>
    simp only [PM.step, PM.unconnectable]
    split
    · exact h.same (.of_pool rfl rfl)
    · unfold tryRemoveAddr
      split
      · exact AddrInv.removePeerAddr (s := { s with unknown := upd s.unknown a none }) (h.same (.of_pool rfl rfl)) _ _
      · exact h.same (.of_pool rfl rfl)
  | reconnectLater a =>
    have h1 : AddrInv cfg (s.reconnectUnknown a) := by
      unfold PM.reconnectUnknown
      split
      · exact h.same (.of_pool rfl rfl)
      · exact h
    simp only [PM.step]
    unfold PM.reconnectLater
    simp only
    split
    · split
      · exact h1
      · exact h1.increase now _
    · exact h1
  | addListen a => exact h.addPeerAddr _ _
  | removeListen a => exact h.removePeerAddr _ _
  | route us msg => exact h
  | routine pids addrs =>
    simp only [PM.step, PM.routine]
    split
    · exact h
    · split
      · exact h.same (.of_pool (dials_addrPid pids s) (dials_pool pids s))
      · exact h

theorem AddrInv.insertPeers (now : Clock) (saved : List (PubKey × List Maddr)) :
    ∀ {s : PM}, AddrInv cfg s → (saved.map (fun x => cfg.pidOf x.1)).Nodup → (∀ x ∈ saved, ∀ a, s.addrPid a ≠ some (cfg.pidOf x.1)) →
      AddrInv cfg (s.insertPeers cfg now saved) := by
  induction saved with
  | nil => intro s h _ _; exact h
  | cons x saved ih =>
    intro s h hd hf
    obtain ⟨key, addrs⟩ := x
    rw [List.map_cons, List.nodup_cons] at hd
    unfold PM.insertPeers
    refine ih ?_ hd.2 ?_
    · intro a pid ha
      simp only at ha ⊢
      split at ha
      · rename_i hm
        cases ha
        rw [upd_same]
        split
        · exact ⟨_, rfl, .inl hm⟩
        · exact ⟨_, rfl, .inl hm⟩
      · have hne : pid ≠ cfg.pidOf key := by rintro rfl; exact hf (key, addrs) (List.mem_cons_self ..) a ha
        rw [upd_ne _ _ hne]
        exact h a pid ha
    · intro y hy a ha
      simp only at ha
      split at ha
      · injection ha with ha
        exact hd.1 (ha ▸ List.mem_map_of_mem (f := fun x => cfg.pidOf x.1) hy)
      · exact hf y (List.mem_cons_of_mem _ hy) a ha

theorem AddrInv.start (now : Clock) {saved : List (PubKey × List Maddr)} (hd : (saved.map (fun x => cfg.pidOf x.1)).Nodup) :
    AddrInv cfg (PM.start cfg now saved).1 := by
  have h0 : AddrInv cfg ((PM.new cfg now).insertPeers cfg now saved) :=
    AddrInv.insertPeers now saved (fun a pid h => by cases h) hd (fun _ _ _ h => by cases h)
  have hfold : ∀ (l : List Peer), (∀ p ∈ l, isBootstrap cfg p.id = true) → ∀ s, AddrInv cfg s →
      AddrInv cfg (l.foldl (fun s p => (s.addPeer p).connectPeer p.id) s) := by
    intro l
    induction l with
    | nil => intro _ s h; exact h
    | cons p l ih =>
      intro hl s h
      refine ih (fun q hq => hl q (List.mem_cons_of_mem _ hq)) _ ?_
      refine (h.addPeer p (.inr (hl p (List.mem_cons_self ..)))).same (.of_pool ?_ ?_) <;> (simp only [PM.connectPeer]; split <;> rfl)
  refine (hfold cfg.bootstraps (fun p hp => ?_) _ h0).same (.of_pool rfl rfl)
  simp only [isBootstrap, List.any_eq_true]
  exact ⟨p, hp, by simp⟩

/-- A manager started with peers saved under different ids, after some events. -/
theorem AddrInv.run (now : Clock) {saved : List (PubKey × List Maddr)} (hd : (saved.map (fun x => cfg.pidOf x.1)).Nodup) (es : List (Clock × PMEvent)) :
    AddrInv cfg (runAll cfg (PM.start cfg now saved).1 es) := by
  have : ∀ (es : List (Clock × PMEvent)) (s : PM), AddrInv cfg s → AddrInv cfg (runAll cfg s es) := by
    intro es
    induction es with
    | nil => intro s h; exact h
    | cons x es ih => intro s h; exact ih _ (h.step x.1 x.2)
  exact this es _ (.start now hd)

/-- **C76, recorded addresses.**  Whatever happens to a started manager, every address recorded for a peer is recorded for a peer it knows: an address
of a forgotten peer is free again. -/
theorem C76_recorded_addresses_known (now : Clock) {saved : List (PubKey × List Maddr)} (hd : (saved.map (fun x => cfg.pidOf x.1)).Nodup)
    (es : List (Clock × PMEvent)) {a : Maddr} {pid : Pid} (ha : (runAll cfg (PM.start cfg now saved).1 es).addrPid a = some pid) :
    (runAll cfg (PM.start cfg now saved).1 es).pool pid ≠ none := by
  obtain ⟨p, hp, -⟩ := AddrInv.run now hd es a pid ha
  rw [hp]; simp

/-- The address is taken to be one of a peer the manager knows, or is kept to be dialled. -/
def Placed (s : PM) (a : Maddr) : Prop := (∃ pid p, Belongs s a pid ∧ s.pool pid = some p) ∨ ∃ u, s.unknown a = some u

theorem identify_facts {s : PM} (h : AddrInv cfg s) (b : Maddr) :
    (∀ a pid, s.addrPid a = some pid → (s.identifyAddr b).addrPid a = some pid) ∧ (∀ a, a ≠ b → s.addrPid a = none → (s.identifyAddr b).addrPid a = none) ∧
    (∀ pid, s.pool pid ≠ none → (s.identifyAddr b).pool pid ≠ none) ∧ (∀ a u, s.unknown a = some u → (s.identifyAddr b).unknown a = some u) ∧
    Placed (s.identifyAddr b) b := by
  unfold identifyAddr
  split
  · rename_i i hm
    have hbel := matchPid_some.1 hm
    have hknown : ∃ p, s.pool i = some p := by
      rcases hbel with hb | ⟨-, c0, c1, hb, -⟩
      · obtain ⟨p, hp, -⟩ := h _ _ hb; exact ⟨p, hp⟩
      · obtain ⟨p, hp, -⟩ := h _ _ hb; exact ⟨p, hp⟩
    obtain ⟨p, hp⟩ := hknown
    split
    · unfold PM.addPeerAddr
      simp only [hp]
      refine ⟨fun a pid ha => ?_, fun a hne ha => ?_, fun pid hpool => ?_, fun a u hu => hu,
        .inl ⟨i, { p with addrs := setInsert p.addrs b }, .inl (upd_same ..), upd_same ..⟩⟩
      · by_cases e : a = b
        · subst e
          rcases hbel with hb | ⟨hb, -⟩
          · rw [upd_same, ← hb, ha]
          · rw [hb] at ha; cases ha
        · rw [upd_ne _ _ e]; exact ha
      · rw [upd_ne _ _ hne]; exact ha
      · by_cases e : pid = i
        · subst e; rw [upd_same]; simp
        · rw [upd_ne _ _ e]; exact hpool
    · exact ⟨fun _ _ h => h, fun _ _ h => h, fun _ h => h, fun _ _ h => h, .inl ⟨i, p, hbel, hp⟩⟩
  · split
    · rename_i u hu
      exact ⟨fun _ _ h => h, fun _ _ h => h, fun _ h => h, fun _ _ h => h, .inr ⟨u, hu⟩⟩
    · rename_i hu
      refine ⟨fun _ _ h => h, fun _ _ h => h, fun _ h => h, fun a u h => ?_, .inr ⟨⟨false, 0⟩, upd_same ..⟩⟩
      simp only
      rw [upd_ne]
      · exact h
      · rintro rfl; rw [hu] at h; cases h

theorem Placed.identify {s : PM} (h : AddrInv cfg s) {a : Maddr} (hp : Placed s a) (b : Maddr) : Placed (s.identifyAddr b) a := by
  obtain ⟨f1, f2, f3, f4, f5⟩ := identify_facts h b
  rcases hp with ⟨pid, p, hb, hp⟩ | ⟨u, hu⟩
  · by_cases e : a = b
    · subst e; exact f5
    · have hk := f3 pid (by rw [hp]; simp)
      cases hq : (s.identifyAddr b).pool pid with
      | none => exact absurd hq hk
      | some q =>
        refine .inl ⟨pid, q, ?_, hq⟩
        rcases hb with hb | ⟨hn, c0, c1, hr, rest, ha⟩
        · exact .inl (f1 _ _ hb)
        · exact .inr ⟨f2 a e hn, c0, c1, f1 _ _ hr, rest, ha⟩
  · exact .inr ⟨u, f4 _ _ hu⟩

/-- **C76, no discovered address is lost.**  Whatever happened to a started manager before: after it has been told of some addresses, each of them is
taken to be an address of a peer it knows or is kept to be dialled. -/
theorem C76_discovered_addresses_placed (now : Clock) {saved : List (PubKey × List Maddr)} (hd : (saved.map (fun x => cfg.pidOf x.1)).Nodup)
    (es : List (Clock × PMEvent)) (c : Clock) (addrs : List Maddr) {a : Maddr} (ha : a ∈ addrs) :
    Placed ((runAll cfg (PM.start cfg now saved).1 es).step cfg c (.discover addrs)).1 a := by
  have main : ∀ (l : List Maddr) (s : PM), AddrInv cfg s → (Placed s a ∨ a ∈ l) → Placed (l.foldl PM.identifyAddr s) a := by
    intro l
    induction l with
    | nil => intro s _ h; exact h.resolve_right (by simp)
    | cons b l ih =>
      intro s h hor
      refine ih _ (h.identify b) ?_
      rcases hor with hor | hor
      · exact .inl (hor.identify h b)
      · rcases List.mem_cons.1 hor with rfl | hor
        · exact .inl (identify_facts h _).2.2.2.2
        · exact .inr hor
  exact main addrs _ (AddrInv.run now hd es) (.inr ha)

theorem identify_addrPid (s : PM) (b a : Maddr) : (s.identifyAddr b).addrPid a = s.addrPid a ∨
    (s.addrPid a = none ∧ ∃ i, (s.identifyAddr b).addrPid a = some i ∧ ∃ c0 c1 rest, a = c0 :: c1 :: .p2p i :: rest) := by
  unfold identifyAddr
  split
  · rename_i i hm
    split
    · unfold PM.addPeerAddr
      split
      · exact .inl rfl
      · simp only
        by_cases e : a = b
        · subst e
          rw [upd_same]
          rcases matchPid_some.1 hm with hb | ⟨hn, c0, c1, -, rest, hb⟩
          · exact .inl hb.symm
          · exact .inr ⟨hn, i, rfl, c0, c1, rest, hb⟩
        · rw [upd_ne _ _ e]; exact .inl rfl
    · exact .inl rfl
  · split <;> exact .inl rfl

/-- **C76, no address is attributed to a peer it does not name.**  If a manager that is told of some addresses comes to record one of them for a
peer, then that address names this peer after its first two components. -/
theorem C76_not_attributed_to_others (s : PM) (c : Clock) (addrs : List Maddr) {a : Maddr} {pid : Pid} (h0 : s.addrPid a = none)
    (h1 : (s.step cfg c (.discover addrs)).1.addrPid a = some pid) : ∃ c0 c1 rest, a = c0 :: c1 :: .p2p pid :: rest := by
  have main : ∀ (l : List Maddr) (s : PM), (∀ i, s.addrPid a = some i → ∃ c0 c1 rest, a = c0 :: c1 :: .p2p i :: rest) →
      ∀ i, (l.foldl PM.identifyAddr s).addrPid a = some i → ∃ c0 c1 rest, a = c0 :: c1 :: .p2p i :: rest := by
    intro l
    induction l with
    | nil => intro s h; exact h
    | cons b l ih =>
      intro s h
      refine ih _ fun i hi => ?_
      rcases identify_addrPid s b a with e | ⟨-, j, hj, hr⟩
      · exact h i (by rw [← e]; exact hi)
      · rw [hj] at hi; cases hi; exact hr
  exact main addrs s (fun i hi => by rw [h0] at hi; cases hi) pid h1

/-- C76 on a real case: the bootstrap peer is connected; of four discovered addresses, one extends an address of it by its id and is recorded for it,
one extends this address by another id and is kept to be dialled, like the address of a stranger and an address of a peer that was forgotten. -/
example :
    let es : List (Clock × PMEvent) := [(⟨10, 10⟩, .attach 1 7 [] true), (⟨20, 20⟩, .attach 2 8 [.other 5, .other 6] true), (⟨30, 30⟩, .remove 12)]
    let s := (runAll demoCfg (PM.start demoCfg ⟨0, 0⟩ []).1 es)
    let t := (s.step demoCfg ⟨40, 40⟩ (.discover [[.other 1, .other 2, .p2p 11], [.other 1, .other 2, .p2p 12], [.other 3], [.other 5, .other 6]])).1
    s.addrPid [.other 1, .other 2, .p2p 11] = none ∧ t.addrPid [.other 1, .other 2, .p2p 11] = some 11 ∧
    t.unknown [.other 1, .other 2, .p2p 12] = some ⟨false, 0⟩ ∧ t.unknown [.other 3] = some ⟨false, 0⟩ ∧ t.unknown [.other 5, .other 6] = some ⟨false, 0⟩ := by
  decide +kernel

theorem identify_connected (s : PM) (b : Maddr) : (s.identifyAddr b).connected = s.connected := by
  unfold identifyAddr
  split
  · split
    · unfold PM.addPeerAddr; split <;> rfl
    · rfl
  · split <;> rfl

theorem identify_offline (s : PM) (b : Maddr) {pid : Pid} (hc : pid ∉ s.connected) : (s.identifyAddr b).pool pid = s.pool pid := by
  unfold identifyAddr
  split
  · rename_i i hm
    split
    · rename_i hi
      unfold PM.addPeerAddr
      split
      · rfl
      · exact upd_ne _ _ (fun e => hc (e ▸ hi))
    · rfl
  · split <;> rfl

theorem identify_keeps_addr (s : PM) (b : Maddr) {pid : Pid} {p : Peer} (hp : s.pool pid = some p) :
    ∃ q, (s.identifyAddr b).pool pid = some q ∧ ∀ a ∈ p.addrs, a ∈ q.addrs := by
  unfold identifyAddr
  split
  · rename_i i hm
    split
    · unfold PM.addPeerAddr
      split
      · exact ⟨p, hp, fun _ h => h⟩
      · rename_i p' hp'
        by_cases e : pid = i
        · subst e
          rw [hp] at hp'
          rw [← Option.some.inj hp']
          refine ⟨_, upd_same .., fun a ha => ?_⟩
          unfold setInsert
          split
          · exact ha
          · exact List.mem_cons_of_mem _ ha
        · exact ⟨p, by rw [← hp]; exact upd_ne _ _ e, fun _ h => h⟩
    · exact ⟨p, hp, fun _ h => h⟩
  · split <;> exact ⟨p, hp, fun _ h => h⟩

/-- **C76, offline peers keep the addresses they have.**  Whatever addresses the manager is told of, what it knows of a peer without a session does
not change: an address told by a third party is never added to such a peer. -/
theorem C76_offline_untouched (s : PM) (c : Clock) (addrs : List Maddr) {pid : Pid} (hc : pid ∉ s.connected) :
    (s.step cfg c (.discover addrs)).1.pool pid = s.pool pid := by
  show (addrs.foldl PM.identifyAddr s).pool pid = s.pool pid
  induction addrs generalizing s with
  | nil => rfl
  | cons b l ih =>
    rw [List.foldl_cons, ih (s.identifyAddr b) (by rw [identify_connected]; exact hc)]
    exact identify_offline s b hc

/-- **C76, a connected peer gets its address.**  Whatever happened to a started manager before: if it is told of an address that it takes to be one
of a connected peer, the address is among those of this peer afterwards. -/
theorem C76_connected_recorded (now : Clock) {saved : List (PubKey × List Maddr)} (hd : (saved.map (fun x => cfg.pidOf x.1)).Nodup)
    (es : List (Clock × PMEvent)) (c : Clock) (addrs : List Maddr) {a : Maddr} (ha : a ∈ addrs) {pid : Pid}
    (hb : Belongs (runAll cfg (PM.start cfg now saved).1 es) a pid) (hc : pid ∈ (runAll cfg (PM.start cfg now saved).1 es).connected) :
    ∃ p, ((runAll cfg (PM.start cfg now saved).1 es).step cfg c (.discover addrs)).1.pool pid = some p ∧ a ∈ p.addrs := by
  have keep : ∀ (l : List Maddr) (s : PM) (p : Peer), s.pool pid = some p → a ∈ p.addrs →
      ∃ q, (l.foldl PM.identifyAddr s).pool pid = some q ∧ a ∈ q.addrs := by
    intro l
    induction l with
    | nil => intro s p hp ha; exact ⟨p, hp, ha⟩
    | cons b l ih =>
      intro s p hp ha
      obtain ⟨q, hq, hs⟩ := identify_keeps_addr s b hp
      exact ih _ q hq (hs a ha)
  have main : ∀ (l : List Maddr) (s : PM), AddrInv cfg s → a ∈ l → Belongs s a pid → pid ∈ s.connected →
      ∃ q, (l.foldl PM.identifyAddr s).pool pid = some q ∧ a ∈ q.addrs := by
    intro l
    induction l with
    | nil => intro s _ h; simp at h
    | cons b l ih =>
      intro s h hm hb hc
      rw [List.foldl_cons]
      by_cases e : a = b
      · subst e
        have hp : ∃ p, s.pool pid = some p := by
          rcases hb with hb | ⟨-, c0, c1, hb, -⟩
          · obtain ⟨p, hp, -⟩ := h _ _ hb; exact ⟨p, hp⟩
          · obtain ⟨p, hp, -⟩ := h _ _ hb; exact ⟨p, hp⟩
        obtain ⟨p, hp⟩ := hp
        refine keep l _ { p with addrs := setInsert p.addrs a } ?_ ?_
        · unfold identifyAddr
          rw [matchPid_some.2 hb]
          simp only [if_pos hc]
          unfold PM.addPeerAddr
          simp only [hp]
          exact upd_same ..
        · simp only [setInsert]
          split
          · assumption
          · simp
      · obtain ⟨f1, f2, -⟩ := identify_facts h b
        refine ih _ (h.identify b) ((List.mem_cons.1 hm).resolve_left e) ?_ (by rw [identify_connected]; exact hc)
        rcases hb with hb | ⟨hn, c0, c1, hr, rest, hx⟩
        · exact .inl (f1 _ _ hb)
        · exact .inr ⟨f2 a e hn, c0, c1, f1 _ _ hr, rest, hx⟩
  exact main addrs _ (AddrInv.run now hd es) ha hb hc

/-- The two theorems on a real case: the bootstrap peer is connected and gets the address that names it; once its session is over a second such address
is not added. -/
example :
    let es : List (Clock × PMEvent) := [(⟨10, 10⟩, .attach 1 7 [] true)]
    let s := (runAll demoCfg (PM.start demoCfg ⟨0, 0⟩ []).1 es)
    let t := (s.step demoCfg ⟨40, 40⟩ (.discover [[.other 1, .other 2, .p2p 11]])).1
    let d := (t.step demoCfg ⟨90, 90⟩ (.detach 11)).1
    let e := (d.step demoCfg ⟨95, 95⟩ (.discover [[.other 1, .other 2, .p2p 11, .other 9]])).1
    s.matchPid [.other 1, .other 2, .p2p 11] = some 11 ∧ 11 ∈ s.connected ∧ (t.pool 11).any (fun p => decide ([.other 1, .other 2, .p2p 11] ∈ p.addrs)) = true ∧
    11 ∉ d.connected ∧ e.matchPid [.other 1, .other 2, .p2p 11, .other 9] = some 11 ∧
    (e.pool 11).any (fun p => decide ([.other 1, .other 2, .p2p 11, .other 9] ∈ p.addrs)) = false := by
  decide +kernel

/-! ### C77 -/

/-- **C77, up to the fifth failure.**  When a connected peer is to be retried later, the transport is told to close its session, unless this is the
sixth failure that counts. -/
theorem C77_session_closed_partial {s : PM} {pid : Pid} {p : Peer} {sid : Sid} (hp : s.pool pid = some p) (hs : s.peerSession pid = some sid) (now : Clock)
    (hr : p.retry + 1 < 6) : ConnCmd.disconnect sid ∈ (s.step cfg now (.retryLater pid)).2 := by
  have hinc : (p.increaseRetry now).retry ≤ p.retry + 1 := by
    unfold Peer.increaseRetry; split
    · omega
    · simp
  have hmod : (s.modify pid (fun p => p.increaseRetry now)).pool pid = some (p.increaseRetry now) := by simp [PM.modify, hp]
  have h1 : s.increasePeerRetry cfg now pid = s.modify pid (fun p => p.increaseRetry now) := by
    unfold PM.increasePeerRetry
    simp only
    rw [if_neg]
    unfold reachMaxRetry
    rw [hmod]
    intro h
    have h := of_decide_eq_true h
    simp only [maxRetryCount] at h
    omega
  have h2 : (s.increasePeerRetry cfg now pid).peerSession pid = some sid := by rw [h1]; exact hs
  simp only [PM.step, h2]
  exact List.mem_singleton.2 rfl

/-- **C77 refuted** in general: on the sixth failure the manager drops the session from its tables first, and tells the transport nothing. -/
theorem C77_refuted {s : PM} {pid : Pid} {p : Peer} (hp : s.pool pid = some p) (now : Clock) (hc : p.attemptAt + 4 ≤ now.secs ∨ now.secs + 4 ≤ p.attemptAt) (hr : p.retry = 5) :
    (s.step cfg now (.retryLater pid)).2 = [] ∧ (s.step cfg now (.retryLater pid)).1.peerSession pid = none := by
  have hmod : (s.modify pid (fun p => p.increaseRetry now)).pool pid = some (p.increaseRetry now) := by simp [PM.modify, hp]
  have h1 : s.increasePeerRetry cfg now pid = (s.modify pid (fun p => p.increaseRetry now)).cleanlyRemove cfg now pid := by
    unfold PM.increasePeerRetry
    simp only
    rw [if_pos]
    unfold reachMaxRetry
    rw [hmod]
    unfold Peer.increaseRetry
    rw [if_neg (by simp only [validAttemptInterval, secsBetween]; omega)]
    simp [hr, maxRetryCount]
  have h2 : (s.increasePeerRetry cfg now pid).peerSession pid = none := by rw [h1]; exact cleanlyRemove_closes now _ pid
  constructor
  · simp only [PM.step, h2]
  · simp only [PM.step, h2]

/-- C77 on real cases: the fifth failure of a connected peer has its session closed; the sixth does not, although the session is there. -/
example :
    let s4 := demoRun [.attach 2 7 [] false, .retryLater 12, .retryLater 12, .retryLater 12, .retryLater 12]
    let s5 := demoRun [.attach 2 7 [] false, .retryLater 12, .retryLater 12, .retryLater 12, .retryLater 12, .retryLater 12]
    s4.peerSession 12 = some 7 ∧ (s4.pool 12).map Peer.retry = some 4 ∧ (s4.step demoCfg ⟨60, 60⟩ (.retryLater 12)).2 = [.disconnect 7] ∧
    s5.peerSession 12 = some 7 ∧ (s5.pool 12).map Peer.retry = some 5 ∧ (s5.step demoCfg ⟨70, 70⟩ (.retryLater 12)).2 = [] := by
  decide +kernel

end PM
end Huobi
