import Verif.Model.Keeper
import Verif.Props.PeerManager
/-
C83 and C84: the sessions of the transport and the commands of the peer manager.
-/
namespace Huobi
namespace PM
variable {cfg : PMCfg}

/-! ### Specification -/

/-- After `xs`, the transport has session `sid` open, with the key `key`: it reported it open, and not closed since. -/
def OpenAt (xs : List NetIn) (sid : Sid) (key : PubKey) : Prop :=
  ∃ pre c post, xs = pre ++ NetIn.event (.opened c) :: post ∧ c.sid = sid ∧ c.key = some key ∧
    ∀ c', NetIn.event (.closed c') ∈ post → c'.sid ≠ sid

/-- The transport reports sessions sensibly: it closes only what it has open, naming the key it was opened with, and it does not
reuse the number of an open session.  All sessions are encrypted. -/
structure Orderly (xs : List NetIn) : Prop where
  closes : ∀ pre c post, xs = pre ++ NetIn.event (.closed c) :: post → ∃ key, c.key = some key ∧ OpenAt pre c.sid key
  opens : ∀ pre c post, xs = pre ++ NetIn.event (.opened c) :: post → ∀ key, ¬ OpenAt pre c.sid key

/-- The sessions a command is about. -/
def _root_.Huobi.ConnCmd.sids : ConnCmd → List Sid
  | .connect _ => []
  | .disconnect sid => [sid]
  | .send sids _ => sids

/-! ### Proof -/

theorem Orderly.init {xs : List NetIn} {x : NetIn} (h : Orderly (xs ++ [x])) : Orderly xs where
  closes pre c post e := h.closes pre c (post ++ [x]) (by rw [e]; simp)
  opens pre c post e := h.opens pre c (post ++ [x]) (by rw [e]; simp)

theorem OpenAt.snoc {xs : List NetIn} {sid : Sid} {key : PubKey} (h : OpenAt xs sid key) (x : NetIn)
    (hx : ∀ c, x = .event (.closed c) → c.sid ≠ sid) : OpenAt (xs ++ [x]) sid key := by
  obtain ⟨pre, c, post, rfl, h1, h2, h3⟩ := h
  refine ⟨pre, c, post ++ [x], by simp, h1, h2, fun c' hc => ?_⟩
  rcases List.mem_append.1 hc with hc | hc
  · exact h3 c' hc
  · exact hx c' (List.mem_singleton.1 hc).symm

/-- A session that is open after `xs ++ [x]` is either open after `xs`, or the one `x` opens. -/
theorem OpenAt.unsnoc {xs : List NetIn} {x : NetIn} {sid : Sid} {key : PubKey} (h : OpenAt (xs ++ [x]) sid key) :
    OpenAt xs sid key ∨ ∃ c, x = .event (.opened c) ∧ c.sid = sid ∧ c.key = some key := by
  obtain ⟨pre, c, post, he, h1, h2, h3⟩ := h
  rcases List.eq_nil_or_concat post with rfl | ⟨post', y, rfl⟩
  · obtain ⟨-, hx⟩ := List.append_inj' he rfl
    injection hx with hx
    exact .inr ⟨c, hx, h1, h2⟩
  · have he' : xs ++ [x] = (pre ++ NetIn.event (.opened c) :: post') ++ [y] := by rw [he]; simp
    obtain ⟨hxs, -⟩ := List.append_inj' he' rfl
    exact .inl ⟨pre, c, post', hxs, h1, h2, fun c' hc => h3 c' (by simp [hc])⟩

theorem OpenAt.unique {xs : List NetIn} (ho : Orderly xs) {sid : Sid} {key key' : PubKey} (h : OpenAt xs sid key) (h' : OpenAt xs sid key') : key = key' := by
  obtain ⟨n, hn⟩ : ∃ n, n = xs.length := ⟨_, rfl⟩
  induction n generalizing xs with
  | zero =>
    obtain ⟨pre, c, post, e, -⟩ := h
    rw [e] at hn; simp at hn
  | succ n ih =>
    rcases List.eq_nil_or_concat xs with rfl | ⟨ys, x, rfl⟩
    · simp at hn
    · simp only [List.length_append, List.length_singleton, List.concat_eq_append] at hn ho h h'
      rcases h.unsnoc with h1 | ⟨c, hx, h1, h2⟩ <;> rcases h'.unsnoc with h1' | ⟨c', hx', h1', h2'⟩
      · exact ih ho.init h1 h1' (by omega)
      · subst hx'; subst h1'
        exact absurd h1 (ho.opens ys c' [] rfl key)
      · subst hx; subst h1
        exact absurd h1' (ho.opens ys c [] rfl key')
      · rw [hx] at hx'; cases hx'
        rw [h2] at h2'; injection h2'

theorem OpenAt.not_closed {xs ys : List NetIn} {c : SessionCtx} {key : PubKey} (hys : ∀ c', NetIn.event (.opened c') ∈ ys → c'.sid ≠ c.sid) :
    ¬ OpenAt (xs ++ .event (.closed c) :: ys) c.sid key := by
  rintro ⟨pre, c', post, he, h1, h2, h3⟩
  rcases List.append_eq_append_iff.1 he with ⟨as, -, h⟩ | ⟨as, -, h⟩
  · cases as with
    | nil => cases h
    | cons a as =>
      injection h with h h'
      exact hys c' (by rw [h']; simp) h1
  · cases as with
    | nil => cases h
    | cons a as =>
      injection h with h h'
      exact h3 c (by rw [h']; simp) rfl

/-- The manager's sessions are open. -/
theorem Heard.open {xs : List NetIn} {s : PM} (h : PM.Heard cfg xs s) (ho : Orderly xs) : ∀ pid sid, s.peerSession pid = some sid → ∃ key, cfg.pidOf key = pid ∧ OpenAt xs sid key := by
  induction h with
  | start now saved =>
    intro pid sid hs
    have : ((PM.start cfg now saved).1).peerSession pid = none := by
      refine KeptStart.start (I := fun t => t.peerSession pid = none) ⟨fun _ => rfl, fun _ {_} _ _ h => h, fun t p _ h => ?_, fun _ h => h⟩ now saved
      unfold connectPeer; split <;> exact h
    rw [this] at hs; cases hs
  | @step xs s now x h ih =>
    intro pid sid hs
    have ih := ih ho.init
    unfold PM.hear at hs
    cases hr : x.report cfg with
    | none =>
      rw [hr] at hs
      obtain ⟨key, h1, h2⟩ := ih pid sid hs
      refine ⟨key, h1, h2.snoc x ?_⟩
      rintro c rfl
      obtain ⟨k, hk, -⟩ := ho.closes xs c [] rfl
      simp [NetIn.report, SvcEvent.report, hk] at hr
    | some e =>
      rw [hr] at hs
      simp only at hs
      -- events that attach nothing and close nothing
      have other : (∀ key sid' a ob, e ≠ .attach key sid' a ob) → (∀ c, x ≠ .event (.closed c)) → ∃ key, cfg.pidOf key = pid ∧ OpenAt (xs ++ [x]) sid key := by
        intro ha hc
        have hk : s.peerSession pid = some sid := by
          refine (sessionsKept (cfg := cfg) s).step now e (fun _ _ x => x) ?_ pid sid hs
          cases e with
          | attach key sid' a ob => exact absurd rfl (ha key sid' a ob)
          | _ => trivial
        obtain ⟨key, h1, h2⟩ := ih pid sid hk
        exact ⟨key, h1, h2.snoc x (fun c hx => absurd hx (hc c))⟩
      cases x with
      | error er =>
        refine other ?_ (by simp)
        rintro key sid' a ob rfl
        cases er with
        | dialer d a => cases d <;> simp [NetIn.report, SvcError.report, DialError.event] at hr
        | listen d a => cases d <;> simp [NetIn.report, SvcError.report, DialError.event] at hr
        | protoSelect c named =>
          simp only [NetIn.report, SvcError.report, Option.map_eq_some_iff] at hr
          obtain ⟨k, -, hk⟩ := hr
          split at hk <;> cases hk
        | _ => simp [NetIn.report, SvcError.report] at hr
      | ping p =>
        refine other ?_ (by simp)
        rintro key sid' a ob rfl
        cases p <;> simp [NetIn.report, PingEvent.report] at hr
      | discover addrs => exact other (by rintro key sid' a ob rfl; simp [NetIn.report] at hr) (by simp)
      | misbehave i => exact other (by rintro key sid' a ob rfl; simp [NetIn.report] at hr) (by simp)
      | identified p addrs => exact other (by rintro key sid' a ob rfl; simp [NetIn.report] at hr) (by simp)
      | users us msg => exact other (by rintro key sid' a ob rfl; simp [NetIn.report] at hr) (by simp)
      | round pids addrs => exact other (by rintro key sid' a ob rfl; simp [NetIn.report] at hr) (by simp)
      | event ev =>
        cases ev with
        | listenStarted a => exact other (by rintro key sid' a ob rfl; simp [NetIn.report, SvcEvent.report] at hr) (by simp)
        | listenClose a => exact other (by rintro key sid' a ob rfl; simp [NetIn.report, SvcEvent.report] at hr) (by simp)
        | opened c =>
          simp only [NetIn.report, SvcEvent.report, Option.map_eq_some_iff] at hr
          obtain ⟨key, hk, rfl⟩ := hr
          have e1 := (attach_tables cfg now s key c.sid c.addr c.outbound).2.2.1
          have hs' : (s.attach cfg now key c.sid c.addr c.outbound).peerSession pid = some sid := hs
          rw [e1] at hs'
          by_cases hp : pid = cfg.pidOf key
          · subst hp
            rw [upd_same] at hs'; injection hs' with hs'
            exact ⟨key, rfl, xs, c, [], rfl, hs', hk, fun _ h => by cases h⟩
          · rw [upd_ne _ _ hp] at hs'
            obtain ⟨key', h1, h2⟩ := ih pid sid hs'
            exact ⟨key', h1, h2.snoc _ (by simp)⟩
        | closed c =>
          simp only [NetIn.report, SvcEvent.report, Option.map_eq_some_iff] at hr
          obtain ⟨key, hk, rfl⟩ := hr
          have hs' : (s.detach cfg now (cfg.pidOf key)).peerSession pid = some sid := hs
          have hne : pid ≠ cfg.pidOf key := by
            rintro rfl
            rw [detach_closes] at hs'; cases hs'
          have hk' : s.peerSession pid = some sid :=
            (sessionsKept (cfg := cfg) s).step now (.detach (cfg.pidOf key)) (fun _ _ x => x) trivial pid sid hs
          obtain ⟨key', h1, h2⟩ := ih pid sid hk'
          refine ⟨key', h1, h2.snoc _ ?_⟩
          rintro c' hc'
          cases hc'
          rintro rfl
          obtain ⟨k, hk1, hk2⟩ := ho.closes xs c [] rfl
          rw [hk] at hk1; injection hk1 with hk1; subst hk1
          have := OpenAt.unique ho.init h2 hk2
          subst this
          exact hne h1.symm

theorem reach_of_heard {xs : List NetIn} {s : PM} (h : PM.Heard cfg xs s) : PM.Reach cfg (fun _ _ _ => True) s := by
  induction h with
  | start now saved => exact .start now saved
  | @step xs s now x h ih =>
    unfold PM.hear
    split
    · exact .step now _ ih trivial
    · exact ih

/-- **C83**: whatever happened before, a message to users is sent only on sessions that the transport has open, each with the key of one
of the addressees. -/
theorem C83_sent_on_open_sessions (g : GoodCfg cfg) {xs : List NetIn} {s : PM} (h : PM.Heard cfg xs s) (ho : Orderly xs) (us : List UserId) (msg : Nat)
    (now : Clock) : ∀ cmd ∈ (s.hear cfg now (.users us msg)).2, ∀ sid ∈ cmd.sids, ∃ key, cfg.userOf key ∈ us ∧ OpenAt xs sid key := by
  obtain ⟨f, dial, missed, hf, hr, -⟩ := C55_each_addressee_sent_or_missed g (reach_of_heard h) us msg
  intro cmd hc sid hsid
  have hcmds : (s.hear cfg now (.users us msg)).2 = [.send (us.filterMap f) msg, .connect dial] := by
    show (s.route us msg).1 = _
    rw [hr]
  rw [hcmds] at hc
  simp only [List.mem_cons, List.not_mem_nil, or_false] at hc
  rcases hc with rfl | rfl
  · simp only [ConnCmd.sids, List.mem_filterMap] at hsid
    obtain ⟨u, hu, hfu⟩ := hsid
    obtain ⟨key, hk, hs⟩ := (hf u sid).1 hfu
    obtain ⟨key', h1, h2⟩ := Heard.open h ho _ _ hs
    exact ⟨key', by rw [(g.same key' key).1 h1, hk]; exact hu, h2⟩
  · simp [ConnCmd.sids] at hsid

/-- Commands name only sessions of the table. -/
theorem hear_table (s : PM) (x : NetIn) (now : Clock) : ∀ cmd ∈ (s.hear cfg now x).2, ∀ sid ∈ cmd.sids, ∃ pid, s.peerSession pid = some sid := by
  intro cmd hc sid hsid
  unfold PM.hear at hc
  cases hr : x.report cfg with
  | none => rw [hr] at hc; cases hc
  | some e =>
    rw [hr] at hc
    simp only at hc
    cases e with
    | retryLater pid =>
      simp only [PM.step] at hc
      split at hc
      · rename_i sid' hsid'
        rw [List.mem_singleton.1 hc] at hsid
        rw [List.mem_singleton.1 hsid]
        exact ⟨pid, (sessionsKept (cfg := cfg) s).increasePeerRetry now pid (fun _ _ x => x) trivial pid sid' hsid'⟩
      · cases hc
    | route us msg =>
      have hall : ∀ us : List UserId, ∀ sid ∈ (s.routeUsers us).1, ∃ pid, s.peerSession pid = some sid := by
        intro us
        induction us with
        | nil => intro sid h; cases h
        | cons u us ih =>
          intro sid h
          simp only [routeUsers] at h
          split at h
          · split at h
            · rename_i p _ _ sid' hp
              rcases List.mem_cons.1 h with rfl | h
              · exact ⟨p.id, hp⟩
              · exact ih sid h
            · exact ih sid h
          · exact ih sid h
      have hc' : cmd ∈ (s.route us msg).1 := hc
      unfold PM.route at hc'
      simp only [List.mem_cons, List.not_mem_nil, or_false] at hc'
      rcases hc' with rfl | rfl
      · exact hall us sid hsid
      · simp [ConnCmd.sids] at hsid
    | routine pids addrs =>
      simp only [PM.step, PM.routine] at hc
      split at hc
      · cases hc
      · split at hc
        · simp only at hc
          split at hc
          · cases hc
          · rw [List.mem_singleton.1 hc] at hsid; simp [ConnCmd.sids] at hsid
        · cases hc
    | removeBySession i => simp only [PM.step] at hc; split at hc <;> cases hc
    | _ => simp [PM.step] at hc

/-- **C83**: also every other command of the manager names only sessions that the transport has open. -/
theorem C83_commands_name_open_sessions {xs : List NetIn} {s : PM} (h : PM.Heard cfg xs s) (ho : Orderly xs) (x : NetIn)
    (now : Clock) : ∀ cmd ∈ (s.hear cfg now x).2, ∀ sid ∈ cmd.sids, ∃ key, OpenAt xs sid key := by
  intro cmd hc sid hsid
  obtain ⟨pid, hp⟩ := hear_table s x now cmd hc sid hsid
  obtain ⟨key, -, h2⟩ := Heard.open h ho _ _ hp
  exact ⟨key, h2⟩

/-- **C83**: a session that the transport reported closed is not used again, unless a session with that number is opened. -/
theorem C83_closed_not_used {xs ys : List NetIn} {s : PM} (c : SessionCtx) (h : PM.Heard cfg (xs ++ .event (.closed c) :: ys) s)
    (ho : Orderly (xs ++ .event (.closed c) :: ys)) (hys : ∀ c', NetIn.event (.opened c') ∈ ys → c'.sid ≠ c.sid) (x : NetIn) (now : Clock) :
    ∀ cmd ∈ (s.hear cfg now x).2, c.sid ∉ cmd.sids := by
  intro cmd hc hsid
  obtain ⟨key, hk⟩ := C83_commands_name_open_sessions h ho x now cmd hc c.sid hsid
  exact OpenAt.not_closed hys hk

/-! ### C84 -/

/-- The transport complains that a peer broke a protocol, or does not keep up, on session `c`: connection/keeper.rs:133-158, 187-199. -/
inductive Offence (c : SessionCtx) : NetIn → Prop
  | unknownProtocol : Offence c (.error (.protoSelect c true))
  | brokenProtocol : Offence c (.error (.protocol c.sid))
  | blocked : Offence c (.error (.blocked c))

/-- What an offence does: nothing is commanded; the peer loses its session in the tables and, unless it is a bootstrap peer, is forgotten. -/
theorem offence_effect {c : SessionCtx} {key : PubKey} (hk : c.key = some key) {x : NetIn} (hx : Offence c x) (now : Clock) (s : PM)
    (hs : s.sessionPeer c.sid = some (cfg.pidOf key)) : s.hear cfg now x = (s.cleanlyRemove cfg now (cfg.pidOf key), []) := by
  cases hx <;> simp [PM.hear, NetIn.report, SvcError.report, hk, PM.step, hs]

theorem cleanlyRemove_forgets (now : Clock) (s : PM) (pid : Pid) (hb : isBootstrap cfg pid = false) : (s.cleanlyRemove cfg now pid).pool pid = none := by
  unfold PM.cleanlyRemove
  simp only [hb, Bool.false_eq_true, if_false]
  unfold removePeer
  simp only
  split
  · assumption
  · simp [upd]

/-- **C84, the true part**: a peer that commits an offence is not sent anything any more: it has no session in the tables, and it is
forgotten unless it is a bootstrap peer. -/
theorem C84_forgotten_partial {c : SessionCtx} {key : PubKey} (hk : c.key = some key) {x : NetIn} (hx : Offence c x) (now : Clock) (s : PM)
    (hs : s.sessionPeer c.sid = some (cfg.pidOf key)) :
    (s.hear cfg now x).1.peerSession (cfg.pidOf key) = none ∧ (isBootstrap cfg (cfg.pidOf key) = false → (s.hear cfg now x).1.pool (cfg.pidOf key) = none) := by
  rw [offence_effect hk hx now s hs]
  exact ⟨cleanlyRemove_closes now s _, cleanlyRemove_forgets now s _⟩

/-- **C84 is false**: the node never tells the transport to close the session of a peer that committed an offence, neither at once nor
later, whatever happens, as long as the peer keeps this session open and does not open another.  (The node goes on handling what arrives
on it: routing a received message does not look at the tables of the peer manager.) -/
theorem C84_refuted {c : SessionCtx} {key : PubKey} (hk : c.key = some key) {x : NetIn} (hx : Offence c x) {xs : List NetIn} {s : PM}
    (h : PM.Heard cfg xs s) (hopen : OpenAt xs c.sid key) (hs : s.sessionPeer c.sid = some (cfg.pidOf key)) :
    (∀ now, (s.hear cfg now x).2 = []) ∧
    ∀ (now : Clock) (more : List (Clock × NetIn)), Orderly (xs ++ x :: more.map Prod.snd) →
      (∀ y ∈ more, ∀ c', y.2 = .event (.opened c') → ∀ k, c'.key = some k → cfg.pidOf k ≠ cfg.pidOf key) →
      (∀ y ∈ more, ∀ c', y.2 = .event (.closed c') → c'.sid ≠ c.sid) →
      let t := more.foldl (fun (t : PM) y => (t.hear cfg y.1 y.2).1) (s.hear cfg now x).1
      OpenAt (xs ++ x :: more.map Prod.snd) c.sid key ∧ ∀ now' y, ∀ cmd ∈ (t.hear cfg now' y).2, c.sid ∉ cmd.sids := by
  refine ⟨fun now => by rw [offence_effect hk hx now s hs], ?_⟩
  intro now more
  -- the state after `more`, its history, and the missing session
  have main : ∀ (more : List (Clock × NetIn)) (zs : List NetIn) (t : PM), PM.Heard cfg zs t → t.peerSession (cfg.pidOf key) = none → OpenAt zs c.sid key →
      (∀ y ∈ more, ∀ c', y.2 = .event (.opened c') → ∀ k, c'.key = some k → cfg.pidOf k ≠ cfg.pidOf key) →
      (∀ y ∈ more, ∀ c', y.2 = .event (.closed c') → c'.sid ≠ c.sid) →
      PM.Heard cfg (zs ++ more.map Prod.snd) (more.foldl (fun (t : PM) y => (t.hear cfg y.1 y.2).1) t) ∧
      (more.foldl (fun (t : PM) y => (t.hear cfg y.1 y.2).1) t).peerSession (cfg.pidOf key) = none ∧ OpenAt (zs ++ more.map Prod.snd) c.sid key := by
    intro more
    induction more with
    | nil => intro zs t h1 h2 h3 _ _; simpa using ⟨h1, h2, h3⟩
    | cons y more ih =>
      intro zs t h1 h2 h3 h4 h5
      have hnone : (t.hear cfg y.1 y.2).1.peerSession (cfg.pidOf key) = none := by
        unfold PM.hear
        cases hr : y.2.report cfg with
        | none => exact h2
        | some e =>
          simp only
          by_cases ha : ∃ k sid a ob, e = .attach k sid a ob
          · obtain ⟨k, sid, a, ob, rfl⟩ := ha
            have : cfg.pidOf k ≠ cfg.pidOf key := by
              cases hy : y.2 with
              | event ev =>
                rw [hy] at hr
                cases ev with
                | opened c' =>
                  simp only [NetIn.report, SvcEvent.report, Option.map_eq_some_iff] at hr
                  obtain ⟨k', hk', he⟩ := hr
                  cases he
                  exact h4 y (by simp) c' hy _ hk'
                | closed c' => simp [NetIn.report, SvcEvent.report] at hr
                | _ => simp [NetIn.report, SvcEvent.report] at hr
              | error er =>
                rw [hy] at hr
                cases er with
                | dialer d a => cases d <;> simp [NetIn.report, SvcError.report, DialError.event] at hr
                | listen d a => cases d <;> simp [NetIn.report, SvcError.report, DialError.event] at hr
                | protoSelect c named =>
                  simp only [NetIn.report, SvcError.report, Option.map_eq_some_iff] at hr
                  obtain ⟨k, -, hk⟩ := hr
                  split at hk <;> cases hk
                | _ => simp [NetIn.report, SvcError.report] at hr
              | ping p => rw [hy] at hr; cases p <;> simp [NetIn.report, PingEvent.report] at hr
              | _ => rw [hy] at hr; simp [NetIn.report] at hr
            show (t.attach cfg y.1 k sid a ob).peerSession (cfg.pidOf key) = none
            rw [(attach_tables cfg y.1 t k sid a ob).2.2.1, upd_ne _ _ (fun e => this e.symm)]
            exact h2
          · refine (closedKept (cfg := cfg) (cfg.pidOf key)).step y.1 e h2 ?_
            cases e with
            | attach k sid a ob => exact absurd ⟨k, sid, a, ob, rfl⟩ ha
            | _ => trivial
      have := ih (zs ++ [y.2]) _ (.step y.1 y.2 h1) hnone (h3.snoc _ (fun c' hc' => h5 y (by simp) c' hc'))
        (fun z hz => h4 z (by simp [hz])) (fun z hz => h5 z (by simp [hz]))
      simpa using this
  intro ho h4 h5
  have hx0 : OpenAt (xs ++ [x]) c.sid key := hopen.snoc x (by rintro c' rfl; cases hx)
  obtain ⟨m1, m2, m3⟩ := main more (xs ++ [x]) _ (.step now x h) (C84_forgotten_partial hk hx now s hs).1 hx0 h4 h5
  simp only [List.append_assoc, List.singleton_append] at m1 m3
  refine ⟨m3, fun now' y cmd hc hsid => ?_⟩
  obtain ⟨pid, hp⟩ := hear_table _ y now' cmd hc c.sid hsid
  obtain ⟨key', h1, h2⟩ := Heard.open m1 ho _ _ hp
  have := OpenAt.unique ho h2 m3
  subst this
  rw [h1] at m2
  rw [m2] at hp
  cases hp

/-! ### Concrete cases -/

/-- The demo manager after some things, one per ten seconds. -/
def demoHear (xs : List NetIn) : PM := (xs.foldl (fun (x : PM × Nat) y => ((x.1.hear demoCfg ⟨x.2, x.2⟩ y).1, x.2 + 10)) ((PM.start demoCfg ⟨0, 0⟩ []).1, 10)).1

theorem demoHear_heard (xs : List NetIn) : PM.Heard demoCfg xs (demoHear xs) := by
  have main : ∀ (xs pre : List NetIn) (x : PM × Nat), PM.Heard demoCfg pre x.1 →
      PM.Heard demoCfg (pre ++ xs) (xs.foldl (fun (x : PM × Nat) y => ((x.1.hear demoCfg ⟨x.2, x.2⟩ y).1, x.2 + 10)) x).1 := by
    intro xs
    induction xs with
    | nil => intro pre x h; simpa using h
    | cons e es ih =>
      intro pre x h
      have := ih (pre ++ [e]) ((x.1.hear demoCfg ⟨x.2, x.2⟩ e).1, x.2 + 10) (.step _ e h)
      simpa using this
  simpa [demoHear] using main xs [] ((PM.start demoCfg ⟨0, 0⟩ []).1, 10) (.start _ _)

/-- Peer 2 connects on session 7, peer 1 on session 8 and leaves. -/
def demoSessions : List NetIn := [.event (.opened ⟨some 2, 7, [], false⟩), .event (.opened ⟨some 1, 8, [.other 1, .other 2], true⟩), .event (.closed ⟨some 1, 8, [.other 1, .other 2], true⟩)]

theorem demoSessions_open : OpenAt demoSessions 7 2 :=
  ⟨[], _, _, rfl, rfl, rfl, by intro c' h; simp at h; subst h; decide⟩

theorem demoSessions_orderly : Orderly demoSessions := by
  constructor
  · intro pre c post e
    unfold demoSessions at e
    match pre, e with
    | [], e => cases e
    | [_], e => cases e
    | [a, b], e =>
      injection e with e1 e; injection e with e2 e; injection e with e3 e
      cases e1; cases e2; cases e3
      exact ⟨1, rfl, [NetIn.event (.opened ⟨some 2, 7, [], false⟩)], _, [], rfl, rfl, rfl, fun _ h => by cases h⟩
    | a :: b :: d :: pre, e =>
      injection e with e1 e; injection e with e2 e; injection e with e3 e
      cases pre <;> cases e
  · intro pre c post e key hop
    unfold demoSessions at e
    match pre, e with
    | [], e => obtain ⟨p, _, q, h, -⟩ := hop; cases p <;> cases h
    | [a], e =>
      injection e with e1 e; injection e with e2 e
      cases e1; cases e2
      obtain ⟨p, c', q, h, h1, -⟩ := hop
      cases p with
      | nil => injection h with h; cases h; exact absurd h1 (by decide)
      | cons x p => injection h with h h'; cases p <;> cases h'
    | [a, b], e => injection e with e1 e; injection e with e2 e; injection e with e3 e; cases e3
    | a :: b :: d :: pre, e =>
      injection e with e1 e; injection e with e2 e; injection e with e3 e
      cases pre <;> cases e

/-- C83 on a real case: the message reaches the user on session 7, the peer that left is not sent anything. -/
example : ((demoHear demoSessions).hear demoCfg ⟨50, 50⟩ (.users [102, 101] 42)).2 = [.send [7] 42, .connect [[.other 1, .other 2]]] ∧
    ((demoHear demoSessions).hear demoCfg ⟨50, 50⟩ (.ping (.timeout 12))).2 = [.disconnect 7] := by
  decide +kernel

/-- C84 on a real case: the hypotheses of `C84_refuted` are met by this history and the peer on session 7. -/
example : OpenAt demoSessions 7 2 ∧ Orderly demoSessions ∧ (demoHear demoSessions).sessionPeer 7 = some (demoCfg.pidOf 2) ∧
    isBootstrap demoCfg (demoCfg.pidOf 2) = false ∧
    ((demoHear demoSessions).hear demoCfg ⟨50, 50⟩ (.error (.protocol 7))).2 = [] ∧
    ((demoHear (demoSessions ++ [.error (.protocol 7)])).hear demoCfg ⟨90, 90⟩ (.error (.sessionTimeout ⟨some 2, 7, [], false⟩))).2 = [] :=
  ⟨demoSessions_open, demoSessions_orderly, by decide +kernel, by decide +kernel, by decide +kernel, by decide +kernel⟩

end PM
end Huobi
