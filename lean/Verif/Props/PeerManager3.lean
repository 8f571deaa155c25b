import Verif.Props.PeerManager2
/-
C59 and C68, the parts that hold: how long a discovered address is kept, that it is dialled at most once per discovery, and what the
sixth failure of a peer does.
-/
namespace Huobi
namespace PM

variable {cfg : PMCfg}

/-- The outcome of a dial of the discovered address `a` becomes known: it failed, or a session with it was opened. -/
def Settles (cfg : PMCfg) (s : PM) (a : Maddr) : PMEvent → Prop
  | .reconnectLater b => b = a
  | .unconnectable b => b = a
  | .attach key _ b outbound => b = a ∧ outbound = true ∧ s.pool (cfg.pidOf key) = none
  | .repeated dialer _ b => b = a ∧ dialer = true
  | _ => False

/-- The event tells the manager of the address `a`. -/
def Tells (a : Maddr) : PMEvent → Prop
  | .discover addrs => a ∈ addrs
  | _ => False

theorem connectPeers_unknown (l : List Pid) (s : PM) : (l.foldl PM.connectPeer s).unknown = s.unknown := by
  induction l generalizing s with
  | nil => rfl
  | cons x l ih => rw [List.foldl_cons, ih]; unfold connectPeer; split <;> rfl

theorem identify_unknown (s : PM) (a b : Maddr) : (b ≠ a → (s.identifyAddr b).unknown a = s.unknown a) ∧
    (∀ u, s.unknown a = some u → (s.identifyAddr b).unknown a = some u) ∧
    (s.unknown a = none → (s.identifyAddr b).unknown a = none ∨ (s.identifyAddr b).unknown a = some ⟨false, 0⟩) := by
  unfold identifyAddr
  split
  · split
    · rw [addPeerAddr_unknown]; exact ⟨fun _ => rfl, fun _ h => h, .inl⟩
    · exact ⟨fun _ => rfl, fun _ h => h, .inl⟩
  · split
    · exact ⟨fun _ => rfl, fun _ h => h, .inl⟩
    · rename_i hb
      refine ⟨fun h => upd_ne _ _ (Ne.symm h), fun u h => ?_, fun h => ?_⟩
      · by_cases e : a = b
        · subst e; rw [hb] at h; cases h
        · exact (upd_ne _ _ e).trans h
      · by_cases e : a = b
        · subst e; exact .inr (upd_same ..)
        · exact .inl ((upd_ne _ _ e).trans h)

theorem discover_unknown (addrs : List Maddr) (s : PM) (a : Maddr) :
    (a ∉ addrs → (addrs.foldl identifyAddr s).unknown a = s.unknown a) ∧
    (∀ u, s.unknown a = some u → (addrs.foldl identifyAddr s).unknown a = some u) := by
  induction addrs generalizing s with
  | nil => exact ⟨fun _ => rfl, fun _ h => h⟩
  | cons b bs ih =>
    obtain ⟨h1, h2, -⟩ := identify_unknown s a b
    obtain ⟨i1, i2⟩ := ih (s.identifyAddr b)
    refine ⟨fun hn => ?_, fun u hu => i2 u (h2 u hu)⟩
    simp only [List.mem_cons, not_or] at hn
    rw [List.foldl_cons, i1 hn.2, h1 (Ne.symm hn.1)]

/-- Every event that neither settles nor tells the address leaves what is known of it, but for the mark that it is being dialled. -/
theorem step_unknown (now : Clock) (s : PM) (e : PMEvent) (a : Maddr) (hs : ¬ Settles cfg s a e) (ht : ¬ Tells a e) :
    (s.step cfg now e).1.unknown a = s.unknown a ∨
    ∃ pids addrs, e = .routine pids addrs ∧ a ∈ addrs ∧ (s.step cfg now e).1.unknown a = (s.unknown a).map (fun u => { u with connecting := true }) := by
  cases e with
  | attach key sid b ob =>
    left
    have : (s.attachPool cfg now key (if ob then some b else none)).unknown a = s.unknown a := by
      unfold attachPool; split
      · rename_i hp
        unfold addNewPeer; split
        · rename_i x hx
          cases ob with
          | false => cases hx
          | true =>
            cases hx
            exact upd_ne _ _ (fun h => hs ⟨h.symm, rfl, hp⟩)
        · rfl
      · rw [addPeerAddr_unknown]
      · rfl
    exact this
  | detach pid =>
    left
    simp only [PM.step, PM.detach]
    split
    · split
      · rw [increase_unknown, close_unknown]
      · rw [close_unknown]
    · rw [close_unknown]
  | alive pid => exact .inl rfl
  | remove pid => exact .inl (by simp only [PM.step]; rw [cleanlyRemove_unknown])
  | removeBySession sid =>
    left
    simp only [PM.step]
    split
    · rw [cleanlyRemove_unknown]
    · rename_i e; rw [detachSession, e]
  | retryLater pid =>
    left
    simp only [PM.step]
    split <;> rw [increase_unknown]
  | discover addrs => exact .inl ((discover_unknown addrs s a).1 ht)
  | identified pid addrs =>
    left
    simp only [PM.step]
    clear hs ht
    induction addrs generalizing s with
    | nil => rfl
    | cons b bs ih => rw [List.foldl_cons, ih, addPeerAddr_unknown]
  | repeated dialer sid b =>
    left
    simp only [PM.step]
    split
    · rename_i hd
      have hb : a ≠ b := fun h => hs ⟨h.symm, hd⟩
      unfold addSessionAddr; simp only; split
      · rw [addPeerAddr_unknown]; exact upd_ne _ _ hb
      · exact upd_ne _ _ hb
    · rfl
  | unconnectable b =>
    left
    have hb : a ≠ b := fun h => hs h.symm
    simp only [PM.step, PM.unconnectable]
    split
    · exact upd_ne _ _ hb
    · unfold tryRemoveAddr; split <;> exact upd_ne _ _ hb
  | reconnectLater b =>
    left
    have hb : a ≠ b := fun h => hs h.symm
    simp only [PM.step]
    rw [reconnectLater_unknown]
    unfold PM.reconnectUnknown; split
    · exact upd_ne _ _ hb
    · rfl
  | addListen b => exact .inl (by simp only [PM.step]; rw [addPeerAddr_unknown])
  | removeListen b => exact .inl rfl
  | route us msg => exact .inl rfl
  | routine pids addrs =>
    simp only [PM.step, PM.routine]
    split
    · exact .inl rfl
    · split
      · simp only [connectPeers_unknown]
        by_cases hm : a ∈ addrs
        · exact .inr ⟨pids, addrs, rfl, hm, by simp [hm]⟩
        · exact .inl (by simp [hm])
      · exact .inl rfl

/-- **C59, kept.**  A discovered address stays known, with its count of failures, through all events but the outcome of its own dial. -/
theorem C59_kept_partial (now : Clock) {s : PM} {a : Maddr} {u : Unknown} (h : s.unknown a = some u) {e : PMEvent} (hs : ¬ Settles cfg s a e) :
    ∃ u', (s.step cfg now e).1.unknown a = some u' ∧ u'.retry = u.retry := by
  by_cases ht : Tells a e
  · cases e with
    | discover addrs => exact ⟨u, (discover_unknown addrs s a).2 u h, rfl⟩
    | _ => exact ht.elim
  · rcases step_unknown (cfg := cfg) now s e a hs ht with h1 | ⟨_, _, -, -, h1⟩
    · exact ⟨u, h1.trans h, rfl⟩
    · exact ⟨{ u with connecting := true }, by rw [h1, h]; rfl, rfl⟩

/-- **C59, bounded.**  After its dial failed, permanently or for the time being, a discovered address is not dialled as such by any round
until the manager is told of it again, in every history. -/
theorem C59_once_partial {ok : PM → Clock → PMEvent → Prop} {s : PM} (hr : PM.Reach cfg ok s) (now : Clock) (a : Maddr) {e : PMEvent}
    (he : e = .reconnectLater a ∨ e = .unconnectable a) (es : List (Clock × PMEvent)) (hes : ∀ x ∈ es, ¬ Tells a x.2) :
    ∀ t n pids addrs, ValidChoice cfg t (runAll cfg (s.step cfg now e).1 es) n pids addrs → a ∉ addrs := by
  have h0 : (s.step cfg now e).1.unknown a = none := by
    rcases he with rfl | rfl
    · exact C59_refuted hr now a
    · simp only [PM.step, PM.unconnectable]
      split
      · exact upd_same ..
      · unfold tryRemoveAddr; split <;> exact upd_same ..
  have key : ∀ (es : List (Clock × PMEvent)) (s : PM), s.unknown a = none → (∀ x ∈ es, ¬ Tells a x.2) → (runAll cfg s es).unknown a = none := by
    intro es
    induction es with
    | nil => exact fun _ h _ => h
    | cons x es ih =>
      intro s h hes
      refine ih _ ?_ (fun y hy => hes y (.tail _ hy))
      by_cases hs : Settles cfg s a x.2
      · obtain ⟨c, ev⟩ := x
        cases ev with
        | attach key sid b ob =>
          obtain ⟨rfl, rfl, hp⟩ := hs
          show (s.attachPool cfg c key (some b)).unknown b = none
          unfold attachPool
          rw [hp]
          exact upd_same ..
        | repeated d sid b =>
          obtain ⟨rfl, rfl⟩ := hs
          show (s.addSessionAddr sid b).unknown b = none
          unfold addSessionAddr; simp only; split
          · rw [addPeerAddr_unknown]; exact upd_same ..
          · exact upd_same ..
        | unconnectable b =>
          cases hs
          simp only [PM.step, PM.unconnectable]
          split
          · exact upd_same ..
          · unfold tryRemoveAddr; split <;> exact upd_same ..
        | reconnectLater b =>
          cases hs
          show (s.reconnectLater cfg c a).unknown a = none
          rw [reconnectLater_unknown]
          unfold PM.reconnectUnknown
          rw [h]
          exact h
        | _ => exact hs.elim
      · rcases step_unknown (cfg := cfg) x.1 s x.2 a hs (hes x (.head _)) with h1 | ⟨_, _, -, -, h1⟩
        · exact h1.trans h
        · rw [h1, h]; rfl
  intro t n pids addrs hv hm
  obtain ⟨u, hu, -⟩ := hv.addrsOk a hm
  rw [key es _ h0 hes] at hu
  cases hu

/-- **C59, told again.**  An address that belongs to no known peer and is told to the manager (again) is known afterwards, and a round with
room for it dials it. -/
theorem C59_told_again_partial (now : Clock) {s : PM} {a : Maddr} (hm : s.matchPid a = none) :
    ∃ u, (s.step cfg now (.discover [a])).1.unknown a = some u ∧
    (u.connecting = false → ∀ t n pids addrs, ValidChoice cfg t (s.step cfg now (.discover [a])).1 n pids addrs →
      addrs.length < cfg.maxConnections - n - pids.length → a ∈ addrs) := by
  have : ∃ u, (s.step cfg now (.discover [a])).1.unknown a = some u := by
    show ∃ u, (s.identifyAddr a).unknown a = some u
    unfold identifyAddr
    rw [hm]
    cases h : s.unknown a with
    | none => exact ⟨_, upd_same ..⟩
    | some u => exact ⟨u, h⟩
  obtain ⟨u, hu⟩ := this
  exact ⟨u, hu, fun hc t n pids addrs hv hl => hv.addrsAll hl a u hu hc⟩

/-- **C68, the sixth failure.**  The temporary failure that brings a peer that is not connected to six counted ones frees its slot.  A peer
from the configuration then keeps its addresses and is a candidate again after its waiting time; any other peer is forgotten. -/
theorem C68_sixth_failure_partial {s : PM} {pid : Pid} {p : Peer} {a : Maddr} (now : Clock) (hp : s.pool pid = some p) (hm : s.matchPid a = some pid)
    (hc : pid ∉ s.connected) (hr : 5 ≤ p.retry) (ht : p.attemptAt + 4 ≤ now.secs ∨ now.secs + 4 ≤ p.attemptAt) :
    pid ∉ (s.step cfg now (.reconnectLater a)).1.connecting ∧ pid ∉ (s.step cfg now (.reconnectLater a)).1.connected ∧
    (isBootstrap cfg pid = true → ∃ q, (s.step cfg now (.reconnectLater a)).1.pool pid = some q ∧ q.addrs = p.addrs ∧ q.retry = 0 ∧
      ∀ t : Clock, now.tick + 5 ^ (p.retry + 1) < t.tick → (s.step cfg now (.reconnectLater a)).1.qualified t pid = true) ∧
    (isBootstrap cfg pid = false → (s.step cfg now (.reconnectLater a)).1.pool pid = none) := by
  have hq : (s.reconnectUnknown a).pool = s.pool ∧ (s.reconnectUnknown a).connected = s.connected ∧
      (s.reconnectUnknown a).addrPid = s.addrPid := by
    unfold PM.reconnectUnknown; split <;> exact ⟨rfl, rfl, rfl⟩
  have hm' : (s.reconnectUnknown a).matchPid a = some pid := by
    have : (s.reconnectUnknown a).matchPid a = s.matchPid a := by unfold matchPid; rw [hq.2.2]
    rw [this]; exact hm
  obtain ⟨q1, q2, -⟩ := hq
  show pid ∉ (s.reconnectLater cfg now a).connecting ∧ pid ∉ (s.reconnectLater cfg now a).connected ∧ _
  have e1 : (s.step cfg now (.reconnectLater a)).1 = (s.reconnectUnknown a).increasePeerRetry cfg now pid := by
    simp only [PM.step, PM.reconnectLater, hm']
    rw [if_neg (by rw [q2]; exact hc)]
  have e2 : s.reconnectLater cfg now a = (s.reconnectUnknown a).increasePeerRetry cfg now pid := e1
  rw [e1, e2]
  generalize s.reconnectUnknown a = t at q1 q2
  rw [← q1] at hp
  rw [← q2] at hc
  clear e1 e2 hm hm' q1 q2
  have hinc : p.increaseRetry now = { p with retry := p.retry + 1, attemptAt := now.secs, nextRetry := now.tick + 5 ^ (p.retry + 1) } := by
    unfold Peer.increaseRetry
    rw [if_neg (by simp only [validAttemptInterval, secsBetween]; omega)]
    rfl
  have hself : secsBetween now.secs now.secs = 0 := by simp [secsBetween]
  have hpool : (t.modify pid (fun p => p.increaseRetry now)).pool pid = some (p.increaseRetry now) := by simp [PM.modify, hp]
  have hmax : (t.modify pid (fun p => p.increaseRetry now)).reachMaxRetry pid = true := by
    have h6 : 6 ≤ p.retry + 1 := by omega
    unfold reachMaxRetry
    rw [hpool, hinc]
    exact decide_eq_true h6
  have heq : t.increasePeerRetry cfg now pid = (t.modify pid (fun p => p.increaseRetry now)).cleanlyRemove cfg now pid := by
    unfold PM.increasePeerRetry; rw [if_pos hmax]
  rw [heq]
  have hcon : (t.modify pid (fun p => p.increaseRetry now)).connected = t.connected := rfl
  generalize t.modify pid (fun p => p.increaseRetry now) = v at hpool hcon
  rw [← hcon] at hc
  clear heq hmax hcon hp hr ht
  -- closing the session
  have hcl : pid ∉ (v.closeSession now pid).connecting ∧ pid ∉ (v.closeSession now pid).connected ∧
      ∃ al, (v.closeSession now pid).pool pid = some { p.increaseRetry now with alive := al } := by
    have : (v.disconnectPeer now pid).connecting = setRemove v.connecting pid ∧ (v.disconnectPeer now pid).connected = setRemove v.connected pid ∧
        ∃ al, (v.disconnectPeer now pid).pool pid = some { p.increaseRetry now with alive := al } :=
      ⟨rfl, rfl, _, by simp only [PM.disconnectPeer, PM.modify, upd_same, hpool, Option.map_some]; rfl⟩
    obtain ⟨h1, h2, al, h3⟩ := this
    unfold PM.closeSession
    simp only
    split
    · exact ⟨by simp only [h1]; exact fun h => (mem_setRemove.1 h).2 rfl, by simp only [h2]; exact fun h => (mem_setRemove.1 h).2 rfl, al, h3⟩
    · exact ⟨by simp only [h1]; exact fun h => (mem_setRemove.1 h).2 rfl, by simp only [h2]; exact fun h => (mem_setRemove.1 h).2 rfl, al, h3⟩
  obtain ⟨c1, c2, al, c3⟩ := hcl
  unfold PM.cleanlyRemove
  simp only
  cases hb : isBootstrap cfg pid with
  | true =>
    simp only [if_true]
    have htwice : ((({ p.increaseRetry now with alive := al } : Peer).resetRetry.increaseRetry now).increaseRetry now) =
        ({ p.increaseRetry now with alive := al } : Peer).resetRetry := by
      have : ∀ r : Peer, r.attemptAt = now.secs → r.increaseRetry now = r := by
        intro r hr
        unfold Peer.increaseRetry
        rw [hr, hself, if_pos (by simp [validAttemptInterval])]
      have a1 := this (({ p.increaseRetry now with alive := al } : Peer).resetRetry) (by simp [Peer.resetRetry, hinc])
      rw [a1, a1]
    have hpl : ((v.closeSession now pid).modify pid (fun p => (p.resetRetry.increaseRetry now).increaseRetry now)).pool pid =
        some ({ p.increaseRetry now with alive := al } : Peer).resetRetry := by
      simp only [PM.modify, upd_same, c3, Option.map_some, htwice]
    refine ⟨c1, c2, fun _ => ⟨_, hpl, by simp [Peer.resetRetry, hinc], rfl, fun t' hlt => ?_⟩, fun h => by cases h⟩
    have d1 : ((v.closeSession now pid).modify pid (fun p => (p.resetRetry.increaseRetry now).increaseRetry now)).connecting =
      (v.closeSession now pid).connecting := rfl
    have d2 : ((v.closeSession now pid).modify pid (fun p => (p.resetRetry.increaseRetry now).increaseRetry now)).connected =
      (v.closeSession now pid).connected := rfl
    unfold qualified
    rw [hpl]
    simp only [d1, d2, c1, c2, decide_false, Bool.not_false, Bool.true_and]
    simp only [Peer.retryReady, Peer.resetRetry, hinc, decide_eq_true_eq]
    exact hlt
  | false =>
    simp only [Bool.false_eq_true, if_false]
    unfold PM.removePeer
    simp only [c3]
    exact ⟨fun h => (mem_setRemove.1 h).2 rfl, fun h => (mem_setRemove.1 h).2 rfl, fun h => by simp at h, fun _ => upd_same ..⟩

/-- C59 on a real case: the address was discovered and is being dialled; the events in between (a peer attaches, another round) leave it
known, its failure makes it unknown, and being told of it again brings it back. -/
example :
    let s := demoRun [.discover [[.other 3, .other 4]], .routine [] [[.other 3, .other 4]]]
    s.unknown [.other 3, .other 4] = some ⟨true, 0⟩ ∧ PM.Reach demoCfg (fun _ _ _ => True) s ∧
    ¬ Settles demoCfg s [.other 3, .other 4] (.attach 2 7 [] true) ∧
    (s.step demoCfg ⟨50, 50⟩ (.attach 2 7 [] true)).1.unknown [.other 3, .other 4] = some ⟨true, 0⟩ ∧
    (s.step demoCfg ⟨50, 50⟩ (.reconnectLater [.other 3, .other 4])).1.unknown [.other 3, .other 4] = none ∧
    (s.step demoCfg ⟨50, 50⟩ (.reconnectLater [.other 3, .other 4])).1.matchPid [.other 3, .other 4] = none ∧
    ((s.step demoCfg ⟨50, 50⟩ (.reconnectLater [.other 3, .other 4])).1.step demoCfg ⟨60, 60⟩ (.discover [[.other 3, .other 4]])).1.unknown
      [.other 3, .other 4] = some ⟨false, 0⟩ := by
  refine ⟨by decide +kernel, (demoRun_hist _).reach, ?_, by decide +kernel, by decide +kernel, by decide +kernel, by decide +kernel⟩
  rintro ⟨h, -⟩
  cases h

/-- C68 on a real case: the peer from the configuration is down when the node starts; after five counted failures it still holds its slot, the
sixth frees it, and it can be dialled again once its waiting time is over. -/
example :
    let later (t : Nat) : Clock × PMEvent := (⟨t, t⟩, .reconnectLater [.other 1, .other 2])
    let s := runAll demoCfg (PM.start demoCfg ⟨0, 0⟩ []).1 [later 5, later 10, later 15, later 20, later 25]
    11 ∈ s.connecting ∧ 11 ∉ s.connected ∧ s.matchPid [.other 1, .other 2] = some 11 ∧ (s.pool 11).map Peer.retry = some 5 ∧
    (s.pool 11).map Peer.attemptAt = some 25 ∧ isBootstrap demoCfg 11 = true ∧
    11 ∉ (s.step demoCfg ⟨30, 30⟩ (.reconnectLater [.other 1, .other 2])).1.connecting ∧
    (s.step demoCfg ⟨30, 30⟩ (.reconnectLater [.other 1, .other 2])).1.qualified ⟨15656, 15656⟩ 11 = true := by
  decide +kernel

end PM
end Huobi
