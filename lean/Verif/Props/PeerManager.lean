import Verif.Model.PeerManager
/-
The peer manager: C55, C56, C57, C58, C59, C68.
-/
namespace Huobi
namespace PM

@[simp] theorem upd_same {K V : Type} [DecidableEq K] (f : K → V) (k : K) (v : V) : upd f k v k = v := by simp [upd]
theorem upd_ne {K V : Type} [DecidableEq K] (f : K → V) {k i : K} (v : V) (h : i ≠ k) : upd f k v i = f i := by simp [upd, h]

theorem mem_setInsert {K : Type} [DecidableEq K] {l : List K} {k x : K} : x ∈ setInsert l k ↔ x = k ∨ x ∈ l := by
  unfold setInsert; split <;> simp_all
theorem mem_setRemove {K : Type} [DecidableEq K] {l : List K} {k x : K} : x ∈ setRemove l k ↔ x ∈ l ∧ x ≠ k := by
  simp [setRemove]
theorem nodup_setInsert {K : Type} [DecidableEq K] {l : List K} {k : K} (h : l.Nodup) : (setInsert l k).Nodup := by
  unfold setInsert; split <;> simp_all
theorem nodup_setRemove {K : Type} [DecidableEq K] {l : List K} {k : K} (h : l.Nodup) : (setRemove l k).Nodup := h.filter _

/-! ### Steps as chains of small changes

`Prim` lists the small changes the manager makes; every event is a chain of them.  A property kept by each kept by all. -/

/-- Small changes that never touch the session tables, the sets of connected and connecting peers, or the index from users to peers,
and keep the peers of the pool with their ids and users. -/
structure Quiet (s t : PM) : Prop where
  connecting : t.connecting = s.connecting
  connected : t.connected = s.connected
  userPid : t.userPid = s.userPid
  peerSession : t.peerSession = s.peerSession
  sessionPeer : t.sessionPeer = s.sessionPeer
  bootAddrs : t.bootAddrs = s.bootAddrs
  pool : ∀ pid, match s.pool pid with
    | none => t.pool pid = none
    | some p => ∃ q, t.pool pid = some q ∧ q.id = p.id ∧ q.user = p.user

theorem Quiet.refl (s : PM) : Quiet s s := by
  refine ⟨rfl, rfl, rfl, rfl, rfl, rfl, fun pid => ?_⟩
  split
  · assumption
  · rename_i p h; exact ⟨p, h, rfl, rfl⟩

theorem Quiet.trans {s t u : PM} (h : Quiet s t) (k : Quiet t u) : Quiet s u := by
  refine ⟨k.connecting.trans h.connecting, k.connected.trans h.connected, k.userPid.trans h.userPid, k.peerSession.trans h.peerSession,
    k.sessionPeer.trans h.sessionPeer, k.bootAddrs.trans h.bootAddrs, fun pid => ?_⟩
  have a := h.pool pid
  have b := k.pool pid
  split
  · rename_i e; rw [e] at a; simp only at a; rw [a] at b; exact b
  · rename_i p e; rw [e] at a; obtain ⟨q, hq, h1, h2⟩ := a
    rw [hq] at b; obtain ⟨r, hr, h3, h4⟩ := b
    exact ⟨r, hr, h3.trans h1, h4.trans h2⟩

theorem quiet_modify (s : PM) (pid : Pid) (f : Peer → Peer) (hf : ∀ p, (f p).id = p.id ∧ (f p).user = p.user) : Quiet s (s.modify pid f) := by
  refine ⟨rfl, rfl, rfl, rfl, rfl, rfl, fun i => ?_⟩
  by_cases h : i = pid
  · subst h
    split
    · rename_i e; simp [modify, e]
    · rename_i p e; exact ⟨f p, by simp [modify, e], hf p⟩
  · split
    · rename_i e; simp [modify, upd_ne _ _ h, e]
    · rename_i p e; exact ⟨p, by simp [modify, upd_ne _ _ h, e], rfl, rfl⟩

theorem quiet_addPeerAddr (s : PM) (pid : Pid) (a : Maddr) : Quiet s (s.addPeerAddr pid a) := by
  unfold addPeerAddr
  split
  · exact .refl s
  · rename_i p e
    refine ⟨rfl, rfl, rfl, rfl, rfl, rfl, fun i => ?_⟩
    by_cases h : i = pid
    · subst h; rw [e]; exact ⟨{ p with addrs := setInsert p.addrs a }, by simp, rfl, rfl⟩
    · split
      · rename_i e'; simp [upd_ne _ _ h, e']
      · rename_i q e'; exact ⟨q, by simp [upd_ne _ _ h, e'], rfl, rfl⟩

theorem quiet_of_pool {s t : PM} (h1 : t.connecting = s.connecting) (h2 : t.connected = s.connected) (h3 : t.userPid = s.userPid)
    (h4 : t.peerSession = s.peerSession) (h5 : t.sessionPeer = s.sessionPeer) (h6 : t.bootAddrs = s.bootAddrs) (h7 : t.pool = s.pool) : Quiet s t := by
  refine ⟨h1, h2, h3, h4, h5, h6, fun pid => ?_⟩
  rw [h7]; exact (Quiet.refl s).pool pid

theorem quiet_removePeerAddr (s : PM) (pid : Pid) (a : Maddr) : Quiet s (s.removePeerAddr pid a) :=
  (quiet_modify s pid (fun p => { p with addrs := setRemove p.addrs a }) (fun _ => ⟨rfl, rfl⟩)).trans (quiet_of_pool rfl rfl rfl rfl rfl rfl rfl)

theorem quiet_unknown (s : PM) (f : Maddr → Option Unknown) : Quiet s { s with unknown := f } := quiet_of_pool rfl rfl rfl rfl rfl rfl rfl

theorem quiet_tryRemoveAddr (s : PM) (a : Maddr) : Quiet s (s.tryRemoveAddr a) := by
  unfold tryRemoveAddr; split
  · exact quiet_removePeerAddr ..
  · exact .refl s

theorem quiet_identifyAddr (s : PM) (a : Maddr) : Quiet s (s.identifyAddr a) := by
  unfold identifyAddr; split
  · split
    · exact quiet_addPeerAddr ..
    · exact .refl s
  · split
    · exact .refl s
    · exact quiet_unknown ..

theorem quiet_unconnectable (s : PM) (a : Maddr) : Quiet s (s.unconnectable a) := by
  unfold unconnectable; simp only; split
  · exact quiet_unknown ..
  · exact (quiet_unknown s _).trans (quiet_tryRemoveAddr _ a)

theorem quiet_addSessionAddr (s : PM) (sid : Sid) (a : Maddr) : Quiet s (s.addSessionAddr sid a) := by
  unfold addSessionAddr; simp only; split
  · exact (quiet_unknown s _).trans (quiet_addPeerAddr ..)
  · exact quiet_unknown ..

theorem increaseRetry_same (p : Peer) (now : Clock) : (p.increaseRetry now).id = p.id ∧ (p.increaseRetry now).user = p.user := by
  unfold Peer.increaseRetry; split <;> exact ⟨rfl, rfl⟩

theorem increaseRetry_addrs (p : Peer) (now : Clock) : (p.increaseRetry now).addrs = p.addrs := by
  unfold Peer.increaseRetry; split <;> rfl

/-- A predicate kept by every small change; `okAttach` and `okClose` say which sessions may be attached and whose may be closed. -/
structure Kept (cfg : PMCfg) (okAttach : PM → PubKey → Sid → Prop) (okClose : Pid → Prop) (I : PM → Prop) : Prop where
  quiet : ∀ {s t}, Quiet s t → I s → I t
  attach : ∀ now {s} key sid a ob, I s → okAttach s key sid → I (s.attach cfg now key sid a ob)
  close : ∀ now {s} pid, I s → okClose pid → I (s.closeSession now pid)
  removeClosed : ∀ now {s} pid, I s → okClose pid → isBootstrap cfg pid = false → I ((s.closeSession now pid).removePeer pid)
  dial : ∀ s pid, I s → I (s.connectPeer pid)
  fromSession : ∀ {s sid pid}, I s → s.sessionPeer sid = some pid → okClose pid
  offline : ∀ {s pid}, I s → pid ∉ s.connected → okClose pid

/-- What an event must meet for `Kept`. -/
def okEvent (okAttach : PM → PubKey → Sid → Prop) (okClose : Pid → Prop) (s : PM) : PMEvent → Prop
  | .attach key sid _ _ => okAttach s key sid
  | .detach pid => okClose pid
  | .remove pid => okClose pid
  | .retryLater pid => okClose pid
  | _ => True

variable {cfg : PMCfg} {okA : PM → PubKey → Sid → Prop} {okC : Pid → Prop} {I : PM → Prop}

theorem Kept.cleanlyRemove (k : Kept cfg okA okC I) (now : Clock) {s : PM} (pid : Pid) (h : I s) (hc : okC pid) :
    I (s.cleanlyRemove cfg now pid) := by
  unfold PM.cleanlyRemove
  simp only
  by_cases hb : isBootstrap cfg pid = true
  · rw [if_pos hb]
    refine k.quiet (quiet_modify _ _ _ fun p => ?_) (k.close now pid h hc)
    rw [(increaseRetry_same _ _).1, (increaseRetry_same _ _).2, (increaseRetry_same _ _).1, (increaseRetry_same _ _).2]
    exact ⟨rfl, rfl⟩
  · rw [if_neg hb]
    exact k.removeClosed now pid h hc (by simpa using hb)

theorem Kept.increasePeerRetry (k : Kept cfg okA okC I) (now : Clock) {s : PM} (pid : Pid) (h : I s) (hc : okC pid) :
    I (s.increasePeerRetry cfg now pid) := by
  unfold PM.increasePeerRetry
  have h1 : I (s.modify pid (fun p => p.increaseRetry now)) := k.quiet (quiet_modify _ _ _ fun p => increaseRetry_same p now) h
  simp only
  split
  · exact k.cleanlyRemove now pid h1 hc
  · exact h1

theorem Kept.detach (k : Kept cfg okA okC I) (now : Clock) {s : PM} (pid : Pid) (h : I s) (hc : okC pid) : I (s.detach cfg now pid) := by
  unfold PM.detach
  have h1 := k.close now pid h hc
  simp only
  split
  · split
    · exact k.increasePeerRetry now pid h1 hc
    · exact h1
  · exact h1

theorem quiet_foldl {α : Type} (f : PM → α → PM) (hf : ∀ s a, Quiet s (f s a)) (l : List α) (s : PM) : Quiet s (l.foldl f s) := by
  induction l generalizing s with
  | nil => exact .refl s
  | cons a l ih => exact (hf s a).trans (ih _)

theorem Kept.dials (k : Kept cfg okA okC I) (l : List Pid) {s : PM} (h : I s) : I (l.foldl PM.connectPeer s) := by
  induction l generalizing s with
  | nil => exact h
  | cons a l ih => exact ih (k.dial _ a h)

theorem quiet_reconnectUnknown (s : PM) (a : Maddr) : Quiet s (s.reconnectUnknown a) := by
  unfold reconnectUnknown; split
  · exact quiet_unknown ..
  · exact .refl s

theorem Kept.reconnectLater (k : Kept cfg okA okC I) (now : Clock) {s : PM} (a : Maddr) (h : I s) : I (s.reconnectLater cfg now a) := by
  unfold PM.reconnectLater
  have ht := k.quiet (quiet_reconnectUnknown s a) h
  simp only
  split
  · split
    · exact ht
    · rename_i hn; exact k.increasePeerRetry now _ ht (k.offline ht hn)
  · exact ht

theorem Kept.routine (k : Kept cfg okA okC I) {s : PM} (pids : List Pid) (addrs : List Maddr) (h : I s) : I (s.routine cfg pids addrs).1 := by
  unfold PM.routine
  split
  · exact h
  · split
    · exact k.quiet (quiet_unknown ..) (k.dials pids h)
    · exact h

theorem Kept.step (k : Kept cfg okA okC I) (now : Clock) {s : PM} (e : PMEvent) (h : I s) (ho : okEvent okA okC s e) : I (s.step cfg now e).1 := by
  cases e with
  | attach key sid a ob => exact k.attach now key sid a ob h ho
  | detach pid => exact k.detach now pid h ho
  | alive pid => exact k.quiet (quiet_modify _ _ _ fun _ => ⟨rfl, rfl⟩) h
  | remove pid => exact k.cleanlyRemove now pid h ho
  | removeBySession sid =>
    simp only [PM.step]
    split
    · rename_i pid e; exact k.cleanlyRemove now pid h (k.fromSession h e)
    · rename_i e; rw [detachSession, e]; exact h
  | retryLater pid =>
    simp only [PM.step]
    have := k.increasePeerRetry now pid h ho
    split <;> exact this
  | discover addrs => exact k.quiet (quiet_foldl _ quiet_identifyAddr _ _) h
  | identified pid addrs => exact k.quiet (quiet_foldl _ (fun s a => quiet_addPeerAddr s pid a) _ _) h
  | repeated dialer sid a =>
    simp only [PM.step]
    split
    · exact k.quiet (quiet_addSessionAddr ..) h
    · exact h
  | unconnectable a => exact k.quiet (quiet_unconnectable ..) h
  | reconnectLater a => exact k.reconnectLater now a h
  | addListen a => exact k.quiet (quiet_addPeerAddr ..) h
  | removeListen a => exact k.quiet (quiet_removePeerAddr ..) h
  | route us msg => exact h
  | routine pids addrs => exact k.routine pids addrs h

/-- What the start may add to: the fresh manager, with saved peers, with bootstrap peers. -/
structure KeptStart (cfg : PMCfg) (I : PM → Prop) : Prop where
  fresh : ∀ now, I (PM.new cfg now)
  saved : ∀ now {s} key addrs, I s → I (s.insertPeers cfg now [(key, addrs)])
  boot : ∀ s p, p ∈ cfg.bootstraps → I s → I ((s.addPeer p).connectPeer p.id)
  bootAddrs : ∀ {s} l, I s → I { s with bootAddrs := l }

theorem KeptStart.start (k : KeptStart cfg I) (now : Clock) (saved : List (PubKey × List Maddr)) : I (PM.start cfg now saved).1 := by
  have h1 : ∀ (l : List (PubKey × List Maddr)) (s : PM), I s → I (s.insertPeers cfg now l) := by
    intro l
    induction l with
    | nil => exact fun _ h => h
    | cons x l ih => intro s h; obtain ⟨key, addrs⟩ := x; exact ih _ (k.saved now key addrs h)
  have h2 : ∀ (l : List Peer), (∀ p ∈ l, p ∈ cfg.bootstraps) → ∀ s : PM, I s → I (l.foldl (fun s p => (s.addPeer p).connectPeer p.id) s) := by
    intro l
    induction l with
    | nil => exact fun _ _ h => h
    | cons p l ih =>
      intro hl s h
      exact ih (fun q hq => hl q (.tail _ hq)) _ (k.boot _ p (hl p (.head _)) h)
  exact k.bootAddrs _ (h2 _ (fun _ h => h) _ (h1 _ _ (k.fresh now)))

theorem Kept.reach (k : Kept cfg okA okC I) (ks : KeptStart cfg I) {ok : PM → Clock → PMEvent → Prop}
    (hok : ∀ s now e, I s → ok s now e → okEvent okA okC s e) {s : PM} (h : PM.Reach cfg ok s) : I s := by
  induction h with
  | start now saved => exact ks.start now saved
  | step now e _ ho ih => exact k.step now e ih (hok _ _ _ ih ho)

/-! ### What the larger changes do to each table -/

theorem close_pool (now : Clock) (s : PM) (pid : Pid) :
    (s.closeSession now pid).pool = upd s.pool pid ((s.pool pid).map fun p => { p with alive := secsBetween now.secs p.connectAt }) := by
  unfold closeSession disconnectPeer modify; simp only; split <;> rfl
theorem close_connected (now : Clock) (s : PM) (pid : Pid) : (s.closeSession now pid).connected = setRemove s.connected pid := by
  unfold closeSession disconnectPeer modify; simp only; split <;> rfl
theorem close_connecting (now : Clock) (s : PM) (pid : Pid) : (s.closeSession now pid).connecting = setRemove s.connecting pid := by
  unfold closeSession disconnectPeer modify; simp only; split <;> rfl
theorem close_userPid (now : Clock) (s : PM) (pid : Pid) : (s.closeSession now pid).userPid = s.userPid := by
  unfold closeSession disconnectPeer modify; simp only; split <;> rfl
theorem close_bootAddrs (now : Clock) (s : PM) (pid : Pid) : (s.closeSession now pid).bootAddrs = s.bootAddrs := by
  unfold closeSession disconnectPeer modify; simp only; split <;> rfl
theorem close_peerSession (now : Clock) (s : PM) (pid : Pid) : (s.closeSession now pid).peerSession = upd s.peerSession pid none := by
  unfold closeSession disconnectPeer modify; simp only; split
  · rfl
  · rename_i h; funext i; by_cases hi : i = pid
    · subst hi; rw [upd_same]; exact h
    · rw [upd_ne _ _ hi]
theorem close_sessionPeer (now : Clock) (s : PM) (pid : Pid) : (s.closeSession now pid).sessionPeer =
    match s.peerSession pid with | some sid => upd s.sessionPeer sid none | none => s.sessionPeer := by
  unfold closeSession disconnectPeer modify; simp only; split <;> rename_i h <;> simp [h]

theorem remove_pool (s : PM) (pid : Pid) : (s.removePeer pid).pool = upd s.pool pid none := by
  unfold removePeer; simp only; split
  · rename_i h; funext i; by_cases hi : i = pid
    · subst hi; rw [upd_same]; exact h
    · rw [upd_ne _ _ hi]
  · rfl
theorem remove_connected (s : PM) (pid : Pid) : (s.removePeer pid).connected = setRemove s.connected pid := by
  unfold removePeer; simp only; split <;> rfl
theorem remove_connecting (s : PM) (pid : Pid) : (s.removePeer pid).connecting = setRemove s.connecting pid := by
  unfold removePeer; simp only; split <;> rfl
theorem remove_sessions (s : PM) (pid : Pid) : (s.removePeer pid).peerSession = s.peerSession ∧ (s.removePeer pid).sessionPeer = s.sessionPeer := by
  unfold removePeer; simp only; split <;> exact ⟨rfl, rfl⟩
theorem remove_userPid (s : PM) (pid : Pid) : (s.removePeer pid).userPid =
    match s.pool pid with | some p => upd s.userPid p.user none | none => s.userPid := by
  unfold removePeer; simp only; split <;> rename_i h <;> simp [h]

/-- What `attachPool` does to the pool. -/
theorem attachPool_cases (cfg : PMCfg) (now : Clock) (s : PM) (key : PubKey) (l : Option Maddr) :
    (s.pool (cfg.pidOf key) ≠ none ∧ Quiet s (s.attachPool cfg now key l)) ∨
    (s.pool (cfg.pidOf key) = none ∧ ∃ t addrs, Quiet s t ∧ t.pool = s.pool ∧ s.attachPool cfg now key l = t.addPeer (cfg.newPeer key addrs now)) := by
  unfold attachPool
  split
  · rename_i h
    refine .inr ⟨h, ?_⟩
    unfold addNewPeer
    split
    · rename_i a; exact ⟨{ s with unknown := upd s.unknown a none }, [a], quiet_unknown .., rfl, rfl⟩
    · exact ⟨s, [], Quiet.refl s, rfl, rfl⟩
  · rename_i h; exact .inl ⟨by simp [h], quiet_addPeerAddr ..⟩
  · rename_i h; exact .inl ⟨by simp [h], Quiet.refl s⟩

theorem attachPool_tables (cfg : PMCfg) (now : Clock) (s : PM) (key : PubKey) (l : Option Maddr) :
    let t := s.attachPool cfg now key l
    t.connected = s.connected ∧ t.connecting = s.connecting ∧ t.peerSession = s.peerSession ∧ t.sessionPeer = s.sessionPeer ∧ t.bootAddrs = s.bootAddrs := by
  rcases attachPool_cases cfg now s key l with ⟨-, q⟩ | ⟨-, t, addrs, q, -, e⟩
  · exact ⟨q.connected, q.connecting, q.peerSession, q.sessionPeer, q.bootAddrs⟩
  · simp only [e]
    exact ⟨q.connected, q.connecting, q.peerSession, q.sessionPeer, q.bootAddrs⟩

theorem attach_tables (cfg : PMCfg) (now : Clock) (s : PM) (key : PubKey) (sid : Sid) (a : Maddr) (ob : Bool) :
    let t := s.attach cfg now key sid a ob
    t.connected = setInsert s.connected (cfg.pidOf key) ∧ t.connecting = setRemove s.connecting (cfg.pidOf key) ∧
    t.peerSession = upd s.peerSession (cfg.pidOf key) (some sid) ∧ t.sessionPeer = upd s.sessionPeer sid (some (cfg.pidOf key)) ∧
    t.bootAddrs = s.bootAddrs := by
  obtain ⟨h1, h2, h3, h4, h5⟩ := attachPool_tables cfg now s key (if ob then some a else none)
  unfold attach setConnected modify
  simp only [h1, h2, h3, h4, h5]
  simp

/-! ### C55: a message to users reaches or misses each of them -/

/-- What the node relies on: peer id and user address are both functions of the key and tell keys apart equally well; its own id and
those of the bootstrap peers belong to their keys (core/network/src/config.rs:183-228). -/
structure GoodCfg (cfg : PMCfg) : Prop where
  same : ∀ k k', cfg.pidOf k = cfg.pidOf k' ↔ cfg.userOf k = cfg.userOf k'
  self : cfg.ourId = cfg.pidOf cfg.pubkey
  boots : ∀ p ∈ cfg.bootstraps, p.id = cfg.pidOf p.key ∧ p.user = cfg.userOf p.key

/-- The user index and the pool agree. -/
structure UserInv (cfg : PMCfg) (s : PM) : Prop where
  pool : ∀ pid p, s.pool pid = some p → ∃ key, p.id = pid ∧ pid = cfg.pidOf key ∧ p.user = cfg.userOf key ∧ s.userPid (cfg.userOf key) = some pid
  user : ∀ u pid, s.userPid u = some pid → ∃ p, s.pool pid = some p ∧ p.user = u
  sess : ∀ pid sid, s.peerSession pid = some sid → s.pool pid ≠ none

theorem UserInv.quiet {s t : PM} (q : Quiet s t) (h : UserInv cfg s) : UserInv cfg t := by
  refine ⟨fun pid p hp => ?_, fun u pid hu => ?_, fun pid sid hs => ?_⟩
  · have := q.pool pid
    split at this
    · rw [this] at hp; cases hp
    · rename_i r hr
      obtain ⟨x, hx, h1, h2⟩ := this
      rw [hx] at hp; cases hp
      obtain ⟨key, a, b, c, d⟩ := h.pool pid r hr
      exact ⟨key, h1.trans a, b, h2.trans c, by rw [q.userPid]; exact d⟩
  · rw [q.userPid] at hu
    obtain ⟨r, hr, hu⟩ := h.user u pid hu
    have := q.pool pid
    rw [hr] at this
    obtain ⟨x, hx, _, h2⟩ := this
    exact ⟨x, hx, h2.trans hu⟩
  · rw [q.peerSession] at hs
    have := q.pool pid
    split at this
    · rename_i hn; exact absurd hn (h.sess pid sid hs)
    · obtain ⟨x, hx, _⟩ := this; rw [hx]; simp

/-- Adding a peer, new or again, keeps the index. -/
theorem UserInv.add (g : GoodCfg cfg) {s t : PM} (h : UserInv cfg s) (key : PubKey) (p : Peer) (hid : p.id = cfg.pidOf key) (hu : p.user = cfg.userOf key)
    (h1 : t.pool = upd s.pool (cfg.pidOf key) (some p)) (h2 : t.userPid = upd s.userPid (cfg.userOf key) (some (cfg.pidOf key)))
    (h3 : ∀ pid sid, t.peerSession pid = some sid → pid = cfg.pidOf key ∨ s.peerSession pid = some sid) : UserInv cfg t := by
  refine ⟨fun pid q hq => ?_, fun u pid hup => ?_, fun pid sid hs => ?_⟩
  · rw [h1] at hq
    by_cases e : pid = cfg.pidOf key
    · subst e; rw [upd_same] at hq; cases hq
      exact ⟨key, hid, rfl, hu, by rw [h2, upd_same]⟩
    · rw [upd_ne _ _ e] at hq
      obtain ⟨k, a, b, c, d⟩ := h.pool pid q hq
      refine ⟨k, a, b, c, ?_⟩
      rw [h2, upd_ne _ _ (fun x => e (b.trans ((g.same _ _).2 x)))]
      exact d
  · rw [h2] at hup
    by_cases e : u = cfg.userOf key
    · subst e; rw [upd_same] at hup; cases hup
      exact ⟨p, by rw [h1, upd_same], hu⟩
    · rw [upd_ne _ _ e] at hup
      obtain ⟨q, hq, hqu⟩ := h.user u pid hup
      by_cases e' : pid = cfg.pidOf key
      · obtain ⟨k, a, b, c, d⟩ := h.pool pid q hq
        refine absurd ?_ e
        rw [← hqu, c]; exact (g.same _ _).1 (b.symm.trans e')
      · exact ⟨q, by rw [h1, upd_ne _ _ e']; exact hq, hqu⟩
  · rw [h1]
    by_cases e : pid = cfg.pidOf key
    · subst e; rw [upd_same]; simp
    · rw [upd_ne _ _ e]
      rcases h3 pid sid hs with x | x
      · exact absurd x e
      · exact h.sess pid sid x

theorem UserInv.of_map {s t : PM} (h : UserInv cfg s) (pid0 : Pid) (f : Peer → Peer) (hf : ∀ p, (f p).id = p.id ∧ (f p).user = p.user)
    (h1 : t.pool = upd s.pool pid0 ((s.pool pid0).map f)) (h2 : t.userPid = s.userPid)
    (h3 : ∀ pid sid, t.peerSession pid = some sid → s.peerSession pid = some sid) : UserInv cfg t := by
  have e : UserInv cfg (s.modify pid0 f) := h.quiet (quiet_modify s pid0 f hf)
  refine ⟨fun pid p hp => ?_, fun u pid hu => ?_, fun pid sid hs => ?_⟩
  · rw [h1] at hp; rw [h2]; exact e.pool pid p hp
  · rw [h2] at hu; rw [h1]; exact e.user u pid hu
  · rw [h1]; exact e.sess pid sid (h3 pid sid hs)

theorem UserInv.close (now : Clock) {s : PM} (pid : Pid) (h : UserInv cfg s) : UserInv cfg (s.closeSession now pid) := by
  refine h.of_map pid (fun p => { p with alive := secsBetween now.secs p.connectAt }) (fun _ => ⟨rfl, rfl⟩) (close_pool ..) (close_userPid ..) (fun i sid hs => ?_)
  rw [close_peerSession] at hs
  by_cases e : i = pid
  · subst e; rw [upd_same] at hs; cases hs
  · rwa [upd_ne _ _ e] at hs

theorem UserInv.kept (g : GoodCfg cfg) : Kept cfg (fun _ _ _ => True) (fun _ => True) (UserInv cfg) where
  quiet q h := h.quiet q
  attach now s key sid a ob h _ := by
    have hp : ∃ t, UserInv cfg t ∧ t.pool (cfg.pidOf key) ≠ none ∧ t.peerSession = s.peerSession ∧
        s.attachPool cfg now key (if ob then some a else none) = t := by
      rcases attachPool_cases cfg now s key (if ob then some a else none) with ⟨hn, q⟩ | ⟨hn, t, addrs, q, hpool, e⟩
      · refine ⟨_, h.quiet q, ?_, q.peerSession, rfl⟩
        have := q.pool (cfg.pidOf key)
        split at this
        · rename_i x; exact absurd x hn
        · obtain ⟨r, hr, _⟩ := this; rw [hr]; simp
      · refine ⟨t.addPeer (cfg.newPeer key addrs now), UserInv.add g (h.quiet q) key (cfg.newPeer key addrs now) rfl rfl rfl rfl (fun pid sid hs => .inr hs), ?_, ?_, e⟩
        · show upd _ (cfg.pidOf key) _ (cfg.pidOf key) ≠ none
          rw [upd_same]; simp
        · exact q.peerSession
    obtain ⟨t, ht, hne, hps, e⟩ := hp
    unfold PM.attach
    rw [e]
    have hm := ht.quiet (quiet_modify t (cfg.pidOf key) (fun p => { p with connectAt := now.secs }) (fun _ => ⟨rfl, rfl⟩))
    refine ⟨hm.pool, hm.user, fun pid sid' hs => ?_⟩
    by_cases x : pid = cfg.pidOf key
    · subst x
      show upd t.pool (cfg.pidOf key) _ (cfg.pidOf key) ≠ none
      rw [upd_same]
      cases hq : t.pool (cfg.pidOf key) with
      | none => exact absurd hq hne
      | some p => simp
    · refine hm.sess pid sid' ?_
      have : upd t.peerSession (cfg.pidOf key) (some sid) pid = some sid' := hs
      rwa [upd_ne _ _ x] at this
  close now s pid h _ := h.close now pid
  removeClosed now s pid h _ _ := by
    have hc := h.close now pid
    have hsn : (s.closeSession now pid).peerSession pid = none := by rw [close_peerSession, upd_same]
    generalize s.closeSession now pid = t at *
    refine ⟨fun i p hp => ?_, fun u i hu => ?_, fun i sid hs => ?_⟩
    · rw [remove_pool] at hp
      by_cases e : i = pid
      · subst e; rw [upd_same] at hp; cases hp
      · rw [upd_ne _ _ e] at hp
        obtain ⟨k, a, b, c, d⟩ := hc.pool i p hp
        refine ⟨k, a, b, c, ?_⟩
        rw [remove_userPid]
        split
        · rename_i q hq
          obtain ⟨k', a', b', c', d'⟩ := hc.pool pid q hq
          rw [upd_ne _ _ (fun x => e (b.trans (((g.same _ _).2 (x.trans c')).trans b'.symm)))]
          exact d
        · exact d
    · rw [remove_userPid] at hu
      rw [remove_pool]
      have : s = s := rfl
      split at hu
      · rename_i q hq
        by_cases e : u = q.user
        · subst e; rw [upd_same] at hu; cases hu
        · rw [upd_ne _ _ e] at hu
          obtain ⟨p, hp, hpu⟩ := hc.user u i hu
          refine ⟨p, ?_, hpu⟩
          rw [upd_ne]
          · exact hp
          · intro x; subst x; rw [hp] at hq; cases hq; exact e hpu.symm
      · rename_i hq
        obtain ⟨p, hp, hpu⟩ := hc.user u i hu
        refine ⟨p, ?_, hpu⟩
        rw [upd_ne]
        · exact hp
        · intro x; subst x; rw [hp] at hq; cases hq
    · rw [(remove_sessions t pid).1] at hs
      rw [remove_pool, upd_ne]
      · exact hc.sess i sid hs
      · intro x; subst x; rw [hsn] at hs; cases hs
  dial s pid h := by
    unfold connectPeer; split
    · exact h
    · exact ⟨h.pool, h.user, h.sess⟩
  fromSession _ _ := trivial
  offline _ _ := trivial

theorem UserInv.keptStart (g : GoodCfg cfg) : KeptStart cfg (UserInv cfg) where
  fresh now := by
    refine ⟨fun pid p hp => ?_, fun u pid hu => ?_, fun pid sid hs => by cases hs⟩
    · by_cases e : pid = cfg.ourId
      · subst e
        simp only [PM.new, upd_same] at hp
        cases hp
        exact ⟨cfg.pubkey, rfl, g.self, rfl, by simp [PM.new]⟩
      · simp only [PM.new] at hp; rw [upd_ne _ _ e] at hp; cases hp
    · by_cases e : u = cfg.userOf cfg.pubkey
      · subst e
        simp only [PM.new, upd_same] at hu
        cases hu
        exact ⟨_, by simp only [PM.new, upd_same]; rfl, rfl⟩
      · simp only [PM.new] at hu; rw [upd_ne _ _ e] at hu; cases hu
  saved now s key addrs h := by
    cases hp : s.pool (cfg.pidOf key) with
    | none =>
      refine UserInv.add g h key (cfg.newPeer key addrs now) rfl rfl ?_ rfl (fun _ _ x => .inr x)
      simp [insertPeers, hp]
    | some p =>
      obtain ⟨k, a, b, c, d⟩ := h.pool _ _ hp
      refine UserInv.add g h key { cfg.newPeer key addrs now with user := p.user, key := p.key, id := p.id } a ?_ ?_ rfl (fun _ _ x => .inr x)
      · exact c.trans ((g.same _ _).1 b).symm
      · simp [insertPeers, hp]
  boot s p hp h := by
    obtain ⟨a, b⟩ := g.boots p hp
    have : UserInv cfg (s.addPeer p) := UserInv.add g h p.key p a b (by simp [addPeer, a]) (by simp [addPeer, a, b]) (fun _ _ x => .inr x)
    exact (UserInv.kept g).dial _ p.id this
  bootAddrs l h := ⟨h.pool, h.user, h.sess⟩

theorem Reach.userInv (g : GoodCfg cfg) {ok : PM → Clock → PMEvent → Prop} {s : PM} (h : PM.Reach cfg ok s) : UserInv cfg s :=
  (UserInv.kept g).reach (UserInv.keptStart g) (fun _ _ e _ _ => by cases e <;> trivial) h

/-- Specification: `u` can be reached on session `sid`: a peer with a key of user `u` has that session. -/
def UserSession (cfg : PMCfg) (s : PM) (u : UserId) (sid : Sid) : Prop := ∃ key, cfg.userOf key = u ∧ s.peerSession (cfg.pidOf key) = some sid

theorem routeUsers_spec {s : PM} (h : UserInv cfg s) (us : List UserId) :
    (s.routeUsers us).1 = us.filterMap (fun u => (s.userPid u).bind s.peerSession) ∧
    ((s.routeUsers us).2.1.map Peer.user ++ (s.routeUsers us).2.2).Perm
      (us.filter fun u => ((s.userPid u).bind s.peerSession).isNone) := by
  induction us with
  | nil => exact ⟨rfl, .nil⟩
  | cons u us ih =>
    obtain ⟨ih1, ih2⟩ := ih
    simp only [routeUsers]
    cases hu : s.userPid u with
    | none => 
      have e : s.userPeer u = none := by simp [userPeer, hu]
      simp only [e, List.filterMap_cons, List.filter_cons, hu, Option.bind_none, Option.isNone_none, if_true]
      refine ⟨ih1, ?_⟩
      exact (List.perm_middle).trans (.cons u ih2)
    | some pid =>
      obtain ⟨p, hp, hpu⟩ := h.user u pid hu
      have hid : p.id = pid := by obtain ⟨_, a, _⟩ := h.pool pid p hp; exact a
      have e : s.userPeer u = some p := by simp [userPeer, hu, hp]
      cases hs : s.peerSession pid with
      | none =>
        simp only [e, hid, hs, List.filterMap_cons, List.filter_cons, hu, Option.bind_some, Option.isNone_none, if_true]
        refine ⟨ih1, ?_⟩
        rw [List.map_cons, hpu]
        exact .cons u ih2
      | some sid =>
        simp only [e, hid, hs, List.filterMap_cons, List.filter_cons, hu, Option.bind_some]
        exact ⟨by rw [ih1], by simpa using ih2⟩

/-- **C55**: in every state of a manager, whatever happened before: a message to users `us` is sent, in one command, on the session of each
addressee that can be reached, once per mention and in order, and exactly the others are reported as missed. -/
theorem C55_each_addressee_sent_or_missed (g : GoodCfg cfg) {ok : PM → Clock → PMEvent → Prop} {s : PM} (h : PM.Reach cfg ok s)
    (us : List UserId) (msg : Nat) :
    ∃ (f : UserId → Option Sid) (dial : List Maddr) (missed : List UserId),
      (∀ u sid, f u = some sid ↔ UserSession cfg s u sid) ∧
      s.route us msg = ([.send (us.filterMap f) msg, .connect dial], missed) ∧
      missed.Perm (us.filter fun u => (f u).isNone) := by
  have inv := Reach.userInv g h
  obtain ⟨h1, h2⟩ := routeUsers_spec inv us
  refine ⟨fun u => (s.userPid u).bind s.peerSession, (s.routeUsers us).2.1.flatMap Peer.addrs, _, fun u sid => ?_, ?_, h2⟩
  · constructor
    · intro hf
      cases hu : s.userPid u with
      | none => simp [hu] at hf
      | some pid =>
        obtain ⟨p, hp, hpu⟩ := inv.user u pid hu
        obtain ⟨key, a, b, c, d⟩ := inv.pool pid p hp
        refine ⟨key, c.symm.trans hpu, ?_⟩
        simpa [hu, b] using hf
    · rintro ⟨key, rfl, hs⟩
      cases hp : s.pool (cfg.pidOf key) with
      | none => exact absurd hp (inv.sess _ _ hs)
      | some p =>
        obtain ⟨k, a, b, c, d⟩ := inv.pool _ p hp
        rw [← (g.same _ _).1 b] at d
        simp [d, hs]
  · unfold PM.route
    rw [← h1]

/-- The states a manager can be in after a history of events (oldest first). -/
inductive Hist (cfg : PMCfg) : List PMEvent → PM → Prop
  | start (now : Clock) (saved : List (PubKey × List Maddr)) : Hist cfg [] (PM.start cfg now saved).1
  | step {es : List PMEvent} {s : PM} (now : Clock) (e : PMEvent) (h : Hist cfg es s) : Hist cfg (es ++ [e]) (s.step cfg now e).1

theorem Hist.reach {es : List PMEvent} {s : PM} (h : Hist cfg es s) : PM.Reach cfg (fun _ _ _ => True) s := by
  induction h with
  | start now saved => exact .start now saved
  | step now e _ ih => exact .step now e ih trivial

/-- Only `attach` adds sessions. -/
theorem sessionsKept (s : PM) : Kept cfg (fun _ _ _ => False) (fun _ => True) (fun t => ∀ pid sid, t.peerSession pid = some sid → s.peerSession pid = some sid) where
  quiet q h pid sid hs := h pid sid (by rwa [q.peerSession] at hs)
  attach _ _ _ _ _ _ _ h := h.elim
  close now t pid h _ i sid hs := by
    rw [close_peerSession] at hs
    by_cases e : i = pid
    · subst e; rw [upd_same] at hs; cases hs
    · rw [upd_ne _ _ e] at hs; exact h i sid hs
  removeClosed now t pid h _ _ i sid hs := by
    rw [(remove_sessions _ _).1, close_peerSession] at hs
    by_cases e : i = pid
    · subst e; rw [upd_same] at hs; cases hs
    · rw [upd_ne _ _ e] at hs; exact h i sid hs
  dial t pid h := by unfold connectPeer; split <;> exact h
  fromSession _ _ := trivial
  offline _ _ := trivial

/-- What is closed stays closed unless attached. -/
theorem closedKept (pid : Pid) : Kept cfg (fun _ _ _ => False) (fun _ => True) (fun t => t.peerSession pid = none) where
  quiet q h := by rwa [q.peerSession]
  attach _ _ _ _ _ _ _ h := h.elim
  close now t i h _ := by
    rw [close_peerSession]
    by_cases e : pid = i
    · subst e; rw [upd_same]
    · rwa [upd_ne _ _ e]
  removeClosed now t i h _ _ := by
    rw [(remove_sessions _ _).1, close_peerSession]
    by_cases e : pid = i
    · subst e; rw [upd_same]
    · rwa [upd_ne _ _ e]
  dial t _ h := by unfold connectPeer; split <;> exact h
  fromSession _ _ := trivial
  offline _ _ := trivial

theorem detach_closes (now : Clock) (s : PM) (pid : Pid) : (s.detach cfg now pid).peerSession pid = none := by
  have h0 : (s.closeSession now pid).peerSession pid = none := by rw [close_peerSession, upd_same]
  unfold PM.detach
  simp only
  split
  · split
    · exact (closedKept (cfg := cfg) pid).increasePeerRetry now pid h0 trivial
    · exact h0
  · exact h0

theorem cleanlyRemove_closes (now : Clock) (s : PM) (pid : Pid) : (s.cleanlyRemove cfg now pid).peerSession pid = none := by
  have h0 : (s.closeSession now pid).peerSession pid = none := by rw [close_peerSession, upd_same]
  unfold PM.cleanlyRemove
  simp only
  split
  · exact h0
  · rw [(remove_sessions _ _).1]; exact h0

/-- **C55**, where sessions come from: the session on which a user is reached was attached with a key of that user, and the peer has been
neither detached nor removed, nor attached on another session, since. -/
theorem C55_session_belongs_to_user {es : List PMEvent} {s : PM} (h : Hist cfg es s) (hinj : ∀ k k', cfg.pidOf k = cfg.pidOf k' → cfg.userOf k = cfg.userOf k')
    {u : UserId} {sid : Sid} (hu : UserSession cfg s u sid) :
    ∃ before key a ob after, es = before ++ PMEvent.attach key sid a ob :: after ∧ cfg.userOf key = u ∧
      ∀ e ∈ after, e ≠ .detach (cfg.pidOf key) ∧ e ≠ .remove (cfg.pidOf key) ∧
        ∀ key' sid' a' ob', e = .attach key' sid' a' ob' → cfg.pidOf key' ≠ cfg.pidOf key := by
  obtain ⟨k0, hk0, hs⟩ := hu
  generalize hpid : cfg.pidOf k0 = pid at hs
  have main : ∃ before key a ob after, es = before ++ PMEvent.attach key sid a ob :: after ∧ cfg.pidOf key = pid ∧
      ∀ e ∈ after, e ≠ .detach pid ∧ e ≠ .remove pid ∧
        ∀ key' sid' a' ob', e = .attach key' sid' a' ob' → cfg.pidOf key' ≠ pid := by
    clear hk0 hpid k0
    induction h with
    | start now saved =>
      have : ((PM.start cfg now saved).1).peerSession pid = none := by
        refine KeptStart.start (I := fun t => t.peerSession pid = none) ⟨fun _ => rfl, fun _ {_} _ _ h => h, fun t p _ h => ?_, fun _ h => h⟩ now saved
        unfold connectPeer; split <;> exact h
      rw [this] at hs; cases hs
    | @step es s now e h ih =>
      have keep : (¬ ∃ key a ob sid', e = .attach key sid' a ob) → s.peerSession pid = some sid := by
        intro hne
        refine (sessionsKept (cfg := cfg) s).step now e (fun _ _ x => x) ?_ pid sid hs
        cases e with
        | attach key sid' a ob => exact absurd ⟨key, a, ob, sid', rfl⟩ hne
        | _ => trivial
      have extend : s.peerSession pid = some sid → (e ≠ .detach pid ∧ e ≠ .remove pid ∧
        ∀ key' sid' a' ob', e = .attach key' sid' a' ob' → cfg.pidOf key' ≠ pid) →
        ∃ before key a ob after, es ++ [e] = before ++ PMEvent.attach key sid a ob :: after ∧ cfg.pidOf key = pid ∧
          ∀ e ∈ after, e ≠ .detach pid ∧ e ≠ .remove pid ∧
            ∀ key' sid' a' ob', e = .attach key' sid' a' ob' → cfg.pidOf key' ≠ pid := fun h1 h2 => by
        obtain ⟨b, key, a, ob, aft, he, hk, hall⟩ := ih h1
        refine ⟨b, key, a, ob, aft ++ [e], by rw [he]; simp, hk, fun e' he' => ?_⟩
        rcases List.mem_append.1 he' with x | x
        · exact hall e' x
        · rw [List.mem_singleton.1 x]; exact h2
      by_cases ha : ∃ key a ob sid', e = .attach key sid' a ob
      · obtain ⟨key, a, ob, sid', rfl⟩ := ha
        have e1 := (attach_tables cfg now s key sid' a ob).2.2.1
        have hs' : (s.attach cfg now key sid' a ob).peerSession pid = some sid := hs
        rw [e1] at hs'
        by_cases hp : pid = cfg.pidOf key
        · subst hp
          rw [upd_same] at hs'; cases hs'
          exact ⟨es, key, a, ob, [], rfl, rfl, fun _ x => by cases x⟩
        · rw [upd_ne _ _ hp] at hs'
          refine extend hs' ⟨by simp, by simp, fun k _ _ _ x => ?_⟩
          cases x; exact fun y => hp y.symm
      · refine extend (keep ha) ⟨?_, ?_, fun k s' a o x => absurd ⟨k, a, o, s', x⟩ ha⟩
        · rintro rfl
          have : (s.detach cfg now pid).peerSession pid = some sid := hs
          rw [detach_closes] at this; cases this
        · rintro rfl
          have : (s.cleanlyRemove cfg now pid).peerSession pid = some sid := hs
          rw [cleanlyRemove_closes] at this; cases this
  obtain ⟨b, key, a, ob, aft, he, hk, hall⟩ := main
  refine ⟨b, key, a, ob, aft, he, ?_, by rw [hk]; exact hall⟩
  rw [← hk0]; exact hinj _ _ (hk.trans hpid.symm)

/-! ### C56: the session tables -/

/-- **C56**, first part, for every history: a peer with a session is marked connected. -/
theorem C56_session_means_connected {ok : PM → Clock → PMEvent → Prop} {s : PM} (h : PM.Reach cfg ok s) {pid : Pid} {sid : Sid}
    (hs : s.peerSession pid = some sid) : pid ∈ s.connected := by
  have k : Kept cfg (fun _ _ _ => True) (fun _ => True) (fun t => ∀ pid sid, t.peerSession pid = some sid → pid ∈ t.connected) := by
    refine ⟨fun q h pid sid hs => ?_, fun now s key sid a ob h _ pid sid' hs => ?_, fun now s pid h _ i sid hs => ?_,
      fun now s pid h _ _ i sid hs => ?_, fun s pid h => ?_, fun _ _ => trivial, fun _ _ => trivial⟩
    · rw [q.connected]; rw [q.peerSession] at hs; exact h pid sid hs
    · obtain ⟨h1, _, h2, _⟩ := attach_tables cfg now s key sid a ob
      rw [h1, mem_setInsert]
      rw [h2] at hs
      by_cases e : pid = cfg.pidOf key
      · exact .inl e
      · rw [upd_ne _ _ e] at hs; exact .inr (h pid sid' hs)
    · rw [close_peerSession] at hs
      rw [close_connected, mem_setRemove]
      by_cases e : i = pid
      · subst e; rw [upd_same] at hs; cases hs
      · rw [upd_ne _ _ e] at hs; exact ⟨h i sid hs, e⟩
    · rw [(remove_sessions _ _).1, close_peerSession] at hs
      rw [remove_connected, mem_setRemove, close_connected, mem_setRemove]
      by_cases e : i = pid
      · subst e; rw [upd_same] at hs; cases hs
      · rw [upd_ne _ _ e] at hs; exact ⟨⟨h i sid hs, e⟩, e⟩
    · unfold connectPeer; split <;> exact h
  have ks : KeptStart cfg (fun t => ∀ pid sid, t.peerSession pid = some sid → pid ∈ t.connected) := by
    refine ⟨fun _ _ _ h => (by cases h), fun _ {_} _ _ h => h, fun t p _ h => ?_, fun _ h => h⟩
    unfold connectPeer; split <;> exact h
  exact k.reach ks (fun _ _ e _ _ => by cases e <;> trivial) h pid sid hs

/-- A session id is not reused while it is in the table. -/
def FreshSid (s : PM) (_ : Clock) : PMEvent → Prop
  | .attach _ sid _ _ => s.sessionPeer sid = none
  | _ => True

/-- In addition a peer is attached only while it has no session (tentacle refuses a second session with the same key). -/
def FreshAttach (cfg : PMCfg) (s : PM) (_ : Clock) : PMEvent → Prop
  | .attach key sid _ _ => s.sessionPeer sid = none ∧ s.peerSession (cfg.pidOf key) = none
  | _ => True

/-- **C56**, second part: as long as session ids are not reused, a peer's session maps back to that peer. -/
theorem C56_session_maps_back {s : PM} (h : PM.Reach cfg FreshSid s) {pid : Pid} {sid : Sid}
    (hs : s.peerSession pid = some sid) : s.sessionPeer sid = some pid := by
  have k : Kept cfg (fun s _ sid => s.sessionPeer sid = none) (fun _ => True) (fun t => ∀ pid sid, t.peerSession pid = some sid → t.sessionPeer sid = some pid) := by
    have close : ∀ (now : Clock) (s : PM) (pid : Pid), (∀ pid sid, s.peerSession pid = some sid → s.sessionPeer sid = some pid) →
        ∀ i sid, (s.closeSession now pid).peerSession i = some sid → (s.closeSession now pid).sessionPeer sid = some i := by
      intro now s pid h i sid hs
      rw [close_peerSession] at hs
      rw [close_sessionPeer]
      by_cases e : i = pid
      · subst e; rw [upd_same] at hs; cases hs
      · rw [upd_ne _ _ e] at hs
        split
        · rename_i sid' hs'
          rw [upd_ne]
          · exact h i sid hs
          · rintro rfl; have := h i _ hs; rw [h pid _ hs'] at this; cases this; exact e rfl
        · exact h i sid hs
    refine ⟨fun q h pid sid hs => ?_, fun now s key sid a ob h hf pid sid' hs => ?_, fun now s pid h _ i sid hs => close now s pid h i sid hs,
      fun now s pid h _ _ i sid hs => ?_, fun s pid h => ?_, fun _ _ => trivial, fun _ _ => trivial⟩
    · rw [q.sessionPeer]; rw [q.peerSession] at hs; exact h pid sid hs
    · obtain ⟨_, _, h2, h3, _⟩ := attach_tables cfg now s key sid a ob
      rw [h3]
      rw [h2] at hs
      by_cases e : pid = cfg.pidOf key
      · subst e; rw [upd_same] at hs; cases hs; rw [upd_same]
      · rw [upd_ne _ _ e] at hs
        rw [upd_ne]
        · exact h pid sid' hs
        · rintro rfl; rw [h pid _ hs] at hf; cases hf
    · rw [(remove_sessions _ _).1] at hs
      rw [(remove_sessions _ _).2]
      exact close now s pid h i sid hs
    · unfold connectPeer; split <;> exact h
  have ks : KeptStart cfg (fun t => ∀ pid sid, t.peerSession pid = some sid → t.sessionPeer sid = some pid) := by
    refine ⟨fun _ _ _ h => (by cases h), fun _ {_} _ _ h => h, fun t p _ h => ?_, fun _ h => h⟩
    unfold connectPeer; split <;> exact h
  exact k.reach ks (fun _ _ e _ ho => by cases e <;> first | exact ho | trivial) h pid sid hs

theorem Reach.mono {ok ok' : PM → Clock → PMEvent → Prop} (hm : ∀ s now e, ok s now e → ok' s now e) {s : PM} (h : PM.Reach cfg ok s) : PM.Reach cfg ok' s := by
  induction h with
  | start now saved => exact .start now saved
  | step now e _ ho ih => exact .step now e ih (hm _ _ _ ho)

/-- **C56** (partial): if a peer is attached only while it has no session, and session ids are not reused, the two tables are inverse to
each other.  Missing: a second attach of the same peer (`C56_refuted`). -/
theorem C56_tables_inverse_partial {s : PM} (h : PM.Reach cfg (FreshAttach cfg) s) (pid : Pid) (sid : Sid) :
    s.peerSession pid = some sid ↔ s.sessionPeer sid = some pid := by
  refine ⟨fun hs => C56_session_maps_back (Reach.mono (fun s now e ho => ?_) h) hs, fun hs => ?_⟩
  · cases e <;> first | exact ho.1 | trivial
  have k : Kept cfg (fun s key sid => s.sessionPeer sid = none ∧ s.peerSession (cfg.pidOf key) = none) (fun _ => True)
      (fun t => ∀ pid sid, t.sessionPeer sid = some pid → t.peerSession pid = some sid) := by
    have close : ∀ (now : Clock) (s : PM) (pid : Pid), (∀ pid sid, s.sessionPeer sid = some pid → s.peerSession pid = some sid) →
        ∀ i sid, (s.closeSession now pid).sessionPeer sid = some i → (s.closeSession now pid).peerSession i = some sid := by
      intro now s pid h i sid hs
      rw [close_sessionPeer] at hs
      rw [close_peerSession]
      by_cases e : i = pid
      · subst e
        split at hs
        · rename_i sid' hs'
          by_cases e' : sid = sid'
          · subst e'; rw [upd_same] at hs; cases hs
          · rw [upd_ne _ _ e'] at hs
            have := h _ _ hs; rw [hs'] at this; cases this; exact absurd rfl e'
        · rename_i hs'
          have := h _ _ hs; rw [hs'] at this; cases this
      · rw [upd_ne _ _ e]
        split at hs
        · rename_i sid' hs'
          by_cases e' : sid = sid'
          · subst e'; rw [upd_same] at hs; cases hs
          · rw [upd_ne _ _ e'] at hs; exact h _ _ hs
        · exact h _ _ hs
    refine ⟨fun q h pid sid hs => ?_, fun now s key sid a ob h hf pid sid' hs => ?_, fun now s pid h _ i sid hs => close now s pid h i sid hs,
      fun now s pid h _ _ i sid hs => ?_, fun s pid h => ?_, fun _ _ => trivial, fun _ _ => trivial⟩
    · rw [q.peerSession]; rw [q.sessionPeer] at hs; exact h pid sid hs
    · obtain ⟨_, _, h2, h3, _⟩ := attach_tables cfg now s key sid a ob
      rw [h2]
      rw [h3] at hs
      by_cases e : sid' = sid
      · subst e; rw [upd_same] at hs; cases hs; rw [upd_same]
      · rw [upd_ne _ _ e] at hs
        have := h pid sid' hs
        rw [upd_ne]
        · exact this
        · rintro rfl; rw [hf.2] at this; cases this
    · rw [(remove_sessions _ _).2] at hs
      rw [(remove_sessions _ _).1]
      exact close now s pid h i sid hs
    · unfold connectPeer; split <;> exact h
  have ks : KeptStart cfg (fun t => ∀ pid sid, t.sessionPeer sid = some pid → t.peerSession pid = some sid) := by
    refine ⟨fun _ _ _ h => (by cases h), fun _ {_} _ _ h => h, fun t p _ h => ?_, fun _ h => h⟩
    unfold connectPeer; split <;> exact h
  exact k.reach ks (fun _ _ e _ ho => by cases e <;> first | exact ho | trivial) h pid sid hs

/-- **C56 refuted** in general: whenever a peer with session `sid` is attached on a second session, the old session keeps pointing to the
peer although the peer's session is the new one. -/
theorem C56_refuted_stale {s : PM} (key : PubKey) (sid sid2 : Sid)
    (hs : s.sessionPeer sid = some (cfg.pidOf key)) (hne : sid ≠ sid2) (now : Clock) (a : Maddr) (ob : Bool) :
    let t := (s.step cfg now (.attach key sid2 a ob)).1
    t.sessionPeer sid = some (cfg.pidOf key) ∧ t.peerSession (cfg.pidOf key) = some sid2 := by
  obtain ⟨_, _, h2, h3, _⟩ := attach_tables cfg now s key sid2 a ob
  have e1 : (s.attach cfg now key sid2 a ob).sessionPeer sid = some (cfg.pidOf key) := by rw [h3, upd_ne _ _ hne]; exact hs
  have e2 : (s.attach cfg now key sid2 a ob).peerSession (cfg.pidOf key) = some sid2 := by rw [h2, upd_same]
  exact ⟨e1, e2⟩

/-! ### A small network for examples -/

/-- Three keys: ours (0), a bootstrap peer (1) and another (2); ids are keys + 10, users keys + 100. -/
def demoCfg : PMCfg where
  ourId := 10
  pubkey := 0
  bootstraps := [⟨11, 101, 1, [[.other 1, .other 2]], 0, 0, 0, 0, 0⟩]
  maxConnections := 2
  pidOf k := k + 10
  userOf k := k + 100

theorem demoCfg_good : GoodCfg demoCfg := by
  refine ⟨fun k k' => ?_, rfl, fun p hp => ?_⟩
  · simp [demoCfg]
  · simp only [demoCfg, List.mem_singleton] at hp; subst hp; exact ⟨rfl, rfl⟩

/-- The state of the demo manager after some events, one per ten seconds. -/
def demoRun (es : List PMEvent) : PM := (es.foldl (fun (x : PM × Nat) e => ((x.1.step demoCfg ⟨x.2, x.2⟩ e).1, x.2 + 10)) ((PM.start demoCfg ⟨0, 0⟩ []).1, 10)).1

theorem demoRun_hist (es : List PMEvent) : Hist demoCfg es (demoRun es) := by
  have main : ∀ (es pre : List PMEvent) (x : PM × Nat), Hist demoCfg pre x.1 →
      Hist demoCfg (pre ++ es) (es.foldl (fun (x : PM × Nat) e => ((x.1.step demoCfg ⟨x.2, x.2⟩ e).1, x.2 + 10)) x).1 := by
    intro es
    induction es with
    | nil => intro pre x h; simpa using h
    | cons e es ih =>
      intro pre x h
      have := ih (pre ++ [e]) ((x.1.step demoCfg ⟨x.2, x.2⟩ e).1, x.2 + 10) (.step _ e h)
      simpa using this
  simpa [demoRun] using main es [] ((PM.start demoCfg ⟨0, 0⟩ []).1, 10) (.start _ _)

/-- C55 on a real case: of the bootstrap peer (connected on session 7), a peer known but not connected, and a stranger, the first gets the message,
the others are reported. -/
example : UserSession demoCfg (demoRun [.attach 2 8 [] false, .detach 12, .attach 1 7 [] true]) 101 7 ∧
    ((demoRun [.attach 2 8 [] false, .detach 12, .attach 1 7 [] true]).route [102, 101, 105] 42).2 = [102, 105] ∧
    ((demoRun [.attach 2 8 [] false, .detach 12, .attach 1 7 [] true]).route [102, 101, 105] 42).1 = [.send [7] 42, .connect []] := by
  refine ⟨⟨1, rfl, ?_⟩, ?_, ?_⟩ <;> decide +kernel

/-- **C56 refuted**: a reachable state in which a session points to a peer without a session. -/
theorem C56_refuted : ∃ (es : List PMEvent) (s : PM), Hist demoCfg es s ∧ s.sessionPeer 7 = some 12 ∧ s.peerSession 12 = none :=
  ⟨_, _, demoRun_hist [.attach 2 7 [] true, .attach 2 8 [] true, .detach 12], by decide +kernel, by decide +kernel⟩

/-- **C56 refuted**, a consequence: the end of the old, dead session then removes the peer and its living session. -/
theorem C56_refuted_kicks_live_peer : ∃ (es : List PMEvent) (s : PM), Hist demoCfg es s ∧ s.peerSession 12 = some 8 ∧
    (s.step demoCfg ⟨100, 100⟩ (.removeBySession 7)).1.peerSession 12 = none ∧
    (s.step demoCfg ⟨100, 100⟩ (.removeBySession 7)).1.pool 12 = none :=
  ⟨_, _, demoRun_hist [.attach 2 7 [] true, .attach 2 8 [] true], by decide +kernel, by decide +kernel, by decide +kernel⟩

/-- C56 on a real case: two peers attached in turn, one detached and attached again on a fresh session, tables inverse. -/
example : ∃ s, PM.Reach demoCfg (FreshAttach demoCfg) s ∧ s.sessionPeer 9 = some 12 ∧ s.peerSession 12 = some 9 ∧ s.sessionPeer 7 = some 11 ∧ s.sessionPeer 8 = none := by
  refine ⟨_, .step ⟨40, 40⟩ (.attach 2 9 [] true) (.step ⟨30, 30⟩ (.detach 12) (.step ⟨20, 20⟩ (.attach 2 8 [] false)
    (.step ⟨10, 10⟩ (.attach 1 7 [] true) (.start ⟨0, 0⟩ []) ?_) ?_) trivial) ?_, ?_, ?_, ?_, ?_⟩
  · exact ⟨by decide +kernel, by decide +kernel⟩
  · exact ⟨by decide +kernel, by decide +kernel⟩
  · exact ⟨by decide +kernel, by decide +kernel⟩
  all_goals decide +kernel

/-! ### C57: bootstrap peers -/

/-- **C57**: whatever happens, every bootstrap peer stays in the pool. -/
theorem C57_bootstrap_peers_stay {ok : PM → Clock → PMEvent → Prop} {s : PM} (h : PM.Reach cfg ok s) {p : Peer} (hp : p ∈ cfg.bootstraps) :
    s.pool p.id ≠ none := by
  have k : Kept cfg (fun _ _ _ => True) (fun _ => True) (fun t => t.pool p.id ≠ none) := by
    have close : ∀ (now : Clock) (s : PM) (pid i : Pid), s.pool i ≠ none → (s.closeSession now pid).pool i ≠ none := by
      intro now s pid i h
      rw [close_pool]
      by_cases e : i = pid
      · subst e; rw [upd_same]
        cases hx : s.pool i with
        | none => exact absurd hx h
        | some _ => simp
      · rwa [upd_ne _ _ e]
    refine ⟨fun {s t} q h => ?_, fun now s key sid a ob h _ => ?_, fun now s pid h _ => close now s pid _ h,
      fun now s pid h _ hb => ?_, fun s pid h => ?_, fun _ _ => trivial, fun _ _ => trivial⟩
    · have := q.pool p.id
      split at this
      · rename_i x; exact absurd x h
      · obtain ⟨r, hr, _⟩ := this; rw [hr]; simp
    · have h1 : (s.attachPool cfg now key (if ob then some a else none)).pool p.id ≠ none := by
        rcases attachPool_cases cfg now s key (if ob then some a else none) with ⟨-, q⟩ | ⟨-, t, addrs, q, hpool, e⟩
        · have := q.pool p.id
          split at this
          · rename_i x; exact absurd x h
          · obtain ⟨r, hr, _⟩ := this; rw [hr]; simp
        · rw [e]
          show upd t.pool _ _ _ ≠ none
          unfold upd; split
          · simp
          · rw [hpool]; exact h
      show upd (s.attachPool cfg now key (if ob then some a else none)).pool _ _ _ ≠ none
      unfold upd; split
      · rename_i e; rw [← e]
        cases hx : (s.attachPool cfg now key (if ob then some a else none)).pool p.id with
        | none => exact absurd hx h1
        | some _ => simp
      · exact h1
    · rw [remove_pool, upd_ne]
      · exact close now s pid _ h
      · intro e
        have : isBootstrap cfg pid = true := by
          unfold isBootstrap; exact List.any_eq_true.2 ⟨p, hp, by simp [e]⟩
        rw [this] at hb; cases hb
    · unfold connectPeer; split <;> exact h
  have ks : ∀ now saved, (PM.start cfg now saved).1.pool p.id ≠ none := by
    intro now saved
    have main : ∀ (l : List Peer) (s : PM), (p ∈ l ∨ s.pool p.id ≠ none) → (l.foldl (fun s p => (s.addPeer p).connectPeer p.id) s).pool p.id ≠ none := by
      intro l
      induction l with
      | nil => intro s h; exact h.resolve_left (by simp)
      | cons q l ih =>
        intro s h
        refine ih _ ?_
        have e : ((s.addPeer q).connectPeer q.id).pool = upd s.pool q.id (some q) := by unfold connectPeer; split <;> rfl
        rw [e]
        rcases h with h | h
        · cases h with
          | head => exact .inr (by rw [upd_same]; simp)
          | tail _ h => exact .inl h
        · refine .inr ?_
          unfold upd; split
          · simp
          · exact h
    exact main _ _ (.inl hp)
  induction h with
  | start now saved => exact ks now saved
  | step now e _ _ ih => exact k.step now e ih (by cases e <;> trivial)

/-- Bootstrap addresses `B` of other nodes are not taken away. -/
def BootKeep (cfg : PMCfg) (B : List Maddr) (s t : PM) : Prop :=
  ∀ pid, isBootstrap cfg pid = true → pid ≠ cfg.ourId → ∀ p, s.pool pid = some p → ∃ q, t.pool pid = some q ∧ ∀ a ∈ p.addrs, a ∈ B → a ∈ q.addrs

theorem BootKeep.of_pool {B : List Maddr} {s t : PM} (h : t.pool = s.pool) : BootKeep cfg B s t := by
  intro pid _ _ p hp
  exact ⟨p, by rw [h]; exact hp, fun _ h _ => h⟩

theorem BootKeep.trans {B : List Maddr} {s t u : PM} (h : BootKeep cfg B s t) (k : BootKeep cfg B t u) : BootKeep cfg B s u := by
  intro pid hb hn p hp
  obtain ⟨q, hq, h1⟩ := h pid hb hn p hp
  obtain ⟨r, hr, h2⟩ := k pid hb hn q hq
  exact ⟨r, hr, fun a ha hB => h2 a (h1 a ha hB) hB⟩

theorem BootKeep.map {B : List Maddr} {s t : PM} (pid : Pid) (f : Peer → Peer) (hf : isBootstrap cfg pid = true → pid ≠ cfg.ourId → ∀ p, ∀ a ∈ p.addrs, a ∈ B → a ∈ (f p).addrs)
    (h : t.pool = upd s.pool pid ((s.pool pid).map f)) : BootKeep cfg B s t := by
  intro i hb hn p hp
  rw [h]
  by_cases e : i = pid
  · subst e; rw [upd_same, hp]; exact ⟨f p, rfl, hf hb hn p⟩
  · rw [upd_ne _ _ e]; exact ⟨p, hp, fun _ h _ => h⟩

theorem bootKeep_addPeerAddr {B : List Maddr} (s : PM) (pid : Pid) (a : Maddr) : BootKeep cfg B s (s.addPeerAddr pid a) := by
  unfold addPeerAddr
  split
  · exact .of_pool rfl
  · rename_i p e
    refine .map pid (fun p => { p with addrs := setInsert p.addrs a }) (fun _ _ p b hb _ => mem_setInsert.2 (.inr hb)) ?_
    simp [e]

theorem bootKeep_close {B : List Maddr} (now : Clock) (s : PM) (pid : Pid) : BootKeep cfg B s (s.closeSession now pid) :=
  .map pid (fun p => { p with alive := secsBetween now.secs p.connectAt }) (fun _ _ _ _ h _ => h) (close_pool ..)

theorem bootKeep_modify {B : List Maddr} (s : PM) (pid : Pid) (f : Peer → Peer) (hf : ∀ p, (f p).addrs = p.addrs) : BootKeep cfg B s (s.modify pid f) :=
  .map pid f (fun _ _ p a h _ => by rw [hf]; exact h) rfl

theorem bootKeep_cleanlyRemove {B : List Maddr} (now : Clock) (s : PM) (pid : Pid) : BootKeep cfg B s (s.cleanlyRemove cfg now pid) := by
  unfold PM.cleanlyRemove
  simp only
  split
  · exact (bootKeep_close now s pid).trans (bootKeep_modify _ _ _ fun p => by rw [increaseRetry_addrs, increaseRetry_addrs]; rfl)
  · rename_i hb
    refine (bootKeep_close now s pid).trans fun i hi _ p hp => ⟨p, ?_, fun _ h _ => h⟩
    rw [remove_pool, upd_ne]
    · exact hp
    · rintro rfl; exact hb hi

theorem bootKeep_increase {B : List Maddr} (now : Clock) (s : PM) (pid : Pid) : BootKeep cfg B s (s.increasePeerRetry cfg now pid) := by
  unfold PM.increasePeerRetry
  have := bootKeep_modify (cfg := cfg) (B := B) s pid (fun p => p.increaseRetry now) (fun p => increaseRetry_addrs p now)
  simp only
  split
  · exact this.trans (bootKeep_cleanlyRemove _ _ _)
  · exact this

theorem bootKeep_foldl {α : Type} {B : List Maddr} (f : PM → α → PM) (hf : ∀ s a, BootKeep cfg B s (f s a)) (l : List α) (s : PM) : BootKeep cfg B s (l.foldl f s) := by
  induction l generalizing s with
  | nil => exact .of_pool rfl
  | cons a l ih => exact (hf s a).trans (ih _)

theorem bootKeep_identifyAddr {B : List Maddr} (s : PM) (a : Maddr) : BootKeep cfg B s (s.identifyAddr a) := by
  unfold identifyAddr; split
  · split
    · exact bootKeep_addPeerAddr _ _ _
    · exact .of_pool rfl
  · split <;> exact .of_pool rfl

theorem dials_pool (l : List Pid) (s : PM) : (l.foldl PM.connectPeer s).pool = s.pool := by
  induction l generalizing s with
  | nil => rfl
  | cons x l ih =>
    rw [List.foldl_cons, ih]
    unfold connectPeer; split <;> rfl

theorem bootKeep_step (now : Clock) (s : PM) (e : PMEvent) : BootKeep cfg s.bootAddrs s (s.step cfg now e).1 := by
  cases e with
  | attach key sid a ob =>
    have h1 : BootKeep cfg s.bootAddrs s (s.attachPool cfg now key (if ob then some a else none)) := by
      unfold attachPool
      split
      · rename_i hn
        intro pid _ _ p hp
        refine ⟨p, ?_, fun _ h _ => h⟩
        have : pid ≠ cfg.pidOf key := by rintro rfl; rw [hn] at hp; cases hp
        unfold addNewPeer
        split
        · show upd s.pool (cfg.pidOf key) _ pid = some p
          rw [upd_ne _ _ this]; exact hp
        · show upd s.pool (cfg.pidOf key) _ pid = some p
          rw [upd_ne _ _ this]; exact hp
      · exact bootKeep_addPeerAddr _ _ _
      · exact .of_pool rfl
    exact h1.trans (.map (cfg.pidOf key) (fun p => { p with connectAt := now.secs }) (fun _ _ _ _ h _ => h) rfl)
  | detach pid =>
    simp only [PM.step, PM.detach]
    split
    · split
      · exact (bootKeep_close _ _ _).trans (bootKeep_increase _ _ _)
      · exact bootKeep_close _ _ _
    · exact bootKeep_close _ _ _
  | alive pid => exact bootKeep_modify _ _ _ fun _ => rfl
  | remove pid => exact bootKeep_cleanlyRemove _ _ _
  | removeBySession sid =>
    simp only [PM.step]
    split
    · exact bootKeep_cleanlyRemove _ _ _
    · rename_i e; rw [detachSession, e]; exact .of_pool rfl
  | retryLater pid =>
    simp only [PM.step]
    split <;> exact bootKeep_increase _ _ _
  | discover addrs => exact bootKeep_foldl _ bootKeep_identifyAddr _ _
  | identified pid addrs => exact bootKeep_foldl _ (fun s a => bootKeep_addPeerAddr s pid a) _ _
  | repeated dialer sid a =>
    simp only [PM.step]
    split
    · unfold addSessionAddr; simp only; split
      · exact BootKeep.trans (t := { s with unknown := upd s.unknown a none }) (.of_pool rfl) (bootKeep_addPeerAddr _ _ _)
      · exact .of_pool rfl
    · exact .of_pool rfl
  | unconnectable a =>
    simp only [PM.step, PM.unconnectable]
    split
    · exact .of_pool rfl
    · rename_i ha
      refine BootKeep.trans (t := { s with unknown := upd s.unknown a none }) (.of_pool rfl) ?_
      unfold tryRemoveAddr
      split
      · rename_i pid _
        refine .map pid (fun p => { p with addrs := setRemove p.addrs a }) (fun _ _ p b hb hB => ?_) rfl
        refine mem_setRemove.2 ⟨hb, ?_⟩
        rintro rfl; exact ha hB
      · exact .of_pool rfl
  | reconnectLater a =>
    have h1 : BootKeep cfg s.bootAddrs s (s.reconnectUnknown a) := by
      unfold reconnectUnknown; split <;> exact .of_pool rfl
    simp only [PM.step, PM.reconnectLater]
    split
    · split
      · exact h1
      · exact h1.trans (bootKeep_increase _ _ _)
    · exact h1
  | addListen a => exact bootKeep_addPeerAddr _ _ _
  | removeListen a => exact .map cfg.ourId (fun p => { p with addrs := setRemove p.addrs a }) (fun _ h => absurd rfl h) rfl
  | route us msg => exact .of_pool rfl
  | routine pids addrs =>
    simp only [PM.step, PM.routine]
    split
    · exact .of_pool rfl
    · split
      · refine .of_pool ?_
        show (pids.foldl PM.connectPeer s).pool = s.pool
        exact dials_pool pids s
      · exact .of_pool rfl

/-- **C57**: whatever happens, every bootstrap peer other than the node itself keeps every address it is configured with. -/
theorem C57_bootstrap_addresses_stay {ok : PM → Clock → PMEvent → Prop} (hd : (cfg.bootstraps.map Peer.id).Nodup) {s : PM} (h : PM.Reach cfg ok s)
    {p : Peer} (hp : p ∈ cfg.bootstraps) (hself : p.id ≠ cfg.ourId) : ∃ q, s.pool p.id = some q ∧ ∀ a ∈ p.addrs, a ∈ q.addrs := by
  have hboot : isBootstrap cfg p.id = true := List.any_eq_true.2 ⟨p, hp, by simp⟩
  suffices h : (∃ q, s.pool p.id = some q ∧ ∀ a ∈ p.addrs, a ∈ q.addrs) ∧ ∀ a ∈ p.addrs, a ∈ s.bootAddrs from h.1
  induction h with
  | start now saved =>
    constructor
    · have main : ∀ (l : List Peer) (s : PM), (l.map Peer.id).Nodup → (p ∈ l ∨ p.id ∉ l.map Peer.id ∧ s.pool p.id = some p) →
          (l.foldl (fun s p => (s.addPeer p).connectPeer p.id) s).pool p.id = some p := by
        intro l
        induction l with
        | nil => intro s _ h; exact (h.resolve_left (by simp)).2
        | cons q l ih =>
          intro s hn h
          rw [List.map_cons, List.nodup_cons] at hn
          refine ih _ hn.2 ?_
          have e : ((s.addPeer q).connectPeer q.id).pool = upd s.pool q.id (some q) := by unfold connectPeer; split <;> rfl
          rw [e]
          rcases h with h | ⟨h1, h2⟩
          · cases h with
            | head => exact .inr ⟨hn.1, by rw [upd_same]⟩
            | tail _ h => exact .inl h
          · rw [List.map_cons, List.mem_cons, not_or] at h1
            exact .inr ⟨h1.2, by rw [upd_ne _ _ h1.1]; exact h2⟩
      exact ⟨p, main _ _ hd (.inl hp), fun _ h => h⟩
    · intro a ha
      exact List.mem_append_left _ (List.mem_flatMap.2 ⟨p, hp, ha⟩)
  | @step s now e _ _ ih =>
    obtain ⟨⟨q, hq, h1⟩, h2⟩ := ih
    constructor
    · obtain ⟨r, hr, h3⟩ := bootKeep_step now s e p.id hboot hself q hq
      exact ⟨r, hr, fun a ha => h3 a (h1 a ha) (h2 a ha)⟩
    · have k : Kept cfg (fun _ _ _ => True) (fun _ => True) (fun t => ∀ a ∈ p.addrs, a ∈ t.bootAddrs) := by
        refine ⟨fun q h => by rwa [q.bootAddrs], fun now s key sid a ob h _ => ?_, fun now s pid h _ => by rwa [close_bootAddrs],
          fun now s pid h _ _ => ?_, fun s pid h => ?_, fun _ _ => trivial, fun _ _ => trivial⟩
        · rw [(attach_tables cfg now s key sid a ob).2.2.2.2]; exact h
        · have : ((s.closeSession now pid).removePeer pid).bootAddrs = (s.closeSession now pid).bootAddrs := by
            unfold removePeer; simp only; split <;> rfl
          rw [this, close_bootAddrs]; exact h
        · unfold connectPeer; split <;> exact h
      exact k.step now e h2 (by cases e <;> trivial)

/-- C57 on a real case: the bootstrap peer fails until its retries are used up and is removed, yet stays with its address; the other peer is gone. -/
example : (demoRun [.remove 11, .attach 2 7 [] true, .remove 12, .unconnectable [.other 1, .other 2]]).pool 12 = none ∧
    ((demoRun [.remove 11, .attach 2 7 [] true, .remove 12, .unconnectable [.other 1, .other 2]]).pool 11).map Peer.addrs = some [[.other 1, .other 2]] := by
  constructor <;> decide +kernel

/-! ### C58: the connection count and the dialling limit -/

/-- No event is about the node itself. -/
def NoSelf (cfg : PMCfg) (_ : PM) (_ : Clock) : PMEvent → Prop
  | .attach key _ _ _ => cfg.pidOf key ≠ cfg.ourId
  | .detach pid => pid ≠ cfg.ourId
  | .remove pid => pid ≠ cfg.ourId
  | .retryLater pid => pid ≠ cfg.ourId
  | _ => True

structure CountInv (cfg : PMCfg) (s : PM) : Prop where
  self : cfg.ourId ∈ s.connected
  noSession : ∀ sid, s.sessionPeer sid ≠ some cfg.ourId
  nodup1 : s.connected.Nodup
  nodup2 : s.connecting.Nodup
  disj : ∀ pid ∈ s.connecting, pid ∉ s.connected

theorem CountInv.dial {s : PM} (pid : Pid) (h : CountInv cfg s) : CountInv cfg (s.connectPeer pid) := by
  unfold connectPeer
  split
  · exact h
  · rename_i hn
    refine ⟨h.self, h.noSession, h.nodup1, nodup_setInsert h.nodup2, fun i hi => ?_⟩
    rcases mem_setInsert.1 hi with rfl | hi
    · exact hn
    · exact h.disj i hi

theorem CountInv.close (now : Clock) {s : PM} (pid : Pid) (h : CountInv cfg s) (hc : pid ≠ cfg.ourId) : CountInv cfg (s.closeSession now pid) := by
  refine ⟨?_, fun sid => ?_, ?_, ?_, fun i hi => ?_⟩
  · rw [close_connected, mem_setRemove]; exact ⟨h.self, fun e => hc e.symm⟩
  · rw [close_sessionPeer]
    split
    · simp only [upd]; split
      · simp
      · exact h.noSession sid
    · exact h.noSession sid
  · rw [close_connected]; exact nodup_setRemove h.nodup1
  · rw [close_connecting]; exact nodup_setRemove h.nodup2
  · rw [close_connecting, mem_setRemove] at hi
    rw [close_connected, mem_setRemove]
    exact fun x => h.disj i hi.1 x.1

theorem CountInv.kept : Kept cfg (fun _ key _ => cfg.pidOf key ≠ cfg.ourId) (fun pid => pid ≠ cfg.ourId) (CountInv cfg) where
  quiet q h := ⟨by rw [q.connected]; exact h.self, by rw [q.sessionPeer]; exact h.noSession, by rw [q.connected]; exact h.nodup1,
    by rw [q.connecting]; exact h.nodup2, by rw [q.connecting, q.connected]; exact h.disj⟩
  attach now s key sid a ob h hk := by
    obtain ⟨h1, h2, _, h3, _⟩ := attach_tables cfg now s key sid a ob
    refine ⟨?_, fun sid' => ?_, ?_, ?_, fun i hi => ?_⟩
    · rw [h1, mem_setInsert]; exact .inr h.self
    · rw [h3]; unfold upd; split
      · simpa using hk
      · exact h.noSession sid'
    · rw [h1]; exact nodup_setInsert h.nodup1
    · rw [h2]; exact nodup_setRemove h.nodup2
    · rw [h2, mem_setRemove] at hi
      rw [h1, mem_setInsert]
      rintro (x | x)
      · exact hi.2 x
      · exact h.disj i hi.1 x
  close now s pid h hc := h.close now pid hc
  removeClosed now s pid h hc _ := by
    have hh := h.close now pid hc
    generalize s.closeSession now pid = t at *
    refine ⟨?_, fun sid => ?_, ?_, ?_, fun i hi => ?_⟩
    · rw [remove_connected, mem_setRemove]; exact ⟨hh.self, fun e => hc e.symm⟩
    · rw [(remove_sessions t pid).2]; exact hh.noSession sid
    · rw [remove_connected]; exact nodup_setRemove hh.nodup1
    · rw [remove_connecting]; exact nodup_setRemove hh.nodup2
    · rw [remove_connecting, mem_setRemove] at hi
      rw [remove_connected, mem_setRemove]
      exact fun x => hh.disj i hi.1 x.1
  dial _ pid h := h.dial pid
  fromSession h hs := fun e => h.noSession _ (e ▸ hs)
  offline h hn := fun e => hn (e ▸ h.self)

theorem CountInv.keptStart : KeptStart cfg (CountInv cfg) where
  fresh now := ⟨by simp [PM.new], by simp [PM.new], by simp [PM.new], by simp [PM.new], by simp [PM.new]⟩
  saved now s key addrs h := ⟨h.self, h.noSession, h.nodup1, h.nodup2, h.disj⟩
  boot s p _ h := CountInv.dial (s := s.addPeer p) p.id ⟨h.self, h.noSession, h.nodup1, h.nodup2, h.disj⟩
  bootAddrs _ h := ⟨h.self, h.noSession, h.nodup1, h.nodup2, h.disj⟩

theorem Reach.countInv {s : PM} (h : PM.Reach cfg (NoSelf cfg) s) : CountInv cfg s :=
  CountInv.kept.reach CountInv.keptStart (fun _ _ e _ ho => by cases e <;> first | exact ho | trivial) h

/-- Specification: the peers other than the node itself that are connected or being dialled. -/
def others (cfg : PMCfg) (s : PM) : List Pid := (s.connected ++ s.connecting).filter (fun pid => decide (pid ≠ cfg.ourId))

/-- **C58** (partial): as long as no event is about the node itself, the connection count does not underflow; it is the number of peers other
than the node itself that are connected or being dialled, none of them counted twice.  Missing: events about the node itself (`C58_refuted`). -/
theorem C58_count_partial {s : PM} (h : PM.Reach cfg (NoSelf cfg) s) :
    s.connectionCount = some (others cfg s).length ∧ (others cfg s).Nodup := by
  have inv := Reach.countInv h
  have hnd : (s.connected ++ s.connecting).Nodup := by
    rw [List.nodup_append]
    exact ⟨inv.nodup1, inv.nodup2, fun a ha b hb e => inv.disj b hb (e ▸ ha)⟩
  have hlen : ∀ l : List Pid, l.Nodup → cfg.ourId ∈ l → (l.filter (fun pid => decide (pid ≠ cfg.ourId))).length + 1 = l.length := by
    intro l
    induction l with
    | nil => intro _ h; cases h
    | cons x l ih =>
      intro hn hm
      rw [List.nodup_cons] at hn
      by_cases e : x = cfg.ourId
      · subst e
        have : l.filter (fun pid => decide (pid ≠ cfg.ourId)) = l := by
          rw [List.filter_eq_self]
          intro a ha
          exact decide_eq_true (fun e => hn.1 (e ▸ ha))
        rw [List.filter_cons_of_neg (by simp), this]; rfl
      · have hm' : cfg.ourId ∈ l := by
          cases hm with
          | head => exact absurd rfl e
          | tail _ h => exact h
        rw [List.filter_cons_of_pos (by simp [e]), List.length_cons, ih hn.2 hm', List.length_cons]
  refine ⟨?_, hnd.filter _⟩
  have h1 := hlen _ hnd (List.mem_append_left _ inv.self)
  rw [List.length_append] at h1
  unfold connectionCount others
  rw [if_neg (by omega)]
  congr 1
  omega

theorem dials_others {cfg : PMCfg} (l : List Pid) (s : PM) : (others cfg (l.foldl PM.connectPeer s)).length ≤ (others cfg s).length + l.length := by
  induction l generalizing s with
  | nil => simp
  | cons x l ih =>
    rw [List.foldl_cons]
    refine Nat.le_trans (ih _) ?_
    have : (others cfg (s.connectPeer x)).length ≤ (others cfg s).length + 1 := by
      unfold connectPeer
      split
      · omega
      · unfold others setInsert
        simp only
        split
        · omega
        · rw [List.filter_append, List.filter_append, List.length_append, List.length_append, List.filter_cons]
          split
          · simp only [List.length_cons]; omega
          · omega
    rw [List.length_cons]; omega

/-- **C58** (partial): one round of dialling opens at most as many new connections (peers and unknown addresses together) as there are free slots,
dials only peers that are neither connected nor being dialled and whose waiting time is over, never the node itself, and does nothing when no slot is free. -/
theorem C58_round_partial {s : PM} (h : PM.Reach cfg (NoSelf cfg) s) (now : Clock) {pids : List Pid} {addrs : List Maddr}
    (hv : ValidChoice cfg now s (others cfg s).length pids addrs) :
    let t := s.routine cfg pids addrs
    (pids.length + addrs.length ≤ cfg.maxConnections - (others cfg s).length) ∧
    (cfg.maxConnections ≤ (others cfg s).length → t = (s, [])) ∧
    (others cfg t.1).length ≤ max cfg.maxConnections (others cfg s).length ∧
    cfg.ourId ∉ pids ∧
    (∀ pid ∈ pids, pid ∉ s.connected ∧ pid ∉ s.connecting ∧ ∃ p, s.pool pid = some p ∧ p.nextRetry < now.tick) ∧
    ((others cfg s).length < cfg.maxConnections → ∀ pid ∈ pids, pid ∈ t.1.connecting) := by
  obtain ⟨hc, _⟩ := C58_count_partial h
  have inv := Reach.countInv h
  have hq : ∀ pid ∈ pids, pid ∉ s.connected ∧ pid ∉ s.connecting ∧ ∃ p, s.pool pid = some p ∧ p.nextRetry < now.tick := by
    intro pid hp
    have := hv.pidsOk pid hp
    unfold qualified at this
    split at this
    · rename_i p e
      simp only [Bool.and_eq_true, Bool.not_eq_true', decide_eq_false_iff_not, Peer.retryReady, decide_eq_true_eq] at this
      exact ⟨this.1.1, this.1.2, p, e, this.2⟩
    · cases this
  have hm1 := hv.pidsMax
  have hm2 := hv.addrsMax
  refine ⟨by omega, fun hfull => ?_, ?_, fun hs => (hq _ hs).1 inv.self, hq, fun hlt pid hp => ?_⟩
  · unfold PM.routine
    rw [hc]; simp only
    rw [if_neg (by omega)]
  · unfold PM.routine
    rw [hc]; simp only
    split
    · have := dials_others (cfg := cfg) pids s
      show (others cfg (pids.foldl PM.connectPeer s)).length ≤ _
      omega
    · show (others cfg s).length ≤ _
      omega
  · unfold PM.routine
    rw [hc]; simp only
    rw [if_pos hlt]
    show pid ∈ (pids.foldl PM.connectPeer s).connecting
    have mono : ∀ (l : List Pid) (s : PM), pid ∈ s.connecting → pid ∈ (l.foldl PM.connectPeer s).connecting := by
      intro l
      induction l with
      | nil => exact fun _ h => h
      | cons x l ih =>
        intro s h
        refine ih _ ?_
        unfold connectPeer; split
        · exact h
        · exact mem_setInsert.2 (.inr h)
    have main : ∀ (l : List Pid) (s : PM), pid ∈ l → pid ∉ s.connected → pid ∈ (l.foldl PM.connectPeer s).connecting := by
      intro l
      induction l with
      | nil => intro _ h; cases h
      | cons x l ih =>
        intro s h hn
        rw [List.foldl_cons]
        have e : (s.connectPeer x).connected = s.connected := by unfold connectPeer; split <;> rfl
        cases h with
        | head =>
          refine mono _ _ ?_
          unfold connectPeer; rw [if_neg hn]; exact mem_setInsert.2 (.inl rfl)
        | tail _ h => exact ih _ h (by rw [e]; exact hn)
    exact main pids s hp (hq pid hp).1

/-- A network without bootstrap peers. -/
def loneCfg : PMCfg := { demoCfg with bootstraps := [] }

/-- **C58 refuted**: a node that dials itself and is then disconnected counts `0 - 1` connections (a panic in a debug build, a wrapped count that
stops all dialling in a release build).  The transport is trusted to report a dial to itself as such
(`TentacleError::ConnectSelf`, keeper.rs:87-91) instead of opening a session. -/
theorem C58_refuted : ∃ s, PM.Reach loneCfg (fun _ _ _ => True) s ∧ s.connectionCount = none ∧ ∀ pids addrs, s.routine loneCfg pids addrs = (s, []) := by
  have hc : ((((PM.start loneCfg ⟨0, 0⟩ []).1.step loneCfg ⟨10, 10⟩ (.attach 0 7 [] true)).1.step loneCfg ⟨20, 20⟩ (.detach 10)).1).connectionCount = none := by
    decide +kernel
  exact ⟨_, .step ⟨20, 20⟩ (.detach 10) (.step ⟨10, 10⟩ (.attach 0 7 [] true) (.start ⟨0, 0⟩ []) trivial) trivial, hc, fun _ _ => by unfold PM.routine; rw [hc]⟩

/-- **C58 refuted**, across rounds: unknown addresses being dialled are not counted, so the next round has as many free slots as before. -/
theorem C58_refuted_unknown_not_counted (s : PM) (addrs : List Maddr) : (s.routine cfg [] addrs).1.connectionCount = s.connectionCount := by
  unfold PM.routine
  split
  · rfl
  · split <;> rfl

/-- **C58 refuted**, across rounds, an instance: with a limit of 2 connections, one of them taken, two rounds dial two unknown addresses. -/
theorem C58_refuted_rounds :
    let s := demoRun [.discover [[.other 3, .other 4], [.other 5, .other 6]]]
    let s' := (s.routine demoCfg [] [[.other 3, .other 4]]).1
    (others demoCfg s).length = 1 ∧ demoCfg.maxConnections = 2 ∧
    ValidChoice demoCfg ⟨20, 20⟩ s 1 [] [[.other 3, .other 4]] ∧ ValidChoice demoCfg ⟨30, 30⟩ s' 1 [] [[.other 5, .other 6]] ∧
    (s.routine demoCfg [] [[.other 3, .other 4]]).2 = [.connect [[.other 3, .other 4]]] ∧
    (s'.routine demoCfg [] [[.other 5, .other 6]]).2 = [.connect [[.other 5, .other 6]]] := by
  have hq : ∀ (now : Clock) (s : PM), s.connected = [10] → s.connecting = [11] → (∃ x y, s.pool = upd (upd (fun _ => none) 10 x) 11 y) →
      ∀ pid, s.qualified now pid = true → False := by
    rintro now s h1 h2 ⟨x, y, h3⟩ pid hq
    unfold qualified at hq
    split at hq
    · rename_i p e
      rw [h1, h2] at hq
      rw [h3] at e
      by_cases a : pid = 11
      · subst a; simp at hq
      · rw [upd_ne _ _ a] at e
        by_cases b : pid = 10
        · subst b; simp at hq
        · rw [upd_ne _ _ b] at e; cases e
    · cases hq
  refine ⟨by decide +kernel, rfl, ⟨.nil, by simp, by simp, fun _ pid h => ?_, by simp, ?_, by decide, fun h => absurd h (by decide)⟩,
    ⟨.nil, by simp, by simp, fun _ pid h => ?_, by simp, ?_, by decide, fun h => absurd h (by decide)⟩, by decide +kernel, by decide +kernel⟩
  · exact (hq _ _ (by decide +kernel) (by decide +kernel) ⟨_, _, rfl⟩ pid h).elim
  · intro a ha; rw [List.mem_singleton] at ha; subst ha; exact ⟨⟨false, 0⟩, by decide +kernel, rfl⟩
  · exact (hq _ _ (by decide +kernel) (by decide +kernel) ⟨_, _, rfl⟩ pid h).elim
  · intro a ha; rw [List.mem_singleton] at ha; subst ha; exact ⟨⟨false, 0⟩, by decide +kernel, rfl⟩

/-- The hypotheses of `C58_round_partial` are met by that state, with a free slot. -/
example : PM.Reach demoCfg (NoSelf demoCfg) (demoRun [.discover [[.other 3, .other 4], [.other 5, .other 6]]]) :=
  .step ⟨10, 10⟩ (.discover [[.other 3, .other 4], [.other 5, .other 6]]) (.start ⟨0, 0⟩ []) trivial

/-! ### C59: retrying an unknown address -/

theorem close_unknown (now : Clock) (s : PM) (pid : Pid) : (s.closeSession now pid).unknown = s.unknown := by
  unfold closeSession disconnectPeer modify; simp only; split <;> rfl
theorem remove_unknown (s : PM) (pid : Pid) : (s.removePeer pid).unknown = s.unknown := by
  unfold removePeer; simp only; split <;> rfl
theorem addPeerAddr_unknown (s : PM) (pid : Pid) (a : Maddr) : (s.addPeerAddr pid a).unknown = s.unknown := by
  unfold addPeerAddr; split <;> rfl
theorem cleanlyRemove_unknown (now : Clock) (s : PM) (pid : Pid) : (s.cleanlyRemove cfg now pid).unknown = s.unknown := by
  unfold PM.cleanlyRemove; simp only; split
  · exact close_unknown ..
  · rw [remove_unknown, close_unknown]
theorem increase_unknown (now : Clock) (s : PM) (pid : Pid) : (s.increasePeerRetry cfg now pid).unknown = s.unknown := by
  unfold PM.increasePeerRetry; simp only; split
  · rw [cleanlyRemove_unknown]; rfl
  · rfl

/-- No unknown address has been retried. -/
def NoRetry (s : PM) : Prop := ∀ a u, s.unknown a = some u → u.retry = 0

theorem NoRetry.of_eq {s t : PM} (h : NoRetry s) (e : t.unknown = s.unknown) : NoRetry t := fun a u hu => h a u (by rwa [e] at hu)
theorem NoRetry.upd_none {s t : PM} (h : NoRetry s) (b : Maddr) (e : t.unknown = upd s.unknown b none) : NoRetry t := fun a u hu => by
  rw [e] at hu; unfold upd at hu; split at hu
  · cases hu
  · exact h a u hu

theorem NoRetry.reconnectUnknown {s : PM} (h : NoRetry s) (a : Maddr) : NoRetry (s.reconnectUnknown a) ∧ (s.reconnectUnknown a).unknown a = none := by
  unfold PM.reconnectUnknown
  split
  · rename_i u e
    have hr : ((⟨false, u.retry + 1⟩ : Unknown).reachMaxRetry) = true := by rw [h a u e]; decide
    simp only
    rw [if_pos hr]
    exact ⟨h.upd_none a rfl, upd_same ..⟩
  · exact ⟨h, by assumption⟩

theorem reconnectLater_unknown (now : Clock) (s : PM) (a : Maddr) : (s.reconnectLater cfg now a).unknown = (s.reconnectUnknown a).unknown := by
  unfold PM.reconnectLater; simp only; split
  · split
    · rfl
    · rw [increase_unknown]
  · rfl

theorem NoRetry.step {s : PM} (h : NoRetry s) (now : Clock) (e : PMEvent) : NoRetry (s.step cfg now e).1 := by
  have fold : ∀ {α : Type} (f : PM → α → PM), (∀ s a, NoRetry s → NoRetry (f s a)) → ∀ (l : List α) (s : PM), NoRetry s → NoRetry (l.foldl f s) := by
    intro α f hf l
    induction l with
    | nil => exact fun _ h => h
    | cons a l ih => exact fun s h => ih _ (hf s a h)
  cases e with
  | attach key sid a ob =>
    have : NoRetry (s.attachPool cfg now key (if ob then some a else none)) := by
      unfold attachPool; split
      · unfold addNewPeer; split
        · exact h.upd_none _ rfl
        · exact h.of_eq rfl
      · exact h.of_eq (addPeerAddr_unknown ..)
      · exact h
    exact this.of_eq rfl
  | detach pid =>
    simp only [PM.step, PM.detach]
    split
    · split
      · exact h.of_eq (by rw [increase_unknown, close_unknown])
      · exact h.of_eq (close_unknown ..)
    · exact h.of_eq (close_unknown ..)
  | alive pid => exact h.of_eq rfl
  | remove pid => exact h.of_eq (cleanlyRemove_unknown ..)
  | removeBySession sid =>
    simp only [PM.step]
    split
    · exact h.of_eq (cleanlyRemove_unknown ..)
    · rename_i e; rw [detachSession, e]; exact h
  | retryLater pid =>
    simp only [PM.step]
    split <;> exact h.of_eq (increase_unknown ..)
  | discover addrs =>
    refine fold _ (fun s a h => ?_) _ _ h
    unfold identifyAddr; split
    · split
      · exact h.of_eq (addPeerAddr_unknown ..)
      · exact h
    · split
      · exact h
      · intro b u hu
        have hu' : upd s.unknown a (some ⟨false, 0⟩) b = some u := hu
        unfold upd at hu'; split at hu'
        · cases hu'; rfl
        · exact h b u hu'
  | identified pid addrs => exact fold _ (fun s a h => h.of_eq (addPeerAddr_unknown ..)) _ _ h
  | repeated dialer sid a =>
    simp only [PM.step]
    split
    · unfold addSessionAddr; simp only; split
      · exact h.upd_none a (addPeerAddr_unknown ..)
      · exact h.upd_none a rfl
    · exact h
  | unconnectable a =>
    simp only [PM.step, PM.unconnectable]
    split
    · exact h.upd_none a rfl
    · refine h.upd_none a ?_
      unfold tryRemoveAddr; split <;> rfl
  | reconnectLater a => exact (h.reconnectUnknown a).1.of_eq (reconnectLater_unknown ..)
  | addListen a => exact h.of_eq (addPeerAddr_unknown ..)
  | removeListen a => exact h.of_eq rfl
  | route us msg => exact h
  | routine pids addrs =>
    simp only [PM.step, PM.routine]
    split
    · exact h
    · split
      · intro b u hu
        have e : (pids.foldl PM.connectPeer s).unknown = s.unknown := by
          have : ∀ (l : List Pid) (s : PM), (l.foldl PM.connectPeer s).unknown = s.unknown := by
            intro l
            induction l with
            | nil => exact fun _ => rfl
            | cons x l ih => intro s; rw [List.foldl_cons, ih]; unfold connectPeer; split <;> rfl
          exact this pids s
        simp only [e] at hu
        split at hu
        · cases hx : s.unknown b with
          | none => rw [hx] at hu; cases hu
          | some v => rw [hx] at hu; simp only [Option.map_some, Option.some.injEq] at hu; rw [← hu]; exact h b v hx
        · exact h b u hu
      · exact h

theorem NoRetry.start (now : Clock) (saved : List (PubKey × List Maddr)) : NoRetry (PM.start cfg now saved).1 := by
  refine KeptStart.start (I := NoRetry) ⟨fun _ _ _ h => (by cases h), fun _ {_} _ _ h => h, fun t p _ h => ?_, fun _ h => h⟩ now saved
  refine h.of_eq ?_
  unfold connectPeer; split <;> rfl

theorem Reach.noRetry {ok : PM → Clock → PMEvent → Prop} {s : PM} (h : PM.Reach cfg ok s) : NoRetry s := by
  induction h with
  | start now saved => exact .start now saved
  | step now e _ _ ih => exact ih.step now e

/-- **C59 refuted**, for every history: after one temporary failure a discovered address is forgotten, never kept for a retry
(`reach_max_retry` has its comparison the wrong way round). -/
theorem C59_refuted {ok : PM → Clock → PMEvent → Prop} {s : PM} (h : PM.Reach cfg ok s) (now : Clock) (a : Maddr) :
    (s.step cfg now (.reconnectLater a)).1.unknown a = none := by
  show (s.reconnectLater cfg now a).unknown a = none
  rw [reconnectLater_unknown]
  exact ((Reach.noRetry h).reconnectUnknown a).2

/-- C59 on a real case: the address was discovered and being dialled. -/
example : (demoRun [.discover [[.other 3, .other 4]], .routine [] [[.other 3, .other 4]]]).unknown [.other 3, .other 4] = some ⟨true, 0⟩ := by decide +kernel

/-! ### C68: a failed dial -/

/-- A peer being dialled is no candidate for dialling. -/
theorem connecting_not_chosen {now : Clock} {s : PM} {n : Nat} {pids : List Pid} {addrs : List Maddr} (hv : ValidChoice cfg now s n pids addrs)
    {pid : Pid} (h : pid ∈ s.connecting) : pid ∉ pids := by
  intro hp
  have := hv.pidsOk pid hp
  unfold qualified at this
  split at this
  · simp [h] at this
  · cases this

/-- Events by which nothing new is learnt about a peer: failed dials, rounds of dialling, messages, discovered addresses. -/
def Passive : PMEvent → Prop
  | .unconnectable _ | .reconnectLater _ | .routine _ _ | .route _ _ | .discover _ | .addListen _ | .removeListen _ => True
  | _ => False

/-- How many of the events are temporary dial failures. -/
def laterCount : List PMEvent → Nat
  | [] => 0
  | .reconnectLater _ :: es => laterCount es + 1
  | _ :: es => laterCount es

/-- The manager after timed events. -/
def runAll (cfg : PMCfg) (s : PM) (es : List (Clock × PMEvent)) : PM := es.foldl (fun s x => (s.step cfg x.1 x.2).1) s

/-- `pid` is being dialled and has failed at most `n` times. -/
def Dialling (pid : Pid) (n : Nat) (s : PM) : Prop := pid ∈ s.connecting ∧ ∃ p, s.pool pid = some p ∧ p.retry ≤ n

theorem Dialling.modify {pid : Pid} {n m : Nat} {s : PM} (h : Dialling pid n s) (i : Pid) (f : Peer → Peer) (hf : i = pid → ∀ p, p.retry ≤ n → (f p).retry ≤ m) (hnm : n ≤ m) :
    Dialling pid m (s.modify i f) := by
  obtain ⟨hc, p, hp, hr⟩ := h
  refine ⟨hc, ?_⟩
  by_cases e : i = pid
  · subst e; exact ⟨f p, by simp [PM.modify, hp], hf rfl p hr⟩
  · exact ⟨p, by simp [PM.modify, upd_ne _ _ (Ne.symm e), hp], Nat.le_trans hr hnm⟩

theorem Dialling.addPeerAddr {pid : Pid} {n : Nat} {s : PM} (h : Dialling pid n s) (i : Pid) (a : Maddr) : Dialling pid n (s.addPeerAddr i a) := by
  unfold PM.addPeerAddr
  split
  · exact h
  · rename_i q e
    have := h.modify i (fun p => { p with addrs := setInsert p.addrs a }) (fun _ _ h => h) (Nat.le_refl n)
    refine ⟨this.1, ?_⟩
    obtain ⟨p, hp, hr⟩ := this.2
    exact ⟨p, by simpa [PM.modify, e] using hp, hr⟩

theorem Dialling.removeOther {pid : Pid} {n : Nat} {s : PM} (h : Dialling pid n s) (now : Clock) (i : Pid) (hi : i ≠ pid) : Dialling pid n (s.cleanlyRemove cfg now i) := by
  have h1 : Dialling pid n (s.closeSession now i) := by
    obtain ⟨hc, p, hp, hr⟩ := h
    refine ⟨by rw [close_connecting]; exact mem_setRemove.2 ⟨hc, Ne.symm hi⟩, p, ?_, hr⟩
    rw [close_pool, upd_ne _ _ (Ne.symm hi)]; exact hp
  unfold PM.cleanlyRemove
  simp only
  split
  · exact h1.modify i _ (fun e => absurd e hi) (Nat.le_refl n)
  · obtain ⟨hc, p, hp, hr⟩ := h1
    refine ⟨by rw [remove_connecting]; exact mem_setRemove.2 ⟨hc, Ne.symm hi⟩, p, ?_, hr⟩
    rw [remove_pool, upd_ne _ _ (Ne.symm hi)]; exact hp

theorem Dialling.increase {pid : Pid} {n : Nat} {s : PM} (h : Dialling pid n s) (now : Clock) (i : Pid) (hn : n + 1 < maxRetryCount) :
    Dialling pid (n + 1) (s.increasePeerRetry cfg now i) := by
  have h1 : Dialling pid (n + 1) (s.modify i (fun p => p.increaseRetry now)) := by
    refine h.modify i _ (fun _ p hp => ?_) (Nat.le_succ n)
    unfold Peer.increaseRetry; split
    · omega
    · simp only; omega
  unfold PM.increasePeerRetry
  simp only
  split
  · rename_i hm
    by_cases e : i = pid
    · subst e
      obtain ⟨_, p, hp, hr⟩ := h1
      unfold reachMaxRetry at hm
      rw [hp] at hm
      simp only [decide_eq_true_eq] at hm
      omega
    · exact h1.removeOther now i e
  · exact h1

theorem Dialling.step {pid : Pid} {n : Nat} {s : PM} (h : Dialling pid n s) (now : Clock) (e : PMEvent) (hp : Passive e)
    (hn : n + laterCount [e] < maxRetryCount) : Dialling pid (n + laterCount [e]) (s.step cfg now e).1 := by
  have fold : ∀ {α : Type} (f : PM → α → PM), (∀ s a, Dialling pid n s → Dialling pid n (f s a)) → ∀ (l : List α) (s : PM), Dialling pid n s → Dialling pid n (l.foldl f s) := by
    intro α f hf l
    induction l with
    | nil => exact fun _ h => h
    | cons a l ih => exact fun s h => ih _ (hf s a h)
  cases e with
  | attach key sid a ob => cases hp
  | detach pid => cases hp
  | alive pid => cases hp
  | remove pid => cases hp
  | removeBySession sid => cases hp
  | retryLater pid => cases hp
  | identified pid addrs => cases hp
  | repeated dialer sid a => cases hp
  | discover addrs =>
    refine fold _ (fun s a h => ?_) _ _ h
    unfold identifyAddr; split
    · split
      · exact h.addPeerAddr ..
      · exact h
    · split
      · exact h
      · exact h
  | unconnectable a =>
    simp only [PM.step, PM.unconnectable]
    split
    · exact h
    · unfold tryRemoveAddr
      split
      · rename_i i _
        exact h.modify (s := s) i (fun p => { p with addrs := setRemove p.addrs a }) (fun _ _ h => h) (Nat.le_refl n)
      · exact h
  | reconnectLater a =>
    have h1 : Dialling pid n (s.reconnectUnknown a) := by
      unfold PM.reconnectUnknown; split <;> exact h
    have up : ∀ t : PM, Dialling pid n t → Dialling pid (n + 1) t := fun t ⟨a, p, b, c⟩ => ⟨a, p, b, Nat.le_succ_of_le c⟩
    show Dialling pid (n + 1) (s.reconnectLater cfg now a)
    unfold PM.reconnectLater
    simp only
    split
    · split
      · exact up _ h1
      · exact h1.increase now _ hn
    · exact up _ h1
  | addListen a => exact h.addPeerAddr ..
  | removeListen a => exact h.modify (s := s) cfg.ourId (fun p => { p with addrs := setRemove p.addrs a }) (fun _ _ h => h) (Nat.le_refl n)
  | route us msg => exact h
  | routine pids addrs =>
    simp only [PM.step, PM.routine]
    split
    · exact h
    · split
      · refine fold PM.connectPeer (fun s i h => ?_) pids s h
        unfold connectPeer; split
        · exact h
        · exact ⟨mem_setInsert.2 (.inr h.1), h.2⟩
      · exact h

/-- **C68 refuted**: a peer whose dial has failed keeps its slot and is not dialled again: from a state in which `pid` is being dialled, through any
permanent dial failures, any fewer than six temporary ones (counted with those before), and any rounds of dialling in between, it stays marked as being
dialled, and no round dials it. -/
theorem C68_refuted {pid : Pid} {p : Peer} {s : PM} (hc : pid ∈ s.connecting) (hp : s.pool pid = some p)
    (es : List (Clock × PMEvent)) (hes : ∀ e ∈ es, Passive e.2) (hn : p.retry + laterCount (es.map Prod.snd) < maxRetryCount) :
    pid ∈ (runAll cfg s es).connecting ∧
    ∀ now n pids addrs, ValidChoice cfg now (runAll cfg s es) n pids addrs → pid ∉ pids := by
  have main : ∀ (es : List (Clock × PMEvent)) (n : Nat) (s : PM), Dialling pid n s → (∀ e ∈ es, Passive e.2) →
      n + laterCount (es.map Prod.snd) < maxRetryCount → pid ∈ (runAll cfg s es).connecting := by
    intro es
    induction es with
    | nil => exact fun _ _ h _ _ => h.1
    | cons e es ih =>
      intro n s h hes hn
      have hl : laterCount ((e :: es).map Prod.snd) = laterCount [e.2] + laterCount (es.map Prod.snd) := by
        obtain ⟨c, e⟩ := e
        cases e <;> simp [laterCount, Nat.add_comm]
      rw [hl] at hn
      exact ih _ _ (h.step e.1 e.2 (hes e (.head _)) (by omega)) (fun e' h => hes e' (.tail _ h)) (by omega)
  have := main es p.retry s ⟨hc, p, hp, Nat.le_refl _⟩ hes hn
  exact ⟨this, fun _ _ _ _ hv => connecting_not_chosen hv this⟩

/-- C68 on a real case: the bootstrap peer is down when the node starts; both its dial fails and later rounds come, it is still "being dialled". -/
example : 11 ∈ (PM.start demoCfg ⟨0, 0⟩ []).1.connecting ∧
    11 ∈ (runAll demoCfg (PM.start demoCfg ⟨0, 0⟩ []).1 [(⟨5, 5⟩, .reconnectLater [.other 1, .other 2]), (⟨500, 500⟩, .routine [] []), (⟨50000, 50000⟩, .routine [] [])]).connecting := by
  constructor <;> decide +kernel

end PM
end Huobi
