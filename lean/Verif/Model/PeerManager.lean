import Verif.Model.Types
/-
Model of the peer manager: `core/network/src/peer_manager/{mod,peer}.rs`, one event at a time.

* Peer ids, session ids, public keys and user addresses are numbers; `pidOf` and `userOf` give the id and the user address of a key.
* A multiaddress is the list of its components; only `P2p` components are distinguished.
* `HashMap`s are functions, `HashSet`s whose size matters are lists without duplicates.
* Left out: `connection_ip` and `disconnect_at` (only shown or saved), logging, `debug_assert!`s, the listen address, saving to disk.
* The clock is an argument of the events: `secs` is `SystemTime::now()` in seconds, `tick` is `Instant::now()` in seconds.
* The random choice of `choose_multiple` and the iteration order of a `HashSet` are arguments of the `routine` event.
* The end of `poll` (dialling) is the event `routine`, possible at any time; in the code it follows the last event of a `poll`.
-/
namespace Huobi

abbrev Pid := Nat
abbrev Sid := Nat
abbrev PubKey := Nat
abbrev UserId := Nat

/-- A component of a multiaddress. -/
inductive AddrComp where
  | p2p (pid : Pid)
  | other (n : Nat)
deriving DecidableEq

abbrev Maddr := List AddrComp

/-- mod.rs:54. -/
def maxRetryCount : Nat := 6
/-- mod.rs:55. -/
def aliveRetryInterval : Nat := 3
/-- peer.rs:18. -/
def backoffBase : Nat := 5
/-- peer.rs:19. -/
def validAttemptInterval : Nat := 4

/-- `Peer` with its `PeerState`: peer.rs:31-68. -/
structure Peer where
  id : Pid
  user : UserId
  key : PubKey
  addrs : List Maddr
  retry : Nat
  nextRetry : Nat
  connectAt : Nat
  attemptAt : Nat
  alive : Nat
deriving DecidableEq

/-- `UnknownAddr` without the address, which is its key: mod.rs:58-62. -/
structure Unknown where
  connecting : Bool
  retry : Nat
deriving DecidableEq

/-- `PeerManagerConfig`: mod.rs:435-453. -/
structure PMCfg where
  ourId : Pid
  pubkey : PubKey
  bootstraps : List Peer
  maxConnections : Nat
  pidOf : PubKey → Pid
  userOf : PubKey → UserId

/-- `Inner` and `PeerManager`: mod.rs:120-131, 477-500. -/
structure PM where
  connecting : List Pid
  connected : List Pid
  addrPid : Maddr → Option Pid
  userPid : UserId → Option Pid
  pool : Pid → Option Peer
  peerSession : Pid → Option Sid
  sessionPeer : Sid → Option Pid
  bootAddrs : List Maddr
  unknown : Maddr → Option Unknown

/-- The clock. -/
structure Clock where
  secs : Nat
  tick : Nat

/-- `ConnectionEvent`: event.rs:15-31.  A message stands for its contents and priority. -/
inductive ConnCmd where
  | connect (addrs : List Maddr)
  | disconnect (sid : Sid)
  | send (sids : List Sid) (msg : Nat)
deriving DecidableEq

/-- Change a map at one key. -/
def upd {K V : Type} [DecidableEq K] (f : K → V) (k : K) (v : V) : K → V := fun i => if i = k then v else f i

/-- `HashSet::insert`. -/
def setInsert {K : Type} [DecidableEq K] (l : List K) (k : K) : List K := if k ∈ l then l else k :: l
/-- `HashSet::remove`. -/
def setRemove {K : Type} [DecidableEq K] (l : List K) (k : K) : List K := l.filter (fun x => decide (x ≠ k))

/-- `duration_since` in seconds: peer.rs:224-229: the distance, whichever is earlier. -/
def secsBetween (a b : Nat) : Nat := (a - b) + (b - a)

/-! ### Peers (peer.rs) -/

/-- `Peer::new`, `Peer::from_pair`: peer.rs:102-119. -/
def PMCfg.newPeer (cfg : PMCfg) (key : PubKey) (addrs : List Maddr) (now : Clock) : Peer :=
  ⟨cfg.pidOf key, cfg.userOf key, key, addrs, 0, now.tick, 0, 0, 0⟩

/-- `increase_retry`: peer.rs:195-209. -/
def Peer.increaseRetry (p : Peer) (now : Clock) : Peer :=
  if secsBetween now.secs p.attemptAt < validAttemptInterval then p
  else { p with retry := p.retry + 1, attemptAt := now.secs, nextRetry := now.tick + backoffBase ^ (p.retry + 1) }

/-- `reset_retry`: peer.rs:211-213. -/
def Peer.resetRetry (p : Peer) : Peer := { p with retry := 0 }

/-- `retry_ready`: peer.rs:187-189. -/
def Peer.retryReady (p : Peer) (now : Clock) : Bool := decide (p.nextRetry < now.tick)

/-! ### The pool (`Inner`) -/

namespace PM

/-- Change the peer `pid`, if there is one. -/
def modify (s : PM) (pid : Pid) (f : Peer → Peer) : PM := { s with pool := upd s.pool pid ((s.pool pid).map f) }

/-- `add_peer`: mod.rs:194-206. -/
def addPeer (s : PM) (p : Peer) : PM :=
  { s with
    userPid := upd s.userPid p.user (some p.id)
    addrPid := fun a => if a ∈ p.addrs then some p.id else s.addrPid a
    pool := upd s.pool p.id (some p) }

/-- `add_peer_addr`: mod.rs:208-222. -/
def addPeerAddr (s : PM) (pid : Pid) (a : Maddr) : PM :=
  match s.pool pid with
  | none => s
  | some p => { s with addrPid := upd s.addrPid a (some pid), pool := upd s.pool pid (some { p with addrs := setInsert p.addrs a }) }

/-- `remove_peer_addr`: mod.rs:224-230. -/
def removePeerAddr (s : PM) (pid : Pid) (a : Maddr) : PM :=
  { (s.modify pid (fun p => { p with addrs := setRemove p.addrs a })) with addrPid := upd s.addrPid a none }

/-- `match_pid`: mod.rs:234-276. -/
def matchPid (s : PM) (a : Maddr) : Option Pid :=
  match s.addrPid a with
  | some pid => some pid
  | none =>
    match a with
    | c0 :: c1 :: rest =>
      match s.addrPid [c0, c1] with
      | some pid =>
        match rest with
        | .p2p q :: _ => if pid = q then some pid else none
        | [] => some pid
        | .other _ :: _ => none
      | none => none
    | _ => none

/-- `try_remove_addr`: mod.rs:278-284. -/
def tryRemoveAddr (s : PM) (a : Maddr) : PM :=
  match s.addrPid a with
  | some pid => s.removePeerAddr pid a
  | none => s

/-- `remove_peer`: mod.rs:286-298. -/
def removePeer (s : PM) (pid : Pid) : PM :=
  let s1 := { s with connecting := setRemove s.connecting pid, connected := setRemove s.connected pid }
  match s.pool pid with
  | none => s1
  | some p =>
    { s1 with
      pool := upd s.pool pid none
      userPid := upd s.userPid p.user none
      addrPid := fun a => if a ∈ p.addrs then none else s.addrPid a }

/-- `connect_peer`: mod.rs:313-320. -/
def connectPeer (s : PM) (pid : Pid) : PM :=
  if pid ∈ s.connected then s else { s with connecting := setInsert s.connecting pid }

/-- `set_connected`: mod.rs:322-332. -/
def setConnected (s : PM) (now : Clock) (pid : Pid) : PM :=
  { (s.modify pid (fun p => { p with connectAt := now.secs })) with
    connecting := setRemove s.connecting pid
    connected := setInsert s.connected pid }

/-- `disconnect_peer`: mod.rs:334-344. -/
def disconnectPeer (s : PM) (now : Clock) (pid : Pid) : PM :=
  { (s.modify pid (fun p => { p with alive := secsBetween now.secs p.connectAt })) with
    connecting := setRemove s.connecting pid
    connected := setRemove s.connected pid }

/-- `connection_count`: mod.rs:350-353.  `none`: the subtraction underflows. -/
def connectionCount (s : PM) : Option Nat :=
  if s.connected.length + s.connecting.length = 0 then none else some (s.connected.length + s.connecting.length - 1)

/-- The condition in `unconnected_peers`: mod.rs:355-373. -/
def qualified (s : PM) (now : Clock) (pid : Pid) : Bool :=
  match s.pool pid with
  | some p => !decide (pid ∈ s.connected) && !decide (pid ∈ s.connecting) && p.retryReady now
  | none => false

/-- `reach_max_retry`: mod.rs:389-395. -/
def reachMaxRetry (s : PM) (pid : Pid) : Bool :=
  match s.pool pid with
  | some p => decide (maxRetryCount ≤ p.retry)
  | none => true

/-- `insert_peers`: mod.rs:411-430.  A loaded peer has its addresses, no retries, and can be retried at once. -/
def insertPeers (cfg : PMCfg) (now : Clock) (s : PM) : List (PubKey × List Maddr) → PM
  | [] => s
  | (key, addrs) :: rest =>
    insertPeers cfg now
      { s with
        userPid := upd s.userPid (cfg.userOf key) (some (cfg.pidOf key))
        addrPid := fun a => if a ∈ addrs then some (cfg.pidOf key) else s.addrPid a
        pool := upd s.pool (cfg.pidOf key)
          (match s.pool (cfg.pidOf key) with
          | some p => some { cfg.newPeer key addrs now with user := p.user, key := p.key, id := p.id }
          | none => some (cfg.newPeer key addrs now)) } rest

/-! ### The manager -/

/-- `PeerManager::new` with `register_self`: mod.rs:300-307, 503-537. -/
def new (cfg : PMCfg) (now : Clock) : PM where
  connecting := []
  connected := [cfg.ourId]
  addrPid := fun _ => none
  userPid := upd (fun _ => none) (cfg.userOf cfg.pubkey) (some cfg.ourId)
  pool := upd (fun _ => none) cfg.ourId (some { cfg.newPeer cfg.pubkey [] now with id := cfg.ourId })
  peerSession := fun _ => none
  sessionPeer := fun _ => none
  bootAddrs := []
  unknown := fun _ => none

/-- `bootstrap`: mod.rs:566-589. -/
def bootstrap (cfg : PMCfg) (s : PM) : PM × List ConnCmd :=
  let s1 := cfg.bootstraps.foldl (fun s p => (s.addPeer p).connectPeer p.id) s
  let addrs := cfg.bootstraps.flatMap Peer.addrs
  ({ s1 with bootAddrs := addrs ++ s1.bootAddrs }, [.connect addrs])

/-- `add_session_addr`: mod.rs:604-622. -/
def addSessionAddr (s : PM) (sid : Sid) (a : Maddr) : PM :=
  let s1 := { s with unknown := upd s.unknown a none }
  match s1.sessionPeer sid with
  | some pid => s1.addPeerAddr pid a
  | none => s1

/-- `add_peer` of the manager: mod.rs:692-700. -/
def addNewPeer (cfg : PMCfg) (now : Clock) (s : PM) (key : PubKey) : Option Maddr → PM
  | some a => { s with unknown := upd s.unknown a none }.addPeer (cfg.newPeer key [a] now)
  | none => s.addPeer (cfg.newPeer key [] now)

/-- The first part of `attach_peer_session`: mod.rs:624-649: the peer gets into the pool, its address into the peer. -/
def attachPool (cfg : PMCfg) (now : Clock) (s : PM) (key : PubKey) (listen : Option Maddr) : PM :=
  match s.pool (cfg.pidOf key), listen with
  | none, l => s.addNewPeer cfg now key l
  | some _, some a => s.addPeerAddr (cfg.pidOf key) a
  | some _, none => s

/-- `attach_peer_session`: mod.rs:624-657.  `outbound`: the session was dialled, `a` is the address of the peer. -/
def attach (cfg : PMCfg) (now : Clock) (s : PM) (key : PubKey) (sid : Sid) (a : Maddr) (outbound : Bool) : PM :=
  let s2 := (s.attachPool cfg now key (if outbound then some a else none)).setConnected now (cfg.pidOf key)
  { s2 with peerSession := upd s2.peerSession (cfg.pidOf key) (some sid), sessionPeer := upd s2.sessionPeer sid (some (cfg.pidOf key)) }

/-- `close_peer_session`: mod.rs:677-683. -/
def closeSession (now : Clock) (s : PM) (pid : Pid) : PM :=
  let s1 := s.disconnectPeer now pid
  match s1.peerSession pid with
  | some sid => { s1 with peerSession := upd s1.peerSession pid none, sessionPeer := upd s1.sessionPeer sid none }
  | none => s1

/-- `detach_session_id`: mod.rs:685-690. -/
def detachSession (now : Clock) (s : PM) (sid : Sid) : PM :=
  match s.sessionPeer sid with
  | some pid =>
    let s1 := { s with sessionPeer := upd s.sessionPeer sid none }.disconnectPeer now pid
    { s1 with peerSession := upd s1.peerSession pid none }
  | none => s

/-- `is_bootstrap_peer`: mod.rs:720-728. -/
def isBootstrap (cfg : PMCfg) (pid : Pid) : Bool := cfg.bootstraps.any (fun p => decide (p.id = pid))

/-- `cleanly_remove_peer`: mod.rs:730-748. -/
def cleanlyRemove (cfg : PMCfg) (now : Clock) (s : PM) (pid : Pid) : PM :=
  let s1 := s.closeSession now pid
  if isBootstrap cfg pid then s1.modify pid (fun p => (p.resetRetry.increaseRetry now).increaseRetry now)
  else s1.removePeer pid

/-- `increase_peer_retry`: mod.rs:750-756. -/
def increasePeerRetry (cfg : PMCfg) (now : Clock) (s : PM) (pid : Pid) : PM :=
  let s1 := s.modify pid (fun p => p.increaseRetry now)
  if s1.reachMaxRetry pid then s1.cleanlyRemove cfg now pid else s1

/-- `detach_peer_session`: mod.rs:659-675. -/
def detach (cfg : PMCfg) (now : Clock) (s : PM) (pid : Pid) : PM :=
  let s1 := s.closeSession now pid
  match s1.pool pid with
  | some p => if p.alive < aliveRetryInterval then s1.increasePeerRetry cfg now pid else s1
  | none => s1

/-- `identify_addr`: mod.rs:702-718. -/
def identifyAddr (s : PM) (a : Maddr) : PM :=
  match s.matchPid a with
  | some pid => if pid ∈ s.connected then s.addPeerAddr pid a else s
  | none =>
    match s.unknown a with
    | some _ => s
    | none => { s with unknown := upd s.unknown a (some ⟨false, 0⟩) }

/-- `UnknownAddr::reach_max_retry`: mod.rs:87-89. -/
def _root_.Huobi.Unknown.reachMaxRetry (u : Unknown) : Bool := decide (u.retry ≤ maxRetryCount + 1)

/-- The first part of the event `ReconnectLater`: mod.rs:968-976. -/
def reconnectUnknown (s : PM) (a : Maddr) : PM :=
  match s.unknown a with
  | some u =>
    let u' : Unknown := ⟨false, u.retry + 1⟩
    { s with unknown := upd s.unknown a (if u'.reachMaxRetry then none else some u') }
  | none => s

/-- The event `ReconnectLater`: mod.rs:967-987. -/
def reconnectLater (cfg : PMCfg) (now : Clock) (s : PM) (a : Maddr) : PM :=
  let s1 := s.reconnectUnknown a
  match s1.matchPid a with
  | some pid => if pid ∈ s1.connected then s1 else s1.increasePeerRetry cfg now pid
  | none => s1

/-- The event `UnconnectableAddress`: mod.rs:957-966. -/
def unconnectable (s : PM) (a : Maddr) : PM :=
  let s1 := { s with unknown := upd s.unknown a none }
  if a ∈ s1.bootAddrs then s1 else s1.tryRemoveAddr a

/-- `user_peer`: mod.rs:173-178. -/
def userPeer (s : PM) (u : UserId) : Option Peer := (s.userPid u).bind s.pool

/-- The loop of `route_multi_users_message`: mod.rs:812-822: the sessions, the peers without a session, the users without a peer. -/
def routeUsers (s : PM) : List UserId → List Sid × List Peer × List UserId
  | [] => ([], [], [])
  | u :: us =>
    let (sids, peers, nobody) := s.routeUsers us
    match s.userPeer u with
    | some p =>
      match s.peerSession p.id with
      | some sid => (sid :: sids, peers, nobody)
      | none => (sids, p :: peers, nobody)
    | none => (sids, peers, u :: nobody)

/-- `route_multi_users_message`: mod.rs:803-858.  The commands and the list of missed users. -/
def route (s : PM) (us : List UserId) (msg : Nat) : List ConnCmd × List UserId :=
  let (sids, peers, nobody) := s.routeUsers us
  ([.send sids msg, .connect (peers.flatMap Peer.addrs)], peers.map Peer.user ++ nobody)

/-- `unconnected_addrs` and the end of `poll`: mod.rs:775-801, 1046-1061.  `pids` and `addrs` are the peers chosen by the random
generator and the unknown addresses that come first.  In a release build the count wraps around if it underflows, and then nothing is dialled. -/
def routine (cfg : PMCfg) (s : PM) (pids : List Pid) (addrs : List Maddr) : PM × List ConnCmd :=
  match s.connectionCount with
  | none => (s, [])
  | some n =>
    if n < cfg.maxConnections then
      let s1 := pids.foldl PM.connectPeer s
      let peerAddrs := pids.flatMap (fun pid => match s.pool pid with | some p => p.addrs | none => [])
      let s2 := { s1 with unknown := fun a => if a ∈ addrs then (s1.unknown a).map (fun u => { u with connecting := true }) else s1.unknown a }
      (s2, if (peerAddrs ++ addrs).isEmpty then [] else [.connect (peerAddrs ++ addrs)])
    else (s, [])

/-- What `choose_multiple` (rand: as many as there are, at most `max`, each at most once) and `filter(..).take(remain)` can return. -/
structure ValidChoice (cfg : PMCfg) (now : Clock) (s : PM) (n : Nat) (pids : List Pid) (addrs : List Maddr) : Prop where
  pidsNodup : pids.Nodup
  pidsOk : ∀ pid ∈ pids, s.qualified now pid = true
  pidsMax : pids.length ≤ cfg.maxConnections - n
  pidsAll : pids.length < cfg.maxConnections - n → ∀ pid, s.qualified now pid = true → pid ∈ pids
  addrsNodup : addrs.Nodup
  addrsOk : ∀ a ∈ addrs, ∃ u, s.unknown a = some u ∧ u.connecting = false
  addrsMax : addrs.length ≤ cfg.maxConnections - n - pids.length
  addrsAll : addrs.length < cfg.maxConnections - n - pids.length → ∀ a u, s.unknown a = some u → u.connecting = false → a ∈ addrs

end PM

/-- `PeerManagerEvent`: event.rs:105-171, and what else happens to the manager. -/
inductive PMEvent where
  | attach (key : PubKey) (sid : Sid) (a : Maddr) (outbound : Bool)
  | detach (pid : Pid)
  | alive (pid : Pid)
  | remove (pid : Pid)
  | removeBySession (sid : Sid)
  | retryLater (pid : Pid)
  | discover (addrs : List Maddr)
  | identified (pid : Pid) (addrs : List Maddr)
  | repeated (dialer : Bool) (sid : Sid) (a : Maddr)
  | unconnectable (a : Maddr)
  | reconnectLater (a : Maddr)
  | addListen (a : Maddr)
  | removeListen (a : Maddr)
  | route (us : List UserId) (msg : Nat)
  | routine (pids : List Pid) (addrs : List Maddr)

/-- `process_event`: mod.rs:860-998, and `routine`.  Returns the commands to the connection service. -/
def PM.step (cfg : PMCfg) (now : Clock) (s : PM) : PMEvent → PM × List ConnCmd
  | .attach key sid a outbound => (s.attach cfg now key sid a outbound, [])
  | .detach pid => (s.detach cfg now pid, [])
  | .alive pid => (s.modify pid Peer.resetRetry, [])
  | .remove pid => (s.cleanlyRemove cfg now pid, [])
  | .removeBySession sid =>
    match s.sessionPeer sid with
    | some pid => (s.cleanlyRemove cfg now pid, [])
    | none => (s.detachSession now sid, [])
  | .retryLater pid =>
    let s1 := s.increasePeerRetry cfg now pid
    match s1.peerSession pid with
    | some sid => (s1, [.disconnect sid])
    | none => (s1, [])
  | .discover addrs => (addrs.foldl PM.identifyAddr s, [])
  | .identified pid addrs => (addrs.foldl (fun s a => s.addPeerAddr pid a) s, [])
  | .repeated dialer sid a => (if dialer then s.addSessionAddr sid a else s, [])
  | .unconnectable a => (s.unconnectable a, [])
  | .reconnectLater a => (s.reconnectLater cfg now a, [])
  | .addListen a => (s.addPeerAddr cfg.ourId a, [])
  | .removeListen a => (s.removePeerAddr cfg.ourId a, [])
  | .route us msg => (s, (s.route us msg).1)
  | .routine pids addrs => s.routine cfg pids addrs

/-- A started manager: created, peers loaded from disk, bootstrapped (core/network/src/service.rs:128-146). -/
def PM.start (cfg : PMCfg) (now : Clock) (saved : List (PubKey × List Maddr)) : PM × List ConnCmd :=
  PM.bootstrap cfg ((PM.new cfg now).insertPeers cfg now saved)

/-- The states of a manager: started, then any events at any times. -/
inductive PM.Reach (cfg : PMCfg) (ok : PM → Clock → PMEvent → Prop) : PM → Prop
  | start (now : Clock) (saved : List (PubKey × List Maddr)) : Reach cfg ok (PM.start cfg now saved).1
  | step {s : PM} (now : Clock) (e : PMEvent) (h : Reach cfg ok s) (hok : ok s now e) : Reach cfg ok (s.step cfg now e).1

end Huobi
