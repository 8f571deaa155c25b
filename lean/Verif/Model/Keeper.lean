import Verif.Model.Connection
/-
Model of what the transport's reports become for the peer manager: `core/network/src/connection/keeper.rs`,
`core/network/src/protocols/ping.rs`, and the reporters of `core/network/src/peer_manager/{disc,ident}.rs`.  The manager handles the reports one by one in the order in which they were made (an unbounded
channel).  Left out: the kinds and texts that are only logged, and the error reports to the node's own error channel.
-/
namespace Huobi

/-- tentacle's `SessionContext`, as far as it is used; `key` is `none` if the connection is not encrypted. -/
structure SessionCtx where
  key : Option PubKey
  sid : Sid
  addr : Maddr
  outbound : Bool

/-- tentacle's `ServiceError`, handled in core/network/src/connection/keeper.rs:126-200. -/
inductive SvcError where
  | dialer (e : DialError) (a : Maddr)
  | listen (e : DialError) (a : Maddr)
  /-- `named`: the transport names the protocol that was not agreed on -/
  | protoSelect (c : SessionCtx) (named : Bool)
  | protocol (sid : Sid)
  | sessionTimeout (c : SessionCtx)
  | muxer (c : SessionCtx)
  | protoHandle
  | blocked (c : SessionCtx)

/-- tentacle's `ServiceEvent`, handled in core/network/src/connection/keeper.rs:202-238. -/
inductive SvcEvent where
  | opened (c : SessionCtx)
  | closed (c : SessionCtx)
  | listenStarted (a : Maddr)
  | listenClose (a : Maddr)

/-- `tentacle_ping::Event`, handled in core/network/src/protocols/ping.rs:97-124. -/
inductive PingEvent where
  | ping (pid : Pid)
  | pong (pid : Pid)
  | timeout (pid : Pid)
  | unexpected (pid : Pid)

/-- `handle_error`: core/network/src/connection/keeper.rs:126-200; `peer_pubkey!`: keeper.rs:21-32. -/
def SvcError.report (cfg : PMCfg) : SvcError → Option PMEvent
  | .dialer e a => some (e.event true a)
  | .listen e a => some (e.event false a)
  | .protoSelect c named => c.key.map (fun k => if named then .remove (cfg.pidOf k) else .retryLater (cfg.pidOf k))
  | .protocol sid => some (.removeBySession sid)
  | .sessionTimeout c => c.key.map (fun k => .retryLater (cfg.pidOf k))
  | .muxer c => c.key.map (fun k => .retryLater (cfg.pidOf k))
  | .protoHandle => none
  | .blocked c => c.key.map (fun _ => .removeBySession c.sid)

/-- `handle_event`: core/network/src/connection/keeper.rs:202-238. -/
def SvcEvent.report (cfg : PMCfg) : SvcEvent → Option PMEvent
  | .opened c => c.key.map (fun k => .attach k c.sid c.addr c.outbound)
  | .closed c => c.key.map (fun k => .detach (cfg.pidOf k))
  | .listenStarted a => some (.addListen a)
  | .listenClose a => some (.removeListen a)

/-- core/network/src/protocols/ping.rs:102-124. -/
def PingEvent.report : PingEvent → PMEvent
  | .ping pid => .alive pid
  | .pong pid => .alive pid
  | .timeout pid => .retryLater pid
  | .unexpected pid => .retryLater pid

/-- What happens to the network part of a node. -/
inductive NetIn where
  | error (e : SvcError)
  | event (e : SvcEvent)
  | ping (e : PingEvent)
  /-- addresses from the discovery protocol, one or several: core/network/src/peer_manager/disc.rs:52-62 -/
  | discover (addrs : List Maddr)
  /-- the discovery protocol complains about a session (and has the transport close it): core/network/src/peer_manager/disc.rs:65-74 -/
  | misbehave (sid : Sid)
  /-- addresses from the identify protocol: core/network/src/peer_manager/ident.rs:76-86 -/
  | identified (pid : Pid) (addrs : List Maddr)
  /-- a message to users: core/network/src/connection/control.rs:70-97 -/
  | users (us : List UserId) (msg : Nat)
  /-- the periodic dialling: core/network/src/peer_manager/mod.rs:1046-1061 -/
  | round (pids : List Pid) (addrs : List Maddr)

/-- The event for the peer manager, if any. -/
def NetIn.report (cfg : PMCfg) : NetIn → Option PMEvent
  | .error e => e.report cfg
  | .event e => e.report cfg
  | .ping e => some e.report
  | .discover addrs => some (.discover addrs)
  | .misbehave sid => some (.removeBySession sid)
  | .identified pid addrs => some (.identified pid addrs)
  | .users us msg => some (.route us msg)
  | .round pids addrs => some (.routine pids addrs)

/-- The manager handles one thing: peer_manager/mod.rs:860-998. -/
def PM.hear (cfg : PMCfg) (now : Clock) (s : PM) (x : NetIn) : PM × List ConnCmd :=
  match x.report cfg with
  | some e => s.step cfg now e
  | none => (s, [])

/-- A started manager that handled these things, at any times. -/
inductive PM.Heard (cfg : PMCfg) : List NetIn → PM → Prop
  | start (now : Clock) (saved : List (PubKey × List Maddr)) : Heard cfg [] (PM.start cfg now saved).1
  | step {xs : List NetIn} {s : PM} (now : Clock) (x : NetIn) (h : Heard cfg xs s) : Heard cfg (xs ++ [x]) (s.hear cfg now x).1

end Huobi
