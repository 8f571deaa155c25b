import Verif.Model.Consensus
import Verif.Model.Messages
import Verif.Model.Rpc
/-
Model of what a node does with the messages it receives: the handlers of `core/mempool/src/adapter/message.rs` and
`core/consensus/src/message.rs`, and their registration in `src/main.rs`.

* Messages for Overlord (proposals, votes, certificates) are handed to that library: they are not modelled beyond their dispatch.
* The transactions of a batch are inserted by concurrent tasks (message.rs:47-61); here in the order of the batch.
* Compression and the frame of `NetworkMessage` are left out, as in `Model/Rpc.lean`.
-/
namespace Huobi

/-- core/mempool/src/adapter/message.rs:14-16 and core/consensus/src/message.rs:17-22. -/
def endNewTxs : Str := "/gossip/mempool/new_txs".toList
def endPullTxs : Str := "/rpc_call/mempool/pull_txs".toList
def endRespPullTxs : Str := "/rpc_resp/mempool/pull_txs".toList
def endProposal : Str := "/gossip/consensus/signed_proposal".toList
def endVote : Str := "/gossip/consensus/signed_vote".toList
def endQC : Str := "/gossip/consensus/qc".toList
def endRichEpochId : Str := "/gossip/consensus/rich_epoch_id".toList
def rpcSyncPull : Str := "/rpc_call/consensus/sync_pull".toList
def rpcRespSyncPull : Str := "/rpc_resp/consensus/sync_pull".toList

/-- The handlers in the repository.  `resp` stands for the dummy handler of `register_rpc_response`, one for each message type. -/
inductive Handler where
  | newTxs
  | pullTxs
  | proposal
  | vote
  | qc
  | richEpochId
  | rpc
  | respPushTxs
  | respSync
deriving DecidableEq

/-- The registrations: src/main.rs:206-224, 285-323. -/
def mainReactors : Reactors Handler :=
  ((((((((Reactors.register [] ⟨endNewTxs⟩ .newTxs).register ⟨endPullTxs⟩ .newTxs).register ⟨endRespPullTxs⟩ .respPushTxs).register
    ⟨endProposal⟩ .proposal).register ⟨endQC⟩ .qc).register ⟨endVote⟩ .vote).register ⟨endRichEpochId⟩ .richEpochId).register
    ⟨rpcSyncPull⟩ .rpc).register ⟨rpcRespSyncPull⟩ .respSync

/-- `ConsensusRpcRequest`: core/consensus/src/fixed_types.rs:15-19. -/
inductive RpcRequest where
  | pullEpochs (id : UInt64)
  | pullTxs (hs : List Hash)

/-- Its derived bincode: the number of the case in 4 bytes, then the contents. -/
def RpcRequest.enc : RpcRequest → Bytes
  | .pullEpochs id => [0, 0, 0, 0] ++ u64LE id.toNat
  | .pullTxs hs => [1, 0, 0, 0] ++ encMulti hs

def RpcRequest.dec (bs : Bytes) : Option RpcRequest :=
  if bs.take 4 = [0, 0, 0, 0] then (readU64LE (bs.drop 4)).map (fun x => .pullEpochs (UInt64.ofNat x.1))
  else if bs.take 4 = [1, 0, 0, 0] then
    match (decMulti (bs.drop 4) : PDec (List Hash)) with
    | .ok hs => some (.pullTxs hs)
    | .error _ => none
  else none

/-- A message handed to the transport. -/
structure OutMsg where
  sid : Nat
  url : Str
  content : Bytes
deriving DecidableEq

/-- `NetworkRpc::response`: core/network/src/outbound/rpc.rs:77-98.  `rid` is the rpc id of the context. -/
def respond (sid : Nat) (rid : Option UInt64) (url : Str) (content : Bytes) : List OutMsg :=
  match Endpoint.parse url, rid with
  | .ok e, some r =>
    match e.extend (showNat r.toNat) with
    | .ok e' => [⟨sid, e'.url, content⟩]
    | .error _ => []
  | _, _ => []

/-- `PullTxsHandler::process`: core/mempool/src/adapter/message.rs:99-107. -/
def pullTxsHandler (p : MemPool) (sid : Nat) (rid : Option UInt64) (content : Bytes) : List OutMsg :=
  match (decMulti content : PDec (List Hash)) with
  | .error _ => []
  | .ok hs =>
    match p.getFullTxs hs with
    | .error _ => []
    | .ok txs => respond sid rid endRespPullTxs (encMulti txs)

/-- `mark_network_origin_new_txs` in the handler: core/mempool/src/adapter/message.rs:45. -/
def newTxsOrigin : Bool := true

/-- `NewTxsHandler::process`: core/mempool/src/adapter/message.rs:44-64. -/
def newTxsHandler (cfg : NodeCfg) (n : Node) (content : Bytes) : Node :=
  match (decMulti content : PDec (List SignedTx)) with
  | .error _ => n
  | .ok txs => { n with pool := txs.foldl (fun p tx => (p.insert cfg.mem (n.view cfg (fun _ => none) true) newTxsOrigin tx).2) n.pool }

/-- What the handler hands to the broadcaster: core/mempool/src/adapter/message.rs:44-64, core/mempool/src/lib.rs:93-95. -/
def newTxsGossip (cfg : NodeCfg) (n : Node) (content : Bytes) : List SignedTx :=
  match (decMulti content : PDec (List SignedTx)) with
  | .error _ => []
  | .ok txs =>
    (txs.foldl (fun (x : List SignedTx × MemPool) tx =>
      (x.1 ++ x.2.gossips cfg.mem (n.view cfg (fun _ => none) true) newTxsOrigin tx,
        (x.2.insert cfg.mem (n.view cfg (fun _ => none) true) newTxsOrigin tx).2)) ([], n.pool)).1

/-- `RpcHandler::process`: core/consensus/src/message.rs:136-178. -/
def rpcHandler (n : Node) (sid : Nat) (rid : Option UInt64) (content : Bytes) : List OutMsg :=
  match RpcRequest.dec content with
  | none => []
  | some (.pullEpochs id) =>
    match n.store.epochs id with
    | none => []
    | some e => respond sid rid rpcRespSyncPull (RpcResponse.pullEpochs e).enc
  | some (.pullTxs hs) =>
    match hs.mapM n.store.txs with
    | none => []
    | some txs => respond sid rid rpcRespSyncPull (RpcResponse.pullTxs txs).enc

/-- A message received on session `sid`: router.rs:66-98, reactor/mod.rs:55-97.  Returns what is sent in reply, and the node
afterwards.  `io` is what the peers answer if a synchronisation starts. -/
def Node.serve (cfg : NodeCfg) (io : SyncIo) (n : Node) (sid : Nat) (url : Str) (content : Bytes) : List OutMsg × Node :=
  match mainReactors.route url, Endpoint.parse url with
  | .ok h, .ok e =>
    -- the rpc id of the context; `none` outside: the message is not processed
    let rid : Option (Option UInt64) :=
      match e.scheme with
      | some .gossip => some none
      | some .rpcCall => match e.rpcId with
        | .ok r => some (some r)
        | .error _ => none
      | _ => none
    match rid with
    | none => ([], n)
    | some rid =>
      match h with
      | .newTxs => ([], newTxsHandler cfg n content)
      | .pullTxs => (pullTxsHandler n.pool sid rid content, n)
      | .proposal => ([], n)
      | .vote => ([], n)
      | .qc => ([], n)
      | .richEpochId =>
        match readBuf content with
        | some (msg, _) => ([], (n.updateEpoch cfg io msg).2)
        | none => ([], n)
      | .rpc => (rpcHandler n sid rid content, n)
      | .respPushTxs => ([], n)
      | .respSync => ([], n)
  | _, _ => ([], n)

/-- What `commit` of epoch `epochId` broadcasts, url and content: core/consensus/src/engine.rs:180-200; `FixedEpochID`: fixed_types.rs:95-98.
The bytes of the id are the content of a `Vec<u8>`, which bincode writes with its length. -/
def richMessage (epochId : UInt64) : Str × Bytes := (endRichEpochId, encBuf (u64LE (epochId + 1).toNat))

/-- The broadcasts of a call of `commit`: core/consensus/src/engine.rs:193-200.  The broadcast is reached exactly when all that comes
before succeeds, that is when the call would succeed with a network that accepts. -/
def Node.commitSends (cfg : NodeCfg) (io : CommitIo) (epochId : UInt64) (pill : Pill) (proof : OverlordProof) (n : Node) : List (Str × Bytes) :=
  match (n.commit cfg { io with transmit := true } epochId pill proof).1 with
  | .ok _ => [richMessage epochId]
  | .error _ => []

end Huobi
