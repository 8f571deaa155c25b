import Verif.Spec.Store
import Verif.Model.Executor
import Verif.Model.Mempool
import Verif.Model.Merkle
import Verif.Model.Messages
/-
Model of a node: `core/consensus/src/{engine,consensus,adapter}.rs`, `handle_init` and `start` of `src/main.rs`, and the
balance query of `core/api/src/adapter/mod.rs`, over the models of the executor, the memory pool and the storage.

* The storage is the tables `Store`; `C31_rocks_partial` shows that the RocksDB adapter behaves as these tables.
* An operation is one call that runs to its end.  The failures that can come from outside (database, network, peers) are an
  argument of the call.  `Model/ConsensusLock.lean` has the interleaving of two such calls.
* Overlord itself (the vote counting) is a third-party crate and not modelled: `propose`, `check` and `commit` are called
  with any arguments in any order.
* `u64` arithmetic wraps (release build).
-/
namespace Huobi

/-- What a node is started with: the configuration file, and the functions left abstract (keccak, the trie root of a world,
the text of an error, signature verification, the shape of Merkle trees). -/
structure NodeCfg where
  digest : Bytes → Hash
  rootOf : World → MerkleRoot
  showErr : ExecErr → String
  sigOk : Hash → Bytes → Bytes → Bool
  layout : MerkleLayout
  chainId : Hash
  selfAddress : UserAddress
  cyclesPrice : UInt64
  cyclesLimit : UInt64
  validators : List Validator
  interval : UInt64
  poolSize : Nat
  timeoutGap : UInt64

/-- `Hash::from_empty()`: protocol/src/types/primitive.rs:43-48. -/
def NodeCfg.emptyHash (cfg : NodeCfg) : Hash := cfg.digest [0x80]

/-- The arguments of `EF::from_root` in `execute`: core/consensus/src/adapter.rs:104-111. -/
def NodeCfg.env (cfg : NodeCfg) (epochId price : UInt64) (coinbase : Address) : Env :=
  { digest := cfg.digest, rootOf := cfg.rootOf, showErr := cfg.showErr, chainId := cfg.chainId, epochId := epochId,
    cyclesPrice := price, coinbase := coinbase }

/-- The checks of the memory pool: signature, and the digest of the fixed coding of the raw transaction. -/
def NodeCfg.mem (cfg : NodeCfg) : MemCrypto := ⟨cfg.sigOk, fun r => cfg.digest (encode r)⟩

/-- `Merkle::from_hashes(..).get_root_hash().unwrap_or_else(Hash::from_empty)`: core/consensus/src/engine.rs:65,72,377-379. -/
def NodeCfg.merkle (cfg : NodeCfg) (hs : List Hash) : Hash := (merkleRoot cfg.digest cfg.layout hs).getD cfg.emptyHash

/-- The hash of an epoch, `Hash::digest(epoch.encode_fixed()?)`: engine.rs:366, consensus.rs:104,170, main.rs:251. -/
def NodeCfg.epochHash (cfg : NodeCfg) (e : Epoch) : Hash := cfg.digest (encode e)

/-- `CurrentConsensusStatus`: protocol/src/traits/consensus.rs:23-37. -/
structure Status where
  cyclesPrice : UInt64
  cyclesLimit : UInt64
  epochId : UInt64
  prevHash : Hash
  logsBloom : Bloom
  orderRoot : MerkleRoot
  confirmRoot : List MerkleRoot
  stateRoot : MerkleRoot
  receiptRoot : List MerkleRoot
  cyclesUsed : UInt64
  proof : Proof
  validators : List Validator
  interval : UInt64
deriving DecidableEq

/-- What `update_status` recorded, in addition the root the transactions were executed on.  Written for the specification
only: no function of the model reads it. -/
structure Done where
  /-- the height given to the call -/
  height : UInt64
  epoch : Epoch
  proof : Proof
  txs : List SignedTx
  /-- the state root on which the transactions were executed -/
  root : MerkleRoot
  resp : ExecResp

/-- A node. -/
structure Node where
  store : Store
  tries : StateDB
  pool : MemPool
  status : Status
  /-- `exemption_hash` -/
  exempt : List Bytes
  /-- ghost: the epochs recorded since the process was started, latest first -/
  log : List Done

/-- Errors of the operations. -/
inductive CErr where
  | lockInSync
  | badProof
  | storage
  | mempool (e : MemErr)
  | openRoot
  | exec (e : ExecErr)
  | network
  | missingEpochHeader (id : UInt64)
  | syncEpochHash (id : UInt64)
  | decode
  /-- the task aborts -/
  | panic
deriving DecidableEq

/-- What the pool sees of the outside during an operation: storage is the node's, the peer's answer to `pull_txs` and the
broadcaster are arguments. -/
def Node.view (cfg : NodeCfg) (n : Node) (pull : List Hash → Option (List SignedTx)) (broadcastOk : Bool) : MemView :=
  { latest := n.store.latest.map (fun e => (e.header.chainId, e.header.epochId))
    stored := fun h => if (n.store.txs h).isSome then .found else .getNone
    gap := cfg.timeoutGap
    pull := pull
    broadcastOk := broadcastOk }

/-! ### Genesis and start (src/main.rs) -/

/-- The genesis epoch: src/main.rs:120-148. -/
def NodeCfg.genesisEpoch (cfg : NodeCfg) (timestamp : UInt64) (root : MerkleRoot) : Epoch :=
  { header :=
      { chainId := cfg.chainId, epochId := 0, preHash := cfg.emptyHash, timestamp := timestamp, logsBloom := Bloom.zero
        orderRoot := cfg.emptyHash, confirmRoot := [], stateRoot := root, receiptRoot := [cfg.emptyHash], cyclesUsed := 0
        proposer := ⟨List.replicate 20 0, by simp⟩
        proof := ⟨0, 0, cfg.emptyHash, [], []⟩, validatorVersion := 0, validators := [] }
    orderedTxHashes := [] }

/-- `handle_init`: src/main.rs:69-153.  `none` = error or abort. -/
def handleInit (cfg : NodeCfg) (g : Genesis) (store : Store) (tries : StateDB) : Option (Store × StateDB) :=
  match store.latest with
  | some _ => some (store, tries)
  | none =>
    match runGenesis (cfg.env 0 cfg.cyclesPrice (.user cfg.selfAddress)) tries g with
    | (some (.ok root), tries') =>
      let e := cfg.genesisEpoch g.timestamp root
      some (store.writes (StoreOp.writes cfg.digest (.insertEpoch e) ++
        StoreOp.writes cfg.digest (.updateLatestProof e.header.proof)), tries')
    | _ => none

/-- The status after start: src/main.rs:250-276. -/
def startStatus (cfg : NodeCfg) (latest : Epoch) : Status :=
  { cyclesPrice := cfg.cyclesPrice, cyclesLimit := cfg.cyclesLimit, epochId := latest.header.epochId + 1
    prevHash := cfg.epochHash latest, logsBloom := latest.header.logsBloom, orderRoot := cfg.emptyHash
    confirmRoot := [cfg.emptyHash], stateRoot := latest.header.stateRoot, receiptRoot := [cfg.emptyHash]
    cyclesUsed := latest.header.cyclesUsed, proof := latest.header.proof, validators := cfg.validators
    interval := cfg.interval }

/-- `start`: src/main.rs:155-326.  `none` = abort, no latest epoch. -/
def startNode (cfg : NodeCfg) (store : Store) (tries : StateDB) : Option Node :=
  match store.latest with
  | none => none
  | some e => some { store := store, tries := tries, pool := MemPool.new cfg.poolSize cfg.timeoutGap, status := startStatus cfg e,
                     exempt := [], log := [] }

/-! ### The engine (core/consensus/src/engine.rs) -/

/-- `get_epoch`: engine.rs:48-99.  `now` is the clock. -/
def Node.getEpoch (cfg : NodeCfg) (now : UInt64) (epochId : UInt64) (n : Node) : Except CErr (Pill × Bytes) × Node :=
  match n.pool.package (n.view cfg (fun _ => none) true) n.status.cyclesLimit with
  | (.error e, pool) => (.error (.mempool e), { n with pool := pool })
  | (.ok (order, propose), pool) =>
    if n.status.epochId ≠ epochId then (.error (.missingEpochHeader epochId), { n with pool := pool })
    else
      let header : EpochHeader :=
        { chainId := cfg.chainId, epochId := epochId, preHash := n.status.prevHash, timestamp := now
          logsBloom := n.status.logsBloom, orderRoot := cfg.merkle order, confirmRoot := [n.status.orderRoot]
          stateRoot := n.status.stateRoot, receiptRoot := n.status.receiptRoot, cyclesUsed := n.status.cyclesUsed
          proposer := cfg.selfAddress, proof := n.status.proof, validatorVersion := 0, validators := n.status.validators }
      let pill : Pill := ⟨⟨header, order⟩, propose⟩
      let hash := (cfg.digest (encode pill)).bytes
      (.ok (pill, hash), { n with pool := pool, exempt := hash :: n.exempt })

/-- `check_epoch`: engine.rs:101-127.  `pull1`, `pull2` are the answers of the peers to the two requests for transactions. -/
def Node.checkEpoch (cfg : NodeCfg) (pull1 pull2 : List Hash → Option (List SignedTx)) (hash : Bytes) (pill : Pill) (n : Node) :
    Except CErr (List SignedTx) × Node :=
  let order := pill.epoch.orderedTxHashes
  let full (n : Node) : Except CErr (List SignedTx) × Node :=
    match n.pool.getFullTxs order with
    | .error e => (.error (.mempool e), n)
    | .ok txs => (.ok txs, n)
  if hash ∈ n.exempt then full n
  else
    match n.pool.syncProposeTxs (n.view cfg pull1 true) pill.proposeHashes with
    | (.error e, p) => (.error (.mempool e), { n with pool := p })
    | (.ok (), p) =>
      match p.ensureOrderTxs (n.view cfg pull2 true) order with
      | (.error e, p) => (.error (.mempool e), { n with pool := p })
      | (.ok (), p) => full { n with pool := p }

/-- `exec`: engine.rs:318-337, adapter.rs:95-113. -/
def Node.exec (cfg : NodeCfg) (root : MerkleRoot) (epochId : UInt64) (coinbase : Address) (txs : List SignedTx) (n : Node) :
    Except CErr ExecResp × Node :=
  match runBlock (cfg.env epochId n.status.cyclesPrice coinbase) n.tries root txs with
  | (none, db) => (.error .openRoot, { n with tries := db })
  | (some (.error .panic), db) => (.error .panic, { n with tries := db })
  | (some (.error (.err e)), db) => (.error (.exec e), { n with tries := db })
  | (some (.ok resp), db) => (.ok resp, { n with tries := db })

/-- Which of the writes of an operation succeed (`true`: all of it).  `epochWrites` is the number of successful writes of
`insert_epoch`, which makes three. -/
structure SaveIo where
  proof : Bool
  receipts : Bool
  txs : Bool
  epochWrites : Nat

/-- Everything succeeds. -/
def SaveIo.ok : SaveIo := ⟨true, true, true, 3⟩

/-- `save_proof`: adapter.rs:127-129. -/
def Node.saveProof (cfg : NodeCfg) (io : SaveIo) (p : Proof) (n : Node) : Except CErr Unit × Node :=
  if io.proof then (.ok (), { n with store := n.store.writes (StoreOp.writes cfg.digest (.updateLatestProof p)) })
  else (.error .storage, n)

/-- The status of a node after an epoch was recorded: engine.rs:366-398. -/
def Status.updated (cfg : NodeCfg) (st : Status) (epochId : UInt64) (epoch : Epoch) (proof : Proof) (resp : ExecResp) : Status :=
  { st with
    epochId := epochId + 1
    prevHash := cfg.epochHash epoch
    proof := proof
    stateRoot := resp.stateRoot
    orderRoot := cfg.merkle epoch.orderedTxHashes
    confirmRoot := [cfg.merkle epoch.orderedTxHashes]
    receiptRoot := [cfg.merkle (resp.receipts.map (fun r => cfg.digest (encode r)))] }

/-- `update_status`: engine.rs:346-400.  `root` is used for the ghost field only. -/
def Node.updateStatus (cfg : NodeCfg) (io : SaveIo) (root : MerkleRoot) (epochId : UInt64) (epoch : Epoch) (proof : Proof)
    (resp : ExecResp) (txs : List SignedTx) (n : Node) : Except CErr Unit × Node :=
  if io.receipts = false then (.error .storage, n)
  else
    let s1 := n.store.writes (StoreOp.writes cfg.digest (.insertReceipts resp.receipts))
    if io.txs = false then (.error .storage, { n with store := s1 })
    else
      let s2 := s1.writes (StoreOp.writes cfg.digest (.insertTransactions txs))
      let s3 := s2.writes ((StoreOp.writes cfg.digest (.insertEpoch epoch)).take io.epochWrites)
      if io.epochWrites < 3 then (.error .storage, { n with store := s3 })
      else
        (.ok (), { n with
          store := s3
          status := n.status.updated cfg epochId epoch proof resp
          log := ⟨epochId, epoch, proof, txs, root, resp⟩ :: n.log })

/-- `overlord::types::Proof`, of which `epoch_hash` is a byte string. -/
structure OverlordProof where
  epochId : UInt64
  round : UInt64
  epochHash : Bytes
  signature : Bytes
  bitmap : Bytes

/-- The conversion at the head of `commit`: engine.rs:149-155. -/
def OverlordProof.toProof (p : OverlordProof) : Option Proof :=
  (Hash.fromBytes p.epochHash).map (fun h => ⟨p.epochId, p.round, h, p.signature, p.bitmap⟩)

/-- What happens outside during a `commit`. -/
structure CommitIo where
  /-- `engine.lock.try_lock()` succeeds -/
  lock : Bool
  /-- `false`: the process is killed after the proof was saved and before anything else was written -/
  alive : Bool
  save : SaveIo
  transmit : Bool

/-- Everything succeeds. -/
def CommitIo.ok : CommitIo := ⟨true, true, .ok, true⟩

/-- `commit` after the transactions were fetched: engine.rs:166-209. -/
def Node.commitTail (cfg : NodeCfg) (io : CommitIo) (epochId : UInt64) (pill : Pill) (proof : Proof) (txs : List SignedTx)
    (n : Node) : Except CErr UInt64 × Node :=
  let n1 := { n with pool := n.pool.flush pill.epoch.orderedTxHashes }
  match n1.exec cfg n1.status.stateRoot epochId (.user pill.epoch.header.proposer) txs with
  | (.error e, n2) => (.error e, n2)
  | (.ok resp, n2) =>
    match n2.updateStatus cfg io.save n1.status.stateRoot epochId pill.epoch proof resp txs with
    | (.error e, n3) => (.error e, n3)
    | (.ok (), n3) => if io.transmit then (.ok (epochId + 1), n3) else (.error .network, n3)

/-- `commit`: engine.rs:132-210.  Returns the height of the status given to Overlord. -/
def Node.commit (cfg : NodeCfg) (io : CommitIo) (epochId : UInt64) (pill : Pill) (proof : OverlordProof) (n : Node) :
    Except CErr UInt64 × Node :=
  if io.lock = false then (.error .lockInSync, n)
  else
    match proof.toProof with
    | none => (.error .badProof, n)
    | some p =>
      match n.saveProof cfg io.save p with
      | (.error e, n1) => (.error e, n1)
      | (.ok (), n1) =>
        if io.alive = false then (.error .panic, n1)
        else
          match n1.pool.getFullTxs pill.epoch.orderedTxHashes with
          | .error e => (.error (.mempool e), n1)
          | .ok txs => n1.commitTail cfg io epochId pill p txs

/-! ### Synchronisation (core/consensus/src/consensus.rs:65-187) -/

/-- What happens outside during a synchronisation: locks, the answers of peers to the `k`-th request of each kind, the
database, the channel to Overlord. -/
structure SyncIo where
  /-- both locks are free -/
  lock : Bool
  pullEpoch : Nat → UInt64 → Option Epoch
  pullTxs : Nat → List Hash → Option (List SignedTx)
  save : Nat → SaveIo
  send : Bool

/-- The body of the loop: consensus.rs:122-171.  `k` counts the requests for an epoch (the check before the loop makes the
first one).  Returns the next `current_hash` and `state_root`. -/
def Node.syncOne (cfg : NodeCfg) (io : SyncIo) (k : Nat) (id : UInt64) (curHash stateRoot : Hash) (n : Node) :
    Except CErr (Hash × Hash) × Node :=
  match io.pullEpoch k id with
  | none => (.error .network, n)
  | some epoch =>
    if id ≠ 1 ∧ curHash ≠ epoch.header.preHash then (.error (.syncEpochHash id), n)
    else
      match n.saveProof cfg (io.save k) epoch.header.proof with
      | (.error e, n1) => (.error e, n1)
      | (.ok (), n1) =>
        match io.pullTxs k epoch.orderedTxHashes with
        | none => (.error .network, n1)
        | some txs =>
          match n1.exec cfg stateRoot epoch.header.epochId (.user epoch.header.proposer) txs with
          | (.error e, n2) => (.error e, n2)
          | (.ok resp, n2) =>
            match n2.updateStatus cfg (io.save k) stateRoot epoch.header.epochId epoch epoch.header.proof resp txs with
            | (.error e, n3) => (.error e, n3)
            | (.ok (), n3) => (.ok (cfg.epochHash epoch, resp.stateRoot), n3)

/-- The loop: consensus.rs:122-171. -/
def Node.syncLoop (cfg : NodeCfg) (io : SyncIo) : Nat → List UInt64 → Hash → Hash → Node → Except CErr Unit × Node
  | _, [], _, _, n => (.ok (), n)
  | k, id :: ids, curHash, stateRoot, n =>
    match n.syncOne cfg io k id curHash stateRoot with
    | (.error e, n1) => (.error e, n1)
    | (.ok (h, r), n1) => Node.syncLoop cfg io (k + 1) ids h r n1

/-- The ids `current + 1 ..= rich`: consensus.rs:122. -/
def syncIds (current rich : UInt64) : List UInt64 :=
  (List.range (rich.toNat - current.toNat)).map (fun k => current + 1 + UInt64.ofNat k)

/-- The start of the loop: consensus.rs:97-119.  Hash of the current epoch and state root. -/
def Node.syncStart (cfg : NodeCfg) (io : SyncIo) (current : UInt64) (n : Node) : Except CErr (Hash × Hash) :=
  if current = 0 then .ok (cfg.emptyHash, cfg.emptyHash)
  else
    match n.store.epochs current with
    | none => .error .storage
    | some e =>
      match io.pullEpoch 0 (current + 1) with
      | none => .error .network
      | some next =>
        if cfg.epochHash e ≠ next.header.preHash then .error (.syncEpochHash (current + 1))
        else .ok (cfg.epochHash e, e.header.stateRoot)

/-- `get_current_epoch_id(..).unwrap_or(1)`: consensus.rs:78-82. -/
def Node.currentId (n : Node) : UInt64 :=
  match n.store.latest with
  | none => 1
  | some e => e.header.epochId

/-- `update_epoch`: consensus.rs:65-187.  `some h`: the status with height `h` is sent to Overlord; `none`: nothing to do.
`msg` is the message of a peer: its 8 bytes are the height that follows the peer's latest epoch. -/
def Node.updateEpoch (cfg : NodeCfg) (io : SyncIo) (msg : Bytes) (n : Node) : Except CErr (Option UInt64) × Node :=
  match readU64LE msg with
  | none => (.error .decode, n)
  | some (v, _) =>
    let rich := UInt64.ofNat v - 1
    let current := n.currentId
    if rich - 1 ≤ current then (.ok none, n)
    else if io.lock = false then (.ok none, n)
    else
      match n.syncStart cfg io current with
      | .error e => (.error e, n)
      | .ok (h, r) =>
        match Node.syncLoop cfg io 1 (syncIds current rich) h r n with
        | (.error e, n1) => (.error e, n1)
        | (.ok (), n1) => if io.send then (.ok (some (rich + 1)), n1) else (.error .network, n1)

/-! ### Queries -/

/-- `get_epoch_by_id`: core/api/src/adapter/mod.rs:42-49. -/
def Node.queryEpoch (n : Node) : Option UInt64 → Option Epoch
  | some id => n.store.epochs id
  | none => n.store.latest

/-- `get_balance`: core/api/src/adapter/mod.rs:59-79; `none` = error. -/
def Node.queryBalance (cfg : NodeCfg) (n : Node) (a : Address) (id : AssetID) (epochId : Option UInt64) : Option Nat :=
  match n.queryEpoch epochId with
  | none => none
  | some e =>
    match fromRoot (cfg.env e.header.epochId 0 (.user e.header.proposer)) n.tries e.header.stateRoot with
    | none => none
    | some s => (getBalance id a s).toOption

/-- `getBalance` of the API: any error is the balance zero, core/api/src/lib.rs:91-101. -/
def Node.apiBalance (cfg : NodeCfg) (n : Node) (a : Address) (id : AssetID) (epochId : Option UInt64) : Nat :=
  (n.queryBalance cfg a id epochId).getD 0

/-! ### Runs -/

/-- One call on a node, with what happens outside during it. -/
inductive NodeOp where
  | insertTx (netOrigin broadcastOk : Bool) (tx : SignedTx)
  | propose (now epochId : UInt64)
  | check (pull1 pull2 : List Hash → Option (List SignedTx)) (hash : Bytes) (pill : Pill)
  | commit (io : CommitIo) (epochId : UInt64) (pill : Pill) (proof : OverlordProof)
  | sync (io : SyncIo) (msg : Bytes)

/-- The node after a call. -/
def Node.step (cfg : NodeCfg) (n : Node) : NodeOp → Node
  | .insertTx o b tx => { n with pool := (n.pool.insert cfg.mem (n.view cfg (fun _ => none) b) o tx).2 }
  | .propose now id => (n.getEpoch cfg now id).2
  | .check p1 p2 h pill => (n.checkEpoch cfg p1 p2 h pill).2
  | .commit io id pill proof => (n.commit cfg io id pill proof).2
  | .sync io msg => (n.updateEpoch cfg io msg).2

/-- The node after a sequence of calls. -/
def Node.run (cfg : NodeCfg) (n : Node) (ops : List NodeOp) : Node := ops.foldl (Node.step cfg) n

/-- The lifetime of a node's data: initialised from a genesis, then any number of processes, each ended (by a stop or a crash)
after any calls; the next one starts from the stored data.  A crash in the middle of a call is that call failing at that
point (`CommitIo`, `SyncIo`).  `ok` restricts the calls. -/
inductive Lives (cfg : NodeCfg) (g : Genesis) (ok : Node → NodeOp → Prop) : Node → Prop
  | init {store tries n} : handleInit cfg g Store.empty PMap.empty = some (store, tries) → startNode cfg store tries = some n →
      Lives cfg g ok n
  | step {n} (op : NodeOp) : Lives cfg g ok n → ok n op → Lives cfg g ok (n.step cfg op)
  | restart {n s t n'} : Lives cfg g ok n → handleInit cfg g n.store n.tries = some (s, t) → startNode cfg s t = some n' →
      Lives cfg g ok n'

end Huobi
