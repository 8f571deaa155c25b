import Verif.Model.Consensus
import Verif.Model.ByteExecutor
/-
A node on bytes: the node of `Model/Consensus.lean` (`core/consensus/src/{engine,consensus,adapter}.rs`, `src/main.rs`,
`core/api/src/adapter/mod.rs`) over the RocksDB columns of `Model/Storage.lean` and the executor on bytes of
`Model/ByteExecutor.lean`, instead of tables of typed records and typed worlds.  Every record is encoded when it is written
and decoded when it is read; a record that does not decode is an error where the code has one.
`Props/Disk.lean` relates the two.

* A buffer of 2^64 bytes cannot be allocated: the write that needs one is an error `memory` (the process aborts).
* An abort of a decoding counts as an error of it (`Props/Disk.lean`: neither happens).
* The operations are those of `Model/Consensus.lean`, with the same simplifications; the field `rootOf` of the configuration
  is not used.
-/
namespace Huobi

/-- Errors of the operations of a node on bytes. -/
inductive DiskErr where
  | node (e : CErr)
  /-- the fixed codec failed in the executor -/
  | codec (e : DErr)
  /-- a buffer of 2^64 bytes -/
  | memory

/-- What a node keeps: two databases on disk, the rest in memory. -/
structure DNode where
  /-- the block database -/
  rocks : Db
  /-- the state database -/
  tries : TrieStore
  pool : MemPool
  status : Status
  exempt : List Bytes

/-- What the node on bytes is built with, besides the configuration: the trie library and the text of a codec error. -/
structure DiskLib where
  trie : TrieLib
  showCodec : DErr → String

/-- `LATEST_EPOCH_KEY`, `LATEST_PROOF_KEY`: core/storage/src/lib.rs:23-26. -/
def NodeCfg.keys (cfg : NodeCfg) : LatestKeys := LatestKeys.of cfg.digest

/-- Does a write need a buffer of 2^64 bytes? -/
def Write.tooLong (lk : LatestKeys) (w : Write) : Bool := (w.puts lk).any (fun p => decide (2 ^ 64 ≤ p.2.2.length))

/-- Writes one after the other, up to the first that cannot be encoded; whether all were made.
core/storage/src/adapter/rocks.rs:49-61, 105-140. -/
def Db.save (lk : LatestKeys) (db : Db) : List Write → Bool × Db
  | [] => (true, db)
  | w :: ws => if w.tooLong lk then (false, db) else Db.save lk (db.write .rocks lk w) ws

/-- What the pool sees of the outside: `get_latest_epoch`, `get_transaction_by_hash` of the storage, and the peers.
core/mempool/src/adapter/mod.rs:248-303. -/
def DNode.view (cfg : NodeCfg) (d : DNode) (pull : List Hash → Option (List SignedTx)) (broadcastOk : Bool) : MemView :=
  { latest := match d.rocks.getLatestEpoch .rocks cfg.keys with
      | .ok e => some (e.header.chainId, e.header.epochId)
      | .error _ => none
    stored := fun h => match d.rocks.getTransaction .rocks h with
      | .ok _ => .found
      | .error .getNone => .getNone
      | .error (.codec _) => .failed
    gap := cfg.timeoutGap
    pull := pull
    broadcastOk := broadcastOk }

/-! ### Genesis and start (src/main.rs) -/

/-- `handle_init`: src/main.rs:69-153.  The process may be killed after `writes` of its four writes to the block database.
`ok false`: the process ends (error, abort or killed). -/
def diskInit (cfg : NodeCfg) (L : DiskLib) (g : Genesis) (order : Bool) (writes : Nat) (rocks : Db) (tries : TrieStore) :
    Except DiskErr Bool × Db × TrieStore :=
  match rocks.getLatestEpoch .rocks cfg.keys with
  | .ok _ => (.ok true, rocks, tries)
  | .error (.codec _) => (.ok false, rocks, tries)
  | .error .getNone =>
    match bRunGenesis L.trie (cfg.env 0 cfg.cyclesPrice (.user cfg.selfAddress)) order tries g with
    | (some (.ok root), tries') =>
      let e := cfg.genesisEpoch g.timestamp root
      let ws := StoreOp.writes cfg.digest (.insertEpoch e) ++ StoreOp.writes cfg.digest (.updateLatestProof e.header.proof)
      match rocks.save cfg.keys (ws.take writes) with
      | (true, rocks') => (.ok (decide (4 ≤ writes)), rocks', tries')
      | (false, rocks') => (.error .memory, rocks', tries')
    | (some (.error .memory), tries') => (.error .memory, rocks, tries')
    | (some (.error (.codec e)), tries') => (.error (.codec e), rocks, tries')
    | (_, tries') => (.ok false, rocks, tries')

/-- `start`: src/main.rs:155-326.  `none` = abort. -/
def diskStart (cfg : NodeCfg) (rocks : Db) (tries : TrieStore) : Option DNode :=
  match rocks.getLatestEpoch .rocks cfg.keys with
  | .error _ => none
  | .ok e => some { rocks := rocks, tries := tries, pool := MemPool.new cfg.poolSize cfg.timeoutGap, status := startStatus cfg e,
                    exempt := [] }

/-! ### The engine (core/consensus/src/engine.rs) -/

/-- `get_epoch`: engine.rs:48-99. -/
def DNode.getEpoch (cfg : NodeCfg) (now : UInt64) (epochId : UInt64) (d : DNode) : Except DiskErr (Pill × Bytes) × DNode :=
  match d.pool.package (d.view cfg (fun _ => none) true) d.status.cyclesLimit with
  | (.error e, pool) => (.error (.node (.mempool e)), { d with pool := pool })
  | (.ok (order, propose), pool) =>
    if d.status.epochId ≠ epochId then (.error (.node (.missingEpochHeader epochId)), { d with pool := pool })
    else
      let header : EpochHeader :=
        { chainId := cfg.chainId, epochId := epochId, preHash := d.status.prevHash, timestamp := now
          logsBloom := d.status.logsBloom, orderRoot := cfg.merkle order, confirmRoot := [d.status.orderRoot]
          stateRoot := d.status.stateRoot, receiptRoot := d.status.receiptRoot, cyclesUsed := d.status.cyclesUsed
          proposer := cfg.selfAddress, proof := d.status.proof, validatorVersion := 0, validators := d.status.validators }
      let pill : Pill := ⟨⟨header, order⟩, propose⟩
      let hash := (cfg.digest (encode pill)).bytes
      (.ok (pill, hash), { d with pool := pool, exempt := hash :: d.exempt })

/-- `check_epoch`: engine.rs:101-127. -/
def DNode.checkEpoch (cfg : NodeCfg) (pull1 pull2 : List Hash → Option (List SignedTx)) (hash : Bytes) (pill : Pill) (d : DNode) :
    Except DiskErr (List SignedTx) × DNode :=
  let order := pill.epoch.orderedTxHashes
  let full (d : DNode) : Except DiskErr (List SignedTx) × DNode :=
    match d.pool.getFullTxs order with
    | .error e => (.error (.node (.mempool e)), d)
    | .ok txs => (.ok txs, d)
  if hash ∈ d.exempt then full d
  else
    match d.pool.syncProposeTxs (d.view cfg pull1 true) pill.proposeHashes with
    | (.error e, p) => (.error (.node (.mempool e)), { d with pool := p })
    | (.ok (), p) =>
      match p.ensureOrderTxs (d.view cfg pull2 true) order with
      | (.error e, p) => (.error (.node (.mempool e)), { d with pool := p })
      | (.ok (), p) => full { d with pool := p }

/-- `exec`: engine.rs:318-337, adapter.rs:95-113.  `order`: in which order the executor commits its contracts. -/
def DNode.exec (cfg : NodeCfg) (L : DiskLib) (order : Bool) (root : MerkleRoot) (epochId : UInt64) (coinbase : Address)
    (txs : List SignedTx) (d : DNode) : Except DiskErr ExecResp × DNode :=
  match bRunBlock L.trie (cfg.env epochId d.status.cyclesPrice coinbase) L.showCodec order d.tries root txs with
  | (none, t) => (.error (.node .openRoot), { d with tries := t })
  | (some (.error .panic), t) => (.error (.node .panic), { d with tries := t })
  | (some (.error (.err e)), t) => (.error (.node (.exec e)), { d with tries := t })
  | (some (.error (.codec e)), t) => (.error (.codec e), { d with tries := t })
  | (some (.error .memory), t) => (.error .memory, { d with tries := t })
  | (some (.ok resp), t) => (.ok resp, { d with tries := t })

/-- Writes to the block database. -/
def DNode.save (cfg : NodeCfg) (ws : List Write) (d : DNode) : Except DiskErr Unit × DNode :=
  match d.rocks.save cfg.keys ws with
  | (true, db) => (.ok (), { d with rocks := db })
  | (false, db) => (.error .memory, { d with rocks := db })

/-- `save_proof`: adapter.rs:127-129. -/
def DNode.saveProof (cfg : NodeCfg) (io : SaveIo) (p : Proof) (d : DNode) : Except DiskErr Unit × DNode :=
  if io.proof then d.save cfg (StoreOp.writes cfg.digest (.updateLatestProof p))
  else (.error (.node .storage), d)

/-- `update_status`: engine.rs:346-400. -/
def DNode.updateStatus (cfg : NodeCfg) (io : SaveIo) (epochId : UInt64) (epoch : Epoch) (proof : Proof)
    (resp : ExecResp) (txs : List SignedTx) (d : DNode) : Except DiskErr Unit × DNode :=
  if io.receipts = false then (.error (.node .storage), d)
  else
    match d.save cfg (StoreOp.writes cfg.digest (.insertReceipts resp.receipts)) with
    | (.error e, d1) => (.error e, d1)
    | (.ok (), d1) =>
      if io.txs = false then (.error (.node .storage), d1)
      else
        match d1.save cfg (StoreOp.writes cfg.digest (.insertTransactions txs)) with
        | (.error e, d2) => (.error e, d2)
        | (.ok (), d2) =>
          match d2.save cfg ((StoreOp.writes cfg.digest (.insertEpoch epoch)).take io.epochWrites) with
          | (.error e, d3) => (.error e, d3)
          | (.ok (), d3) =>
            if io.epochWrites < 3 then (.error (.node .storage), d3)
            else (.ok (), { d3 with status := d3.status.updated cfg epochId epoch proof resp })

/-- `commit` after the transactions were fetched: engine.rs:166-209. -/
def DNode.commitTail (cfg : NodeCfg) (L : DiskLib) (order : Bool) (io : CommitIo) (epochId : UInt64) (pill : Pill) (proof : Proof)
    (txs : List SignedTx) (d : DNode) : Except DiskErr UInt64 × DNode :=
  let d1 := { d with pool := d.pool.flush pill.epoch.orderedTxHashes }
  match d1.exec cfg L order d1.status.stateRoot epochId (.user pill.epoch.header.proposer) txs with
  | (.error e, d2) => (.error e, d2)
  | (.ok resp, d2) =>
    match d2.updateStatus cfg io.save epochId pill.epoch proof resp txs with
    | (.error e, d3) => (.error e, d3)
    | (.ok (), d3) => if io.transmit then (.ok (epochId + 1), d3) else (.error (.node .network), d3)

/-- `commit`: engine.rs:132-210. -/
def DNode.commit (cfg : NodeCfg) (L : DiskLib) (order : Bool) (io : CommitIo) (epochId : UInt64) (pill : Pill)
    (proof : OverlordProof) (d : DNode) : Except DiskErr UInt64 × DNode :=
  if io.lock = false then (.error (.node .lockInSync), d)
  else
    match proof.toProof with
    | none => (.error (.node .badProof), d)
    | some p =>
      match d.saveProof cfg io.save p with
      | (.error e, d1) => (.error e, d1)
      | (.ok (), d1) =>
        if io.alive = false then (.error (.node .panic), d1)
        else
          match d1.pool.getFullTxs pill.epoch.orderedTxHashes with
          | .error e => (.error (.node (.mempool e)), d1)
          | .ok txs => d1.commitTail cfg L order io epochId pill p txs

/-! ### Synchronisation (core/consensus/src/consensus.rs:65-187) -/

/-- The body of the loop: consensus.rs:122-171. -/
def DNode.syncOne (cfg : NodeCfg) (L : DiskLib) (order : Nat → Bool) (io : SyncIo) (k : Nat) (id : UInt64)
    (curHash stateRoot : Hash) (d : DNode) : Except DiskErr (Hash × Hash) × DNode :=
  match io.pullEpoch k id with
  | none => (.error (.node .network), d)
  | some epoch =>
    if id ≠ 1 ∧ curHash ≠ epoch.header.preHash then (.error (.node (.syncEpochHash id)), d)
    else
      match d.saveProof cfg (io.save k) epoch.header.proof with
      | (.error e, d1) => (.error e, d1)
      | (.ok (), d1) =>
        match io.pullTxs k epoch.orderedTxHashes with
        | none => (.error (.node .network), d1)
        | some txs =>
          match d1.exec cfg L (order k) stateRoot epoch.header.epochId (.user epoch.header.proposer) txs with
          | (.error e, d2) => (.error e, d2)
          | (.ok resp, d2) =>
            match d2.updateStatus cfg (io.save k) epoch.header.epochId epoch epoch.header.proof resp txs with
            | (.error e, d3) => (.error e, d3)
            | (.ok (), d3) => (.ok (cfg.epochHash epoch, resp.stateRoot), d3)

/-- The loop: consensus.rs:122-171. -/
def DNode.syncLoop (cfg : NodeCfg) (L : DiskLib) (order : Nat → Bool) (io : SyncIo) :
    Nat → List UInt64 → Hash → Hash → DNode → Except DiskErr Unit × DNode
  | _, [], _, _, d => (.ok (), d)
  | k, id :: ids, curHash, stateRoot, d =>
    match d.syncOne cfg L order io k id curHash stateRoot with
    | (.error e, d1) => (.error e, d1)
    | (.ok (h, r), d1) => DNode.syncLoop cfg L order io (k + 1) ids h r d1

/-- The start of the loop: consensus.rs:97-119. -/
def DNode.syncStart (cfg : NodeCfg) (io : SyncIo) (current : UInt64) (d : DNode) : Except DiskErr (Hash × Hash) :=
  if current = 0 then .ok (cfg.emptyHash, cfg.emptyHash)
  else
    match d.rocks.getEpochById .rocks current with
    | .error _ => .error (.node .storage)
    | .ok e =>
      match io.pullEpoch 0 (current + 1) with
      | none => .error (.node .network)
      | some next =>
        if cfg.epochHash e ≠ next.header.preHash then .error (.node (.syncEpochHash (current + 1)))
        else .ok (cfg.epochHash e, e.header.stateRoot)

/-- `get_current_epoch_id(..).unwrap_or(1)`: consensus.rs:78-82. -/
def DNode.currentId (cfg : NodeCfg) (d : DNode) : UInt64 :=
  match d.rocks.getLatestEpoch .rocks cfg.keys with
  | .error _ => 1
  | .ok e => e.header.epochId

/-- `update_epoch`: consensus.rs:65-187. -/
def DNode.updateEpoch (cfg : NodeCfg) (L : DiskLib) (order : Nat → Bool) (io : SyncIo) (msg : Bytes) (d : DNode) :
    Except DiskErr (Option UInt64) × DNode :=
  match readU64LE msg with
  | none => (.error (.node .decode), d)
  | some (v, _) =>
    let rich := UInt64.ofNat v - 1
    let current := d.currentId cfg
    if rich - 1 ≤ current then (.ok none, d)
    else if io.lock = false then (.ok none, d)
    else
      match d.syncStart cfg io current with
      | .error e => (.error e, d)
      | .ok (h, r) =>
        match DNode.syncLoop cfg L order io 1 (syncIds current rich) h r d with
        | (.error e, d1) => (.error e, d1)
        | (.ok (), d1) => if io.send then (.ok (some (rich + 1)), d1) else (.error (.node .network), d1)

/-! ### Queries -/

/-- `get_epoch_by_id`: core/api/src/adapter/mod.rs:42-49. -/
def DNode.queryEpoch (cfg : NodeCfg) (d : DNode) : Option UInt64 → Except SErr Epoch
  | some id => d.rocks.getEpochById .rocks id
  | none => d.rocks.getLatestEpoch .rocks cfg.keys

/-- `get_balance`: core/api/src/adapter/mod.rs:59-79. -/
def DNode.queryBalance (cfg : NodeCfg) (L : DiskLib) (d : DNode) (a : Address) (id : AssetID) (epochId : Option UInt64) :
    Except DiskErr Nat :=
  match d.queryEpoch cfg epochId with
  | .error _ => .error (.node .storage)
  | .ok e =>
    match bQueryBalance L.trie (cfg.env e.header.epochId 0 (.user e.header.proposer)) d.tries e.header.stateRoot a id with
    | none => .error (.node .openRoot)
    | some (.ok b) => .ok b
    | some (.error (.err e)) => .error (.node (.exec e))
    | some (.error .panic) => .error (.node .panic)
    | some (.error (.codec e)) => .error (.codec e)
    | some (.error .memory) => .error .memory

/-! ### A machine that runs the node -/

/-- What happens to a machine. -/
inductive MachineCall where
  /-- the process is started, if it runs after being killed; `writes`: it is killed after so many writes of `handle_init` to
  the block database (4: it is not) -/
  | start (order : Bool) (writes : Nat)
  /-- the process is killed while the executor commits: some tries were already written to the state database -/
  | killed (written : TrieStore)
  /-- a call on the node; `order`: in which order the executor commits the contracts, per execution -/
  | op (order : Nat → Bool) (o : NodeOp)
  /-- epoch of a height, or the latest: API, and for peers (core/consensus/src/message.rs) -/
  | epoch (id : Option UInt64)
  /-- receipt of a transaction: API -/
  | receipt (h : Hash)
  /-- stored transactions, for peers -/
  | transactions (hs : List Hash)
  /-- balance: API, before the resolver -/
  | balance (a : Address) (id : AssetID) (epochId : Option UInt64)

/-- What it answers. -/
inductive MachineAns (E : Type) where
  /-- no process is running -/
  | down
  /-- `ok up`: whether the process runs -/
  | started (r : Except E Bool)
  | killed
  | inserted (r : Except MemErr Unit)
  | proposed (r : Except E (Pill × Bytes))
  | checked (r : Except E (List SignedTx))
  | committed (r : Except E UInt64)
  | synced (r : Except E (Option UInt64))
  | epoch (r : Except SErr Epoch)
  | receipt (r : Except SErr Receipt)
  | transactions (r : Except SErr (List SignedTx))
  | balance (r : Except E Nat)

/-- The disk, and the process if one is running. -/
inductive DiskMachine where
  | off (rocks : Db) (tries : TrieStore)
  | on (d : DNode)

/-- The block database of a machine. -/
def DiskMachine.rocks : DiskMachine → Db
  | .off rocks _ => rocks
  | .on d => d.rocks

/-- The state database of a machine. -/
def DiskMachine.tries : DiskMachine → TrieStore
  | .off _ tries => tries
  | .on d => d.tries

/-- A call on a running node. -/
def DNode.step (cfg : NodeCfg) (L : DiskLib) (order : Nat → Bool) (d : DNode) : NodeOp → MachineAns DiskErr × DNode
  | .insertTx o b tx =>
    let (r, p) := d.pool.insert cfg.mem (d.view cfg (fun _ => none) b) o tx
    (.inserted r, { d with pool := p })
  | .propose now id => let (r, d') := d.getEpoch cfg now id; (.proposed r, d')
  | .check p1 p2 h pill => let (r, d') := d.checkEpoch cfg p1 p2 h pill; (.checked r, d')
  | .commit io id pill proof => let (r, d') := d.commit cfg L (order 0) io id pill proof; (.committed r, d')
  | .sync io msg => let (r, d') := d.updateEpoch cfg L order io msg; (.synced r, d')

/-- The machine: `main` of src/main.rs:43-67 runs `handle_init` and then `start`; the network and the API call the node. -/
def DiskMachine.call (cfg : NodeCfg) (L : DiskLib) (g : Genesis) (m : DiskMachine) : MachineCall → MachineAns DiskErr × DiskMachine
  | .start order writes =>
    match diskInit cfg L g order writes m.rocks m.tries with
    | (.ok true, rocks, tries) =>
      match diskStart cfg rocks tries with
      | none => (.started (.ok false), .off rocks tries)
      | some d => (.started (.ok true), .on d)
    | (r, rocks, tries) => (.started r, .off rocks tries)
  | .killed written => (.killed, .off m.rocks (written ++ m.tries))
  | c =>
    match m with
    | .off _ _ => (.down, m)
    | .on d =>
      match c with
      | .op order o => let (r, d') := d.step cfg L order o; (r, .on d')
      | .epoch id => (.epoch (d.queryEpoch cfg id), m)
      | .receipt h => (.receipt (d.rocks.getReceipt .rocks h), m)
      | .transactions hs => (.transactions (d.rocks.getTransactions .rocks hs), m)
      | .balance a id e => (.balance (d.queryBalance cfg L a id e), m)
      | _ => (.down, m)

end Huobi
