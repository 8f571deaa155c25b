import Verif.Model.Consensus
/-
Interleavings of the calls on a node: the same code as in `Model/Consensus.lean` and `Model/Mempool.lean`, cut at every access to shared
data, with the two `try_lock`s (core/consensus/src/engine.rs:138-144, consensus.rs:66-70, 88-92).  Any number of tasks, any schedule.
The operations of the transaction cache are single accesses here; `Model/TxCacheConc.lean` cuts them further.
-/
namespace Huobi

/-- `ConsensusEngine::lock` and `OverlordConsensus::lock`. -/
inductive Lock where
  | engine | sync
deriving DecidableEq

/-- What a task returns. -/
inductive TaskResult where
  | commit (r : Except CErr UInt64)
  | sync (r : Except CErr (Option UInt64))
  | insert (r : Except MemErr Unit)
  | propose (r : Except CErr (Pill × Bytes))
  | check (r : Except CErr (List SignedTx))

/-- The rest of a task: a tree of atomic accesses.  `act f k`: change the shared data by `f`; `k` gets the data before. -/
inductive Prog where
  | ret (r : TaskResult)
  | act (f : Node → Node) (k : Node → Prog)
  /-- `try_lock` -/
  | lock (l : Lock) (ok busy : Prog)
  /-- the guard is dropped -/
  | unlock (l : Lock) (k : Prog)

/-- One database write that may fail. -/
def Prog.write (ok : Bool) (w : Node → Node) (fail next : Prog) : Prog :=
  .act (fun n => if ok then w n else n) (fun _ => if ok then next else fail)

/-- `update_status`: engine.rs:346-400.  `save_receipts`, `save_signed_txs`, the three writes of `save_epoch`, and the assignment of the
fields of the status under its `RwLock`.  The record `log`, which is not data of the program, grows with the last write. -/
def Prog.updateStatus (cfg : NodeCfg) (io : SaveIo) (root : MerkleRoot) (epochId : UInt64) (epoch : Epoch) (proof : Proof)
    (resp : ExecResp) (txs : List SignedTx) (fail next : Prog) : Prog :=
  .write io.receipts (fun n => { n with store := n.store.writes (StoreOp.writes cfg.digest (.insertReceipts resp.receipts)) }) fail <|
  .write io.txs (fun n => { n with store := n.store.writes (StoreOp.writes cfg.digest (.insertTransactions txs)) }) fail <|
  .write (decide (0 < io.epochWrites)) (fun n => { n with store := n.store.writes (((StoreOp.writes cfg.digest (.insertEpoch epoch)).drop 0).take 1) }) fail <|
  .write (decide (1 < io.epochWrites)) (fun n => { n with store := n.store.writes (((StoreOp.writes cfg.digest (.insertEpoch epoch)).drop 1).take 1) }) fail <|
  .write (decide (2 < io.epochWrites)) (fun n => { n with
    store := n.store.writes (((StoreOp.writes cfg.digest (.insertEpoch epoch)).drop 2).take 1)
    log := ⟨epochId, epoch, proof, txs, root, resp⟩ :: n.log }) fail <|
  .act (fun n => { n with status := n.status.updated cfg epochId epoch proof resp }) (fun _ => next)

/-- The end of a commit: the guard is dropped. -/
def Prog.endCommit (r : Except CErr UInt64) : Prog := .unlock .engine (.ret (.commit r))

/-- `commit` after the transactions were found: engine.rs:166-209. -/
def Prog.commitTail (cfg : NodeCfg) (io : CommitIo) (epochId : UInt64) (pill : Pill) (p : Proof) (txs : List SignedTx) : Prog :=
  -- flush_mempool
  .act (fun n => { n with pool := n.pool.flush pill.epoch.orderedTxHashes }) fun _ =>
  -- current_consensus_status.read()
  .act id fun n0 =>
  -- exec
  .act (fun n => (n.exec cfg n0.status.stateRoot epochId (.user pill.epoch.header.proposer) txs).2) fun n =>
    match (n.exec cfg n0.status.stateRoot epochId (.user pill.epoch.header.proposer) txs).1 with
    | .error e => .endCommit (.error e)
    | .ok resp =>
      .updateStatus cfg io.save n0.status.stateRoot epochId pill.epoch p resp txs (.endCommit (.error .storage))
        (.endCommit (if io.transmit then .ok (epochId + 1) else .error .network))

/-- `commit`: engine.rs:132-210. -/
def Prog.commit (cfg : NodeCfg) (io : CommitIo) (epochId : UInt64) (pill : Pill) (proof : OverlordProof) : Prog :=
  .lock .engine
    (match proof.toProof with
    | none => .endCommit (.error .badProof)
    | some p =>
      -- save_proof
      .act (fun n => (n.saveProof cfg io.save p).2) fun n =>
        match (n.saveProof cfg io.save p).1 with
        | .error e => .endCommit (.error e)
        | .ok () =>
          if io.alive = false then .endCommit (.error .panic)
          else
            -- get_full_txs
            .act id fun n =>
              match n.pool.getFullTxs pill.epoch.orderedTxHashes with
              | .error e => .endCommit (.error (.mempool e))
              | .ok txs => .commitTail cfg io epochId pill p txs)
    (.ret (.commit (.error .lockInSync)))

/-- The end of a synchronisation that took both locks. -/
def Prog.endSync (r : Except CErr (Option UInt64)) : Prog := .unlock .engine (.unlock .sync (.ret (.sync r)))

/-- The body of the loop: consensus.rs:122-171. -/
def Prog.syncOne (cfg : NodeCfg) (io : SyncIo) (k : Nat) (id : UInt64) (curHash stateRoot : Hash) (next : Hash → Hash → Prog) : Prog :=
  match io.pullEpoch k id with
  | none => .endSync (.error .network)
  | some epoch =>
    if id ≠ 1 ∧ curHash ≠ epoch.header.preHash then .endSync (.error (.syncEpochHash id))
    else
      .act (fun n => (n.saveProof cfg (io.save k) epoch.header.proof).2) fun n =>
        match (n.saveProof cfg (io.save k) epoch.header.proof).1 with
        | .error e => .endSync (.error e)
        | .ok () =>
          match io.pullTxs k epoch.orderedTxHashes with
          | none => .endSync (.error .network)
          | some txs =>
            .act (fun n => (n.exec cfg stateRoot epoch.header.epochId (.user epoch.header.proposer) txs).2) fun n =>
              match (n.exec cfg stateRoot epoch.header.epochId (.user epoch.header.proposer) txs).1 with
              | .error e => .endSync (.error e)
              | .ok resp =>
                .updateStatus cfg (io.save k) stateRoot epoch.header.epochId epoch epoch.header.proof resp txs (.endSync (.error .storage))
                  (next (cfg.epochHash epoch) resp.stateRoot)

/-- The loop: consensus.rs:122-171. -/
def Prog.syncLoop (cfg : NodeCfg) (io : SyncIo) (next : Prog) : Nat → List UInt64 → Hash → Hash → Prog
  | _, [], _, _ => next
  | k, id :: ids, h, r => .syncOne cfg io k id h r (fun h r => Prog.syncLoop cfg io next (k + 1) ids h r)

/-- `update_epoch` while both locks are held: consensus.rs:94-186.  `current` was read before. -/
def Prog.syncBody (cfg : NodeCfg) (io : SyncIo) (rich current : UInt64) : Prog :=
  .act id fun n =>
    match n.syncStart cfg io current with
    | .error e => .endSync (.error e)
    | .ok (h, r) =>
      .syncLoop cfg io (.endSync (if io.send then .ok (some (rich + 1)) else .error .network)) 1 (syncIds current rich) h r

/-- `update_epoch`: consensus.rs:65-187. -/
def Prog.sync (cfg : NodeCfg) (io : SyncIo) (msg : Bytes) : Prog :=
  .lock .sync
    (match readU64LE msg with
    | none => .unlock .sync (.ret (.sync (.error .decode)))
    | some (v, _) =>
      -- get_current_epoch_id
      .act id fun n =>
        if UInt64.ofNat v - 1 - 1 ≤ n.currentId then .unlock .sync (.ret (.sync (.ok none)))
        else
          .lock .engine (.syncBody cfg io (UInt64.ofNat v - 1) n.currentId)
            (.unlock .sync (.ret (.sync (.ok none)))))
    (.ret (.sync (.ok none)))

/-- A check on the shared data. -/
def Prog.test {E : Type} (c : Node → Except E Unit) (fail : E → Prog) (next : Prog) : Prog :=
  .act id fun n => match c n with
    | .error e => fail e
    | .ok () => next

/-- `insert` of the pool: core/mempool/src/lib.rs:77-99. -/
def Prog.insert (cfg : NodeCfg) (netOrigin broadcastOk : Bool) (tx : SignedTx) : Prog :=
  let fail (e : MemErr) : Prog := .ret (.insert (.error e))
  .test (fun n => n.pool.checkReachLimit) fail <|
  .test (fun n => n.pool.checkExist tx.txHash) fail <|
  .test (fun _ => MemPool.checkSignature cfg.mem tx) fail <|
  .test (fun n => MemPool.checkTransaction cfg.mem (n.view cfg (fun _ => none) broadcastOk) tx) fail <|
  .test (fun n => MemPool.checkStorageExist (n.view cfg (fun _ => none) broadcastOk) tx.txHash) fail <|
  -- insert_new_tx
  .act (fun n => { n with pool := { n.pool with cache := (n.pool.cache.insert tx false).2 } }) fun n =>
    match (n.pool.cache.insert tx false).1 with
    | .error e => fail e
    | .ok () => .ret (.insert (if netOrigin || broadcastOk then .ok () else .error (.other "broadcast_tx")))

/-- `get_epoch`: engine.rs:48-99, core/mempool/src/lib.rs:101-109. -/
def Prog.propose (cfg : NodeCfg) (now epochId : UInt64) : Prog :=
  -- current_consensus_status.read()
  .act id fun n0 =>
  -- get_latest_epoch_id
  .act id fun n1 =>
    match n1.store.latest with
    | none => .ret (.propose (.error (.mempool (.other "get_latest_epoch"))))
    | some e =>
      let pack (p : MemPool) := p.cache.package n0.status.cyclesLimit e.header.epochId (e.header.epochId + p.gap)
      .act (fun n => { n with pool := { n.pool with cache := (pack n.pool).2 } }) fun n =>
        match (pack n.pool).1 with
        | .error e => .ret (.propose (.error (.mempool e)))
        | .ok (order, propose) =>
          if n0.status.epochId ≠ epochId then .ret (.propose (.error (.missingEpochHeader epochId)))
          else
            let header : EpochHeader :=
              { chainId := cfg.chainId, epochId := epochId, preHash := n0.status.prevHash, timestamp := now
                logsBloom := n0.status.logsBloom, orderRoot := cfg.merkle order, confirmRoot := [n0.status.orderRoot]
                stateRoot := n0.status.stateRoot, receiptRoot := n0.status.receiptRoot, cyclesUsed := n0.status.cyclesUsed
                proposer := cfg.selfAddress, proof := n0.status.proof, validatorVersion := 0, validators := n0.status.validators }
            let pill : Pill := ⟨⟨header, order⟩, propose⟩
            let hash := (cfg.digest (encode pill)).bytes
            -- exemption_hash.write()
            .act (fun n => { n with exempt := hash :: n.exempt }) fun _ => .ret (.propose (.ok (pill, hash)))

/-- One access per transaction. -/
def Prog.each (f : SignedTx → Node → Node) (next : Prog) : List SignedTx → Prog
  | [] => next
  | tx :: txs => .act (f tx) fun _ => Prog.each f next txs

/-- The end of `check_epoch`: `get_full_txs`, engine.rs:124-126. -/
def Prog.full (order : List Hash) : Prog :=
  .act id fun n => .ret (.check (match n.pool.getFullTxs order with
    | .error e => .error (.mempool e)
    | .ok txs => .ok txs))

/-- `ensure_order_txs`: core/mempool/src/lib.rs:143-166. -/
def Prog.ensure (pull : List Hash → Option (List SignedTx)) (order : List Hash) (next : Prog) : Prog :=
  .act id fun n =>
    let unknown := n.pool.cache.showUnknown order
    if unknown.isEmpty then next
    else
      match pull unknown with
      | none => .ret (.check (.error (.mempool (.other "pull_txs"))))
      | some txs =>
        if txs.length ≠ unknown.length then .ret (.check (.error (.mempool (.ensureBreak unknown.length txs.length))))
        else .each (fun tx n => { n with pool := { n.pool with callback := (n.pool.callback.insert tx.txHash tx).2 } }) next txs

/-- `sync_propose_txs`: core/mempool/src/lib.rs:168-183. -/
def Prog.syncPropose (pull : List Hash → Option (List SignedTx)) (hs : List Hash) (next : Prog) : Prog :=
  .act id fun n =>
    let unknown := n.pool.cache.showUnknown hs
    if unknown.isEmpty then next
    else
      match pull unknown with
      | none => .ret (.check (.error (.mempool (.other "pull_txs"))))
      | some txs => .each (fun tx n => { n with pool := { n.pool with cache := (n.pool.cache.insert tx true).2 } }) next txs

/-- `check_epoch`: engine.rs:101-127. -/
def Prog.check (pull1 pull2 : List Hash → Option (List SignedTx)) (hash : Bytes) (pill : Pill) : Prog :=
  .act id fun n =>
    if hash ∈ n.exempt then .full pill.epoch.orderedTxHashes
    else .syncPropose pull1 pill.proposeHashes (.ensure pull2 pill.epoch.orderedTxHashes (.full pill.epoch.orderedTxHashes))

/-- A running process: the node, who holds the locks, the rest of each task (`none`: not running). -/
structure Conf where
  node : Node
  held : Lock → Option Nat
  tasks : Nat → Option Prog

/-- What can happen next. -/
inductive Event where
  /-- Overlord calls `commit` in task `t` -/
  | callCommit (t : Nat) (io : CommitIo) (epochId : UInt64) (pill : Pill) (proof : OverlordProof)
  /-- a message of a peer is handled in task `t` -/
  | callSync (t : Nat) (io : SyncIo) (msg : Bytes)
  /-- a transaction of a client or a peer is inserted in task `t` -/
  | callInsert (t : Nat) (netOrigin broadcastOk : Bool) (tx : SignedTx)
  /-- Overlord asks for a proposal in task `t` -/
  | callPropose (t : Nat) (now epochId : UInt64)
  /-- Overlord has a proposal checked in task `t` -/
  | callCheck (t : Nat) (pull1 pull2 : List Hash → Option (List SignedTx)) (hash : Bytes) (pill : Pill)
  /-- task `t` makes its next access -/
  | run (t : Nat)

def Conf.setTask (c : Conf) (t : Nat) (p : Option Prog) : Conf := { c with tasks := fun i => if i = t then p else c.tasks i }
def Conf.setLock (c : Conf) (l : Lock) (h : Option Nat) : Conf := { c with held := fun i => if i = l then h else c.held i }

/-- Task `t` starts, unless it is running. -/
def Conf.start (c : Conf) (t : Nat) (p : Prog) : Conf := if (c.tasks t).isNone then c.setTask t (some p) else c

/-- One event.  Events that are not possible leave everything as it is. -/
def Conf.step (cfg : NodeCfg) (c : Conf) : Event → Conf
  | .callCommit t io id pill proof => c.start t (.commit cfg io id pill proof)
  | .callSync t io msg => c.start t (.sync cfg io msg)
  | .callInsert t o b tx => c.start t (.insert cfg o b tx)
  | .callPropose t now id => c.start t (.propose cfg now id)
  | .callCheck t p1 p2 hash pill => c.start t (.check p1 p2 hash pill)
  | .run t =>
    match c.tasks t with
    | none => c
    | some (.ret _) => c.setTask t none
    | some (.act f k) => { c with node := f c.node }.setTask t (some (k c.node))
    | some (.lock l ok busy) => if (c.held l).isNone then (c.setLock l (some t)).setTask t (some ok) else c.setTask t (some busy)
    | some (.unlock l k) => (c.setLock l none).setTask t (some k)

/-- A process after a sequence of events, started with node `n`. -/
def Conf.after (cfg : NodeCfg) (n : Node) (evs : List Event) : Conf :=
  evs.foldl (Conf.step cfg) { node := n, held := fun _ => none, tasks := fun _ => none }

end Huobi
