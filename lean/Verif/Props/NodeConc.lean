import Verif.Props.ConsensusLock
import Verif.Props.Handed
/-
The node with overlapping calls: every history of the sequential model is a schedule, and what C90, C93 and C100 say holds of every
schedule.
-/
namespace Huobi

/-! ### Calls that do not overlap -/

/-- The result and the node of a task that is alone; `h`: the locks it holds. -/
def Prog.solo : Prog → (Lock → Bool) → Node → TaskResult × Node × (Lock → Bool)
  | .ret r, h, n => (r, n, h)
  | .act f k, h, n => (k n).solo h (f n)
  | .lock l a b, h, n => if h l then b.solo h n else a.solo (fun i => if i = l then true else h i) n
  | .unlock l k, h, n => k.solo (fun i => if i = l then false else h i) n

/-- The program of a call. -/
def NodeOp.prog (cfg : NodeCfg) : NodeOp → Prog
  | .insertTx o b tx => .insert cfg o b tx
  | .propose now id => .propose cfg now id
  | .check p1 p2 hash pill => .check p1 p2 hash pill
  | .commit io id pill proof => .commit cfg io id pill proof
  | .sync io msg => .sync cfg io msg

/-- What a call returns when it is done in one go. -/
def NodeOp.result (cfg : NodeCfg) (n : Node) : NodeOp → TaskResult
  | .insertTx o b tx => .insert (n.pool.insert cfg.mem (n.view cfg (fun _ => none) b) o tx).1
  | .propose now id => .propose (n.getEpoch cfg now id).1
  | .check p1 p2 hash pill => .check (n.checkEpoch cfg p1 p2 hash pill).1
  | .commit io id pill proof => .commit (n.commit cfg io id pill proof).1
  | .sync io msg => .sync (n.updateEpoch cfg io msg).1

/-- The call is not turned away because of a lock. -/
def NodeOp.unlocked : NodeOp → Prop
  | .commit io _ _ _ => io.lock = true
  | .sync io _ => io.lock = true
  | _ => True

/-- The event that starts a call in task `t`. -/
def NodeOp.event (t : Nat) : NodeOp → Event
  | .insertTx o b tx => .callInsert t o b tx
  | .propose now id => .callPropose t now id
  | .check p1 p2 hash pill => .callCheck t p1 p2 hash pill
  | .commit io id pill proof => .callCommit t io id pill proof
  | .sync io msg => .callSync t io msg

theorem solo_write {ok : Bool} {w : Node → Node} {fail next : Prog} {h : Lock → Bool} {n : Node} :
    (Prog.write ok w fail next).solo h n = if ok then next.solo h (w n) else fail.solo h n := by
  cases ok <;> rfl

theorem solo_updateStatus {cfg : NodeCfg} {io : SaveIo} {root : MerkleRoot} {id : UInt64} {ep : Epoch} {p : Proof} {resp : ExecResp}
    {txs : List SignedTx} {fail next : Prog} {h : Lock → Bool} {n : Node} :
    (Prog.updateStatus cfg io root id ep p resp txs fail next).solo h n =
      match n.updateStatus cfg io root id ep p resp txs with
      | (.error _, m) => fail.solo h m
      | (.ok (), m) => next.solo h m := by
  unfold Prog.updateStatus
  rw [solo_write, solo_write, solo_write, solo_write, solo_write]
  unfold Node.updateStatus
  cases io.receipts with
  | false => rfl
  | true =>
    simp only [Bool.true_eq_false, if_false]
    cases io.txs with
    | false => rfl
    | true =>
      simp only [Bool.true_eq_false, if_false]
      match io.epochWrites with
      | 0 => rfl
      | 1 => rfl
      | 2 => rfl
      | e + 3 =>
        have d0 : decide (0 < e + 3) = true := by simp
        have d1 : decide (1 < e + 3) = true := by simp
        have d2 : decide (2 < e + 3) = true := by simp
        have hlt : ¬ e + 3 < 3 := by omega
        simp only [d0, d1, d2, if_true]
        have ht : (StoreOp.writes cfg.digest (.insertEpoch ep)).take (e + 3) = StoreOp.writes cfg.digest (.insertEpoch ep) :=
          List.take_of_length_le (by simp [StoreOp.writes])
        rw [if_neg hlt, ht]
        rfl

theorem solo_test {E : Type} {c : Node → Except E Unit} {fail : E → Prog} {next : Prog} {h : Lock → Bool} {n : Node} :
    (Prog.test c fail next).solo h n = match c n with
      | .error e => (fail e).solo h n
      | .ok () => next.solo h n := by
  show (match c n with
    | .error e => fail e
    | .ok () => next).solo h n = _
  cases c n <;> rfl

theorem solo_each {f : SignedTx → Node → Node} {next : Prog} {h : Lock → Bool} (txs : List SignedTx) : ∀ {n : Node},
    (Prog.each f next txs).solo h n = next.solo h (txs.foldl (fun n tx => f tx n) n) := by
  induction txs with
  | nil => intro n; rfl
  | cons tx txs ih => intro n; exact ih

/-- No locks. -/
def free : Lock → Bool := fun _ => false

theorem solo_insert (cfg : NodeCfg) (o b : Bool) (tx : SignedTx) (n : Node) :
    (Prog.insert cfg o b tx).solo free n = (NodeOp.result cfg n (.insertTx o b tx), n.step cfg (.insertTx o b tx), free) := by
  unfold Prog.insert
  simp only [NodeOp.result, Node.step]
  unfold MemPool.insert
  simp only [bind, Except.bind]
  rw [solo_test]
  cases n.pool.checkReachLimit with
  | error e => rfl
  | ok u =>
    simp only
    rw [solo_test]
    cases n.pool.checkExist tx.txHash with
    | error e => rfl
    | ok u =>
      simp only
      rw [solo_test]
      cases MemPool.checkSignature cfg.mem tx with
      | error e => rfl
      | ok u =>
        simp only
        rw [solo_test]
        cases MemPool.checkTransaction cfg.mem (n.view cfg (fun _ => none) b) tx with
        | error e => rfl
        | ok u =>
          simp only
          rw [solo_test]
          cases MemPool.checkStorageExist (n.view cfg (fun _ => none) b) tx.txHash with
          | error e => rfl
          | ok u =>
            simp only [Prog.solo]
            rcases n.pool.cache.insert tx false with ⟨r, c⟩
            cases r with
            | error e => rfl
            | ok u =>
              simp only [Prog.solo, Node.view]
              cases o <;> cases b <;> rfl

theorem solo_propose (cfg : NodeCfg) (now id : UInt64) (n : Node) :
    (Prog.propose cfg now id).solo free n = (NodeOp.result cfg n (.propose now id), n.step cfg (.propose now id), free) := by
  unfold Prog.propose
  simp only [Prog.solo, NodeOp.result, Node.step]
  unfold Node.getEpoch MemPool.package
  cases hl : n.store.latest with
  | none => simp only [_root_.id, hl, Node.view, Option.map_none]; rfl
  | some e =>
    simp only [_root_.id, hl, Node.view, Option.map_some, Prog.solo]
    rcases n.pool.cache.package n.status.cyclesLimit e.header.epochId (e.header.epochId + n.pool.gap) with ⟨r, c⟩
    cases r with
    | error e => rfl
    | ok x =>
      obtain ⟨order, propose⟩ := x
      simp only
      split
      · rfl
      · rfl

theorem solo_full (order : List Hash) (n : Node) : (Prog.full order).solo free n =
    (.check (match n.pool.getFullTxs order with
      | .error e => .error (.mempool e)
      | .ok txs => .ok txs), n, free) := rfl

theorem fold_callback (txs : List SignedTx) : ∀ n : Node,
    txs.foldl (fun n tx => { n with pool := { n.pool with callback := (n.pool.callback.insert tx.txHash tx).2 } }) n =
      { n with pool := { n.pool with callback := txs.foldl (fun m tx => (m.insert tx.txHash tx).2) n.pool.callback } } := by
  induction txs with
  | nil => intro n; rfl
  | cons tx txs ih => intro n; exact ih _

theorem fold_cache (txs : List SignedTx) : ∀ n : Node,
    txs.foldl (fun n tx => { n with pool := { n.pool with cache := (n.pool.cache.insert tx true).2 } }) n =
      { n with pool := { n.pool with cache := txs.foldl (fun c tx => (c.insert tx true).2) n.pool.cache } } := by
  induction txs with
  | nil => intro n; rfl
  | cons tx txs ih => intro n; exact ih _

theorem solo_ensure (cfg : NodeCfg) (pull : List Hash → Option (List SignedTx)) (order : List Hash) (next : Prog) (n : Node) :
    (Prog.ensure pull order next).solo free n =
      match n.pool.ensureOrderTxs (n.view cfg pull true) order with
      | (.error e, p) => (.check (.error (.mempool e)), { n with pool := p }, free)
      | (.ok (), p) => next.solo free { n with pool := p } := by
  unfold Prog.ensure MemPool.ensureOrderTxs
  simp only [Prog.solo, Node.view, id]
  split
  · rfl
  · cases pull (n.pool.cache.showUnknown order) with
    | none => rfl
    | some txs =>
      simp only
      split
      · rfl
      · rw [solo_each, fold_callback]

theorem solo_syncPropose (cfg : NodeCfg) (pull : List Hash → Option (List SignedTx)) (hs : List Hash) (next : Prog) (n : Node) :
    (Prog.syncPropose pull hs next).solo free n =
      match n.pool.syncProposeTxs (n.view cfg pull true) hs with
      | (.error e, p) => (.check (.error (.mempool e)), { n with pool := p }, free)
      | (.ok (), p) => next.solo free { n with pool := p } := by
  unfold Prog.syncPropose MemPool.syncProposeTxs
  simp only [Prog.solo, Node.view, id]
  split
  · rfl
  · cases pull (n.pool.cache.showUnknown hs) with
    | none => rfl
    | some txs =>
      simp only
      rw [solo_each, fold_cache]

theorem solo_check (cfg : NodeCfg) (p1 p2 : List Hash → Option (List SignedTx)) (hash : Bytes) (pill : Pill) (n : Node) :
    (Prog.check p1 p2 hash pill).solo free n =
      (NodeOp.result cfg n (.check p1 p2 hash pill), n.step cfg (.check p1 p2 hash pill), free) := by
  unfold Prog.check
  simp only [Prog.solo, NodeOp.result, Node.step, id]
  unfold Node.checkEpoch
  simp only
  have hfull (m : Node) (order : List Hash) : (Prog.full order).solo free m =
      (.check (match m.pool.getFullTxs order with
        | .error e => ((.error (.mempool e) : Except CErr (List SignedTx)), m)
        | .ok txs => (.ok txs, m)).1, (match m.pool.getFullTxs order with
        | .error e => ((.error (.mempool e) : Except CErr (List SignedTx)), m)
        | .ok txs => (.ok txs, m)).2, free) := by
    rw [solo_full]
    cases m.pool.getFullTxs order <;> rfl
  by_cases hh : hash ∈ n.exempt
  · rw [if_pos hh, if_pos hh]
    exact hfull n _
  · rw [if_neg hh, if_neg hh, solo_syncPropose cfg]
    rcases n.pool.syncProposeTxs (n.view cfg p1 true) pill.proposeHashes with ⟨r, p⟩
    cases r with
    | error e => rfl
    | ok u =>
      simp only
      rw [solo_ensure cfg]
      have hv : ({ n with pool := p } : Node).view cfg p2 true = n.view cfg p2 true := rfl
      rw [hv]
      simp only
      rcases p.ensureOrderTxs (n.view cfg p2 true) pill.epoch.orderedTxHashes with ⟨r, p⟩
      cases r with
      | error e => rfl
      | ok u => exact hfull _ _

theorem solo_commitTail (cfg : NodeCfg) (io : CommitIo) (id : UInt64) (pill : Pill) (p : Proof) (txs : List SignedTx) (h : Lock → Bool) (n : Node) :
    (Prog.commitTail cfg io id pill p txs).solo h n =
      (.commit (n.commitTail cfg io id pill p txs).1, (n.commitTail cfg io id pill p txs).2, fun i => if i = .engine then false else h i) := by
  unfold Prog.commitTail Node.commitTail
  simp only [Prog.solo, _root_.id]
  rcases Node.exec cfg n.status.stateRoot id (.user pill.epoch.header.proposer) txs { n with pool := n.pool.flush pill.epoch.orderedTxHashes } with ⟨r, m⟩
  cases r with
  | error e => rfl
  | ok resp =>
    simp only
    rw [solo_updateStatus]
    have hs : (m.updateStatus cfg io.save n.status.stateRoot id pill.epoch p resp txs).1 = .error .storage ∨
        (m.updateStatus cfg io.save n.status.stateRoot id pill.epoch p resp txs).1 = .ok () := by
      unfold Node.updateStatus
      split
      · exact .inl rfl
      · split
        · exact .inl rfl
        · simp only
          split
          · exact .inl rfl
          · exact .inr rfl
    revert hs
    rcases m.updateStatus cfg io.save n.status.stateRoot id pill.epoch p resp txs with ⟨r, m⟩
    rintro (hs | hs) <;> simp only at hs <;> subst hs
    · rfl
    · simp only
      cases io.transmit <;> rfl

theorem free_relock (l : Lock) : (fun i => if i = l then false else (fun i => if i = l then true else free i) i) = free := by
  funext i
  simp only
  split <;> rfl

theorem solo_commit (cfg : NodeCfg) (io : CommitIo) (hl : io.lock = true) (id : UInt64) (pill : Pill) (proof : OverlordProof) (n : Node) :
    (Prog.commit cfg io id pill proof).solo free n =
      (NodeOp.result cfg n (.commit io id pill proof), n.step cfg (.commit io id pill proof), free) := by
  have f1 : (fun i => if i = Lock.engine then false else (fun i => if i = Lock.engine then true else free i) i) = free := free_relock .engine
  have hend (r : Except CErr UInt64) (m : Node) : (Prog.endCommit r).solo (fun i => if i = Lock.engine then true else free i) m = (.commit r, m, free) :=
    congrArg (fun f => (_, _, f)) f1
  unfold Prog.commit
  simp only [NodeOp.result, Node.step]
  unfold Node.commit
  rw [Prog.solo, if_neg (by simp [free])]
  simp only [hl, Bool.true_eq_false, if_false]
  cases proof.toProof with
  | none => exact hend _ _
  | some p =>
    simp only [Prog.solo]
    rcases n.saveProof cfg io.save p with ⟨r, m⟩
    cases r with
    | error e => exact hend _ _
    | ok u =>
      simp only
      by_cases ha : io.alive = false
      · rw [if_pos ha, if_pos ha]; exact hend _ _
      · rw [if_neg ha, if_neg ha]
        simp only [Prog.solo, _root_.id]
        cases m.pool.getFullTxs pill.epoch.orderedTxHashes with
        | error e => exact hend _ _
        | ok txs =>
          simp only
          rw [solo_commitTail, f1]

theorem updateStatus_cases (cfg : NodeCfg) (io : SaveIo) (root : MerkleRoot) (id : UInt64) (ep : Epoch) (p : Proof) (resp : ExecResp)
    (txs : List SignedTx) (n : Node) : (n.updateStatus cfg io root id ep p resp txs).1 = .error .storage ∨
      (n.updateStatus cfg io root id ep p resp txs).1 = .ok () := by
  unfold Node.updateStatus
  split
  · exact .inl rfl
  · split
    · exact .inl rfl
    · simp only
      split
      · exact .inl rfl
      · exact .inr rfl

/-- The locks after a synchronisation. -/
def dropBoth (h : Lock → Bool) : Lock → Bool := fun i => if i = .sync then false else (fun i => if i = .engine then false else h i) i

theorem solo_syncLoop (cfg : NodeCfg) (io : SyncIo) (next : Prog) (h : Lock → Bool) (ids : List UInt64) : ∀ (k : Nat) (ha r : Hash) (n : Node),
    (Prog.syncLoop cfg io next k ids ha r).solo h n =
      match Node.syncLoop cfg io k ids ha r n with
      | (.error e, m) => (.sync (.error e), m, dropBoth h)
      | (.ok (), m) => next.solo h m := by
  induction ids with
  | nil => intro k ha r n; rfl
  | cons id ids ih =>
    intro k ha r n
    simp only [Prog.syncLoop, Node.syncLoop]
    unfold Prog.syncOne Node.syncOne
    cases io.pullEpoch k id with
    | none => rfl
    | some ep =>
      simp only
      split
      · rfl
      · simp only [Prog.solo]
        rcases n.saveProof cfg (io.save k) ep.header.proof with ⟨x, m⟩
        cases x with
        | error e => rfl
        | ok u =>
          simp only
          cases io.pullTxs k ep.orderedTxHashes with
          | none => rfl
          | some txs =>
            simp only [Prog.solo]
            rcases m.exec cfg r ep.header.epochId (.user ep.header.proposer) txs with ⟨x, m⟩
            cases x with
            | error e => rfl
            | ok resp =>
              simp only
              rw [solo_updateStatus]
              have hs := updateStatus_cases cfg (io.save k) r ep.header.epochId ep ep.header.proof resp txs m
              revert hs
              rcases m.updateStatus cfg (io.save k) r ep.header.epochId ep ep.header.proof resp txs with ⟨x, m⟩
              rintro (hs | hs) <;> simp only at hs <;> subst hs
              · rfl
              · exact ih _ _ _ _

theorem dropBoth_free : dropBoth (fun i => if i = .engine then true else (fun i => if i = .sync then true else free i) i) = free := by
  funext i; cases i <;> rfl

theorem solo_sync (cfg : NodeCfg) (io : SyncIo) (hl : io.lock = true) (msg : Bytes) (n : Node) :
    (Prog.sync cfg io msg).solo free n = (NodeOp.result cfg n (.sync io msg), n.step cfg (.sync io msg), free) := by
  unfold Prog.sync
  simp only [NodeOp.result, Node.step]
  unfold Node.updateEpoch
  have f1 : (fun i => if i = Lock.sync then false else (fun i => if i = Lock.sync then true else free i) i) = free := free_relock .sync
  rw [Prog.solo, if_neg (by simp [free])]
  rcases readU64LE msg with _ | ⟨v, rest⟩
  · simp only [Prog.solo]
    rw [f1]
  · simp only [Prog.solo, id, hl]
    by_cases hv : UInt64.ofNat v - 1 - 1 ≤ n.currentId
    · simp only [if_pos hv, Prog.solo]
      rw [f1]
    · simp only [if_neg hv, Prog.solo]
      rw [if_neg (by simp [free])]
      simp only [Bool.true_eq_false, if_false]
      unfold Prog.syncBody
      simp only [Prog.solo, id]
      rcases n.syncStart cfg io n.currentId with e | ⟨h, r⟩
      · simp only [Prog.endSync, Prog.solo]
        exact congrArg (fun f => (_, _, f)) dropBoth_free
      · simp only
        rw [solo_syncLoop, dropBoth_free]
        rcases Node.syncLoop cfg io 1 (syncIds n.currentId (UInt64.ofNat v - 1)) h r n with ⟨x, m⟩
        cases x with
        | error e => rfl
        | ok u =>
          simp only [Prog.endSync, Prog.solo]
          have := dropBoth_free
          cases io.send <;> exact congrArg (fun f => (_, _, f)) this

theorem solo_call (cfg : NodeCfg) (op : NodeOp) (ho : op.unlocked) (n : Node) : (op.prog cfg).solo free n = (op.result cfg n, n.step cfg op, free) := by
  cases op with
  | insertTx o b tx => exact solo_insert ..
  | propose now id => exact solo_propose ..
  | check p1 p2 hash pill => exact solo_check ..
  | commit io id pill proof => exact solo_commit cfg io ho id pill proof n
  | sync io msg => exact solo_sync cfg io ho msg n

/-- A process in which only task `t` may be running, holding locks `h`. -/
def Conf.only (t : Nat) (p : Option Prog) (h : Lock → Bool) (n : Node) : Conf :=
  { node := n, held := fun l => if h l then some t else none, tasks := fun i => if i = t then p else none }

theorem solo_steps (cfg : NodeCfg) (t : Nat) (p : Prog) : ∀ (h : Lock → Bool) (n : Node),
    ∃ k, (List.replicate k (Event.run t)).foldl (Conf.step cfg) (Conf.only t (some p) h n) =
      Conf.only t (some (.ret (p.solo h n).1)) (p.solo h n).2.2 (p.solo h n).2.1 := by
  have only_set (p q : Option Prog) (h : Lock → Bool) (n : Node) : (Conf.only t p h n).setTask t q = Conf.only t q h n := by
    unfold Conf.only Conf.setTask
    simp only
    congr 1
    funext i
    split <;> simp_all
  have only_lock (p : Option Prog) (h : Lock → Bool) (n : Node) (l : Lock) (b : Bool) :
      (Conf.only t p h n).setLock l (if b then some t else none) = Conf.only t p (fun i => if i = l then b else h i) n := by
    unfold Conf.only Conf.setLock
    simp only
    congr 1
    funext i
    split <;> rfl
  have htask (p : Option Prog) (h : Lock → Bool) (n : Node) : (Conf.only t p h n).tasks t = p := by simp [Conf.only]
  have hheld (p : Option Prog) (h : Lock → Bool) (n : Node) (l : Lock) : (Conf.only t p h n).held l = if h l then some t else none := rfl
  induction p with
  | ret r => exact fun h n => ⟨0, rfl⟩
  | act f k ih =>
    intro h n
    obtain ⟨j, hj⟩ := ih n h (f n)
    refine ⟨j + 1, ?_⟩
    rw [List.replicate_succ, List.foldl_cons]
    have : (Conf.only t (some (.act f k)) h n).step cfg (.run t) = Conf.only t (some (k n)) h (f n) := by
      simp only [Conf.step, htask]
      exact only_set _ _ _ _
    rw [this, hj]
    rfl
  | lock l a b iha ihb =>
    intro h n
    cases hl : h l with
    | true =>
      obtain ⟨j, hj⟩ := ihb h n
      refine ⟨j + 1, ?_⟩
      rw [List.replicate_succ, List.foldl_cons]
      have : (Conf.only t (some (.lock l a b)) h n).step cfg (.run t) = Conf.only t (some b) h n := by
        simp only [Conf.step, htask, hheld, hl, if_true, Option.isNone_some, Bool.false_eq_true, if_false]
        exact only_set _ _ _ _
      rw [this, hj]
      simp only [Prog.solo, hl, if_true]
    | false =>
      obtain ⟨j, hj⟩ := iha (fun i => if i = l then true else h i) n
      refine ⟨j + 1, ?_⟩
      rw [List.replicate_succ, List.foldl_cons]
      have : (Conf.only t (some (.lock l a b)) h n).step cfg (.run t) = Conf.only t (some a) (fun i => if i = l then true else h i) n := by
        simp only [Conf.step, htask, hheld, hl, Bool.false_eq_true, if_false, Option.isNone_none, if_true]
        have h2 := only_lock (some (.lock l a b)) h n l true
        simp only [if_true] at h2
        rw [h2]
        exact only_set _ _ _ _
      rw [this, hj]
      simp only [Prog.solo, hl, Bool.false_eq_true, if_false]
  | unlock l k ih =>
    intro h n
    obtain ⟨j, hj⟩ := ih (fun i => if i = l then false else h i) n
    refine ⟨j + 1, ?_⟩
    rw [List.replicate_succ, List.foldl_cons]
    have : (Conf.only t (some (.unlock l k)) h n).step cfg (.run t) = Conf.only t (some k) (fun i => if i = l then false else h i) n := by
      simp only [Conf.step, htask]
      have h2 := only_lock (some (.unlock l k)) h n l false
      simp only [Bool.false_eq_true, if_false] at h2
      rw [h2]
      exact only_set _ _ _ _
    rw [this, hj]
    rfl

/-- Not a step of a task. -/
def Event.isCall : Event → Bool
  | .run _ => false
  | _ => true

/-- Every history of calls that do not overlap is a schedule of these calls: after the event that starts a call and enough steps of its task, the process
returns the result of the call done in one go, and one step later nothing is running and no lock is held. -/
theorem C41_sequential (cfg : NodeCfg) (n : Node) (t : Nat) (ops : List NodeOp) (ho : ∀ op ∈ ops, op.unlocked) :
    ∃ evs, evs.filter Event.isCall = ops.map (NodeOp.event t) ∧ Conf.after cfg n evs = ⟨n.run cfg ops, fun _ => none, fun _ => none⟩ ∧
      ∀ pre op post, ops = pre ++ op :: post → ∃ evs', evs' <+: evs ∧ (Conf.after cfg n evs').tasks t = some (.ret (op.result cfg (n.run cfg pre))) := by
  suffices h : ∀ (ops : List NodeOp) (n' : Node), (∀ op ∈ ops, op.unlocked) →
      ∃ evs, evs.filter Event.isCall = ops.map (NodeOp.event t) ∧ evs.foldl (Conf.step cfg) ⟨n', fun _ => none, fun _ => none⟩ = ⟨n'.run cfg ops, fun _ => none, fun _ => none⟩ ∧
        ∀ pre op post, ops = pre ++ op :: post → ∃ evs', evs' <+: evs ∧
          (evs'.foldl (Conf.step cfg) ⟨n', fun _ => none, fun _ => none⟩).tasks t = some (.ret (op.result cfg (n'.run cfg pre))) from h ops n ho
  clear ho ops n
  intro ops
  induction ops with
  | nil => exact fun n _ => ⟨[], rfl, rfl, fun pre op post h => by simp at h⟩
  | cons op ops ih =>
    intro n ho
    obtain ⟨evs, h0, h1, h2⟩ := ih (n.step cfg op) (fun x hx => ho x (.tail _ hx))
    obtain ⟨k, hk⟩ := solo_steps cfg t (op.prog cfg) free n
    rw [solo_call cfg op (ho op (.head _)) n] at hk
    have hstart : Conf.step cfg ⟨n, fun _ => none, fun _ => none⟩ (op.event t) = Conf.only t (some (op.prog cfg)) free n := by
      cases op <;> rfl
    have hret : (List.replicate (k + 1) (Event.run t)).foldl (Conf.step cfg) (Conf.only t (some (op.prog cfg)) free n) =
        ⟨n.step cfg op, fun _ => none, fun _ => none⟩ := by
      rw [List.replicate_succ', List.foldl_append, hk]
      simp only [List.foldl_cons, List.foldl_nil, Conf.step, Conf.only, if_true, Conf.setTask]
      congr 1
      funext i
      split <;> rfl
    refine ⟨(op.event t :: List.replicate (k + 1) (.run t)) ++ evs, ?_, ?_, ?_⟩
    · have hc : (op.event t).isCall = true := by cases op <;> rfl
      have hr : (List.replicate (k + 1) (Event.run t)).filter Event.isCall = [] := by
        rw [List.filter_eq_nil_iff]
        intro x hx
        rw [(List.mem_replicate.1 hx).2]
        simp [Event.isCall]
      rw [List.filter_append, List.filter_cons, if_pos hc, hr, h0]
      rfl
    · rw [List.foldl_append, List.foldl_cons, hstart, hret, h1]
      rfl
    · intro pre op' post hp
      rcases pre with _ | ⟨x, pre'⟩
      · rw [List.nil_append] at hp
        injection hp with hp _
        subst hp
        refine ⟨op.event t :: List.replicate k (.run t), ?_, ?_⟩
        · rw [List.replicate_succ', List.cons_append, List.append_assoc]
          exact List.prefix_append ..
        · rw [List.foldl_cons, hstart, hk]
          simp [Conf.only]
          rfl
      · rw [List.cons_append] at hp
        injection hp with hx hp
        subst hx
        obtain ⟨evs', h3, h4⟩ := h2 pre' op' post hp
        refine ⟨(op.event t :: List.replicate (k + 1) (.run t)) ++ evs', ?_, ?_⟩
        · exact (List.prefix_append_right_inj _).2 h3
        · rw [List.foldl_append, List.foldl_cons, hstart, hret]
          exact h4

/-! ### Invariants of all schedules -/

/-- Every access of the program keeps `I`. -/
def Prog.Keeps (I : Node → Prop) : Prog → Prop
  | .ret _ => True
  | .act f k => ∀ n, I n → I (f n) ∧ (k n).Keeps I
  | .lock _ a b => a.Keeps I ∧ b.Keeps I
  | .unlock _ k => k.Keeps I

/-- The task and the program that a call starts. -/
def Event.prog (cfg : NodeCfg) : Event → Option (Nat × Prog)
  | .callCommit t io id pill proof => some (t, .commit cfg io id pill proof)
  | .callSync t io msg => some (t, .sync cfg io msg)
  | .callInsert t o b tx => some (t, .insert cfg o b tx)
  | .callPropose t now id => some (t, .propose cfg now id)
  | .callCheck t p1 p2 hash pill => some (t, .check p1 p2 hash pill)
  | .run _ => none

theorem step_prog {cfg : NodeCfg} {c : Conf} {e : Event} {t : Nat} {p : Prog} (h : e.prog cfg = some (t, p)) : c.step cfg e = c.start t p := by
  cases e <;> cases h <;> rfl

theorem keeps_after {cfg : NodeCfg} {I : Node → Prop} (evs : List Event) {n : Node} (hn : I n)
    (he : ∀ e ∈ evs, ∀ t p, e.prog cfg = some (t, p) → p.Keeps I) : I (Conf.after cfg n evs).node := by
  suffices h : ∀ (evs : List Event) (c : Conf), I c.node → (∀ t p, c.tasks t = some p → p.Keeps I) →
      (∀ e ∈ evs, ∀ t p, e.prog cfg = some (t, p) → p.Keeps I) → I (evs.foldl (Conf.step cfg) c).node from
    h evs _ hn (fun t p hp => by cases hp) he
  clear he hn n evs
  intro evs
  induction evs with
  | nil => exact fun c hc _ _ => hc
  | cons e evs ih =>
    intro c hc ht he
    have hset (c : Conf) (t : Nat) (q : Option Prog) (h1 : ∀ t p, c.tasks t = some p → p.Keeps I) (h2 : ∀ p, q = some p → p.Keeps I) :
        ∀ t' p, (c.setTask t q).tasks t' = some p → p.Keeps I := by
      intro t' p hp
      simp only [Conf.setTask] at hp
      split at hp
      · exact h2 p hp
      · exact h1 t' p hp
    rw [List.foldl_cons]
    have key : I (c.step cfg e).node ∧ ∀ t p, (c.step cfg e).tasks t = some p → p.Keeps I := by
      cases hp : e.prog cfg with
      | some x =>
        obtain ⟨t, p⟩ := x
        rw [step_prog hp]
        unfold Conf.start
        split
        · exact ⟨hc, hset c t _ ht (fun q hq => by cases hq; exact he e (.head _) t p hp)⟩
        · exact ⟨hc, ht⟩
      | none =>
        cases e with
        | run t =>
          simp only [Conf.step]
          cases hq : c.tasks t with
          | none => exact ⟨hc, ht⟩
          | some p =>
            have hk := ht t p hq
            cases p with
            | ret r => exact ⟨hc, hset c t _ ht (fun q hq => by cases hq)⟩
            | act f k => exact ⟨(hk _ hc).1, hset _ t _ ht (fun q hq => by cases hq; exact (hk _ hc).2)⟩
            | lock l a b =>
              simp only
              split
              · exact ⟨hc, hset _ t _ ht (fun q hq => by cases hq; exact hk.1)⟩
              · exact ⟨hc, hset _ t _ ht (fun q hq => by cases hq; exact hk.2)⟩
            | unlock l k => exact ⟨hc, hset _ t _ ht (fun q hq => by cases hq; exact hk)⟩
        | _ => cases hp
    exact ih _ key.1 key.2 (fun x hx => he x (.tail _ hx))

/-- Data of a node: a pool in order, transactions of `P` only, worlds of `W` only. -/
structure CInv (P : SignedTx → Prop) (W : World → Prop) (n : Node) : Prop where
  good : n.pool.cache.Good
  pool : HandedPool P n.pool
  keys : ∀ k t, n.pool.callback.get k = some t → t.txHash = k
  stored : ∀ k t, n.store.txs k = some t → P t
  log : ∀ d ∈ n.log, ∀ t ∈ d.txs, P t
  tries : ∀ r w, n.tries r = some w → W w

/-- `W` is kept by blocks of transactions of `P`. -/
structure Closed (cfg : NodeCfg) (P : SignedTx → Prop) (W : World → Prop) : Prop where
  empty : W World.empty
  block : ∀ {h price cb w txs resp w'}, W w → Executes (cfg.env h price cb) w txs resp w' → (∀ t ∈ txs, P t) → W w'

/-- What a call hands over: only transactions of `P`; a transaction that is inserted may be refused. -/
def Event.Brings (cfg : NodeCfg) (P : SignedTx → Prop) : Event → Prop
  | .callInsert _ _ _ tx => Authorised cfg tx → P tx
  | .callCheck _ p1 p2 _ _ => ∀ q txs, p1 q = some txs ∨ p2 q = some txs → ∀ t ∈ txs, P t
  | .callSync _ io _ => ∀ k q txs, io.pullTxs k q = some txs → ∀ t ∈ txs, P t
  | _ => True

section keeps
variable {cfg : NodeCfg} {P : SignedTx → Prop} {W : World → Prop}

theorem keeps_id {I : Node → Prop} {k : Node → Prog} (h : ∀ n, I n → (k n).Keeps I) : (Prog.act id k).Keeps I := fun n hn => ⟨hn, h n hn⟩

theorem keeps_test {I : Node → Prop} {E : Type} {c : Node → Except E Unit} {fail : E → Prog} {next : Prog} (h1 : ∀ e, (fail e).Keeps I)
    (h2 : ∀ n, I n → c n = .ok () → next.Keeps I) : (Prog.test c fail next).Keeps I := by
  refine keeps_id fun n hn => ?_
  split
  · exact h1 _
  · rename_i h; exact h2 n hn h

theorem CInv.cacheInsert {n : Node} (h : CInv P W n) {tx : SignedTx} (hp : P tx) (b : Bool) :
    CInv P W { n with pool := { n.pool with cache := (n.pool.cache.insert tx b).2 } } where
  good := (h.good.call_refines (.insert tx b)).2.1
  pool := ⟨fun k t hg => (cache_insert_get h.good tx b hg).elim (h.pool.cache k t) (fun e => e.2 ▸ hp), h.pool.callback⟩
  keys := h.keys
  stored := h.stored
  log := h.log
  tries := h.tries

theorem keeps_insert {o b : Bool} {tx : SignedTx} (hp : Authorised cfg tx → P tx) : (Prog.insert cfg o b tx).Keeps (CInv P W) := by
  refine keeps_test (fun _ => trivial) fun _ _ _ => keeps_test (fun _ => trivial) fun _ _ _ => keeps_test (fun _ => trivial) fun _ _ hs =>
    keeps_test (fun _ => trivial) fun _ _ ht => keeps_test (fun _ => trivial) fun _ _ _ => fun n hn => ⟨?_, ?_⟩
  · refine hn.cacheInsert (hp ⟨?_, ?_⟩) false
    · unfold MemPool.checkSignature at hs
      split at hs
      · assumption
      · cases hs
    · unfold MemPool.checkTransaction at ht
      split at ht
      · cases ht
      · rename_i h; exact (Classical.not_not.1 h).symm
  · beta_reduce
    split <;> exact trivial

theorem keeps_propose {now id : UInt64} : (Prog.propose cfg now id).Keeps (CInv P W) := by
  refine keeps_id fun n0 _ => keeps_id fun n1 _ => ?_
  split
  · exact trivial
  · rename_i e _
    refine fun n hn => ⟨?_, ?_⟩
    · obtain ⟨_, g', _⟩ := hn.good.package_refines n0.status.cyclesLimit e.header.epochId (e.header.epochId + n.pool.gap)
      refine ⟨g', ⟨?_, hn.pool.callback⟩, hn.keys, hn.stored, hn.log, hn.tries⟩
      intro k t hg
      let v : MemView := ⟨some (e.header.chainId, e.header.epochId), fun _ => .getNone, 0, fun _ => none, true⟩
      exact hn.pool.cache k t ((package_cases v n0.status.cyclesLimit hn.good).1 k t hg)
    · beta_reduce
      split
      · exact trivial
      · split
        · exact trivial
        · exact fun m hm => ⟨⟨hm.good, hm.pool, hm.keys, hm.stored, hm.log, hm.tries⟩, trivial⟩

theorem keeps_each {I : Node → Prop} {f : SignedTx → Node → Node} {next : Prog} (hn : next.Keeps I) (txs : List SignedTx)
    (h : ∀ t ∈ txs, ∀ n, I n → I (f t n)) : (Prog.each f next txs).Keeps I := by
  induction txs with
  | nil => exact hn
  | cons t txs ih => exact fun n hi => ⟨h t (.head _) n hi, ih (fun x hx => h x (.tail _ hx))⟩

theorem keeps_check {p1 p2 : List Hash → Option (List SignedTx)} {hash : Bytes} {pill : Pill}
    (hp : ∀ q txs, p1 q = some txs ∨ p2 q = some txs → ∀ t ∈ txs, P t) : (Prog.check p1 p2 hash pill).Keeps (CInv P W) := by
  have hf (o : List Hash) : (Prog.full o).Keeps (CInv P W) := keeps_id fun _ _ => trivial
  refine keeps_id fun n _ => ?_
  split
  · exact hf _
  · have he : (Prog.ensure p2 pill.epoch.orderedTxHashes (.full pill.epoch.orderedTxHashes)).Keeps (CInv P W) := by
      refine keeps_id fun n _ => ?_
      simp only
      split
      · exact hf _
      · split
        · exact trivial
        · rename_i txs hq
          split
          · exact trivial
          · refine keeps_each (hf _) txs (fun t ht n hn => ⟨hn.good, ⟨hn.pool.cache, fun k t' hg => ?_⟩, fun k t' hg => ?_, hn.stored, hn.log, hn.tries⟩)
            · rcases callback_fold_get [t] (m := n.pool.callback) hg with h | ⟨h, -⟩
              · exact hn.pool.callback k t' h
              · rw [List.mem_singleton.1 h]; exact hp _ txs (.inr hq) t ht
            · exact callback_fold [t] n.pool.callback hn.keys k t' hg
    refine keeps_id fun n _ => ?_
    simp only
    split
    · exact he
    · split
      · exact trivial
      · rename_i txs hq
        exact keeps_each he txs (fun t ht n hn => hn.cacheInsert (hp _ txs (.inl hq) t ht) true)

theorem CInv.store {n : Node} (h : CInv P W n) {s : Store} (hs : ∀ k t, s.txs k = some t → P t) : CInv P W { n with store := s } :=
  ⟨h.good, h.pool, h.keys, hs, h.log, h.tries⟩

theorem CInv.exec {n : Node} (h : CInv P W n) (hc : Closed cfg P W) {root : MerkleRoot} {id : UInt64} {cb : Address} {txs : List SignedTx}
    (hp : ∀ t ∈ txs, P t) : CInv P W (n.exec cfg root id cb txs).2 := by
  have key : ∀ x db, runBlock (cfg.env id n.status.cyclesPrice cb) n.tries root txs = (x, db) → ∀ r w, db r = some w → W w := by
    intro x db hr
    have h0 := hr
    unfold runBlock at hr
    split at hr
    · cases hr; exact h.tries
    · split at hr
      · rename_i resp s' _
        injection hr with h1 h2
        subst h1
        obtain ⟨w, w', hw, hex, rfl⟩ := runBlock_db h0
        intro r v hv
        unfold PMap.set at hv
        split at hv
        · injection hv with hv
          subst hv
          refine hc.block ?_ hex hp
          rcases hw with rfl | hw
          · exact hc.empty
          · exact h.tries _ _ hw
        · exact h.tries _ _ hv
      · cases hr; exact h.tries
  unfold Node.exec
  split <;> rename_i hr <;> exact ⟨h.good, h.pool, h.keys, h.stored, h.log, key _ _ hr⟩

theorem keeps_write {I : Node → Prop} {ok : Bool} {w : Node → Node} {fail next : Prog} (hw : ∀ n, I n → I (w n)) (h1 : fail.Keeps I)
    (h2 : next.Keeps I) : (Prog.write ok w fail next).Keeps I := by
  intro n hn
  cases ok
  · exact ⟨hn, h1⟩
  · exact ⟨hw n hn, h2⟩

theorem keeps_updateStatus {io : SaveIo} {root : MerkleRoot} {id : UInt64} {ep : Epoch} {p : Proof} {resp : ExecResp} {txs : List SignedTx}
    {fail next : Prog} (hp : ∀ t ∈ txs, P t) (h1 : fail.Keeps (CInv P W)) (h2 : next.Keeps (CInv P W)) :
    (Prog.updateStatus cfg io root id ep p resp txs fail next).Keeps (CInv P W) := by
  refine keeps_write (fun n hn => hn.store hn.stored) h1 <| keeps_write (fun n hn => hn.store ?_) h1 <| keeps_write (fun n hn => hn.store hn.stored) h1 <|
    keeps_write (fun n hn => hn.store hn.stored) h1 <| keeps_write (fun n hn => ?_) h1 <|
    fun n hn => ⟨⟨hn.good, hn.pool, hn.keys, hn.stored, hn.log, hn.tries⟩, h2⟩
  · intro k t ht
    have ht : insertAll SignedTx.txHash txs n.store.txs k = some t := ht
    unfold insertAll at ht
    cases hf : List.find? (fun v => decide (SignedTx.txHash v = k)) txs.reverse with
    | some w => rw [hf] at ht; injection ht with ht; subst ht; exact hp _ (by simpa using List.mem_of_find?_eq_some hf)
    | none => rw [hf] at ht; exact hn.stored k t ht
  · refine ⟨hn.good, hn.pool, hn.keys, hn.stored, fun d hd => ?_, hn.tries⟩
    rcases List.mem_cons.1 hd with rfl | hd
    · exact hp
    · exact hn.log d hd

theorem CInv.saveProof {n : Node} (h : CInv P W n) {io : SaveIo} {p : Proof} : CInv P W (n.saveProof cfg io p).2 := by
  unfold Node.saveProof
  split
  · exact h.store h.stored
  · exact h

theorem progKeeps_commit (hc : Closed cfg P W) {io : CommitIo} {id : UInt64} {pill : Pill} {proof : OverlordProof} :
    (Prog.commit cfg io id pill proof).Keeps (CInv P W) := by
  refine ⟨?_, trivial⟩
  split
  · exact trivial
  · refine fun n hn => ⟨hn.saveProof, ?_⟩
    beta_reduce
    split
    · exact trivial
    · split
      · exact trivial
      · refine keeps_id fun n hn => ?_
        split
        · exact trivial
        · rename_i txs hg
          have hp := hn.pool.getFull hg
          refine fun n hn => ⟨⟨(hn.good.flush_refines _).1, hn.pool.flush hn.good _, (fun _ _ h => by cases h), hn.stored, hn.log, hn.tries⟩, keeps_id fun n0 _ => fun n hn => ⟨hn.exec hc hp, ?_⟩⟩
          beta_reduce
          split
          · exact trivial
          · refine keeps_updateStatus hp ?_ ?_
            · exact trivial
            · split <;> exact trivial

theorem keeps_sync (hc : Closed cfg P W) {io : SyncIo} (hp : ∀ k q txs, io.pullTxs k q = some txs → ∀ t ∈ txs, P t) {msg : Bytes} :
    (Prog.sync cfg io msg).Keeps (CInv P W) := by
  refine ⟨?_, trivial⟩
  split
  · exact trivial
  · refine keeps_id fun n hn => ?_
    split
    · exact trivial
    · refine ⟨keeps_id fun n hn => ?_, trivial⟩
      split
      · exact trivial
      · rename_i h r _
        have loop (next : Prog) (hn : next.Keeps (CInv P W)) (ids : List UInt64) : ∀ (k : Nat) (h r : Hash), (Prog.syncLoop cfg io next k ids h r).Keeps (CInv P W) := by
          induction ids with
          | nil => exact fun _ _ _ => hn
          | cons id ids ih =>
            intro k h r
            simp only [Prog.syncLoop]
            unfold Prog.syncOne
            split
            · exact trivial
            · split
              · exact trivial
              · refine fun n hn => ⟨hn.saveProof, ?_⟩
                beta_reduce
                split
                · exact trivial
                · split
                  · exact trivial
                  · rename_i txs hq
                    refine fun n hn => ⟨hn.exec hc (hp _ _ _ hq), ?_⟩
                    beta_reduce
                    split
                    · exact trivial
                    · exact keeps_updateStatus (hp _ _ _ hq) trivial (ih _ _ _)
        exact loop (.endSync _) trivial _ _ _ _

end keeps

theorem CInv.after {cfg : NodeCfg} {P : SignedTx → Prop} {W : World → Prop} (hc : Closed cfg P W) {n : Node} (h : CInv P W n) {evs : List Event}
    (he : ∀ e ∈ evs, e.Brings cfg P) : CInv P W (Conf.after cfg n evs).node := by
  refine keeps_after evs h fun e hm t p hp => ?_
  have hb := he e hm
  cases e with
  | callCommit t io id pill proof => cases hp; exact progKeeps_commit hc
  | callSync t io msg => cases hp; exact keeps_sync hc hb
  | callInsert t o b tx => cases hp; exact keeps_insert hb
  | callPropose t now id => cases hp; exact keeps_propose
  | callCheck t p1 p2 hash pill => cases hp; exact keeps_check hb
  | run t => cases hp

/-! ### Lifetimes with overlapping calls -/

/-- The lifetime of a node's data with overlapping calls: initialised from a genesis, then any number of processes, each of which makes any
schedule of any calls and is killed at any moment (in the middle of any calls); the next one starts from the stored data.  `ok` restricts
the schedules.  As in `History`, the second argument is what the processes before the current one recorded. -/
inductive CHistory (cfg : NodeCfg) (g : Genesis) (ok : Node → List Event → Prop) : Node → List Done → Prop
  | init {s t n} (evs : List Event) : handleInit cfg g Store.empty PMap.empty = some (s, t) → startNode cfg s t = some n → ok n evs →
      CHistory cfg g ok (Conf.after cfg n evs).node []
  | restart {n older s t n'} (evs : List Event) : CHistory cfg g ok n older → handleInit cfg g n.store n.tries = some (s, t) →
      startNode cfg s t = some n' → ok n' evs → CHistory cfg g ok (Conf.after cfg n' evs).node (n.log ++ older)

theorem step_locked {cfg : NodeCfg} {n : Node} {op : NodeOp} (h : ¬ op.unlocked) : n.step cfg op = n := by
  cases op with
  | commit io id pill proof =>
    have h : io.lock = false := by simpa [NodeOp.unlocked] using h
    simp only [Node.step, Node.commit]
    rw [if_pos h]
  | sync io msg =>
    have h : io.lock = false := by simpa [NodeOp.unlocked] using h
    simp only [Node.step, Node.updateEpoch]
    rcases readU64LE msg with _ | ⟨v, rest⟩
    · rfl
    · simp only
      split
      · rfl
      · rfl
  | _ => exact absurd trivial h

/-- Every lifetime of the sequential model is one of the concurrent model. -/
theorem History.concurrent {cfg : NodeCfg} {g : Genesis} {ok : Node → NodeOp → Prop} {E : Event → Prop} (hr : ∀ t, E (.run t))
    (hE : ∀ n op, ok n op → E (op.event 0)) {n : Node} {older : List Done} (h : History cfg g ok n older) :
    CHistory cfg g (fun _ evs => ∀ e ∈ evs, E e) n older := by
  suffices h : ∃ n0 evs, Conf.after cfg n0 evs = ⟨n, fun _ => none, fun _ => none⟩ ∧ (∀ e ∈ evs, E e) ∧
      ((older = [] ∧ ∃ s t, handleInit cfg g Store.empty PMap.empty = some (s, t) ∧ startNode cfg s t = some n0) ∨
      ∃ n1 older1 s t, CHistory cfg g (fun _ evs => ∀ e ∈ evs, E e) n1 older1 ∧ handleInit cfg g n1.store n1.tries = some (s, t) ∧
        startNode cfg s t = some n0 ∧ older = n1.log ++ older1) by
    obtain ⟨n0, evs, h1, h2, h3⟩ := h
    have hn : n = (Conf.after cfg n0 evs).node := by rw [h1]
    rcases h3 with ⟨rfl, s, t, h3, h4⟩ | ⟨n1, older1, s, t, h0, h3, h4, rfl⟩
    · rw [hn]; exact .init evs h3 h4 h2
    · rw [hn]; exact .restart evs h0 h3 h4 h2
  induction h with
  | @init s t n h1 h2 => exact ⟨n, [], rfl, (fun e he => by cases he), .inl ⟨rfl, s, t, h1, h2⟩⟩
  | @restart n older s t n' _ h1 h2 ih =>
    refine ⟨n', [], rfl, (fun e he => by cases he), .inr ⟨n, older, s, t, ?_, h1, h2, rfl⟩⟩
    obtain ⟨n0, evs, h1, h2, h3⟩ := ih
    have hn : n = (Conf.after cfg n0 evs).node := by rw [h1]
    rcases h3 with ⟨rfl, s, t, h3, h4⟩ | ⟨n1, older1, s, t, h0, h3, h4, rfl⟩
    · rw [hn]; exact .init evs h3 h4 h2
    · rw [hn]; exact .restart evs h0 h3 h4 h2
  | @step n older op _ ho ih =>
    obtain ⟨n0, evs, h1, h2, h3⟩ := ih
    by_cases hu : op.unlocked
    · obtain ⟨evs', e0, e1, -⟩ := C41_sequential cfg n 0 [op] (by simpa using hu)
      refine ⟨n0, evs ++ evs', ?_, ?_, h3⟩
      · unfold Conf.after at h1 e1 ⊢
        rw [List.foldl_append, h1, e1]
        rfl
      · intro e he
        rcases List.mem_append.1 he with he | he
        · exact h2 e he
        · by_cases hc : e.isCall = true
          · have : e ∈ evs'.filter Event.isCall := List.mem_filter.2 ⟨he, hc⟩
            rw [e0] at this
            rw [List.mem_singleton.1 this]
            exact hE n op ho
          · cases e with
            | run t => exact hr t
            | _ => exact absurd rfl hc
    · rw [step_locked hu]; exact ⟨n0, evs, h1, h2, h3⟩

theorem handleInit_worlds {cfg : NodeCfg} {g : Genesis} {W : World → Prop}
    (hg : ∀ w, CreatesGenesis (cfg.env 0 cfg.cyclesPrice (.user cfg.selfAddress)) g w → W w) {s s' : Store} {t t' : StateDB}
    (h : ∀ r w, t r = some w → W w) (hi : handleInit cfg g s t = some (s', t')) : ∀ r w, t' r = some w → W w := by
  unfold handleInit at hi
  split at hi
  · injection hi with hi; injection hi with _ hi; exact hi ▸ h
  · split at hi
    · rename_i root tr hr
      injection hi with hi; injection hi with _ hi; subst hi
      unfold runGenesis at hr
      split at hr
      · cases hr
      · rename_i s0 hs0
        have hs0 : s0 = St.open World.empty := by
          unfold fromRoot at hs0
          rw [if_pos rfl] at hs0
          injection hs0 with hs0
          exact hs0.symm
        split at hr
        · rename_i r s1 hg'
          simp only [Prod.mk.injEq, Option.some.injEq, Except.ok.injEq] at hr
          obtain ⟨rfl, rfl⟩ := hr
          rw [hs0] at hg'
          intro r' v hv
          unfold StateDB.put PMap.set at hv
          split at hv
          · injection hv with hv
            subst hv
            exact hg _ ⟨⟨r, by rw [hg']⟩, by rw [hg']⟩
          · exact h _ _ hv
        · cases hr
    · cases hi

theorem CInv.start {cfg : NodeCfg} {g : Genesis} {P : SignedTx → Prop} {W : World → Prop}
    (hg : ∀ w, CreatesGenesis (cfg.env 0 cfg.cyclesPrice (.user cfg.selfAddress)) g w → W w) {s s' : Store} {t t' : StateDB} {n : Node}
    (h1 : ∀ k x, s.txs k = some x → P x) (h2 : ∀ r w, t r = some w → W w) (hi : handleInit cfg g s t = some (s', t'))
    (hs : startNode cfg s' t' = some n) : CInv P W n := by
  obtain ⟨e, -, hs, ht, -, hl, -, hp⟩ := startNode_some hs
  refine ⟨?_, ?_, ?_, ?_, ?_, ?_⟩
  · rw [hp]; exact after_good cfg.mem cfg.poolSize cfg.timeoutGap []
  · rw [hp]; exact ⟨fun _ _ h => (by cases h), fun _ _ h => (by cases h)⟩
  · rw [hp]; exact fun _ _ h => (by cases h)
  · rw [hs]; exact fun k x hx => h1 k x (handleInit_txs hi k x hx)
  · rw [hl]; intro d hd; cases hd
  · rw [ht]; exact handleInit_worlds hg h2 hi

theorem CHistory.inv {cfg : NodeCfg} {g : Genesis} {P : SignedTx → Prop} {W : World → Prop} (hc : Closed cfg P W)
    (hg : ∀ w, CreatesGenesis (cfg.env 0 cfg.cyclesPrice (.user cfg.selfAddress)) g w → W w) {n : Node} {older : List Done}
    (h : CHistory cfg g (fun _ evs => ∀ e ∈ evs, e.Brings cfg P) n older) : CInv P W n ∧ ∀ d ∈ older, ∀ t ∈ d.txs, P t := by
  induction h with
  | init evs h1 h2 he => exact ⟨(CInv.start hg (fun _ _ h => by cases h) (fun _ _ h => by cases h) h1 h2).after hc he, fun d hd => by cases hd⟩
  | restart evs _ h1 h2 he ih =>
    refine ⟨(CInv.start hg ih.1.stored ih.1.tries h1 h2).after hc he, fun d hd => ?_⟩
    rcases List.mem_append.1 hd with hd | hd
    · exact ih.1.log d hd
    · exact ih.2 d hd

/-- **C90, with overlapping calls.**  In every lifetime of a node, whatever calls overlap and however their accesses are interleaved, with
processes killed at any moment: what C90 says. -/
theorem C90_concurrent {cfg : NodeCfg} {g : Genesis} {n : Node} {older : List Done} (h : CHistory cfg g (fun _ _ => True) n older) (id : AssetID)
    (q : Option UInt64) :
    (∀ L : List Address, L.Nodup → (L.map (fun a => n.apiBalance cfg a id q)).sum ≤ supply g id) ∧
    ∃ L : List Address, L.Nodup ∧ (∀ a, a ∉ L → n.apiBalance cfg a id q = 0) ∧
      ((L.map (fun a => n.apiBalance cfg a id q)).sum = supply g id ∨ (L.map (fun a => n.apiBalance cfg a id q)).sum = 0) := by
  have hc : Closed cfg (fun _ => True) (Descends cfg g) := ⟨.inr (.refl _), fun hw he _ => hw.block he⟩
  have h' : CHistory cfg g (fun _ evs => ∀ e ∈ evs, e.Brings cfg (fun _ => True)) n older := by
    have hb (e : Event) : e.Brings cfg (fun _ => True) := by cases e <;> simp [Event.Brings]
    induction h with
    | init evs h1 h2 _ => exact .init evs h1 h2 fun e _ => hb e
    | restart evs _ h1 h2 _ ih => exact .restart evs ih h1 h2 fun e _ => hb e
  exact balances_of_descend (h'.inv hc fun w hw => .inl ⟨w, hw, .refl _⟩).1.tries id q

/-- **C93 (partial), with overlapping calls.**  In every lifetime of a node, whatever calls overlap and however their accesses are
interleaved, in which the transactions that peers hand over on request are authorised: what `C93_partial` says, also of what earlier
processes recorded. -/
theorem C93_concurrent_partial {cfg : NodeCfg} {g : Genesis} {n : Node} {older : List Done}
    (h : CHistory cfg g (fun _ evs => ∀ e ∈ evs, e.Brings cfg (Authorised cfg)) n older) :
    (∀ k t, n.store.txs k = some t → Authorised cfg t) ∧ (∀ d ∈ n.log ++ older, ∀ t ∈ d.txs, Authorised cfg t) ∧
    ∀ q, (∀ a id, n.apiBalance cfg a id q = 0) ∨
      ∃ (start : Address → AssetID → Nat) (xs : List (SignedTx × Receipt)), (start = allocated g ∨ start = fun _ _ => 0) ∧
        (∀ x ∈ xs, Authorised cfg x.1) ∧
        ∀ a id, n.apiBalance cfg a id q + (xs.map (spent cfg a id)).sum = start a id + (xs.map (incoming a id)).sum := by
  have hc : Closed cfg (Authorised cfg) (AuthDescends cfg g) := by
    refine ⟨.inr ⟨_, .refl _⟩, fun hw he ha => ?_⟩
    rcases hw with ⟨w0, xs, h0, h1⟩ | ⟨xs, h1⟩
    · exact .inl ⟨w0, _, h0, .step h1 he ha⟩
    · exact .inr ⟨_, .step h1 he ha⟩
  obtain ⟨hi, ho⟩ := h.inv hc fun w hw => .inl ⟨w, _, hw, .refl _⟩
  obtain ⟨a, b, c⟩ := balances_of_data ⟨hi.tries, hi.stored, hi.log⟩
  refine ⟨a, fun d hd => ?_, c⟩
  rcases List.mem_append.1 hd with hd | hd
  · exact b d hd
  · exact ho d hd

/-- A call in which the node is handed only transactions of `P`. -/
def Event.Hands (P : SignedTx → Prop) : Event → Prop
  | .callInsert _ _ _ tx => P tx
  | .callCheck _ p1 p2 _ _ => ∀ q txs, p1 q = some txs ∨ p2 q = some txs → ∀ t ∈ txs, P t
  | .callSync _ io _ => ∀ k q txs, io.pullTxs k q = some txs → ∀ t ∈ txs, P t
  | _ => True

/-- **C100, with overlapping calls.** -/
theorem C100_concurrent {cfg : NodeCfg} {g : Genesis} {P : SignedTx → Prop} {n : Node} {older : List Done}
    (h : CHistory cfg g (fun _ evs => ∀ e ∈ evs, e.Hands P) n older) :
    (∀ k t, n.store.txs k = some t → P t) ∧ (∀ d ∈ n.log ++ older, ∀ t ∈ d.txs, P t) ∧
    (∀ hs txs, n.pool.getFullTxs hs = .ok txs → ∀ t ∈ txs, P t) ∧
    (∀ p1 p2 ha pill txs, NodeOp.Hands P n (.check p1 p2 ha pill) → (n.checkEpoch cfg p1 p2 ha pill).1 = .ok txs → ∀ t ∈ txs, P t) ∧
    ∀ now id pill ha, (n.getEpoch cfg now id).1 = .ok (pill, ha) →
      ∀ x ∈ pill.epoch.orderedTxHashes ++ pill.proposeHashes, ∃ t, P t ∧ t.txHash = x := by
  have hc : Closed cfg P (fun _ => True) := ⟨trivial, fun _ _ _ => trivial⟩
  have h' : CHistory cfg g (fun _ evs => ∀ e ∈ evs, e.Brings cfg P) n older := by
    have hb (e : Event) (he : e.Hands P) : e.Brings cfg P := by cases e <;> first | exact he | exact fun _ => he
    induction h with
    | init evs h1 h2 he => exact .init evs h1 h2 fun e hm => hb e (he e hm)
    | restart evs _ h1 h2 he ih => exact .restart evs ih h1 h2 fun e hm => hb e (he e hm)
  obtain ⟨hi, ho⟩ := h'.inv hc fun _ _ => trivial
  refine handed_of_data hi.pool ⟨hi.stored, fun d hd => ?_⟩ hi.good
  rcases List.mem_append.1 hd with hd | hd
  · exact hi.log d hd
  · exact ho d hd

end Huobi
