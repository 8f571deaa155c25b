import Verif.Props.Consensus3
import Verif.Props.Mempool2
/-
C39, C40, C65: what the engine accepts, what a failed commit leaves behind, and that transactions are not committed twice.
-/
namespace Huobi

/-! ### The pool of a node -/

theorem checkEpoch_spec (cfg : NodeCfg) (p1 p2 : List Hash → Option (List SignedTx)) (hash : Bytes) (pill : Pill) (n : Node) :
    ((n.checkEpoch cfg p1 p2 hash pill).2.pool = n.pool ∨
      (n.checkEpoch cfg p1 p2 hash pill).2.pool = (n.pool.syncProposeTxs (n.view cfg p1 true) pill.proposeHashes).2 ∨
      (n.checkEpoch cfg p1 p2 hash pill).2.pool =
        ((n.pool.syncProposeTxs (n.view cfg p1 true) pill.proposeHashes).2.ensureOrderTxs (n.view cfg p2 true) pill.epoch.orderedTxHashes).2) ∧
    ∀ txs, (n.checkEpoch cfg p1 p2 hash pill).1 = .ok txs →
      (n.checkEpoch cfg p1 p2 hash pill).2.pool.getFullTxs pill.epoch.orderedTxHashes = .ok txs := by
  unfold Node.checkEpoch
  simp only
  by_cases hm : hash ∈ n.exempt
  · rw [if_pos hm]
    cases hg : n.pool.getFullTxs pill.epoch.orderedTxHashes with
    | error e => exact ⟨.inl rfl, fun _ h => by cases h⟩
    | ok txs => exact ⟨.inl rfl, fun t h => by injection h with h; rw [← h]; exact hg⟩
  · rw [if_neg hm]
    cases hs : n.pool.syncProposeTxs (n.view cfg p1 true) pill.proposeHashes with
    | mk r q =>
      cases r with
      | error e => exact ⟨.inr (.inl rfl), fun _ h => by cases h⟩
      | ok u =>
        simp only
        cases he : q.ensureOrderTxs (n.view cfg p2 true) pill.epoch.orderedTxHashes with
        | mk r2 q2 =>
          cases r2 with
          | error e => exact ⟨.inr (.inr rfl), fun _ h => by cases h⟩
          | ok u2 =>
            simp only
            cases hg : q2.getFullTxs pill.epoch.orderedTxHashes with
            | error e => exact ⟨.inr (.inr rfl), fun _ h => by cases h⟩
            | ok txs => exact ⟨.inr (.inr rfl), fun t h => by injection h with h; rw [← h]; exact hg⟩

theorem updateStatus_pool (cfg : NodeCfg) (io : SaveIo) (root : MerkleRoot) (id : UInt64) (ep : Epoch) (p : Proof) (resp : ExecResp)
    (txs : List SignedTx) (n : Node) : (n.updateStatus cfg io root id ep p resp txs).2.pool = n.pool := by
  unfold Node.updateStatus
  split
  · rfl
  · split
    · rfl
    · simp only; split <;> rfl

theorem exec_pool (cfg : NodeCfg) (root : MerkleRoot) (id : UInt64) (cb : Address) (txs : List SignedTx) (n : Node) :
    (n.exec cfg root id cb txs).2.pool = n.pool := by
  rcases exec_spec (cfg := cfg) (root := root) (id := id) (cb := cb) (txs := txs) (n := n) with ⟨e, he⟩ | ⟨r, db, he, -⟩ <;> rw [he]

/-- A commit leaves the pool alone or flushes the transactions of the epoch; it has then found them all. -/
theorem commit_pool (cfg : NodeCfg) (io : CommitIo) (id : UInt64) (pill : Pill) (proof : OverlordProof) (n : Node) :
    ((n.commit cfg io id pill proof).2.pool = n.pool ∧ (n.commit cfg io id pill proof).2.store.txs = n.store.txs ∧
      (n.commit cfg io id pill proof).2.log = n.log) ∨
    ((n.commit cfg io id pill proof).2.pool = n.pool.flush pill.epoch.orderedTxHashes ∧
      ∃ txs, n.pool.getFullTxs pill.epoch.orderedTxHashes = .ok txs) := by
  unfold Node.commit
  by_cases hl : io.lock = false
  · rw [if_pos hl]; exact .inl ⟨rfl, rfl, rfl⟩
  rw [if_neg hl]
  cases hp : proof.toProof with
  | none => exact .inl ⟨rfl, rfl, rfl⟩
  | some p =>
    simp only
    rcases saveProof_spec (cfg := cfg) (io := io.save) (p := p) (n := n) with ⟨-, h⟩ | ⟨-, h⟩
    · rw [h]; exact .inl ⟨rfl, rfl, rfl⟩
    · rw [h]
      simp only
      by_cases ha : io.alive = false
      · rw [if_pos ha]; exact .inl ⟨rfl, rfl, rfl⟩
      rw [if_neg ha]
      cases hf : n.pool.getFullTxs pill.epoch.orderedTxHashes with
      | error e => exact .inl ⟨rfl, rfl, rfl⟩
      | ok txs =>
        right
        refine ⟨?_, txs, rfl⟩
        simp only [Node.commitTail]
        have h1 := exec_pool cfg n.status.stateRoot id (.user pill.epoch.header.proposer) txs
          { n with store := n.store.write (.latestProof p), pool := n.pool.flush pill.epoch.orderedTxHashes }
        generalize Node.exec cfg n.status.stateRoot id (.user pill.epoch.header.proposer) txs
          { n with store := n.store.write (.latestProof p), pool := n.pool.flush pill.epoch.orderedTxHashes } = x at h1 ⊢
        obtain ⟨a, n2⟩ := x
        cases a with
        | error e => exact h1
        | ok resp =>
          simp only
          have h2 := updateStatus_pool cfg io.save n.status.stateRoot id pill.epoch p resp txs n2
          generalize Node.updateStatus cfg io.save n.status.stateRoot id pill.epoch p resp txs n2 = y at h2 ⊢
          obtain ⟨b, n3⟩ := y
          cases b with
          | error e => exact h2.trans h1
          | ok u => simp only; split <;> exact h2.trans h1

theorem syncOne_pool (cfg : NodeCfg) (io : SyncIo) (k : Nat) (id : UInt64) (h r : Hash) (n : Node) :
    (n.syncOne cfg io k id h r).2.pool = n.pool := by
  unfold Node.syncOne
  split
  · rfl
  · rename_i ep _
    split
    · rfl
    · rcases saveProof_spec (cfg := cfg) (io := io.save k) (p := ep.header.proof) (n := n) with ⟨-, hs⟩ | ⟨-, hs⟩
      · rw [hs]
      · rw [hs]
        simp only
        split
        · rfl
        · rename_i txs _
          have h1 := exec_pool cfg r ep.header.epochId (.user ep.header.proposer) txs { n with store := n.store.write (.latestProof ep.header.proof) }
          generalize Node.exec cfg r ep.header.epochId (.user ep.header.proposer) txs { n with store := n.store.write (.latestProof ep.header.proof) } = x
            at h1 ⊢
          obtain ⟨a, n2⟩ := x
          cases a with
          | error e => exact h1
          | ok resp =>
            simp only
            have h2 := updateStatus_pool cfg (io.save k) r ep.header.epochId ep ep.header.proof resp txs n2
            generalize Node.updateStatus cfg (io.save k) r ep.header.epochId ep ep.header.proof resp txs n2 = y at h2 ⊢
            obtain ⟨b, n3⟩ := y
            cases b with
            | error e => exact h2.trans h1
            | ok u => exact h2.trans h1

theorem syncLoop_pool (cfg : NodeCfg) (io : SyncIo) (ids : List UInt64) : ∀ (k : Nat) (h r : Hash) (n : Node),
    (Node.syncLoop cfg io k ids h r n).2.pool = n.pool := by
  induction ids with
  | nil => intro k h r n; rfl
  | cons id ids ih =>
    intro k h r n
    simp only [Node.syncLoop]
    have h1 := syncOne_pool cfg io k id h r n
    generalize Node.syncOne cfg io k id h r n = x at h1 ⊢
    obtain ⟨a, n1⟩ := x
    cases a with
    | error e => exact h1
    | ok y => obtain ⟨h', r'⟩ := y; exact (ih _ _ _ _).trans h1

/-- Synchronisation does not touch the pool. -/
theorem updateEpoch_pool (cfg : NodeCfg) (io : SyncIo) (msg : Bytes) (n : Node) : (n.updateEpoch cfg io msg).2.pool = n.pool := by
  unfold Node.updateEpoch
  split
  · rfl
  · simp only
    split
    · rfl
    · split
      · rfl
      · split
        · rfl
        · rename_i v rest _ _ _ _ h r _
          have := syncLoop_pool cfg io (syncIds n.currentId (UInt64.ofNat v - 1)) 1 h r n
          generalize Node.syncLoop cfg io 1 (syncIds n.currentId (UInt64.ofNat v - 1)) h r n = x at this ⊢
          obtain ⟨a, b⟩ := x
          cases a with
          | error e => exact this
          | ok u => simp only; split <;> exact this

theorem getEpoch_pool (cfg : NodeCfg) (now id : UInt64) (n : Node) :
    (n.getEpoch cfg now id).2.pool = (n.pool.package (n.view cfg (fun _ => none) true) n.status.cyclesLimit).2 := by
  unfold Node.getEpoch
  split
  · rename_i h; rw [h]
  · rename_i h; split <;> rw [h]

/-- The pool of a node is a pool with some history of calls. -/
theorem Lives.pool {cfg : NodeCfg} {g : Genesis} {ok : Node → NodeOp → Prop} {n : Node} (h : Lives cfg g ok n) :
    ∃ ops, MemPool.after cfg.mem cfg.poolSize cfg.timeoutGap ops = n.pool := by
  induction h with
  | init h1 h2 => obtain ⟨e, -, -, -, -, -, -, hp⟩ := startNode_some h2; exact ⟨[], hp.symm⟩
  | restart _ _ h2 _ => obtain ⟨e, -, -, -, -, -, -, hp⟩ := startNode_some h2; exact ⟨[], hp.symm⟩
  | @step n op _ _ ih =>
    obtain ⟨ops, ih⟩ := ih
    have one : ∀ mop, ∃ ops, MemPool.after cfg.mem cfg.poolSize cfg.timeoutGap ops = n.pool.step cfg.mem mop :=
      fun mop => ⟨ops ++ [mop], by rw [after_append, ih]⟩
    cases op with
    | insertTx o b tx => exact one (.insert (n.view cfg (fun _ => none) b) o tx)
    | propose now id =>
      show ∃ ops, _ = (n.getEpoch cfg now id).2.pool
      rw [getEpoch_pool]; exact one (.package _ _)
    | check p1 p2 ha pill =>
      show ∃ ops, _ = (n.checkEpoch cfg p1 p2 ha pill).2.pool
      rcases (checkEpoch_spec cfg p1 p2 ha pill n).1 with h | h | h
      · rw [h]; exact ⟨ops, ih⟩
      · rw [h]; exact one (.syncProposeTxs _ _)
      · rw [h]
        exact ⟨ops ++ [.syncProposeTxs (n.view cfg p1 true) pill.proposeHashes] ++ [.ensureOrderTxs (n.view cfg p2 true) pill.epoch.orderedTxHashes],
          by rw [after_append, after_append, ih]; rfl⟩
    | commit io id pill proof =>
      show ∃ ops, _ = (n.commit cfg io id pill proof).2.pool
      rcases commit_pool cfg io id pill proof n with ⟨h, -⟩ | ⟨h, -⟩
      · rw [h]; exact ⟨ops, ih⟩
      · rw [h]; exact one (.flush _)
    | sync io msg =>
      show ∃ ops, _ = (n.updateEpoch cfg io msg).2.pool
      rw [updateEpoch_pool]; exact ⟨ops, ih⟩

/-! ### C39 -/

/-- **C39 is false, for every node**: whether an epoch is accepted, and with which transactions, does not depend on its header at all
(chain id, height, previous hash, state root, proposer, time, proof, …). -/
theorem C39_header_ignored (cfg : NodeCfg) (p1 p2 : List Hash → Option (List SignedTx)) (hash : Bytes) (e e' : Epoch) (ps : List Hash) (n : Node)
    (h : e.orderedTxHashes = e'.orderedTxHashes) : n.checkEpoch cfg p1 p2 hash ⟨e, ps⟩ = n.checkEpoch cfg p1 p2 hash ⟨e', ps⟩ := by
  unfold Node.checkEpoch
  simp only [h]

open Demo in
/-- A concrete case: an epoch of height 77 of another chain with an unrelated previous hash and state root is accepted. -/
theorem C39_refuted : ∃ (cfg : NodeCfg) (g : Genesis) (n : Node) (pill : Pill), Lives cfg g (fun _ _ => True) n ∧
    (n.checkEpoch cfg (fun _ => none) (fun _ => none) [] pill).1.toOption = some [] ∧
    pill.epoch.header.chainId ≠ cfg.chainId ∧ pill.epoch.header.epochId ≠ n.status.epochId ∧
    pill.epoch.header.preHash ≠ n.status.prevHash ∧ pill.epoch.header.stateRoot ≠ n.status.stateRoot :=
  ⟨ncfg, ngenesis, n1, strayPill, blockOps_lives (n0_lives _) _ (fun _ _ => trivial), by decide +kernel⟩

/-- **C39 (partial: what is checked).**  In every lifetime of a node: if an epoch is accepted, the transactions returned are exactly
those it orders, in order, one per hash. -/
theorem C39_partial {cfg : NodeCfg} {g : Genesis} {ok : Node → NodeOp → Prop} {n n' : Node} {p1 p2 : List Hash → Option (List SignedTx)}
    {hash : Bytes} {pill : Pill} {txs : List SignedTx} (h : Lives cfg g ok n) (hc : n.checkEpoch cfg p1 p2 hash pill = (.ok txs, n')) :
    txs.map SignedTx.txHash = pill.epoch.orderedTxHashes := by
  have hl : Lives cfg g (fun _ _ => True) (n.step cfg (.check p1 p2 hash pill)) := by
    refine .step _ ?_ trivial
    clear hc
    induction h with
    | init h1 h2 => exact .init h1 h2
    | step op _ _ ih => exact .step op ih trivial
    | restart _ h1 h2 ih => exact .restart ih h1 h2
  obtain ⟨ops, hp⟩ := hl.pool
  have hp : MemPool.after cfg.mem cfg.poolSize cfg.timeoutGap ops = (n.checkEpoch cfg p1 p2 hash pill).2.pool := hp
  have hg := (checkEpoch_spec cfg p1 p2 hash pill n).2 txs (by rw [hc])
  exact (C26_full_txs_exact cfg.mem cfg.poolSize cfg.timeoutGap ops hp pill.epoch.orderedTxHashes).2.1 txs hg

open Demo in
/-- The hypothesis is met by an epoch with a payment that the node has in its pool. -/
example : (((n0.step ncfg (.insertTx true true (npay 1 2 10))).checkEpoch ncfg (fun _ => none) (fun _ => none) [] n1pill).1.toOption.map
    (fun txs => txs.map SignedTx.txHash)) = some [(npay 1 2 10).txHash] := by decide +kernel

/-! ### C40 -/

/-- The errors before anything but the latest proof was changed. -/
def CErr.early : CErr → Bool
  | .lockInSync | .badProof | .mempool _ => true
  | _ => false

/-- Every way a commit can end. -/
inductive CommitEnd (cfg : NodeCfg) (io : CommitIo) (id : UInt64) (pill : Pill) (proof : OverlordProof) (n : Node) :
    Except CErr UInt64 × Node → Prop
  | lock : io.lock = false → CommitEnd cfg io id pill proof n (.error .lockInSync, n)
  | badProof : proof.toProof = none → CommitEnd cfg io id pill proof n (.error .badProof, n)
  | saveProof : io.save.proof = false → CommitEnd cfg io id pill proof n (.error .storage, n)
  | killed {p} : proof.toProof = some p → io.alive = false →
      CommitEnd cfg io id pill proof n (.error .panic, { n with store := n.store.write (.latestProof p) })
  | mempool {p m} : proof.toProof = some p → n.pool.getFullTxs pill.epoch.orderedTxHashes = .error m →
      CommitEnd cfg io id pill proof n (.error (.mempool m), { n with store := n.store.write (.latestProof p) })
  | exec {p txs e} : proof.toProof = some p → n.pool.getFullTxs pill.epoch.orderedTxHashes = .ok txs →
      (e = .openRoot ∨ e = .panic ∨ ∃ x, e = .exec x) →
      CommitEnd cfg io id pill proof n (.error e, { n with store := n.store.write (.latestProof p), pool := n.pool.flush pill.epoch.orderedTxHashes })
  | storage {d j db} : CommitDone n id pill proof d → d.Ran cfg n db → j < 6 →
      CommitEnd cfg io id pill proof n (.error .storage,
        { n with store := n.store.writes ((d.writes cfg).take j), pool := n.pool.flush pill.epoch.orderedTxHashes, tries := db })
  | done {d db} : CommitDone n id pill proof d → d.Ran cfg n db →
      CommitEnd cfg io id pill proof n (if io.transmit then .ok (id + 1) else .error .network,
        { n with store := n.store.writes (d.writes cfg), pool := n.pool.flush pill.epoch.orderedTxHashes, tries := db,
                 status := n.status.updated cfg d.height d.epoch d.proof d.resp, log := d :: n.log })

theorem exec_error {cfg : NodeCfg} {root : MerkleRoot} {id : UInt64} {cb : Address} {txs : List SignedTx} {n n' : Node} {e : CErr}
    (h : n.exec cfg root id cb txs = (.error e, n')) : e = .openRoot ∨ e = .panic ∨ ∃ x, e = .exec x := by
  unfold Node.exec at h
  split at h <;> first | (injection h with h _; injection h with h; subst h; simp) | cases h

theorem commit_end (cfg : NodeCfg) (io : CommitIo) (id : UInt64) (pill : Pill) (proof : OverlordProof) (n : Node) :
    CommitEnd cfg io id pill proof n (n.commit cfg io id pill proof) := by
  unfold Node.commit
  by_cases hl : io.lock = false
  · rw [if_pos hl]; exact .lock hl
  rw [if_neg hl]
  cases hp : proof.toProof with
  | none => exact .badProof hp
  | some p =>
    simp only
    rcases saveProof_spec (cfg := cfg) (io := io.save) (p := p) (n := n) with ⟨h1, h⟩ | ⟨-, h⟩
    · rw [h]; exact .saveProof h1
    · rw [h]
      simp only
      by_cases ha : io.alive = false
      · rw [if_pos ha]; exact .killed hp ha
      rw [if_neg ha]
      cases hf : n.pool.getFullTxs pill.epoch.orderedTxHashes with
      | error e => exact .mempool hp hf
      | ok txs =>
        simp only [Node.commitTail]
        rcases exec_spec (cfg := cfg) (root := n.status.stateRoot) (id := id) (cb := .user pill.epoch.header.proposer) (txs := txs)
          (n := { n with store := n.store.write (.latestProof p), pool := n.pool.flush pill.epoch.orderedTxHashes }) with ⟨e, he⟩ | ⟨resp, db, he, hr⟩
        · have hx := exec_error he
          rw [he]; exact .exec hp hf hx
        · rw [he]
          simp only
          have hd : CommitDone n id pill proof ⟨id, pill.epoch, p, txs, n.status.stateRoot, resp⟩ :=
            ⟨rfl, rfl, rfl, hp, hf⟩
          rcases updateStatus_spec (cfg := cfg) (io := io.save) (n0 := n)
            (n := { n with store := n.store.write (.latestProof p), pool := n.pool.flush pill.epoch.orderedTxHashes, tries := db })
            (d := ⟨id, pill.epoch, p, txs, n.status.stateRoot, resp⟩) rfl with ⟨n', j, hu, hj, hn⟩ | hu
          · simp only at hu; rw [hu]; subst hn; exact .storage (d := ⟨id, pill.epoch, p, txs, n.status.stateRoot, resp⟩) hd hr hj
          · simp only at hu; rw [hu]
            have := CommitEnd.done (cfg := cfg) (io := io) (d := ⟨id, pill.epoch, p, txs, n.status.stateRoot, resp⟩) hd hr
            simp only at this ⊢
            split
            · rename_i ht; rw [if_pos ht] at this; exact this
            · rename_i ht; rw [if_neg ht] at this; exact this

/-- **C40 (partial).**  Whenever a commit returns an error:
* unless it is the failure to announce the epoch (`network`), which happens after everything was recorded, the status, the latest epoch
  and the record of committed epochs are unchanged, and every epoch stored under a height up to the latest one is unchanged if the epoch
  to be committed is higher;
* if it is one of the early errors, the pool, the state database, and all of the store but the latest proof are unchanged too;
* after an early error, calling commit again with everything working gives the same result, status, pool, stored data and record as
  calling it the first time. -/
theorem C40_partial {cfg : NodeCfg} {io : CommitIo} {id : UInt64} {pill : Pill} {proof : OverlordProof} {n n' : Node} {e : CErr}
    (h : n.commit cfg io id pill proof = (.error e, n')) :
    (e ≠ .network → n'.status = n.status ∧ n'.store.latest = n.store.latest ∧ n'.log = n.log ∧
      ∀ i, i ≠ pill.epoch.header.epochId → n'.store.epochs i = n.store.epochs i) ∧
    (e.early = true → n'.pool = n.pool ∧ n'.tries = n.tries ∧ n'.exempt = n.exempt ∧
      (n'.store = n.store ∨ ∃ p, proof.toProof = some p ∧ n'.store = { n.store with proof := some p }) ∧
      ∀ io', io'.lock = true → io'.save.proof = true → n'.commit cfg io' id pill proof = n.commit cfg io' id pill proof) := by
  have hend := commit_end cfg io id pill proof n
  rw [h] at hend
  clear h
  have retry : ∀ p, proof.toProof = some p → ∀ io' : CommitIo, io'.lock = true → io'.save.proof = true →
      ({ n with store := n.store.write (.latestProof p) } : Node).commit cfg io' id pill proof = n.commit cfg io' id pill proof := by
    intro p hp io' h1 h2
    unfold Node.commit
    rw [h1, hp]
    simp only [Node.saveProof, h2]
    rfl
  generalize hx : (Except.error e, n') = x at hend
  cases hend with
  | lock _ =>
    cases hx
    exact ⟨fun _ => ⟨rfl, rfl, rfl, fun _ _ => rfl⟩, fun _ => ⟨rfl, rfl, rfl, .inl rfl, fun _ _ _ => rfl⟩⟩
  | badProof _ =>
    cases hx
    exact ⟨fun _ => ⟨rfl, rfl, rfl, fun _ _ => rfl⟩, fun _ => ⟨rfl, rfl, rfl, .inl rfl, fun _ _ _ => rfl⟩⟩
  | saveProof _ =>
    cases hx
    exact ⟨fun _ => ⟨rfl, rfl, rfl, fun _ _ => rfl⟩, fun _ => ⟨rfl, rfl, rfl, .inl rfl, fun _ _ _ => rfl⟩⟩
  | @killed p hp _ =>
    cases hx
    exact ⟨fun _ => ⟨rfl, rfl, rfl, fun _ _ => rfl⟩, fun h => by cases h⟩
  | @mempool p m hp _ =>
    cases hx
    exact ⟨fun _ => ⟨rfl, rfl, rfl, fun _ _ => rfl⟩, fun _ => ⟨rfl, rfl, rfl, .inr ⟨p, hp, rfl⟩, retry p hp⟩⟩
  | exec hp _ he =>
    cases hx
    refine ⟨fun _ => ⟨rfl, rfl, rfl, fun _ _ => rfl⟩, fun h => ?_⟩
    rcases he with rfl | rfl | ⟨y, rfl⟩ <;> cases h
  | @storage d j db hd hr hj =>
    cases hx
    refine ⟨fun _ => ⟨rfl, latest_take cfg d _ j hj, rfl, fun i hi => ?_⟩, fun h => by cases h⟩
    rcases epochs_take cfg d n.store j i with h | ⟨h, -⟩
    · exact h
    · rw [hd.epoch] at h; exact absurd h hi
  | done hd hr =>
    by_cases ht : io.transmit = true
    · rw [if_pos ht] at hx; cases hx
    · rw [if_neg ht] at hx
      cases hx
      exact ⟨fun h => absurd rfl h, fun h => by cases h⟩

namespace Demo

/-- User 3 has no account and sends a transaction: it is admitted and proposed. -/
def unfunded : Node := preBlock n0 [npay 3 1 5]
def unfundedPill : Pill := proposal (inserted n0 [npay 3 1 5])

theorem preBlock_lives {g : Genesis} {n : Node} (h : Lives ncfg g (fun _ _ => True) n) (txs : List SignedTx) :
    Lives ncfg g (fun _ _ => True) (preBlock n txs) :=
  .step _ (run_lives _ h (fun _ _ _ _ => trivial)) trivial

theorem commit_stuck {cfg : NodeCfg} {pill : Pill} {proof : OverlordProof} {id : UInt64} {n : Node}
    (h : (n.pool.getFullTxs pill.epoch.orderedTxHashes).toOption = none) (io : CommitIo) : ((n.commit cfg io id pill proof).1).toOption = none := by
  have hend := commit_end cfg io id pill proof n
  generalize n.commit cfg io id pill proof = x at hend ⊢
  have no : ∀ txs, n.pool.getFullTxs pill.epoch.orderedTxHashes ≠ .ok txs := by
    intro txs h'; rw [h'] at h; cases h
  cases hend with
  | done hd hr => exact absurd hd.txs (no _)
  | _ => rfl

/-- The execution error of a result. -/
def execErrOf {α : Type} : Except CErr α → Option ExecErr
  | .error (.exec x) => some x
  | _ => none

theorem execErrOf_some {α : Type} {r : Except CErr α} {x : ExecErr} (h : execErrOf r = some x) : r = .error (.exec x) := by
  cases r with
  | ok a => cases h
  | error e => cases e <;> first | cases h; rfl | cases h

end Demo

open Demo in
/-- **C40 is false of the code as it stands.**  An epoch with a payment from an account that does not exist: with no fault anywhere,
the commit fails in the execution, after the transactions were removed from the pool; the next attempt, and every later one, fails
because the transactions are missing. -/
theorem C40_refuted : ∃ (cfg : NodeCfg) (g : Genesis) (n : Node) (pill : Pill) (proof : OverlordProof) (tx : SignedTx) (x : ExecErr),
    Lives cfg g (fun _ _ => True) n ∧ n.status.epochId = 1 ∧ (n.pool.getFullTxs pill.epoch.orderedTxHashes).toOption = some [tx] ∧
    (n.commit cfg .ok 1 pill proof).1 = .error (.exec x) ∧
    ((n.commit cfg .ok 1 pill proof).2.pool.getFullTxs pill.epoch.orderedTxHashes).toOption = none ∧
    ∀ io, (((n.commit cfg .ok 1 pill proof).2.commit cfg io 1 pill proof).1).toOption = none := by
  have h1 : Lives ncfg ngenesis (fun _ _ => True) unfunded := preBlock_lives (n0_lives _) _
  have h2 : unfunded.status.epochId = 1 := by decide +kernel
  have h3 : (unfunded.pool.getFullTxs unfundedPill.epoch.orderedTxHashes).toOption = some [npay 3 1 5] := by decide +kernel
  have h4 : execErrOf (unfunded.commit ncfg .ok 1 unfundedPill (oproof 1)).1 = some (.accountNotFound (naddr 3)) := by decide +kernel
  have h5 : ((unfunded.commit ncfg .ok 1 unfundedPill (oproof 1)).2.pool.getFullTxs unfundedPill.epoch.orderedTxHashes).toOption = none := by
    decide +kernel
  exact ⟨ncfg, ngenesis, unfunded, unfundedPill, oproof 1, npay 3 1 5, _, h1, h2, h3, execErrOf_some h4, h5, commit_stuck h5⟩

end Huobi
