import Verif.Spec.Machine
/-
The stored latest proof is written and never read: nodes that differ in it only behave the same.
-/
namespace Huobi

/-- The same records, but for the latest proof. -/
def Store.withProof (p : Option Proof) (s : Store) : Store := { s with proof := p }

/-- The same node, but for the stored latest proof. -/
def Node.withProof (p : Option Proof) (n : Node) : Node := { n with store := n.store.withProof p }

theorem writes_withProof (ws : List Write) (s : Store) (p : Option Proof) : ∃ p', (s.withProof p).writes ws = (s.writes ws).withProof p' := by
  induction ws generalizing s p with
  | nil => exact ⟨p, rfl⟩
  | cons w ws ih =>
    have : ∃ q, (s.withProof p).write w = (s.write w).withProof q := by
      cases w <;> first | exact ⟨p, rfl⟩ | exact ⟨some _, rfl⟩
    obtain ⟨q, hq⟩ := this
    obtain ⟨p', h⟩ := ih (s.write w) q
    exact ⟨p', by show ((s.withProof p).write w).writes ws = _; rw [hq]; exact h⟩

/-- The same answer, and nodes that differ in the latest proof only. -/
def Agree {α : Type} (r r' : α × Node) : Prop := r'.1 = r.1 ∧ ∃ p, r'.2 = r.2.withProof p

theorem Agree.refl {α : Type} (r : α × Node) (p : Option Proof) : Agree r (r.1, r.2.withProof p) := ⟨rfl, p, rfl⟩

theorem exec_agree (cfg : NodeCfg) (root : MerkleRoot) (id : UInt64) (cb : Address) (txs : List SignedTx) (n : Node) (p : Option Proof) :
    Agree (n.exec cfg root id cb txs) ((n.withProof p).exec cfg root id cb txs) := by
  unfold Node.exec Node.withProof
  simp only
  rcases runBlock (cfg.env id n.status.cyclesPrice cb) n.tries root txs with ⟨q, db⟩
  match q with
  | none => exact ⟨rfl, p, rfl⟩
  | some (.error .panic) => exact ⟨rfl, p, rfl⟩
  | some (.error (.err e)) => exact ⟨rfl, p, rfl⟩
  | some (.ok resp) => exact ⟨rfl, p, rfl⟩

theorem saveProof_agree (cfg : NodeCfg) (io : SaveIo) (pr : Proof) (n : Node) (p : Option Proof) :
    Agree (n.saveProof cfg io pr) ((n.withProof p).saveProof cfg io pr) := by
  unfold Node.saveProof
  split
  · exact ⟨rfl, some pr, rfl⟩
  · exact ⟨rfl, p, rfl⟩

theorem updateStatus_agree (cfg : NodeCfg) (io : SaveIo) (root : MerkleRoot) (id : UInt64) (epoch : Epoch) (proof : Proof) (resp : ExecResp)
    (txs : List SignedTx) (n : Node) (p : Option Proof) :
    Agree (n.updateStatus cfg io root id epoch proof resp txs) ((n.withProof p).updateStatus cfg io root id epoch proof resp txs) := by
  obtain ⟨p1, h1⟩ := writes_withProof (StoreOp.writes cfg.digest (.insertReceipts resp.receipts)) n.store p
  obtain ⟨p2, h2⟩ := writes_withProof (StoreOp.writes cfg.digest (.insertTransactions txs))
    (n.store.writes (StoreOp.writes cfg.digest (.insertReceipts resp.receipts))) p1
  obtain ⟨p3, h3⟩ := writes_withProof ((StoreOp.writes cfg.digest (.insertEpoch epoch)).take io.epochWrites)
    ((n.store.writes (StoreOp.writes cfg.digest (.insertReceipts resp.receipts))).writes (StoreOp.writes cfg.digest (.insertTransactions txs))) p2
  unfold Node.updateStatus
  simp only [Node.withProof, h1, h2, h3]
  split
  · exact ⟨rfl, p, rfl⟩
  · split
    · exact ⟨rfl, p1, rfl⟩
    · split
      · exact ⟨rfl, p3, rfl⟩
      · exact ⟨rfl, p3, rfl⟩

theorem commitTail_agree (cfg : NodeCfg) (io : CommitIo) (id : UInt64) (pill : Pill) (pr : Proof) (txs : List SignedTx) (n : Node) (p : Option Proof) :
    Agree (n.commitTail cfg io id pill pr txs) ((n.withProof p).commitTail cfg io id pill pr txs) := by
  let tail (n0 : Node) : Except CErr UInt64 × Node :=
    match n0.exec cfg n0.status.stateRoot id (.user pill.epoch.header.proposer) txs with
    | (.error e, n2) => (.error e, n2)
    | (.ok resp, n2) =>
      match n2.updateStatus cfg io.save n0.status.stateRoot id pill.epoch pr resp txs with
      | (.error e, n3) => (.error e, n3)
      | (.ok (), n3) => if io.transmit then (.ok (id + 1), n3) else (.error .network, n3)
  suffices h : ∀ n0 : Node, Agree (tail n0) (tail (n0.withProof p)) from h { n with pool := n.pool.flush pill.epoch.orderedTxHashes }
  intro n0
  simp only [tail]
  have hs : (n0.withProof p).status = n0.status := rfl
  rw [hs]
  obtain ⟨h1, p2, h2⟩ := exec_agree cfg n0.status.stateRoot id (.user pill.epoch.header.proposer) txs n0 p
  revert h1 h2
  rcases (n0.withProof p).exec cfg n0.status.stateRoot id (.user pill.epoch.header.proposer) txs with ⟨y', n2'⟩
  rcases n0.exec cfg n0.status.stateRoot id (.user pill.epoch.header.proposer) txs with ⟨y, n2⟩
  intro e1 e2; simp only at e1 e2; subst e1 e2
  cases y' with
  | error e => exact ⟨rfl, p2, rfl⟩
  | ok resp =>
    simp only
    obtain ⟨h1, p3, h2⟩ := updateStatus_agree cfg io.save n0.status.stateRoot id pill.epoch pr resp txs n2 p2
    revert h1 h2
    rcases (n2.withProof p2).updateStatus cfg io.save n0.status.stateRoot id pill.epoch pr resp txs with ⟨z', n3'⟩
    rcases n2.updateStatus cfg io.save n0.status.stateRoot id pill.epoch pr resp txs with ⟨z, n3⟩
    intro e1 e2; simp only at e1 e2; subst e1 e2
    cases z' with
    | error e => exact ⟨rfl, p3, rfl⟩
    | ok u =>
      simp only
      split <;> exact ⟨rfl, p3, rfl⟩

theorem commit_agree (cfg : NodeCfg) (io : CommitIo) (id : UInt64) (pill : Pill) (proof : OverlordProof) (n : Node) (p : Option Proof) :
    Agree (n.commit cfg io id pill proof) ((n.withProof p).commit cfg io id pill proof) := by
  unfold Node.commit
  split
  · exact ⟨rfl, p, rfl⟩
  · cases proof.toProof with
    | none => exact ⟨rfl, p, rfl⟩
    | some pr =>
      simp only
      obtain ⟨h1, p1, h2⟩ := saveProof_agree cfg io.save pr n p
      revert h1 h2
      rcases (n.withProof p).saveProof cfg io.save pr with ⟨x', n1'⟩
      rcases n.saveProof cfg io.save pr with ⟨x, n1⟩
      intro e1 e2; simp only at e1 e2; subst e1 e2
      cases x' with
      | error e => exact ⟨rfl, p1, rfl⟩
      | ok u =>
        simp only
        split
        · exact ⟨rfl, p1, rfl⟩
        · have : (n1.withProof p1).pool = n1.pool := rfl
          rw [this]
          cases n1.pool.getFullTxs pill.epoch.orderedTxHashes with
          | error e => exact ⟨rfl, p1, rfl⟩
          | ok txs =>
            simp only
            exact commitTail_agree cfg io id pill pr txs n1 p1

theorem syncOne_agree (cfg : NodeCfg) (io : SyncIo) (k : Nat) (id : UInt64) (h r : Hash) (n : Node) (p : Option Proof) :
    Agree (n.syncOne cfg io k id h r) ((n.withProof p).syncOne cfg io k id h r) := by
  unfold Node.syncOne
  cases io.pullEpoch k id with
  | none => exact ⟨rfl, p, rfl⟩
  | some epoch =>
    simp only
    split
    · exact ⟨rfl, p, rfl⟩
    · obtain ⟨h1, p1, h2⟩ := saveProof_agree cfg (io.save k) epoch.header.proof n p
      revert h1 h2
      rcases (n.withProof p).saveProof cfg (io.save k) epoch.header.proof with ⟨x', n1'⟩
      rcases n.saveProof cfg (io.save k) epoch.header.proof with ⟨x, n1⟩
      intro e1 e2; simp only at e1 e2; subst e1 e2
      cases x' with
      | error e => exact ⟨rfl, p1, rfl⟩
      | ok u =>
        simp only
        cases io.pullTxs k epoch.orderedTxHashes with
        | none => exact ⟨rfl, p1, rfl⟩
        | some txs =>
          simp only
          obtain ⟨h1, p2, h2⟩ := exec_agree cfg r epoch.header.epochId (.user epoch.header.proposer) txs n1 p1
          revert h1 h2
          rcases (n1.withProof p1).exec cfg r epoch.header.epochId (.user epoch.header.proposer) txs with ⟨y', n2'⟩
          rcases n1.exec cfg r epoch.header.epochId (.user epoch.header.proposer) txs with ⟨y, n2⟩
          intro e1 e2; simp only at e1 e2; subst e1 e2
          cases y' with
          | error e => exact ⟨rfl, p2, rfl⟩
          | ok resp =>
            simp only
            obtain ⟨h1, p3, h2⟩ := updateStatus_agree cfg (io.save k) r epoch.header.epochId epoch epoch.header.proof resp txs n2 p2
            revert h1 h2
            rcases (n2.withProof p2).updateStatus cfg (io.save k) r epoch.header.epochId epoch epoch.header.proof resp txs with ⟨z', n3'⟩
            rcases n2.updateStatus cfg (io.save k) r epoch.header.epochId epoch epoch.header.proof resp txs with ⟨z, n3⟩
            intro e1 e2; simp only at e1 e2; subst e1 e2
            cases z' with
            | error e => exact ⟨rfl, p3, rfl⟩
            | ok u => exact ⟨rfl, p3, rfl⟩

theorem syncLoop_agree (cfg : NodeCfg) (io : SyncIo) (ids : List UInt64) : ∀ (k : Nat) (h r : Hash) (n : Node) (p : Option Proof),
    Agree (Node.syncLoop cfg io k ids h r n) (Node.syncLoop cfg io k ids h r (n.withProof p)) := by
  induction ids with
  | nil => intro k h r n p; exact ⟨rfl, p, rfl⟩
  | cons id ids ih =>
    intro k h r n p
    simp only [Node.syncLoop]
    obtain ⟨h1, p1, h2⟩ := syncOne_agree cfg io k id h r n p
    revert h1 h2
    rcases (n.withProof p).syncOne cfg io k id h r with ⟨x', n1'⟩
    rcases n.syncOne cfg io k id h r with ⟨x, n1⟩
    intro e1 e2; simp only at e1 e2; subst e1 e2
    cases x' with
    | error e => exact ⟨rfl, p1, rfl⟩
    | ok u => exact ih _ _ _ n1 p1

theorem updateEpoch_agree (cfg : NodeCfg) (io : SyncIo) (msg : Bytes) (n : Node) (p : Option Proof) :
    Agree (n.updateEpoch cfg io msg) ((n.withProof p).updateEpoch cfg io msg) := by
  unfold Node.updateEpoch
  have hc : (n.withProof p).currentId = n.currentId := rfl
  have hs : ∀ c, (n.withProof p).syncStart cfg io c = n.syncStart cfg io c := fun _ => rfl
  simp only [hc, hs]
  cases readU64LE msg with
  | none => exact ⟨rfl, p, rfl⟩
  | some v =>
    simp only
    split
    · exact ⟨rfl, p, rfl⟩
    · split
      · exact ⟨rfl, p, rfl⟩
      · cases n.syncStart cfg io n.currentId with
        | error e => exact ⟨rfl, p, rfl⟩
        | ok hr =>
          simp only
          obtain ⟨h1, p1, h2⟩ := syncLoop_agree cfg io (syncIds n.currentId (UInt64.ofNat v.1 - 1)) 1 hr.1 hr.2 n p
          revert h1 h2
          rcases Node.syncLoop cfg io 1 (syncIds n.currentId (UInt64.ofNat v.1 - 1)) hr.1 hr.2 (n.withProof p) with ⟨x', n1'⟩
          rcases Node.syncLoop cfg io 1 (syncIds n.currentId (UInt64.ofNat v.1 - 1)) hr.1 hr.2 n with ⟨x, n1⟩
          intro e1 e2; simp only at e1 e2; subst e1 e2
          cases x' with
          | error e => exact ⟨rfl, p1, rfl⟩
          | ok u =>
            simp only
            split <;> exact ⟨rfl, p1, rfl⟩

theorem step_agree (cfg : NodeCfg) (op : NodeOp) (n : Node) (p : Option Proof) :
    (n.withProof p).answer cfg op = n.answer cfg op ∧ ∃ p', (n.withProof p).step cfg op = (n.step cfg op).withProof p' := by
  have hv : ∀ pull b, (n.withProof p).view cfg pull b = n.view cfg pull b := fun _ _ => rfl
  cases op with
  | insertTx o b tx => exact ⟨rfl, p, rfl⟩
  | propose now id =>
    have : Agree (n.getEpoch cfg now id) ((n.withProof p).getEpoch cfg now id) := by
      unfold Node.getEpoch
      have hp : (n.withProof p).pool = n.pool := rfl
      have hs : (n.withProof p).status = n.status := rfl
      rw [hv, hp, hs]
      rcases n.pool.package (n.view cfg (fun _ => none) true) n.status.cyclesLimit with ⟨x, pool⟩
      cases x with
      | error e => exact ⟨rfl, p, rfl⟩
      | ok x =>
        simp only
        split
        · exact ⟨rfl, p, rfl⟩
        · exact ⟨rfl, p, rfl⟩
    exact ⟨congrArg MachineAns.proposed this.1, this.2⟩
  | check p1 p2 x pill =>
    have : Agree (n.checkEpoch cfg p1 p2 x pill) ((n.withProof p).checkEpoch cfg p1 p2 x pill) := by
      unfold Node.checkEpoch
      have hp : (n.withProof p).pool = n.pool := rfl
      have he : (n.withProof p).exempt = n.exempt := rfl
      rw [hv, hv, hp, he]
      by_cases hx : x ∈ n.exempt
      · simp only [if_pos hx]
        rw [hp]
        cases n.pool.getFullTxs pill.epoch.orderedTxHashes <;> exact ⟨rfl, p, rfl⟩
      · simp only [if_neg hx]
        rcases n.pool.syncProposeTxs (n.view cfg p1 true) pill.proposeHashes with ⟨y, q⟩
        cases y with
        | error e => exact ⟨rfl, p, rfl⟩
        | ok u =>
          simp only
          rcases q.ensureOrderTxs (n.view cfg p2 true) pill.epoch.orderedTxHashes with ⟨z, q'⟩
          cases z with
          | error e => exact ⟨rfl, p, rfl⟩
          | ok u =>
            simp only
            cases q'.getFullTxs pill.epoch.orderedTxHashes <;> exact ⟨rfl, p, rfl⟩
    exact ⟨congrArg MachineAns.checked this.1, this.2⟩
  | commit io id pill proof =>
    have := commit_agree cfg io id pill proof n p
    exact ⟨congrArg MachineAns.committed this.1, this.2⟩
  | sync io msg =>
    have := updateEpoch_agree cfg io msg n p
    exact ⟨congrArg MachineAns.synced this.1, this.2⟩

end Huobi
