import Verif.Model.Consensus
import Verif.Props.Storage
/-
What one call does to the stored data and the status of a node.
-/
namespace Huobi

/-- The storage calls made for an epoch. -/
def Done.saved (d : Done) : CommitRec := ⟨d.proof, d.resp.receipts, d.txs, d.epoch⟩

/-- The writes made for an epoch, in order. -/
def Done.writes (cfg : NodeCfg) (d : Done) : List Write := opWrites cfg.digest d.saved.ops

theorem Done.writes_eq (cfg : NodeCfg) (d : Done) : d.writes cfg =
    [.latestProof d.proof, .receipts d.resp.receipts, .txs d.txs, .epoch ⟨d.epoch.header.epochId⟩ d.epoch,
      .hashEpoch (cfg.digest (pbEncode d.epoch.header)) ⟨d.epoch.header.epochId⟩, .latestEpoch d.epoch] := rfl

/-- Executing the transactions of `d` on the databases of `n` gives the response of `d` and the database `db`. -/
def Done.Ran (cfg : NodeCfg) (d : Done) (n : Node) (db : StateDB) : Prop :=
  runBlock (cfg.env d.height n.status.cyclesPrice (.user d.epoch.header.proposer)) n.tries d.root d.txs = (some (.ok d.resp), db)

/-- The change of a node by (a part of) a call. -/
inductive Effect (cfg : NodeCfg) (P : Done → Prop) (n n' : Node) : Prop
  | quiet : n'.store = n.store → n'.tries = n.tries → n'.status = n.status → n'.log = n.log → Effect cfg P n n'
  | proof (p : Proof) : n'.store = n.store.write (.latestProof p) → n'.tries = n.tries → n'.status = n.status → n'.log = n.log →
      Effect cfg P n n'
  | failed (d : Done) (j : Nat) : P d → d.Ran cfg n n'.tries → j < 6 → n'.store = n.store.writes ((d.writes cfg).take j) →
      n'.status = n.status → n'.log = n.log → Effect cfg P n n'
  | done (d : Done) : P d → d.Ran cfg n n'.tries → n'.store = n.store.writes (d.writes cfg) →
      n'.status = n.status.updated cfg d.height d.epoch d.proof d.resp → n'.log = d :: n.log → Effect cfg P n n'

/-- What a `commit` records. -/
structure CommitDone (n : Node) (epochId : UInt64) (pill : Pill) (proof : OverlordProof) (d : Done) : Prop where
  height : d.height = epochId
  epoch : d.epoch = pill.epoch
  root : d.root = n.status.stateRoot
  proof : proof.toProof = some d.proof
  txs : n.pool.getFullTxs pill.epoch.orderedTxHashes = .ok d.txs

/-- What a round of the synchronisation records. -/
structure SyncDone (cfg : NodeCfg) (io : SyncIo) (k : Nat) (id : UInt64) (curHash stateRoot : Hash) (d : Done) : Prop where
  pulled : io.pullEpoch k id = some d.epoch
  link : id ≠ 1 → d.epoch.header.preHash = curHash
  height : d.height = d.epoch.header.epochId
  root : d.root = stateRoot
  proof : d.proof = d.epoch.header.proof
  txs : io.pullTxs k d.epoch.orderedTxHashes = some d.txs

theorem runBlock_error {env : Env} {db : StateDB} {root : MerkleRoot} {txs : List SignedTx} {x : Option (Except Fault ExecResp)}
    {db' : StateDB} (h : runBlock env db root txs = (x, db')) (hx : ∀ r, x ≠ some (.ok r)) : db' = db := by
  unfold runBlock at h
  split at h
  · injection h with _ h; exact h.symm
  · split at h
    · injection h with h _; exact absurd h.symm (hx _)
    · injection h with _ h; exact h.symm

theorem exec_spec {cfg : NodeCfg} {root : MerkleRoot} {id : UInt64} {cb : Address} {txs : List SignedTx} {n : Node} :
    (∃ e, n.exec cfg root id cb txs = (.error e, n)) ∨
    (∃ resp db, n.exec cfg root id cb txs = (.ok resp, { n with tries := db }) ∧
      runBlock (cfg.env id n.status.cyclesPrice cb) n.tries root txs = (some (.ok resp), db)) := by
  unfold Node.exec
  cases h : runBlock (cfg.env id n.status.cyclesPrice cb) n.tries root txs with
  | mk x db =>
    cases x with
    | none => have := runBlock_error h (by simp); subst this; exact .inl ⟨_, rfl⟩
    | some y =>
      cases y with
      | error f =>
        have := runBlock_error h (by simp); subst this
        cases f <;> exact .inl ⟨_, rfl⟩
      | ok resp => exact .inr ⟨resp, db, rfl, rfl⟩

theorem saveProof_spec {cfg : NodeCfg} {io : SaveIo} {p : Proof} {n : Node} :
    (io.proof = false ∧ n.saveProof cfg io p = (.error .storage, n)) ∨
    (io.proof = true ∧ n.saveProof cfg io p = (.ok (), { n with store := n.store.write (.latestProof p) })) := by
  unfold Node.saveProof
  cases io.proof with
  | true => exact .inr ⟨rfl, rfl⟩
  | false => exact .inl ⟨rfl, rfl⟩

/-- The outcome of `update_status`, on a node on which the proof was saved. -/
theorem updateStatus_spec {cfg : NodeCfg} {io : SaveIo} {n n0 : Node} {d : Done}
    (hs : n.store = n0.store.write (.latestProof d.proof)) :
    (∃ n' j, n.updateStatus cfg io d.root d.height d.epoch d.proof d.resp d.txs = (.error .storage, n') ∧ j < 6 ∧
      n' = { n with store := n0.store.writes ((d.writes cfg).take j) }) ∨
    (n.updateStatus cfg io d.root d.height d.epoch d.proof d.resp d.txs = (.ok (), { n with
      store := n0.store.writes (d.writes cfg)
      status := n.status.updated cfg d.height d.epoch d.proof d.resp
      log := d :: n.log })) := by
  unfold Node.updateStatus
  rw [hs]
  by_cases h1 : io.receipts = false
  · rw [if_pos h1]
    refine .inl ⟨_, 1, rfl, by omega, ?_⟩
    cases n; simp only at hs; subst hs; rfl
  · rw [if_neg h1]
    by_cases h2 : io.txs = false
    · rw [if_pos h2]; exact .inl ⟨_, 2, rfl, by omega, rfl⟩
    · rw [if_neg h2]
      match he : io.epochWrites with
      | 0 => exact .inl ⟨_, 3, rfl, by omega, rfl⟩
      | 1 => exact .inl ⟨_, 4, rfl, by omega, rfl⟩
      | 2 => exact .inl ⟨_, 5, rfl, by omega, rfl⟩
      | m + 3 =>
        right
        have : ¬ (m + 3 < 3) := by omega
        simp only [this, if_false]
        have ht : (StoreOp.writes cfg.digest (.insertEpoch d.epoch)).take (m + 3) = StoreOp.writes cfg.digest (.insertEpoch d.epoch) := by
          simp [StoreOp.writes]
        rw [ht]
        rfl

theorem commit_effect (cfg : NodeCfg) (io : CommitIo) (epochId : UInt64) (pill : Pill) (proof : OverlordProof) (n : Node) :
    Effect cfg (CommitDone n epochId pill proof) n (n.commit cfg io epochId pill proof).2 := by
  unfold Node.commit
  by_cases hl : io.lock = false
  · rw [if_pos hl]; exact .quiet rfl rfl rfl rfl
  rw [if_neg hl]
  cases hp : proof.toProof with
  | none => exact .quiet rfl rfl rfl rfl
  | some p =>
    simp only
    rcases saveProof_spec (cfg := cfg) (io := io.save) (p := p) (n := n) with ⟨-, h⟩ | ⟨-, h⟩
    · rw [h]; exact .quiet rfl rfl rfl rfl
    · rw [h]
      simp only
      by_cases ha : io.alive = false
      · rw [if_pos ha]; exact .proof p rfl rfl rfl rfl
      rw [if_neg ha]
      cases hf : n.pool.getFullTxs pill.epoch.orderedTxHashes with
      | error e => exact .proof p rfl rfl rfl rfl
      | ok txs =>
        simp only [Node.commitTail]
        rcases exec_spec (cfg := cfg) (root := n.status.stateRoot) (id := epochId) (cb := .user pill.epoch.header.proposer) (txs := txs)
          (n := { n with store := n.store.write (.latestProof p), pool := n.pool.flush pill.epoch.orderedTxHashes }) with ⟨e, he⟩ | ⟨resp, db, he, hr⟩
        · rw [he]; exact .proof p rfl rfl rfl rfl
        · rw [he]
          simp only
          have hd : CommitDone n epochId pill proof ⟨epochId, pill.epoch, p, txs, n.status.stateRoot, resp⟩ :=
            ⟨rfl, rfl, rfl, hp, hf⟩
          rcases updateStatus_spec (cfg := cfg) (io := io.save) (n0 := n)
            (n := { n with store := n.store.write (.latestProof p), pool := n.pool.flush pill.epoch.orderedTxHashes, tries := db })
            (d := ⟨epochId, pill.epoch, p, txs, n.status.stateRoot, resp⟩) rfl with ⟨n', j, hu, hj, hn⟩ | hu
          · simp only at hu; rw [hu]; subst hn; exact .failed _ j hd hr hj rfl rfl rfl
          · simp only at hu; rw [hu]
            simp only
            split
            · exact .done _ hd hr rfl rfl rfl
            · exact .done _ hd hr rfl rfl rfl

theorem syncOne_effect (cfg : NodeCfg) (io : SyncIo) (k : Nat) (id : UInt64) (h r : Hash) (n : Node) :
    (∃ e n', n.syncOne cfg io k id h r = (.error e, n') ∧ n'.status = n.status ∧ n'.log = n.log ∧
      Effect cfg (SyncDone cfg io k id h r) n n') ∨
    (∃ d n', n.syncOne cfg io k id h r = (.ok (cfg.epochHash d.epoch, d.resp.stateRoot), n') ∧ SyncDone cfg io k id h r d ∧
      d.Ran cfg n n'.tries ∧ n'.store = n.store.writes (d.writes cfg) ∧
      n'.status = n.status.updated cfg d.height d.epoch d.proof d.resp ∧ n'.log = d :: n.log) := by
  unfold Node.syncOne
  cases hpe : io.pullEpoch k id with
  | none => exact .inl ⟨_, n, rfl, rfl, rfl, .quiet rfl rfl rfl rfl⟩
  | some ep =>
    simp only
    by_cases hl : id ≠ 1 ∧ h ≠ ep.header.preHash
    · rw [if_pos hl]; exact .inl ⟨_, n, rfl, rfl, rfl, .quiet rfl rfl rfl rfl⟩
    rw [if_neg hl]
    have hlink : id ≠ 1 → ep.header.preHash = h := fun h1 => by
      by_cases h2 : h = ep.header.preHash
      · exact h2.symm
      · exact absurd ⟨h1, h2⟩ hl
    rcases saveProof_spec (cfg := cfg) (io := io.save k) (p := ep.header.proof) (n := n) with ⟨-, hs⟩ | ⟨-, hs⟩
    · rw [hs]; exact .inl ⟨_, n, rfl, rfl, rfl, .quiet rfl rfl rfl rfl⟩
    · rw [hs]
      simp only
      cases ht : io.pullTxs k ep.orderedTxHashes with
      | none => exact .inl ⟨_, _, rfl, rfl, rfl, .proof _ rfl rfl rfl rfl⟩
      | some txs =>
        simp only
        rcases exec_spec (cfg := cfg) (root := r) (id := ep.header.epochId) (cb := .user ep.header.proposer) (txs := txs)
          (n := { n with store := n.store.write (.latestProof ep.header.proof) }) with ⟨e, he⟩ | ⟨resp, db, he, hr⟩
        · rw [he]; exact .inl ⟨_, _, rfl, rfl, rfl, .proof _ rfl rfl rfl rfl⟩
        · rw [he]
          simp only
          have hd : SyncDone cfg io k id h r ⟨ep.header.epochId, ep, ep.header.proof, txs, r, resp⟩ :=
            ⟨hpe, hlink, rfl, rfl, rfl, ht⟩
          rcases updateStatus_spec (cfg := cfg) (io := io.save k) (n0 := n)
            (n := { n with store := n.store.write (.latestProof ep.header.proof), tries := db })
            (d := ⟨ep.header.epochId, ep, ep.header.proof, txs, r, resp⟩) rfl with ⟨n', j, hu, hj, hn⟩ | hu
          · simp only at hu; rw [hu]; subst hn; exact .inl ⟨_, _, rfl, rfl, rfl, .failed _ j hd hr hj rfl rfl rfl⟩
          · simp only at hu; rw [hu]
            exact .inr ⟨⟨ep.header.epochId, ep, ep.header.proof, txs, r, resp⟩, _, rfl, hd, hr, rfl, rfl, rfl⟩

/-- The rounds of a synchronisation: `n'` is reached from `n` when `ids` remain, the expected previous hash is `h` and the state
root is `r`. -/
inductive SyncSteps (cfg : NodeCfg) (io : SyncIo) : Nat → List UInt64 → Hash → Hash → Node → Node → Prop
  | stop {k ids h r n} : SyncSteps cfg io k ids h r n n
  | fail {k id ids h r n n'} : Effect cfg (SyncDone cfg io k id h r) n n' → n'.status = n.status → n'.log = n.log →
      SyncSteps cfg io k (id :: ids) h r n n'
  | round {k id ids h r n n1 n'} (d : Done) : SyncDone cfg io k id h r d → d.Ran cfg n n1.tries → n1.store = n.store.writes (d.writes cfg) →
      n1.status = n.status.updated cfg d.height d.epoch d.proof d.resp → n1.log = d :: n.log →
      SyncSteps cfg io (k + 1) ids (cfg.epochHash d.epoch) d.resp.stateRoot n1 n' → SyncSteps cfg io k (id :: ids) h r n n'

theorem syncLoop_steps (cfg : NodeCfg) (io : SyncIo) (ids : List UInt64) : ∀ (k : Nat) (h r : Hash) (n : Node),
    SyncSteps cfg io k ids h r n (Node.syncLoop cfg io k ids h r n).2 := by
  induction ids with
  | nil => intro k h r n; exact .stop
  | cons id ids ih =>
    intro k h r n
    simp only [Node.syncLoop]
    rcases syncOne_effect cfg io k id h r n with ⟨e, n', he, h1, h2, h3⟩ | ⟨d, n', he, hd, h1, h2, h3, h4⟩
    · rw [he]; exact SyncSteps.fail h3 h1 h2
    · rw [he]
      have h5 := ih (k + 1) (cfg.epochHash d.epoch) d.resp.stateRoot n'
      exact SyncSteps.round d hd h1 h2 h3 h4 h5

/-- What `update_epoch` does: nothing, or the rounds from the node's latest epoch. -/
theorem updateEpoch_steps (cfg : NodeCfg) (io : SyncIo) (msg : Bytes) (n : Node) :
    (n.updateEpoch cfg io msg).2 = n ∨
    ∃ v rest h r, readU64LE msg = some (v, rest) ∧ n.syncStart cfg io n.currentId = .ok (h, r) ∧
      SyncSteps cfg io 1 (syncIds n.currentId (UInt64.ofNat v - 1)) h r n (n.updateEpoch cfg io msg).2 := by
  unfold Node.updateEpoch
  cases hm : readU64LE msg with
  | none => exact .inl rfl
  | some x =>
    obtain ⟨v, rest⟩ := x
    simp only
    split
    · exact .inl rfl
    split
    · exact .inl rfl
    cases hs : n.syncStart cfg io n.currentId with
    | error e => exact .inl rfl
    | ok x =>
      obtain ⟨h, r⟩ := x
      right
      refine ⟨v, rest, h, r, rfl, rfl, ?_⟩
      have := syncLoop_steps cfg io (syncIds n.currentId (UInt64.ofNat v - 1)) 1 h r n
      simp only
      generalize Node.syncLoop cfg io 1 (syncIds n.currentId (UInt64.ofNat v - 1)) h r n = y at this ⊢
      obtain ⟨a, b⟩ := y
      cases a with
      | error e => exact this
      | ok u => simp only; split <;> exact this

end Huobi
