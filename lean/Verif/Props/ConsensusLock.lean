import Verif.Model.ConsensusLock
import Verif.Props.OverlordCrypto
/-
C41 and C63: commits and synchronisations in any interleaving.
-/
namespace Huobi

/-! ### Specification -/

/-- The same stored data, state database, status and record (the pool may differ). -/
structure Node.Same (n m : Node) : Prop where
  store : n.store = m.store
  tries : n.tries = m.tries
  status : n.status = m.status
  log : n.log = m.log

theorem Node.Same.refl (n : Node) : n.Same n := ⟨rfl, rfl, rfl, rfl⟩
theorem Node.Same.symm {n m : Node} (h : n.Same m) : m.Same n := ⟨h.store.symm, h.tries.symm, h.status.symm, h.log.symm⟩
theorem Node.Same.trans {n m k : Node} (h : n.Same m) (h' : m.Same k) : n.Same k :=
  ⟨h.store.trans h'.store, h.tries.trans h'.tries, h.status.trans h'.status, h.log.trans h'.log⟩

/-- A synchronisation from height `current` to height `rich`, in one go.  `update_epoch` does it with the latest height
(`updateEpoch_eq`). -/
def Node.syncFrom (cfg : NodeCfg) (io : SyncIo) (rich current : UInt64) (n : Node) : Except CErr (Option UInt64) × Node :=
  match n.syncStart cfg io current with
  | .error e => (.error e, n)
  | .ok (h, r) =>
    match Node.syncLoop cfg io 1 (syncIds current rich) h r n with
    | (.error e, n1) => (.error e, n1)
    | (.ok (), n1) => if io.send then (.ok (some (rich + 1)), n1) else (.error .network, n1)

theorem updateEpoch_eq (cfg : NodeCfg) (io : SyncIo) (msg rest : Bytes) (v : Nat) (n : Node) (hm : readU64LE msg = some (v, rest)) (hl : io.lock = true) :
    n.updateEpoch cfg io msg = if UInt64.ofNat v - 1 - 1 ≤ n.currentId then (.ok none, n) else n.syncFrom cfg io (UInt64.ofNat v - 1) n.currentId := by
  unfold Node.updateEpoch
  rw [hm]
  simp only [hl, Bool.true_eq_false, if_false]
  rfl

/-- A commit or a synchronisation done in one go.  A commit finds its transactions in some pool; a synchronisation starts at some
height. -/
inductive Atomic where
  | commit (pool : MemPool) (io : CommitIo) (epochId : UInt64) (pill : Pill) (proof : OverlordProof)
  | sync (io : SyncIo) (rich current : UInt64)

/-- The node after it. -/
def Atomic.apply (cfg : NodeCfg) (n : Node) : Atomic → Node
  | .commit pool io id pill proof => (({ n with pool := pool } : Node).commit cfg { io with lock := true } id pill proof).2
  | .sync io rich current => (n.syncFrom cfg io rich current).2

/-- What it returns. -/
def Atomic.result (cfg : NodeCfg) (n : Node) : Atomic → TaskResult
  | .commit pool io id pill proof => .commit (({ n with pool := pool } : Node).commit cfg { io with lock := true } id pill proof).1
  | .sync io rich current => .sync (n.syncFrom cfg io rich current).1

/-- One after the other. -/
def Atomic.run (cfg : NodeCfg) (n : Node) (ops : List Atomic) : Node := ops.foldl (Atomic.apply cfg) n

/-! ### Operations depend only on the chain part -/

theorem exec_same {cfg : NodeCfg} {root : MerkleRoot} {id : UInt64} {cb : Address} {txs : List SignedTx} {n m : Node} (h : n.Same m) :
    (n.exec cfg root id cb txs).1 = (m.exec cfg root id cb txs).1 ∧ (n.exec cfg root id cb txs).2.Same (m.exec cfg root id cb txs).2 := by
  obtain ⟨s, t, p, st, ex, l⟩ := n
  obtain ⟨s', t', p', st', ex', l'⟩ := m
  obtain ⟨h1, h2, h3, h4⟩ := h
  simp only at h1 h2 h3 h4
  subst h1 h2 h3 h4
  unfold Node.exec
  simp only
  split <;> exact ⟨rfl, rfl, rfl, rfl, rfl⟩

theorem saveProof_same {cfg : NodeCfg} {io : SaveIo} {p : Proof} {n m : Node} (h : n.Same m) :
    (n.saveProof cfg io p).1 = (m.saveProof cfg io p).1 ∧ (n.saveProof cfg io p).2.Same (m.saveProof cfg io p).2 := by
  obtain ⟨h1, h2, h3, h4⟩ := h
  unfold Node.saveProof
  split
  · exact ⟨rfl, by rw [h1], h2, h3, h4⟩
  · exact ⟨rfl, h1, h2, h3, h4⟩

theorem syncStart_same {cfg : NodeCfg} {io : SyncIo} {c : UInt64} {n m : Node} (h : n.Same m) : n.syncStart cfg io c = m.syncStart cfg io c := by
  unfold Node.syncStart; rw [h.store]

theorem updateStatus_same {cfg : NodeCfg} {io : SaveIo} {root : MerkleRoot} {id : UInt64} {ep : Epoch} {p : Proof} {resp : ExecResp}
    {txs : List SignedTx} {n m : Node} (h : n.Same m) : (n.updateStatus cfg io root id ep p resp txs).1 = (m.updateStatus cfg io root id ep p resp txs).1 ∧
    (n.updateStatus cfg io root id ep p resp txs).2.Same (m.updateStatus cfg io root id ep p resp txs).2 := by
  obtain ⟨s, t, p, st, ex, l⟩ := n
  obtain ⟨s', t', p', st', ex', l'⟩ := m
  obtain ⟨h1, h2, h3, h4⟩ := h
  simp only at h1 h2 h3 h4
  subst h1 h2 h3 h4
  unfold Node.updateStatus
  simp only
  split
  · exact ⟨rfl, rfl, rfl, rfl, rfl⟩
  · split
    · exact ⟨rfl, rfl, rfl, rfl, rfl⟩
    · split
      · exact ⟨rfl, rfl, rfl, rfl, rfl⟩
      · exact ⟨rfl, rfl, rfl, rfl, rfl⟩

theorem syncOne_same {cfg : NodeCfg} {io : SyncIo} {k : Nat} {id : UInt64} {ha r : Hash} {n m : Node} (h : n.Same m) :
    (n.syncOne cfg io k id ha r).1 = (m.syncOne cfg io k id ha r).1 ∧ (n.syncOne cfg io k id ha r).2.Same (m.syncOne cfg io k id ha r).2 := by
  unfold Node.syncOne
  split
  · exact ⟨rfl, h⟩
  · rename_i ep _
    split
    · exact ⟨rfl, h⟩
    · obtain ⟨a1, a2⟩ := saveProof_same (cfg := cfg) (io := io.save k) (p := ep.header.proof) h
      generalize n.saveProof cfg (io.save k) ep.header.proof = x at *
      generalize m.saveProof cfg (io.save k) ep.header.proof = y at *
      obtain ⟨x1, x2⟩ := x
      obtain ⟨y1, y2⟩ := y
      simp only at a1 a2
      subst a1
      cases x1 with
      | error e => exact ⟨rfl, a2⟩
      | ok u =>
        simp only
        split
        · exact ⟨rfl, a2⟩
        · rename_i txs _
          obtain ⟨a1, a2⟩ := exec_same (cfg := cfg) (root := r) (id := ep.header.epochId) (cb := .user ep.header.proposer) (txs := txs) a2
          generalize x2.exec cfg r ep.header.epochId (.user ep.header.proposer) txs = x at *
          generalize y2.exec cfg r ep.header.epochId (.user ep.header.proposer) txs = y at *
          obtain ⟨x1, x2⟩ := x
          obtain ⟨y1, y2⟩ := y
          simp only at a1 a2
          subst a1
          cases x1 with
          | error e => exact ⟨rfl, a2⟩
          | ok resp =>
            simp only
            obtain ⟨a1, a2⟩ := updateStatus_same (cfg := cfg) (io := io.save k) (root := r) (id := ep.header.epochId) (ep := ep) (p := ep.header.proof)
              (resp := resp) (txs := txs) a2
            generalize x2.updateStatus cfg (io.save k) r ep.header.epochId ep ep.header.proof resp txs = x at *
            generalize y2.updateStatus cfg (io.save k) r ep.header.epochId ep ep.header.proof resp txs = y at *
            obtain ⟨x1, x2⟩ := x
            obtain ⟨y1, y2⟩ := y
            simp only at a1 a2
            subst a1
            cases x1 <;> exact ⟨rfl, a2⟩

theorem syncLoop_same {cfg : NodeCfg} {io : SyncIo} (ids : List UInt64) : ∀ {k : Nat} {ha r : Hash} {n m : Node}, n.Same m →
    (Node.syncLoop cfg io k ids ha r n).1 = (Node.syncLoop cfg io k ids ha r m).1 ∧
    (Node.syncLoop cfg io k ids ha r n).2.Same (Node.syncLoop cfg io k ids ha r m).2 := by
  induction ids with
  | nil => intro k ha r n m h; exact ⟨rfl, h⟩
  | cons id ids ih =>
    intro k ha r n m h
    simp only [Node.syncLoop]
    obtain ⟨a1, a2⟩ := syncOne_same (cfg := cfg) (io := io) (k := k) (id := id) (ha := ha) (r := r) h
    generalize n.syncOne cfg io k id ha r = x at *
    generalize m.syncOne cfg io k id ha r = y at *
    obtain ⟨x1, x2⟩ := x
    obtain ⟨y1, y2⟩ := y
    simp only at a1 a2
    subst a1
    cases x1 with
    | error e => exact ⟨rfl, a2⟩
    | ok z => obtain ⟨h', r'⟩ := z; exact ih a2

theorem syncFrom_same {cfg : NodeCfg} {io : SyncIo} {rich c : UInt64} {n m : Node} (h : n.Same m) :
    (n.syncFrom cfg io rich c).1 = (m.syncFrom cfg io rich c).1 ∧ (n.syncFrom cfg io rich c).2.Same (m.syncFrom cfg io rich c).2 := by
  unfold Node.syncFrom
  rw [syncStart_same h]
  split
  · exact ⟨rfl, h⟩
  · rename_i ha r _
    obtain ⟨a1, a2⟩ := syncLoop_same (cfg := cfg) (io := io) (syncIds c rich) (k := 1) (ha := ha) (r := r) h
    generalize Node.syncLoop cfg io 1 (syncIds c rich) ha r n = x at *
    generalize Node.syncLoop cfg io 1 (syncIds c rich) ha r m = y at *
    obtain ⟨x1, x2⟩ := x
    obtain ⟨y1, y2⟩ := y
    simp only at a1 a2
    subst a1
    cases x1 with
    | error e => exact ⟨rfl, a2⟩
    | ok u => simp only; split <;> exact ⟨rfl, a2⟩

theorem commitTail_same {cfg : NodeCfg} {io : CommitIo} {id : UInt64} {pill : Pill} {p : Proof} {txs : List SignedTx} {n m : Node} (h : n.Same m) :
    (n.commitTail cfg io id pill p txs).1 = (m.commitTail cfg io id pill p txs).1 ∧
    (n.commitTail cfg io id pill p txs).2.Same (m.commitTail cfg io id pill p txs).2 := by
  obtain ⟨s, t, q, st, ex, l⟩ := n
  obtain ⟨s', t', q', st', ex', l'⟩ := m
  obtain ⟨h1, h2, h3, h4⟩ := h
  simp only at h1 h2 h3 h4
  subst h1 h2 h3 h4
  unfold Node.commitTail
  simp only
  have h0 : (⟨s, t, q.flush pill.epoch.orderedTxHashes, st, ex, l⟩ : Node).Same ⟨s, t, q'.flush pill.epoch.orderedTxHashes, st, ex', l⟩ :=
    ⟨rfl, rfl, rfl, rfl⟩
  obtain ⟨a1, a2⟩ := exec_same (cfg := cfg) (root := st.stateRoot) (id := id) (cb := .user pill.epoch.header.proposer) (txs := txs) h0
  generalize Node.exec cfg st.stateRoot id (.user pill.epoch.header.proposer) txs ⟨s, t, q.flush pill.epoch.orderedTxHashes, st, ex, l⟩ = x at *
  generalize Node.exec cfg st.stateRoot id (.user pill.epoch.header.proposer) txs ⟨s, t, q'.flush pill.epoch.orderedTxHashes, st, ex', l⟩ = y at *
  obtain ⟨x1, x2⟩ := x
  obtain ⟨y1, y2⟩ := y
  simp only at a1 a2
  subst a1
  cases x1 with
  | error e => exact ⟨rfl, a2⟩
  | ok resp =>
    simp only
    obtain ⟨a1, a2⟩ := updateStatus_same (cfg := cfg) (io := io.save) (root := st.stateRoot) (id := id) (ep := pill.epoch) (p := p)
      (resp := resp) (txs := txs) a2
    generalize x2.updateStatus cfg io.save st.stateRoot id pill.epoch p resp txs = x at *
    generalize y2.updateStatus cfg io.save st.stateRoot id pill.epoch p resp txs = y at *
    obtain ⟨x1, x2⟩ := x
    obtain ⟨y1, y2⟩ := y
    simp only at a1 a2
    subst a1
    cases x1 with
    | error e => exact ⟨rfl, a2⟩
    | ok u => simp only; split <;> exact ⟨rfl, a2⟩

theorem commit_same {cfg : NodeCfg} {io : CommitIo} {id : UInt64} {pill : Pill} {proof : OverlordProof} {n m : Node} (h : n.Same m) (pool : MemPool) :
    (({ n with pool := pool } : Node).commit cfg io id pill proof).1 = (({ m with pool := pool } : Node).commit cfg io id pill proof).1 ∧
    (({ n with pool := pool } : Node).commit cfg io id pill proof).2.Same (({ m with pool := pool } : Node).commit cfg io id pill proof).2 := by
  have h0 : ({ n with pool := pool } : Node).Same { m with pool := pool } := ⟨h.store, h.tries, h.status, h.log⟩
  unfold Node.commit
  split
  · exact ⟨rfl, h0⟩
  · split
    · exact ⟨rfl, h0⟩
    · rename_i p _
      rcases saveProof_spec (cfg := cfg) (io := io.save) (p := p) (n := { n with pool := pool }) with ⟨b, e⟩ | ⟨b, e⟩ <;>
      rcases saveProof_spec (cfg := cfg) (io := io.save) (p := p) (n := { m with pool := pool }) with ⟨b', e'⟩ | ⟨b', e'⟩
      · rw [e, e']; exact ⟨rfl, h0⟩
      · rw [b] at b'; cases b'
      · rw [b] at b'; cases b'
      · rw [e, e']
        simp only
        have h1 : ({ n with pool := pool, store := n.store.write (.latestProof p) } : Node).Same { m with pool := pool, store := m.store.write (.latestProof p) } :=
          ⟨by simp only [h.store], h.tries, h.status, h.log⟩
        split
        · exact ⟨rfl, h1⟩
        · split
          · exact ⟨rfl, h1⟩
          · exact commitTail_same h1

theorem apply_same {cfg : NodeCfg} {n m : Node} (h : n.Same m) (op : Atomic) : (op.apply cfg n).Same (op.apply cfg m) ∧ op.result cfg n = op.result cfg m := by
  cases op with
  | commit pool io id pill proof =>
    obtain ⟨a, b⟩ := commit_same (cfg := cfg) (io := { io with lock := true }) (id := id) (pill := pill) (proof := proof) h pool
    exact ⟨b, by simp only [Atomic.result]; rw [a]⟩
  | sync io rich c =>
    obtain ⟨a, b⟩ := syncFrom_same (cfg := cfg) (io := io) (rich := rich) (c := c) h
    exact ⟨b, by simp only [Atomic.result]; rw [a]⟩

/-! ### A section under the engine lock, with any pool operations of other tasks in between -/

/-- From `p` with node `n` to the release of the engine lock: rest `k`, node `m`. -/
inductive Prog.Runs : Prog → Node → Prog → Node → Prop
  | act {f k n n1 k' m} : n.Same n1 → Prog.Runs (k n1) (f n1) k' m → Prog.Runs (.act f k) n k' m
  | unlock {k n m} : n.Same m → Prog.Runs (.unlock .engine k) n k m

/-- Accesses, then the engine lock is released. -/
inductive Prog.Section : Prog → Prop
  | act {f k} : (∀ n, Prog.Section (k n)) → Prog.Section (.act f k)
  | unlock {k} : Prog.Section (.unlock .engine k)

theorem Prog.Runs.congr {p k : Prog} {n n' m : Node} (h : Prog.Runs p n k m) (hs : n.Same n') : Prog.Runs p n' k m := by
  cases h with
  | act a b => exact .act (hs.symm.trans a) b
  | unlock a => exact .unlock (hs.symm.trans a)

theorem runs_end {n m : Node} {k q : Prog} (h : Prog.Runs (.unlock .engine q) n k m) : k = q ∧ n.Same m := by
  cases h with
  | unlock a => exact ⟨rfl, a⟩

theorem runs_write {ok : Bool} {ws : List Write} {fail next k : Prog} {n m : Node}
    (h : Prog.Runs (.write ok (fun n => { n with store := n.store.writes ws }) fail next) n k m) :
    Prog.Runs (if ok then next else fail) (if ok then { n with store := n.store.writes ws } else n) k m := by
  cases h with
  | act a b =>
    cases ok with
    | false => exact b.congr a.symm
    | true => exact b.congr ⟨by simp only [a.store, if_true], a.tries.symm, a.status.symm, a.log.symm⟩

theorem runs_failed {w : Node → Node} {fail next k : Prog} {n m : Node} (h : Prog.Runs (.write false w fail next) n k m) : Prog.Runs fail n k m := by
  cases h with
  | act a b => exact b.congr a.symm

theorem runs_status {cfg : NodeCfg} {root : MerkleRoot} {id : UInt64} {ep : Epoch} {p : Proof} {resp : ExecResp} {txs : List SignedTx} {ws : List Write}
    {fail next k : Prog} {n m : Node}
    (h : Prog.Runs (.write true (fun n => { n with store := n.store.writes ws, log := ⟨id, ep, p, txs, root, resp⟩ :: n.log }) fail
      (.act (fun n => { n with status := n.status.updated cfg id ep p resp }) (fun _ => next))) n k m) :
    Prog.Runs next { n with store := n.store.writes ws, status := n.status.updated cfg id ep p resp, log := ⟨id, ep, p, txs, root, resp⟩ :: n.log } k m := by
  cases h with
  | act a b =>
    simp only [if_true] at b
    cases b with
    | act a' b => exact b.congr ⟨by rw [a.store]; exact a'.store.symm, a.tries ▸ a'.tries.symm, by have := a'.status; simp only at this; rw [a.status, this], by rw [a.log]; exact a'.log.symm⟩

theorem runs_updateStatus {cfg : NodeCfg} {io : SaveIo} {root : MerkleRoot} {id : UInt64} {ep : Epoch} {p : Proof} {resp : ExecResp}
    {txs : List SignedTx} {fail next k : Prog} {n m : Node} (h : Prog.Runs (.updateStatus cfg io root id ep p resp txs fail next) n k m) :
    ((n.updateStatus cfg io root id ep p resp txs).1 = .error .storage ∧ Prog.Runs fail (n.updateStatus cfg io root id ep p resp txs).2 k m) ∨
    ((n.updateStatus cfg io root id ep p resp txs).1 = .ok () ∧ Prog.Runs next (n.updateStatus cfg io root id ep p resp txs).2 k m) := by
  unfold Prog.updateStatus at h
  replace h := runs_write h
  unfold Node.updateStatus
  cases hr : io.receipts with
  | false => rw [hr] at h; exact .inl ⟨rfl, h⟩
  | true =>
    rw [hr] at h
    replace h := runs_write h
    simp only [Bool.true_eq_false, if_false]
    cases ht : io.txs with
    | false => rw [ht] at h; exact .inl ⟨rfl, h⟩
    | true =>
      rw [ht] at h
      replace h := runs_write h
      simp only [Bool.true_eq_false, if_false]
      match he : io.epochWrites with
      | 0 => rw [he] at h; exact .inl ⟨rfl, h⟩
      | 1 => rw [he] at h; replace h := runs_write h; exact .inl ⟨rfl, h⟩
      | 2 => rw [he] at h; replace h := runs_failed (runs_write h); exact .inl ⟨rfl, h⟩
      | e + 3 =>
        rw [he] at h
        have d0 : decide (0 < e + 3) = true := by simp
        have d1 : decide (1 < e + 3) = true := by simp
        have d2 : decide (2 < e + 3) = true := by simp
        simp only [d0, d1, d2] at h
        replace h := runs_status (runs_write h)
        have hlt : ¬ e + 3 < 3 := by omega
        rw [if_neg hlt]
        exact .inr ⟨rfl, by rw [List.take_of_length_le (by simp [StoreOp.writes])]; exact h⟩

theorem runs_exec {cfg : NodeCfg} {root : MerkleRoot} {id : UInt64} {cb : Address} {txs : List SignedTx} {q : Except CErr ExecResp → Prog} {k : Prog}
    {n m : Node} (h : Prog.Runs (.act (fun n => (n.exec cfg root id cb txs).2) (fun n => q (n.exec cfg root id cb txs).1)) n k m) :
    Prog.Runs (q (n.exec cfg root id cb txs).1) (n.exec cfg root id cb txs).2 k m := by
  cases h with
  | act a b =>
    obtain ⟨e1, e2⟩ := exec_same (cfg := cfg) (root := root) (id := id) (cb := cb) (txs := txs) a
    beta_reduce at b
    rw [← e1] at b
    exact b.congr e2.symm

theorem runs_saveProof {cfg : NodeCfg} {io : SaveIo} {p : Proof} {q : Except CErr Unit → Prog} {k : Prog}
    {n m : Node} (h : Prog.Runs (.act (fun n => (n.saveProof cfg io p).2) (fun n => q (n.saveProof cfg io p).1)) n k m) :
    Prog.Runs (q (n.saveProof cfg io p).1) (n.saveProof cfg io p).2 k m := by
  cases h with
  | act a b =>
    obtain ⟨e1, e2⟩ := saveProof_same (cfg := cfg) (io := io) (p := p) a
    beta_reduce at b
    rw [← e1] at b
    exact b.congr e2.symm

theorem runs_commitTail {cfg : NodeCfg} {io : CommitIo} {id : UInt64} {pill : Pill} {p : Proof} {txs : List SignedTx} {k : Prog} {n m : Node}
    (h : Prog.Runs (.commitTail cfg io id pill p txs) n k m) :
    k = .ret (.commit (n.commitTail cfg io id pill p txs).1) ∧ (n.commitTail cfg io id pill p txs).2.Same m := by
  unfold Prog.commitTail at h
  cases h with
  | act a h =>
    rename_i n1
    have a1 : n.Same { n1 with pool := n1.pool.flush pill.epoch.orderedTxHashes } := ⟨a.store, a.tries, a.status, a.log⟩
    replace h := h.congr a1.symm
    cases h with
    | act a2 h =>
      rename_i n2
      replace h := Prog.Runs.congr h a2.symm
      beta_reduce at h
      rw [← a2.status] at h
      replace h := runs_exec (q := fun x => match x with
        | .error e => .endCommit (.error e)
        | .ok resp => .updateStatus cfg io.save n.status.stateRoot id pill.epoch p resp txs (.endCommit (.error .storage))
            (.endCommit (if io.transmit then .ok (id + 1) else .error .network))) h
      have hf : n.Same { n with pool := n.pool.flush pill.epoch.orderedTxHashes } := ⟨rfl, rfl, rfl, rfl⟩
      obtain ⟨e1, e2⟩ := exec_same (cfg := cfg) (root := n.status.stateRoot) (id := id) (cb := .user pill.epoch.header.proposer) (txs := txs) hf
      unfold Node.commitTail
      simp only
      generalize Node.exec cfg n.status.stateRoot id (.user pill.epoch.header.proposer) txs { n with pool := n.pool.flush pill.epoch.orderedTxHashes } = x at *
      generalize Node.exec cfg n.status.stateRoot id (.user pill.epoch.header.proposer) txs n = y at *
      obtain ⟨x1, x2⟩ := x
      obtain ⟨y1, y2⟩ := y
      simp only at e1 e2
      subst e1
      replace h := h.congr e2
      cases y1 with
      | error e => obtain ⟨rfl, b⟩ := runs_end h; exact ⟨rfl, b⟩
      | ok resp =>
        simp only at h
        rcases runs_updateStatus h with ⟨b, h⟩ | ⟨b, h⟩ <;>
        · simp only
          generalize x2.updateStatus cfg io.save n.status.stateRoot id pill.epoch p resp txs = x at *
          obtain ⟨x1, x3⟩ := x
          simp only at b h
          subst b
          obtain ⟨rfl, b⟩ := runs_end h
          first | exact ⟨rfl, b⟩ | (cases io.transmit <;> exact ⟨rfl, b⟩)

/-- The part of `commit` after the lock was taken. -/
theorem runs_commit {cfg : NodeCfg} {io : CommitIo} {id : UInt64} {pill : Pill} {proof : OverlordProof} {body busy k : Prog} {n m : Node}
    (hp : Prog.commit cfg io id pill proof = .lock .engine body busy) (h : Prog.Runs body n k m) :
    ∃ pool, k = .ret ((Atomic.commit pool io id pill proof).result cfg n) ∧ ((Atomic.commit pool io id pill proof).apply cfg n).Same m := by
  unfold Prog.commit at hp
  injection hp with _ hp _
  subst hp
  simp only [Atomic.result, Atomic.apply]
  unfold Node.commit
  simp only [Bool.true_eq_false, if_false]
  cases hq : proof.toProof with
  | none =>
    rw [hq] at h
    obtain ⟨rfl, b⟩ := runs_end h
    exact ⟨n.pool, rfl, ⟨b.store, b.tries, b.status, b.log⟩⟩
  | some p =>
    rw [hq] at h
    simp only at h ⊢
    replace h := runs_saveProof (q := fun x => match x with
        | .error e => .endCommit (.error e)
        | .ok () =>
          if io.alive = false then .endCommit (.error .panic)
          else
            .act _root_.id fun n =>
              match n.pool.getFullTxs pill.epoch.orderedTxHashes with
              | .error e => .endCommit (.error (.mempool e))
              | .ok txs => .commitTail cfg io id pill p txs) h
    have hs (pool : MemPool) : (n.saveProof cfg io.save p).1 = (({ n with pool := pool } : Node).saveProof cfg io.save p).1 ∧
        { (n.saveProof cfg io.save p).2 with pool := pool } = (({ n with pool := pool } : Node).saveProof cfg io.save p).2 := by
      unfold Node.saveProof
      split <;> exact ⟨rfl, rfl⟩
    generalize n.saveProof cfg io.save p = x at *
    obtain ⟨x1, x2⟩ := x
    cases x1 with
    | error e =>
      obtain ⟨rfl, b⟩ := runs_end h
      obtain ⟨e1, e2⟩ := hs n.pool
      refine ⟨n.pool, ?_, ?_⟩ <;>
      · generalize Node.saveProof cfg io.save p _ = y at *
        obtain ⟨y1, y2⟩ := y
        simp only at e1 e2
        subst e1 e2
        first | rfl | exact ⟨b.store, b.tries, b.status, b.log⟩
    | ok u =>
      simp only at h
      split at h
      · rename_i ha
        obtain ⟨rfl, b⟩ := runs_end h
        obtain ⟨e1, e2⟩ := hs n.pool
        refine ⟨n.pool, ?_, ?_⟩ <;>
        · generalize Node.saveProof cfg io.save p _ = y at *
          obtain ⟨y1, y2⟩ := y
          simp only at e1 e2
          subst e1 e2
          simp only [ha, if_true]
          first | done | exact ⟨b.store, b.tries, b.status, b.log⟩
      · rename_i ha
        cases h with
        | act a h =>
          rename_i n2
          obtain ⟨e1, e2⟩ := hs n2.pool
          have hx : ({ x2 with pool := n2.pool } : Node).Same n2 := ⟨a.store, a.tries, a.status, a.log⟩
          refine ⟨n2.pool, ?_⟩
          generalize Node.saveProof cfg io.save p _ = y at *
          obtain ⟨y1, y2⟩ := y
          simp only at e1 e2
          subst e1 e2
          beta_reduce at h
          simp only
          rw [if_neg ha]
          generalize n2.pool.getFullTxs pill.epoch.orderedTxHashes = g at h ⊢
          cases g with
          | error e => obtain ⟨rfl, b⟩ := runs_end h; exact ⟨rfl, hx.trans b⟩
          | ok txs =>
            obtain ⟨b1, b2⟩ := runs_commitTail h
            obtain ⟨c1, c2⟩ := commitTail_same (cfg := cfg) (io := io) (id := id) (pill := pill) (p := p) (txs := txs) hx
            have hl (z : Node) : z.commitTail cfg { io with lock := true } id pill p txs = z.commitTail cfg io id pill p txs := rfl
            simp only
            rw [hl, c1]
            exact ⟨b1, c2.trans b2⟩

theorem runs_syncLoop {cfg : NodeCfg} {io : SyncIo} {next k' : Prog} {m : Node} (ids : List UInt64) : ∀ {k : Nat} {h r : Hash} {n : Node},
    Prog.Runs (.syncLoop cfg io next k ids h r) n k' m →
    (∃ e, (Node.syncLoop cfg io k ids h r n).1 = .error e ∧ k' = .unlock .sync (.ret (.sync (.error e))) ∧ (Node.syncLoop cfg io k ids h r n).2.Same m) ∨
    ((Node.syncLoop cfg io k ids h r n).1 = .ok () ∧ Prog.Runs next (Node.syncLoop cfg io k ids h r n).2 k' m) := by
  induction ids with
  | nil => intro k h r n hr; exact .inr ⟨rfl, hr⟩
  | cons id ids ih =>
    intro k ha r n h
    simp only [Prog.syncLoop] at h
    simp only [Node.syncLoop]
    unfold Prog.syncOne at h
    unfold Node.syncOne
    split at h
    · rename_i hp
      simp only [hp]
      obtain ⟨rfl, b⟩ := runs_end h
      exact .inl ⟨_, rfl, rfl, b⟩
    · rename_i ep hp
      simp only [hp]
      split at h
      · rename_i hc
        rw [if_pos hc]
        obtain ⟨rfl, b⟩ := runs_end h
        exact .inl ⟨_, rfl, rfl, b⟩
      · rename_i hc
        rw [if_neg hc]
        replace h := runs_saveProof (q := fun x => match x with
          | .error e => .endSync (.error e)
          | .ok () =>
            match io.pullTxs k ep.orderedTxHashes with
            | none => .endSync (.error .network)
            | some txs =>
              .act (fun n => (n.exec cfg r ep.header.epochId (.user ep.header.proposer) txs).2) fun n =>
                match (n.exec cfg r ep.header.epochId (.user ep.header.proposer) txs).1 with
                | .error e => .endSync (.error e)
                | .ok resp =>
                  .updateStatus cfg (io.save k) r ep.header.epochId ep ep.header.proof resp txs (.endSync (.error .storage))
                    (Prog.syncLoop cfg io next (k + 1) ids (cfg.epochHash ep) resp.stateRoot)) h
        generalize n.saveProof cfg (io.save k) ep.header.proof = x at *
        obtain ⟨x1, x2⟩ := x
        cases x1 with
        | error e => obtain ⟨rfl, b⟩ := runs_end h; exact .inl ⟨_, rfl, rfl, b⟩
        | ok u =>
          simp only at h ⊢
          split at h
          · rename_i ht
            simp only [ht]
            obtain ⟨rfl, b⟩ := runs_end h
            exact .inl ⟨_, rfl, rfl, b⟩
          · rename_i txs ht
            simp only [ht]
            replace h := runs_exec (q := fun x => match x with
              | .error e => .endSync (.error e)
              | .ok resp =>
                .updateStatus cfg (io.save k) r ep.header.epochId ep ep.header.proof resp txs (.endSync (.error .storage))
                  (Prog.syncLoop cfg io next (k + 1) ids (cfg.epochHash ep) resp.stateRoot)) h
            generalize x2.exec cfg r ep.header.epochId (.user ep.header.proposer) txs = y at *
            obtain ⟨y1, y2⟩ := y
            cases y1 with
            | error e => obtain ⟨rfl, b⟩ := runs_end h; exact .inl ⟨_, rfl, rfl, b⟩
            | ok resp =>
              simp only at h ⊢
              rcases runs_updateStatus h with ⟨b, h⟩ | ⟨b, h⟩
              · generalize y2.updateStatus cfg (io.save k) r ep.header.epochId ep ep.header.proof resp txs = z at *
                obtain ⟨z1, z2⟩ := z
                simp only at b h
                subst b
                obtain ⟨rfl, b⟩ := runs_end h
                exact .inl ⟨_, rfl, rfl, b⟩
              · generalize y2.updateStatus cfg (io.save k) r ep.header.epochId ep ep.header.proof resp txs = z at *
                obtain ⟨z1, z2⟩ := z
                simp only at b h
                subst b
                exact ih h

/-- The part of `update_epoch` after both locks were taken. -/
theorem runs_syncBody {cfg : NodeCfg} {io : SyncIo} {rich current : UInt64} {k : Prog} {n m : Node} (h : Prog.Runs (.syncBody cfg io rich current) n k m) :
    k = .unlock .sync (.ret ((Atomic.sync io rich current).result cfg n)) ∧ ((Atomic.sync io rich current).apply cfg n).Same m := by
  unfold Prog.syncBody at h
  simp only [Atomic.result, Atomic.apply]
  unfold Node.syncFrom
  cases h with
  | act a h =>
    rename_i n1
    replace h := Prog.Runs.congr h a.symm
    beta_reduce at h
    rw [← syncStart_same a] at h
    split at h
    · rename_i e he
      simp only [he]
      obtain ⟨rfl, b⟩ := runs_end h
      exact ⟨rfl, b⟩
    · rename_i ha r he
      simp only [he]
      rcases runs_syncLoop _ h with ⟨e, b, b1, b2⟩ | ⟨b, h⟩
      · generalize Node.syncLoop cfg io 1 (syncIds current rich) ha r n = z at *
        obtain ⟨z1, z2⟩ := z
        simp only at b b2
        subst b
        exact ⟨b1, b2⟩
      · generalize Node.syncLoop cfg io 1 (syncIds current rich) ha r n = z at *
        obtain ⟨z1, z2⟩ := z
        simp only at b h
        subst b
        obtain ⟨rfl, b⟩ := runs_end h
        cases io.send <;> exact ⟨rfl, b⟩

theorem section_write {ok : Bool} {w : Node → Node} {fail next : Prog} (h1 : fail.Section) (h2 : next.Section) : (Prog.write ok w fail next).Section := by
  refine .act (fun _ => ?_)
  cases ok
  · exact h1
  · exact h2

theorem section_updateStatus {cfg : NodeCfg} {io : SaveIo} {root : MerkleRoot} {id : UInt64} {ep : Epoch} {p : Proof} {resp : ExecResp}
    {txs : List SignedTx} {fail next : Prog} (h1 : fail.Section) (h2 : next.Section) : (Prog.updateStatus cfg io root id ep p resp txs fail next).Section :=
  section_write h1 (section_write h1 (section_write h1 (section_write h1 (section_write h1 (.act fun _ => h2)))))

theorem section_commitTail {cfg : NodeCfg} {io : CommitIo} {id : UInt64} {pill : Pill} {p : Proof} {txs : List SignedTx} :
    (Prog.commitTail cfg io id pill p txs).Section := by
  refine .act fun _ => .act fun n0 => .act fun n => ?_
  split
  · exact .unlock
  · exact section_updateStatus .unlock .unlock

theorem section_commit {cfg : NodeCfg} {io : CommitIo} {id : UInt64} {pill : Pill} {proof : OverlordProof} {body busy : Prog}
    (hp : Prog.commit cfg io id pill proof = .lock .engine body busy) : body.Section := by
  unfold Prog.commit at hp
  injection hp with _ hp _
  subst hp
  split
  · exact .unlock
  · refine .act fun n => ?_
    split
    · exact .unlock
    · split
      · exact .unlock
      · refine .act fun n => ?_
        split
        · exact .unlock
        · exact section_commitTail

theorem section_syncLoop {cfg : NodeCfg} {io : SyncIo} {next : Prog} (hn : next.Section) (ids : List UInt64) : ∀ (k : Nat) (h r : Hash),
    (Prog.syncLoop cfg io next k ids h r).Section := by
  induction ids with
  | nil => intro k h r; exact hn
  | cons id ids ih =>
    intro k h r
    simp only [Prog.syncLoop]
    unfold Prog.syncOne
    split
    · exact .unlock
    · split
      · exact .unlock
      · refine .act fun n => ?_
        split
        · exact .unlock
        · split
          · exact .unlock
          · refine .act fun n => ?_
            split
            · exact .unlock
            · exact section_updateStatus .unlock (ih _ _ _)

theorem section_syncBody {cfg : NodeCfg} {io : SyncIo} {rich current : UInt64} : (Prog.syncBody cfg io rich current).Section := by
  refine .act fun n => ?_
  split
  · exact .unlock
  · exact section_syncLoop .unlock _ _ _ _

/-! ### Tasks that work on the pool only -/

/-- A result of a commit or a synchronisation. -/
def TaskResult.chain : TaskResult → Bool
  | .commit _ => true
  | .sync _ => true
  | _ => false

/-- A task that takes no lock, and changes only the pool and the node's own proposals. -/
inductive Prog.Pooly : Prog → Prop
  | ret {r : TaskResult} : r.chain = false → Prog.Pooly (.ret r)
  | act {f k} : (∀ n : Node, n.Same (f n)) → (∀ n, Prog.Pooly (k n)) → Prog.Pooly (.act f k)

theorem Prog.Pooly.look {k : Node → Prog} (h : ∀ n, (k n).Pooly) : (Prog.act id k).Pooly := .act (fun n => .refl n) h

theorem Prog.Pooly.test {E : Type} {c : Node → Except E Unit} {fail : E → Prog} {next : Prog} (h1 : ∀ e, (fail e).Pooly) (h2 : next.Pooly) :
    (Prog.test c fail next).Pooly := by
  refine .look fun n => ?_
  split
  · exact h1 _
  · exact h2

theorem Prog.Pooly.each {f : SignedTx → Node → Node} {next : Prog} (hf : ∀ tx n, Node.Same n (f tx n)) (h : next.Pooly) (txs : List SignedTx) :
    (Prog.each f next txs).Pooly := by
  induction txs with
  | nil => exact h
  | cons tx txs ih => exact .act (hf tx) fun _ => ih

theorem pooly_insert (cfg : NodeCfg) (o b : Bool) (tx : SignedTx) : (Prog.insert cfg o b tx).Pooly := by
  refine .test (fun _ => .ret rfl) <| .test (fun _ => .ret rfl) <| .test (fun _ => .ret rfl) <| .test (fun _ => .ret rfl) <| .test (fun _ => .ret rfl) ?_
  refine .act (fun _ => ⟨rfl, rfl, rfl, rfl⟩) fun n => ?_
  split <;> exact .ret rfl

theorem pooly_propose (cfg : NodeCfg) (now id : UInt64) : (Prog.propose cfg now id).Pooly := by
  refine .look fun n0 => .look fun n1 => ?_
  split
  · exact .ret rfl
  · refine .act (fun _ => ⟨rfl, rfl, rfl, rfl⟩) fun n => ?_
    split
    · exact .ret rfl
    · split
      · exact .ret rfl
      · exact .act (fun _ => ⟨rfl, rfl, rfl, rfl⟩) fun _ => .ret rfl

theorem pooly_check (p1 p2 : List Hash → Option (List SignedTx)) (hash : Bytes) (pill : Pill) : (Prog.check p1 p2 hash pill).Pooly := by
  have hf (o : List Hash) : (Prog.full o).Pooly := .look fun _ => .ret rfl
  refine .look fun n => ?_
  split
  · exact hf _
  · refine .look fun n => ?_
    have he : (Prog.ensure p2 pill.epoch.orderedTxHashes (.full pill.epoch.orderedTxHashes)).Pooly := by
      refine .look fun n => ?_
      simp only
      split
      · exact hf _
      · split
        · exact .ret rfl
        · split
          · exact .ret rfl
          · refine .each (fun _ _ => ?_) (hf _) _; exact ⟨rfl, rfl, rfl, rfl⟩
    simp only
    split
    · exact he
    · split
      · exact .ret rfl
      · refine .each (fun _ _ => ?_) he _; exact ⟨rfl, rfl, rfl, rfl⟩

/-! ### Specification of C41 and C63 -/

/-- The operation is the one task `t` was called for. -/
def Atomic.CalledIn (evs : List Event) (t : Nat) : Atomic → Prop
  | .commit _ io id pill proof => Event.callCommit t io id pill proof ∈ evs
  | .sync io rich _ => ∃ msg v rest, Event.callSync t io msg ∈ evs ∧ readU64LE msg = some (v, rest) ∧ rich = UInt64.ofNat v - 1

/-- Operations of tasks, one after the other. -/
def runAll (cfg : NodeCfg) (n : Node) (ops : List (Nat × Atomic)) : Node := Atomic.run cfg n (ops.map (·.2))

/-- The result of a task: it was turned away (a lock was taken, nothing to do, malformed message), or it is that of its operation. -/
def Explained (cfg : NodeCfg) (n : Node) (ops : List (Nat × Atomic)) (t : Nat) (r : TaskResult) : Prop :=
  r = .commit (.error .lockInSync) ∨ r = .sync (.ok none) ∨ r = .sync (.error .decode) ∨
  ∃ pre op post, ops = pre ++ (t, op) :: post ∧ r = op.result cfg (runAll cfg n pre)

/-- A synchronisation that starts at the latest height. -/
def Atomic.Current (n : Node) : Atomic → Prop
  | .commit _ _ _ _ _ => True
  | .sync _ rich current => current = n.currentId ∧ ¬ rich - 1 ≤ current

/-- At no time one task holds the engine lock and another one the lock for synchronisations. -/
def Apart (cfg : NodeCfg) (n : Node) (evs : List Event) : Prop :=
  ∀ pre post, evs = pre ++ post → ∀ t t', (Conf.after cfg n pre).held .engine = some t → (Conf.after cfg n pre).held .sync = some t' → t = t'

/-! ### The invariant -/

theorem currentId_same {n m : Node} (h : n.Same m) : n.currentId = m.currentId := by unfold Node.currentId; rw [h.store]

theorem Apart.left {cfg : NodeCfg} {n : Node} {evs : List Event} {e : Event} (h : Apart cfg n (evs ++ [e])) : Apart cfg n evs :=
  fun pre post hp => h pre (post ++ [e]) (by rw [hp, List.append_assoc])

theorem Apart.last {cfg : NodeCfg} {n : Node} {evs : List Event} (h : Apart cfg n evs) {t t' : Nat} (h1 : (Conf.after cfg n evs).held .engine = some t)
    (h2 : (Conf.after cfg n evs).held .sync = some t') : t = t' := h evs [] (by simp) t t' h1 h2

/-- The rest of `update_epoch` after its first lock. -/
def Prog.look (cfg : NodeCfg) (io : SyncIo) (v : Nat) : Prog :=
  .act id fun n =>
    if UInt64.ofNat v - 1 - 1 ≤ n.currentId then .unlock .sync (.ret (.sync (.ok none)))
    else
      .lock .engine (.syncBody cfg io (UInt64.ofNat v - 1) n.currentId)
        (.unlock .sync (.ret (.sync (.ok none))))

/-- What the task's operation can be. -/
def OpOk (cfg : NodeCfg) (n0 : Node) (evs : List Event) (t : Nat) (n : Node) (op : Atomic) : Prop :=
  op.CalledIn evs t ∧ (Apart cfg n0 evs → op.Current n)

/-- A task in a process. -/
inductive TaskOk (cfg : NodeCfg) (n0 : Node) (evs : List Event) (ops : List (Nat × Atomic)) (node : Node) (t : Nat) (h : Lock → Bool) : Option Prog → Prop
  | none : h .engine = false → h .sync = false → TaskOk cfg n0 evs ops node t h none
  | pool {p} : h .engine = false → h .sync = false → p.Pooly → TaskOk cfg n0 evs ops node t h (some p)
  | commit {io id pill proof} : h .engine = false → h .sync = false → Event.callCommit t io id pill proof ∈ evs →
      TaskOk cfg n0 evs ops node t h (some (.commit cfg io id pill proof))
  | sync {io msg} : h .engine = false → h .sync = false → Event.callSync t io msg ∈ evs → TaskOk cfg n0 evs ops node t h (some (.sync cfg io msg))
  | ret {r} : h .engine = false → h .sync = false → Explained cfg n0 ops t r → TaskOk cfg n0 evs ops node t h (some (.ret r))
  | leave {r} : h .engine = false → h .sync = true → Explained cfg n0 ops t r → TaskOk cfg n0 evs ops node t h (some (.unlock .sync (.ret r)))
  | look {io msg v rest} : h .engine = false → h .sync = true → Event.callSync t io msg ∈ evs → readU64LE msg = some (v, rest) →
      TaskOk cfg n0 evs ops node t h (some (.look cfg io v))
  | wait {io msg v rest cur} : h .engine = false → h .sync = true → Event.callSync t io msg ∈ evs → readU64LE msg = some (v, rest) →
      ¬ UInt64.ofNat v - 1 - 1 ≤ cur → (Apart cfg n0 evs → cur = node.currentId) →
      TaskOk cfg n0 evs ops node t h (some (.lock .engine (.syncBody cfg io (UInt64.ofNat v - 1) cur) (.unlock .sync (.ret (.sync (.ok none))))))
  | inside {p} : h .engine = true → p.Section →
      (∀ k m, Prog.Runs p node k m → ∃ op, OpOk cfg n0 evs t (runAll cfg n0 ops) op ∧ (op.apply cfg (runAll cfg n0 ops)).Same m ∧
        ((k = .ret (op.result cfg (runAll cfg n0 ops)) ∧ h .sync = false) ∨ (k = .unlock .sync (.ret (op.result cfg (runAll cfg n0 ops))) ∧ h .sync = true))) →
      TaskOk cfg n0 evs ops node t h (some p)

/-- What holds of a process at all times. -/
structure LockInv (cfg : NodeCfg) (n0 : Node) (evs : List Event) (c : Conf) (ops : List (Nat × Atomic)) : Prop where
  free : c.held .engine = none → (runAll cfg n0 ops).Same c.node
  task : ∀ t, TaskOk cfg n0 evs ops c.node t (fun l => decide (c.held l = some t)) (c.tasks t)
  ops : ∀ pre x post, ops = pre ++ x :: post → OpOk cfg n0 evs x.1 (runAll cfg n0 pre) x.2

theorem Explained.mono {cfg : NodeCfg} {n : Node} {ops : List (Nat × Atomic)} {t : Nat} {r : TaskResult} (h : Explained cfg n ops t r) (x : Nat × Atomic) :
    Explained cfg n (ops ++ [x]) t r := by
  rcases h with h | h | h | ⟨pre, op, post, h, hr⟩
  · exact .inl h
  · exact .inr (.inl h)
  · exact .inr (.inr (.inl h))
  · exact .inr (.inr (.inr ⟨pre, op, post ++ [x], by rw [h]; simp, hr⟩))

theorem Atomic.CalledIn.mono {evs : List Event} {t : Nat} {op : Atomic} (h : op.CalledIn evs t) (e : Event) : op.CalledIn (evs ++ [e]) t := by
  cases op with
  | commit pool io id pill proof => exact List.mem_append_left _ h
  | sync io rich cur => obtain ⟨msg, v, rest, h1, h2, h3⟩ := h; exact ⟨msg, v, rest, List.mem_append_left _ h1, h2, h3⟩

theorem OpOk.mono {cfg : NodeCfg} {n0 : Node} {evs : List Event} {t : Nat} {n : Node} {op : Atomic} (h : OpOk cfg n0 evs t n op) (e : Event) :
    OpOk cfg n0 (evs ++ [e]) t n op := ⟨h.1.mono e, fun ha => h.2 ha.left⟩

/-- A task that does not move, while the chain part stays. -/
theorem TaskOk.frame {cfg : NodeCfg} {n0 : Node} {evs : List Event} {ops : List (Nat × Atomic)} {node node' : Node} {t : Nat} {h : Lock → Bool} {p : Option Prog}
    (hk : TaskOk cfg n0 evs ops node t h p) (e : Event) (hs : node.Same node') : TaskOk cfg n0 (evs ++ [e]) ops node' t h p := by
  cases hk with
  | none a b => exact .none a b
  | pool a b c => exact .pool a b c
  | commit a b c => exact .commit a b (List.mem_append_left _ c)
  | sync a b c => exact .sync a b (List.mem_append_left _ c)
  | ret a b c => exact .ret a b c
  | leave a b c => exact .leave a b c
  | look a b c d => exact .look a b (List.mem_append_left _ c) d
  | wait a b c d i j => exact .wait a b (List.mem_append_left _ c) d i (fun ha => (j ha.left).trans (currentId_same hs))
  | inside a b c =>
    refine .inside a b fun k m hr => ?_
    obtain ⟨op, h1, h2, h3⟩ := c k m (hr.congr hs.symm)
    exact ⟨op, h1.mono e, h2, h3⟩

/-- A task that does not move, while the holder of the engine lock makes a change or leaves. -/
theorem TaskOk.frame' {cfg : NodeCfg} {n0 : Node} {evs : List Event} {ops ops' : List (Nat × Atomic)} {node node' : Node} {t : Nat} {h : Lock → Bool}
    {p : Option Prog} (hk : TaskOk cfg n0 evs ops node t h p) (e : Event) (ho : ops' = ops ∨ ∃ x, ops' = ops ++ [x]) (he : h .engine = false)
    (hn : h .sync = true → ¬ Apart cfg n0 evs) : TaskOk cfg n0 (evs ++ [e]) ops' node' t h p := by
  have hx {r} (hx : Explained cfg n0 ops t r) : Explained cfg n0 ops' t r := by
    rcases ho with rfl | ⟨x, rfl⟩
    · exact hx
    · exact hx.mono x
  cases hk with
  | none a b => exact .none a b
  | pool a b c => exact .pool a b c
  | commit a b c => exact .commit a b (List.mem_append_left _ c)
  | sync a b c => exact .sync a b (List.mem_append_left _ c)
  | ret a b c => exact .ret a b (hx c)
  | leave a b c => exact .leave a b (hx c)
  | look a b c d => exact .look a b (List.mem_append_left _ c) d
  | wait a b c d i j => exact .wait a b (List.mem_append_left _ c) d i (fun ha => absurd ha.left (hn b))
  | inside a b c => rw [he] at a; cases a

theorem runAll_snoc (cfg : NodeCfg) (n : Node) (ops : List (Nat × Atomic)) (x : Nat × Atomic) : runAll cfg n (ops ++ [x]) = x.2.apply cfg (runAll cfg n ops) := by
  simp [runAll, Atomic.run]

theorem snoc_split {α : Type} {l : List α} {a b : α} {pre post : List α} (h : l ++ [a] = pre ++ b :: post) :
    (∃ post', l = pre ++ b :: post' ∧ post = post' ++ [a]) ∨ (l = pre ∧ a = b) := by
  rcases List.eq_nil_or_concat post with rfl | ⟨post', z, rfl⟩
  · have := List.append_inj' h (by simp)
    exact .inr ⟨this.1, by simpa using this.2⟩
  · rw [List.concat_eq_append] at h ⊢
    have h' : l ++ [a] = (pre ++ b :: post') ++ [z] := by rw [h]; simp
    have := List.append_inj' h' (by simp)
    have hz : a = z := by simpa using this.2
    exact .inl ⟨post', this.1, by rw [hz]⟩

/-- The locks a task holds. -/
def Conf.holds (c : Conf) (t : Nat) : Lock → Bool := fun l => decide (c.held l = some t)

/-- Task `t` moves; the chain part stays. -/
theorem LockInv.move {cfg : NodeCfg} {n0 : Node} {evs : List Event} {c c' : Conf} {ops : List (Nat × Atomic)} (I : LockInv cfg n0 evs c ops) (e : Event) (t : Nat)
    (hs : c.node.Same c'.node) (hh : ∀ t', t' ≠ t → c'.holds t' = c.holds t') (ht : ∀ t', t' ≠ t → c'.tasks t' = c.tasks t')
    (hf : c'.held .engine = none → c.held .engine = none) (hp : TaskOk cfg n0 (evs ++ [e]) ops c'.node t (c'.holds t) (c'.tasks t)) :
    LockInv cfg n0 (evs ++ [e]) c' ops where
  free h := (I.free (hf h)).trans hs
  task t' := by
    by_cases h : t' = t
    · subst h; exact hp
    · have := (I.task t').frame e hs
      change TaskOk cfg n0 (evs ++ [e]) ops c'.node t' (c.holds t') (c.tasks t') at this
      rw [← hh t' h, ← ht t' h] at this
      exact this
  ops pre x post h := (I.ops pre x post h).mono e

theorem LockInv.step {cfg : NodeCfg} {n0 : Node} {evs : List Event} {ops : List (Nat × Atomic)} (I : LockInv cfg n0 evs (Conf.after cfg n0 evs) ops) (e : Event) :
    ∃ ops', LockInv cfg n0 (evs ++ [e]) (Conf.after cfg n0 (evs ++ [e])) ops' := by
  have hstep : Conf.after cfg n0 (evs ++ [e]) = (Conf.after cfg n0 evs).step cfg e := by simp [Conf.after]
  have hlast := fun (h : Apart cfg n0 evs) t t' h1 h2 => h.last (t := t) (t' := t') h1 h2
  rw [hstep]
  generalize Conf.after cfg n0 evs = c at I hlast ⊢
  have hset (c : Conf) (t : Nat) (p : Option Prog) : (c.setTask t p).tasks t = p := by simp [Conf.setTask]
  have hset' (c : Conf) (t t' : Nat) (p : Option Prog) (h : t' ≠ t) : (c.setTask t p).tasks t' = c.tasks t' := by simp [Conf.setTask, h]
  have stay : LockInv cfg n0 (evs ++ [e]) c ops :=
    ⟨I.free, fun t => (I.task t).frame e (.refl _), fun pre x post h => (I.ops pre x post h).mono e⟩
  -- a task starts
  have start {t : Nat} {p : Prog} (hp : ∀ h : Lock → Bool, h .engine = false → h .sync = false → TaskOk cfg n0 (evs ++ [e]) ops c.node t h (some p)) :
      ∃ ops', LockInv cfg n0 (evs ++ [e]) (c.start t p) ops' := by
    unfold Conf.start
    split
    · rename_i hn
      have ht := I.task t
      cases hq : c.tasks t with
      | some p => rw [hq] at hn; cases hn
      | none =>
        rw [hq] at ht
        cases ht with
        | none a b => exact ⟨ops, I.move _ t (.refl _) (fun _ _ => rfl) (fun t' h => hset' c t t' _ h) (fun h => h) (by rw [hset]; exact hp _ a b)⟩
    · exact ⟨ops, stay⟩
  cases e with
  | callCommit t io id pill proof => exact start fun h a b => .commit a b (by simp)
  | callSync t io msg => exact start fun h a b => .sync a b (by simp)
  | callInsert t o b tx => exact start fun h a b' => .pool a b' (pooly_insert ..)
  | callPropose t now id => exact start fun h a b => .pool a b (pooly_propose ..)
  | callCheck t p1 p2 hash pill => exact start fun h a b => .pool a b (pooly_check ..)
  | run t =>
    -- locks of the others
    have hlk (l : Lock) (x : Option Nat) (t' : Nat) (h1 : x ≠ some t') (h2 : c.held l ≠ some t') (p : Option Prog) :
        ((c.setLock l x).setTask t p).holds t' = c.holds t' := by
      funext l'
      simp only [Conf.holds, Conf.setTask, Conf.setLock]
      by_cases hl : l' = l
      · subst hl; simp [h1, h2]
      · simp [hl]
    have hown (l : Lock) (x : Option Nat) (p : Option Prog) (l' : Lock) : ((c.setLock l x).setTask t p).holds t l' = if l' = l then decide (x = some t) else c.holds t l' := by
      simp only [Conf.holds, Conf.setTask, Conf.setLock]
      by_cases hl : l' = l
      · subst hl; simp
      · simp [hl]
    have ht := I.task t
    change TaskOk cfg n0 evs ops c.node t (c.holds t) (c.tasks t) at ht
    cases hq : c.tasks t with
    | none => simp only [Conf.step, hq]; exact ⟨ops, stay⟩
    | some p =>
      rw [hq] at ht
      cases ht with
      | pool a b hp =>
        cases hp with
        | ret hr =>
          simp only [Conf.step, hq]
          refine ⟨ops, I.move _ t (.refl _) (fun _ _ => rfl) (fun t' h => hset' c t t' _ h) (fun h => h) ?_⟩
          rw [hset]
          exact .none a b
        | act hf hk =>
          simp only [Conf.step, hq]
          refine ⟨ops, I.move _ t (hf _) (fun _ _ => rfl) (fun t' h => ?_) (fun h => h) ?_⟩
          · rw [hset' _ t t' _ h]
          · rw [hset]; exact .pool a b (hk _)
      | commit a b hm =>
        rename_i io id pill proof
        -- takes the engine lock, or is turned away
        have hshape : ∃ body busy, Prog.commit cfg io id pill proof = .lock .engine body busy ∧ busy = .ret (.commit (.error .lockInSync)) := ⟨_, _, rfl, rfl⟩
        obtain ⟨body, busy, hb, hbusy⟩ := hshape
        simp only [Conf.step, hq, hb]
        split
        · rename_i hfree
          rw [Option.isNone_iff_eq_none] at hfree
          refine ⟨ops, I.move _ t (.refl _) (fun t' h => hlk .engine _ t' (by simp [Ne.symm h]) (by simp [hfree]) _) (fun t' h => ?_) (fun h => ?_) ?_⟩
          · rw [hset' _ t t' _ h]; rfl
          · simp [Conf.setTask, Conf.setLock] at h
          · rw [hset]
            refine .inside (by rw [hown]; simp) (section_commit hb) fun k m hr => ?_
            obtain ⟨pool, h1, h2⟩ := runs_commit hb (hr.congr (I.free hfree).symm)
            refine ⟨.commit pool io id pill proof, ⟨?_, fun _ => trivial⟩, h2, .inl ⟨h1, ?_⟩⟩
            · exact List.mem_append_left _ hm
            · rw [hown]; simpa using b
        · refine ⟨ops, I.move _ t (.refl _) (fun _ _ => rfl) (fun t' h => hset' c t t' _ h) (fun h => h) ?_⟩
          rw [hset, hbusy]
          exact .ret a b (.inl rfl)
      | sync a b hm =>
        rename_i io msg
        have hshape : ∃ body, Prog.sync cfg io msg = .lock .sync body (.ret (.sync (.ok none))) ∧
            ((body = .unlock .sync (.ret (.sync (.error .decode)))) ∨ ∃ v rest, readU64LE msg = some (v, rest) ∧ body = .look cfg io v) := by
          refine ⟨_, rfl, ?_⟩
          cases hr : readU64LE msg with
          | none => exact .inl rfl
          | some y => obtain ⟨v, rest⟩ := y; exact .inr ⟨v, rest, rfl, rfl⟩
        obtain ⟨body, hb, hbody⟩ := hshape
        simp only [Conf.step, hq, hb]
        split
        · rename_i hfree
          rw [Option.isNone_iff_eq_none] at hfree
          have hE : ((c.setLock .sync (some t)).setTask t (some body)).holds t .engine = false := by rw [hown]; simpa using a
          have hS : ((c.setLock .sync (some t)).setTask t (some body)).holds t .sync = true := by rw [hown]; simp
          refine ⟨ops, I.move _ t (.refl _) (fun t' h => hlk .sync _ t' (by simp [Ne.symm h]) (by simp [hfree]) _) (fun t' h => ?_) (fun h => ?_) ?_⟩
          · rw [hset' _ t t' _ h]; rfl
          · simpa [Conf.setTask, Conf.setLock] using h
          · rw [hset]
            rcases hbody with rfl | ⟨v, rest, hr, rfl⟩
            · exact .leave hE hS (.inr (.inr (.inl rfl)))
            · exact .look hE hS (List.mem_append_left _ hm) hr
        · refine ⟨ops, I.move _ t (.refl _) (fun _ _ => rfl) (fun t' h => hset' c t t' _ h) (fun h => h) ?_⟩
          rw [hset]
          exact .ret a b (.inr (.inl rfl))
      | ret a b hx =>
        simp only [Conf.step, hq]
        refine ⟨ops, I.move _ t (.refl _) (fun _ _ => rfl) (fun t' h => hset' c t t' _ h) (fun h => h) ?_⟩
        rw [hset]
        exact .none a b
      | leave a b hx =>
        simp only [Conf.step, hq]
        have hheld : c.held .sync = some t := by simpa [Conf.holds] using b
        refine ⟨ops, I.move _ t (.refl _) (fun t' h => hlk .sync _ t' (by simp) (by rw [hheld]; simp [Ne.symm h]) _) (fun t' h => ?_) (fun h => ?_) ?_⟩
        · rw [hset' _ t t' _ h]; rfl
        · simpa [Conf.setTask, Conf.setLock] using h
        · rw [hset]
          exact .ret (by rw [hown]; simpa using a) (by rw [hown]; simp) hx
      | look a b hm hr =>
        rename_i io msg v rest
        simp only [Conf.step, hq, Prog.look]
        refine ⟨ops, I.move _ t (.refl _) (fun _ _ => rfl) (fun t' h => ?_) (fun h => h) ?_⟩
        · rw [hset' _ t t' _ h]
        · rw [hset]
          by_cases hv : UInt64.ofNat v - 1 - 1 ≤ c.node.currentId
          · rw [if_pos hv]; exact .leave a b (.inr (.inl rfl))
          · rw [if_neg hv]; exact .wait a b (List.mem_append_left _ hm) hr hv (fun _ => rfl)
      | wait a b hm hr hv hc =>
        rename_i io msg v rest cur
        simp only [Conf.step, hq]
        split
        · rename_i hfree
          rw [Option.isNone_iff_eq_none] at hfree
          refine ⟨ops, I.move _ t (.refl _) (fun t' h => hlk .engine _ t' (by simp [Ne.symm h]) (by simp [hfree]) _) (fun t' h => ?_) (fun h => ?_) ?_⟩
          · rw [hset' _ t t' _ h]; rfl
          · simp [Conf.setTask, Conf.setLock] at h
          · rw [hset]
            refine .inside (by rw [hown]; simp) section_syncBody fun k m hr' => ?_
            obtain ⟨h1, h2⟩ := runs_syncBody (hr'.congr (I.free hfree).symm)
            refine ⟨.sync io (UInt64.ofNat v - 1) cur, ⟨⟨msg, v, rest, List.mem_append_left _ hm, hr, rfl⟩, fun ha => ⟨?_, hv⟩⟩, h2, .inr ⟨h1, ?_⟩⟩
            · exact (hc ha.left).trans (currentId_same (I.free hfree)).symm
            · rw [hown]; simpa using b
        · refine ⟨ops, I.move _ t (.refl _) (fun _ _ => rfl) (fun t' h => hset' c t t' _ h) (fun h => h) ?_⟩
          rw [hset]
          exact .leave a b (.inr (.inl rfl))
      | inside a hsec hout =>
        have hheld : c.held .engine = some t := by simpa [Conf.holds] using a
        have hE' (t' : Nat) (h : t' ≠ t) : c.holds t' .engine = false := by simp [Conf.holds, hheld, Ne.symm h]
        have hap (t' : Nat) (h : t' ≠ t) : c.holds t' .sync = true → ¬ Apart cfg n0 evs := by
          intro hs ha
          exact h (hlast ha t t' hheld (by simpa [Conf.holds] using hs)).symm
        cases hsec with
        | act hk =>
          rename_i f k
          simp only [Conf.step, hq]
          refine ⟨ops, fun h => ?_, fun t' => ?_, fun pre x post h => (I.ops pre x post h).mono _⟩
          · change c.held .engine = none at h; rw [hheld] at h; cases h
          · by_cases h : t' = t
            · subst h
              rw [hset]
              refine .inside a (hk _) fun k' m hr => ?_
              obtain ⟨op, h1, h2, h3⟩ := hout k' m (.act (.refl _) hr)
              exact ⟨op, h1.mono _, h2, h3⟩
            · rw [hset' _ t t' _ h]
              exact (I.task t').frame' _ (.inl rfl) (hE' t' h) (hap t' h)
        | unlock =>
          rename_i k
          obtain ⟨op, h1, h2, h3⟩ := hout k c.node (.unlock (.refl _))
          simp only [Conf.step, hq]
          refine ⟨ops ++ [(t, op)], fun _ => ?_, fun t' => ?_, fun pre x post h => ?_⟩
          · rw [runAll_snoc]; exact h2
          · change TaskOk cfg n0 _ _ _ t' (((c.setLock .engine none).setTask t (some k)).holds t') _
            by_cases h : t' = t
            · subst h
              have hx : Explained cfg n0 (ops ++ [(t', op)]) t' (op.result cfg (runAll cfg n0 ops)) :=
                .inr (.inr (.inr ⟨ops, op, [], rfl, rfl⟩))
              rw [hset]
              rcases h3 with ⟨rfl, hs⟩ | ⟨rfl, hs⟩
              · exact .ret (by rw [hown]; simp) (by rw [hown]; simpa using hs) hx
              · exact .leave (by rw [hown]; simp) (by rw [hown]; simpa using hs) hx
            · rw [hset' _ t t' _ h, hlk .engine none t' (by simp) (by rw [hheld]; simp [Ne.symm h])]
              exact (I.task t').frame' _ (.inr ⟨_, rfl⟩) (hE' t' h) (hap t' h)
          · rcases snoc_split h with ⟨post', h', _⟩ | ⟨h', hx⟩
            · exact (I.ops pre x post' h').mono _
            · subst h' hx; exact h1.mono _

theorem lockInv (cfg : NodeCfg) (n0 : Node) (evs : List Event) : ∃ ops, LockInv cfg n0 evs (Conf.after cfg n0 evs) ops := by
  have snoc : ∀ l : List Event, ∃ ops, LockInv cfg n0 l.reverse (Conf.after cfg n0 l.reverse) ops := by
    intro l
    induction l with
    | nil => exact ⟨[], fun _ => .refl _, fun t => .none rfl rfl, fun pre x post h => by simp at h⟩
    | cons e l ih => obtain ⟨ops, I⟩ := ih; rw [List.reverse_cons]; exact I.step e
  simpa using snoc evs.reverse

/-! ### C41 -/

theorem start_same (c : Conf) (t : Nat) (p : Prog) : c.node.Same (c.start t p).node := by
  unfold Conf.start; split <;> exact .refl _

/-- C41: in every interleaving of commits, synchronisations, insertions, proposals and checks of proposals, cut at every access to shared data, (1) only the task that holds the engine lock changes
the stored data, the state database, the status or the record; (2) there is an order of the operations done by tasks, such that
whenever the lock is free the chain part of the node is what these operations make when done one after the other, and every commit
and every synchronisation that returns either was turned away or returns what its operation returns in that order. -/
theorem C41_serialised (cfg : NodeCfg) (n : Node) (evs : List Event) :
    (∀ e, ¬ (Conf.after cfg n evs).node.Same ((Conf.after cfg n evs).step cfg e).node → ∃ t, e = .run t ∧ (Conf.after cfg n evs).held .engine = some t) ∧
    ∃ ops : List (Nat × Atomic), (∀ x ∈ ops, x.2.CalledIn evs x.1) ∧
      ((Conf.after cfg n evs).held .engine = none → (runAll cfg n ops).Same (Conf.after cfg n evs).node) ∧
      ∀ t r, (Conf.after cfg n evs).tasks t = some (.ret r) → r.chain = true → Explained cfg n ops t r := by
  obtain ⟨ops, I⟩ := lockInv cfg n evs
  generalize Conf.after cfg n evs = c at I ⊢
  refine ⟨fun e hne => ?_, ops, fun x hx => ?_, I.free, fun t r hr hc => ?_⟩
  · cases e with
    | callCommit t io id pill proof => exact absurd (start_same _ _ _) hne
    | callSync t io msg => exact absurd (start_same _ _ _) hne
    | callInsert t o b tx => exact absurd (start_same _ _ _) hne
    | callPropose t now id => exact absurd (start_same _ _ _) hne
    | callCheck t p1 p2 hash pill => exact absurd (start_same _ _ _) hne
    | run t =>
      refine ⟨t, rfl, ?_⟩
      have ht := I.task t
      cases hq : c.tasks t with
      | none => simp only [Conf.step, hq] at hne; exact absurd (.refl _) hne
      | some p =>
        rw [hq] at ht
        cases ht with
        | pool a b hp =>
          cases hp with
          | ret hr => simp only [Conf.step, hq] at hne; exact absurd (.refl _) hne
          | act hf hk => simp only [Conf.step, hq] at hne; exact absurd (hf _) hne
        | commit a b hm => simp only [Conf.step, hq, Prog.commit] at hne; split at hne <;> exact absurd (.refl _) hne
        | sync a b hm => simp only [Conf.step, hq, Prog.sync] at hne; split at hne <;> exact absurd (.refl _) hne
        | ret a b hx => simp only [Conf.step, hq] at hne; exact absurd (.refl _) hne
        | leave a b hx => simp only [Conf.step, hq] at hne; exact absurd (.refl _) hne
        | look a b hm hr => simp only [Conf.step, hq, Prog.look] at hne; exact absurd (.refl _) hne
        | wait a b hm hr hv hc => simp only [Conf.step, hq] at hne; split at hne <;> exact absurd (.refl _) hne
        | inside a hsec hout => simpa using a
  · obtain ⟨pre, post, rfl⟩ := List.append_of_mem hx
    exact (I.ops pre x post rfl).1
  · have ht := I.task t
    rw [hr] at ht
    cases ht with
    | pool a b hp => cases hp with | ret hr' => rw [hr'] at hc; cases hc
    | ret a b hx => exact hx
    | inside a hsec hout => cases hsec

/-! ### C63 -/

theorem syncFrom_eq {cfg : NodeCfg} {io : SyncIo} {msg rest : Bytes} {v : Nat} {n : Node} (hm : readU64LE msg = some (v, rest))
    (hv : ¬ UInt64.ofNat v - 1 - 1 ≤ n.currentId) : n.updateEpoch cfg { io with lock := true } msg = n.syncFrom cfg io (UInt64.ofNat v - 1) n.currentId := by
  rw [updateEpoch_eq cfg { io with lock := true } msg rest v n hm rfl, if_neg hv]
  have h1 (c : UInt64) : n.syncStart cfg { io with lock := true } c = n.syncStart cfg io c := rfl
  have h2 (ids : List UInt64) : ∀ (k : Nat) (h r : Hash) (n : Node), Node.syncLoop cfg { io with lock := true } k ids h r n = Node.syncLoop cfg io k ids h r n := by
    induction ids with
    | nil => intro k h r n; rfl
    | cons id ids ih =>
      intro k h r n
      simp only [Node.syncLoop]
      have : Node.syncOne cfg { io with lock := true } k id h r n = Node.syncOne cfg io k id h r n := rfl
      rw [this]
      split
      · rfl
      · exact ih _ _ _ _
  unfold Node.syncFrom
  rw [h1]
  split
  · rfl
  · rw [h2]

/-- C63, under the condition that no commit holds the engine lock while another task is synchronising: every synchronisation continues
from the epoch that is the latest when it takes the engine lock, and is `update_epoch` done in one go.  Without the condition see
`C63_refuted`. -/
theorem C63_partial (cfg : NodeCfg) (n : Node) (evs : List Event) (ha : Apart cfg n evs) :
    ∃ ops : List (Nat × Atomic), (∀ x ∈ ops, x.2.CalledIn evs x.1) ∧
      ((Conf.after cfg n evs).held .engine = none → (runAll cfg n ops).Same (Conf.after cfg n evs).node) ∧
      ∀ pre t io rich cur post, ops = pre ++ (t, Atomic.sync io rich cur) :: post → cur = (runAll cfg n pre).currentId ∧
        ∃ msg, Event.callSync t io msg ∈ evs ∧
          (Atomic.sync io rich cur).apply cfg (runAll cfg n pre) = ((runAll cfg n pre).updateEpoch cfg { io with lock := true } msg).2 ∧
          (Atomic.sync io rich cur).result cfg (runAll cfg n pre) = .sync ((runAll cfg n pre).updateEpoch cfg { io with lock := true } msg).1 := by
  obtain ⟨ops, I⟩ := lockInv cfg n evs
  refine ⟨ops, fun x hx => ?_, I.free, fun pre t io rich cur post h => ?_⟩
  · obtain ⟨pre, post, rfl⟩ := List.append_of_mem hx
    exact (I.ops pre x post rfl).1
  · obtain ⟨⟨msg, v, rest, h1, h2, h3⟩, hc⟩ := I.ops pre _ post h
    obtain ⟨h4, h5⟩ := hc ha
    subst h3 h4
    refine ⟨rfl, msg, h1, ?_⟩
    rw [syncFrom_eq h2 h5]
    exact ⟨rfl, rfl⟩

namespace Demo

/-- A peer that has epoch 2 of this chain and then does not answer. -/
def lateIo : SyncIo :=
  { lock := true, pullEpoch := fun _ id => if id = 2 then n2.store.epochs 2 else none
    pullTxs := fun _ hs => some (hs.filterMap n2.store.txs), save := fun _ => .ok, send := true }

/-- `k` steps of a task. -/
def runs (t k : Nat) : List Event := List.replicate k (.run t)

/-- Insertion of a transaction in task `t`, from the call to its end. -/
def insertEvents (t : Nat) (tx : SignedTx) : List Event := .callInsert t true true tx :: runs t 7

/-- Commit of the next epoch of the node in task `t`, from the call to its end. -/
def commitEvents (t : Nat) (n : Node) (txs : List SignedTx) : List Event :=
  let ins := txs.map (fun x => NodeOp.insertTx true true x)
  txs.flatMap (insertEvents 9) ++ [.callCommit t .ok n.status.epochId (proposal (n.run ncfg ins)) (oproof n.status.epochId)] ++ runs t 14

/-- Task 1 reads that the latest height is 1. -/
def lateEvents : List Event := [.callSync 1 lateIo (8 :: List.replicate 7 0)] ++ runs 1 2

/-- Then epochs 2 and 3 are committed. -/
def lateEvents' : List Event := lateEvents ++ commitEvents 0 n1 [npay 2 1 5 1] ++ commitEvents 0 n2 [npay 1 2 3 2]

/-- Then task 1 continues. -/
def lateEvents'' : List Event := lateEvents' ++ runs 1 20

end Demo

open Demo in
/-- C63 does not hold: the latest height is read before the engine lock is taken.  Here a node with latest height 1 starts to
synchronise; before it takes the engine lock it commits epochs 2 and 3; the synchronisation then executes epoch 2 again, and its
peer does not answer any more: the latest stored epoch and the status of the node are back at height 2 (status 3), although epoch 3
was committed. -/
theorem C63_refuted :
    (Conf.after ncfg n1 lateEvents').node.currentId = 3 ∧ (Conf.after ncfg n1 lateEvents').node.status.epochId = 4 ∧
    (Conf.after ncfg n1 lateEvents').node.log.map (·.height) = [3, 2, 1] ∧
    (Conf.after ncfg n1 lateEvents'').node.currentId = 2 ∧ (Conf.after ncfg n1 lateEvents'').node.status.epochId = 3 ∧
    (Conf.after ncfg n1 lateEvents'').node.log.map (·.height) = [2, 3, 2, 1] := by
  have h1 : (Conf.after ncfg n1 lateEvents').node.currentId = 3 := by decide +kernel
  have h2 : (Conf.after ncfg n1 lateEvents').node.status.epochId = 4 := by decide +kernel
  have h3 : (Conf.after ncfg n1 lateEvents').node.log.map (·.height) = [3, 2, 1] := by decide +kernel
  have h4 : (Conf.after ncfg n1 lateEvents'').node.currentId = 2 := by decide +kernel
  have h5 : (Conf.after ncfg n1 lateEvents'').node.status.epochId = 3 := by decide +kernel
  have h6 : (Conf.after ncfg n1 lateEvents'').node.log.map (·.height) = [2, 3, 2, 1] := by decide +kernel
  exact ⟨h1, h2, h3, h4, h5, h6⟩

/-- `Apart` from a check of all prefixes. -/
theorem apart_of_take {cfg : NodeCfg} {n : Node} {evs : List Event}
    (h : ((List.range (evs.length + 1)).all fun k =>
      (Conf.after cfg n (evs.take k)).held .engine == none || (Conf.after cfg n (evs.take k)).held .sync == none ||
      (Conf.after cfg n (evs.take k)).held .engine == (Conf.after cfg n (evs.take k)).held .sync) = true) : Apart cfg n evs := by
  intro pre post hp t t' h1 h2
  rw [List.all_eq_true] at h
  have hk := h pre.length (by rw [List.mem_range, hp, List.length_append]; omega)
  have ht : evs.take pre.length = pre := by rw [hp]; simp
  rw [ht, h1, h2] at hk
  simpa using hk

open Demo in
/-- The hypothesis of `C63_partial` holds of a process that synchronises, then commits, with other calls in between; the synchronisation
does execute epoch 2. -/
example :
    Apart ncfg n1 (lateEvents ++ insertEvents 8 (npay 1 2 3 2) ++ runs 1 20 ++ commitEvents 0 n2 [npay 1 2 3 2]) ∧
    (Conf.after ncfg n1 (lateEvents ++ insertEvents 8 (npay 1 2 3 2) ++ runs 1 20 ++ commitEvents 0 n2 [npay 1 2 3 2])).node.log.map (·.height) = [3, 2, 1] := by
  constructor
  · apply apart_of_take
    decide +kernel
  · decide +kernel

open Demo in
/-- A commit called while a synchronisation runs is turned away, and the synchronisation goes on. -/
example : (match (Conf.after ncfg n1 ((lateEvents ++ runs 1 5 ++ commitEvents 0 n1 [npay 2 1 5 1]).take (lateEvents.length + 5 + 8 + 2))).tasks 0 with
    | some (.ret (.commit (.error .lockInSync))) => true
    | _ => false) = true ∧
    (Conf.after ncfg n1 (lateEvents ++ runs 1 5 ++ commitEvents 0 n1 [npay 2 1 5 1])).node.log.map (·.height) = [1] ∧
    (Conf.after ncfg n1 (lateEvents ++ runs 1 5 ++ commitEvents 0 n1 [npay 2 1 5 1] ++ runs 1 20)).node.log.map (·.height) = [2, 1] := by
  refine ⟨?_, ?_, ?_⟩ <;> decide +kernel

end Huobi
