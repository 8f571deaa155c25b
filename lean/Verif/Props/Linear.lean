import Verif.Props.RaceReplay
import Verif.Props.PayOnce
import Verif.Props.Proposal
/-
Every schedule of overlapping calls, at every moment - also with a commit under way, that is, at every crash point - has the chain data of
a sequential history: the theorems about histories of calls in sequence hold under concurrency.
-/
namespace Huobi

/-! ### The states inside a section under the engine lock -/

/-- From `p` with node `n` the rest `q` and the node `m` are reached, with pool operations of other tasks in between; the accesses see nodes
of `F`. -/
inductive Prog.Reach (F : Node → Prop) : Prog → Node → Prog → Node → Prop
  | here {p n m} : n.Same m → Prog.Reach F p n p m
  | act {f k n n1 q m} : n.Same n1 → F n1 → Prog.Reach F (k n1) (f n1) q m → Prog.Reach F (.act f k) n q m

theorem Prog.Reach.same {F : Node → Prop} {p q : Prog} {n m m' : Node} (h : Prog.Reach F p n q m) (hs : m.Same m') : Prog.Reach F p n q m' := by
  induction h with
  | here a => exact .here (a.trans hs)
  | act a f _ ih => exact .act a f (ih hs)

theorem Prog.Reach.congr {F : Node → Prop} {p q : Prog} {n n' m : Node} (h : Prog.Reach F p n q m) (hs : n.Same n') : Prog.Reach F p n' q m := by
  cases h with
  | here a => exact .here (hs.symm.trans a)
  | act a f b => exact .act (hs.symm.trans a) f b

theorem Prog.Reach.mono {F G : Node → Prop} (hf : ∀ n, F n → G n) {p q : Prog} {n m : Node} (h : Prog.Reach F p n q m) : Prog.Reach G p n q m := by
  induction h with
  | here a => exact .here a
  | act a f _ ih => exact .act a (hf _ f) ih

/-- One more access. -/
theorem Prog.Reach.step {F : Node → Prop} {p : Prog} {f : Node → Node} {k : Node → Prog} {n m : Node} (h : Prog.Reach F p n (.act f k) m) (hm : F m) :
    Prog.Reach F p n (k m) (f m) := by
  generalize hq : Prog.act f k = q at h
  induction h with
  | here a => subst hq; exact .act a hm (.here (.refl _))
  | act a b _ ih => exact .act a b (ih hm hq)

theorem reach_unlock {F : Node → Prop} {k q : Prog} {l : Lock} {n m : Node} (h : Prog.Reach F (.unlock l k) n q m) : n.Same m := by
  cases h with
  | here a => exact a

theorem reach_write {F : Node → Prop} {ok : Bool} {ws : List Write} {fail next q : Prog} {n m : Node}
    (h : Prog.Reach F (.write ok (fun n => { n with store := n.store.writes ws }) fail next) n q m) :
    n.Same m ∨ (ok = true ∧ Prog.Reach F next { n with store := n.store.writes ws } q m) ∨ (ok = false ∧ Prog.Reach F fail n q m) := by
  cases h with
  | here a => exact .inl a
  | act a _ b =>
    cases ok with
    | false => exact .inr (.inr ⟨rfl, b.congr a.symm⟩)
    | true => exact .inr (.inl ⟨rfl, b.congr ⟨by simp only [a.store, if_true], a.tries.symm, a.status.symm, a.log.symm⟩⟩)

theorem Node.Same.writes {n m : Node} (h : n.Same m) {ws : List Write} :
    ({ n with store := n.store.writes ws } : Node).Same { m with store := m.store.writes ws } :=
  ⟨by simp only [h.store], h.tries, h.status, h.log⟩

/-- The same data: what is stored, the states, and the record. -/
structure Node.SameData (n m : Node) : Prop where
  store : n.store = m.store
  tries : n.tries = m.tries
  log : n.log = m.log

theorem Node.Same.data {n m : Node} (h : n.Same m) : n.SameData m := ⟨h.store, h.tries, h.log⟩

/-- The node `n` is what a task with rest `q` has made of a node, except that the status may still have to be set. -/
def Node.Follows (q : Prog) (n m : Node) : Prop := n.Same m ∨ (n.SameData m ∧ ∃ f k, q = .act f k)

theorem Node.Follows.data {q : Prog} {n m : Node} (h : n.Follows q m) : n.SameData m := h.elim (·.data) (·.1)

theorem Node.Follows.congr {q : Prog} {n n' m : Node} (h : n.Follows q m) (hs : n'.Same n) : n'.Follows q m :=
  h.elim (fun h => .inl (hs.trans h)) (fun h => .inr ⟨⟨hs.store.trans h.1.store, hs.tries.trans h.1.tries, hs.log.trans h.1.log⟩, h.2⟩)

/-- Inside `update_status`: as if it had been cut off by a failing write. -/
theorem reach_updateStatus {F : Node → Prop} {cfg : NodeCfg} {io : SaveIo} {root : MerkleRoot} {id : UInt64} {ep : Epoch} {p : Proof} {resp : ExecResp}
    {txs : List SignedTx} {fail next q : Prog} {n m : Node} (hf : ∀ a b c, Prog.Reach F fail a b c → a.Same c)
    (h : Prog.Reach F (.updateStatus cfg io root id ep p resp txs fail next) n q m) :
    (∃ io' : SaveIo, io'.proof = io.proof ∧ (n.updateStatus cfg io' root id ep p resp txs).2.Follows q m) ∨
    ((n.updateStatus cfg io root id ep p resp txs).1 = .ok () ∧ Prog.Reach F next (n.updateStatus cfg io root id ep p resp txs).2 q m) := by
  unfold Prog.updateStatus at h
  rcases reach_write h with h | ⟨h1, h⟩ | ⟨-, h⟩
  · exact .inl ⟨{ io with receipts := false }, rfl, .inl h⟩
  rotate_left
  · exact .inl ⟨{ io with receipts := false }, rfl, .inl (hf _ _ _ h)⟩
  rcases reach_write h with h | ⟨h2, h⟩ | ⟨-, h⟩
  · exact .inl ⟨{ io with receipts := true, txs := false }, rfl, .inl h⟩
  rotate_left
  · exact .inl ⟨{ io with receipts := true, txs := false }, rfl, .inl (hf _ _ _ h)⟩
  rcases reach_write h with h | ⟨h3, h⟩ | ⟨-, h⟩
  · exact .inl ⟨{ io with receipts := true, txs := true, epochWrites := 0 }, rfl, .inl h⟩
  rotate_left
  · exact .inl ⟨{ io with receipts := true, txs := true, epochWrites := 0 }, rfl, .inl (hf _ _ _ h)⟩
  rcases reach_write h with h | ⟨h4, h⟩ | ⟨-, h⟩
  · exact .inl ⟨{ io with receipts := true, txs := true, epochWrites := 1 }, rfl, .inl h⟩
  rotate_left
  · exact .inl ⟨{ io with receipts := true, txs := true, epochWrites := 1 }, rfl, .inl (hf _ _ _ h)⟩
  cases h with
  | here a => exact .inl ⟨{ io with receipts := true, txs := true, epochWrites := 2 }, rfl, .inl a⟩
  | @act _ _ _ n1 _ _ a _ h =>
    cases h5 : decide (2 < io.epochWrites) with
    | false =>
      rw [h5] at h
      exact .inl ⟨{ io with receipts := true, txs := true, epochWrites := 2 }, rfl, .inl (a.trans (hf _ _ _ h))⟩
    | true =>
      rw [h5] at h
      simp only [if_true] at h
      have h5 : 2 < io.epochWrites := by simpa using h5
      have hlt : ¬ io.epochWrites < 3 := by omega
      have hu : n.updateStatus cfg io root id ep p resp txs = (.ok (), { n with
          store := n1.store.writes (((StoreOp.writes cfg.digest (.insertEpoch ep)).drop 2).take 1)
          status := n.status.updated cfg id ep p resp
          log := ⟨id, ep, p, txs, root, resp⟩ :: n.log }) := by
        unfold Node.updateStatus
        rw [h1, h2, ← a.store]
        simp only [Bool.true_eq_false, if_false]
        rw [if_neg hlt, List.take_of_length_le (by simp [StoreOp.writes]; omega)]
        rfl
      cases h with
      | here b =>
        refine .inl ⟨io, rfl, .inr ⟨?_, _, _, rfl⟩⟩
        rw [hu]
        exact ⟨b.store, a.tries.trans b.tries, (by have := b.log; simp only at this; rw [← this, ← a.log])⟩
      | @act _ _ _ n2 _ _ b _ h =>
        refine .inr ⟨by rw [hu], ?_⟩
        rw [hu]
        refine h.congr ⟨b.store.symm, (a.tries.trans b.tries).symm, ?_, ?_⟩
        · have h1 := a.status
          have h2 := b.status
          simp only at h1 h2
          simp only [h1, ← h2]
        · have h1 := a.log
          have h2 := b.log
          simp only at h1 h2
          simp only [h1, ← h2]

theorem commitTail_snd (cfg : NodeCfg) (io : CommitIo) (id : UInt64) (pill : Pill) (p : Proof) (txs : List SignedTx) (n n2 : Node)
    (x : Except CErr ExecResp) (h : ({ n with pool := n.pool.flush pill.epoch.orderedTxHashes } : Node).exec cfg n.status.stateRoot id
      (.user pill.epoch.header.proposer) txs = (x, n2)) :
    (n.commitTail cfg io id pill p txs).2 = match (generalizing := false) x with
      | .error _ => n2
      | .ok resp => (n2.updateStatus cfg io.save n.status.stateRoot id pill.epoch p resp txs).2 := by
  unfold Node.commitTail
  simp only
  rw [h]
  cases x with
  | error e => rfl
  | ok resp =>
    simp only
    generalize n2.updateStatus cfg io.save n.status.stateRoot id pill.epoch p resp txs = u
    obtain ⟨u1, u2⟩ := u
    cases u1 with
    | error e => rfl
    | ok _ => simp only; split <;> rfl

/-- Inside the second part of `commit`. -/
theorem reach_commitTail {F : Node → Prop} {cfg : NodeCfg} {io : CommitIo} {id : UInt64} {pill : Pill} {p : Proof} {txs : List SignedTx} {q : Prog}
    {n m : Node} (h : Prog.Reach F (.commitTail cfg io id pill p txs) n q m) :
    n.Same m ∨ ∃ s : SaveIo, s.proof = io.save.proof ∧ ∀ mm : Node, mm.Same n → (mm.commitTail cfg { io with save := s } id pill p txs).2.Follows q m := by
  unfold Prog.commitTail at h
  cases h with
  | here a => exact .inl a
  | @act _ _ _ n1 _ _ a _ h =>
    have a1 : n.Same { n1 with pool := n1.pool.flush pill.epoch.orderedTxHashes } := ⟨a.store, a.tries, a.status, a.log⟩
    replace h := h.congr a1.symm
    cases h with
    | here a => exact .inl a
    | @act _ _ _ n2 _ _ a2 _ h =>
      beta_reduce at h
      rw [← a2.status] at h
      replace h := Prog.Reach.congr h a2.symm
      cases h with
      | here a => exact .inl a
      | @act _ _ _ n3 _ _ a3 _ h =>
        refine .inr ?_
        -- the block is executed
        have hex (mm : Node) (hm : mm.Same n) : ∃ mx, ({ mm with pool := mm.pool.flush pill.epoch.orderedTxHashes } : Node).exec cfg mm.status.stateRoot id
            (.user pill.epoch.header.proposer) txs = ((n3.exec cfg n.status.stateRoot id (.user pill.epoch.header.proposer) txs).1, mx) ∧
            mx.Same (n3.exec cfg n.status.stateRoot id (.user pill.epoch.header.proposer) txs).2 := by
          have hs : ({ mm with pool := mm.pool.flush pill.epoch.orderedTxHashes } : Node).Same n3 :=
            Node.Same.trans ⟨hm.store, hm.tries, hm.status, hm.log⟩ a3
          obtain ⟨e1, e2⟩ := exec_same (cfg := cfg) (root := n.status.stateRoot) (id := id) (cb := .user pill.epoch.header.proposer) (txs := txs) hs
          have hr : mm.status.stateRoot = n.status.stateRoot := by rw [hm.status]
          rw [hr]
          generalize Node.exec cfg n.status.stateRoot id (.user pill.epoch.header.proposer) txs { mm with pool := mm.pool.flush pill.epoch.orderedTxHashes } = y at *
          exact ⟨y.2, by rw [← e1], e2⟩
        beta_reduce at h
        generalize n3.exec cfg n.status.stateRoot id (.user pill.epoch.header.proposer) txs = x at *
        obtain ⟨x1, x2⟩ := x
        cases x1 with
        | error e =>
          refine ⟨io.save, rfl, fun mm hm => ?_⟩
          obtain ⟨mx, e1, e2⟩ := hex mm hm
          rw [commitTail_snd _ _ _ _ _ _ _ _ _ e1]
          exact .inl (e2.trans (reach_unlock h))
        | ok resp =>
          have hu {s : SaveIo} (hs : s.proof = io.save.proof) (hf : (x2.updateStatus cfg s n.status.stateRoot id pill.epoch p resp txs).2.Follows q m) :
              ∃ s : SaveIo, s.proof = io.save.proof ∧ ∀ mm : Node, mm.Same n → (mm.commitTail cfg { io with save := s } id pill p txs).2.Follows q m := by
            refine ⟨s, hs, fun mm hm => ?_⟩
            obtain ⟨mx, e1, e2⟩ := hex mm hm
            rw [commitTail_snd _ _ _ _ _ _ _ _ _ e1]
            simp only
            rw [hm.status]
            exact hf.congr (updateStatus_same e2).2
          rcases reach_updateStatus (fun _ _ _ => reach_unlock) h with ⟨s, hs, hf⟩ | ⟨-, h⟩
          · exact hu hs hf
          · exact hu rfl (.inl (reach_unlock h))

/-- Inside `commit`, after the lock was taken: nothing has happened yet; or only the proof has been saved, as if the process that fetches
transactions were dead; or the epoch with the transactions found at some moment is being recorded, as if cut off by a failing write. -/
theorem reach_commit {F : Node → Prop} {cfg : NodeCfg} {io : CommitIo} {id : UInt64} {pill : Pill} {proof : OverlordProof} {body busy q : Prog}
    {n m : Node} (hp : Prog.commit cfg io id pill proof = .lock .engine body busy) (h : Prog.Reach F body n q m) :
    n.Same m ∨
    (∀ mm : Node, mm.Same n → (mm.commit cfg { io with lock := true, alive := false } id pill proof).2.Same m ∧
      (mm.commit cfg { io with lock := true, alive := false } id pill proof).2.pool = mm.pool) ∨
    ∃ (io' : CommitIo) (n1 : Node) (txs : List SignedTx), io'.lock = true ∧ F n1 ∧ n1.store.txs = n.store.txs ∧
      n1.pool.getFullTxs pill.epoch.orderedTxHashes = .ok txs ∧
      ∀ mm : Node, mm.Same n → mm.pool.getFullTxs pill.epoch.orderedTxHashes = .ok txs → (mm.commit cfg io' id pill proof).2.Follows q m ∧
        (mm.commit cfg io' id pill proof).2.pool = mm.pool.flush pill.epoch.orderedTxHashes := by
  unfold Prog.commit at hp
  injection hp with _ hp _
  subst hp
  cases hq : proof.toProof with
  | none => rw [hq] at h; exact .inl (reach_unlock h)
  | some p =>
    rw [hq] at h
    simp only at h
    cases h with
    | here a => exact .inl a
    | @act _ _ _ n0 _ _ a _ h =>
      beta_reduce at h
      cases hpr : io.save.proof with
      | false =>
        have hs : n0.saveProof cfg io.save p = (.error .storage, n0) := by unfold Node.saveProof; rw [hpr]; rfl
        rw [hs] at h
        exact .inl (a.trans (reach_unlock h))
      | true =>
        have hs (mm : Node) (s : SaveIo) (hs : s.proof = true) : mm.saveProof cfg s p = (.ok (), { mm with store := mm.store.writes (StoreOp.writes cfg.digest (.updateLatestProof p)) }) := by
          unfold Node.saveProof; rw [hs]; rfl
        rw [hs n0 io.save hpr] at h
        simp only at h
        have hdead (hsame : ({ n0 with store := n0.store.writes (StoreOp.writes cfg.digest (.updateLatestProof p)) } : Node).Same m) :
            ∀ mm : Node, mm.Same n → (mm.commit cfg { io with lock := true, alive := false } id pill proof).2.Same m ∧
              (mm.commit cfg { io with lock := true, alive := false } id pill proof).2.pool = mm.pool := by
          intro mm hm
          have : mm.commit cfg { io with lock := true, alive := false } id pill proof =
              (.error .panic, { mm with store := mm.store.writes (StoreOp.writes cfg.digest (.updateLatestProof p)) }) := by
            unfold Node.commit
            simp only [Bool.true_eq_false, if_false, hq]
            rw [hs mm io.save hpr]
            rfl
          rw [this]
          have hm := hm.trans a
          exact ⟨hm.writes.trans hsame, rfl⟩
        split at h
        · exact .inr (.inl (hdead (reach_unlock h)))
        · rename_i ha
          cases h with
          | here b => exact .inr (.inl (hdead b))
          | @act _ _ _ n1 _ _ b hF h =>
            beta_reduce at h
            cases hg : n1.pool.getFullTxs pill.epoch.orderedTxHashes with
            | error e => rw [hg] at h; exact .inr (.inl (hdead (b.trans (reach_unlock h))))
            | ok txs =>
              rw [hg] at h
              simp only at h
              have h : Prog.Reach F (.commitTail cfg io id pill p txs) n1 q m := h
              rcases reach_commitTail h with h | ⟨s, hsp, h⟩
              · exact .inr (.inl (hdead (b.trans h)))
              · refine .inr (.inr ⟨{ io with lock := true, alive := true, save := s }, n1, txs, rfl, hF, ?_, hg, fun mm hm hmg => ?_⟩)
                · rw [← b.store, a.store]; rfl
                · have : (mm.commit cfg { io with lock := true, alive := true, save := s } id pill proof) =
                      (Node.commitTail cfg { io with lock := true, alive := true, save := s } id pill p txs
                        { mm with store := mm.store.writes (StoreOp.writes cfg.digest (.updateLatestProof p)) }) := by
                    unfold Node.commit
                    simp only [Bool.true_eq_false, if_false, hq]
                    rw [hs mm s (by rw [hsp, hpr])]
                    simp only
                    rw [hmg]
                  rw [this]
                  have hm := hm.trans a
                  refine ⟨h _ (hm.writes.trans b), ?_⟩
                  unfold Node.commitTail
                  simp only
                  split
                  · rename_i e n2 hx
                    have := exec_pool cfg mm.status.stateRoot id (.user pill.epoch.header.proposer) txs ({ mm with
                      store := mm.store.writes (StoreOp.writes cfg.digest (.updateLatestProof p)), pool := mm.pool.flush pill.epoch.orderedTxHashes } : Node)
                    rw [hx] at this
                    exact this
                  · rename_i resp n2 hx
                    have := exec_pool cfg mm.status.stateRoot id (.user pill.epoch.header.proposer) txs ({ mm with
                      store := mm.store.writes (StoreOp.writes cfg.digest (.updateLatestProof p)), pool := mm.pool.flush pill.epoch.orderedTxHashes } : Node)
                    rw [hx] at this
                    have hu := updateStatus_pool cfg s mm.status.stateRoot id pill.epoch p resp txs n2
                    generalize n2.updateStatus cfg s mm.status.stateRoot id pill.epoch p resp txs = u at *
                    obtain ⟨u1, u2⟩ := u
                    cases u1 with
                    | error e => exact hu.trans this
                    | ok _ => simp only; split <;> exact hu.trans this

/-! ### Inside a synchronisation -/

/-- `io'` is `io` with some answers left out and other failures of the database from the `k`-th round on. -/
structure SyncIo.Cut (io io' : SyncIo) (k : Nat) : Prop where
  epoch : ∀ j id, j < k → io'.pullEpoch j id = io.pullEpoch j id
  txs : ∀ j q, j < k → io'.pullTxs j q = io.pullTxs j q
  save : ∀ j, j < k → io'.save j = io.save j
  epochs : ∀ j id e, io'.pullEpoch j id = some e → io.pullEpoch j id = some e
  given : ∀ j q ts, io'.pullTxs j q = some ts → io.pullTxs j q = some ts

theorem SyncIo.Cut.refl (io : SyncIo) (k : Nat) : io.Cut io k := ⟨fun _ _ _ => rfl, fun _ _ _ => rfl, fun _ _ => rfl, fun _ _ _ h => h, fun _ _ _ h => h⟩

theorem SyncIo.Cut.less {io io' : SyncIo} {k k' : Nat} (h : io.Cut io' k) (hk : k' ≤ k) : io.Cut io' k' :=
  ⟨fun _ _ hj => h.epoch _ _ (by omega), fun _ _ hj => h.txs _ _ (by omega), fun _ hj => h.save _ (by omega), h.epochs, h.given⟩

/-- The peers stop answering: no epoch after round `a`, no transactions after round `b`; the database does `s` in round `k`. -/
def SyncIo.cut (io : SyncIo) (k a b : Nat) (s : SaveIo) : SyncIo :=
  { io with
    pullEpoch := fun j id => if j < a then io.pullEpoch j id else none
    pullTxs := fun j q => if j < b then io.pullTxs j q else none
    save := fun j => if j = k then s else io.save j }

theorem SyncIo.cut_cut (io : SyncIo) (k a b : Nat) (s : SaveIo) (ha : k ≤ a) (hb : k ≤ b) : io.Cut (io.cut k a b s) k where
  epoch j id hj := if_pos (by omega)
  txs j q hj := if_pos (by omega)
  save j hj := if_neg (by omega)
  epochs j id e h := by unfold SyncIo.cut at h; simp only at h; split at h <;> simp_all
  given j q e h := by unfold SyncIo.cut at h; simp only at h; split at h <;> simp_all

theorem syncLoop_stop (cfg : NodeCfg) (io : SyncIo) (k : Nat) (h : ∀ id, io.pullEpoch k id = none) (ids : List UInt64) (ha r : Hash) (n : Node) :
    (Node.syncLoop cfg io k ids ha r n).2 = n := by
  cases ids with
  | nil => rfl
  | cons id ids => simp only [Node.syncLoop, Node.syncOne, h]

theorem syncLoop_once (cfg : NodeCfg) (io : SyncIo) (k : Nat) (h : ∀ id, io.pullEpoch (k + 1) id = none) (id : UInt64) (ids : List UInt64) (ha r : Hash) (n : Node) :
    (Node.syncLoop cfg io k (id :: ids) ha r n).2 = (n.syncOne cfg io k id ha r).2 := by
  simp only [Node.syncLoop]
  generalize n.syncOne cfg io k id ha r = x
  obtain ⟨x1, x2⟩ := x
  cases x1 with
  | error e => rfl
  | ok y => exact syncLoop_stop cfg io (k + 1) h ids _ _ _

theorem syncOne_snd (cfg : NodeCfg) (io : SyncIo) (k : Nat) (id : UInt64) (ha r : Hash) (n : Node) (ep : Epoch) (txs : List SignedTx)
    (he : io.pullEpoch k id = some ep) (hc : ¬ (id ≠ 1 ∧ ha ≠ ep.header.preHash)) (hp : (io.save k).proof = true)
    (ht : io.pullTxs k ep.orderedTxHashes = some txs) (x : Except CErr ExecResp) (n2 : Node)
    (hx : ({ n with store := n.store.writes (StoreOp.writes cfg.digest (.updateLatestProof ep.header.proof)) } : Node).exec cfg r ep.header.epochId
      (.user ep.header.proposer) txs = (x, n2)) :
    (n.syncOne cfg io k id ha r).2 = match (generalizing := false) x with
      | .error _ => n2
      | .ok resp => (n2.updateStatus cfg (io.save k) r ep.header.epochId ep ep.header.proof resp txs).2 := by
  unfold Node.syncOne
  rw [he]
  simp only
  rw [if_neg hc]
  have hs : n.saveProof cfg (io.save k) ep.header.proof = (.ok (), { n with store := n.store.writes (StoreOp.writes cfg.digest (.updateLatestProof ep.header.proof)) }) := by
    unfold Node.saveProof; rw [hp]; rfl
  rw [hs]
  simp only
  rw [ht]
  simp only
  rw [hx]
  cases x with
  | error e => rfl
  | ok resp =>
    simp only
    generalize n2.updateStatus cfg (io.save k) r ep.header.epochId ep ep.header.proof resp txs = u
    obtain ⟨u1, u2⟩ := u
    cases u1 <;> rfl

theorem reach_syncLoop {F : Node → Prop} {cfg : NodeCfg} {io : SyncIo} {next q : Prog} {m : Node} (ids : List UInt64) :
    ∀ {k : Nat} {h r : Hash} {n : Node}, Prog.Reach F (.syncLoop cfg io next k ids h r) n q m →
    (∃ io', io.Cut io' k ∧ (Node.syncLoop cfg io' k ids h r n).2.Follows q m) ∨
    ((Node.syncLoop cfg io k ids h r n).1 = .ok () ∧ Prog.Reach F next (Node.syncLoop cfg io k ids h r n).2 q m) := by
  induction ids with
  | nil => intro k h r n hr; exact .inr ⟨rfl, hr⟩
  | cons id ids ih =>
    intro k ha r n h
    simp only [Prog.syncLoop] at h
    unfold Prog.syncOne at h
    -- nothing happened in this round
    have hnone (hs : n.Same m) : ∃ io', io.Cut io' k ∧ (Node.syncLoop cfg io' k (id :: ids) ha r n).2.Follows q m := by
      refine ⟨io.cut k k k (io.save k), io.cut_cut k k k _ (Nat.le_refl _) (Nat.le_refl _), .inl ?_⟩
      rw [syncLoop_stop cfg _ k (fun id => if_neg (by omega))]
      exact hs
    cases hp : io.pullEpoch k id with
    | none => rw [hp] at h; exact .inl (hnone (reach_unlock h))
    | some ep =>
      rw [hp] at h
      simp only at h
      by_cases hc : id ≠ 1 ∧ ha ≠ ep.header.preHash
      · rw [if_pos hc] at h; exact .inl (hnone (reach_unlock h))
      rw [if_neg hc] at h
      cases h with
      | here a => exact .inl (hnone a)
      | @act _ _ _ n0 _ _ a _ h =>
        beta_reduce at h
        cases hpr : (io.save k).proof with
        | false =>
          have hs : n0.saveProof cfg (io.save k) ep.header.proof = (.error .storage, n0) := by unfold Node.saveProof; rw [hpr]; rfl
          rw [hs] at h
          exact .inl (hnone (a.trans (reach_unlock h)))
        | true =>
          have hs : n0.saveProof cfg (io.save k) ep.header.proof =
              (.ok (), { n0 with store := n0.store.writes (StoreOp.writes cfg.digest (.updateLatestProof ep.header.proof)) }) := by
            unfold Node.saveProof; rw [hpr]; rfl
          rw [hs] at h
          simp only at h
          replace h := h.congr a.writes.symm
          -- only the proof was saved
          have hproof (hs : ({ n with store := n.store.writes (StoreOp.writes cfg.digest (.updateLatestProof ep.header.proof)) } : Node).Same m) :
              ∃ io', io.Cut io' k ∧ (Node.syncLoop cfg io' k (id :: ids) ha r n).2.Follows q m := by
            refine ⟨io.cut k (k + 1) k (io.save k), io.cut_cut k (k + 1) k _ (by omega) (Nat.le_refl _), .inl ?_⟩
            have h1 : (io.cut k (k + 1) k (io.save k)).pullEpoch k id = some ep := (if_pos (by omega)).trans hp
            have h2 : (io.cut k (k + 1) k (io.save k)).pullTxs k ep.orderedTxHashes = none := if_neg (by omega)
            have h3 : (io.cut k (k + 1) k (io.save k)).save k = io.save k := if_pos rfl
            have h4 : n.saveProof cfg (io.save k) ep.header.proof =
                (.ok (), { n with store := n.store.writes (StoreOp.writes cfg.digest (.updateLatestProof ep.header.proof)) }) := by
              unfold Node.saveProof; rw [hpr]; rfl
            have : (n.syncOne cfg (io.cut k (k + 1) k (io.save k)) k id ha r).2 =
                { n with store := n.store.writes (StoreOp.writes cfg.digest (.updateLatestProof ep.header.proof)) } := by
              unfold Node.syncOne
              rw [h1]
              simp only
              rw [if_neg hc, h3, h4]
              simp only
              rw [h2]
            rw [syncLoop_once cfg _ k (fun id => if_neg (by omega)), this]
            exact hs
          cases ht : io.pullTxs k ep.orderedTxHashes with
          | none => rw [ht] at h; exact .inl (hproof (reach_unlock h))
          | some txs =>
            rw [ht] at h
            simp only at h
            cases h with
            | here b => exact .inl (hproof b)
            | @act _ _ _ n1 _ _ b _ h =>
              beta_reduce at h
              obtain ⟨e1, e2⟩ := exec_same (cfg := cfg) (root := r) (id := ep.header.epochId) (cb := .user ep.header.proposer) (txs := txs) b
              generalize hx : Node.exec cfg r ep.header.epochId (.user ep.header.proposer) txs
                { n with store := n.store.writes (StoreOp.writes cfg.digest (.updateLatestProof ep.header.proof)) } = x at *
              generalize n1.exec cfg r ep.header.epochId (.user ep.header.proposer) txs = y at *
              obtain ⟨x1, x2⟩ := x
              obtain ⟨y1, y2⟩ := y
              simp only at e1 e2 h
              subst e1
              replace h := h.congr e2.symm
              -- the round is cut off in `update_status`
              have hround (s : SaveIo) (hsp : s.proof = true) (hf : (n.syncOne cfg (io.cut k (k + 1) (k + 1) s) k id ha r).2.Follows q m) :
                  ∃ io', io.Cut io' k ∧ (Node.syncLoop cfg io' k (id :: ids) ha r n).2.Follows q m := by
                refine ⟨_, io.cut_cut k (k + 1) (k + 1) s (by omega) (by omega), ?_⟩
                rw [syncLoop_once cfg _ k (fun id => if_neg (by omega))]
                exact hf
              have hsnd (s : SaveIo) (hsp : s.proof = true) := syncOne_snd cfg (io.cut k (k + 1) (k + 1) s) k id ha r n ep txs ((if_pos (by omega)).trans hp) hc
                (by show (if k = k then s else _).proof = true; rw [if_pos rfl]; exact hsp) ((if_pos (by omega)).trans ht) x1 x2 hx
              cases x1 with
              | error e =>
                refine .inl (hround (io.save k) hpr (.inl ?_))
                rw [hsnd _ hpr]
                exact reach_unlock h
              | ok resp =>
                simp only at h
                rcases reach_updateStatus (fun _ _ _ => reach_unlock) h with ⟨s, hsp, hf⟩ | ⟨hok, h⟩
                · refine .inl (hround s (by rw [hsp, hpr]) ?_)
                  rw [hsnd _ (by rw [hsp, hpr])]
                  have : (io.cut k (k + 1) (k + 1) s).save k = s := if_pos rfl
                  rw [this]
                  exact hf
                · -- the round is complete
                  have hone (io' : SyncIo) (hcut : io.Cut io' (k + 1)) : n.syncOne cfg io' k id ha r =
                      (.ok (cfg.epochHash ep, resp.stateRoot), (x2.updateStatus cfg (io.save k) r ep.header.epochId ep ep.header.proof resp txs).2) := by
                    have h4 : n.saveProof cfg (io.save k) ep.header.proof =
                        (.ok (), { n with store := n.store.writes (StoreOp.writes cfg.digest (.updateLatestProof ep.header.proof)) }) := by
                      unfold Node.saveProof; rw [hpr]; rfl
                    unfold Node.syncOne
                    rw [hcut.epoch k id (by omega), hp]
                    simp only
                    rw [if_neg hc, hcut.save k (by omega), h4]
                    simp only
                    rw [hcut.txs k _ (by omega), ht]
                    simp only
                    rw [hx]
                    simp only
                    generalize x2.updateStatus cfg (io.save k) r ep.header.epochId ep ep.header.proof resp txs = u at *
                    obtain ⟨u1, u2⟩ := u
                    simp only at hok
                    subst hok
                    rfl
                  rcases ih h with ⟨io', hcut, hf⟩ | ⟨hok', h⟩
                  · refine .inl ⟨io', hcut.less (by omega), ?_⟩
                    simp only [Node.syncLoop]
                    rw [hone io' hcut]
                    exact hf
                  · refine .inr ?_
                    simp only [Node.syncLoop]
                    rw [hone io (.refl io _)]
                    exact ⟨hok', h⟩

/-- Inside `update_epoch`, after both locks were taken: as if the peers had stopped answering at some round, or a write had failed. -/
theorem reach_syncBody {F : Node → Prop} {cfg : NodeCfg} {io : SyncIo} {msg rest : Bytes} {v : Nat} {q : Prog} {n m : Node}
    (hm : readU64LE msg = some (v, rest)) (hv : ¬ UInt64.ofNat v - 1 - 1 ≤ n.currentId)
    (h : Prog.Reach F (.syncBody cfg io (UInt64.ofNat v - 1) n.currentId) n q m) :
    n.Same m ∨ ∃ io' : SyncIo, io.Cut io' 0 ∧ io'.lock = true ∧ (n.updateEpoch cfg io' msg).2.Follows q m := by
  unfold Prog.syncBody at h
  cases h with
  | here a => exact .inl a
  | @act _ _ _ n1 _ _ a _ h =>
    replace h := Prog.Reach.congr h a.symm
    beta_reduce at h
    rw [← syncStart_same a] at h
    cases hs : n.syncStart cfg io n.currentId with
    | error e => rw [hs] at h; exact .inl (reach_unlock h)
    | ok x =>
      obtain ⟨ha, r⟩ := x
      rw [hs] at h
      simp only at h
      have key (io' : SyncIo) (hcut : io.Cut io' 1) : (n.syncFrom cfg io' (UInt64.ofNat v - 1) n.currentId).2 =
          (Node.syncLoop cfg io' 1 (syncIds n.currentId (UInt64.ofNat v - 1)) ha r n).2 := by
        have hst : n.syncStart cfg io' n.currentId = n.syncStart cfg io n.currentId := by
          unfold Node.syncStart
          rw [hcut.epoch 0 _ (by omega)]
        unfold Node.syncFrom
        rw [hst, hs]
        simp only
        generalize Node.syncLoop cfg io' 1 (syncIds n.currentId (UInt64.ofNat v - 1)) ha r n = z
        obtain ⟨z1, z2⟩ := z
        cases z1 with
        | error e => rfl
        | ok _ => simp only; split <;> rfl
      have fin (io' : SyncIo) (hcut : io.Cut io' 1) (hf : (Node.syncLoop cfg io' 1 (syncIds n.currentId (UInt64.ofNat v - 1)) ha r n).2.Follows q m) :
          ∃ io' : SyncIo, io.Cut io' 0 ∧ io'.lock = true ∧ (n.updateEpoch cfg io' msg).2.Follows q m := by
        refine ⟨{ io' with lock := true }, ⟨fun _ _ h => (by omega), fun _ _ h => (by omega), fun _ h => (by omega), hcut.epochs, hcut.given⟩, rfl, ?_⟩
        rw [syncFrom_eq hm hv, key io' hcut]
        exact hf
      rcases reach_syncLoop _ h with ⟨io', hcut, hf⟩ | ⟨-, h⟩
      · exact .inr (fin io' hcut hf)
      · exact .inr (fin io (.refl io 1) (.inl (reach_unlock h)))

/-! ### A sequential node that mirrors the chain data, with an empty pool -/

/-- Nothing is in the pool, and no proposal of its own is remembered. -/
structure Node.Blank (n : Node) : Prop where
  good : n.pool.cache.Good
  cache : ∀ k, n.pool.cache.get k = none
  callback : ∀ k, n.pool.callback.get k = none
  exempt : n.exempt = []

/-- The pool's transactions are filed under their hashes. -/
structure Node.Keyed (n : Node) : Prop where
  good : n.pool.cache.Good
  keys : ∀ k t, n.pool.callback.get k = some t → t.txHash = k

theorem Node.Keyed.lookup {n : Node} (h : n.Keyed) {k : Hash} {t : SignedTx} (ht : n.pool.lookup k = some t) : t.txHash = k := by
  rcases (lookup_iff _ _ _).1 ht with ht | ⟨-, ht⟩
  · obtain ⟨e, -, -, hh⟩ := (get_eq_some h.good).1 ht
    exact hh
  · exact h.keys k t ht

theorem fold_get (txs : List SignedTx) : ∀ (m : TxMap SignedTx) (k : Hash),
    (txs.foldl (fun m tx => (m.insert tx.txHash tx).2) m).get k = (m.get k).or (txs.find? (fun t => decide (t.txHash = k))) := by
  induction txs with
  | nil => intro m k; simp
  | cons t txs ih =>
    intro m k
    rw [List.foldl_cons, ih, TxMap.get_insert, List.find?_cons]
    have hc : (k = t.txHash) = (t.txHash = k) := propext ⟨Eq.symm, Eq.symm⟩
    cases hm : m.get k <;> by_cases hk : t.txHash = k <;> simp_all

/-- The transactions a pool finds are found again in an empty pool they were put into. -/
theorem fill (cfg : NodeCfg) {m n : Node} (hm : m.Blank) (hn : n.Keyed) {L : List Hash} {txs : List SignedTx} (hg : n.pool.getFullTxs L = .ok txs)
    (pill : Pill) (hL : pill.epoch.orderedTxHashes = L) (hP : pill.proposeHashes = []) :
    m.Same (m.step cfg (.check (fun _ => none) (fun _ => some txs) [] pill)) ∧
    (m.step cfg (.check (fun _ => none) (fun _ => some txs) [] pill)).pool.getFullTxs L = .ok txs ∧
    (m.step cfg (.check (fun _ => none) (fun _ => some txs) [] pill)).pool.cache = m.pool.cache ∧
    (m.step cfg (.check (fun _ => none) (fun _ => some txs) [] pill)).exempt = [] := by
  subst hL
  have hlen : txs.length = pill.epoch.orderedTxHashes.length ∧ txs = pill.epoch.orderedTxHashes.filterMap n.pool.lookup := by
    unfold MemPool.getFullTxs at hg
    simp only at hg
    split at hg
    · cases hg
    · injection hg with hg
      subst hg
      exact ⟨by omega, rfl⟩
  have hall := (filterMap_full n.pool.lookup pill.epoch.orderedTxHashes).1 (by rw [← hlen.2]; exact hlen.1)
  have hunk : m.pool.cache.showUnknown pill.epoch.orderedTxHashes = pill.epoch.orderedTxHashes := by
    unfold TxCache.showUnknown
    rw [List.filter_eq_self]
    intro k _
    have := mt (contain_iff m.pool.cache k).1 (fun h => h (hm.cache k))
    simpa using this
  have hlook (c : TxMap SignedTx) (hc : ∀ k ∈ pill.epoch.orderedTxHashes, c.get k = txs.find? (fun t => decide (t.txHash = k))) :
      ({ m.pool with callback := c } : MemPool).getFullTxs pill.epoch.orderedTxHashes = .ok txs := by
    have : pill.epoch.orderedTxHashes.filterMap ({ m.pool with callback := c } : MemPool).lookup = txs := by
      rw [hlen.2]
      refine List.filterMap_congr fun k hk => ?_
      unfold MemPool.lookup
      simp only [hm.cache k]
      rw [hc k hk]
      obtain ⟨t, ht⟩ := Option.isSome_iff_exists.1 (hall k hk)
      have ht' : t ∈ txs := by rw [hlen.2]; exact List.mem_filterMap.2 ⟨k, hk, ht⟩
      cases hf : txs.find? (fun t => decide (t.txHash = k)) with
      | none => exact absurd (List.find?_eq_none.1 hf t ht') (by simp [hn.lookup ht])
      | some t' =>
        have h1 : t'.txHash = k := by simpa using List.find?_some hf
        have h2 := List.mem_of_find?_eq_some hf
        rw [hlen.2] at h2
        obtain ⟨k', -, hk'⟩ := List.mem_filterMap.1 h2
        have : k' = k := by rw [← hn.lookup hk', h1]
        subst this
        exact hk'.symm
    unfold MemPool.getFullTxs
    simp only [this]
    rw [if_neg (by rw [hlen.1]; simp)]
  have h1 : m.pool.syncProposeTxs (m.view cfg (fun _ => none) true) pill.proposeHashes = (.ok (), m.pool) := by
    rw [hP]; rfl
  have key : ∃ c, m.pool.ensureOrderTxs (m.view cfg (fun _ => some txs) true) pill.epoch.orderedTxHashes = (.ok (), { m.pool with callback := c }) ∧
      ∀ k ∈ pill.epoch.orderedTxHashes, c.get k = txs.find? (fun t => decide (t.txHash = k)) := by
    unfold MemPool.ensureOrderTxs
    simp only [hunk]
    split
    · rename_i he
      refine ⟨m.pool.callback, rfl, fun k hk => ?_⟩
      rw [List.isEmpty_iff.1 he] at hk
      cases hk
    · simp only [Node.view]
      rw [if_neg (by rw [hlen.1]; simp)]
      exact ⟨_, rfl, fun k _ => by rw [fold_get, hm.callback]; rfl⟩
  obtain ⟨c, h2, hc⟩ := key
  have hstep : m.step cfg (.check (fun _ => none) (fun _ => some txs) [] pill) = { m with pool := { m.pool with callback := c } } := by
    simp only [Node.step, Node.checkEpoch]
    rw [if_neg (by rw [hm.exempt]; simp), h1]
    simp only
    rw [h2]
    simp only
    split <;> rfl
  rw [hstep]
  exact ⟨⟨rfl, rfl, rfl, rfl⟩, hlook c hc, rfl, hm.exempt⟩

/-! ### The sequential calls -/

/-- Task `t` was started by the event `e` and has not made any access yet. -/
def Waits (cfg : NodeCfg) (n : Node) (evs : List Event) (t : Nat) (e : Event) : Prop :=
  ∃ pre post, evs = pre ++ e :: post ∧ (Conf.after cfg n pre).tasks t = none ∧ Event.run t ∉ post ∧ ∃ p, e.prog cfg = some (t, p)

/-- After the events `pre`, task `t` has been called to commit this epoch, has not done anything yet, and the engine lock is free: the task takes
the lock with its next access. -/
def TakesLock (cfg : NodeCfg) (n : Node) (pre : List Event) (t : Nat) (io : CommitIo) (id : UInt64) (pill : Pill) (proof : OverlordProof) : Prop :=
  Waits cfg n pre t (.callCommit t io id pill proof) ∧ (Conf.after cfg n pre).held .engine = none

/-- Where the sequential call `op`, made on the node `m`, comes from, in the schedule `evs` of a process that was started with `n`.

* A commit or a synchronisation was called; `m` has the chain data and the status of the process at the moment the call takes the engine lock,
  and the data after the sequential call is that of the process at a later moment.  Only failures differ: peers that do not answer, writes
  that fail.
* The other calls hand over transactions that were in the process's pool at some moment, when the same transactions were stored. -/
def Justified (cfg : NodeCfg) (n : Node) (evs : List Event) (m : Node) : NodeOp → Prop
  | .commit io' id pill proof => ∃ pre mid rest t io, evs = pre ++ (.run t :: mid) ++ rest ∧ TakesLock cfg n pre t io id pill proof ∧
      m.Same (Conf.after cfg n pre).node ∧ (m.step cfg (.commit io' id pill proof)).SameData (Conf.after cfg n (pre ++ .run t :: mid)).node
  | .sync io' msg => ∃ pre mid rest t io, evs = pre ++ (.run t :: mid) ++ rest ∧ Event.callSync t io msg ∈ pre ∧
      (Conf.after cfg n pre).held .engine = none ∧ m.Same (Conf.after cfg n pre).node ∧
      (m.step cfg (.sync io' msg)).SameData (Conf.after cfg n (pre ++ .run t :: mid)).node ∧
      (∀ k id e, io'.pullEpoch k id = some e → io.pullEpoch k id = some e) ∧ ∀ k q txs, io'.pullTxs k q = some txs → io.pullTxs k q = some txs
  | .check p1 p2 _ _ => ∃ pre rest L txs, evs = pre ++ rest ∧ (Conf.after cfg n pre).node.store.txs = m.store.txs ∧
      (Conf.after cfg n pre).node.pool.getFullTxs L = .ok txs ∧ ∀ q xs, p1 q = some xs ∨ p2 q = some xs → xs = txs
  | _ => False

theorem Justified.snoc {cfg : NodeCfg} {n : Node} {evs : List Event} {m : Node} {op : NodeOp} (h : Justified cfg n evs m op) (e : Event) :
    Justified cfg n (evs ++ [e]) m op := by
  cases op with
  | insertTx o b tx => exact h
  | propose now id => exact h
  | check p1 p2 ha pill =>
    obtain ⟨pre, rest, L, txs, h1, h2⟩ := h
    exact ⟨pre, rest ++ [e], L, txs, by rw [h1, List.append_assoc], h2⟩
  | commit io id pill proof =>
    obtain ⟨pre, mid, rest, t, io, h1, h2⟩ := h
    exact ⟨pre, mid, rest ++ [e], t, io, by rw [h1, List.append_assoc], h2⟩
  | sync io msg =>
    obtain ⟨pre, mid, rest, t, io, h1, h2⟩ := h
    exact ⟨pre, mid, rest ++ [e], t, io, by rw [h1, List.append_assoc], h2⟩

theorem Runs.imp {cfg : NodeCfg} {ok ok' : Node → NodeOp → Prop} {n m : Node} (h : Runs cfg ok n m) (hi : ∀ m op, ok m op → ok' m op) : Runs cfg ok' n m := by
  induction h with
  | refl => exact .refl
  | step op _ ho ih => exact .step op ih (hi _ _ ho)

/-- Seen during the schedule, at a moment when the transactions of the pool were filed under their hashes. -/
def Seen (cfg : NodeCfg) (n : Node) (evs : List Event) (x : Node) : Prop := x.Keyed ∧ ∃ pre rest, evs = pre ++ rest ∧ (Conf.after cfg n pre).node = x

theorem Seen.snoc {cfg : NodeCfg} {n : Node} {evs : List Event} {x : Node} (h : Seen cfg n evs x) (e : Event) : Seen cfg n (evs ++ [e]) x := by
  obtain ⟨h1, pre, rest, h2, h3⟩ := h
  exact ⟨h1, pre, rest ++ [e], by rw [h2, List.append_assoc], h3⟩

/-- The call that holds the engine lock. -/
inductive Inside (cfg : NodeCfg) (n : Node) (evs pre : List Event) (t : Nat) (m : Node) (q : Prog) (node : Node) : Prop
  | commit {io id pill proof body busy} : Waits cfg n pre t (.callCommit t io id pill proof) →
      Prog.commit cfg io id pill proof = .lock .engine body busy → Prog.Reach (Seen cfg n evs) body m q node → Inside cfg n evs pre t m q node
  | sync {io msg v rest} : Event.callSync t io msg ∈ pre → readU64LE msg = some (v, rest) → ¬ UInt64.ofNat v - 1 - 1 ≤ m.currentId →
      Prog.Reach (Seen cfg n evs) (.syncBody cfg io (UInt64.ofNat v - 1) m.currentId) m q node → Inside cfg n evs pre t m q node

/-- What holds of a process at all times: the node `m` of the sequential calls has its chain data, or had it when the lock was taken. -/
structure Mirror (cfg : NodeCfg) (n : Node) (evs : List Event) (m : Node) : Prop where
  runs : Runs cfg (Justified cfg n evs) n m
  blank : m.Blank
  free : (Conf.after cfg n evs).held .engine = none → m.Same (Conf.after cfg n evs).node
  busy : ∀ t, (Conf.after cfg n evs).held .engine = some t → ∃ q pre mid, (Conf.after cfg n evs).tasks t = some q ∧ evs = pre ++ .run t :: mid ∧
    (Conf.after cfg n pre).held .engine = none ∧ m.Same (Conf.after cfg n pre).node ∧ Inside cfg n evs pre t m q (Conf.after cfg n evs).node

theorem Node.Blank.commit {cfg : NodeCfg} {io : CommitIo} {id : UInt64} {pill : Pill} {proof : OverlordProof} {m : Node} (hg : m.pool.cache.Good)
    (hc : ∀ k, m.pool.cache.get k = none) (he : m.exempt = [])
    (h : (m.commit cfg io id pill proof).2.pool = m.pool.flush pill.epoch.orderedTxHashes) : (m.step cfg (.commit io id pill proof)).Blank := by
  have hstep : m.step cfg (.commit io id pill proof) = (m.commit cfg io id pill proof).2 := rfl
  rw [hstep]
  refine ⟨?_, ?_, ?_, by rw [commit_exempt]; exact he⟩
  · rw [h]; exact (hg.flush_refines _).1
  · intro k
    rw [h]
    show (m.pool.cache.flush pill.epoch.orderedTxHashes).get k = none
    rw [flush_get hg, hc k, ite_self]
  · intro k; rw [h]; rfl

/-- The call that holds the lock, as a sequential call, or as two: the transactions it has found are handed over first. -/
theorem Mirror.finish {cfg : NodeCfg} {n : Node} {evs pre mid : List Event} {t : Nat} {m : Node} {q : Prog} (hr : Runs cfg (Justified cfg n evs) n m)
    (hb : m.Blank) (he : evs = pre ++ .run t :: mid) (hfree : (Conf.after cfg n pre).held .engine = none) (hs : m.Same (Conf.after cfg n pre).node)
    (hin : Inside cfg n evs pre t m q (Conf.after cfg n evs).node) :
    ∃ m', Runs cfg (Justified cfg n evs) n m' ∧ m'.Blank ∧ m'.Follows q (Conf.after cfg n evs).node := by
  cases hin with
  | @commit io id pill proof body busy hcall hbody hreach =>
    rcases reach_commit hbody hreach with h | h | ⟨io', n1, txs, hl, ⟨hk, pre', rest', hpre, rfl⟩, htxs, hg, h⟩
    · exact ⟨m, hr, hb, .inl h⟩
    · obtain ⟨h1, h2⟩ := h m (.refl m)
      refine ⟨m.step cfg (.commit { io with lock := true, alive := false } id pill proof), .step _ hr ?_, ?_, .inl h1⟩
      · exact ⟨pre, mid, [], t, io, by rw [he, List.append_nil], ⟨hcall, hfree⟩, hs, by rw [← he]; exact h1.data⟩
      · have hstep : m.step cfg (.commit { io with lock := true, alive := false } id pill proof) =
          (m.commit cfg { io with lock := true, alive := false } id pill proof).2 := rfl
        rw [hstep]
        refine ⟨by rw [h2]; exact hb.good, by rw [h2]; exact hb.cache, by rw [h2]; exact hb.callback, by rw [commit_exempt]; exact hb.exempt⟩
    · obtain ⟨f1, f2, f3, f4⟩ := fill cfg hb hk hg { pill with proposeHashes := [] } rfl rfl
      generalize hm' : m.step cfg (.check (fun _ => none) (fun _ => some txs) [] { pill with proposeHashes := [] }) = m' at *
      have r1 : Runs cfg (Justified cfg n evs) n m' := by
        rw [← hm']
        refine .step _ hr ⟨pre', rest', pill.epoch.orderedTxHashes, txs, hpre, htxs, hg, ?_⟩
        intro q xs hx
        rcases hx with hx | hx
        · cases hx
        · injection hx with hx; exact hx.symm
      obtain ⟨h1, h2⟩ := h m' f1.symm f2
      refine ⟨m'.step cfg (.commit io' id pill proof), .step _ r1 ?_, ?_, h1⟩
      · exact ⟨pre, mid, [], t, io, by rw [he, List.append_nil], ⟨hcall, hfree⟩, f1.symm.trans hs, by rw [← he]; exact h1.data⟩
      · exact .commit (by rw [f3]; exact hb.good) (by rw [f3]; exact hb.cache) f4 h2
  | @sync io msg v rest hcall hread hv hreach =>
    rcases reach_syncBody hread hv hreach with h | ⟨io', hcut, hl, h⟩
    · exact ⟨m, hr, hb, .inl h⟩
    · refine ⟨m.step cfg (.sync io' msg), .step _ hr ?_, ?_, h⟩
      · exact ⟨pre, mid, [], t, io, by rw [he, List.append_nil], hcall, hfree, hs, by rw [← he]; exact h.data, hcut.epochs, hcut.given⟩
      · have hstep : m.step cfg (.sync io' msg) = (m.updateEpoch cfg io' msg).2 := rfl
        rw [hstep]
        exact ⟨by rw [updateEpoch_pool]; exact hb.good, by rw [updateEpoch_pool]; exact hb.cache, by rw [updateEpoch_pool]; exact hb.callback,
          by rw [updateEpoch_exempt]; exact hb.exempt⟩

theorem Inside.snoc {cfg : NodeCfg} {n : Node} {evs pre : List Event} {t : Nat} {m : Node} {q : Prog} {node : Node}
    (h : Inside cfg n evs pre t m q node) (e : Event) : Inside cfg n (evs ++ [e]) pre t m q node := by
  cases h with
  | commit h1 h3 h4 => exact .commit h1 h3 (h4.mono fun _ h => h.snoc e)
  | sync h1 h2 h3 h4 => exact .sync h1 h2 h3 (h4.mono fun _ h => h.snoc e)

theorem Inside.same {cfg : NodeCfg} {n : Node} {evs pre : List Event} {t : Nat} {m : Node} {q : Prog} {node node' : Node}
    (h : Inside cfg n evs pre t m q node) (hs : node.Same node') : Inside cfg n evs pre t m q node' := by
  cases h with
  | commit h1 h3 h4 => exact .commit h1 h3 (h4.same hs)
  | sync h1 h2 h3 h4 => exact .sync h1 h2 h3 (h4.same hs)

theorem Inside.act {cfg : NodeCfg} {n : Node} {evs pre : List Event} {t : Nat} {m : Node} {f : Node → Node} {k : Node → Prog} {node : Node}
    (h : Inside cfg n evs pre t m (.act f k) node) (hs : Seen cfg n evs node) : Inside cfg n evs pre t m (k node) (f node) := by
  cases h with
  | commit h1 h3 h4 => exact .commit h1 h3 (h4.step hs)
  | sync h1 h2 h3 h4 => exact .sync h1 h2 h3 (h4.step hs)

/-- An event that changes neither the chain data nor the engine lock nor the task that holds it. -/
theorem Mirror.quiet {cfg : NodeCfg} {n : Node} {evs : List Event} {m : Node} (h : Mirror cfg n evs m) (e : Event)
    (hs : (Conf.after cfg n evs).node.Same (Conf.after cfg n (evs ++ [e])).node)
    (hl : (Conf.after cfg n (evs ++ [e])).held .engine = (Conf.after cfg n evs).held .engine)
    (ht : ∀ t, (Conf.after cfg n evs).held .engine = some t → (Conf.after cfg n (evs ++ [e])).tasks t = (Conf.after cfg n evs).tasks t) :
    Mirror cfg n (evs ++ [e]) m where
  runs := h.runs.imp fun _ _ h => h.snoc e
  blank := h.blank
  free hf := (h.free (by rw [← hl]; exact hf)).trans hs
  busy t hb := by
    rw [hl] at hb
    obtain ⟨q, pre, mid, h1, h2, h3, h4, h5⟩ := h.busy t hb
    exact ⟨q, pre, mid ++ [e], by rw [ht t hb]; exact h1, by rw [h2]; simp, h3, h4, (h5.snoc e).same hs⟩

theorem Seen.now {cfg : NodeCfg} {n : Node} {evs : List Event} (h : (Conf.after cfg n evs).node.Keyed) : Seen cfg n evs (Conf.after cfg n evs).node :=
  ⟨h, evs, [], by simp, rfl⟩

/-! ### Which call a task does -/

/-- What is known of a task: it has just been started, or it has returned, or holds a lock, or only works on the pool. -/
inductive TaskStage (cfg : NodeCfg) (n : Node) (evs : List Event) (c : Conf) (t : Nat) : Prog → Prop
  | fresh {e p} : Waits cfg n evs t e → e.prog cfg = some (t, p) → TaskStage cfg n evs c t p
  | ret {r} : TaskStage cfg n evs c t (.ret r)
  | pool {p} : p.Pooly → TaskStage cfg n evs c t p
  | held {p} (l : Lock) : c.held l = some t → TaskStage cfg n evs c t p

theorem TaskStage.other {cfg : NodeCfg} {n : Node} {evs : List Event} {c c' : Conf} {t : Nat} {p : Prog} (h : TaskStage cfg n evs c t p) {x : Event}
    (hx : x ≠ .run t) (hl : ∀ l, c.held l = some t → c'.held l = some t) : TaskStage cfg n (evs ++ [x]) c' t p := by
  cases h with
  | fresh h1 h2 =>
    obtain ⟨pre, post, h3, h4, h5, h6⟩ := h1
    refine .fresh ⟨pre, post ++ [x], by rw [h3]; simp, h4, ?_, h6⟩ h2
    intro hm
    rcases List.mem_append.1 hm with hm | hm
    · exact h5 hm
    · exact hx (List.mem_singleton.1 hm).symm
  | ret => exact .ret
  | pool h => exact .pool h
  | held l h => exact .held l (hl l h)

theorem stages (cfg : NodeCfg) (n : Node) (evs : List Event) : ∀ t p, (Conf.after cfg n evs).tasks t = some p →
    TaskStage cfg n evs (Conf.after cfg n evs) t p := by
  have snoc : ∀ l : List Event, ∀ t p, (Conf.after cfg n l.reverse).tasks t = some p → TaskStage cfg n l.reverse (Conf.after cfg n l.reverse) t p := by
    intro l
    induction l with
    | nil => intro t p h; cases h
    | cons x l ih =>
      rw [List.reverse_cons]
      generalize l.reverse = evs at ih ⊢
      clear l
      have hc := after_snoc cfg n evs x
      -- a call
      have call {t0 : Nat} {p0 : Prog} (hp : x.prog cfg = some (t0, p0)) : ∀ t p, (Conf.after cfg n (evs ++ [x])).tasks t = some p →
          TaskStage cfg n (evs ++ [x]) (Conf.after cfg n (evs ++ [x])) t p := by
        intro t p ht
        have hrun : x ≠ .run t := by rintro rfl; cases hp
        rw [step_prog hp] at hc
        have hheld : (Conf.after cfg n (evs ++ [x])).held = (Conf.after cfg n evs).held := by rw [hc]; unfold Conf.start; split <;> rfl
        have old (h : (Conf.after cfg n evs).tasks t = some p) : TaskStage cfg n (evs ++ [x]) (Conf.after cfg n (evs ++ [x])) t p :=
          (ih t p h).other hrun fun l hl => by rw [hheld]; exact hl
        rw [hc] at ht
        unfold Conf.start at ht
        split at ht
        · rename_i hn
          rw [Option.isNone_iff_eq_none] at hn
          by_cases h : t = t0
          · subst h
            simp only [Conf.setTask, if_true] at ht
            injection ht with ht
            subst ht
            exact .fresh ⟨evs, [], rfl, hn, by simp, _, hp⟩ hp
          · simp only [Conf.setTask, if_neg h] at ht
            exact old ht
        · exact old ht
      cases x with
      | callCommit t io id pill proof => exact call rfl
      | callSync t io msg => exact call rfl
      | callInsert t o b tx => exact call rfl
      | callPropose t now id => exact call rfl
      | callCheck t p1 p2 hash pill => exact call rfl
      | run t0 =>
        obtain ⟨ops, I⟩ := lockInv cfg n evs
        have ht0 := I.task t0
        generalize hC : Conf.after cfg n evs = c at *
        generalize Conf.after cfg n (evs ++ [.run t0]) = c' at *
        -- the others keep their locks
        have others {c1 : Conf} (q : Option Prog) (hc' : c' = c1.setTask t0 q) (h3 : c1.tasks = c.tasks) (hl : ∀ l t, t ≠ t0 → c.held l = some t → c1.held l = some t)
            (hq : ∀ p, q = some p → TaskStage cfg n (evs ++ [.run t0]) c' t0 p) : ∀ t p, c'.tasks t = some p → TaskStage cfg n (evs ++ [.run t0]) c' t p := by
          intro t p ht
          by_cases h : t = t0
          · subst h
            rw [hc'] at ht
            simp only [Conf.setTask, if_true] at ht
            exact hq p ht
          · rw [hc'] at ht
            simp only [Conf.setTask, if_neg h, h3] at ht
            refine (ih t p ht).other (by simpa using Ne.symm h) fun l hh => ?_
            rw [hc']
            exact hl l t h hh
        have same : ∀ l t, t ≠ t0 → c.held l = some t → c.held l = some t := fun _ _ _ h => h
        have take (l0 : Lock) (hf : c.held l0 = none) : ∀ l t, t ≠ t0 → c.held l = some t → (c.setLock l0 (some t0)).held l = some t := by
          intro l t _ h
          have : l ≠ l0 := by rintro rfl; rw [hf] at h; cases h
          simpa [Conf.setLock, this] using h
        have leave (l0 : Lock) (hf : c.held l0 = some t0) : ∀ l t, t ≠ t0 → c.held l = some t → (c.setLock l0 none).held l = some t := by
          intro l t ht h
          have : l ≠ l0 := by rintro rfl; rw [hf] at h; injection h with h; exact ht h.symm
          simpa [Conf.setLock, this] using h
        cases hq : c.tasks t0 with
        | none =>
          have hc : c' = c := by rw [hc]; simp only [Conf.step, hq]
          intro t p ht
          rw [hc] at ht ⊢
          have h : t ≠ t0 := by rintro rfl; rw [hq] at ht; cases ht
          exact (ih t p ht).other (by simpa using Ne.symm h) fun _ h => h
        | some p =>
          rw [hq] at ht0
          cases ht0 with
          | pool a b hp =>
            cases hp with
            | ret hr' => simp only [Conf.step, hq] at hc; exact others _ hc rfl same fun p h => by cases h
            | act hf hk' => simp only [Conf.step, hq] at hc; exact others _ hc rfl same fun p h => by cases h; exact .pool (hk' _)
          | @commit io id pill proof a b hm =>
            have hshape : ∃ body r, Prog.commit cfg io id pill proof = .lock .engine body (.ret r) := ⟨_, _, rfl⟩
            obtain ⟨body, r, hb⟩ := hshape
            simp only [Conf.step, hq, hb] at hc
            split at hc
            · rename_i hfree
              rw [Option.isNone_iff_eq_none] at hfree
              exact others _ hc rfl (take _ hfree) fun p h => .held .engine (by rw [hc]; simp [Conf.setTask, Conf.setLock])
            · exact others _ hc rfl same fun p h => by cases h; exact .ret
          | @sync io msg a b hm =>
            have hshape : ∃ body r, Prog.sync cfg io msg = .lock .sync body (.ret r) := ⟨_, _, rfl⟩
            obtain ⟨body, r, hb⟩ := hshape
            simp only [Conf.step, hq, hb] at hc
            split at hc
            · rename_i hfree
              rw [Option.isNone_iff_eq_none] at hfree
              exact others _ hc rfl (take _ hfree) fun p h => .held .sync (by rw [hc]; simp [Conf.setTask, Conf.setLock])
            · exact others _ hc rfl same fun p h => by cases h; exact .ret
          | ret a b hx => simp only [Conf.step, hq] at hc; exact others _ hc rfl same fun p h => by cases h
          | leave a b hx =>
            have b : c.held .sync = some t0 := by simpa using b
            simp only [Conf.step, hq] at hc
            exact others _ hc rfl (leave _ b) fun p h => by cases h; exact .ret
          | look a b hm hr' =>
            have b : c.held .sync = some t0 := by simpa using b
            simp only [Conf.step, hq, Prog.look] at hc
            exact others _ hc rfl same fun p h => .held .sync (by rw [hc]; exact b)
          | @wait io msg v rest cur a b hm hr' hv hcur =>
            have b : c.held .sync = some t0 := by simpa using b
            simp only [Conf.step, hq] at hc
            split at hc
            · rename_i hfree
              rw [Option.isNone_iff_eq_none] at hfree
              exact others _ hc rfl (take _ hfree) fun p h => .held .engine (by rw [hc]; simp [Conf.setTask, Conf.setLock])
            · exact others _ hc rfl same fun p h => .held .sync (by rw [hc]; exact b)
          | inside a hsec hout =>
            have a : c.held .engine = some t0 := by simpa using a
            cases hsec with
            | act hk' =>
              simp only [Conf.step, hq] at hc
              exact others _ hc rfl same fun p h => .held .engine (by rw [hc]; exact a)
            | @unlock k =>
              obtain ⟨op, -, -, h3⟩ := hout k c.node (.unlock (.refl _))
              simp only [Conf.step, hq] at hc
              refine others _ hc rfl (leave _ a) fun p h => ?_
              injection h with h
              subst h
              rcases h3 with ⟨rfl, -⟩ | ⟨rfl, hs⟩
              · exact .ret
              · have hs : c.held .sync = some t0 := by simpa using hs
                exact .held .sync (by rw [hc]; simpa [Conf.setTask, Conf.setLock] using hs)
  simpa using snoc evs.reverse

/-- A task that is about to lock the engine, without any lock, has just been called to commit. -/
theorem waits_commit {cfg : NodeCfg} {n : Node} {evs : List Event} {t : Nat} {a b : Prog} (ht : (Conf.after cfg n evs).tasks t = some (.lock .engine a b))
    (h1 : (Conf.after cfg n evs).held .engine ≠ some t) (h2 : (Conf.after cfg n evs).held .sync ≠ some t) :
    ∃ io id pill proof, Waits cfg n evs t (.callCommit t io id pill proof) ∧ Prog.commit cfg io id pill proof = .lock .engine a b := by
  have hs := stages cfg n evs t _ ht
  cases hs with
  | @fresh e _ hw hp =>
    cases e with
    | callCommit t' io id pill proof =>
      injection hp with hp
      injection hp with hp1 hp2
      subst hp1
      exact ⟨io, id, pill, proof, hw, hp2⟩
    | callSync t' io msg =>
      injection hp with hp
      injection hp with hp1 hp2
      unfold Prog.sync at hp2
      cases hp2
    | callInsert t' o b' tx => injection hp with hp; injection hp with _ hp2; have := pooly_insert cfg o b' tx; rw [hp2] at this; cases this
    | callPropose t' now id => injection hp with hp; injection hp with _ hp2; have := pooly_propose cfg now id; rw [hp2] at this; cases this
    | callCheck t' p1 p2 ha pill => injection hp with hp; injection hp with _ hp2; have := pooly_check p1 p2 ha pill; rw [hp2] at this; cases this
    | run t' => cases hp
  | pool h => cases h
  | held l h => cases l <;> contradiction

/-- One more event. -/
theorem Mirror.step {cfg : NodeCfg} {n : Node} {evs : List Event} {m : Node} (h : Mirror cfg n evs m)
    (ha : (∃ t io msg, Event.callSync t io msg ∈ evs) → Apart cfg n evs)
    (hk : (Conf.after cfg n evs).node.Keyed) (e : Event) : ∃ m', Mirror cfg n (evs ++ [e]) m' := by
  have hc := after_snoc cfg n evs e
  obtain ⟨ops, I⟩ := lockInv cfg n evs
  -- a call starts
  have hstart {t : Nat} {p : Prog} (hp : (Conf.after cfg n evs).step cfg e = (Conf.after cfg n evs).start t p) : ∃ m', Mirror cfg n (evs ++ [e]) m' := by
    rw [hp] at hc
    refine ⟨m, h.quiet e (by rw [hc]; exact start_same _ _ _) ?_ fun t' ht' => ?_⟩
    · rw [hc]; unfold Conf.start; split <;> rfl
    · rw [hc]
      unfold Conf.start
      split
      · rename_i hn
        obtain ⟨q, -, -, h1, -⟩ := h.busy t' ht'
        have : t' ≠ t := by rintro rfl; rw [h1] at hn; cases hn
        simp [Conf.setTask, this]
      · rfl
  cases e with
  | callCommit t io id pill proof => exact hstart rfl
  | callSync t io msg => exact hstart rfl
  | callInsert t o b tx => exact hstart rfl
  | callPropose t now id => exact hstart rfl
  | callCheck t p1 p2 hash pill => exact hstart rfl
  | run t =>
    have ht := I.task t
    -- the task does not hold the engine lock and does not take it
    have quiet (hne : (Conf.after cfg n evs).held .engine ≠ some t) {c' : Conf} (p : Option Prog) (hc' : (Conf.after cfg n evs).step cfg (.run t) = c'.setTask t p)
        (h1 : (Conf.after cfg n evs).node.Same c'.node) (h2 : c'.held .engine = (Conf.after cfg n evs).held .engine)
        (h3 : c'.tasks = (Conf.after cfg n evs).tasks) : ∃ m', Mirror cfg n (evs ++ [.run t]) m' := by
      rw [hc'] at hc
      refine ⟨m, h.quiet _ (by rw [hc]; exact h1) (by rw [hc]; exact h2) fun t' ht' => ?_⟩
      have : t' ≠ t := by rintro rfl; exact hne ht'
      rw [hc]
      simp [Conf.setTask, this, h3]
    have hset (c : Conf) (t : Nat) (p : Option Prog) : (c.setTask t p).tasks t = p := by simp [Conf.setTask]
    -- it takes the lock
    have take {body : Prog} (hfree : (Conf.after cfg n evs).held .engine = none)
        (hc' : (Conf.after cfg n evs).step cfg (.run t) = ((Conf.after cfg n evs).setLock .engine (some t)).setTask t (some body))
        (hin : Inside cfg n (evs ++ [.run t]) evs t m body (Conf.after cfg n evs).node) : ∃ m', Mirror cfg n (evs ++ [.run t]) m' := by
      rw [hc'] at hc
      refine ⟨m, h.runs.imp fun _ _ h => h.snoc _, h.blank, fun hf => ?_, fun t' ht' => ?_⟩
      · rw [hc] at hf; simp [Conf.setTask, Conf.setLock] at hf
      · have : t' = t := by rw [hc] at ht'; simpa [Conf.setTask, Conf.setLock, eq_comm] using ht'
        subst this
        exact ⟨body, evs, [], by rw [hc, hset], rfl, hfree, h.free hfree, by rw [hc]; exact hin⟩
    have hrun : ∀ p, (Conf.after cfg n evs).tasks t = some p → (Conf.after cfg n evs).step cfg (.run t) = match p with
        | .ret _ => (Conf.after cfg n evs).setTask t none
        | .act f k => { Conf.after cfg n evs with node := f (Conf.after cfg n evs).node }.setTask t (some (k (Conf.after cfg n evs).node))
        | .lock l ok busy => if ((Conf.after cfg n evs).held l).isNone then ((Conf.after cfg n evs).setLock l (some t)).setTask t (some ok)
            else (Conf.after cfg n evs).setTask t (some busy)
        | .unlock l k => ((Conf.after cfg n evs).setLock l none).setTask t (some k) := by
      intro p hp
      simp only [Conf.step, hp]
      cases p <;> rfl
    cases hq : (Conf.after cfg n evs).tasks t with
    | none =>
      have hc' : Conf.after cfg n (evs ++ [.run t]) = Conf.after cfg n evs := by rw [hc]; simp only [Conf.step, hq]
      exact ⟨m, h.quiet _ (by rw [hc']; exact .refl _) (by rw [hc']) fun _ _ => by rw [hc']⟩
    | some p =>
      have hr := hrun p hq
      rw [hq] at ht
      cases ht with
      | pool a b hp =>
        have a : (Conf.after cfg n evs).held .engine ≠ some t := by simpa using a
        cases hp with
        | ret hr' => exact quiet a none hr (.refl _) rfl rfl
        | act hf hk' => exact quiet a _ hr (hf _) rfl rfl
      | @commit io id pill proof a b hm =>
        have a : (Conf.after cfg n evs).held .engine ≠ some t := by simpa using a
        have hshape : ∃ body busy, Prog.commit cfg io id pill proof = .lock .engine body busy := ⟨_, _, rfl⟩
        obtain ⟨body, busy, hb⟩ := hshape
        rw [hb] at hr
        simp only at hr
        split at hr
        · rename_i hfree
          rw [Option.isNone_iff_eq_none] at hfree
          obtain ⟨io', id', pill', proof', hw, hp'⟩ := waits_commit (by rw [hq, hb]) a (by simpa using b)
          exact take hfree hr (.commit hw hp' (.here (h.free hfree)))
        · exact quiet a _ hr (.refl _) rfl rfl
      | @sync io msg a b hm =>
        have a : (Conf.after cfg n evs).held .engine ≠ some t := by simpa using a
        have hshape : ∃ body busy, Prog.sync cfg io msg = .lock .sync body busy := ⟨_, _, rfl⟩
        obtain ⟨body, busy, hb⟩ := hshape
        rw [hb] at hr
        simp only at hr
        split at hr
        · exact quiet a _ hr (.refl _) (by simp [Conf.setLock]) rfl
        · exact quiet a _ hr (.refl _) rfl rfl
      | ret a b hx =>
        have a : (Conf.after cfg n evs).held .engine ≠ some t := by simpa using a
        exact quiet a none hr (.refl _) rfl rfl
      | leave a b hx =>
        have a : (Conf.after cfg n evs).held .engine ≠ some t := by simpa using a
        exact quiet a _ hr (.refl _) (by simp [Conf.setLock]) rfl
      | look a b hm hr' =>
        have a : (Conf.after cfg n evs).held .engine ≠ some t := by simpa using a
        exact quiet a _ hr (.refl _) rfl rfl
      | @wait io msg v rest cur a b hm hr' hv hcur =>
        have a : (Conf.after cfg n evs).held .engine ≠ some t := by simpa using a
        simp only at hr
        split at hr
        · rename_i hfree
          rw [Option.isNone_iff_eq_none] at hfree
          have hcur := (hcur (ha ⟨_, _, _, hm⟩)).trans (currentId_same (h.free hfree)).symm
          subst hcur
          exact take hfree hr (.sync hm hr' hv (.here (h.free hfree)))
        · exact quiet a _ hr (.refl _) rfl rfl
      | inside a hsec hout =>
        have a : (Conf.after cfg n evs).held .engine = some t := by simpa using a
        obtain ⟨q, pre, mid, h1, h2, h3, h4, h5⟩ := h.busy t a
        rw [hq] at h1
        injection h1 with h1
        subst h1
        cases hsec with
        | @act f k hk' =>
          rw [hr] at hc
          refine ⟨m, h.runs.imp fun _ _ h => h.snoc _, h.blank, fun hf => ?_, fun t' ht' => ?_⟩
          · rw [hc] at hf
            have hf : (Conf.after cfg n evs).held .engine = none := hf
            rw [a] at hf; cases hf
          · have : t' = t := by
              rw [hc] at ht'
              have ht' : (Conf.after cfg n evs).held .engine = some t' := ht'
              rw [a] at ht'
              injection ht' with ht'
              exact ht'.symm
            subst this
            refine ⟨k (Conf.after cfg n evs).node, pre, mid ++ [.run t'], by rw [hc, hset], by rw [h2]; simp, h3, h4, ?_⟩
            rw [hc]
            exact (h5.act (Seen.now hk)).snoc _
        | @unlock k =>
          rw [hr] at hc
          obtain ⟨m', r1, r2, r3⟩ := Mirror.finish h.runs h.blank h2 h3 h4 h5
          have r3 : m'.Same (Conf.after cfg n evs).node := by
            rcases r3 with r3 | ⟨-, f, k, hx⟩
            · exact r3
            · cases hx
          refine ⟨m', r1.imp fun _ _ h => h.snoc _, r2, fun _ => by rw [hc]; exact r3, fun t' ht' => ?_⟩
          rw [hc] at ht'
          simp [Conf.setTask, Conf.setLock] at ht'

/-- At every moment. -/
theorem Mirror.after {cfg : NodeCfg} {n : Node} (hb : n.Blank) (evs : List Event) (ha : (∃ t io msg, Event.callSync t io msg ∈ evs) → Apart cfg n evs)
    (hk : ∀ pre post, evs = pre ++ post → (Conf.after cfg n pre).node.Keyed) : ∃ m, Mirror cfg n evs m := by
  have snoc : ∀ l : List Event, ((∃ t io msg, Event.callSync t io msg ∈ l.reverse) → Apart cfg n l.reverse) → (∀ pre post, l.reverse = pre ++ post → (Conf.after cfg n pre).node.Keyed) → ∃ m, Mirror cfg n l.reverse m := by
    intro l
    induction l with
    | nil => exact fun _ _ => ⟨n, .refl, hb, fun _ => .refl _, fun t ht => by cases ht⟩
    | cons e l ih =>
      rw [List.reverse_cons]
      intro ha hk
      have ha' : (∃ t io msg, Event.callSync t io msg ∈ l.reverse) → Apart cfg n l.reverse :=
        fun ⟨t, io, msg, hm⟩ => (ha ⟨t, io, msg, List.mem_append_left _ hm⟩).left
      obtain ⟨m, h⟩ := ih ha' fun pre post hp => hk pre (post ++ [e]) (by rw [hp, List.append_assoc])
      exact h.step ha' (hk l.reverse [e] rfl) e
  simpa using snoc evs.reverse (by simpa using ha) (by simpa using hk)

/-- The data of a process at every moment of a schedule is that of calls in sequence. -/
theorem linear {cfg : NodeCfg} {n : Node} (hb : n.Blank) (evs : List Event) (ha : (∃ t io msg, Event.callSync t io msg ∈ evs) → Apart cfg n evs)
    (hk : ∀ pre post, evs = pre ++ post → (Conf.after cfg n pre).node.Keyed) :
    ∃ m, Runs cfg (Justified cfg n evs) n m ∧ m.SameData (Conf.after cfg n evs).node := by
  obtain ⟨m, h⟩ := Mirror.after hb evs ha hk
  cases he : (Conf.after cfg n evs).held .engine with
  | none => exact ⟨m, h.runs, (h.free he).data⟩
  | some t =>
    obtain ⟨q, pre, mid, h1, h2, h3, h4, h5⟩ := h.busy t he
    obtain ⟨m', r1, r2, r3⟩ := Mirror.finish h.runs h.blank h2 h3 h4 h5
    exact ⟨m', r1, r3.data⟩

/-! ### Lifetimes -/

/-- A process of the lifetime starts with node `n0`; `older`: what the processes before it recorded. -/
inductive CStart (cfg : NodeCfg) (g : Genesis) (ok : Node → List Event → Prop) : Node → List Done → Prop
  | init {s t n0} : handleInit cfg g Store.empty PMap.empty = some (s, t) → startNode cfg s t = some n0 → CStart cfg g ok n0 []
  | restart {n older s t n0} : CHistory cfg g ok n older → handleInit cfg g n.store n.tries = some (s, t) → startNode cfg s t = some n0 →
      CStart cfg g ok n0 (n.log ++ older)

/-- If anything is synchronised, then no commit holds the engine lock while another task is synchronising (cf. `C63_refuted`). -/
def SyncApart (cfg : NodeCfg) (n : Node) (evs : List Event) : Prop := (∃ t io msg, Event.callSync t io msg ∈ evs) → Apart cfg n evs

/-- A sequential call that a schedule of the lifetime justifies. -/
def CJustified (cfg : NodeCfg) (g : Genesis) (ok : Node → List Event → Prop) (m : Node) (op : NodeOp) : Prop :=
  ∃ n0 older evs, CStart cfg g ok n0 older ∧ ok n0 evs ∧ Justified cfg n0 evs m op

theorem closed_true (cfg : NodeCfg) : Closed cfg (fun _ => True) (fun _ => True) := ⟨trivial, fun _ _ _ => trivial⟩

theorem brings_true (cfg : NodeCfg) (e : Event) : e.Brings cfg (fun _ => True) := by cases e <;> simp [Event.Brings]

theorem CStart.blank {cfg : NodeCfg} {g : Genesis} {ok : Node → List Event → Prop} {n0 : Node} {older : List Done} (h : CStart cfg g ok n0 older) :
    n0.Blank ∧ CInv (fun _ => True) (fun _ => True) n0 := by
  have key {s s' t t'} (hi : handleInit cfg g s t = some (s', t')) (hs : startNode cfg s' t' = some n0) : n0.Blank ∧ CInv (fun _ => True) (fun _ => True) n0 := by
    have hc : CInv (fun _ => True) (fun _ => True) n0 := CInv.start (fun _ _ => trivial) (fun _ _ _ => trivial) (fun _ _ _ => trivial) hi hs
    obtain ⟨e, -, -, -, -, -, hx, hp⟩ := startNode_some hs
    refine ⟨⟨hc.good, ?_, ?_, hx⟩, hc⟩
    · rw [hp]; exact fun _ => rfl
    · rw [hp]; exact fun _ => rfl
  cases h with
  | init h1 h2 => exact key h1 h2
  | restart _ h1 h2 => exact key h1 h2

theorem CInv.keyed {P : SignedTx → Prop} {W : World → Prop} {n : Node} (h : CInv P W n) : n.Keyed := ⟨h.good, h.keys⟩

/-- **C102 (partial: no commit while another task synchronises, `SyncApart`; see `C63_refuted` for what happens otherwise).**  Whatever calls of a
node overlap and however their accesses are interleaved, with processes killed at any moment: what is stored, the states and the record are
those of a lifetime in which the calls were made one after the other. -/
theorem C102_partial {cfg : NodeCfg} {g : Genesis} {ok : Node → List Event → Prop} (ho : ∀ n evs, ok n evs → SyncApart cfg n evs) {n : Node} {older : List Done}
    (h : CHistory cfg g ok n older) : ∃ m, History cfg g (CJustified cfg g ok) m older ∧ m.SameData n := by
  have key {n0 : Node} {older : List Done} (evs : List Event) (hs : CStart cfg g ok n0 older) (hev : ok n0 evs)
      (h0 : History cfg g (CJustified cfg g ok) n0 older) : ∃ m, History cfg g (CJustified cfg g ok) m older ∧ m.SameData (Conf.after cfg n0 evs).node := by
    obtain ⟨hb, hc⟩ := hs.blank
    obtain ⟨m, hr, hd⟩ := linear hb evs (ho n0 evs hev) fun pre post _ => (hc.after (closed_true cfg) fun e _ => brings_true cfg e).keyed
    refine ⟨m, ?_, hd⟩
    clear hd
    induction hr with
    | refl => exact h0
    | step op _ hj ih => exact .step op ih ⟨n0, older, evs, hs, hev, hj⟩
  induction h with
  | init evs h1 h2 hev => exact key evs (.init h1 h2) hev (.init h1 h2)
  | restart evs hh h1 h2 hev ih =>
    obtain ⟨m, hm, hd⟩ := ih
    refine key evs (.restart hh h1 h2) hev ?_
    rw [← hd.log]
    exact .restart hm (by rw [hd.store, hd.tries]; exact h1) h2

theorem History.imp {cfg : NodeCfg} {g : Genesis} {ok ok' : Node → NodeOp → Prop} {n : Node} {older : List Done} (h : History cfg g ok n older)
    (hi : ∀ m op, ok m op → ok' m op) : History cfg g ok' n older := by
  induction h with
  | init h1 h2 => exact .init h1 h2
  | step op _ ho ih => exact .step op ih (hi _ _ ho)
  | restart _ h1 h2 ih => exact .restart ih h1 h2

end Huobi
