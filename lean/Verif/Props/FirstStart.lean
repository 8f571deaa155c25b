import Verif.Model.FirstStart
import Verif.Props.Lifetime
/-! C103: a first start that is cut off. -/
namespace Huobi

theorem Store.writes_nil (s : Store) : s.writes [] = s := rfl

/-- The genesis does not depend on what is in the state database. -/
theorem runGenesis_fst (env : Env) (db db' : StateDB) (g : Genesis) : (runGenesis env db g).1 = (runGenesis env db' g).1 := by
  unfold runGenesis fromRoot
  rw [if_pos rfl, if_pos rfl]
  simp only
  cases createGenesis env g (St.open World.empty) with
  | mk a s => cases a <;> rfl

theorem runGenesis_snd {env : Env} {g : Genesis} {root : MerkleRoot} (h : (runGenesis env PMap.empty g).1 = some (.ok root)) :
    ∃ w, ∀ db, runGenesis env db g = (some (.ok root), PMap.set db (env.rootOf w) w) := by
  unfold runGenesis fromRoot at *
  simp only [if_pos] at *
  generalize hx : createGenesis env g (St.open World.empty) = x at *
  obtain ⟨a, s⟩ := x
  cases a with
  | error f => cases h
  | ok r =>
    simp only [Option.some.injEq, Except.ok.injEq] at h
    subst h
    exact ⟨s.committed, fun db => rfl⟩

theorem set_set {K V : Type} [DecidableEq K] (m : PMap K V) (k : K) (v : V) : PMap.set (PMap.set m k v) k v = PMap.set m k v := by
  funext i
  simp only [PMap.set]
  split <;> rfl

/-- What the cut starts leave, when the genesis is executable. -/
theorem cutStarts_data {cfg : NodeCfg} {g : Genesis} {root : MerkleRoot} {w : World}
    (hw : ∀ db, runGenesis (cfg.env 0 cfg.cyclesPrice (.user cfg.selfAddress)) db g = (some (.ok root), PMap.set db (cfg.rootOf w) w))
    {s : Store} {t : StateDB} (h : CutStarts cfg g s t) :
    (t = PMap.empty ∧ s = Store.empty) ∨ t = PMap.set PMap.empty (cfg.rootOf w) w ∧ ∃ k, s = Store.empty.writes ((initWrites cfg g root).take k) := by
  have hlen : (initWrites cfg g root).length = 4 := rfl
  induction h with
  | new => exact .inl ⟨rfl, rfl⟩
  | @cut s t k h ih =>
    unfold initCut
    cases hl : s.latest with
    | some e => exact ih
    | none =>
      cases k with
      | none => exact ih
      | some k =>
        right
        simp only [hw]
        rcases ih with ⟨rfl, rfl⟩ | ⟨rfl, j, rfl⟩
        · exact ⟨rfl, k, rfl⟩
        · refine ⟨set_set _ _ _, max j k, ?_⟩
          have hj : j < 3 := by
            rcases Nat.lt_or_ge j 3 with h | h
            · exact h
            · exfalso
              obtain ⟨j, rfl⟩ : ∃ i, j = i + 3 := ⟨j - 3, by omega⟩
              rcases j with _ | j <;> simp [initWrites, StoreOp.writes, Store.writes, Store.write, Store.empty] at hl
          have hk : (initWrites cfg g root).take k = (initWrites cfg g root).take (min k 4) := by
            rcases Nat.le_total k 4 with h | h
            · rw [Nat.min_eq_left h]
            · rw [List.take_of_length_le (by omega), List.take_of_length_le (by omega)]
          have hm : (initWrites cfg g root).take (max j k) = (initWrites cfg g root).take (max j (min k 4)) := by
            rcases Nat.le_total k 4 with h | h
            · rw [Nat.min_eq_left h]
            · rw [List.take_of_length_le (by omega), List.take_of_length_le (by omega)]
          rw [hk, hm]
          have hi : min k 4 ≤ 4 := by omega
          generalize min k 4 = i at hi
          have twice {A : Type} (c : Prop) [Decidable c] (a b : A) : (if c then a else if c then a else b) = if c then a else b := by split <;> rfl
          rcases j with _ | _ | _ | j <;> rcases i with _ | _ | _ | _ | _ | i <;> first | omega | skip
          all_goals simp [initWrites, StoreOp.writes, Store.writes, Store.write, Store.empty, twice]

/-- A second start goes the same way as the first. -/
theorem handleInit_cut {cfg : NodeCfg} {g : Genesis} {s : Store} {t : StateDB} (h : CutStarts cfg g s t) :
    (handleInit cfg g Store.empty PMap.empty = none ∧ handleInit cfg g s t = none) ∨
    ∃ s0 t0 p, handleInit cfg g Store.empty PMap.empty = some (s0, t0) ∧ handleInit cfg g s t = some ({ s0 with proof := p }, t0) ∧
      (p = s0.proof ∨ p = none) := by
  generalize hx : (runGenesis (cfg.env 0 cfg.cyclesPrice (.user cfg.selfAddress)) PMap.empty g).1 = x
  have bad (hb : ∀ r, x ≠ some (.ok r)) : handleInit cfg g Store.empty PMap.empty = none ∧ handleInit cfg g s t = none := by
    have hs : s = Store.empty ∧ t = PMap.empty := by
      induction h with
      | new => exact ⟨rfl, rfl⟩
      | @cut s t k h ih =>
        obtain ⟨rfl, rfl⟩ := ih
        unfold initCut
        cases k with
        | none => exact ⟨rfl, rfl⟩
        | some k =>
          simp only [Store.empty]
          split
          · rename_i r t' hr
            exact absurd (by rw [← hx, hr]) (hb r)
          · exact ⟨rfl, rfl⟩
    obtain ⟨rfl, rfl⟩ := hs
    have : handleInit cfg g Store.empty PMap.empty = none := by
      unfold handleInit
      simp only [Store.empty]
      split
      · rename_i r t' hr
        exact absurd (by rw [← hx, hr]) (hb r)
      · rfl
    exact ⟨this, this⟩
  match x, hx, bad with
  | none, hx, bad => exact .inl (bad fun r => by simp)
  | some (.error f), hx, bad => exact .inl (bad fun r => by simp)
  | some (.ok root), hx, _ =>
    right
    obtain ⟨w, hw⟩ := runGenesis_snd hx
    have h0 : handleInit cfg g Store.empty PMap.empty = some (Store.empty.writes (initWrites cfg g root), PMap.set PMap.empty (cfg.rootOf w) w) := by
      unfold handleInit
      simp only [Store.empty, hw]
      rfl
    have hgo {s : Store} {t : StateDB} (hl : s.latest = none) : handleInit cfg g s t = some (s.writes (initWrites cfg g root), PMap.set t (cfg.rootOf w) w) := by
      unfold handleInit
      simp only [hl, hw]
      rfl
    have hstay {s : Store} {t : StateDB} (hl : s.latest ≠ none) : handleInit cfg g s t = some (s, t) := by
      unfold handleInit
      cases hs : s.latest with
      | none => exact absurd hs hl
      | some e => rfl
    rcases cutStarts_data hw h with ⟨rfl, rfl⟩ | ⟨rfl, k, rfl⟩
    · exact ⟨_, _, _, h0, h0, .inl rfl⟩
    · have hlen : (initWrites cfg g root).length = 4 := rfl
      refine ⟨Store.empty.writes (initWrites cfg g root), PMap.set PMap.empty (cfg.rootOf w) w, ?_⟩
      have hk : (initWrites cfg g root).take k = (initWrites cfg g root).take (min k 4) := by
        rcases Nat.le_total k 4 with h | h
        · rw [Nat.min_eq_left h]
        · rw [List.take_of_length_le (by omega), List.take_of_length_le (by omega)]
      rw [hk]
      have hi : min k 4 ≤ 4 := by omega
      generalize min k 4 = i at hi
      have twice {A : Type} (c : Prop) [Decidable c] (a b : A) : (if c then a else if c then a else b) = if c then a else b := by split <;> rfl
      rcases i with _ | _ | _ | _ | _ | i
      · exact ⟨_, h0, by rw [hgo rfl, set_set]; rfl, .inl rfl⟩
      · refine ⟨_, h0, ?_, .inl rfl⟩
        rw [hgo rfl, set_set]
        simp [initWrites, StoreOp.writes, Store.writes, Store.write, Store.empty, twice]
      · refine ⟨_, h0, ?_, .inl rfl⟩
        rw [hgo rfl, set_set]
        simp [initWrites, StoreOp.writes, Store.writes, Store.write, Store.empty, twice]
      · refine ⟨none, h0, ?_, .inr rfl⟩
        rw [hstay (by simp [initWrites, StoreOp.writes, Store.writes, Store.write])]
        simp [initWrites, StoreOp.writes, Store.writes, Store.write, Store.empty]
      · refine ⟨_, h0, ?_, .inl rfl⟩
        rw [hstay (by simp [initWrites, StoreOp.writes, Store.writes, Store.write])]
        simp [initWrites, StoreOp.writes, Store.writes, Store.write, Store.empty]
      · omega

/-! ### The record of the latest proof is not read -/

/-- The node without the record of the latest proof. -/
def Node.noProof (n : Node) : Node := { n with store := { n.store with proof := none } }

/-- The same node, or without the record of the latest proof. -/
def Node.Near (n m : Node) : Prop := m = n ∨ m = n.noProof

/-- A call that does not read the record of the latest proof. -/
def ProofBlind {A : Type} (f : Node → A × Node) : Prop := ∀ n, (f n.noProof).1 = (f n).1 ∧ (f n).2.Near (f n.noProof).2

theorem ProofBlind.near {A : Type} {f : Node → A × Node} (h : ProofBlind f) {n m : Node} (hn : n.Near m) : (f m).1 = (f n).1 ∧ (f n).2.Near (f m).2 := by
  rcases hn with rfl | rfl
  · exact ⟨rfl, .inl rfl⟩
  · exact h n

theorem blind_saveProof (cfg : NodeCfg) (io : SaveIo) (pr : Proof) : ProofBlind (fun n => n.saveProof cfg io pr) := by
  intro n
  unfold Node.saveProof
  simp only
  split
  · exact ⟨rfl, .inl rfl⟩
  · exact ⟨rfl, .inr rfl⟩

theorem blind_exec (cfg : NodeCfg) (root : MerkleRoot) (id : UInt64) (cb : Address) (txs : List SignedTx) : ProofBlind (fun n => n.exec cfg root id cb txs) := by
  intro n
  have hr : runBlock (cfg.env id n.noProof.status.cyclesPrice cb) n.noProof.tries root txs = runBlock (cfg.env id n.status.cyclesPrice cb) n.tries root txs := rfl
  unfold Node.exec
  simp only [hr]
  generalize runBlock (cfg.env id n.status.cyclesPrice cb) n.tries root txs = x
  obtain ⟨a, db⟩ := x
  cases a with
  | none => exact ⟨rfl, .inr rfl⟩
  | some a =>
    cases a with
    | error f => cases f <;> exact ⟨rfl, .inr rfl⟩
    | ok r => exact ⟨rfl, .inr rfl⟩

theorem blind_updateStatus (cfg : NodeCfg) (io : SaveIo) (root : MerkleRoot) (id : UInt64) (epoch : Epoch) (proof : Proof) (resp : ExecResp)
    (txs : List SignedTx) : ProofBlind (fun n => n.updateStatus cfg io root id epoch proof resp txs) := by
  intro n
  unfold Node.updateStatus
  simp only
  split
  · exact ⟨rfl, .inr rfl⟩
  split
  · exact ⟨rfl, .inr rfl⟩
  have hw (s : Store) (k : Nat) : ({ s with proof := none } : Store).writes ((StoreOp.writes cfg.digest (.insertEpoch epoch)).take k) =
      { s.writes ((StoreOp.writes cfg.digest (.insertEpoch epoch)).take k) with proof := none } := by
    rcases k with _ | _ | _ | k <;> simp [StoreOp.writes, Store.writes, Store.write]
  have h2 : (n.noProof.store.writes (StoreOp.writes cfg.digest (.insertReceipts resp.receipts))).writes (StoreOp.writes cfg.digest (.insertTransactions txs)) =
      { (n.store.writes (StoreOp.writes cfg.digest (.insertReceipts resp.receipts))).writes (StoreOp.writes cfg.digest (.insertTransactions txs)) with proof := none } := rfl
  rw [h2, hw]
  split
  · exact ⟨rfl, .inr rfl⟩
  · exact ⟨rfl, .inr rfl⟩

theorem blind_commit (cfg : NodeCfg) (io : CommitIo) (id : UInt64) (pill : Pill) (proof : OverlordProof) : ProofBlind (fun n => n.commit cfg io id pill proof) := by
  intro n
  unfold Node.commit
  simp only
  split
  · exact ⟨rfl, .inr rfl⟩
  split
  · exact ⟨rfl, .inr rfl⟩
  rename_i p _
  have h1 := blind_saveProof cfg io.save p n
  beta_reduce at h1
  revert h1
  generalize n.saveProof cfg io.save p = x
  generalize n.noProof.saveProof cfg io.save p = y
  obtain ⟨a, n1⟩ := x
  obtain ⟨b, m1⟩ := y
  rintro ⟨rfl, h1⟩
  simp only at h1 ⊢
  cases b with
  | error e => exact ⟨rfl, h1⟩
  | ok u =>
    simp only
    split
    · exact ⟨rfl, h1⟩
    have hp : m1.pool = n1.pool := by rcases h1 with rfl | rfl <;> rfl
    rw [hp]
    split
    · exact ⟨rfl, h1⟩
    rename_i txs _
    unfold Node.commitTail
    simp only [hp]
    have hs : m1.status = n1.status := by rcases h1 with rfl | rfl <;> rfl
    have h2 : Node.Near { n1 with pool := n1.pool.flush pill.epoch.orderedTxHashes } { m1 with pool := n1.pool.flush pill.epoch.orderedTxHashes, status := n1.status } := by
      rcases h1 with rfl | rfl
      · exact .inl rfl
      · exact .inr rfl
    have h3 := (blind_exec cfg n1.status.stateRoot id (.user pill.epoch.header.proposer) txs).near h2
    rw [hs]
    beta_reduce at h3
    revert h3
    generalize Node.exec cfg n1.status.stateRoot id (.user pill.epoch.header.proposer) txs { n1 with pool := n1.pool.flush pill.epoch.orderedTxHashes } = x
    generalize Node.exec cfg n1.status.stateRoot id (.user pill.epoch.header.proposer) txs { m1 with pool := n1.pool.flush pill.epoch.orderedTxHashes, status := n1.status } = y
    obtain ⟨a, n2⟩ := x
    obtain ⟨b, m2⟩ := y
    rintro ⟨rfl, h3⟩
    simp only at h3 ⊢
    cases b with
    | error e => exact ⟨rfl, h3⟩
    | ok resp =>
      simp only
      have h4 := (blind_updateStatus cfg io.save n1.status.stateRoot id pill.epoch p resp txs).near h3
      beta_reduce at h4
      revert h4
      generalize n2.updateStatus cfg io.save n1.status.stateRoot id pill.epoch p resp txs = x
      generalize m2.updateStatus cfg io.save n1.status.stateRoot id pill.epoch p resp txs = y
      obtain ⟨a, n3⟩ := x
      obtain ⟨b, m3⟩ := y
      rintro ⟨rfl, h4⟩
      simp only at h4 ⊢
      cases b with
      | error e => exact ⟨rfl, h4⟩
      | ok v => simp only; split <;> exact ⟨rfl, h4⟩

theorem blind_syncOne (cfg : NodeCfg) (io : SyncIo) (k : Nat) (id : UInt64) (ch sr : Hash) : ProofBlind (fun n => n.syncOne cfg io k id ch sr) := by
  intro n
  unfold Node.syncOne
  simp only
  split
  · exact ⟨rfl, .inr rfl⟩
  rename_i epoch _
  split
  · exact ⟨rfl, .inr rfl⟩
  have h1 := blind_saveProof cfg (io.save k) epoch.header.proof n
  beta_reduce at h1
  revert h1
  generalize n.saveProof cfg (io.save k) epoch.header.proof = x
  generalize n.noProof.saveProof cfg (io.save k) epoch.header.proof = y
  obtain ⟨a, n1⟩ := x
  obtain ⟨b, m1⟩ := y
  rintro ⟨rfl, h1⟩
  simp only at h1 ⊢
  cases b with
  | error e => exact ⟨rfl, h1⟩
  | ok u =>
    simp only
    split
    · exact ⟨rfl, h1⟩
    rename_i txs _
    have h3 := (blind_exec cfg sr epoch.header.epochId (.user epoch.header.proposer) txs).near h1
    beta_reduce at h3
    revert h3
    generalize n1.exec cfg sr epoch.header.epochId (.user epoch.header.proposer) txs = x
    generalize m1.exec cfg sr epoch.header.epochId (.user epoch.header.proposer) txs = y
    obtain ⟨a, n2⟩ := x
    obtain ⟨b, m2⟩ := y
    rintro ⟨rfl, h3⟩
    simp only at h3 ⊢
    cases b with
    | error e => exact ⟨rfl, h3⟩
    | ok resp =>
      simp only
      have h4 := (blind_updateStatus cfg (io.save k) sr epoch.header.epochId epoch epoch.header.proof resp txs).near h3
      beta_reduce at h4
      revert h4
      generalize n2.updateStatus cfg (io.save k) sr epoch.header.epochId epoch epoch.header.proof resp txs = x
      generalize m2.updateStatus cfg (io.save k) sr epoch.header.epochId epoch epoch.header.proof resp txs = y
      obtain ⟨a, n3⟩ := x
      obtain ⟨b, m3⟩ := y
      rintro ⟨rfl, h4⟩
      simp only at h4 ⊢
      cases b with
      | error e => exact ⟨rfl, h4⟩
      | ok v => exact ⟨rfl, h4⟩

theorem blind_syncLoop (cfg : NodeCfg) (io : SyncIo) (ids : List UInt64) : ∀ (k : Nat) (h r : Hash) (n m : Node), n.Near m →
    (Node.syncLoop cfg io k ids h r m).1 = (Node.syncLoop cfg io k ids h r n).1 ∧ (Node.syncLoop cfg io k ids h r n).2.Near (Node.syncLoop cfg io k ids h r m).2 := by
  induction ids with
  | nil => intro k h r n m hn; exact ⟨rfl, hn⟩
  | cons id ids ih =>
    intro k h r n m hn
    unfold Node.syncLoop
    have h1 := (blind_syncOne cfg io k id h r).near hn
    beta_reduce at h1
    revert h1
    generalize n.syncOne cfg io k id h r = x
    generalize m.syncOne cfg io k id h r = y
    obtain ⟨a, n1⟩ := x
    obtain ⟨b, m1⟩ := y
    rintro ⟨rfl, h1⟩
    simp only at h1 ⊢
    cases b with
    | error e => exact ⟨rfl, h1⟩
    | ok v => exact ih _ _ _ _ _ h1

theorem blind_updateEpoch (cfg : NodeCfg) (io : SyncIo) (msg : Bytes) : ProofBlind (fun n => n.updateEpoch cfg io msg) := by
  intro n
  unfold Node.updateEpoch
  have hc : n.noProof.currentId = n.currentId := rfl
  have hs (c : UInt64) : n.noProof.syncStart cfg io c = n.syncStart cfg io c := rfl
  simp only [hc, hs]
  split
  · exact ⟨rfl, .inr rfl⟩
  split
  · exact ⟨rfl, .inr rfl⟩
  split
  · exact ⟨rfl, .inr rfl⟩
  split
  · exact ⟨rfl, .inr rfl⟩
  rename_i v _ _ _ _ _ h r _
  have h1 := blind_syncLoop cfg io (syncIds n.currentId (UInt64.ofNat v - 1)) 1 h r n n.noProof (.inr rfl)
  beta_reduce at h1
  revert h1
  generalize Node.syncLoop cfg io 1 (syncIds n.currentId (UInt64.ofNat v - 1)) h r n = x
  generalize Node.syncLoop cfg io 1 (syncIds n.currentId (UInt64.ofNat v - 1)) h r n.noProof = y
  obtain ⟨a, n1⟩ := x
  obtain ⟨b, m1⟩ := y
  rintro ⟨rfl, h1⟩
  simp only at h1 ⊢
  cases b with
  | error e => exact ⟨rfl, h1⟩
  | ok u => simp only; split <;> exact ⟨rfl, h1⟩

theorem blind_getEpoch (cfg : NodeCfg) (now id : UInt64) : ProofBlind (fun n => n.getEpoch cfg now id) := by
  intro n
  unfold Node.getEpoch
  have hv : n.noProof.pool.package (n.noProof.view cfg (fun _ => none) true) n.noProof.status.cyclesLimit =
    n.pool.package (n.view cfg (fun _ => none) true) n.status.cyclesLimit := rfl
  simp only [hv]
  generalize n.pool.package (n.view cfg (fun _ => none) true) n.status.cyclesLimit = x
  obtain ⟨a, p⟩ := x
  cases a with
  | error e => exact ⟨rfl, .inr rfl⟩
  | ok v =>
    have hs : n.noProof.status = n.status := rfl
    simp only [hs]
    split
    · exact ⟨rfl, .inr rfl⟩
    · exact ⟨rfl, .inr rfl⟩

theorem blind_checkEpoch (cfg : NodeCfg) (p1 p2 : List Hash → Option (List SignedTx)) (hash : Bytes) (pill : Pill) : ProofBlind (fun n => n.checkEpoch cfg p1 p2 hash pill) := by
  intro n
  unfold Node.checkEpoch
  have hx : n.noProof.exempt = n.exempt := rfl
  have h1 : n.noProof.view cfg p1 true = n.view cfg p1 true := rfl
  have h2 : n.noProof.view cfg p2 true = n.view cfg p2 true := rfl
  have h3 : n.noProof.pool = n.pool := rfl
  simp only [hx, h1, h2, h3]
  split
  · split <;> exact ⟨rfl, .inr rfl⟩
  generalize n.pool.syncProposeTxs (n.view cfg p1 true) pill.proposeHashes = x
  obtain ⟨a, p⟩ := x
  cases a with
  | error e => exact ⟨rfl, .inr rfl⟩
  | ok v =>
    simp only
    generalize p.ensureOrderTxs (n.view cfg p2 true) pill.epoch.orderedTxHashes = x
    obtain ⟨a, p⟩ := x
    cases a with
    | error e => exact ⟨rfl, .inr rfl⟩
    | ok v => simp only; split <;> exact ⟨rfl, .inr rfl⟩

theorem near_step (cfg : NodeCfg) {n m : Node} (h : n.Near m) (op : NodeOp) : (n.step cfg op).Near (m.step cfg op) := by
  cases op with
  | insertTx o b tx => rcases h with rfl | rfl <;> [exact .inl rfl; exact .inr rfl]
  | propose now id => exact ((blind_getEpoch cfg now id).near h).2
  | check p1 p2 ha pill => exact ((blind_checkEpoch cfg p1 p2 ha pill).near h).2
  | commit io id pill proof => exact ((blind_commit cfg io id pill proof).near h).2
  | sync io msg => exact ((blind_updateEpoch cfg io msg).near h).2

theorem near_restart {cfg : NodeCfg} {g : Genesis} {n m : Node} (h : n.Near m) (hl : n.store.latest ≠ none) {s : Store} {t : StateDB} {m' : Node}
    (hi : handleInit cfg g m.store m.tries = some (s, t)) (hs : startNode cfg s t = some m') :
    ∃ s0 t0 n', handleInit cfg g n.store n.tries = some (s0, t0) ∧ startNode cfg s0 t0 = some n' ∧ n'.Near m' := by
  rcases h with rfl | rfl
  · exact ⟨s, t, m', hi, hs, .inl rfl⟩
  · cases he : n.store.latest with
    | none => exact absurd he hl
    | some e =>
      have h1 : handleInit cfg g n.store n.tries = some (n.store, n.tries) := by unfold handleInit; rw [he]
      have h2 : handleInit cfg g n.noProof.store n.noProof.tries = some (n.noProof.store, n.noProof.tries) := by
        unfold handleInit
        have : n.noProof.store.latest = some e := he
        rw [this]
      rw [h2] at hi
      simp only [Option.some.injEq, Prod.mk.injEq] at hi
      obtain ⟨rfl, rfl⟩ := hi
      have h3 : startNode cfg n.store n.tries = some ⟨n.store, n.tries, MemPool.new cfg.poolSize cfg.timeoutGap, startStatus cfg e, [], []⟩ := by
        unfold startNode; rw [he]
      refine ⟨_, _, _, h1, h3, .inr ?_⟩
      have h4 : startNode cfg n.noProof.store n.noProof.tries = some ⟨n.noProof.store, n.noProof.tries, MemPool.new cfg.poolSize cfg.timeoutGap, startStatus cfg e, [], []⟩ := by
        unfold startNode
        have : n.noProof.store.latest = some e := he
        rw [this]
      rw [h4] at hs
      injection hs with hs
      rw [← hs]
      rfl

theorem near_refl (n : Node) : n.Near n := .inl rfl

/-- A first start after cut ones. -/
theorem near_first {cfg : NodeCfg} {g : Genesis} {s : Store} {t : StateDB} (h : CutStarts cfg g s t) {s1 : Store} {t1 : StateDB} {m : Node}
    (hi : handleInit cfg g s t = some (s1, t1)) (hs : startNode cfg s1 t1 = some m) :
    ∃ s0 t0 n, handleInit cfg g Store.empty PMap.empty = some (s0, t0) ∧ startNode cfg s0 t0 = some n ∧ n.Near m := by
  rcases handleInit_cut h with ⟨-, h2⟩ | ⟨s0, t0, p, h0, h2, hp⟩
  · rw [h2] at hi; cases hi
  · rw [h2] at hi
    simp only [Option.some.injEq, Prod.mk.injEq] at hi
    obtain ⟨rfl, rfl⟩ := hi
    unfold startNode at hs
    simp only at hs
    cases he : s0.latest with
    | none => rw [he] at hs; cases hs
    | some e =>
      rw [he] at hs
      injection hs with hs
      refine ⟨s0, t0, ⟨s0, t0, MemPool.new cfg.poolSize cfg.timeoutGap, startStatus cfg e, [], []⟩, h0, by unfold startNode; rw [he], ?_⟩
      rcases hp with rfl | rfl
      · left; rw [← hs, ← he]
      · right; rw [← hs, ← he]; rfl

/-! ### Lifetimes -/

/-- The lifetime of a node as `Lives`, but the first start may be cut off any number of times. -/
inductive CutLives (cfg : NodeCfg) (g : Genesis) : Node → Prop
  | init {s t s1 t1 n} : CutStarts cfg g s t → handleInit cfg g s t = some (s1, t1) → startNode cfg s1 t1 = some n → CutLives cfg g n
  | step {n} (op : NodeOp) : CutLives cfg g n → CutLives cfg g (n.step cfg op)
  | restart {n s t n'} : CutLives cfg g n → handleInit cfg g n.store n.tries = some (s, t) → startNode cfg s t = some n' → CutLives cfg g n'

/-- **C103.**  However often the first start of a node is cut off, at whatever write, (1) the next start comes to its end exactly if an undisturbed
first start does, and (2) from then on, through all calls, crashes and restarts, the node is what it would be had its first start not been
disturbed; all it may lack is the record of the latest proof, until a proof is saved. -/
theorem C103_cut_first_start {cfg : NodeCfg} {g : Genesis} :
    (∀ s t, CutStarts cfg g s t → ((handleInit cfg g s t).isSome ↔ (handleInit cfg g Store.empty PMap.empty).isSome)) ∧
    ∀ m, CutLives cfg g m → ∃ n, Lives cfg g (fun _ _ => True) n ∧ (m = n ∨ m = { n with store := { n.store with proof := none } }) := by
  refine ⟨fun s t h => ?_, fun m h => ?_⟩
  · rcases handleInit_cut h with ⟨h1, h2⟩ | ⟨s0, t0, p, h1, h2, -⟩ <;> simp [h1, h2]
  · suffices ∃ n, Lives cfg g (fun _ _ => True) n ∧ n.Near m from this
    induction h with
    | init hc hi hs =>
      obtain ⟨s0, t0, n, h1, h2, h3⟩ := near_first hc hi hs
      exact ⟨n, .init h1 h2, h3⟩
    | step op _ ih =>
      obtain ⟨n, hn, h⟩ := ih
      exact ⟨_, .step op hn trivial, near_step cfg h op⟩
    | restart _ hi hs ih =>
      obtain ⟨n, hn, h⟩ := ih
      obtain ⟨s0, t0, n', h1, h2, h3⟩ := near_restart h (by obtain ⟨-, e, he, -⟩ := hn.coherent; rw [he]; simp) hi hs
      exact ⟨n', .restart hn h1 h2, h3⟩

/-- The hypotheses of `C103_cut_first_start` are met: a first start that is cut off before anything is written, one that is cut off after two writes,
one after three (the latest epoch is there, the proof is not), and then a start that comes to its end, from a genesis with an allocation. -/
example : ∃ s t s1 t1 n, CutStarts Demo.ncfg Demo.ngenesis s t ∧ handleInit Demo.ncfg Demo.ngenesis s t = some (s1, t1) ∧
    startNode Demo.ncfg s1 t1 = some n ∧ n.store.proof = none ∧ n.store.latest.isSome ∧ CutLives Demo.ncfg Demo.ngenesis (n.step Demo.ncfg (.propose 7 1)) := by
  have hc : CutStarts Demo.ncfg Demo.ngenesis _ _ := .cut (some 3) (.cut (some 2) (.cut none .new))
  have h1 : (handleInit Demo.ncfg Demo.ngenesis
    (initCut Demo.ncfg Demo.ngenesis (some 3) (initCut Demo.ncfg Demo.ngenesis (some 2) (initCut Demo.ncfg Demo.ngenesis none Store.empty PMap.empty).1
      (initCut Demo.ncfg Demo.ngenesis none Store.empty PMap.empty).2).1 (initCut Demo.ncfg Demo.ngenesis (some 2) (initCut Demo.ncfg Demo.ngenesis none Store.empty PMap.empty).1
      (initCut Demo.ncfg Demo.ngenesis none Store.empty PMap.empty).2).2).1
    (initCut Demo.ncfg Demo.ngenesis (some 3) (initCut Demo.ncfg Demo.ngenesis (some 2) (initCut Demo.ncfg Demo.ngenesis none Store.empty PMap.empty).1
      (initCut Demo.ncfg Demo.ngenesis none Store.empty PMap.empty).2).1 (initCut Demo.ncfg Demo.ngenesis (some 2) (initCut Demo.ncfg Demo.ngenesis none Store.empty PMap.empty).1
      (initCut Demo.ncfg Demo.ngenesis none Store.empty PMap.empty).2).2).2).any (fun x => x.1.proof.isNone && x.1.latest.isSome) = true := by decide +kernel
  revert hc h1
  generalize (initCut Demo.ncfg Demo.ngenesis (some 3) _ _).1 = s
  generalize (initCut Demo.ncfg Demo.ngenesis (some 3) _ _).2 = t
  intro hc h1
  cases hi : handleInit Demo.ncfg Demo.ngenesis s t with
  | none => rw [hi] at h1; cases h1
  | some x =>
    obtain ⟨s1, t1⟩ := x
    rw [hi] at h1
    simp only [Option.any_some, Bool.and_eq_true, Option.isNone_iff_eq_none] at h1
    cases he : s1.latest with
    | none => rw [he] at h1; cases h1.2
    | some e =>
      have hs : startNode Demo.ncfg s1 t1 = some ⟨s1, t1, MemPool.new Demo.ncfg.poolSize Demo.ncfg.timeoutGap, startStatus Demo.ncfg e, [], []⟩ := by
        unfold startNode; rw [he]
      exact ⟨s, t, s1, t1, _, hc, hi, hs, h1.1, h1.2, .step _ (.init hc hi hs)⟩

end Huobi
