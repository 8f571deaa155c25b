import Verif.Props.Engine
import Verif.Props.Consensus2
/-
C78 and C79: what a proposed epoch says, and that the node that proposed it accepts it.
-/
namespace Huobi

/-- What a successful `get_epoch` returns. -/
theorem getEpoch_ok {cfg : NodeCfg} {now id : UInt64} {n n' : Node} {pill : Pill} {hash : Bytes} (hp : n.getEpoch cfg now id = (.ok (pill, hash), n')) :
    n.pool.package (n.view cfg (fun _ => none) true) n.status.cyclesLimit = (.ok (pill.epoch.orderedTxHashes, pill.proposeHashes), n'.pool) ∧
    n.status.epochId = id ∧ hash = (cfg.digest (encode pill)).bytes ∧ n' = { n with pool := n'.pool, exempt := hash :: n.exempt } ∧
    pill.epoch.header = { chainId := cfg.chainId, epochId := id, preHash := n.status.prevHash, timestamp := now
                          logsBloom := n.status.logsBloom, orderRoot := cfg.merkle pill.epoch.orderedTxHashes, confirmRoot := [n.status.orderRoot]
                          stateRoot := n.status.stateRoot, receiptRoot := n.status.receiptRoot, cyclesUsed := n.status.cyclesUsed
                          proposer := cfg.selfAddress, proof := n.status.proof, validatorVersion := 0, validators := n.status.validators } := by
  unfold Node.getEpoch at hp
  split at hp
  · injection hp with hp _; cases hp
  · rename_i order propose pool hpk
    split at hp
    · injection hp with hp _; cases hp
    · rename_i hid
      simp only [Prod.mk.injEq, Except.ok.injEq] at hp
      obtain ⟨⟨rfl, rfl⟩, rfl⟩ := hp
      exact ⟨hpk, Classical.byContradiction fun h => hid h, rfl, rfl, rfl⟩

/-! ### C78: the header describes the epoch before -/

/-- The part of the status that describes the last recorded epoch. -/
def Node.Describes (cfg : NodeCfg) (n : Node) : Prop :=
  ∀ d rest, n.log = d :: rest →
    n.status.epochId = d.height + 1 ∧ n.status.prevHash = cfg.epochHash d.epoch ∧ n.status.orderRoot = cfg.merkle d.epoch.orderedTxHashes ∧
    n.status.receiptRoot = [cfg.merkle (d.resp.receipts.map (fun r => cfg.digest (encode r)))] ∧ n.status.stateRoot = d.resp.stateRoot ∧
    n.status.proof = d.proof

theorem Lives.describes {cfg : NodeCfg} {g : Genesis} {ok : Node → NodeOp → Prop} {n : Node} (h : Lives cfg g ok n) : n.Describes cfg := by
  have start : ∀ {s t n}, startNode cfg s t = some n → n.Describes cfg := by
    intro s t n h d rest hd
    obtain ⟨e, -, -, -, -, h4, -⟩ := startNode_some h
    rw [h4] at hd; cases hd
  induction h with
  | init _ h2 => exact start h2
  | restart _ _ h2 _ => exact start h2
  | step op _ _ ih =>
    refine step_induct (fun n n' P hn he => ?_) ih op
    intro d rest hd
    cases he with
    | quiet h1 h2 h3 h4 => rw [h3]; exact hn d rest (by rw [← h4]; exact hd)
    | proof p h1 h2 h3 h4 => rw [h3]; exact hn d rest (by rw [← h4]; exact hd)
    | failed d' j hP hr hj h1 h3 h4 => rw [h3]; exact hn d rest (by rw [← h4]; exact hd)
    | done d' hP hr h1 h3 h4 =>
      rw [h4] at hd
      injection hd with hd _
      subst hd
      rw [h3]
      exact ⟨rfl, rfl, rfl, rfl, rfl, rfl⟩

/-- **C78 (partial).**  In every lifetime of a node, an epoch it proposes is of the chain and the height asked for, names the node as its
proposer and the clock as its time, and has the Merkle root of its own list of transactions as order root.  If the node recorded an epoch
since it was started, the proposal describes the last one: it is one higher and carries its hash, the Merkle root of its transactions,
the Merkle root of the receipts of its execution, the state root after its execution, and the proof with which it was recorded.
Missing: the same after a restart (`C78_restart_refuted`). -/
theorem C78_header_partial {cfg : NodeCfg} {g : Genesis} {ok : Node → NodeOp → Prop} {n n' : Node} {now id : UInt64} {pill : Pill} {hash : Bytes}
    (h : Lives cfg g ok n) (hp : n.getEpoch cfg now id = (.ok (pill, hash), n')) :
    pill.epoch.header.chainId = cfg.chainId ∧ pill.epoch.header.epochId = id ∧ pill.epoch.header.proposer = cfg.selfAddress ∧
    pill.epoch.header.timestamp = now ∧ pill.epoch.header.orderRoot = cfg.merkle pill.epoch.orderedTxHashes ∧
    ∀ d rest, n.log = d :: rest →
      id = d.height + 1 ∧ pill.epoch.header.preHash = cfg.digest (encode d.epoch) ∧
      pill.epoch.header.confirmRoot = [cfg.merkle d.epoch.orderedTxHashes] ∧
      pill.epoch.header.receiptRoot = [cfg.merkle (d.resp.receipts.map (fun r => cfg.digest (encode r)))] ∧
      pill.epoch.header.stateRoot = d.resp.stateRoot ∧ pill.epoch.header.proof = d.proof := by
  obtain ⟨-, hid, -, -, hh⟩ := getEpoch_ok hp
  refine ⟨by rw [hh], by rw [hh], by rw [hh], by rw [hh], by rw [hh], fun d rest hd => ?_⟩
  obtain ⟨h1, h2, h3, h4, h5, h6⟩ := h.describes d rest hd
  refine ⟨by rw [← hid, h1], ?_, ?_, ?_, ?_, ?_⟩ <;> rw [hh]
  · exact h2
  · simp only; rw [h3]
  · exact h4
  · exact h5
  · exact h6

/-- C78, the roots that a header carries: the digest of the empty string's coding for an empty list; for any other list the value at the root of the tree
over its positions whose inner nodes are digests of the concatenated values below; so one hash is its own root, and two hashes have the digest of both. -/
theorem C78_root (cfg : NodeCfg) :
    cfg.merkle [] = cfg.digest [0x80] ∧ (∀ h, cfg.merkle [h] = h) ∧ (∀ a b, cfg.merkle [a, b] = cfg.digest (a.bytes ++ b.bytes)) ∧
    ∀ hs, hs ≠ [] → ∃ value : IdxTree → Hash, cfg.merkle hs = value (cfg.layout.tree hs.length) ∧
      (∀ i h, hs[i]? = some h → value (.leaf i) = h) ∧ ∀ l r, value (.node l r) = cfg.digest ((value l).bytes ++ (value r).bytes) := by
  refine ⟨rfl, fun h => ?_, fun a b => ?_, fun hs hne => ?_⟩
  · simp [NodeCfg.merkle, merkleRoot, cfg.layout.one, IdxTree.eval]
  · simp [NodeCfg.merkle, merkleRoot, cfg.layout.two, IdxTree.eval, merkleMerge]
  · refine ⟨IdxTree.eval cfg.digest hs, by simp [NodeCfg.merkle, merkleRoot, hne], fun i h hi => ?_, fun l r => rfl⟩
    simp [IdxTree.eval, hi]

namespace Demo

/-- The demonstration node proposes after one epoch with a payment, and after a restart. -/
def afterN1 : Pill := proposal n1
def afterRestart : Pill := proposal restarted

theorem proposal_ok (n : Node) (h : (n.getEpoch ncfg 7 n.status.epochId).1.toOption.isSome = true) :
    ∃ hash n', n.getEpoch ncfg 7 n.status.epochId = (.ok (proposal n, hash), n') := by
  unfold proposal
  cases hg : n.getEpoch ncfg 7 n.status.epochId with
  | mk r n' =>
    cases r with
    | error e => rw [hg] at h; cases h
    | ok x => exact ⟨x.2, n', rfl⟩

end Demo

/-- C78, the proof: when a commit with the proof `p` of the consensus library records an epoch, the proof that is stored, and that every
proposal made after it carries in its header, says what `p` says: the same height, round, epoch hash, signature and voters. -/
theorem C78_proof {cfg : NodeCfg} {n n' : Node} {io : CommitIo} {id : UInt64} {pill : Pill} {p : OverlordProof} {d : Done}
    {r : Except CErr UInt64} (h : n.commit cfg io id pill p = (r, n')) (hd : n'.log = d :: n.log) :
    ∃ q : Proof, q.epochId = p.epochId ∧ q.round = p.round ∧ q.epochHash.bytes = p.epochHash ∧ q.signature = p.signature ∧
      q.bitmap = p.bitmap ∧ n'.store.proof = some q ∧
      ∀ ops : List NodeOp, (∀ op ∈ ops, op.Passive) → ∀ now id' pill' hash n'', (n'.run cfg ops).getEpoch cfg now id' = (.ok (pill', hash), n'') →
        pill'.epoch.header.proof = q := by
  have hend := commit_end cfg io id pill p n
  rw [h] at hend
  have nope : ∀ {l : List Done}, l = d :: l → False := fun h => by have := congrArg List.length h; simp at this
  have hrun : ∀ (ops : List NodeOp) (m : Node), (∀ op ∈ ops, op.Passive) → (m.run cfg ops).status = m.status := by
    intro ops
    induction ops with
    | nil => intro m _; rfl
    | cons op ops ih =>
      intro m hp
      show ((m.step cfg op).run cfg ops).status = _
      rw [ih _ (fun o ho => hp o (by simp [ho])), (passive_step cfg m op (hp op (by simp))).2.2.1]
  cases hend with
  | done hdone hr =>
    injection hd with hd _
    subst hd
    refine ⟨_, ?_, ?_, ?_, ?_, ?_, rfl, ?_⟩
    case refine_6 =>
      intro ops hops now id' pill' hash n'' hg
      obtain ⟨-, -, -, -, hh⟩ := getEpoch_ok hg
      rw [hh, hrun ops _ hops]
      rfl
    all_goals
      have hp := hdone.proof
      unfold OverlordProof.toProof at hp
      obtain ⟨x, hx, hp⟩ := Option.map_eq_some_iff.1 hp
      simp only [Done.saved]
      rw [← hp]
      try rfl
    unfold Hash.fromBytes at hx
    split at hx
    · injection hx with hx; rw [← hx]
    · cases hx
  | _ => exact (nope hd).elim

open Demo in
/-- The first epoch of the examples is recorded with a proof of height 1 and round 0. -/
example : (n1pre.commit ncfg .ok n0.status.epochId n1pill (oproof n0.status.epochId)).2.log.length = n1pre.log.length + 1 ∧
    (oproof n0.status.epochId).epochId = 1 ∧ (oproof n0.status.epochId).round = 0 ∧
    n1.store.proof.map (fun q => (q.epochId, q.round)) = some (1, 0) := by decide +kernel


open Demo in
/-- **C78 is false after a restart**: the node that recorded one epoch with a payment stops and starts again.  The epoch it then
proposes has the hash of that epoch, but not the root of its transactions, nor of its receipts, nor its proof, nor the state after it. -/
theorem C78_restart_refuted : ∃ (cfg : NodeCfg) (g : Genesis) (n n' n'' : Node) (d : Done) (pill : Pill) (hash : Bytes) (now : UInt64),
    Lives cfg g (fun _ _ => True) n ∧ Lives cfg g (fun _ _ => True) n' ∧ n.log = [d] ∧
    handleInit cfg g n.store n.tries = some (n.store, n.tries) ∧ startNode cfg n.store n.tries = some n' ∧
    n'.getEpoch cfg now (d.height + 1) = (.ok (pill, hash), n'') ∧ pill.epoch.header.preHash = cfg.digest (encode d.epoch) ∧
    pill.epoch.header.confirmRoot ≠ [cfg.merkle d.epoch.orderedTxHashes] ∧
    pill.epoch.header.receiptRoot ≠ [cfg.merkle (d.resp.receipts.map (fun r => cfg.digest (encode r)))] ∧
    pill.epoch.header.proof ≠ d.proof ∧ pill.epoch.header.stateRoot ≠ d.resp.stateRoot := by
  have hlen : n1.log.length = 1 := by decide +kernel
  have hst : (startNode ncfg n1.store n1.tries).isSome = true := by decide +kernel
  have hls : n1.store.latest.isSome = true := by decide +kernel
  obtain ⟨n', hn'⟩ := Option.isSome_iff_exists.1 hst
  obtain ⟨e, he⟩ := Option.isSome_iff_exists.1 hls
  have hr : restarted = n' := by unfold restarted; rw [hn']; rfl
  have l1 : Lives ncfg ngenesis (fun _ _ => True) n1 := blockOps_lives (n0_lives _) _ (fun _ _ => trivial)
  have hinit : handleInit ncfg ngenesis n1.store n1.tries = some (n1.store, n1.tries) := by unfold handleInit; rw [he]
  have l2 : Lives ncfg ngenesis (fun _ _ => True) n' := .restart l1 hinit hn'
  have hok : (restarted.getEpoch ncfg 7 restarted.status.epochId).1.toOption.isSome = true := by decide +kernel
  obtain ⟨hash, n'', hp⟩ := proposal_ok restarted hok
  have hid : n1.log[0]?.map (fun d => d.height + 1) = some restarted.status.epochId := by decide +kernel
  have h1 : n1.log[0]?.map (fun d => ncfg.digest (encode d.epoch)) = some (proposal restarted).epoch.header.preHash := by decide +kernel
  have h2 : n1.log[0]?.map (fun d => [ncfg.merkle d.epoch.orderedTxHashes]) ≠ some (proposal restarted).epoch.header.confirmRoot := by decide +kernel
  have h3 : n1.log[0]?.map (fun d => [ncfg.merkle (d.resp.receipts.map (fun r => ncfg.digest (encode r)))]) ≠ some (proposal restarted).epoch.header.receiptRoot := by
    decide +kernel
  have h4 : n1.log[0]?.map (fun d => d.proof.bitmap) ≠ some (proposal restarted).epoch.header.proof.bitmap := by decide +kernel
  have h5 : n1.log[0]?.map (fun d => d.resp.stateRoot) ≠ some (proposal restarted).epoch.header.stateRoot := by decide +kernel
  generalize n1 = a at *
  generalize hb : restarted = b at *
  subst hr
  cases hl : a.log with
  | nil => rw [hl] at hlen; simp at hlen
  | cons d rest =>
    rw [hl] at hlen hid h1 h2 h3 h4 h5
    cases rest with
    | cons => simp at hlen
    | nil =>
      simp only [List.getElem?_cons_zero, Option.map_some, Option.some.injEq, ne_eq] at hid h1 h2 h3 h4 h5
      refine ⟨ncfg, ngenesis, a, b, n'', d, proposal b, hash, 7, l1, l2, hl, hinit, hn', ?_, h1.symm, fun h => h2 h.symm, fun h => h3 h.symm,
        fun h => h4 (by rw [h]), fun h => h5 h.symm⟩
      rw [hid]
      exact hp

open Demo in
/-- The case of `C78_header_partial`: the node recorded an epoch with a payment and proposes the next. -/
example : ∃ hash n' d, Lives ncfg ngenesis (fun _ _ => True) n1 ∧ n1.getEpoch ncfg 7 n1.status.epochId = (.ok (proposal n1, hash), n') ∧ n1.log = [d] ∧
    d.txs.length = 1 := by
  obtain ⟨hash, n', hp⟩ := proposal_ok n1 (by decide +kernel)
  have hl : n1.log.map (fun d => d.txs.length) = [1] := by decide +kernel
  have l1 : Lives ncfg ngenesis (fun _ _ => True) n1 := blockOps_lives (n0_lives _) _ (fun _ _ => trivial)
  generalize n1 = a at *
  cases hlog : a.log with
  | nil => rw [hlog] at hl; cases hl
  | cons d rest =>
    cases rest with
    | cons => rw [hlog] at hl; simp at hl
    | nil => rw [hlog] at hl; exact ⟨hash, n', d, l1, hp, rfl, by simpa using hl⟩

/-! ### C78: the node accepts what it proposed -/

theorem updateStatus_exempt {cfg : NodeCfg} {io : SaveIo} {root : MerkleRoot} {id : UInt64} {e : Epoch} {p : Proof} {r : ExecResp} {txs : List SignedTx} {n : Node} :
    (n.updateStatus cfg io root id e p r txs).2.exempt = n.exempt := by
  unfold Node.updateStatus
  simp only
  repeat' split
  all_goals rfl

theorem exec_exempt {cfg : NodeCfg} {root : MerkleRoot} {id : UInt64} {cb : Address} {txs : List SignedTx} {n : Node} :
    (n.exec cfg root id cb txs).2.exempt = n.exempt := by
  rcases exec_spec (cfg := cfg) (root := root) (id := id) (cb := cb) (txs := txs) (n := n) with ⟨e, he⟩ | ⟨resp, db, he, hr⟩ <;> rw [he]

theorem saveProof_exempt {cfg : NodeCfg} {io : SaveIo} {p : Proof} {n : Node} : (n.saveProof cfg io p).2.exempt = n.exempt := by
  rcases saveProof_spec (cfg := cfg) (io := io) (p := p) (n := n) with ⟨-, hx⟩ | ⟨-, hx⟩ <;> rw [hx]

theorem snd_of {A B : Type} {x : A × B} {a : A} {b : B} (h : x = (a, b)) : b = x.2 := by rw [h]

theorem syncOne_exempt (cfg : NodeCfg) (io : SyncIo) (k : Nat) (id : UInt64) (h r : Hash) (n : Node) :
    (n.syncOne cfg io k id h r).2.exempt = n.exempt := by
  unfold Node.syncOne
  split
  · rfl
  split
  · rfl
  split
  · rename_i h1; rw [snd_of h1, saveProof_exempt]
  rename_i h1
  have e1 := (congrArg Node.exempt (snd_of h1)).trans saveProof_exempt
  split
  · exact e1
  split
  · rename_i h2; rw [snd_of h2, exec_exempt]; exact e1
  rename_i h2
  have e2 := ((congrArg Node.exempt (snd_of h2)).trans exec_exempt).trans e1
  split
  · rename_i h3; rw [snd_of h3, updateStatus_exempt]; exact e2
  · rename_i h3; rw [snd_of h3, updateStatus_exempt]; exact e2

theorem syncLoop_exempt (cfg : NodeCfg) (io : SyncIo) (ids : List UInt64) : ∀ (k : Nat) (h r : Hash) (n : Node),
    (Node.syncLoop cfg io k ids h r n).2.exempt = n.exempt := by
  induction ids with
  | nil => intro k h r n; rfl
  | cons id ids ih =>
    intro k h r n
    simp only [Node.syncLoop]
    split
    · rename_i h1; rw [snd_of h1, syncOne_exempt]
    · rename_i h1; rw [ih, snd_of h1, syncOne_exempt]

theorem commit_exempt (cfg : NodeCfg) (io : CommitIo) (id : UInt64) (pill : Pill) (proof : OverlordProof) (n : Node) :
    (n.commit cfg io id pill proof).2.exempt = n.exempt := by
  unfold Node.commit
  split
  · rfl
  split
  · rfl
  split
  · rename_i h1; rw [snd_of h1, saveProof_exempt]
  rename_i h1
  have e1 := (congrArg Node.exempt (snd_of h1)).trans saveProof_exempt
  split
  · exact e1
  split
  · exact e1
  unfold Node.commitTail
  simp only
  split
  · rename_i h2; rw [snd_of h2, exec_exempt]; exact e1
  rename_i h2
  have e2 := ((congrArg Node.exempt (snd_of h2)).trans exec_exempt).trans e1
  split
  · rename_i h3; rw [snd_of h3, updateStatus_exempt]; exact e2
  · rename_i h3
    split <;> · simp only; rw [snd_of h3, updateStatus_exempt]; exact e2

theorem updateEpoch_exempt (cfg : NodeCfg) (io : SyncIo) (msg : Bytes) (n : Node) : (n.updateEpoch cfg io msg).2.exempt = n.exempt := by
  unfold Node.updateEpoch
  split
  · rfl
  simp only
  split
  · rfl
  split
  · rfl
  split
  · rfl
  split
  · rename_i h1; rw [snd_of h1, syncLoop_exempt]
  · rename_i h1
    split <;> · simp only; rw [snd_of h1, syncLoop_exempt]

theorem exempt_step (cfg : NodeCfg) (n : Node) (op : NodeOp) (h : Bytes) (hm : h ∈ n.exempt) : h ∈ (n.step cfg op).exempt := by
  cases op with
  | insertTx o b tx => exact hm
  | propose now id =>
    show h ∈ (n.getEpoch cfg now id).2.exempt
    unfold Node.getEpoch
    split
    · exact hm
    · split
      · exact hm
      · exact List.mem_cons_of_mem _ hm
  | check p1 p2 ha pill =>
    show h ∈ (n.checkEpoch cfg p1 p2 ha pill).2.exempt
    unfold Node.checkEpoch
    simp only
    repeat' split
    all_goals exact hm
  | commit io id pill proof =>
    have := commit_exempt cfg io id pill proof n
    show h ∈ (n.commit cfg io id pill proof).2.exempt
    rw [this]; exact hm
  | sync io msg =>
    have := updateEpoch_exempt cfg io msg n
    show h ∈ (n.updateEpoch cfg io msg).2.exempt
    rw [this]; exact hm

theorem exempt_run (cfg : NodeCfg) (ops : List NodeOp) : ∀ (n : Node) (h : Bytes), h ∈ n.exempt → h ∈ (n.run cfg ops).exempt := by
  induction ops with
  | nil => intro n h hm; exact hm
  | cons op ops ih => intro n h hm; exact ih (n.step cfg op) h (exempt_step cfg n op h hm)

/-- C78: a node accepts the epoch it has just proposed, without asking its peers and without changing, and returns the transactions of
the proposal in order. -/
theorem C78_own_proposal_accepted {cfg : NodeCfg} {g : Genesis} {ok : Node → NodeOp → Prop} {n n' : Node} {now id : UInt64} {pill : Pill} {hash : Bytes}
    (h : Lives cfg g ok n) (hp : n.getEpoch cfg now id = (.ok (pill, hash), n')) :
    ∃ txs, txs.map SignedTx.txHash = pill.epoch.orderedTxHashes ∧ (∀ tx ∈ txs, n.pool.cache.get tx.txHash = some tx) ∧
      ∀ pull1 pull2, n'.checkEpoch cfg pull1 pull2 hash pill = (.ok txs, n') := by
  obtain ⟨hpk, -, -, hn', -⟩ := getEpoch_ok hp
  obtain ⟨ops, hops⟩ := h.pool
  have hp' : MemPool.after cfg.mem cfg.poolSize cfg.timeoutGap (ops ++ [.package (n.view cfg (fun _ => none) true) n.status.cyclesLimit]) = n'.pool := by
    rw [after_append, hops]
    show (n.pool.package (n.view cfg (fun _ => none) true) n.status.cyclesLimit).2 = n'.pool
    rw [hpk]
  obtain ⟨cops, hc⟩ := after_cache cfg.mem cfg.poolSize cfg.timeoutGap ops
  rw [hops] at hc
  -- the transactions are in the pool afterwards
  have hin : ∀ k ∈ pill.epoch.orderedTxHashes, ∃ tx, n'.pool.cache.get k = some tx ∧ n.pool.cache.get k = some tx := by
    unfold MemPool.package at hpk
    split at hpk
    · injection hpk with hpk _; cases hpk
    · rename_i chain ep hlat
      simp only [Prod.mk.injEq] at hpk
      obtain ⟨hpk1, hpk2⟩ := hpk
      intro k hk
      have hcp : n'.pool.cache = (n.pool.cache.package n.status.cyclesLimit ep (ep + n.pool.gap)).2 := by rw [← hpk2]
      obtain ⟨w1, w2⟩ := C20_window hc (c' := n'.pool.cache) (Prod.ext hpk1 hcp.symm)
      obtain ⟨tx, t1, t2, t3⟩ := w1 k (by simp [hk])
      exact ⟨tx, (w2 k tx).mpr ⟨t1, t2, t3⟩, t1⟩
  obtain ⟨f1, f2, f3⟩ := C26_full_txs_exact cfg.mem cfg.poolSize cfg.timeoutGap _ hp' pill.epoch.orderedTxHashes
  cases hg : n'.pool.getFullTxs pill.epoch.orderedTxHashes with
  | error e =>
    obtain ⟨k, hk, hno⟩ := f3.mp ⟨e, hg⟩
    obtain ⟨tx, ht, -⟩ := hin k hk
    exact absurd (.inl ht) (hno tx)
  | ok txs =>
    have hm := f2 txs hg
    refine ⟨txs, hm, fun tx htx => ?_, fun p1 p2 => ?_⟩
    · have hall := (f1 txs).mp hg
      have : ∀ (hs : List Hash) (l : List SignedTx), List.Forall₂ n'.pool.Knows hs l → (∀ k ∈ hs, ∃ tx, n'.pool.cache.get k = some tx ∧ n.pool.cache.get k = some tx) →
          l.map SignedTx.txHash = hs → ∀ tx ∈ l, n.pool.cache.get tx.txHash = some tx := by
        intro hs l hf
        induction hf with
        | nil => intro _ _ tx ht; cases ht
        | @cons a b as bs hab _ ih =>
          intro hi hmm tx ht
          simp only [List.map_cons, List.cons.injEq] at hmm
          rcases List.mem_cons.mp ht with rfl | ht
          · obtain ⟨t2, g1, g2⟩ := hi a (by simp)
            rcases hab with hab | ⟨hab, -⟩
            · rw [hab] at g1; injection g1 with g1; subst g1; rw [hmm.1]; exact g2
            · rw [hab] at g1; cases g1
          · exact ih (fun k hk => hi k (by simp [hk])) hmm.2 tx ht
      exact this _ _ hall hin hm tx htx
    · have hx : hash ∈ n'.exempt := by rw [hn']; simp
      unfold Node.checkEpoch
      simp only
      rw [if_pos hx, hg]

/-- C78: whatever is called later, the node never asks its peers about its own proposal again, and checking it never changes the node. -/
theorem C78_never_asks_again {cfg : NodeCfg} {n n' : Node} {now id : UInt64} {pill : Pill} {hash : Bytes}
    (hp : n.getEpoch cfg now id = (.ok (pill, hash), n')) (ops : List NodeOp) (pull1 pull2 pull1' pull2' : List Hash → Option (List SignedTx)) (pill' : Pill) :
    (n'.run cfg ops).checkEpoch cfg pull1 pull2 hash pill' = (n'.run cfg ops).checkEpoch cfg pull1' pull2' hash pill' ∧
    ((n'.run cfg ops).checkEpoch cfg pull1 pull2 hash pill').2 = n'.run cfg ops := by
  obtain ⟨-, -, -, hn', -⟩ := getEpoch_ok hp
  have hx : hash ∈ n'.exempt := by rw [hn']; simp
  have hx := exempt_run cfg ops n' hash hx
  unfold Node.checkEpoch
  simp only
  rw [if_pos hx, if_pos hx]
  refine ⟨rfl, ?_⟩
  split <;> rfl

open Demo in
/-- A proposal with a transaction in it. -/
example : ∃ n, Lives ncfg ngenesis (fun _ _ => True) n ∧ (∃ hash n', n.getEpoch ncfg 7 n.status.epochId = (.ok (proposal n, hash), n')) ∧
    (proposal n).epoch.orderedTxHashes = [(npay 1 2 10).txHash] := by
  refine ⟨n0.run ncfg [.insertTx true true (npay 1 2 10)], run_lives _ (n0_lives _) (fun _ _ _ _ => trivial), proposal_ok _ (by decide +kernel), by decide +kernel⟩

/-! ### C79: cycles and bloom -/

/-- The two fields never change in a process. -/
theorem effect_frozen {cfg : NodeCfg} {P : Done → Prop} {n n' : Node} (he : Effect cfg P n n') :
    n'.status.cyclesUsed = n.status.cyclesUsed ∧ n'.status.logsBloom = n.status.logsBloom := by
  cases he with
  | quiet h1 h2 h3 h4 => rw [h3]; exact ⟨rfl, rfl⟩
  | proof p h1 h2 h3 h4 => rw [h3]; exact ⟨rfl, rfl⟩
  | failed d' j hP hr hj h1 h3 h4 => rw [h3]; exact ⟨rfl, rfl⟩
  | done d' hP hr h1 h3 h4 => rw [h3]; exact ⟨rfl, rfl⟩

/-- C79, what the code does: every epoch a process proposes carries the cycles and the bloom of the header that was the latest when the
process was started, whatever was executed since. -/
theorem C79_frozen {cfg : NodeCfg} {s : Store} {t : StateDB} {n n' : Node} {e : Epoch} {ops : List NodeOp} {now id : UInt64} {pill : Pill} {hash : Bytes}
    (hs : startNode cfg s t = some n) (hl : s.latest = some e) (hp : (n.run cfg ops).getEpoch cfg now id = (.ok (pill, hash), n')) :
    pill.epoch.header.cyclesUsed = e.header.cyclesUsed ∧ pill.epoch.header.logsBloom = e.header.logsBloom := by
  have hrun : ∀ (ops : List NodeOp) (m : Node), (m.run cfg ops).status.cyclesUsed = m.status.cyclesUsed ∧ (m.run cfg ops).status.logsBloom = m.status.logsBloom := by
    intro ops
    induction ops with
    | nil => intro m; exact ⟨rfl, rfl⟩
    | cons op ops ih =>
      intro m
      obtain ⟨h1, h2⟩ := ih (m.step cfg op)
      have h3 : (m.step cfg op).status.cyclesUsed = m.status.cyclesUsed ∧ (m.step cfg op).status.logsBloom = m.status.logsBloom :=
        step_induct (I := fun x => x.status.cyclesUsed = m.status.cyclesUsed ∧ x.status.logsBloom = m.status.logsBloom)
          (fun a b P ha he => by obtain ⟨x1, x2⟩ := effect_frozen he; rw [x1, x2]; exact ha) ⟨rfl, rfl⟩ op
      exact ⟨h1.trans h3.1, h2.trans h3.2⟩
  obtain ⟨-, -, -, -, hh⟩ := getEpoch_ok hp
  obtain ⟨e', he', -, -, hst, -⟩ := startNode_some hs
  rw [hl] at he'; injection he' with he'; subst he'
  obtain ⟨h1, h2⟩ := hrun ops n
  rw [hh]
  exact ⟨by simp only; rw [h1, hst]; rfl, by simp only; rw [h2, hst]; rfl⟩

namespace Demo

/-- The demonstration node with a price for cycles. -/
def pcfg : NodeCfg := { ncfg with cyclesPrice := 1 }
def pStart : Option Node := (handleInit pcfg ngenesis Store.empty PMap.empty).bind (fun x => startNode pcfg x.1 x.2)
/-- With a payment in its pool. -/
def pPool : Node := (pStart.getD noNode).run pcfg [.insertTx true true (npay 1 2 10)]
def pPill (n : Node) (id : UInt64) : Pill :=
  match (n.getEpoch pcfg 7 id).1 with
  | .ok (pill, _) => pill
  | .error _ => noPill
/-- After the epoch with it. -/
def pDone : Node := pPool.run pcfg [.propose 7 1, .commit .ok 1 (pPill pPool 1) (oproof 1)]

theorem pDone_lives : Lives pcfg ngenesis (fun _ _ => True) pDone := by
  have h : pStart.isSome = true := by decide +kernel
  refine run_lives _ (run_lives _ ?_ (fun _ _ _ _ => trivial)) (fun _ _ _ _ => trivial)
  unfold pStart at h ⊢
  cases hi : handleInit pcfg ngenesis Store.empty PMap.empty with
  | none => rw [hi] at h; cases h
  | some x =>
    obtain ⟨s, t⟩ := x
    rw [hi] at h
    simp only [Option.bind_some] at h ⊢
    cases hs : startNode pcfg s t with
    | none => rw [hs] at h; cases h
    | some n => exact .init hi hs

end Demo

open Demo in
/-- **C79 is false**: the epoch that follows an epoch whose execution used cycles says that it used none. -/
theorem C79_refuted : ∃ (cfg : NodeCfg) (g : Genesis) (n n' : Node) (d : Done) (pill : Pill) (hash : Bytes) (now : UInt64),
    Lives cfg g (fun _ _ => True) n ∧ n.log = [d] ∧ n.getEpoch cfg now (d.height + 1) = (.ok (pill, hash), n') ∧
    (∃ r ∈ d.resp.receipts, r.cyclesUsed.cycle ≠ 0) ∧ pill.epoch.header.cyclesUsed = 0 := by
  have hok : (pDone.getEpoch pcfg 7 2).1.toOption.isSome = true := by decide +kernel
  have hl : pDone.log.map (fun d => (d.height + 1, decide (∃ r ∈ d.resp.receipts, r.cyclesUsed.cycle ≠ 0))) = [(2, true)] := by decide +kernel
  have hz : (pDone.getEpoch pcfg 7 2).1.toOption.map (fun x => x.1.epoch.header.cyclesUsed) = some 0 := by decide +kernel
  have l1 := pDone_lives
  generalize pDone = a at *
  cases hg : a.getEpoch pcfg 7 2 with
  | mk r n' =>
    rw [hg] at hok hz
    cases r with
    | error e => cases hok
    | ok x =>
      obtain ⟨pill, hash⟩ := x
      cases hlog : a.log with
      | nil => rw [hlog] at hl; cases hl
      | cons d rest =>
        rw [hlog] at hl
        cases rest with
        | cons => simp at hl
        | nil =>
          simp only [List.map_cons, List.map_nil, List.cons.injEq, Prod.mk.injEq, decide_eq_true_eq, and_true] at hl
          exact ⟨pcfg, ngenesis, a, n', d, pill, hash, 7, l1, hlog, by rw [hl.1]; exact hg, hl.2, Option.some.inj hz⟩

open Demo in
/-- The case of `C79_frozen`: the start, an epoch with a payment, and the next proposal. -/
example : ∃ s t n e ops pill hash n', startNode pcfg s t = some n ∧ s.latest = some e ∧ (n.run pcfg ops).getEpoch pcfg 7 2 = (.ok (pill, hash), n') ∧
    (n.run pcfg ops).log.length = 1 := by
  have h : pStart.isSome = true := by decide +kernel
  have hok : (pDone.getEpoch pcfg 7 2).1.toOption.isSome = true := by decide +kernel
  have hlen : pDone.log.length = 1 := by decide +kernel
  have hrun : pDone = (pStart.getD noNode).run pcfg ([.insertTx true true (npay 1 2 10)] ++ [.propose 7 1, .commit .ok 1 (pPill pPool 1) (oproof 1)]) := by
    unfold pDone
    generalize pPill pPool 1 = pl
    unfold pPool Node.run
    rw [List.foldl_append]
  cases hg : pDone.getEpoch pcfg 7 2 with
  | mk r n' =>
    rw [hg] at hok
    cases r with
    | error e => cases hok
    | ok x =>
      rw [hrun] at hg hlen
      generalize [NodeOp.insertTx true true (npay 1 2 10)] ++ [.propose 7 1, .commit .ok 1 (pPill pPool 1) (oproof 1)] = ops at hg hlen
      clear hrun hok
      unfold pStart at *
      cases hi : handleInit pcfg ngenesis Store.empty PMap.empty with
      | none => rw [hi] at h; cases h
      | some y =>
        obtain ⟨s, t⟩ := y
        rw [hi] at h hg hlen
        simp only [Option.bind_some] at h hg hlen
        cases hs : startNode pcfg s t with
        | none => rw [hs] at h; cases h
        | some n =>
          rw [hs] at hg hlen
          obtain ⟨e, he, -⟩ := startNode_some hs
          exact ⟨s, t, n, e, ops, x.1, x.2, n', hs, he, hg, hlen⟩

end Huobi
