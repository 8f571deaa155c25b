import Verif.Props.Server
import Verif.Props.Sync
/-
C80 and C81: what a node makes of gossip.
-/
namespace Huobi

/-! ### C80: what is handed to the broadcaster -/

theorem gossips_network (cr : MemCrypto) (v : MemView) (tx : SignedTx) (p : MemPool) : p.gossips cr v true tx = [] := by
  unfold MemPool.gossips
  split <;> rfl

/-- C80: transactions received from a peer are never handed to the broadcaster, whatever the message. -/
theorem C80_received_not_gossiped (cfg : NodeCfg) (n : Node) (content : Bytes) : newTxsGossip cfg n content = [] := by
  unfold newTxsGossip
  split
  · rfl
  · rename_i txs _
    have h : ∀ (txs : List SignedTx) (p : MemPool),
        (txs.foldl (fun (x : List SignedTx × MemPool) tx =>
          (x.1 ++ x.2.gossips cfg.mem (n.view cfg (fun _ => none) true) newTxsOrigin tx,
            (x.2.insert cfg.mem (n.view cfg (fun _ => none) true) newTxsOrigin tx).2)) ([], p)).1 = [] := by
      intro txs
      induction txs with
      | nil => intro p; rfl
      | cons tx txs ih =>
        intro p
        rw [List.foldl_cons]
        have : p.gossips cfg.mem (n.view cfg (fun _ => none) true) newTxsOrigin tx = [] := gossips_network _ _ _ _
        simp only [this, List.append_nil]
        exact ih _
    exact h txs n.pool

/-- C80: a transaction submitted here is handed to the broadcaster, once, exactly if it was not in the pool and is after the call - also
if the broadcaster then refuses it. -/
theorem C80_local_gossiped (cr : MemCrypto) (size : Nat) (gap : UInt64) (ops : List MemOp) (p : MemPool) (hp : MemPool.after cr size gap ops = p)
    (v : MemView) (tx : SignedTx) :
    (p.cache.get tx.txHash = none ∧ (p.insert cr v false tx).2.cache.get tx.txHash = some tx → p.gossips cr v false tx = [tx]) ∧
    (¬ (p.cache.get tx.txHash = none ∧ (p.insert cr v false tx).2.cache.get tx.txHash = some tx) → p.gossips cr v false tx = []) := by
  subst hp
  have g := after_good cr size gap ops
  generalize MemPool.after cr size gap ops = p at g
  rcases checks_spec cr v p tx with ⟨h1, h2⟩ | ⟨e, h1, h2⟩
  · have hn : p.cache.get tx.txHash = none := h2 (_, .dup tx.txHash) (by simp [admissionRules])
    have h1' : p.checks cr { v with broadcastOk := true } tx = .ok () := h1
    have hres : (p.insert cr v false tx).2.cache = (p.cache.insert tx false).2 := by
      rw [insert_unfold, h1]
      cases hx : p.cache.insert tx false with
      | mk r c => cases r with
        | error e => rfl
        | ok u => simp only; split <;> rfl
    rw [hres]
    rcases cache_insert (b := false) g hn with ⟨_, h3, h4, h5⟩ | ⟨_, h3, h4, h5⟩
    · have hin : (p.cache.insert tx false).2.get tx.txHash = some tx := by
        rw [get_append g h4 (by rw [h5]) hn]; simp
      refine ⟨fun _ => ?_, fun h => absurd ⟨hn, hin⟩ h⟩
      unfold MemPool.gossips
      rw [insert_unfold, h1']
      cases hx : p.cache.insert tx false with
      | mk r c =>
        rw [hx] at h3
        simp only at h3
        subst h3
        rfl
    · have hout : (p.cache.insert tx false).2.get tx.txHash = none := by
        rw [get_of_abs h4 g (by rw [h5]), hn]
      refine ⟨fun h => ?_, fun _ => ?_⟩
      · rw [hout] at h; cases h.2
      · unfold MemPool.gossips
        rw [insert_unfold, h1']
        cases hx : p.cache.insert tx false with
        | mk r c =>
          rw [hx] at h3
          simp only at h3
          subst h3
          rfl
  · have h1' : p.checks cr { v with broadcastOk := true } tx = .error e := h1
    refine ⟨fun h => ?_, fun _ => ?_⟩
    · rw [C23_violation_rejected cr v false tx p h2] at h
      rw [h.1] at h; cases h.2
    · unfold MemPool.gossips
      rw [insert_unfold, h1']

open Demo in
/-- Both happen: a transaction submitted to the demonstration node is gossiped, a second time it is not. -/
example : Demo.n0.pool.cache.get (npay 1 2 10).txHash = none ∧
    ((Demo.n0.step ncfg (.insertTx false true (npay 1 2 10))).pool.cache.get (npay 1 2 10).txHash).isSome ∧
    (Demo.n0.pool.gossips ncfg.mem (Demo.n0.view ncfg (fun _ => none) true) false (npay 1 2 10)).length = 1 ∧
    ((Demo.n0.step ncfg (.insertTx false true (npay 1 2 10))).pool.gossips ncfg.mem (Demo.n0.view ncfg (fun _ => none) true) false (npay 1 2 10)).length = 0 := by
  decide +kernel

/-! ### C81: gossip reaches its handler -/

theorem serve_newTxs (cfg : NodeCfg) (io : SyncIo) (n : Node) (sid : Nat) (content : Bytes) :
    n.serve cfg io sid endNewTxs content = ([], newTxsHandler cfg n content) := by
  have h2 : Endpoint.parse endNewTxs = .ok ⟨endNewTxs⟩ := (Extensible.mk' (by decide +kernel) (by decide +kernel) (by decide +kernel)).ok
  have h3 : Endpoint.scheme ⟨endNewTxs⟩ = some .gossip := by decide +kernel
  have h1 : mainReactors.route endNewTxs = .ok .newTxs := by
    unfold Reactors.route
    rw [h2]
    have : mainReactors.find? (fun x => x.1.root == Endpoint.root ⟨endNewTxs⟩) = some (⟨endNewTxs⟩, .newTxs) := by decide +kernel
    simp only [this]
  unfold Node.serve
  rw [h1, h2]
  simp only [h3]

theorem serve_rich (cfg : NodeCfg) (io : SyncIo) (n : Node) (sid : Nat) (msg : Bytes) (hl : msg.length < 2 ^ 64) :
    n.serve cfg io sid endRichEpochId (encBuf msg) = ([], (n.updateEpoch cfg io msg).2) := by
  have h2 : Endpoint.parse endRichEpochId = .ok ⟨endRichEpochId⟩ := (Extensible.mk' (by decide +kernel) (by decide +kernel) (by decide +kernel)).ok
  have h3 : Endpoint.scheme ⟨endRichEpochId⟩ = some .gossip := by decide +kernel
  have h1 : mainReactors.route endRichEpochId = .ok .richEpochId := by
    unfold Reactors.route
    rw [h2]
    have : mainReactors.find? (fun x => x.1.root == Endpoint.root ⟨endRichEpochId⟩) = some (⟨endRichEpochId⟩, .richEpochId) := by decide +kernel
    simp only [this]
  have h4 : readBuf (encBuf msg) = some (msg, []) := by
    have := readBuf_encBuf msg [] hl
    rwa [List.append_nil] at this
  unfold Node.serve
  rw [h1, h2]
  simp only [h3, h4]

/-- C81: a batch of transactions gossiped by a peer has the effect of submitting each of them, in order; nothing is replied.  (Batches
with a deployment of a contract other than an asset cannot be decoded.) -/
theorem C81_new_txs_partial (cfg : NodeCfg) (io : SyncIo) (n : Node) (sid : Nat) (txs : List SignedTx)
    (hc : ∀ t ∈ txs, t.raw.action.deploysNonAsset = false) (hl : (encMulti txs).length < 2 ^ 64) :
    n.serve cfg io sid endNewTxs (encMulti txs) = ([], n.run cfg (txs.map (.insertTx true true))) := by
  rw [serve_newTxs]
  unfold newTxsHandler
  rw [C50_mempool_messages_partial.2.1 txs hc hl]
  simp only
  have h : ∀ (txs : List SignedTx) (m : Node), m.run cfg (txs.map (.insertTx true true)) =
      { m with pool := txs.foldl (fun p tx => (p.insert cfg.mem (m.view cfg (fun _ => none) true) newTxsOrigin tx).2) m.pool } := by
    intro txs
    induction txs with
    | nil => intro m; rfl
    | cons tx txs ih =>
      intro m
      rw [List.map_cons]
      unfold Node.run
      rw [List.foldl_cons]
      exact ih _
  rw [h]

/-- C81: a node broadcasts an announcement exactly in the calls of `commit` that record an epoch, one, of the height it was called with. -/
theorem C81_announces (cfg : NodeCfg) (io : CommitIo) (epochId : UInt64) (pill : Pill) (proof : OverlordProof) (n : Node) :
    (n.commitSends cfg io epochId pill proof = [richMessage epochId] ∧ ∃ d, (n.commit cfg io epochId pill proof).2.log = d :: n.log) ∨
    (n.commitSends cfg io epochId pill proof = [] ∧ (n.commit cfg io epochId pill proof).2.log = n.log) := by
  unfold Node.commitSends Node.commit
  by_cases hl : io.lock = false
  · rw [if_pos hl, if_pos hl]; exact .inr ⟨rfl, rfl⟩
  rw [if_neg hl, if_neg hl]
  cases hp : proof.toProof with
  | none => exact .inr ⟨rfl, rfl⟩
  | some p =>
    simp only
    rcases saveProof_spec (cfg := cfg) (io := io.save) (p := p) (n := n) with ⟨-, h⟩ | ⟨-, h⟩
    · rw [h]; exact .inr ⟨rfl, rfl⟩
    · rw [h]
      simp only
      by_cases ha : io.alive = false
      · rw [if_pos ha, if_pos ha]; exact .inr ⟨rfl, rfl⟩
      rw [if_neg ha, if_neg ha]
      cases hf : n.pool.getFullTxs pill.epoch.orderedTxHashes with
      | error e => exact .inr ⟨rfl, rfl⟩
      | ok txs =>
        simp only [Node.commitTail]
        rcases exec_spec (cfg := cfg) (root := n.status.stateRoot) (id := epochId) (cb := .user pill.epoch.header.proposer) (txs := txs)
          (n := { n with store := n.store.write (.latestProof p), pool := n.pool.flush pill.epoch.orderedTxHashes }) with ⟨e, he⟩ | ⟨resp, db, he, hr⟩
        · rw [he]; exact .inr ⟨rfl, rfl⟩
        · rw [he]
          simp only
          rcases updateStatus_spec (cfg := cfg) (io := io.save) (n0 := n)
            (n := { n with store := n.store.write (.latestProof p), pool := n.pool.flush pill.epoch.orderedTxHashes, tries := db })
            (d := ⟨epochId, pill.epoch, p, txs, n.status.stateRoot, resp⟩) rfl with ⟨n', j, hu, hj, hn⟩ | hu
          · simp only at hu; rw [hu]; subst hn; exact .inr ⟨rfl, rfl⟩
          · simp only at hu; rw [hu]
            refine .inl ⟨rfl, ⟨epochId, pill.epoch, p, txs, n.status.stateRoot, resp⟩, ?_⟩
            simp only
            split <;> rfl

/-- C81: the announcement of epoch `id` is, for a peer that receives it, a call of `update_epoch` with the height after `id`: nothing is
replied, and nothing happens if the peer is less than two epochs behind or a commit or synchronisation is in progress. -/
theorem C81_heard (cfg : NodeCfg) (io : SyncIo) (n : Node) (sid : Nat) (id : UInt64) (h0 : id ≠ 0) (hlt : id.toNat + 1 < 2 ^ 64) :
    n.serve cfg io sid (richMessage id).1 (richMessage id).2 = ([], n.step cfg (.sync io (u64LE (id.toNat + 1)))) ∧
    (id.toNat ≤ n.currentId.toNat + 1 ∨ io.lock = false → (n.serve cfg io sid (richMessage id).1 (richMessage id).2).2 = n) := by
  have hnat : (id + 1).toNat = id.toNat + 1 := by
    rw [UInt64.toNat_add]; exact Nat.mod_eq_of_lt hlt
  have hs : n.serve cfg io sid (richMessage id).1 (richMessage id).2 = ([], (n.updateEpoch cfg io (u64LE (id.toNat + 1))).2) := by
    unfold richMessage
    rw [hnat]
    exact serve_rich cfg io n sid _ (by rw [u64LE_length]; decide)
  have hread : readU64LE (u64LE (id.toNat + 1)) = some (id.toNat + 1, []) := by
    have := readU64LE_u64LE (id.toNat + 1) hlt []
    rwa [List.append_nil] at this
  have hrich : UInt64.ofNat (id.toNat + 1) - 1 = id := by
    rw [UInt64.ofNat_add, UInt64.ofNat_toNat]
    exact UInt64.add_sub_cancel _ _
  have hpos : 0 < id.toNat := by
    rcases Nat.eq_zero_or_pos id.toNat with h | h
    · exact absurd (UInt64.toNat_inj.mp h) h0
    · exact h
  have hsub : (id - 1).toNat = id.toNat - 1 := by
    rw [UInt64.toNat_sub_of_le _ _ (by rw [UInt64.le_iff_toNat_le]; exact hpos)]; rfl
  have hle : (id - 1 ≤ n.currentId) ↔ id.toNat ≤ n.currentId.toNat + 1 := by
    rw [UInt64.le_iff_toNat_le, hsub]; omega
  refine ⟨hs, fun h => ?_⟩
  rw [hs]
  unfold Node.updateEpoch
  rw [hread]
  simp only [hrich, hle]
  by_cases hc : id.toNat ≤ n.currentId.toNat + 1
  · rw [if_pos hc]
  · rcases h with h | h
    · exact absurd h hc
    · rw [if_neg hc, if_pos h]

/-- C81: hearing the announcement of the last epoch of the chain `ds`, at least two epochs, that `m` committed after the latest epoch of
`n` brings `n` to the height, hash, state root and latest epoch of `m` - with the restrictions of `C38_partial`. -/
theorem C81_catches_up_partial {cfg : NodeCfg} {g g' : Genesis} {ok ok' : Node → NodeOp → Prop} {n m : Node} {io : SyncIo}
    {e : Epoch} {c : UInt64} {ds rest : List Done} {w w' : World} (hn : Lives cfg g ok n) (hm : Lives cfg g' ok' m)
    (hlog : m.log = ds.reverse ++ rest) (hlen : 2 ≤ ds.length) (hlt : c.toNat + ds.length + 1 < 2 ^ 64)
    (hl : n.store.latest = some e) (hc : e.header.epochId = c) (hc0 : c ≠ 0) (hs : n.store.epochs c = some e)
    (hch : ChainOf cfg c (cfg.digest (encode e)) ds) (hrep : Replays cfg w ds w') (hw : Resolves cfg n.tries e.header.stateRoot w)
    (hempty : ∀ pre v, pre <+: ds → Replays cfg w pre v → EmptyRootOf cfg v) (hio : Serves io ds) (sid : Nat) (last : Done) (hlast : ds.getLast? = some last) :
    ∃ n', n.serve cfg io sid (richMessage last.height).1 (richMessage last.height).2 = ([], n') ∧
      n'.status.epochId = m.status.epochId ∧ n'.status.prevHash = m.status.prevHash ∧ n'.status.stateRoot = m.status.stateRoot ∧
      n'.store.latest = m.store.latest ∧ Resolves cfg n'.tries n'.status.stateRoot w' := by
  obtain ⟨n', h1, h2, h3, h4, h5, -, h7⟩ := C38_partial hn hm hlog hlen hlt hl hc hc0 hs hch hrep hw hempty hio
  obtain ⟨pre, hpre⟩ : ∃ pre, ds = pre ++ [last] := List.getLast?_eq_some_iff.mp hlast
  have hid : last.height = UInt64.ofNat (c.toNat + ds.length) := by
    rw [hch.lastHeight hpre, UInt64.ofNat_add, UInt64.ofNat_toNat]
  have hnat : last.height.toNat = c.toNat + ds.length := by
    rw [hid, UInt64.toNat_ofNat']; exact Nat.mod_eq_of_lt (by omega)
  refine ⟨n', ?_, h2, h3, h4, h5, h7⟩
  rw [(C81_heard cfg io n sid last.height (fun h => by rw [h] at hnat; change 0 = _ at hnat; omega) (by omega)).1, hnat]
  show ([], (n.updateEpoch cfg io (u64LE (c.toNat + ds.length + 1))).2) = _
  rw [h1]

/-- A node that is exactly one epoch behind the announced one does nothing, whatever the state of the two. -/
theorem C81_one_behind (cfg : NodeCfg) (io : SyncIo) (n : Node) (sid : Nat) (id : UInt64) (h0 : id ≠ 0) (hlt : id.toNat + 1 < 2 ^ 64)
    (h1 : n.currentId.toNat + 1 = id.toNat) : n.serve cfg io sid (richMessage id).1 (richMessage id).2 = ([], n) := by
  obtain ⟨h, h'⟩ := C81_heard cfg io n sid id h0 hlt
  have h2 := h' (.inl (by omega))
  have key : ∀ (x : List OutMsg × Node) (y : Node), x = ([], y) → x.2 = n → x = ([], n) := fun x y hx hn => by
    rw [hx] at hn ⊢
    exact congrArg (Prod.mk []) hn
  exact key _ _ h h2

open Demo in
/-- A transaction that deploys a native contract. -/
def Demo.nativeTx : SignedTx := { npay 1 2 7 2 with raw := { (npay 1 2 7 2).raw with action := .deploy [1, 2, 3] .native } }

open Demo in
/-- **C81 is false.**  (1) `m` committed epochs 2 and 3 after the latest epoch of a node; `n` has epoch 2 too, hears the announcement of epoch 3 and stays
where it is.  (2) A payment that a node accepts when it is gossiped alone is lost when it is gossiped together with the deployment of a native contract. -/
theorem C81_refuted : ∃ (cfg : NodeCfg) (g : Genesis) (n m : Node) (io : SyncIo) (pay dep : SignedTx),
    Lives cfg g (fun _ _ => True) n ∧ Lives cfg g (fun _ _ => True) m ∧
    (∀ k id, io.pullEpoch k id = m.store.epochs id) ∧ (∀ k hs, io.pullTxs k hs = hs.mapM m.store.txs) ∧ io.lock = true ∧ io.send = true ∧ (∀ k, io.save k = .ok) ∧
    -- (1)
    m.currentId = 3 ∧ n.currentId = 2 ∧ n.store.epochs 2 = m.store.epochs 2 ∧
    (∀ sid, (n.serve cfg io sid (richMessage 3).1 (richMessage 3).2).2 = n) ∧
    -- (2)
    (∀ sid, ((m.serve cfg io sid endNewTxs (encMulti [pay])).2.pool.cache.get pay.txHash).isSome ∧
      (m.serve cfg io sid endNewTxs (encMulti [pay, dep])).2.pool.cache.get pay.txHash = none) := by
  have l1 : Lives ncfg ngenesis (fun _ _ => True) e1 := blockOps_lives (n0_lives _) _ (fun _ _ => trivial)
  have l2 : Lives ncfg ngenesis (fun _ _ => True) e2 := blockOps_lives l1 _ (fun _ _ => trivial)
  have l3 : Lives ncfg ngenesis (fun _ _ => True) e3 := blockOps_lives l2 _ (fun _ _ => trivial)
  have c1 : e3.currentId = 3 ∧ e2.currentId = 2 ∧ e2.store.epochs 2 = e3.store.epochs 2 := by decide +kernel
  have c2 : ((e3.serve ncfg (peer e3) 0 endNewTxs (encMulti [npay 1 2 7 2])).2.pool.cache.get (npay 1 2 7 2).txHash).isSome ∧
      (e3.serve ncfg (peer e3) 0 endNewTxs (encMulti [npay 1 2 7 2, nativeTx])).2.pool.cache.get (npay 1 2 7 2).txHash = none := by decide +kernel
  refine ⟨ncfg, ngenesis, e2, e3, peer e3, npay 1 2 7 2, nativeTx, l2, l3, (peer_spec e3).1, (peer_spec e3).2.1, (peer_spec e3).2.2.1, (peer_spec e3).2.2.2.1,
    (peer_spec e3).2.2.2.2, c1.1, c1.2.1, c1.2.2, fun sid => ?_, fun sid => ?_⟩
  · rw [C81_one_behind ncfg (peer e3) e2 sid 3 (by decide) (by decide) (by rw [c1.2.1]; rfl)]
  · rw [serve_newTxs] at c2
    rw [serve_newTxs] at c2
    rw [serve_newTxs, serve_newTxs]
    exact c2

open Demo in
/-- The announcement of epoch 3 brings a node that stopped after the (empty) epoch 1 to the state of the node that committed it, and
leaves one that has epoch 2 where it is; a batch of one payment enters the pool. -/
example : (e1.serve ncfg (peer e3) 5 (richMessage 3).1 (richMessage 3).2).2.status.stateRoot = e3.status.stateRoot ∧
    (e1.serve ncfg (peer e3) 5 (richMessage 3).1 (richMessage 3).2).2.status.epochId = 4 ∧
    (e2.serve ncfg (peer e3) 5 (richMessage 3).1 (richMessage 3).2).2.status.epochId = 3 ∧
    ((e3.serve ncfg (peer e3) 5 endNewTxs (encMulti [npay 1 2 7 2])).2.pool.cache.get (npay 1 2 7 2).txHash).isSome ∧
    e3.pool.cache.get (npay 1 2 7 2).txHash = none := by
  decide +kernel

end Huobi
