import Verif.Props.Engine
/-
C65: a transaction is executed at most once.
-/
namespace Huobi

/-! ### The pool holds no committed transaction -/

theorem txs_take (cfg : NodeCfg) (d : Done) (s : Store) (j : Nat) (h : Hash) :
    (s.writes ((d.writes cfg).take j)).txs h = s.txs h ∨ (∃ t ∈ d.txs, t.txHash = h) := by
  rw [Done.writes_eq]
  have key : insertAll SignedTx.txHash d.txs s.txs h = s.txs h ∨ (∃ t ∈ d.txs, t.txHash = h) := by
    unfold insertAll
    cases hf : List.find? (fun v => decide (SignedTx.txHash v = h)) d.txs.reverse with
    | some w => exact .inr ⟨w, by simpa using List.mem_of_find?_eq_some hf, by simpa using List.find?_some hf⟩
    | none => exact .inl rfl
  match j with
  | 0 | 1 | 2 => exact .inl rfl
  | 3 | 4 | 5 => exact key
  | m + 6 =>
    rw [List.take_of_length_le (by simp)]
    exact key

/-- Writing an epoch stores its transactions and forgets none. -/
theorem txs_writes (cfg : NodeCfg) (d : Done) (s : Store) (h : Hash) (hh : (s.txs h).isSome ∨ ∃ t ∈ d.txs, t.txHash = h) :
    ((s.writes (d.writes cfg)).txs h).isSome := insertAll_isSome SignedTx.txHash d.txs s.txs h hh

/-- A partial write forgets no transaction. -/
theorem txs_take_mono (cfg : NodeCfg) (d : Done) (s : Store) (j : Nat) (h : Hash) (hh : (s.txs h).isSome) :
    ((s.writes ((d.writes cfg).take j)).txs h).isSome := by
  rw [Done.writes_eq]
  have key := insertAll_isSome SignedTx.txHash d.txs s.txs h (.inl hh)
  match j with
  | 0 | 1 | 2 => exact hh
  | 3 | 4 | 5 => exact key
  | m + 6 =>
    rw [List.take_of_length_le (by simp)]
    exact key

theorem cache_insert_get {c : TxCache} (g : c.Good) (tx : SignedTx) (b : Bool) {h : Hash} {t : SignedTx}
    (hg : (c.insert tx b).2.get h = some t) : c.get h = some t ∨ (h = tx.txHash ∧ t = tx) := by
  cases hn : c.get tx.txHash with
  | none =>
    rcases cache_insert g (b := b) hn with ⟨-, -, g', ha⟩ | ⟨-, -, g', ha⟩
    · rw [get_append g g' (by rw [ha]) hn] at hg
      split at hg
      · rename_i he; cases hg; exact .inr ⟨he, rfl⟩
      · exact .inl hg
    · exact .inl (by rw [get_of_abs g g' (by rw [ha])]; exact hg)
  | some t0 =>
    obtain ⟨-, g', h3⟩ := g.call_refines (.insert tx b)
    simp only [TxCache.call, RefPool.call] at g' h3
    have hmem : tx.txHash ∈ hashesOf c.abs.entries := by
      rw [g.mem_hashes]
      simp only [TxCache.get, Option.map_eq_some_iff] at hn
      obtain ⟨x, hx, -⟩ := hn
      rw [hx]; rfl
    rw [if_pos hmem] at h3
    exact .inl (by rw [get_of_abs g g' (by rw [h3])]; exact hg)

theorem cache_fold_get (txs : List SignedTx) : ∀ {c : TxCache}, c.Good → ∀ {h : Hash} {t : SignedTx},
    (txs.foldl (fun c tx => (c.insert tx true).2) c).get h = some t → c.get h = some t ∨ (t ∈ txs ∧ h = t.txHash) := by
  induction txs with
  | nil => intro c _ h t hg; exact .inl hg
  | cons tx txs ih =>
    intro c g h t hg
    have g' : (c.insert tx true).2.Good := (g.call_refines (.insert tx true)).2.1
    rcases ih g' hg with h1 | ⟨h1, h2⟩
    · rcases cache_insert_get g tx true h1 with h1 | ⟨h1, rfl⟩
      · exact .inl h1
      · exact .inr ⟨List.mem_cons_self, h1⟩
    · exact .inr ⟨List.mem_cons_of_mem _ h1, h2⟩

theorem callback_fold_get (txs : List SignedTx) : ∀ {m : TxMap SignedTx} {h : Hash} {t : SignedTx},
    (txs.foldl (fun m tx => (m.insert tx.txHash tx).2) m).get h = some t → m.get h = some t ∨ (t ∈ txs ∧ h = t.txHash) := by
  induction txs with
  | nil => intro m h t hg; exact .inl hg
  | cons tx txs ih =>
    intro m h t hg
    rcases ih hg with h1 | ⟨h1, h2⟩
    · rw [TxMap.get_insert] at h1
      split at h1
      · rename_i he; cases h1; exact .inr ⟨List.mem_cons_self, he.1⟩
      · exact .inl h1
    · exact .inr ⟨List.mem_cons_of_mem _ h1, h2⟩

/-- A call that brings no committed transaction back: peers answer a request for transactions with transactions that were not committed,
and nothing is synchronised. -/
def NodeOp.Fresh (n : Node) : NodeOp → Prop
  | .sync _ _ => False
  | .check p1 p2 _ _ => ∀ q txs, p1 q = some txs ∨ p2 q = some txs → ∀ t ∈ txs, n.store.txs t.txHash = none
  | _ => True

/-- No transaction the node could order is stored; what was recorded is stored; nothing was recorded twice. -/
structure ReplayInv (n : Node) : Prop where
  cache : ∀ h t, n.pool.cache.get h = some t → n.store.txs h = none
  callback : ∀ h t, n.pool.callback.get h = some t → n.store.txs h = none
  stored : ∀ d ∈ n.log, ∀ t ∈ d.txs, (n.store.txs t.txHash).isSome
  once : n.log.Pairwise (fun d2 d1 => ∀ t2 ∈ d2.txs, ∀ t1 ∈ d1.txs, t2.txHash ≠ t1.txHash)

theorem ReplayInv.new {n : Node} {a : Nat} {b : UInt64} (hp : n.pool = MemPool.new a b) (hl : n.log = []) : ReplayInv n := by
  refine ⟨?_, ?_, ?_, ?_⟩
  · intro h t hg; rw [hp] at hg; cases hg
  · intro h t hg; rw [hp] at hg; cases hg
  · intro d hd; rw [hl] at hd; cases hd
  · rw [hl]; exact .nil

theorem ReplayInv.pool {n n' : Node} (h : ReplayInv n) (hs : n'.store = n.store) (hl : n'.log = n.log)
    (h1 : ∀ k t, n'.pool.cache.get k = some t → n.pool.cache.get k = some t ∨ n.store.txs k = none)
    (h2 : ∀ k t, n'.pool.callback.get k = some t → n.pool.callback.get k = some t ∨ n.store.txs k = none) : ReplayInv n' := by
  refine ⟨?_, ?_, ?_, ?_⟩
  · intro k t hg; rw [hs]; exact (h1 k t hg).elim (h.cache k t) id
  · intro k t hg; rw [hs]; exact (h2 k t hg).elim (h.callback k t) id
  · rw [hs, hl]; exact h.stored
  · rw [hl]; exact h.once

theorem ReplayInv.getFull {n : Node} (h : ReplayInv n) {hs : List Hash} {txs : List SignedTx} (hg : n.pool.getFullTxs hs = .ok txs) :
    ∀ k ∈ hs, n.store.txs k = none := by
  intro k hk
  unfold MemPool.getFullTxs at hg
  simp only at hg
  split at hg
  · cases hg
  · rename_i hlen
    have hlen : (hs.filterMap n.pool.lookup).length = hs.length := by omega
    have := (filterMap_full n.pool.lookup hs).1 hlen k hk
    obtain ⟨t, ht⟩ := Option.isSome_iff_exists.1 this
    rcases (lookup_iff _ _ _).1 ht with ht | ⟨-, ht⟩
    · exact h.cache k t ht
    · exact h.callback k t ht

theorem package_callback (v : MemView) (l : UInt64) (p : MemPool) : (p.package v l).2.callback = p.callback := by
  unfold MemPool.package; split <;> rfl

theorem insert_callback (cr : MemCrypto) (v : MemView) (o : Bool) (tx : SignedTx) (p : MemPool) :
    (p.insert cr v o tx).2.callback = p.callback := by
  rw [insert_unfold]
  split
  · rfl
  · split
    · rfl
    · split <;> rfl

theorem syncPropose_cases (v : MemView) (hs : List Hash) {p : MemPool} (g : p.cache.Good) :
    (p.syncProposeTxs v hs).2.callback = p.callback ∧
    ∀ k t, (p.syncProposeTxs v hs).2.cache.get k = some t → p.cache.get k = some t ∨
      ∃ q txs, v.pull q = some txs ∧ t ∈ txs ∧ k = t.txHash := by
  unfold MemPool.syncProposeTxs
  simp only
  split
  · exact ⟨rfl, fun _ _ h => .inl h⟩
  · split
    · exact ⟨rfl, fun _ _ h => .inl h⟩
    · rename_i txs hp
      exact ⟨rfl, fun k t h => (cache_fold_get txs g h).imp id (fun h => ⟨_, txs, hp, h⟩)⟩

theorem ensure_cases (v : MemView) (hs : List Hash) (p : MemPool) :
    ∀ k t, (p.ensureOrderTxs v hs).2.callback.get k = some t → p.callback.get k = some t ∨
      ∃ q txs, v.pull q = some txs ∧ t ∈ txs ∧ k = t.txHash := by
  unfold MemPool.ensureOrderTxs
  simp only
  split
  · exact fun _ _ h => .inl h
  · split
    · exact fun _ _ h => .inl h
    · rename_i txs hp
      split
      · exact fun _ _ h => .inl h
      · exact fun k t h => (callback_fold_get txs h).imp id (fun h => ⟨_, txs, hp, h⟩)

theorem Lives.good {cfg : NodeCfg} {g : Genesis} {ok : Node → NodeOp → Prop} {n : Node} (h : Lives cfg g ok n) : n.pool.cache.Good := by
  obtain ⟨ops, hp⟩ := h.pool
  rw [← hp]; exact after_good _ _ _ ops

theorem Lives.replayInv {cfg : NodeCfg} {g : Genesis} {n : Node} (h : Lives cfg g NodeOp.Fresh n) : ReplayInv n := by
  induction h with
  | init h1 h2 => obtain ⟨e, -, -, -, -, hl, -, hp⟩ := startNode_some h2; exact .new hp hl
  | restart _ _ h2 _ => obtain ⟨e, -, -, -, -, hl, -, hp⟩ := startNode_some h2; exact .new hp hl
  | @step n op hn hok ih =>
    have hgood := hn.good
    cases op with
    | insertTx o b tx =>
      refine ih.pool rfl rfl ?_ ?_
      · intro k t hg
        rcases insert_cases cfg.mem (n.view cfg (fun _ => none) b) o tx hgood with ⟨h, -⟩ | ⟨h, h', -⟩
        · exact .inl (by rw [← h k]; exact hg)
        · have hg : ((n.pool.insert cfg.mem (n.view cfg (fun _ => none) b) o tx).2).cache.get k = some t := hg
          rw [h'] at hg
          split at hg
          · rename_i he
            subst he
            right
            have := h ((n.view cfg (fun _ => none) b).stored tx.txHash ≠ .found, .committedTx tx.txHash) (by simp [admissionRules])
            simp only [Node.view] at this
            cases hx : n.store.txs tx.txHash with
            | none => rfl
            | some y => rw [hx] at this; simp at this
          · exact .inl hg
      · intro k t hg
        have hg : ((n.pool.insert cfg.mem (n.view cfg (fun _ => none) b) o tx).2).callback.get k = some t := hg
        rw [insert_callback] at hg; exact .inl hg
    | propose now id =>
      obtain ⟨a, -, -, d⟩ := passive_step cfg n (.propose now id) trivial
      refine ih.pool a d ?_ ?_
      · intro k t hg
        have hg : (n.getEpoch cfg now id).2.pool.cache.get k = some t := hg
        rw [getEpoch_pool] at hg
        exact .inl ((package_cases _ _ hgood).1 k t hg)
      · intro k t hg
        have hg : (n.getEpoch cfg now id).2.pool.callback.get k = some t := hg
        rw [getEpoch_pool, package_callback] at hg
        exact .inl hg
    | check p1 p2 ha pill =>
      obtain ⟨a, -, -, d⟩ := passive_step cfg n (.check p1 p2 ha pill) trivial
      have hc := (checkEpoch_spec cfg p1 p2 ha pill n).1
      obtain ⟨c1, c2⟩ := syncPropose_cases (n.view cfg p1 true) pill.proposeHashes hgood
      refine ih.pool a d ?_ ?_
      · intro k t hg
        have hg : (n.checkEpoch cfg p1 p2 ha pill).2.pool.cache.get k = some t := hg
        have : n.pool.cache.get k = some t ∨ (n.pool.syncProposeTxs (n.view cfg p1 true) pill.proposeHashes).2.cache.get k = some t := by
          rcases hc with hc | hc | hc
          · rw [hc] at hg; exact .inl hg
          · rw [hc] at hg; exact .inr hg
          · rw [hc, ensure_cache] at hg; exact .inr hg
        rcases this with h | h
        · exact .inl h
        · rcases c2 k t h with h | ⟨q, txs, hq, ht, rfl⟩
          · exact .inl h
          · exact .inr (hok q txs (.inl hq) t ht)
      · intro k t hg
        have hg : (n.checkEpoch cfg p1 p2 ha pill).2.pool.callback.get k = some t := hg
        rcases hc with hc | hc | hc
        · rw [hc] at hg; exact .inl hg
        · rw [hc, c1] at hg; exact .inl hg
        · rw [hc] at hg
          rcases ensure_cases _ _ _ k t hg with h | ⟨q, txs, hq, ht, rfl⟩
          · rw [c1] at h; exact .inl h
          · exact .inr (hok q txs (.inr hq) t ht)
    | commit io id pill proof =>
      show ReplayInv (n.commit cfg io id pill proof).2
      obtain ⟨ops, hpool⟩ := hn.pool
      have hend := commit_end cfg io id pill proof n
      have hflush : ∀ k t, (n.pool.flush pill.epoch.orderedTxHashes).cache.get k = some t →
          k ∉ pill.epoch.orderedTxHashes ∧ n.pool.cache.get k = some t := by
        intro k t hg
        have hg : (n.pool.cache.flush pill.epoch.orderedTxHashes).get k = some t := hg
        rw [flush_get hgood] at hg
        split at hg
        · cases hg
        · rename_i hk; exact ⟨hk, hg⟩
      have hclear : ∀ k t, (n.pool.flush pill.epoch.orderedTxHashes).callback.get k ≠ some t := by
        intro k t hg; cases hg
      generalize n.commit cfg io id pill proof = x at hend ⊢
      have keep : ∀ p : Proof, ReplayInv { n with store := n.store.write (.latestProof p) } :=
        fun p => ⟨ih.cache, ih.callback, ih.stored, ih.once⟩
      have fresh : ∀ {d : Done} (_ : CommitDone n id pill proof d) (s : Store) (_ : ∀ k, s.txs k = n.store.txs k ∨ ∃ t ∈ d.txs, t.txHash = k)
          (k t), (n.pool.flush pill.epoch.orderedTxHashes).cache.get k = some t → s.txs k = none := by
        intro d hd s hs k t hg
        obtain ⟨hk, hg⟩ := hflush k t hg
        rcases hs k with h | ⟨y, hy, rfl⟩
        · rw [h]; exact ih.cache k t hg
        · have := (C26_full_txs_exact cfg.mem cfg.poolSize cfg.timeoutGap ops hpool pill.epoch.orderedTxHashes).2.1 d.txs hd.txs
          exact absurd (this ▸ List.mem_map_of_mem hy) hk
      cases hend with
      | lock _ => exact ih
      | badProof _ => exact ih
      | saveProof _ => exact ih
      | killed _ _ => exact keep _
      | mempool _ _ => exact keep _
      | exec hp hf he =>
        exact ⟨fun k t hg => ih.cache k t (hflush k t hg).2, fun k t hg => absurd hg (hclear k t), ih.stored, ih.once⟩
      | @storage d j db hd hr hj =>
        refine ⟨fresh hd _ (txs_take cfg d n.store j), fun k t hg => absurd hg (hclear k t), ?_, ih.once⟩
        exact fun y hy t ht => txs_take_mono cfg d n.store j _ (ih.stored y hy t ht)
      | @done d db hd hr =>
        have hw : ∀ k, (n.store.writes (d.writes cfg)).txs k = n.store.txs k ∨ ∃ t ∈ d.txs, t.txHash = k := by
          have := txs_take cfg d n.store 6
          rw [List.take_of_length_le (by rw [Done.writes_eq]; simp)] at this
          exact this
        refine ⟨fresh hd _ hw, fun k t hg => absurd hg (hclear k t), ?_, ?_⟩
        · intro y hy t ht
          rcases List.mem_cons.1 hy with rfl | hy
          · exact txs_writes cfg _ _ _ (.inr ⟨t, ht, rfl⟩)
          · exact txs_writes cfg _ _ _ (.inl (ih.stored y hy t ht))
        · refine .cons ?_ ih.once
          intro y hy t2 ht2 t1 ht1 he
          have h1 := ih.stored y hy t1 ht1
          have h2 := (C26_full_txs_exact cfg.mem cfg.poolSize cfg.timeoutGap ops hpool pill.epoch.orderedTxHashes).2.1 d.txs hd.txs
          have h3 := ih.getFull hd.txs t2.txHash (h2 ▸ List.mem_map_of_mem ht2)
          rw [← he, h3] at h1
          cases h1
    | sync io msg => exact hok.elim

/-- **C65 (partial).**  In every lifetime of a node without synchronisation and in which peers send, on request, only transactions that
were not committed: no transaction is recorded in two epochs since the last start; an epoch the node proposes orders and proposes
distinct transactions, none of them stored; and a commit executes and records only transactions that were not stored (by this or an
earlier process) before. -/
theorem C65_partial {cfg : NodeCfg} {g : Genesis} {n : Node} (h : Lives cfg g NodeOp.Fresh n) :
    n.log.Pairwise (fun d2 d1 => ∀ t2 ∈ d2.txs, ∀ t1 ∈ d1.txs, t2.txHash ≠ t1.txHash) ∧
    (∀ now id pill hash n', n.getEpoch cfg now id = (.ok (pill, hash), n') →
      (pill.epoch.orderedTxHashes ++ pill.proposeHashes).Nodup ∧
      ∀ k ∈ pill.epoch.orderedTxHashes ++ pill.proposeHashes, n.store.txs k = none) ∧
    (∀ io id pill proof d, (n.commit cfg io id pill proof).2.log = d :: n.log → ∀ t ∈ d.txs, n.store.txs t.txHash = none) := by
  have inv := h.replayInv
  obtain ⟨ops, hpool⟩ := h.pool
  refine ⟨inv.once, ?_, ?_⟩
  · intro now id pill hash n' hg
    obtain ⟨cops, hc⟩ := after_cache cfg.mem cfg.poolSize cfg.timeoutGap ops
    rw [hpool] at hc
    unfold Node.getEpoch at hg
    split at hg
    · cases hg
    · rename_i order propose pool hpk
      split at hg
      · cases hg
      · injection hg with hg _
        injection hg with hg
        injection hg with hg _
        subst hg
        simp only
        unfold MemPool.package at hpk
        split at hpk
        · cases hpk
        · rename_i c e _
          simp only [Prod.mk.injEq] at hpk
          obtain ⟨o, p, h1, h2, h3⟩ := C18_package_distinct_and_pooled hc n.status.cyclesLimit e (e + n.pool.gap)
          rw [h1] at hpk
          obtain ⟨hpk, -⟩ := hpk
          injection hpk with hpk
          injection hpk with ho hp'
          subst ho hp'
          exact ⟨h2, fun k hk => (h3 k hk).elim fun t ht => inv.cache k t ht.1⟩
  · intro io id pill proof d hd t ht
    have heff := commit_end cfg io id pill proof n
    generalize n.commit cfg io id pill proof = x at heff hd
    have nope : ∀ {l : List Done}, l = d :: l → False := fun h => by have := congrArg List.length h; simp at this
    cases heff with
    | done hdone hr =>
      injection hd with hd _
      subst hd
      have := (C26_full_txs_exact cfg.mem cfg.poolSize cfg.timeoutGap ops hpool pill.epoch.orderedTxHashes).2.1 _ hdone.txs
      exact inv.getFull hdone.txs _ (this ▸ List.mem_map_of_mem ht)
    | _ => exact (nope hd).elim

namespace Demo

/-- An epoch after `n1` that orders the payment of the first epoch again, and one that orders a transaction twice. -/
def againPill : Pill := ⟨⟨{ n1pill.epoch.header with epochId := 2, preHash := n1.status.prevHash, stateRoot := n1.status.stateRoot }, [(npay 1 2 10).txHash]⟩, []⟩
def twicePill : Pill := ⟨⟨n1pill.epoch.header, [(npay 1 2 10).txHash, (npay 1 2 10).txHash]⟩, []⟩

/-- A peer that answers with the payment of the first epoch. -/
def oldPull : List Hash → Option (List SignedTx) := fun _ => some [npay 1 2 10]

/-- A node that has the payment of epoch 2 in its pool and synchronises the epochs 2 and 3. -/
def lagging : Node := n1.step ncfg (.insertTx true true (npay 2 1 5 1))
def laggingSynced : Node := lagging.step ncfg (.sync (peer n3) (u64LE 4))

theorem again_lives {g : Genesis} {n : Node} (h : Lives ncfg g (fun _ _ => True) n) (ops : List NodeOp) :
    Lives ncfg g (fun _ _ => True) (n.run ncfg ops) := run_lives _ h (fun _ _ _ _ => trivial)

end Demo

open Demo in
/-- **C65 is false of the code as it stands: replay.**  A node that committed a payment in epoch 1 accepts, with the help of a peer that
sends it the transaction again, an epoch 2 that orders the same payment, and executes and records it a second time: the payer paid
twice. -/
theorem C65_replay_refuted : ∃ (cfg : NodeCfg) (g : Genesis) (n : Node) (pull1 pull2 : List Hash → Option (List SignedTx)) (pill : Pill)
    (proof : OverlordProof) (tx : SignedTx),
    Lives cfg g (fun _ _ => True) n ∧ n.log.map Done.txs = [[tx]] ∧ n.store.txs tx.txHash = some tx ∧
    (n.checkEpoch cfg pull1 pull2 [] pill).1.toOption = some [tx] ∧
    ((n.checkEpoch cfg pull1 pull2 [] pill).2.commit cfg .ok 2 pill proof).1.toOption = some 3 ∧
    ((n.checkEpoch cfg pull1 pull2 [] pill).2.commit cfg .ok 2 pill proof).2.log.map Done.txs = [[tx], [tx]] ∧
    n.status.stateRoot.bytes.take 2 = [90, 60] ∧
    ((n.checkEpoch cfg pull1 pull2 [] pill).2.commit cfg .ok 2 pill proof).2.status.stateRoot.bytes.take 2 = [80, 70] := by
  have h1 : Lives ncfg ngenesis (fun _ _ => True) n1 := blockOps_lives (n0_lives _) _ (fun _ _ => trivial)
  have h2 : n1.log.map Done.txs = [[npay 1 2 10]] := by decide +kernel
  have h3 : n1.store.txs (npay 1 2 10).txHash = some (npay 1 2 10) := by decide +kernel
  have h4 : (n1.checkEpoch ncfg noPull oldPull [] againPill).1.toOption = some [npay 1 2 10] := by decide +kernel
  have h5 : ((n1.checkEpoch ncfg noPull oldPull [] againPill).2.commit ncfg .ok 2 againPill (oproof 2)).1.toOption = some 3 := by decide +kernel
  have h6 : ((n1.checkEpoch ncfg noPull oldPull [] againPill).2.commit ncfg .ok 2 againPill (oproof 2)).2.log.map Done.txs =
    [[npay 1 2 10], [npay 1 2 10]] := by decide +kernel
  have h7 : n1.status.stateRoot.bytes.take 2 = [90, 60] := by decide +kernel
  have h8 : ((n1.checkEpoch ncfg noPull oldPull [] againPill).2.commit ncfg .ok 2 againPill (oproof 2)).2.status.stateRoot.bytes.take 2 =
    [80, 70] := by decide +kernel
  exact ⟨ncfg, ngenesis, n1, noPull, oldPull, againPill, oproof 2, npay 1 2 10, h1, h2, h3, h4, h5, h6, h7, h8⟩

open Demo in
/-- **C65 is false of the code as it stands: the same transaction twice in one epoch.**  An epoch that orders a pooled payment twice is
accepted and executed: the payer paid twice. -/
theorem C65_twice_refuted : ∃ (cfg : NodeCfg) (g : Genesis) (n : Node) (pill : Pill) (proof : OverlordProof) (tx : SignedTx),
    Lives cfg g (fun _ _ => True) n ∧
    (n.checkEpoch cfg (fun _ => none) (fun _ => none) [] pill).1.toOption = some [tx, tx] ∧
    (n.commit cfg .ok 1 pill proof).1.toOption = some 2 ∧ (n.commit cfg .ok 1 pill proof).2.log.map Done.txs = [[tx, tx]] ∧
    n.status.stateRoot.bytes.take 2 = [100, 50] ∧ (n.commit cfg .ok 1 pill proof).2.status.stateRoot.bytes.take 2 = [80, 70] := by
  have h1 : Lives ncfg ngenesis (fun _ _ => True) (inserted n0 [npay 1 2 10]) := again_lives (n0_lives _) _
  have h2 : ((inserted n0 [npay 1 2 10]).checkEpoch ncfg (fun _ => none) (fun _ => none) [] twicePill).1.toOption =
    some [npay 1 2 10, npay 1 2 10] := by decide +kernel
  have h3 : ((inserted n0 [npay 1 2 10]).commit ncfg .ok 1 twicePill (oproof 1)).1.toOption = some 2 := by decide +kernel
  have h4 : ((inserted n0 [npay 1 2 10]).commit ncfg .ok 1 twicePill (oproof 1)).2.log.map Done.txs = [[npay 1 2 10, npay 1 2 10]] := by
    decide +kernel
  have h5 : (inserted n0 [npay 1 2 10]).status.stateRoot.bytes.take 2 = [100, 50] := by decide +kernel
  have h6 : ((inserted n0 [npay 1 2 10]).commit ncfg .ok 1 twicePill (oproof 1)).2.status.stateRoot.bytes.take 2 = [80, 70] := by
    decide +kernel
  exact ⟨ncfg, ngenesis, inserted n0 [npay 1 2 10], twicePill, oproof 1, npay 1 2 10, h1, h2, h3, h4, h5, h6⟩

open Demo in
/-- **C65 is false of the code as it stands: after a synchronisation.**  A node has a transaction in its pool, synchronises epochs in
which that transaction was committed, and proposes it again: with no faulty peer. -/
theorem C65_sync_refuted : ∃ (cfg : NodeCfg) (g : Genesis) (n : Node) (tx : SignedTx) (pill : Pill) (hash : Bytes),
    Lives cfg g (fun _ _ => True) n ∧ n.store.txs tx.txHash = some tx ∧ (∃ d ∈ n.log, d.txs = [tx]) ∧
    (n.getEpoch cfg 7 n.status.epochId).1.toOption = some (pill, hash) ∧ pill.epoch.orderedTxHashes = [tx.txHash] := by
  have h1 : Lives ncfg ngenesis (fun _ _ => True) laggingSynced := by
    have := again_lives (blockOps_lives (n0_lives _) [npay 1 2 10] (fun _ _ => trivial)) [.insertTx true true (npay 2 1 5 1), .sync (peer n3) (u64LE 4)]
    exact this
  have h2 : laggingSynced.store.txs (npay 2 1 5 1).txHash = some (npay 2 1 5 1) := by decide +kernel
  have h3 : [npay 2 1 5 1] ∈ laggingSynced.log.map Done.txs := by decide +kernel
  have h4 : (((laggingSynced.getEpoch ncfg 7 laggingSynced.status.epochId).1.toOption).map (fun x => x.1.epoch.orderedTxHashes)) =
    some [(npay 2 1 5 1).txHash] := by decide +kernel
  obtain ⟨⟨pill, hash⟩, h5, h6⟩ := Option.map_eq_some_iff.1 h4
  obtain ⟨d, hd, hd2⟩ := List.mem_map.1 h3
  exact ⟨ncfg, ngenesis, laggingSynced, npay 2 1 5 1, pill, hash, h1, h2, ⟨d, hd, hd2⟩, h5, h6⟩

open Demo in
/-- The hypothesis of `C65_partial` is met by a node with two epochs of one payment each. -/
example : Lives ncfg ngenesis NodeOp.Fresh n2 ∧ n2.log.map Done.txs = [[npay 2 1 5 1], [npay 1 2 10]] := by
  have key : ∀ (n : Node) (txs : List SignedTx), Lives ncfg ngenesis NodeOp.Fresh n → Lives ncfg ngenesis NodeOp.Fresh (block n txs) := by
    intro n txs h
    rw [block_eq]
    refine .step _ (.step _ ?_ trivial) trivial
    refine run_lives _ h ?_
    intro pre op post he
    have : op ∈ txs.map (fun t => NodeOp.insertTx true true t) := by rw [he]; simp
    obtain ⟨t, -, rfl⟩ := List.mem_map.1 this
    exact trivial
  exact ⟨key _ _ (key _ _ (n0_lives _)), by decide +kernel⟩

end Huobi
