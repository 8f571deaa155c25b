import Verif.Props.PayOnce
/-
C100: a node invents no transactions.
-/
namespace Huobi

/-- A call in which the node is handed only transactions of `P`: submitted through the API or gossiped (`insertTx`), or sent by peers on
request (`check`, `sync`). -/
def NodeOp.Hands (P : SignedTx → Prop) (_ : Node) : NodeOp → Prop
  | .insertTx _ _ tx => P tx
  | .check p1 p2 _ _ => ∀ q txs, p1 q = some txs ∨ p2 q = some txs → ∀ t ∈ txs, P t
  | .sync io _ => ∀ k q txs, io.pullTxs k q = some txs → ∀ t ∈ txs, P t
  | _ => True

/-- The pool holds only transactions of `P`. -/
structure HandedPool (P : SignedTx → Prop) (p : MemPool) : Prop where
  cache : ∀ h t, p.cache.get h = some t → P t
  callback : ∀ h t, p.callback.get h = some t → P t

/-- The records hold only transactions of `P`. -/
structure HandedData (P : SignedTx → Prop) (n : Node) (older : List Done) : Prop where
  stored : ∀ k t, n.store.txs k = some t → P t
  log : ∀ d ∈ n.log ++ older, ∀ t ∈ d.txs, P t

theorem HandedPool.getFull {P : SignedTx → Prop} {p : MemPool} (h : HandedPool P p) {hs : List Hash} {txs : List SignedTx}
    (hg : p.getFullTxs hs = .ok txs) : ∀ t ∈ txs, P t := by
  unfold MemPool.getFullTxs at hg
  simp only at hg
  split at hg
  · cases hg
  · injection hg with hg
    subst hg
    intro t ht
    obtain ⟨k, -, hk⟩ := List.mem_filterMap.1 ht
    rcases (lookup_iff _ _ _).1 hk with ht | ⟨-, ht⟩
    · exact h.cache k t ht
    · exact h.callback k t ht

theorem HandedPool.flush {P : SignedTx → Prop} {p : MemPool} (h : HandedPool P p) (hg : p.cache.Good) (hs : List Hash) :
    HandedPool P (p.flush hs) := by
  refine ⟨fun k t ht => ?_, fun k t ht => by cases ht⟩
  have ht : (p.cache.flush hs).get k = some t := ht
  rw [flush_get hg] at ht
  split at ht
  · cases ht
  · exact h.cache k t ht

theorem HandedPool.check {P : SignedTx → Prop} {n : Node} (hp : HandedPool P n.pool) (hgood : n.pool.cache.Good) (cfg : NodeCfg)
    (p1 p2 : List Hash → Option (List SignedTx)) (ha : Bytes) (pill : Pill)
    (hok : ∀ q txs, p1 q = some txs ∨ p2 q = some txs → ∀ t ∈ txs, P t) : HandedPool P (n.checkEpoch cfg p1 p2 ha pill).2.pool := by
  have hc := (checkEpoch_spec cfg p1 p2 ha pill n).1
  obtain ⟨c1, c2⟩ := syncPropose_cases (n.view cfg p1 true) pill.proposeHashes hgood
  refine ⟨?_, ?_⟩
  · intro k t hg
    have : n.pool.cache.get k = some t ∨ (n.pool.syncProposeTxs (n.view cfg p1 true) pill.proposeHashes).2.cache.get k = some t := by
      rcases hc with hc | hc | hc
      · rw [hc] at hg; exact .inl hg
      · rw [hc] at hg; exact .inr hg
      · rw [hc, ensure_cache] at hg; exact .inr hg
    rcases this with h | h
    · exact hp.cache k t h
    · rcases c2 k t h with h | ⟨q, txs, hq, ht, rfl⟩
      · exact hp.cache k t h
      · exact hok q txs (.inl hq) t ht
  · intro k t hg
    rcases hc with hc | hc | hc
    · rw [hc] at hg; exact hp.callback k t hg
    · rw [hc, c1] at hg; exact hp.callback k t hg
    · rw [hc] at hg
      rcases ensure_cases _ _ _ k t hg with h | ⟨q, txs, hq, ht, rfl⟩
      · rw [c1] at h; exact hp.callback k t h
      · exact hok q txs (.inr hq) t ht

theorem HandedData.effect {cfg : NodeCfg} {P : SignedTx → Prop} {Q : Done → Prop} {n n' : Node} {older : List Done} (h : HandedData P n older)
    (hQ : ∀ d, Q d → ∀ t ∈ d.txs, P t) (he : Effect cfg Q n n') : HandedData P n' older := by
  cases he with
  | quiet h1 _ _ h4 => exact ⟨by rw [h1]; exact h.stored, by rw [h4]; exact h.log⟩
  | proof p h1 _ _ h4 => exact ⟨by rw [h1]; exact h.stored, by rw [h4]; exact h.log⟩
  | failed d j hd _ _ h1 _ h4 =>
    refine ⟨?_, by rw [h4]; exact h.log⟩
    intro k t ht
    rw [h1] at ht
    exact (txs_take' cfg d _ j k t ht).elim (h.stored k t) (hQ d hd t)
  | done d hd _ h1 _ h4 =>
    refine ⟨?_, ?_⟩
    · intro k t ht
      rw [h1, ← List.take_of_length_le (l := d.writes cfg) (i := 6) (by rw [Done.writes_eq]; simp)] at ht
      exact (txs_take' cfg d _ 6 k t ht).elim (h.stored k t) (hQ d hd t)
    · rw [h4]
      intro y hy
      rcases List.mem_cons.1 hy with rfl | hy
      · exact hQ y hd
      · exact h.log y hy

theorem HandedData.sync {cfg : NodeCfg} {P : SignedTx → Prop} {io : SyncIo} (hio : ∀ k q txs, io.pullTxs k q = some txs → ∀ t ∈ txs, P t)
    {k : Nat} {ids : List UInt64} {h r : Hash} {n n' : Node} {older : List Done} (hs : SyncSteps cfg io k ids h r n n') (hn : HandedData P n older) :
    HandedData P n' older := by
  induction hs with
  | stop => exact hn
  | fail he _ _ => exact hn.effect (fun d hd => hio _ _ _ hd.txs) he
  | round d hd hr h1 h2 h3 _ ih => exact ih (hn.effect (Q := fun e => e = d) (fun e he => he ▸ hio _ _ _ hd.txs) (.done d rfl hr h1 h2 h3))

theorem History.handed {cfg : NodeCfg} {g : Genesis} {P : SignedTx → Prop} {n : Node} {older : List Done}
    (h : History cfg g (NodeOp.Hands P) n older) : HandedPool P n.pool ∧ HandedData P n older := by
  induction h with
  | init h1 h2 =>
    obtain ⟨e, -, hs, ht, -, hl, -, hp⟩ := startNode_some h2
    refine ⟨by rw [hp]; exact ⟨fun _ _ h => (by cases h), fun _ _ h => (by cases h)⟩, ?_, by rw [hl]; intro d hd; cases hd⟩
    rw [hs]; exact fun k t h => by have := handleInit_txs h1 k t h; cases this
  | restart _ h1 h2 ih =>
    obtain ⟨e, -, hs, ht, -, hl, -, hp⟩ := startNode_some h2
    refine ⟨by rw [hp]; exact ⟨fun _ _ h => (by cases h), fun _ _ h => (by cases h)⟩, ?_, by rw [hl]; exact ih.2.log⟩
    rw [hs]; exact fun k t h => ih.2.stored k t (handleInit_txs h1 k t h)
  | @step n older op hn hok ih =>
    obtain ⟨hp, hd⟩ := ih
    have hgood := hn.lives.good
    cases op with
    | insertTx o b tx =>
      refine ⟨⟨?_, ?_⟩, hd.effect (Q := fun _ => False) (fun _ h => h.elim) (passive_effect cfg _ n _ trivial)⟩
      · intro k t hg
        rcases insert_cases cfg.mem (n.view cfg (fun _ => none) b) o tx hgood with ⟨h, -⟩ | ⟨-, h', -⟩
        · exact hp.cache k t (by rw [← h k]; exact hg)
        · have hg : ((n.pool.insert cfg.mem (n.view cfg (fun _ => none) b) o tx).2).cache.get k = some t := hg
          rw [h'] at hg
          split at hg
          · injection hg with hg
            subst hg
            exact hok
          · exact hp.cache k t hg
      · intro k t hg
        have hg : ((n.pool.insert cfg.mem (n.view cfg (fun _ => none) b) o tx).2).callback.get k = some t := hg
        rw [insert_callback] at hg; exact hp.callback k t hg
    | propose now id =>
      refine ⟨⟨?_, ?_⟩, hd.effect (Q := fun _ => False) (fun _ h => h.elim) (passive_effect cfg _ n _ trivial)⟩
      · intro k t hg
        have hg : (n.getEpoch cfg now id).2.pool.cache.get k = some t := hg
        rw [getEpoch_pool] at hg
        exact hp.cache k t ((package_cases _ _ hgood).1 k t hg)
      · intro k t hg
        have hg : (n.getEpoch cfg now id).2.pool.callback.get k = some t := hg
        rw [getEpoch_pool, package_callback] at hg
        exact hp.callback k t hg
    | check p1 p2 ha pill =>
      exact ⟨hp.check hgood cfg p1 p2 ha pill hok,
        hd.effect (Q := fun _ => False) (fun _ h => h.elim) (passive_effect cfg _ n _ trivial)⟩
    | commit io id pill proof =>
      refine ⟨?_, hd.effect (fun d hc => hp.getFull hc.txs) (commit_effect cfg io id pill proof n)⟩
      show HandedPool P (n.commit cfg io id pill proof).2.pool
      have hend := commit_end cfg io id pill proof n
      generalize n.commit cfg io id pill proof = x at hend ⊢
      cases hend <;> first | exact hp | exact hp.flush hgood _
    | sync io msg =>
      refine ⟨?_, ?_⟩
      · show HandedPool P (n.updateEpoch cfg io msg).2.pool
        rw [updateEpoch_pool]; exact hp
      · show HandedData P (n.updateEpoch cfg io msg).2 older
        rcases updateEpoch_steps cfg io msg n with h | ⟨v, rest, h, r, -, -, hs⟩
        · rw [h]; exact hd
        · exact HandedData.sync hok hs hd

theorem handed_of_data {cfg : NodeCfg} {P : SignedTx → Prop} {n : Node} {older : List Done}
    (hp : HandedPool P n.pool) (hd : HandedData P n older) (hgood : n.pool.cache.Good) :
    (∀ k t, n.store.txs k = some t → P t) ∧ (∀ d ∈ n.log ++ older, ∀ t ∈ d.txs, P t) ∧
    (∀ hs txs, n.pool.getFullTxs hs = .ok txs → ∀ t ∈ txs, P t) ∧
    (∀ p1 p2 ha pill txs, NodeOp.Hands P n (.check p1 p2 ha pill) → (n.checkEpoch cfg p1 p2 ha pill).1 = .ok txs → ∀ t ∈ txs, P t) ∧
    ∀ now id pill ha, (n.getEpoch cfg now id).1 = .ok (pill, ha) →
      ∀ x ∈ pill.epoch.orderedTxHashes ++ pill.proposeHashes, ∃ t, P t ∧ t.txHash = x := by
  refine ⟨hd.stored, hd.log, fun hs txs hg => hp.getFull hg, fun p1 p2 ha pill txs hok hc => ?_, fun now id pill ha hc => ?_⟩
  · exact (hp.check hgood cfg p1 p2 ha pill hok).getFull ((checkEpoch_spec cfg p1 p2 ha pill n).2 txs hc)
  · intro x hx
    unfold Node.getEpoch at hc
    unfold MemPool.package at hc
    split at hc
    · cases hc
    · rename_i order propose pool hq
      split at hc
      · cases hc
      · injection hc with hc
        injection hc with hc _
        subst hc
        simp only at hx
        split at hq
        · injection hq with hq _; cases hq
        · rename_i c e _
          injection hq with hq _
          have := package_exact hgood n.status.cyclesLimit e (e + n.pool.gap)
          rw [hq] at this
          injection this with this
          injection this with e1 e2
          subst e1 e2
          have hsub := (select_sublist n.status.cyclesLimit (n.pool.cache.abs.entries.filter (Entry.inWindow e (e + n.pool.gap)))).trans
            List.filter_sublist
          unfold hashesOf at hx
          rw [← List.map_append] at hx
          obtain ⟨y, hy, rfl⟩ := List.mem_map.1 hx
          exact ⟨y.tx, hp.cache y.tx.txHash y.tx ((get_eq_some hgood).2 ⟨y, hsub.subset hy, rfl, rfl⟩), rfl⟩

/-- **C100.**  Let `P` be any set of transactions, and take any lifetime of a node - any calls with any failures, synchronisations, crashes
and restarts - in which it is handed only transactions of `P`: over the API, by gossip, or by peers that it asks.  Then everything it stores and
serves to peers, everything that it or an earlier process of it recorded in an epoch, everything its pool hands out, every transaction it
returns when it checks a proposal, and everything it names in a proposal of its own is in `P`: it invents no transaction and alters none. -/
theorem C100_no_invented_transactions {cfg : NodeCfg} {g : Genesis} {P : SignedTx → Prop} {n : Node} {older : List Done}
    (h : History cfg g (NodeOp.Hands P) n older) :
    (∀ k t, n.store.txs k = some t → P t) ∧ (∀ d ∈ n.log ++ older, ∀ t ∈ d.txs, P t) ∧
    (∀ hs txs, n.pool.getFullTxs hs = .ok txs → ∀ t ∈ txs, P t) ∧
    (∀ p1 p2 ha pill txs, NodeOp.Hands P n (.check p1 p2 ha pill) → (n.checkEpoch cfg p1 p2 ha pill).1 = .ok txs → ∀ t ∈ txs, P t) ∧
    ∀ now id pill ha, (n.getEpoch cfg now id).1 = .ok (pill, ha) →
      ∀ x ∈ pill.epoch.orderedTxHashes ++ pill.proposeHashes, ∃ t, P t ∧ t.txHash = x :=
  handed_of_data h.handed.1 h.handed.2 h.lives.good

open Demo in
theorem Demo.handed_block {n : Node} {older : List Done} {txs : List SignedTx} {P : SignedTx → Prop} (hP : ∀ t ∈ txs, P t)
    (h : History ncfg ngenesis (NodeOp.Hands P) n older) : History ncfg ngenesis (NodeOp.Hands P) (block n txs) older := by
  have ins : ∀ (txs : List SignedTx) (n : Node), (∀ t ∈ txs, P t) → History ncfg ngenesis (NodeOp.Hands P) n older →
      History ncfg ngenesis (NodeOp.Hands P) (inserted n txs) older := by
    intro txs
    induction txs with
    | nil => exact fun n _ h => h
    | cons t txs ih =>
      exact fun n ht h => ih (n.step ncfg (.insertTx true true t)) (fun x hx => ht x (.tail _ hx)) (.step (.insertTx true true t) h (ht t (.head _)))
  rw [block_eq]
  exact .step _ (.step (.propose 7 n.status.epochId) (ins txs n hP h) trivial) trivial

open Demo in
/-- The hypotheses of C100 are met by a node that was handed one payment, recorded it and was restarted. -/
example : ∃ n older, History ncfg ngenesis (NodeOp.Hands (· = npay 1 2 10)) n older ∧ older.map Done.txs = [[npay 1 2 10]] ∧
    (n.store.txs (npay 1 2 10).txHash).isSome = true := by
  have h1 : History ncfg ngenesis (NodeOp.Hands (· = npay 1 2 10)) n1 [] :=
    handed_block (fun t ht => List.mem_singleton.1 ht) (n0_history _)
  have hst : (startNode ncfg n1.store n1.tries).isSome = true := by decide +kernel
  obtain ⟨-, e, he, -⟩ := h1.lives.coherent
  have h2 : n1.log.map Done.txs = [[npay 1 2 10]] := by decide +kernel
  have h3 : (n1.store.txs (npay 1 2 10).txHash).isSome = true := by decide +kernel
  obtain ⟨n', hn'⟩ := Option.isSome_iff_exists.1 hst
  have hs : n'.store = n1.store := (startNode_some hn').choose_spec.2.1
  refine ⟨n', n1.log ++ [], .restart (s := n1.store) (t := n1.tries) h1 (by simp [handleInit, he]) hn', ?_, ?_⟩
  · rw [List.append_nil]; exact h2
  · rw [hs]; exact h3

end Huobi
