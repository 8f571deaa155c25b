import Verif.Props.Lifetime
/-
C93: only the owner of an account can spend from it.
-/
namespace Huobi

/-! ### What the statement talks about -/

/-- The transaction was authorised by the owner of the key it names: the signature is one of that key for the hash in the transaction, and
that hash is the hash of what the transaction says. -/
def Authorised (cfg : NodeCfg) (t : SignedTx) : Prop :=
  cfg.sigOk t.txHash t.signature t.pubkey = true ∧ t.txHash = cfg.digest (encode t.raw)

/-- The account that belongs to the key of the transaction. -/
def accountOf (cfg : NodeCfg) (t : SignedTx) : Address := .user (UserAddress.fromPubkey cfg.digest t.pubkey)

/-- What a transaction with this receipt, if it was authorised by the owner of `a`, pays out of `a`. -/
def spent (cfg : NodeCfg) (a : Address) (id : AssetID) (t : SignedTx × Receipt) : Nat :=
  match t.1.raw.action with
  | .transfer _ c => if t.2.result.isFail = false ∧ a = accountOf cfg t.1 ∧ id = c.assetId then c.amount else 0
  | _ => 0

/-- `w'` was reached from `w` by executing blocks of authorised transactions; `xs` are these transactions with their receipts. -/
inductive AuthLater (cfg : NodeCfg) : World → List (SignedTx × Receipt) → World → Prop
  | refl (w) : AuthLater cfg w [] w
  | step {w xs w1 h price cb txs resp w2} : AuthLater cfg w xs w1 → Executes (cfg.env h price cb) w1 txs resp w2 →
      (∀ t ∈ txs, Authorised cfg t) → AuthLater cfg w (xs ++ txs.zip resp.receipts) w2

/-- A call in which no peer hands over a forged transaction: the transactions that peers send on request, for a proposal and for a
synchronised epoch, are authorised by their owners. -/
def NodeOp.Vouched (cfg : NodeCfg) (_ : Node) : NodeOp → Prop
  | .sync io _ => ∀ k q txs, io.pullTxs k q = some txs → ∀ t ∈ txs, Authorised cfg t
  | .check p1 p2 _ _ => ∀ q txs, p1 q = some txs ∨ p2 q = some txs → ∀ t ∈ txs, Authorised cfg t
  | _ => True

/-! ### Ledger over many blocks -/

theorem spent_outgoing (cfg : NodeCfg) (h price : UInt64) (cb : Address) (a : Address) (id : AssetID) (t : SignedTx × Receipt) :
    spent cfg a id t = outgoing (cfg.env h price cb) a id t := rfl

theorem AuthLater.ledger {cfg : NodeCfg} {w w' : World} {xs : List (SignedTx × Receipt)} (h : AuthLater cfg w xs w') (hw : w.WellTyped)
    (a : Address) (id : AssetID) :
    w'.WellTyped ∧ balance w' a id + (xs.map (spent cfg a id)).sum = balance w a id + (xs.map (incoming a id)).sum := by
  induction h with
  | refl => exact ⟨hw, rfl⟩
  | @step xs w1 h price cb txs resp w2 _ he _ ih =>
    obtain ⟨ht, hl⟩ := ih
    refine ⟨executes_wellTyped ht he, ?_⟩
    have h2 := C02_ledger ht he a id
    have : ((txs.zip resp.receipts).map (spent cfg a id)) = ((txs.zip resp.receipts).map (outgoing (cfg.env h price cb) a id)) := rfl
    rw [List.map_append, List.map_append, List.sum_append, List.sum_append, this]
    omega

theorem AuthLater.authorised {cfg : NodeCfg} {w w' : World} {xs : List (SignedTx × Receipt)} (h : AuthLater cfg w xs w') :
    ∀ x ∈ xs, Authorised cfg x.1 := by
  induction h with
  | refl => intro x hx; cases hx
  | step _ _ ha ih =>
    intro x hx
    rcases List.mem_append.1 hx with hx | hx
    · exact ih x hx
    · exact ha _ (List.of_mem_zip hx).1

/-! ### The invariants -/

/-- `w` was reached by authorised transactions from the genesis, or (a node that synchronises its first epoch) from nothing. -/
def AuthDescends (cfg : NodeCfg) (g : Genesis) (w : World) : Prop :=
  (∃ w0 xs, CreatesGenesis (cfg.env 0 cfg.cyclesPrice (.user cfg.selfAddress)) g w0 ∧ AuthLater cfg w0 xs w) ∨
    ∃ xs, AuthLater cfg World.empty xs w

/-- The data of a node: every world, stored transaction and recorded epoch comes from authorised transactions. -/
structure SpendData (cfg : NodeCfg) (g : Genesis) (n : Node) : Prop where
  tries : ∀ r w, n.tries r = some w → AuthDescends cfg g w
  stored : ∀ h t, n.store.txs h = some t → Authorised cfg t
  log : ∀ d ∈ n.log, ∀ t ∈ d.txs, Authorised cfg t

theorem txs_take' (cfg : NodeCfg) (d : Done) (s : Store) (j : Nat) (h : Hash) (t : SignedTx)
    (ht : (s.writes ((d.writes cfg).take j)).txs h = some t) : s.txs h = some t ∨ t ∈ d.txs := by
  rw [Done.writes_eq] at ht
  have key : insertAll SignedTx.txHash d.txs s.txs h = some t → s.txs h = some t ∨ t ∈ d.txs := by
    unfold insertAll
    cases hf : List.find? (fun v => decide (SignedTx.txHash v = h)) d.txs.reverse with
    | some w => intro hw; injection hw with hw; subst hw; exact .inr (by simpa using List.mem_of_find?_eq_some hf)
    | none => exact .inl
  match j with
  | 0 | 1 | 2 => exact .inl ht
  | 3 | 4 | 5 => exact key ht
  | m + 6 =>
    rw [List.take_of_length_le (by simp)] at ht
    exact key ht

theorem AuthDescends.ran {cfg : NodeCfg} {g : Genesis} {n : Node} {d : Done} {db : StateDB}
    (h : ∀ r w, n.tries r = some w → AuthDescends cfg g w) (ha : ∀ t ∈ d.txs, Authorised cfg t) (hr : d.Ran cfg n db) :
    ∀ r w, db r = some w → AuthDescends cfg g w := by
  obtain ⟨w, w', hw, hex, rfl⟩ := runBlock_db hr
  have hd : AuthDescends cfg g w := by
    rcases hw with rfl | hw
    · exact .inr ⟨_, .refl _⟩
    · exact h _ _ hw
  have hd' : AuthDescends cfg g w' := by
    rcases hd with ⟨w0, xs, h0, h1⟩ | ⟨xs, h1⟩
    · exact .inl ⟨w0, _, h0, .step h1 hex ha⟩
    · exact .inr ⟨_, .step h1 hex ha⟩
  intro r v hv
  unfold PMap.set at hv
  split at hv
  · injection hv with hv; exact hv ▸ hd'
  · exact h _ _ hv

theorem SpendData.effect {cfg : NodeCfg} {g : Genesis} {P : Done → Prop} {n n' : Node} (h : SpendData cfg g n)
    (hP : ∀ d, P d → ∀ t ∈ d.txs, Authorised cfg t) (he : Effect cfg P n n') : SpendData cfg g n' := by
  cases he with
  | quiet h1 h2 _ h4 => exact ⟨by rw [h2]; exact h.tries, by rw [h1]; exact h.stored, by rw [h4]; exact h.log⟩
  | proof p h1 h2 _ h4 => exact ⟨by rw [h2]; exact h.tries, by rw [h1]; exact h.stored, by rw [h4]; exact h.log⟩
  | failed d j hd hr _ h1 _ h4 =>
    refine ⟨AuthDescends.ran h.tries (hP d hd) hr, ?_, by rw [h4]; exact h.log⟩
    intro k t ht
    rw [h1] at ht
    exact (txs_take' cfg d _ j k t ht).elim (h.stored k t) (hP d hd t)
  | done d hd hr h1 _ h4 =>
    refine ⟨AuthDescends.ran h.tries (hP d hd) hr, ?_, ?_⟩
    · intro k t ht
      rw [h1, ← List.take_of_length_le (l := d.writes cfg) (i := 6) (by rw [Done.writes_eq]; simp)] at ht
      exact (txs_take' cfg d _ 6 k t ht).elim (h.stored k t) (hP d hd t)
    · rw [h4]
      intro y hy
      rcases List.mem_cons.1 hy with rfl | hy
      · exact hP y hd
      · exact h.log y hy

theorem SpendData.sync {cfg : NodeCfg} {g : Genesis} {io : SyncIo} (hio : ∀ k q txs, io.pullTxs k q = some txs → ∀ t ∈ txs, Authorised cfg t)
    {k : Nat} {ids : List UInt64} {h r : Hash} {n n' : Node} (hs : SyncSteps cfg io k ids h r n n') (hn : SpendData cfg g n) :
    SpendData cfg g n' := by
  induction hs with
  | stop => exact hn
  | fail he _ _ => exact hn.effect (fun d hd => hio _ _ _ hd.txs) he
  | round d hd hr h1 h2 h3 _ ih => exact ih (hn.effect (P := fun e => e = d) (fun e he => he ▸ hio _ _ _ hd.txs) (.done d rfl hr h1 h2 h3))

theorem handleInit_txs {cfg : NodeCfg} {g : Genesis} {s s' : Store} {t t' : StateDB} (hi : handleInit cfg g s t = some (s', t')) :
    ∀ h x, s'.txs h = some x → s.txs h = some x := by
  unfold handleInit at hi
  split at hi
  · injection hi with hi; injection hi with hi _; subst hi; exact fun _ _ h => h
  · split at hi
    · injection hi with hi; injection hi with hi _; subst hi; exact fun _ _ h => h
    · cases hi

theorem AuthDescends.init {cfg : NodeCfg} {g : Genesis} {s s' : Store} {t t' : StateDB}
    (h : ∀ r w, t r = some w → AuthDescends cfg g w) (hi : handleInit cfg g s t = some (s', t')) :
    ∀ r w, t' r = some w → AuthDescends cfg g w := by
  unfold handleInit at hi
  split at hi
  · injection hi with hi; injection hi with _ hi; exact hi ▸ h
  · split at hi
    · rename_i root tr hr
      injection hi with hi; injection hi with _ hi; subst hi
      unfold runGenesis at hr
      split at hr
      · cases hr
      · rename_i s0 hs0
        have hs0 : s0 = St.open World.empty := by
          unfold fromRoot at hs0
          rw [if_pos rfl] at hs0
          injection hs0 with hs0
          exact hs0.symm
        split at hr
        · rename_i r s1 hg
          simp only [Prod.mk.injEq, Option.some.injEq, Except.ok.injEq] at hr
          obtain ⟨rfl, rfl⟩ := hr
          rw [hs0] at hg
          intro r' v hv
          unfold StateDB.put PMap.set at hv
          split at hv
          · injection hv with hv
            subst hv
            exact .inl ⟨s1.committed, [], ⟨⟨r, by rw [hg]⟩, by rw [hg]⟩, .refl _⟩
          · exact h _ _ hv
        · cases hr
    · cases hi

/-- The pool holds authorised transactions only. -/
structure SpendPool (cfg : NodeCfg) (p : MemPool) : Prop where
  cache : ∀ h t, p.cache.get h = some t → Authorised cfg t
  callback : ∀ h t, p.callback.get h = some t → Authorised cfg t

theorem SpendPool.getFull {cfg : NodeCfg} {p : MemPool} (h : SpendPool cfg p) {hs : List Hash} {txs : List SignedTx}
    (hg : p.getFullTxs hs = .ok txs) : ∀ t ∈ txs, Authorised cfg t := by
  unfold MemPool.getFullTxs at hg
  simp only at hg
  split at hg
  · cases hg
  · injection hg with hg
    subst hg
    intro t ht
    obtain ⟨k, -, hk⟩ := List.mem_filterMap.1 ht
    rcases (lookup_iff _ _ _).1 hk with ht | ⟨-, ht⟩
    · exact h.cache k t ht
    · exact h.callback k t ht

theorem SpendPool.flush {cfg : NodeCfg} {p : MemPool} (h : SpendPool cfg p) (hg : p.cache.Good) (hs : List Hash) :
    SpendPool cfg (p.flush hs) := by
  refine ⟨fun k t ht => ?_, fun k t ht => by cases ht⟩
  have ht : (p.cache.flush hs).get k = some t := ht
  rw [flush_get hg] at ht
  split at ht
  · cases ht
  · exact h.cache k t ht

theorem Lives.spending {cfg : NodeCfg} {g : Genesis} {n : Node} (h : Lives cfg g (NodeOp.Vouched cfg) n) :
    SpendPool cfg n.pool ∧ SpendData cfg g n := by
  induction h with
  | init h1 h2 =>
    obtain ⟨e, -, hs, ht, -, hl, -, hp⟩ := startNode_some h2
    refine ⟨by rw [hp]; exact ⟨fun _ _ h => (by cases h), fun _ _ h => (by cases h)⟩, ?_, ?_, by rw [hl]; intro d hd; cases hd⟩
    · rw [ht]; exact AuthDescends.init (fun _ _ h => by cases h) h1
    · rw [hs]; exact fun k t h => by have := handleInit_txs h1 k t h; cases this
  | restart _ h1 h2 ih =>
    obtain ⟨e, -, hs, ht, -, hl, -, hp⟩ := startNode_some h2
    refine ⟨by rw [hp]; exact ⟨fun _ _ h => (by cases h), fun _ _ h => (by cases h)⟩, ?_, ?_, by rw [hl]; intro d hd; cases hd⟩
    · rw [ht]; exact AuthDescends.init ih.2.tries h1
    · rw [hs]; exact fun k t h => ih.2.stored k t (handleInit_txs h1 k t h)
  | @step n op hn hok ih =>
    obtain ⟨hp, hd⟩ := ih
    have hgood := hn.good
    cases op with
    | insertTx o b tx =>
      refine ⟨⟨?_, ?_⟩, hd.effect (P := fun _ => False) (fun _ h => h.elim) (passive_effect cfg _ n _ trivial)⟩
      · intro k t hg
        rcases insert_cases cfg.mem (n.view cfg (fun _ => none) b) o tx hgood with ⟨h, -⟩ | ⟨h, h', -⟩
        · exact hp.cache k t (by rw [← h k]; exact hg)
        · have hg : ((n.pool.insert cfg.mem (n.view cfg (fun _ => none) b) o tx).2).cache.get k = some t := hg
          rw [h'] at hg
          split at hg
          · injection hg with hg
            subst hg
            have r2 := h (cfg.mem.sigOk tx.txHash tx.signature tx.pubkey = true, .checkSig tx.txHash) (by simp [admissionRules])
            have r3 := h (cfg.mem.rawHash tx.raw = tx.txHash, .checkHash tx.txHash (cfg.mem.rawHash tx.raw)) (by simp [admissionRules])
            exact ⟨r2, r3.symm⟩
          · exact hp.cache k t hg
      · intro k t hg
        have hg : ((n.pool.insert cfg.mem (n.view cfg (fun _ => none) b) o tx).2).callback.get k = some t := hg
        rw [insert_callback] at hg; exact hp.callback k t hg
    | propose now id =>
      refine ⟨⟨?_, ?_⟩, hd.effect (P := fun _ => False) (fun _ h => h.elim) (passive_effect cfg _ n _ trivial)⟩
      · intro k t hg
        have hg : (n.getEpoch cfg now id).2.pool.cache.get k = some t := hg
        rw [getEpoch_pool] at hg
        exact hp.cache k t ((package_cases _ _ hgood).1 k t hg)
      · intro k t hg
        have hg : (n.getEpoch cfg now id).2.pool.callback.get k = some t := hg
        rw [getEpoch_pool, package_callback] at hg
        exact hp.callback k t hg
    | check p1 p2 ha pill =>
      have hc := (checkEpoch_spec cfg p1 p2 ha pill n).1
      obtain ⟨c1, c2⟩ := syncPropose_cases (n.view cfg p1 true) pill.proposeHashes hgood
      refine ⟨⟨?_, ?_⟩, hd.effect (P := fun _ => False) (fun _ h => h.elim) (passive_effect cfg _ n _ trivial)⟩
      · intro k t hg
        have hg : (n.checkEpoch cfg p1 p2 ha pill).2.pool.cache.get k = some t := hg
        have : n.pool.cache.get k = some t ∨ (n.pool.syncProposeTxs (n.view cfg p1 true) pill.proposeHashes).2.cache.get k = some t := by
          rcases hc with hc | hc | hc
          · rw [hc] at hg; exact .inl hg
          · rw [hc] at hg; exact .inr hg
          · rw [hc, ensure_cache] at hg; exact .inr hg
        rcases this with h | h
        · exact hp.cache k t h
        · rcases c2 k t h with h | ⟨q, txs, hq, ht, rfl⟩
          · exact hp.cache k t h
          · exact hok q txs (.inl hq) t ht
      · intro k t hg
        have hg : (n.checkEpoch cfg p1 p2 ha pill).2.pool.callback.get k = some t := hg
        rcases hc with hc | hc | hc
        · rw [hc] at hg; exact hp.callback k t hg
        · rw [hc, c1] at hg; exact hp.callback k t hg
        · rw [hc] at hg
          rcases ensure_cases _ _ _ k t hg with h | ⟨q, txs, hq, ht, rfl⟩
          · rw [c1] at h; exact hp.callback k t h
          · exact hok q txs (.inr hq) t ht
    | commit io id pill proof =>
      refine ⟨?_, hd.effect (fun d hc => hp.getFull hc.txs) (commit_effect cfg io id pill proof n)⟩
      show SpendPool cfg (n.commit cfg io id pill proof).2.pool
      have hend := commit_end cfg io id pill proof n
      generalize n.commit cfg io id pill proof = x at hend ⊢
      cases hend <;> first | exact hp | exact hp.flush hgood _
    | sync io msg =>
      refine ⟨?_, ?_⟩
      · show SpendPool cfg (n.updateEpoch cfg io msg).2.pool
        rw [updateEpoch_pool]; exact hp
      · show SpendData cfg g (n.updateEpoch cfg io msg).2
        rcases updateEpoch_steps cfg io msg n with h | ⟨v, rest, h, r, -, -, hs⟩
        · rw [h]; exact hd
        · exact SpendData.sync hok hs hd

/-! ### C93 -/

/-- The transactions of recorded epochs with their receipts. -/
def executed (ds : List Done) : List (SignedTx × Receipt) := ds.flatMap (fun d => d.txs.zip d.resp.receipts)

theorem balances_of_data {cfg : NodeCfg} {g : Genesis} {n : Node} (hd : SpendData cfg g n) :
    (∀ k t, n.store.txs k = some t → Authorised cfg t) ∧ (∀ d ∈ n.log, ∀ t ∈ d.txs, Authorised cfg t) ∧
    ∀ q, (∀ a id, n.apiBalance cfg a id q = 0) ∨
      ∃ (start : Address → AssetID → Nat) (xs : List (SignedTx × Receipt)), (start = allocated g ∨ start = fun _ _ => 0) ∧
        (∀ x ∈ xs, Authorised cfg x.1) ∧
        ∀ a id, n.apiBalance cfg a id q + (xs.map (spent cfg a id)).sum = start a id + (xs.map (incoming a id)).sum := by
  refine ⟨hd.stored, hd.log, fun q => ?_⟩
  have known : (∀ a id, n.apiBalance cfg a id q = 0) ∨
      ∃ w, AuthDescends cfg g w ∧ ∀ a id, n.apiBalance cfg a id q = balance w a id := by
    cases hq : n.queryEpoch q with
    | none => left; intro a id; unfold Node.apiBalance Node.queryBalance; rw [hq]; rfl
    | some e =>
      by_cases he : e.header.stateRoot = cfg.emptyHash
      · exact .inr ⟨World.empty, .inr ⟨_, .refl _⟩, fun a id => apiBalance_resolves hq (by unfold Resolves; rw [if_pos he]) a id⟩
      · cases hw : n.tries e.header.stateRoot with
        | some w =>
          exact .inr ⟨w, hd.tries _ _ hw, fun a id => apiBalance_resolves hq (by unfold Resolves; rw [if_neg he]; exact hw) a id⟩
        | none =>
          left; intro a id; unfold Node.apiBalance Node.queryBalance
          rw [hq]
          simp only
          have : fromRoot (cfg.env e.header.epochId 0 (.user e.header.proposer)) n.tries e.header.stateRoot = none := by
            unfold fromRoot
            rw [if_neg (show ¬ e.header.stateRoot = (cfg.env e.header.epochId 0 (.user e.header.proposer)).emptyHash from he), hw]
            rfl
          rw [this]; rfl
  refine known.imp id ?_
  rintro ⟨w, hw, hb⟩
  rcases hw with ⟨w0, xs, h0, h1⟩ | ⟨xs, h1⟩
  · obtain ⟨_, -, -, -, hty, -⟩ := createsGenesis_spec h0
    refine ⟨_, xs, .inl rfl, h1.authorised, fun a id => ?_⟩
    rw [hb, (h1.ledger hty a id).2, C13_genesis_balances h0 a id]
  · refine ⟨_, xs, .inr rfl, h1.authorised, fun a id => ?_⟩
    rw [hb, (h1.ledger empty_wellTyped a id).2]
    rfl

/-- **C93 (partial).**  In every lifetime of a node - any calls, synchronisation, failures, crashes and restarts - in which the
transactions that peers hand over on request are authorised (the node does not check that, see the refutations): every transaction the
node serves or recorded is authorised by the owner of the account it spends from, and for every epoch a user asks about either every
balance shown is zero, or there are authorised transactions that explain every balance of every asset exactly: what is shown of an account
plus what the account's owner paid by them is what the account started with (its allocation of the genesis, or nothing at all for every
account, if the epoch descends from no genesis) plus what they paid to it. -/
theorem C93_partial {cfg : NodeCfg} {g : Genesis} {n : Node} (h : Lives cfg g (NodeOp.Vouched cfg) n) :
    (∀ k t, n.store.txs k = some t → Authorised cfg t) ∧ (∀ d ∈ n.log, ∀ t ∈ d.txs, Authorised cfg t) ∧
    ∀ q, (∀ a id, n.apiBalance cfg a id q = 0) ∨
      ∃ (start : Address → AssetID → Nat) (xs : List (SignedTx × Receipt)), (start = allocated g ∨ start = fun _ _ => 0) ∧
        (∀ x ∈ xs, Authorised cfg x.1) ∧
        ∀ a id, n.apiBalance cfg a id q + (xs.map (spent cfg a id)).sum = start a id + (xs.map (incoming a id)).sum :=
  balances_of_data h.spending.2

theorem Replays.ledger {cfg : NodeCfg} {w w' : World} {ds : List Done} (h : Replays cfg w ds w') (hw : w.WellTyped) (a : Address)
    (id : AssetID) :
    balance w' a id + ((executed ds).map (spent cfg a id)).sum = balance w a id + ((executed ds).map (incoming a id)).sum := by
  induction h with
  | nil => rfl
  | @cons w d w1 ds w' he _ ih =>
    have h1 := ih (executes_wellTyped hw he)
    have h2 := C02_ledger hw he a id
    have h3 : ((d.txs.zip d.resp.receipts).map (spent cfg a id)) =
      ((d.txs.zip d.resp.receipts).map (outgoing (cfg.env d.height cfg.cyclesPrice (.user d.epoch.header.proposer)) a id)) := rfl
    unfold executed at h1 ⊢
    rw [List.flatMap_cons, List.map_append, List.map_append, List.sum_append, List.sum_append, h3]
    omega

theorem spent_zero {cfg : NodeCfg} {a : Address} {ds : List Done} (h : ∀ d ∈ ds, ∀ t ∈ d.txs, accountOf cfg t ≠ a) (id : AssetID) :
    ((executed ds).map (spent cfg a id)).sum = 0 := by
  refine sum_zero _ (fun x hx => ?_)
  obtain ⟨d, hd, hx⟩ := List.mem_flatMap.1 hx
  have hne := h d hd x.1 (List.of_mem_zip hx).1
  unfold spent
  split
  · rw [if_neg (fun hc => hne hc.2.1.symm)]
  · rfl

/-- C93, exactly: a node that was started from the genesis and commits regular epochs shows, for every epoch it recorded, balances that
are explained by exactly the transactions of the epochs recorded before it (C16 says why not by its own): what is shown plus what the
owner of the account paid is the allocation plus what was paid to the account.  So as long as no transaction of the owner's key was
executed, no less than the allocation is shown. -/
theorem C93_exact {cfg : NodeCfg} {g : Genesis} {n0 n : Node} (he : EmptyRoot cfg n) (h0 : FirstStart cfg g n0)
    (h : Runs cfg (Regular cfg) n0 n) (a : Address) (id : AssetID) :
    (∀ pre d post, n.log.reverse = pre ++ d :: post →
      n.apiBalance cfg a id (some d.epoch.header.epochId) + ((executed pre).map (spent cfg a id)).sum =
        allocated g a id + ((executed pre).map (incoming a id)).sum) ∧
    ((∀ d ∈ n.log, ∀ t ∈ d.txs, accountOf cfg t ≠ a) →
      ∀ d ∈ n.log, allocated g a id ≤ n.apiBalance cfg a id (some d.epoch.header.epochId)) := by
  obtain ⟨w0, hg, -, hres, -⟩ := C13_first_start (h.emptyRoot (fun _ _ hok => hok.keeps) he) h0
  obtain ⟨_, -, -, -, hty, -⟩ := createsGenesis_spec hg
  have hch : n0.Chained cfg := (h0.lives (Continues cfg)).chained
  obtain ⟨s, t, hi, hs⟩ := h0
  obtain ⟨e, -, -, -, h3, h4, -⟩ := startNode_some hs
  have hprice : n0.status.cyclesPrice = cfg.cyclesPrice := by rw [h3]; rfl
  have key : ∀ pre d post, n.log.reverse = pre ++ d :: post →
      n.apiBalance cfg a id (some d.epoch.header.epochId) + ((executed pre).map (spent cfg a id)).sum =
        allocated g a id + ((executed pre).map (incoming a id)).sum := by
    intro pre d post hx
    obtain ⟨w, w', hw, -, hb, -⟩ := (C16_partial he h4 hprice hch hres h a id).1 pre d post hx
    rw [hb, hw.ledger hty a id, C13_genesis_balances hg a id]
  refine ⟨key, fun hno d hd => ?_⟩
  obtain ⟨pre, post, hx⟩ := List.append_of_mem (List.mem_reverse.2 hd)
  have h1 := key pre d post hx
  rw [spent_zero (ds := pre) (fun y hy => hno y (List.mem_reverse.1 (by rw [hx]; exact List.mem_append_left _ hy))) id] at h1
  omega

theorem ok_of_toOption {ε α : Type} {x : Except ε α} {v : α} (h : x.toOption = some v) : x = .ok v := by
  cases x with
  | error e => cases h
  | ok y => simp only [Except.toOption, Option.some.injEq] at h; rw [h]

namespace Demo

/-- A payment of 40 from user 1 to user 2 that nobody signed. -/
def forged : SignedTx := npay 1 2 40

/-- An epoch that orders it, after the genesis. -/
def forgedPill : Pill := ⟨⟨n1pill.epoch.header, [forged.txHash]⟩, []⟩

/-- What a peer answers when it is asked for the transactions. -/
def forgedPull : List Hash → Option (List SignedTx) := fun _ => some [forged]
def forgedChecked : Node := n0.step scfg (.check noPull forgedPull [] forgedPill)
def forgedDone : Node := forgedChecked.step scfg (.commit .ok 1 forgedPill (oproof 1))

/-- A peer that invents the epochs 2 and 3, of which the third orders the forged payment. -/
def forgedEpoch2 : Epoch := ⟨{ splitPill.epoch.header with epochId := 2, preHash := committedA.status.prevHash }, []⟩
def forgedEpoch3 : Epoch := ⟨{ splitPill.epoch.header with epochId := 3, preHash := scfg.epochHash forgedEpoch2 }, [forged.txHash]⟩
def forger : SyncIo :=
  { lock := true, pullEpoch := fun _ id => if id = 2 then some forgedEpoch2 else some forgedEpoch3
    pullTxs := fun _ hs => if hs = [] then some [] else some [forged], save := fun _ => .ok, send := true }
def forgedSynced : Node := committedA.step scfg (.sync forger (u64LE 4))

end Demo

open Demo in
set_option linter.constructorNameAsVariable false in
/-- **C93 is false of the code as it stands: proposals.**  The transactions of a proposal that a node does not have are fetched from peers
and executed without looking at their signatures.  With a signature scheme that cannot be forged: the pool refuses the forged payment
when it is submitted, but a freshly started node accepts a proposal that orders it, gets it from a peer, commits the epoch - and 40 of
the 100 of user 1, who signed nothing, are gone. -/
theorem C93_proposal_refuted : ∃ (cfg : NodeCfg) (g : Genesis) (n0 n1 n2 : Node) (tx : SignedTx) (pull : List Hash → Option (List SignedTx))
    (pill : Pill) (proof : OverlordProof) (w0 w2 : World),
    FirstStart cfg g n0 ∧ (∀ h sig pk, cfg.sigOk h sig pk = true ↔ sig = pk ++ h.bytes) ∧
    tx.signature ≠ tx.pubkey ++ tx.txHash.bytes ∧
    (n0.pool.insert cfg.mem (n0.view cfg (fun _ => none) true) false tx).1 = .error (.checkSig tx.txHash) ∧
    n0.checkEpoch cfg noPull pull [] pill = (.ok [tx], n1) ∧ n1.commit cfg .ok 1 pill proof = (.ok 2, n2) ∧
    n2.log.map Done.txs = [[tx]] ∧
    Resolves cfg n0.tries n0.status.stateRoot w0 ∧ Resolves cfg n2.tries n2.status.stateRoot w2 ∧
    balance w0 (accountOf cfg tx) token = 100 ∧ balance w2 (accountOf cfg tx) token = 60 := by
  have h0 : forged.signature ≠ forged.pubkey ++ forged.txHash.bytes := by decide +kernel
  have h1 : (match (n0.pool.insert scfg.mem (n0.view scfg (fun _ => none) true) false forged).1 with
    | .error (.checkSig h) => decide (h = forged.txHash)
    | _ => false) = true := by decide +kernel
  have h3 : (n0.checkEpoch scfg noPull forgedPull [] forgedPill).1.toOption = some [forged] := by decide +kernel
  have h4 : (forgedChecked.commit scfg .ok 1 forgedPill (oproof 1)).1.toOption = some 2 := by decide +kernel
  have h5 : forgedDone.log.map Done.txs = [[forged]] := by decide +kernel
  have ha : ((n0.tries n0.status.stateRoot).map fun w => balance w (accountOf scfg forged) token) = some 100 := by decide +kernel
  have hb : ((forgedDone.tries forgedDone.status.stateRoot).map fun w => balance w (accountOf scfg forged) token) = some 60 := by decide +kernel
  have he : n0.status.stateRoot ≠ scfg.emptyHash ∧ forgedDone.status.stateRoot ≠ scfg.emptyHash := by decide +kernel
  have hs : ∀ h sig pk, scfg.sigOk h sig pk = true ↔ sig = pk ++ h.bytes := fun h sig pk => decide_eq_true_iff
  have hf := n0_first
  have k3 : forgedChecked = (n0.checkEpoch scfg noPull forgedPull [] forgedPill).2 := by simp only [forgedChecked, Node.step]
  have k4 : forgedDone = (forgedChecked.commit scfg .ok 1 forgedPill (oproof 1)).2 := by simp only [forgedDone, Node.step]
  generalize forgedDone = n2, forgedChecked = n1, n0 = n0, scfg = cfg, forgedPill = pill, forgedPull = pull, forged = tx, oproof 1 = proof,
    ngenesis = g at *
  obtain ⟨wa, hwa, hba⟩ := Option.map_eq_some_iff.1 ha
  obtain ⟨wb, hwb, hbb⟩ := Option.map_eq_some_iff.1 hb
  refine ⟨cfg, g, n0, n1, n2, tx, pull, pill, proof, wa, wb, hf, hs, h0, ?_, Prod.ext (ok_of_toOption h3) k3.symm,
    Prod.ext (ok_of_toOption h4) k4.symm, h5, ?_, ?_, hba, hbb⟩
  · split at h1
    · rename_i h hx
      rw [hx, of_decide_eq_true h1]
    · cases h1
  · unfold Resolves; rw [if_neg he.1]; exact hwa
  · unfold Resolves; rw [if_neg he.2]; exact hwb

open Demo in
set_option linter.constructorNameAsVariable false in
/-- **C93 is false of the code as it stands: synchronisation.**  Neither the proof of an epoch that a peer sends nor the signatures of its
transactions are checked.  With a signature scheme that cannot be forged: user 1 signed one payment of 10 out of his 100, which is in
epoch 1.  One peer then announces an epoch 3, answers with two epochs it invented, one of them with a payment of 40 that nobody signed,
and the node records them: the account shows 60. -/
theorem C93_sync_refuted : ∃ (cfg : NodeCfg) (g : Genesis) (n0 n1 n2 : Node) (tx ty : SignedTx) (io : SyncIo) (w0 w2 : World),
    FirstStart cfg g n0 ∧ (∀ h sig pk, cfg.sigOk h sig pk = true ↔ sig = pk ++ h.bytes) ∧
    Runs cfg (fun _ op => op.NotSync ∧ ∀ p1 p2 h pill, op ≠ .check p1 p2 h pill) n0 n1 ∧ n1.log.map Done.txs = [[tx]] ∧
    tx.signature = tx.pubkey ++ tx.txHash.bytes ∧ (∃ r, tx.raw.action = .transfer r ⟨token, 10⟩) ∧
    ty.signature ≠ ty.pubkey ++ ty.txHash.bytes ∧ accountOf cfg ty = accountOf cfg tx ∧
    n1.updateEpoch cfg io (u64LE 4) = (.ok (some 4), n2) ∧ n2.log.map Done.txs = [[ty], [], [tx]] ∧
    Resolves cfg n0.tries n0.status.stateRoot w0 ∧ Resolves cfg n2.tries n2.status.stateRoot w2 ∧
    balance w0 (accountOf cfg tx) token = 100 ∧ balance w2 (accountOf cfg tx) token = 60 := by
  have h1 : committedA.log.map Done.txs = [[spay 1]] := by decide +kernel
  have h2 : (spay 1).signature = (spay 1).pubkey ++ (spay 1).txHash.bytes := by decide +kernel
  have h3 : (spay 1).raw.action = .transfer (nuser 3) ⟨token, 10⟩ := by decide +kernel
  have h4 : forged.signature ≠ forged.pubkey ++ forged.txHash.bytes := by decide +kernel
  have h5 : accountOf scfg forged = accountOf scfg (spay 1) := by decide +kernel
  have h6 : (committedA.updateEpoch scfg forger (u64LE 4)).1.toOption = some (some 4) := by decide +kernel
  have h7 : forgedSynced.log.map Done.txs = [[forged], [], [spay 1]] := by decide +kernel
  have ha : ((n0.tries n0.status.stateRoot).map fun w => balance w (accountOf scfg (spay 1)) token) = some 100 := by decide +kernel
  have hb : ((forgedSynced.tries forgedSynced.status.stateRoot).map fun w => balance w (accountOf scfg (spay 1)) token) = some 60 := by decide +kernel
  have he : n0.status.stateRoot ≠ scfg.emptyHash ∧ forgedSynced.status.stateRoot ≠ scfg.emptyHash := by decide +kernel
  have hs : ∀ h sig pk, scfg.sigOk h sig pk = true ↔ sig = pk ++ h.bytes := fun h sig pk => decide_eq_true_iff
  have hf := n0_first
  have hr : Runs scfg (fun _ op => op.NotSync ∧ ∀ p1 p2 h pill, op ≠ .check p1 p2 h pill) n0 committedA := by
    have r1 : Runs scfg (fun _ op => op.NotSync ∧ ∀ p1 p2 h pill, op ≠ .check p1 p2 h pill) n0 splitA :=
      .step (.insertTx false true (spay 1)) .refl ⟨trivial, fun _ _ _ _ h => by cases h⟩
    have r2 : Runs scfg (fun _ op => op.NotSync ∧ ∀ p1 p2 h pill, op ≠ .check p1 p2 h pill) n0 proposedA :=
      .step (.propose 7 1) r1 ⟨trivial, fun _ _ _ _ h => by cases h⟩
    exact .step (.commit .ok 1 splitPill (oproof 1)) r2 ⟨trivial, fun _ _ _ _ h => by cases h⟩
  have k6 : forgedSynced = (committedA.updateEpoch scfg forger (u64LE 4)).2 := by simp only [forgedSynced, Node.step]
  generalize forgedSynced = n2, committedA = n1, n0 = n0, scfg = cfg, forger = io, forged = ty, spay 1 = tx, nuser 3 = u, ngenesis = g at *
  obtain ⟨wa, hwa, hba⟩ := Option.map_eq_some_iff.1 ha
  obtain ⟨wb, hwb, hbb⟩ := Option.map_eq_some_iff.1 hb
  refine ⟨cfg, g, n0, n1, n2, tx, ty, io, wa, wb, hf, hs, hr, h1, h2, ⟨u, h3⟩, h4, h5, Prod.ext (ok_of_toOption h6) k6.symm, h7,
    ?_, ?_, hba, hbb⟩
  · unfold Resolves; rw [if_neg he.1]; exact hwa
  · unfold Resolves; rw [if_neg he.2]; exact hwb

namespace Demo

theorem pulled_lives {cfg : NodeCfg} {g : Genesis} {n : Node} {t : SignedTx} (h0 : FirstStart cfg g n) (ht : Authorised cfg t) (h : Bytes)
    (pill : Pill) (id : UInt64) (proof : OverlordProof) : Lives cfg g (NodeOp.Vouched cfg)
      ((n.step cfg (.check noPull (fun _ => some [t]) h pill)).step cfg (.commit .ok id pill proof)) := by
  refine .step _ (.step _ (h0.lives _) ?_) trivial
  intro q txs hq x hx
  rcases hq with hq | hq
  · cases hq
  · injection hq with hq; subst hq
    rw [List.mem_singleton.1 hx]; exact ht

/-- A node that took the signed payment from a peer when it checked the proposal, and committed the epoch. -/
def signedPulled : Node := n0.step scfg (.check noPull (fun _ => some [spay 1]) splitHash splitPill)
def signedDone : Node := signedPulled.step scfg (.commit .ok 1 splitPill (oproof 1))

end Demo

open Demo in
/-- The hypotheses of C93 are met by a node that committed a payment of 10, which it fetched from a peer; in the end the payer has 90. -/
example : Lives scfg ngenesis (NodeOp.Vouched scfg) signedDone ∧ signedDone.log.map Done.txs = [[spay 1]] ∧
    ((signedDone.tries signedDone.status.stateRoot).map fun w => balance w (naddr 1) token) = some 90 := by
  refine ⟨?_, by decide +kernel, by decide +kernel⟩
  unfold signedDone signedPulled
  exact pulled_lives n0_first ⟨by decide +kernel, by decide +kernel⟩ _ _ _ _

open Demo in
/-- The hypotheses of `C93_exact` are met, with an epoch after the one that has the payment; user 3 never signed anything. -/
example : EmptyRoot ncfg n1 ∧ FirstStart ncfg ngenesis n0 ∧ Runs ncfg (Regular ncfg) n0 n1 ∧ (executed n1.log).length = 1 ∧
    (∀ d ∈ n1.log, ∀ t ∈ d.txs, accountOf ncfg t ≠ naddr 3) ∧ ((executed n1.log).map (spent ncfg (naddr 1) token)).sum = 10 :=
  ⟨ncfg_emptyRoot (by decide +kernel), n0_start, n1_runs.1, by decide +kernel, by decide +kernel, by decide +kernel⟩

end Huobi
