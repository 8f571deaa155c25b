import Verif.Props.Agreement
import Verif.Props.Proposal
/-
Properties of a whole lifetime of a node's data: C89 (receipts), C90 (no money from nothing).
-/
namespace Huobi

/-! ### C90: every world in the database comes from the genesis -/

/-- What the genesis allocates of an asset, over all accounts. -/
def supply (g : Genesis) (id : AssetID) : Nat :=
  (g.stateAlloc.map (fun al => (al.assets.map (fun x =>
    if Hash.fromHex x.assetId.toList = some id then
      match hexDecode x.balance.toList with
      | some b => natOfBE b
      | none => 0
    else 0)).sum)).sum

/-- `w` was reached from the genesis, or (a node that synchronises its first epoch) from nothing, by executing blocks. -/
def Descends (cfg : NodeCfg) (g : Genesis) (w : World) : Prop :=
  (∃ w0, CreatesGenesis (cfg.env 0 cfg.cyclesPrice (.user cfg.selfAddress)) g w0 ∧ BlocksLater w0 w) ∨ BlocksLater World.empty w

theorem fromRoot_open {env : Env} {db : StateDB} {root : MerkleRoot} {s : St} (h : fromRoot env db root = some s) :
    ∃ w, s = St.open w ∧ (w = World.empty ∨ db root = some w) := by
  unfold fromRoot at h
  split at h
  · injection h with h; exact ⟨_, h.symm, .inl rfl⟩
  · cases hd : db root with
    | none => rw [hd] at h; cases h
    | some w => rw [hd] at h; injection h with h; exact ⟨w, h.symm, .inr rfl⟩

/-- Running a block puts at most one world into the database: one reached by executing it. -/
theorem runBlock_db {env : Env} {db db' : StateDB} {root : MerkleRoot} {txs : List SignedTx} {resp : ExecResp}
    (h : runBlock env db root txs = (some (.ok resp), db')) :
    ∃ w w', (w = World.empty ∨ db root = some w) ∧ Executes env w txs resp w' ∧ db' = PMap.set db (env.rootOf w') w' := by
  unfold runBlock at h
  split at h
  · cases h
  · rename_i s hs
    obtain ⟨w, rfl, hw⟩ := fromRoot_open hs
    generalize hx : exec env txs (St.open w) = x at h
    obtain ⟨a, s'⟩ := x
    cases a with
    | error f => simp at h
    | ok r =>
      simp only [Prod.mk.injEq, Option.some.injEq, Except.ok.injEq] at h
      obtain ⟨rfl, rfl⟩ := h
      exact ⟨w, s'.committed, hw, ⟨by rw [hx], by rw [hx]⟩, rfl⟩

theorem Descends.block {cfg : NodeCfg} {g : Genesis} {w w' : World} {env : Env} {txs : List SignedTx} {resp : ExecResp}
    (h : Descends cfg g w) (he : Executes env w txs resp w') : Descends cfg g w' := by
  rcases h with ⟨w0, h0, h1⟩ | h1
  · exact .inl ⟨w0, h0, .step h1 he⟩
  · exact .inr (.step h1 he)

/-- Every world of the database descends from the genesis. -/
def AllDescend (cfg : NodeCfg) (g : Genesis) (db : StateDB) : Prop := ∀ r w, db r = some w → Descends cfg g w

theorem AllDescend.set {cfg : NodeCfg} {g : Genesis} {db : StateDB} (h : AllDescend cfg g db) {r : MerkleRoot} {w : World}
    (hw : Descends cfg g w) : AllDescend cfg g (PMap.set db r w) := by
  intro r' w' hr
  unfold PMap.set at hr
  split at hr
  · injection hr with hr; exact hr ▸ hw
  · exact h _ _ hr

theorem AllDescend.ran {cfg : NodeCfg} {g : Genesis} {n : Node} {d : Done} {db : StateDB} (h : AllDescend cfg g n.tries)
    (hr : d.Ran cfg n db) : AllDescend cfg g db := by
  obtain ⟨w, w', hw, hex, rfl⟩ := runBlock_db hr
  refine h.set (Descends.block ?_ hex)
  rcases hw with rfl | hw
  · exact .inr (.refl _)
  · exact h _ _ hw

theorem AllDescend.init {cfg : NodeCfg} {g : Genesis} {s s' : Store} {t t' : StateDB} (h : AllDescend cfg g t)
    (hi : handleInit cfg g s t = some (s', t')) : AllDescend cfg g t' := by
  unfold handleInit at hi
  split at hi
  · injection hi with hi; injection hi with _ hi; exact hi ▸ h
  · split at hi
    · rename_i root tr hr
      injection hi with hi; injection hi with _ hi; subst hi
      unfold runGenesis at hr
      split at hr
      · cases hr
      · rename_i s0 hs0
        have hs0 : s0 = St.open World.empty := by
          unfold fromRoot at hs0
          rw [if_pos rfl] at hs0
          injection hs0 with hs0
          exact hs0.symm
        split at hr
        · rename_i r s1 hg
          simp only [Prod.mk.injEq, Option.some.injEq, Except.ok.injEq] at hr
          obtain ⟨rfl, rfl⟩ := hr
          rw [hs0] at hg
          exact h.set (.inl ⟨s1.committed, ⟨⟨r, by rw [hg]⟩, by rw [hg]⟩, .refl _⟩)
        · cases hr
    · cases hi

theorem Lives.descend {cfg : NodeCfg} {g : Genesis} {ok : Node → NodeOp → Prop} {n : Node} (h : Lives cfg g ok n) :
    AllDescend cfg g n.tries := by
  induction h with
  | init h1 h2 =>
    obtain ⟨e, -, -, ht, -⟩ := startNode_some h2
    rw [ht]; exact AllDescend.init (fun _ _ h => by cases h) h1
  | restart _ h1 h2 ih =>
    obtain ⟨e, -, -, ht, -⟩ := startNode_some h2
    rw [ht]; exact ih.init h1
  | step op _ _ ih =>
    refine step_induct (I := fun n => AllDescend cfg g n.tries) (fun n n' P hn he => ?_) ih op
    cases he with
    | quiet _ h2 _ _ => rw [h2]; exact hn
    | proof _ _ h2 _ _ => rw [h2]; exact hn
    | failed d j _ hr _ _ _ _ => exact hn.ran hr
    | done d _ hr _ _ _ => exact hn.ran hr

theorem empty_total (id : AssetID) : TotalIs World.empty id 0 := ⟨[], List.nodup_nil, fun _ _ => rfl, rfl⟩

theorem empty_wellTyped : World.empty.WellTyped := by intro u acc h; cases h

theorem genesisAllocs_addresses {env : Env} {xs : List GenesisStateAlloc} : ∀ {s s' : St} {u : Unit}, genesisAllocs env xs s = (.ok u, s') →
    ∀ al ∈ xs, ∃ a, Address.fromHex al.address.toList = some a := by
  induction xs with
  | nil => intro _ _ _ _ al hal; cases hal
  | cons x xs ih =>
    intro s s' u h al hal
    simp only [genesisAllocs] at h
    cases ha : Address.fromHex x.address.toList with
    | none => simp [ha] at h
    | some a =>
      simp only [ha] at h
      cases hg : genesisAssets env a x.assets s with
      | mk res s1 =>
        rw [hg] at h
        cases res with
        | error f => simp at h
        | ok v =>
          simp only [] at h
          rcases List.mem_cons.1 hal with rfl | hal
          · exact ⟨a, ha⟩
          · exact ih h al hal

theorem createsGenesis_addresses {env : Env} {g : Genesis} {w : World} (h : CreatesGenesis env g w) :
    ∀ al ∈ g.stateAlloc, ∃ a, Address.fromHex al.address.toList = some a := by
  obtain ⟨⟨root, hroot⟩, -⟩ := h
  simp only [createGenesis] at hroot
  generalize (999999999999 : UInt64) = lim at hroot
  split at hroot
  · cases hroot
  · split at hroot
    · cases hroot
    · split at hroot
      · cases hroot
      · rename_i s2 hg
        exact genesisAllocs_addresses hg

theorem sum_pick {α : Type} [DecidableEq α] (p : Option α) (c : Nat) {L : List α} (hn : L.Nodup) {a : α} (hp : p = some a) (ha : a ∈ L) :
    (L.map (fun b => if p = some b then c else 0)).sum = c := by
  induction L with
  | nil => cases ha
  | cons x L ih =>
    rw [List.nodup_cons] at hn
    simp only [List.map_cons, List.sum_cons]
    by_cases hx : x = a
    · subst hx
      rw [if_pos hp]
      have : (L.map (fun b => if p = some b then c else 0)).sum = 0 :=
        sum_zero _ (fun b hb => by rw [if_neg]; rw [hp]; intro h; injection h with h; exact hn.1 (h ▸ hb))
      omega
    · rw [if_neg (by rw [hp]; intro h; injection h with h; exact hx h.symm)]
      rcases List.mem_cons.1 ha with rfl | ha
      · exact absurd rfl hx
      · rw [ih hn.2 ha]; omega

theorem sum_swap {α β : Type} [DecidableEq α] {L : List α} (hn : L.Nodup) (p : β → Option α) (c : β → Nat) (xs : List β)
    (h : ∀ x ∈ xs, ∃ a ∈ L, p x = some a) :
    (L.map (fun a => (xs.map (fun x => if p x = some a then c x else 0)).sum)).sum = (xs.map c).sum := by
  induction xs with
  | nil => simp only [List.map_nil, List.sum_nil]; exact sum_zero _ (fun _ _ => rfl)
  | cons x xs ih =>
    simp only [List.map_cons, List.sum_cons]
    rw [sum_add, ih (fun y hy => h y (List.mem_cons_of_mem _ hy))]
    obtain ⟨a, ha, hp⟩ := h x (by simp)
    rw [sum_pick (p x) (c x) hn hp ha]

/-- The genesis world holds exactly what the genesis allocates. -/
theorem genesis_total {env : Env} {g : Genesis} {w : World} (h : CreatesGenesis env g w) (id : AssetID) : TotalIs w id (supply g id) := by
  have hb : ∀ a, balance w a id = allocated g a id := fun a => C13_genesis_balances h a id
  have hall := createsGenesis_addresses h
  obtain ⟨L, hn, -, hcov⟩ := extend_nodup ([] : List Address) List.nodup_nil (g.stateAlloc.filterMap (fun al => Address.fromHex al.address.toList))
  have hin : ∀ al ∈ g.stateAlloc, ∃ a ∈ L, Address.fromHex al.address.toList = some a := by
    intro al hal
    obtain ⟨a, ha⟩ := hall al hal
    exact ⟨a, hcov (List.mem_filterMap.2 ⟨al, hal, ha⟩), ha⟩
  refine ⟨L, hn, fun a ha => ?_, ?_⟩
  · rw [hb]
    unfold allocated
    refine sum_zero _ (fun al hal => ?_)
    rw [if_neg]
    intro hc
    obtain ⟨b, hbL, hb'⟩ := hin al hal
    rw [hc] at hb'; injection hb' with hb'
    exact ha (hb' ▸ hbL)
  · simp only [hb]
    unfold allocated supply
    exact sum_swap hn _ _ g.stateAlloc hin

theorem Descends.total {cfg : NodeCfg} {g : Genesis} {w : World} (h : Descends cfg g w) (id : AssetID) :
    TotalIs w id (supply g id) ∨ TotalIs w id 0 := by
  rcases h with ⟨w0, h0, h1⟩ | h1
  · obtain ⟨_, -, -, -, ht, -⟩ := createsGenesis_spec h0
    exact .inl (C01_conservation_chain ht h1 (genesis_total h0 id)).1
  · exact .inr (C01_conservation_chain empty_wellTyped h1 (empty_total id)).1

theorem sum_le_total {w : World} {id : AssetID} {m : Nat} (h : TotalIs w id m) {L : List Address} (hn : L.Nodup) :
    (L.map (fun a => balance w a id)).sum ≤ m := by
  obtain ⟨M, hm, hz, rfl⟩ := h
  obtain ⟨L', hn', hL, hM⟩ := extend_nodup L hn M
  rw [sum_support_unique (fun a => balance w a id) hm hn' hz (fun a ha => hz a (fun h => ha (hM h)))]
  clear hz hM hm
  induction L generalizing L' with
  | nil => simp
  | cons a L ih =>
    rw [List.nodup_cons] at hn
    have ha : a ∈ L' := hL (by simp)
    simp only [List.map_cons, List.sum_cons]
    rw [sum_erase (fun a => balance w a id) ha]
    have := ih hn.2 (L' := L'.erase a) (hn'.erase a) (fun {b} hb => by
      rw [hn'.mem_erase_iff]
      exact ⟨fun e => hn.1 (e ▸ hb), hL (List.mem_cons_of_mem _ hb)⟩)
    omega

theorem balances_of_descend {cfg : NodeCfg} {g : Genesis} {n : Node} (h : AllDescend cfg g n.tries) (id : AssetID)
    (q : Option UInt64) :
    (∀ L : List Address, L.Nodup → (L.map (fun a => n.apiBalance cfg a id q)).sum ≤ supply g id) ∧
    ∃ L : List Address, L.Nodup ∧ (∀ a, a ∉ L → n.apiBalance cfg a id q = 0) ∧
      ((L.map (fun a => n.apiBalance cfg a id q)).sum = supply g id ∨ (L.map (fun a => n.apiBalance cfg a id q)).sum = 0) := by
  have known : (∀ a, n.apiBalance cfg a id q = 0) ∨ ∃ w, Descends cfg g w ∧ ∀ a, n.apiBalance cfg a id q = balance w a id := by
    cases hq : n.queryEpoch q with
    | none => left; intro a; unfold Node.apiBalance Node.queryBalance; rw [hq]; rfl
    | some e =>
      by_cases he : e.header.stateRoot = cfg.emptyHash
      · exact .inr ⟨World.empty, .inr (.refl _), fun a => apiBalance_resolves hq (by unfold Resolves; rw [if_pos he]) a id⟩
      · cases hw : n.tries e.header.stateRoot with
        | some w =>
          exact .inr ⟨w, h _ _ hw, fun a => apiBalance_resolves hq (by unfold Resolves; rw [if_neg he]; exact hw) a id⟩
        | none =>
          left; intro a; unfold Node.apiBalance Node.queryBalance
          rw [hq]
          simp only
          have : fromRoot (cfg.env e.header.epochId 0 (.user e.header.proposer)) n.tries e.header.stateRoot = none := by
            unfold fromRoot
            rw [if_neg (show ¬ e.header.stateRoot = (cfg.env e.header.epochId 0 (.user e.header.proposer)).emptyHash from he), hw]
            rfl
          rw [this]; rfl
  rcases known with h0 | ⟨w, hd, hw⟩
  · exact ⟨fun L _ => by rw [sum_zero _ (fun a _ => h0 a)]; omega, [], List.nodup_nil, fun a _ => h0 a, .inr rfl⟩
  · simp only [hw]
    rcases hd.total id with ht | ht
    · refine ⟨fun L hn => sum_le_total ht hn, ?_⟩
      obtain ⟨L, hn, hz, hs⟩ := ht
      exact ⟨L, hn, hz, .inl hs⟩
    · refine ⟨fun L hn => by have := sum_le_total ht hn; omega, ?_⟩
      obtain ⟨L, hn, hz, hs⟩ := ht
      exact ⟨L, hn, hz, .inr hs⟩

/-- **C90.**  In every lifetime of a node - any calls, any answers of peers, synchronisation, failures, crashes and restarts - the balances
of an asset that the node shows at any epoch never add up to more than the genesis allocated of it, whatever accounts are asked for.  The
balances of all accounts add up to exactly that, or are all zero (the epoch or its state is unknown, or descends from no genesis). -/
theorem C90_no_money_from_nothing {cfg : NodeCfg} {g : Genesis} {ok : Node → NodeOp → Prop} {n : Node} (h : Lives cfg g ok n) (id : AssetID)
    (q : Option UInt64) :
    (∀ L : List Address, L.Nodup → (L.map (fun a => n.apiBalance cfg a id q)).sum ≤ supply g id) ∧
    ∃ L : List Address, L.Nodup ∧ (∀ a, a ∉ L → n.apiBalance cfg a id q = 0) ∧
      ((L.map (fun a => n.apiBalance cfg a id q)).sum = supply g id ∨ (L.map (fun a => n.apiBalance cfg a id q)).sum = 0) :=
  balances_of_descend h.descend id q

theorem Replays.later {cfg : NodeCfg} {w w' : World} {ds : List Done} (h : Replays cfg w ds w') : ∀ {v}, BlocksLater v w → BlocksLater v w' := by
  induction h with
  | nil => exact id
  | cons he _ ih => exact fun hv => ih (.step hv he)

/-- C90, exactly: a node that was started from the genesis and commits regular epochs has, at every moment, a state in which the accounts
hold together exactly what the genesis allocated, and shows it at every epoch it recorded. -/
theorem C90_supply_exact {cfg : NodeCfg} {g : Genesis} {n0 n : Node} (he : EmptyRoot cfg n) (h0 : FirstStart cfg g n0)
    (h : Runs cfg (Regular cfg) n0 n) (id : AssetID) :
    (∃ w, Resolves cfg n.tries n.status.stateRoot w ∧ TotalIs w id (supply g id)) ∧
    ∀ d ∈ n.log, ∃ L : List Address, L.Nodup ∧ (∀ a, a ∉ L → n.apiBalance cfg a id (some d.epoch.header.epochId) = 0) ∧
      (L.map (fun a => n.apiBalance cfg a id (some d.epoch.header.epochId))).sum = supply g id := by
  obtain ⟨w0, hg, -, hres, -⟩ := C13_first_start (h.emptyRoot (fun _ _ hok => hok.keeps) he) h0
  obtain ⟨_, -, -, -, hty, -⟩ := createsGenesis_spec hg
  have htot := genesis_total hg id
  have hch : n0.Chained cfg := (h0.lives (Continues cfg)).chained
  obtain ⟨s, t, hi, hs⟩ := h0
  obtain ⟨e, -, -, -, h3, h4, -⟩ := startNode_some hs
  have hprice : n0.status.cyclesPrice = cfg.cyclesPrice := by rw [h3]; rfl
  have hkeeps : Runs cfg (fun n op => op.NotSync ∧ KeepsRoots cfg n op) n0 n := by
    clear hch hres he
    induction h with
    | refl => exact .refl
    | step op _ hok ih => exact .step op ih ⟨by cases op <;> first | exact hok.honest.elim | trivial, hok.keeps⟩
  have total : ∀ {ds w}, Replays cfg w0 ds w → TotalIs w id (supply g id) :=
    fun hr => (C01_conservation_chain hty (hr.later (.refl _)) htot).1
  constructor
  · obtain ⟨w, hr, hw⟩ := C36_replay_partial he h4 hprice hres hkeeps
    exact ⟨w, hw, total hr⟩
  · intro d hd
    obtain ⟨pre, post, hx⟩ := List.append_of_mem (List.mem_reverse.2 hd)
    have key := fun a => (C16_partial he h4 hprice hch hres h a id).1 pre d post hx
    obtain ⟨w, -, hw, -⟩ := key (.user cfg.selfAddress)
    have hb : ∀ a, n.apiBalance cfg a id (some d.epoch.header.epochId) = balance w a id := by
      intro a
      obtain ⟨w', -, hw', -, ha, -⟩ := key a
      rw [ha, hw.det hw']
    simp only [hb]
    exact total hw

open Demo in
/-- The demo node after a block in which user 1 pays 10 to user 2; the genesis allocates 100 and 50. -/
example : EmptyRoot ncfg n1 ∧ FirstStart ncfg ngenesis n0 ∧ Runs ncfg (Regular ncfg) n0 n1 ∧ supply ngenesis token = 150 ∧
    ((n1.tries n1.status.stateRoot).map (fun w => (balance w (naddr 1) token, balance w (naddr 2) token))) = some (90, 60) :=
  ⟨ncfg_emptyRoot (by decide +kernel), n0_start, n1_runs.1, by decide +kernel, by decide +kernel⟩

/-! ### C89: receipts -/

/-- `get_receipt_by_tx_hash` of the API: core/api/src/adapter/mod.rs:51-57; `none` = error. -/
def Node.apiReceipt (n : Node) (h : Hash) : Option Receipt := n.store.receipts h

/-- The lifetime of a node's data as in `Lives`, with the epochs that the processes before the current one recorded (latest first):
all recorded epochs are `n.log ++ older`. -/
inductive History (cfg : NodeCfg) (g : Genesis) (ok : Node → NodeOp → Prop) : Node → List Done → Prop
  | init {store tries n} : handleInit cfg g Store.empty PMap.empty = some (store, tries) → startNode cfg store tries = some n →
      History cfg g ok n []
  | step {n older} (op : NodeOp) : History cfg g ok n older → ok n op → History cfg g ok (n.step cfg op) older
  | restart {n older s t n'} : History cfg g ok n older → handleInit cfg g n.store n.tries = some (s, t) → startNode cfg s t = some n' →
      History cfg g ok n' (n.log ++ older)

theorem History.lives {cfg : NodeCfg} {g : Genesis} {ok : Node → NodeOp → Prop} {n : Node} {older : List Done}
    (h : History cfg g ok n older) : Lives cfg g ok n := by
  induction h with
  | init h1 h2 => exact .init h1 h2
  | step op _ ho ih => exact .step op ih ho
  | restart _ h1 h2 ih => exact .restart ih h1 h2

theorem Lives.history {cfg : NodeCfg} {g : Genesis} {ok : Node → NodeOp → Prop} {n : Node} (h : Lives cfg g ok n) :
    ∃ older, History cfg g ok n older := by
  induction h with
  | init h1 h2 => exact ⟨_, .init h1 h2⟩
  | step op _ ho ih => obtain ⟨o, ih⟩ := ih; exact ⟨o, .step op ih ho⟩
  | restart _ h1 h2 ih => obtain ⟨o, ih⟩ := ih; exact ⟨_, .restart ih h1 h2⟩

/-- The receipt that the last execution of the transaction gave, in epochs `ds` (latest first). -/
def lastReceipt : List Done → Hash → Option Receipt
  | [], _ => none
  | d :: ds, h => match d.resp.receipts.reverse.find? (fun r => decide (r.txHash = h)) with
    | some r => some r
    | none => lastReceipt ds h

/-- The database does not fail during the call, and the process is not killed while it saves an epoch. -/
def NodeOp.Saves : NodeOp → Prop
  | .commit io _ _ _ => io.save = .ok
  | .sync io _ => ∀ k, io.save k = .ok
  | _ => True

/-- The effect of a call whose writes succeed: the receipts change only with the recording of an epoch. -/
inductive Saved (cfg : NodeCfg) (n n' : Node) : Prop
  | quiet : n'.store.receipts = n.store.receipts → n'.log = n.log → Saved cfg n n'
  | done (d : Done) : n'.store.receipts = (n.store.writes (d.writes cfg)).receipts → n'.log = d :: n.log → Saved cfg n n'

theorem updateStatus_saved {cfg : NodeCfg} {n n0 : Node} {root : MerkleRoot} {id : UInt64} {e : Epoch} {p : Proof} {resp : ExecResp}
    {txs : List SignedTx} (hs : n.store = n0.store.write (.latestProof p)) (hl : n.log = n0.log) :
    Saved cfg n0 (n.updateStatus cfg .ok root id e p resp txs).2 := by
  refine .done ⟨id, e, p, txs, root, resp⟩ ?_ ?_
  · have : (n.updateStatus cfg .ok root id e p resp txs).2.store = n.store.writes ((Done.writes cfg ⟨id, e, p, txs, root, resp⟩).drop 1) := rfl
    rw [this, hs]; rfl
  · show _ :: n.log = _ :: n0.log
    rw [hl]

theorem commit_saved (cfg : NodeCfg) (io : CommitIo) (id : UInt64) (pill : Pill) (proof : OverlordProof) (n : Node) (h : io.save = .ok) :
    Saved cfg n (n.commit cfg io id pill proof).2 := by
  unfold Node.commit
  split
  · exact .quiet rfl rfl
  split
  · exact .quiet rfl rfl
  rename_i p hp
  rcases saveProof_spec (cfg := cfg) (io := io.save) (p := p) (n := n) with ⟨-, hx⟩ | ⟨-, hx⟩
  · rw [hx]; exact .quiet rfl rfl
  rw [hx]
  simp only
  split
  · exact .quiet rfl rfl
  split
  · exact .quiet rfl rfl
  rename_i txs htx
  simp only [Node.commitTail]
  rcases exec_spec (cfg := cfg) (root := n.status.stateRoot) (id := id) (cb := .user pill.epoch.header.proposer) (txs := txs)
    (n := { n with store := n.store.write (.latestProof p), pool := n.pool.flush pill.epoch.orderedTxHashes }) with ⟨e, he⟩ | ⟨resp, db, he, -⟩
  · rw [he]; exact .quiet rfl rfl
  · rw [he]
    simp only [h]
    have key := updateStatus_saved (cfg := cfg) (n0 := n) (root := n.status.stateRoot) (id := id) (e := pill.epoch) (p := p) (resp := resp)
      (txs := txs) (n := { n with store := n.store.write (.latestProof p), pool := n.pool.flush pill.epoch.orderedTxHashes, tries := db }) rfl rfl
    split
    · rename_i hu; rw [hu] at key; exact key
    · rename_i hu; rw [hu] at key; split <;> exact key

theorem syncOne_saved (cfg : NodeCfg) (io : SyncIo) (k : Nat) (id : UInt64) (c r : Hash) (n : Node) (h : io.save k = .ok) :
    Saved cfg n (n.syncOne cfg io k id c r).2 := by
  unfold Node.syncOne
  split
  · exact .quiet rfl rfl
  rename_i ep hp
  split
  · exact .quiet rfl rfl
  rcases saveProof_spec (cfg := cfg) (io := io.save k) (p := ep.header.proof) (n := n) with ⟨-, hx⟩ | ⟨-, hx⟩
  · rw [hx]; exact .quiet rfl rfl
  rw [hx]
  simp only
  split
  · exact .quiet rfl rfl
  rename_i txs htx
  rcases exec_spec (cfg := cfg) (root := r) (id := ep.header.epochId) (cb := .user ep.header.proposer) (txs := txs)
    (n := { n with store := n.store.write (.latestProof ep.header.proof) }) with ⟨e, he⟩ | ⟨resp, db, he, -⟩
  · rw [he]; exact .quiet rfl rfl
  · rw [he]
    simp only [h]
    have key := updateStatus_saved (cfg := cfg) (n0 := n) (root := r) (id := ep.header.epochId) (e := ep) (p := ep.header.proof) (resp := resp)
      (txs := txs) (n := { n with store := n.store.write (.latestProof ep.header.proof), tries := db }) rfl rfl
    split <;> (rename_i hu; rw [hu] at key; exact key)

/-- An invariant of saved effects is kept by every call whose writes succeed. -/
theorem saved_induct {cfg : NodeCfg} {I : Node → Prop} (hI : ∀ n n', I n → Saved cfg n n' → I n') {n : Node} (hn : I n)
    (op : NodeOp) (hs : op.Saves) : I (n.step cfg op) := by
  have passive : op.Passive → I (n.step cfg op) := by
    intro hp
    obtain ⟨a, -, -, d⟩ := passive_step cfg n op hp
    exact hI _ _ hn (.quiet (by rw [a]) d)
  have loop : ∀ (io : SyncIo) (_ : ∀ k, io.save k = .ok) (ids : List UInt64) (k : Nat) (c r : Hash) (m : Node), I m →
      I (Node.syncLoop cfg io k ids c r m).2 := by
    intro io hio ids
    induction ids with
    | nil => intro k c r m hm; exact hm
    | cons id ids ih =>
      intro k c r m hm
      simp only [Node.syncLoop]
      have := hI _ _ hm (syncOne_saved cfg io k id c r m (hio k))
      split
      · rename_i h; rw [h] at this; exact this
      · rename_i h; rw [h] at this; exact ih _ _ _ _ this
  cases op with
  | commit io id pill proof => exact hI _ _ hn (commit_saved cfg io id pill proof n hs)
  | sync io msg =>
    show I (n.updateEpoch cfg io msg).2
    unfold Node.updateEpoch
    split
    · exact hn
    · rename_i v rest hm
      simp only
      split
      · exact hn
      split
      · exact hn
      split
      · exact hn
      rename_i h r hsx
      have := loop io hs (syncIds n.currentId (UInt64.ofNat v - 1)) 1 h r n hn
      split
      · rename_i hu; rw [hu] at this; exact this
      · rename_i hu; rw [hu] at this; split <;> exact this
  | insertTx o b tx => exact passive trivial
  | propose now id => exact passive trivial
  | check p1 p2 h pill => exact passive trivial

theorem find_receipt {rs : List Receipt} {h : Hash} {r : Receipt} (hf : rs.reverse.find? (fun r => decide (r.txHash = h)) = some r) :
    r ∈ rs ∧ r.txHash = h :=
  ⟨by simpa using List.mem_of_find?_eq_some hf, by simpa using List.find?_some hf⟩

theorem receipts_writes (cfg : NodeCfg) (d : Done) (s : Store) (h : Hash) : (s.writes (d.writes cfg)).receipts h =
    match d.resp.receipts.reverse.find? (fun r => decide (r.txHash = h)) with
    | some r => some r
    | none => s.receipts h := by
  show insertAll Receipt.txHash d.resp.receipts s.receipts h = _
  unfold insertAll
  cases List.find? (fun r : Receipt => decide (r.txHash = h)) d.resp.receipts.reverse <;> rfl

theorem receipts_take (cfg : NodeCfg) (d : Done) (s : Store) (j : Nat) :
    (s.writes ((d.writes cfg).take j)).receipts = s.receipts ∨ (s.writes ((d.writes cfg).take j)).receipts = (s.writes (d.writes cfg)).receipts := by
  rw [Done.writes_eq]
  match j with
  | 0 | 1 => exact .inl rfl
  | 2 | 3 | 4 | 5 => exact .inr rfl
  | m + 6 => rw [List.take_of_length_le (by simp)]; exact .inr rfl

theorem handleInit_receipts {cfg : NodeCfg} {g : Genesis} {s s' : Store} {t t' : StateDB} (hi : handleInit cfg g s t = some (s', t')) :
    s'.receipts = s.receipts := by
  unfold handleInit at hi
  split at hi
  · injection hi with hi; injection hi with hi _; rw [hi]
  · split at hi
    · injection hi with hi; injection hi with hi _; rw [← hi]; rfl
    · cases hi

/-- **C89 (partial: without failures of the database, see `C89_refuted`).**  In every lifetime of a node - any calls and answers of peers,
synchronisation, restarts - the receipt shown for a transaction is the one that its last execution in a recorded epoch gave; for a
transaction that no recorded epoch executed there is none. -/
theorem C89_receipts_partial {cfg : NodeCfg} {g : Genesis} {n : Node} {older : List Done}
    (h : History cfg g (fun _ op => op.Saves) n older) (k : Hash) : n.apiReceipt k = lastReceipt (n.log ++ older) k := by
  show n.store.receipts k = _
  induction h with
  | init h1 h2 =>
    obtain ⟨e, -, hs, -, -, hl, -⟩ := startNode_some h2
    rw [hs, hl, handleInit_receipts h1]; rfl
  | restart _ h1 h2 ih =>
    obtain ⟨e, -, hs, -, -, hl, -⟩ := startNode_some h2
    rw [hs, hl, handleInit_receipts h1]; exact ih
  | @step n older op _ ho ih =>
    refine saved_induct (I := fun n => n.store.receipts k = lastReceipt (n.log ++ older) k) (fun n n' hn he => ?_) ih op ho
    cases he with
    | quiet h1 h2 => rw [h1, h2]; exact hn
    | done d h1 h2 =>
      rw [h1, h2, receipts_writes, List.cons_append]
      simp only [lastReceipt, hn]

theorem Descends.wellTyped {cfg : NodeCfg} {g : Genesis} {w : World} (h : Descends cfg g w) : w.WellTyped := by
  rcases h with ⟨w0, h0, h1⟩ | h1
  · obtain ⟨_, -, -, -, ht, -⟩ := createsGenesis_spec h0
    exact (C01_conservation_chain ht h1 (genesis_total h0 cfg.chainId)).2
  · exact (C01_conservation_chain empty_wellTyped h1 (empty_total cfg.chainId)).2

/-- The receipt is that of an execution of the transaction. -/
def Genuine (cfg : NodeCfg) (g : Genesis) (k : Hash) (r : Receipt) : Prop :=
  r.txHash = k ∧ ∃ height price coinbase w txs resp w', Descends cfg g w ∧
    Executes (cfg.env height price (.user coinbase)) w txs resp w' ∧ r ∈ resp.receipts ∧ ∃ t ∈ txs, t.txHash = k

theorem ran_genuine {cfg : NodeCfg} {g : Genesis} {n : Node} {d : Done} {db : StateDB} (h : AllDescend cfg g n.tries) (hr : d.Ran cfg n db) :
    d.resp.receipts.map (·.txHash) = d.txs.map (·.txHash) ∧ ∀ r ∈ d.resp.receipts, Genuine cfg g r.txHash r := by
  obtain ⟨w, w', hw, hex, -⟩ := runBlock_db hr
  have hd : Descends cfg g w := by
    rcases hw with rfl | hw
    · exact .inr (.refl _)
    · exact h _ _ hw
  have h4 := (C04_receipts hd.wellTyped hex).1
  refine ⟨h4, fun r hm => ⟨rfl, _, _, _, w, d.txs, d.resp, w', hd, hex, hm, ?_⟩⟩
  have : r.txHash ∈ d.txs.map (·.txHash) := h4 ▸ List.mem_map_of_mem hm
  obtain ⟨t, ht, he⟩ := List.mem_map.1 this
  exact ⟨t, ht, he⟩

/-- What is kept in every lifetime. -/
structure ReceiptInv (cfg : NodeCfg) (g : Genesis) (older : List Done) (n : Node) : Prop where
  worlds : AllDescend cfg g n.tries
  served : ∀ d ∈ n.log ++ older, ∀ t ∈ d.txs, (n.store.receipts t.txHash).isSome = true
  named : ∀ d ∈ n.log ++ older, d.resp.receipts.map (·.txHash) = d.txs.map (·.txHash)
  genuine : ∀ k r, n.store.receipts k = some r → Genuine cfg g k r

theorem ReceiptInv.written {cfg : NodeCfg} {g : Genesis} {older : List Done} {n : Node} (h : ReceiptInv cfg g older n) {d : Done} {db : StateDB}
    (hr : d.Ran cfg n db) :
    (∀ x ∈ d :: (n.log ++ older), ∀ t ∈ x.txs, ((n.store.writes (d.writes cfg)).receipts t.txHash).isSome = true) ∧
    (∀ k r, (n.store.writes (d.writes cfg)).receipts k = some r → Genuine cfg g k r) := by
  obtain ⟨h1, h2⟩ := ran_genuine h.worlds hr
  constructor
  · intro x hx t ht
    rw [receipts_writes]
    split
    · rfl
    · rename_i hf
      rcases List.mem_cons.1 hx with rfl | hx
      · exfalso
        have : t.txHash ∈ x.resp.receipts.map (·.txHash) := h1 ▸ List.mem_map_of_mem ht
        obtain ⟨r, hm, he⟩ := List.mem_map.1 this
        have := List.find?_eq_none.1 hf r (by simpa using hm)
        simp [he] at this
      · exact h.served x hx t ht
  · intro k r hk
    rw [receipts_writes] at hk
    split at hk
    · rename_i r' hf
      injection hk with hk
      subst hk
      obtain ⟨hm, rfl⟩ := find_receipt hf
      exact h2 _ hm
    · exact h.genuine k r hk

theorem History.receiptInv {cfg : NodeCfg} {g : Genesis} {ok : Node → NodeOp → Prop} {n : Node} {older : List Done}
    (h : History cfg g ok n older) : ReceiptInv cfg g older n := by
  induction h with
  | init h1 h2 =>
    have hd := (Lives.init (ok := ok) h1 h2).descend
    obtain ⟨e, -, hs, -, -, hl, -⟩ := startNode_some h2
    refine ⟨hd, (by rw [hl]; intro d hd; cases hd), (by rw [hl]; intro d hd; cases hd), fun k r hk => ?_⟩
    rw [hs, handleInit_receipts h1] at hk; cases hk
  | @restart n older s t n' hn h1 h2 ih =>
    have hd := (Lives.restart hn.lives h1 h2).descend
    obtain ⟨e, -, hs, -, -, hl, -⟩ := startNode_some h2
    refine ⟨hd, ?_, (by rw [hl]; exact ih.named), ?_⟩
    · rw [hl, hs, handleInit_receipts h1]; exact ih.served
    · rw [hs, handleInit_receipts h1]; exact ih.genuine
  | @step n older op _ _ ih =>
    refine step_induct (I := ReceiptInv cfg g older) (fun n n' P hn he => ?_) ih op
    cases he with
    | quiet h1 h2 _ h4 => exact ⟨by rw [h2]; exact hn.worlds, by rw [h1, h4]; exact hn.served, by rw [h4]; exact hn.named, by rw [h1]; exact hn.genuine⟩
    | proof p h1 h2 _ h4 =>
      have : n'.store.receipts = n.store.receipts := by rw [h1]; rfl
      exact ⟨by rw [h2]; exact hn.worlds, by rw [this, h4]; exact hn.served, by rw [h4]; exact hn.named, by rw [this]; exact hn.genuine⟩
    | failed d j _ hr _ h1 _ h4 =>
      obtain ⟨w1, w2⟩ := hn.written hr
      rcases receipts_take cfg d n.store j with hj | hj
      · exact ⟨hn.worlds.ran hr, by rw [h1, hj, h4]; exact hn.served, by rw [h4]; exact hn.named, by rw [h1, hj]; exact hn.genuine⟩
      · exact ⟨hn.worlds.ran hr, by rw [h1, hj, h4]; exact fun x hx => w1 x (List.mem_cons_of_mem _ hx), by rw [h4]; exact hn.named, by rw [h1, hj]; exact w2⟩
    | done d _ hr h1 _ h4 =>
      obtain ⟨w1, w2⟩ := hn.written hr
      refine ⟨hn.worlds.ran hr, by rw [h1, h4]; exact w1, ?_, by rw [h1]; exact w2⟩
      rw [h4]
      intro x hx
      rcases List.mem_cons.1 hx with rfl | hx
      · exact (ran_genuine hn.worlds hr).1
      · exact hn.named x hx

/-- C89: with any failures, every transaction of a recorded epoch has a receipt, and every receipt shown is one that executing
transactions on a state of this chain gave, and is that of the transaction asked for. -/
theorem C89_receipts_genuine {cfg : NodeCfg} {g : Genesis} {ok : Node → NodeOp → Prop} {n : Node} {older : List Done}
    (h : History cfg g ok n older) (k : Hash) :
    (∀ d ∈ n.log ++ older, (∃ t ∈ d.txs, t.txHash = k) → (n.apiReceipt k).isSome = true) ∧
    ∀ r, n.apiReceipt k = some r → r.txHash = k ∧ ∃ height price coinbase w txs resp w', Descends cfg g w ∧
      Executes (cfg.env height price (.user coinbase)) w txs resp w' ∧ r ∈ resp.receipts ∧ ∃ t ∈ txs, t.txHash = k := by
  have inv := h.receiptInv
  exact ⟨fun d hd ⟨t, ht, he⟩ => he ▸ inv.served d hd t ht, inv.genuine k⟩

theorem lastReceipt_distinct {ds : List Done} {d : Done} (hn : (d.resp.receipts.map (·.txHash)).Nodup) {r : Receipt} (hr : r ∈ d.resp.receipts) :
    lastReceipt (d :: ds) r.txHash = some r := by
  simp only [lastReceipt]
  have : d.resp.receipts.reverse.find? (fun x => decide (x.txHash = r.txHash)) = some r := by
    cases hf : d.resp.receipts.reverse.find? (fun x => decide (x.txHash = r.txHash)) with
    | none =>
      have := List.find?_eq_none.1 hf r (by simpa using hr)
      simp at this
    | some x =>
      obtain ⟨hm, he⟩ := find_receipt hf
      congr 1
      revert hn hr hm
      induction d.resp.receipts with
      | nil => intro _ h; cases h
      | cons y ys ih =>
        intro hn hr hm
        simp only [List.map_cons, List.nodup_cons, List.mem_map, not_exists, not_and] at hn
        rcases List.mem_cons.1 hr with h1 | h1
        · rcases List.mem_cons.1 hm with h2 | h2
          · rw [h1, h2]
          · rw [h1] at he; exact absurd he (hn.1 x h2)
        · rcases List.mem_cons.1 hm with h2 | h2
          · rw [h2] at he; exact absurd he.symm (hn.1 r h1)
          · exact ih hn.2 h1 h2
  rw [this]

/-- C89: what the next proposal says about the receipts of the last epoch is what the API shows.  If the epoch recorded last has no
transaction twice, the receipts shown for its transactions, in order, are those whose Merkle root the next proposal carries. -/
theorem C89_receipt_root {cfg : NodeCfg} {g : Genesis} {n n' : Node} {older rest : List Done} {d : Done} {now id : UInt64} {pill : Pill} {hash : Bytes}
    (h : History cfg g (fun _ op => op.Saves) n older) (hl : n.log = d :: rest) (hd : (d.txs.map SignedTx.txHash).Nodup)
    (hp : n.getEpoch cfg now id = (.ok (pill, hash), n')) :
    ∃ rs : List Receipt, d.txs.map (fun t => n.apiReceipt t.txHash) = rs.map some ∧
      pill.epoch.header.receiptRoot = [cfg.merkle (rs.map (fun r => cfg.digest (encode r)))] := by
  obtain ⟨-, -, -, -, -, hh⟩ := C78_header_partial h.lives hp
  obtain ⟨-, -, -, hroot, -⟩ := hh d rest hl
  have hnamed := h.receiptInv.named d (by rw [hl]; simp)
  refine ⟨d.resp.receipts, ?_, hroot⟩
  have e1 : d.txs.map (fun t => n.apiReceipt t.txHash) = (d.txs.map (·.txHash)).map n.apiReceipt := by rw [List.map_map]; rfl
  rw [e1, ← hnamed, List.map_map]
  refine List.map_congr_left fun r hr => ?_
  show n.apiReceipt r.txHash = some r
  rw [C89_receipts_partial h, hl]
  exact lastReceipt_distinct (by rw [hnamed]; exact hd) hr

namespace Demo

theorem n0_history (ok : Node → NodeOp → Prop) : History ncfg ngenesis ok n0 [] := by
  obtain ⟨s, t, h1, h2⟩ := n0_start
  exact .init h1 h2

theorem run_history {ok : Node → NodeOp → Prop} (ops : List NodeOp) : ∀ {n : Node} {older : List Done}, History ncfg ngenesis ok n older →
    (∀ op ∈ ops, ∀ m, ok m op) → History ncfg ngenesis ok (n.run ncfg ops) older := by
  induction ops with
  | nil => intro _ _ h _; exact h
  | cons op ops ih => intro _ _ h ho; exact ih (.step op h (ho op (by simp) _)) (fun o hm => ho o (by simp [hm]))

/-- The calls of the demo epochs save what they write. -/
theorem block_history {n : Node} {older : List Done} (h : History ncfg ngenesis (fun _ op => op.Saves) n older) (txs : List SignedTx) :
    History ncfg ngenesis (fun _ op => op.Saves) (block n txs) older := by
  refine run_history _ h fun op hop m => ?_
  simp only [blockOps, List.mem_append, List.mem_map, List.mem_cons, List.not_mem_nil, or_false] at hop
  rcases hop with ⟨t, -, rfl⟩ | rfl | rfl
  · trivial
  · trivial
  · rfl

/-- The database fails after the receipts of the first epoch were written. -/
def halfIo : CommitIo := { CommitIo.ok with save := { SaveIo.ok with txs := false } }
def half : Node := (n0.step ncfg (.insertTx true true (npay 1 2 10))).step ncfg (.propose 7 1)
def halfPill : Pill := proposal (n0.step ncfg (.insertTx true true (npay 1 2 10)))
def halfSaved : Node := half.step ncfg (.commit halfIo 1 halfPill (oproof 1))

theorem halfSaved_history : History ncfg ngenesis (fun _ _ => True) halfSaved [] :=
  .step _ (.step _ (.step _ (n0_history _) trivial) trivial) trivial

end Demo

open Demo in
/-- The hypotheses are met by the demo node after two epochs with payments; it shows the receipt of the first payment. -/
example : History ncfg ngenesis (fun _ op => op.Saves) n2 [] ∧ n2.log.length = 2 ∧
    (n2.apiReceipt (npay 1 2 10).txHash).map (fun r => (r.txHash, r.epochId)) = some ((npay 1 2 10).txHash, 1) :=
  ⟨block_history (block_history (n0_history _) _) _, by decide +kernel, by decide +kernel⟩

open Demo in
/-- **C89 is false if the database fails**: the receipts of an epoch are written before its transactions and the epoch, so after a failure
in between the node shows a (successful) receipt of a transaction that no recorded epoch contains. -/
theorem C89_refuted : ∃ (cfg : NodeCfg) (g : Genesis) (n : Node) (k : Hash) (r : Receipt), History cfg g (fun _ _ => True) n [] ∧
    n.log = [] ∧ n.store.txs k = none ∧ n.apiReceipt k = some r ∧ r.result.isFail = false := by
  have h1 : halfSaved.log.length = 0 := by decide +kernel
  have h2 : (halfSaved.store.txs (npay 1 2 10).txHash).isNone = true := by decide +kernel
  have h3 : (halfSaved.apiReceipt (npay 1 2 10).txHash).map (fun r => r.result.isFail) = some false := by decide +kernel
  have h0 := halfSaved_history
  generalize halfSaved = n at *
  generalize (npay 1 2 10).txHash = k at *
  cases hr : n.apiReceipt k with
  | none => rw [hr] at h3; cases h3
  | some r =>
    rw [hr] at h3
    injection h3 with h3
    exact ⟨ncfg, ngenesis, n, k, r, h0, List.length_eq_zero_iff.1 h1, Option.isNone_iff_eq_none.1 h2, hr, h3⟩

end Huobi
