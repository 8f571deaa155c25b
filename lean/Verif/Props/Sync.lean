import Verif.Props.Consensus3
/-
C38: synchronisation.
-/
namespace Huobi

/-- `ds` is a chain of epochs that follows an epoch of height `c` with hash `h`. -/
def ChainOf (cfg : NodeCfg) : UInt64 → Hash → List Done → Prop
  | _, _, [] => True
  | c, h, d :: ds => c + 1 ≠ 0 ∧ d.height = c + 1 ∧ d.epoch.header.epochId = c + 1 ∧ d.epoch.header.preHash = h ∧
      ChainOf cfg (c + 1) (cfg.digest (encode d.epoch)) ds

/-- Everything works and peers answer with the epochs of `ds` and their transactions. -/
structure Serves (io : SyncIo) (ds : List Done) : Prop where
  lock : io.lock = true
  save : ∀ k, io.save k = .ok
  send : io.send = true
  epochs : ∀ d ∈ ds, ∀ k, io.pullEpoch k d.epoch.header.epochId = some d.epoch
  txs : ∀ d ∈ ds, ∀ k, io.pullTxs k d.epoch.orderedTxHashes = some d.txs

theorem ofNat_succ_sub (k : Nat) : UInt64.ofNat (k + 1) - 1 = UInt64.ofNat k := by
  rw [UInt64.ofNat_add, show UInt64.ofNat 1 = 1 from rfl, UInt64.add_sub_cancel]

/-- What the node records for an epoch it fetched and executed on root `r`. -/
def Done.fetched (d : Done) (r : MerkleRoot) : Done := { d with proof := d.epoch.header.proof, root := r }

theorem executes_runBlock {cfg : NodeCfg} {id price : UInt64} {cb : Address} {db : StateDB} {root : MerkleRoot} {txs : List SignedTx}
    {w w' : World} {resp : ExecResp} (hw : Resolves cfg db root w) (h : Executes (cfg.env id price cb) w txs resp w') :
    runBlock (cfg.env id price cb) db root txs = (some (.ok resp), PMap.set db (cfg.rootOf w') w') ∧ resp.stateRoot = cfg.rootOf w' := by
  unfold runBlock
  rw [resolves_fromRoot hw]
  obtain ⟨h1, h2⟩ := h
  simp only
  generalize hx : exec (cfg.env id price cb) txs (St.open w) = x at *
  obtain ⟨a, s⟩ := x
  simp only at h1 h2
  subst h1
  subst h2
  exact ⟨rfl, exec_root hx⟩

/-- One round of the synchronisation with an honest peer. -/
theorem syncOne_ok {cfg : NodeCfg} {io : SyncIo} {ds : List Done} (hio : Serves io ds) {d : Done} (hd : d ∈ ds) (k : Nat) {h : Hash} {r : MerkleRoot}
    {n : Node} {w w' : World} (hp : n.status.cyclesPrice = cfg.cyclesPrice) (hh : d.height = d.epoch.header.epochId) (hpre : d.epoch.header.preHash = h)
    (hw : Resolves cfg n.tries r w) (hex : Executes (cfg.env d.height cfg.cyclesPrice (.user d.epoch.header.proposer)) w d.txs d.resp w') :
    ∃ n', n.syncOne cfg io k d.epoch.header.epochId h r = (.ok (cfg.epochHash d.epoch, d.resp.stateRoot), n') ∧
      n'.tries = PMap.set n.tries (cfg.rootOf w') w' ∧ d.resp.stateRoot = cfg.rootOf w' ∧
      n'.store = n.store.writes ((d.fetched r).writes cfg) ∧
      n'.status = n.status.updated cfg d.height d.epoch d.epoch.header.proof d.resp ∧ n'.log = d.fetched r :: n.log := by
  unfold Node.syncOne
  rw [hio.epochs d hd k]
  simp only
  rw [if_neg (fun hc => hc.2 hpre.symm)]
  simp only [Node.saveProof, hio.save k, SaveIo.ok, if_true, hio.txs d hd k]
  obtain ⟨hrun, hroot⟩ := executes_runBlock hw hex
  rw [hh, ← hp] at hrun
  unfold Node.exec
  simp only [hrun]
  obtain ⟨height, epoch, proof, txs, root, resp⟩ := d
  simp only at hh
  subst hh
  exact ⟨_, rfl, rfl, hroot, rfl, rfl, rfl⟩

/-- The heights of a chain that follows height `c` are greater than `c`. -/
theorem ChainOf.above {cfg : NodeCfg} {ds : List Done} : ∀ {c : UInt64} {h : Hash}, ChainOf cfg c h ds → ∀ {d}, d ∈ ds → c < d.epoch.header.epochId := by
  induction ds with
  | nil => intro c h _ d hd; cases hd
  | cons x ds ih =>
    intro c h hc d hd
    obtain ⟨h0, -, h2, -, hc⟩ := hc
    rcases List.mem_cons.1 hd with rfl | hd
    · rw [h2]; exact u64_lt_succ h0
    · exact UInt64.lt_trans (u64_lt_succ h0) (ih hc hd)

theorem ChainOf.lastHeight {cfg : NodeCfg} {ds : List Done} : ∀ {c : UInt64} {h : Hash}, ChainOf cfg c h ds → ∀ {pre : List Done} {last : Done},
    ds = pre ++ [last] → last.height = c + UInt64.ofNat ds.length := by
  induction ds with
  | nil => intro c h _ pre last hl; simp at hl
  | cons x ds ih =>
    intro c h hc pre last hl
    obtain ⟨h0, h1, -, -, hc⟩ := hc
    have e : c + UInt64.ofNat (x :: ds).length = c + 1 + UInt64.ofNat ds.length := by
      rw [List.length_cons, UInt64.ofNat_add, UInt64.add_comm (UInt64.ofNat ds.length), ← UInt64.add_assoc]; rfl
    rw [e]
    cases pre with
    | nil =>
      rw [List.nil_append] at hl
      injection hl with a b
      subst a; subst b
      rw [h1]; simp
    | cons y pre =>
      rw [List.cons_append] at hl
      injection hl with a b
      exact ih hc b

/-- The heights the synchronisation asks for are those of the chain. -/
theorem ChainOf.ids {cfg : NodeCfg} {ds : List Done} : ∀ {c : UInt64} {h : Hash}, ChainOf cfg c h ds →
    (List.range ds.length).map (fun k => c + 1 + UInt64.ofNat k) = ds.map (fun d => d.epoch.header.epochId) := by
  induction ds with
  | nil => intro c h _; rfl
  | cons x ds ih =>
    intro c h hc
    obtain ⟨h0, -, h2, -, hc⟩ := hc
    rw [List.length_cons, List.range_succ_eq_map, List.map_cons, List.map_cons, List.map_map, h2, ← ih hc]
    congr 1
    · simp
    · apply List.map_congr_left
      intro k _
      simp only [Function.comp, Nat.succ_eq_add_one]
      rw [UInt64.ofNat_add, UInt64.add_assoc (c + 1), UInt64.add_comm 1]; rfl

/-- The loop with an honest peer: the node ends at the end of the chain. -/
theorem syncLoop_ok {cfg : NodeCfg} {io : SyncIo} {all : List Done} (hio : Serves io all) (ds : List Done) :
    ∀ (k : Nat) (c : UInt64) (h : Hash) (r : MerkleRoot) (n : Node) (w w' : World), (∀ d ∈ ds, d ∈ all) → ChainOf cfg c h ds →
      n.status.cyclesPrice = cfg.cyclesPrice → Resolves cfg n.tries r w → Replays cfg w ds w' →
      (∀ pre v, pre <+: ds → Replays cfg w pre v → EmptyRootOf cfg v) →
      ∃ (n' : Node) (fs : List Done), Node.syncLoop cfg io k (ds.map (fun d => d.epoch.header.epochId)) h r n = (.ok (), n') ∧
        n'.log = fs.reverse ++ n.log ∧ fs.map (fun f => (f.height, f.epoch, f.txs, f.resp)) = ds.map (fun d => (d.height, d.epoch, d.txs, d.resp)) ∧
        (ds = [] → n' = n) ∧
        (∀ pre last, ds = pre ++ [last] → n'.status.epochId = last.height + 1 ∧ n'.status.prevHash = cfg.epochHash last.epoch ∧
          n'.status.stateRoot = last.resp.stateRoot ∧ n'.status.receiptRoot = [cfg.merkle (last.resp.receipts.map (fun r => cfg.digest (encode r)))] ∧
          n'.status.orderRoot = cfg.merkle last.epoch.orderedTxHashes ∧
          n'.store.latest = some last.epoch ∧ Resolves cfg n'.tries n'.status.stateRoot w') ∧
        (∀ i e, n.store.epochs i = some e → (∀ d ∈ ds, d.epoch.header.epochId ≠ i) → n'.store.epochs i = some e) ∧
        (∀ d ∈ ds, n'.store.epochs d.epoch.header.epochId = some d.epoch) := by
  induction ds with
  | nil => intro k c h r n w w' _ _ _ _ _ _; exact ⟨n, [], rfl, rfl, rfl, fun _ => rfl, by simp, fun _ _ h _ => h, by simp⟩
  | cons d ds ih =>
    intro k c h r n w w' hall hch hp hw hrep hempty
    cases hrep with
    | @cons _ _ w1 _ _ hex hrep =>
    obtain ⟨hc0, hc1, hc2, hc3, hch⟩ := hch
    obtain ⟨n1, hone, htr, hroot, hst, hstat, hlog⟩ := syncOne_ok hio (hall d (by simp)) k hp (by rw [hc1, hc2]) hc3 hw hex
    have hres : Resolves cfg n1.tries d.resp.stateRoot w1 := by rw [htr, hroot]; exact resolves_put (hempty [d] w1 ⟨ds, rfl⟩ (.cons hex (.nil _))) _
    obtain ⟨n', fs, h1, h2, h3, h4, h5, h6, h7⟩ := ih (k + 1) (c + 1) (cfg.epochHash d.epoch) d.resp.stateRoot n1 w1 w'
      (fun x hx => hall x (by simp [hx])) hch (by rw [hstat]; exact hp) hres hrep
      (fun pre v ⟨suf, hp⟩ hv => hempty (d :: pre) v ⟨suf, by rw [List.cons_append, hp]⟩ (.cons hex hv))
    have hn1 : n1.store.epochs d.epoch.header.epochId = some d.epoch := by rw [hst, epochs_all]; exact if_pos rfl
    refine ⟨n', d.fetched r :: fs, ?_, ?_, ?_, by simp, ?_, ?_, ?_⟩
    · simp only [List.map_cons, Node.syncLoop, hone]; exact h1
    · rw [h2, hlog]; simp
    · simp only [List.map_cons, h3]; rfl
    · intro pre last hl
      cases ds with
      | nil =>
        have : pre = [] ∧ d = last := by
          cases pre with
          | nil => exact ⟨rfl, by simpa using hl⟩
          | cons x pre => simp at hl
        obtain ⟨-, rfl⟩ := this
        have := h4 rfl
        subst this
        cases hrep
        rw [hstat]
        exact ⟨rfl, rfl, rfl, rfl, rfl, by rw [hst]; rfl, hres⟩
      | cons x ds =>
        cases pre with
        | nil => simp at hl
        | cons y pre =>
          rw [List.cons_append] at hl
          injection hl with _ hl
          exact h5 pre last hl
    · intro i e he hi
      refine h6 i e ?_ (fun x hx => hi x (by simp [hx]))
      rw [hst, epochs_all, if_neg (fun hc => hi d (by simp) hc.symm)]; exact he
    · intro x hx
      by_cases hxd : ∃ y ∈ ds, y.epoch.header.epochId = x.epoch.header.epochId
      · rcases List.mem_cons.1 hx with rfl | hx
        · obtain ⟨y, hy, hyx⟩ := hxd
          exact absurd hyx (by
            intro hh
            exact absurd (hch.above hy) (by rw [hh, hc2]; exact fun h => absurd h (by simp [UInt64.lt_irrefl])))
        · exact h7 x hx
      · rcases List.mem_cons.1 hx with rfl | hx
        · exact h6 _ _ hn1 (fun y hy hc => hxd ⟨y, hy, hc⟩)
        · exact absurd ⟨x, hx, rfl⟩ hxd

/-- **C38 (partial).**  A node whose latest epoch has height `c ≠ 0` hears of a node `m` that committed the chain `ds` of at least two
epochs after that epoch, and everything it asks for is answered.  *If the state root in the header of its latest epoch is the root of
the world on which `m` executed `ds`* (true if that epoch changed nothing, for instance had no transactions; false otherwise,
`C38_refuted`), the synchronisation ends well and both nodes have the same height, previous hash, state root, order root and receipt root,
the same latest epoch, and the fetched epochs are stored.  Excluded are therefore: `c = 0`, a gap of one epoch (nothing happens), and a
latest epoch that changed the state. -/
theorem C38_partial {cfg : NodeCfg} {g g' : Genesis} {ok ok' : Node → NodeOp → Prop} {n m : Node} {io : SyncIo}
    {e : Epoch} {c : UInt64} {ds rest : List Done} {w w' : World} (hn : Lives cfg g ok n) (hm : Lives cfg g' ok' m)
    (hlog : m.log = ds.reverse ++ rest) (hlen : 2 ≤ ds.length) (hlt : c.toNat + ds.length + 1 < 2 ^ 64)
    (hl : n.store.latest = some e) (hc : e.header.epochId = c) (hc0 : c ≠ 0) (hs : n.store.epochs c = some e)
    (hch : ChainOf cfg c (cfg.digest (encode e)) ds) (hrep : Replays cfg w ds w') (hw : Resolves cfg n.tries e.header.stateRoot w)
    (hempty : ∀ pre v, pre <+: ds → Replays cfg w pre v → EmptyRootOf cfg v) (hio : Serves io ds) :
    ∃ n', n.updateEpoch cfg io (u64LE (c.toNat + ds.length + 1)) = (.ok (some m.status.epochId), n') ∧
      n'.status.epochId = m.status.epochId ∧ n'.status.prevHash = m.status.prevHash ∧ n'.status.stateRoot = m.status.stateRoot ∧
      n'.store.latest = m.store.latest ∧ (∀ d ∈ ds, n'.store.epochs d.epoch.header.epochId = some d.epoch) ∧
      Resolves cfg n'.tries n'.status.stateRoot w' := by
  obtain ⟨hprice, -⟩ := hn.coherent
  have hcur : n.currentId = c := by simp [Node.currentId, hl, hc]
  have hread : readU64LE (u64LE (c.toNat + ds.length + 1)) = some (c.toNat + ds.length + 1, []) := by
    have := readU64LE_u64LE (c.toNat + ds.length + 1) hlt []
    rwa [List.append_nil] at this
  have hrich : UInt64.ofNat (c.toNat + ds.length + 1) - 1 = UInt64.ofNat (c.toNat + ds.length) := by
    exact ofNat_succ_sub _
  have htn : (UInt64.ofNat (c.toNat + ds.length)).toNat = c.toNat + ds.length := by
    rw [UInt64.toNat_ofNat']; exact Nat.mod_eq_of_lt (by omega)
  have hids : syncIds c (UInt64.ofNat (c.toNat + ds.length)) = ds.map (fun d => d.epoch.header.epochId) := by
    unfold syncIds
    rw [htn, Nat.add_sub_cancel_left]
    exact hch.ids
  obtain ⟨d, hd⟩ : ∃ d, ds.head? = some d := by cases ds with | nil => simp at hlen | cons d _ => exact ⟨d, rfl⟩
  have hpull : io.pullEpoch 0 (c + 1) = some d.epoch ∧ d.epoch.header.preHash = cfg.epochHash e := by
    cases ds with
    | nil => cases hd
    | cons x xs =>
      cases hd
      obtain ⟨-, -, h2, h3, -⟩ := hch
      refine ⟨?_, h3⟩
      rw [← h2]; exact hio.epochs _ (by simp) 0
  have hstart : n.syncStart cfg io c = .ok (cfg.epochHash e, e.header.stateRoot) := by
    unfold Node.syncStart
    rw [if_neg hc0, hs]
    simp only
    rw [hpull.1]
    simp only
    rw [if_neg (fun h => h hpull.2.symm)]
  obtain ⟨n', fs, h1, -, -, -, h5, -, h7⟩ := syncLoop_ok hio ds 1 c (cfg.epochHash e) e.header.stateRoot n w w' (fun _ h => h) hch hprice hw hrep hempty
  obtain ⟨pre, last, hpl⟩ : ∃ pre last, ds = pre ++ [last] := by
    rcases List.eq_nil_or_concat ds with h | ⟨pre, last, h⟩
    · rw [h] at hlen; simp at hlen
    · exact ⟨pre, last, by rw [h, List.concat_eq_append]⟩
  obtain ⟨a1, a2, a3, -, -, a4, a5⟩ := h5 pre last hpl
  obtain ⟨-, em, hem, hprev, hcoh⟩ := hm.coherent
  have hml : m.log = last :: (pre.reverse ++ rest) := by rw [hlog, hpl]; simp
  rcases hcoh with ⟨hnil, -⟩ | ⟨d', rest', hd', he', hi', hr', -⟩
  · rw [hml] at hnil; cases hnil
  rw [hml] at hd'
  injection hd' with hd' _
  subst hd'
  subst he'
  refine ⟨n', ?_, by rw [a1, hi'], by rw [a2, hprev], by rw [a3, hr'], by rw [a4, hem], h7, a5⟩
  have hheight : UInt64.ofNat (c.toNat + ds.length) + 1 = m.status.epochId := by
    rw [hi']
    congr 1
    have := hch.lastHeight hpl
    rw [this]
    rw [UInt64.ofNat_add, UInt64.ofNat_toNat]
  unfold Node.updateEpoch
  rw [hread]
  simp only [hrich, hcur]
  rw [if_neg, if_neg (by rw [hio.lock]; simp), hstart]
  · simp only [hids, h1, hio.send, if_true, hheight]
  · intro hle
    have h1 : UInt64.ofNat (c.toNat + ds.length) - 1 = UInt64.ofNat (c.toNat + ds.length - 1) := by
      have : c.toNat + ds.length = (c.toNat + ds.length - 1) + 1 := by omega
      rw [this]; exact ofNat_succ_sub _
    rw [h1, UInt64.le_iff_toNat_le, UInt64.toNat_ofNat', Nat.mod_eq_of_lt (by omega)] at hle
    omega

open Demo in
theorem peer_spec (a : Node) : (∀ k id, (peer a).pullEpoch k id = a.store.epochs id) ∧ (∀ k hs, (peer a).pullTxs k hs = hs.mapM a.store.txs) ∧
    (peer a).lock = true ∧ (peer a).send = true ∧ (∀ k, (peer a).save k = .ok) :=
  ⟨fun _ _ => rfl, fun _ _ => rfl, rfl, rfl, fun _ => rfl⟩

open Demo in
/-- **C38 is false of the code as it stands**, in three ways.  (1) A node that stopped after epoch 1 and catches up with one that
committed epochs 1 to 3 has the same epochs, height and hash, but another state root: the payment of epoch 1 is lost.  (2) A fresh node
(the same genesis) cannot catch up at all: it executes the first epoch on the empty state, in which no sender exists.  (3) A node one
epoch behind does nothing. -/
theorem C38_refuted : ∃ (cfg : NodeCfg) (g : Genesis) (a b m : Node) (io : SyncIo) (ds : List Done) (d : Done),
    Lives cfg g (fun _ _ => True) a ∧ Lives cfg g (fun _ _ => True) b ∧ Lives cfg g (fun _ _ => True) m ∧ m.log = ds.reverse ++ [d] ∧
    ds.length = 2 ∧ a.log = [d] ∧ b.log = [] ∧ (∀ k id, io.pullEpoch k id = m.store.epochs id) ∧
    (∀ k hs, io.pullTxs k hs = hs.mapM m.store.txs) ∧ io.lock = true ∧ io.send = true ∧ (∀ k, io.save k = .ok) ∧
    -- (1)
    (a.updateEpoch cfg io (u64LE 4)).1.toOption = some (some m.status.epochId) ∧
    (a.updateEpoch cfg io (u64LE 4)).2.status.epochId = m.status.epochId ∧
    (a.updateEpoch cfg io (u64LE 4)).2.status.prevHash = m.status.prevHash ∧
    (a.updateEpoch cfg io (u64LE 4)).2.status.stateRoot ≠ m.status.stateRoot ∧
    -- (2)
    (b.updateEpoch cfg io (u64LE 4)).1.toOption = none ∧ (b.updateEpoch cfg io (u64LE 4)).2.status.epochId = 1 ∧
    -- (3)
    (a.updateEpoch cfg io (u64LE 3)).1.toOption = some none ∧ a.status.epochId = 2 := by
  obtain ⟨d1, h1⟩ := n1_runs.2.2
  obtain ⟨d2, h2⟩ := n2_runs.2.2
  obtain ⟨d3, h3⟩ := n3_runs.2.2
  rw [n0_log] at h1
  have l1 : Lives ncfg ngenesis (fun _ _ => True) n1 := blockOps_lives (n0_lives _) _ (fun _ _ => trivial)
  have l2 : Lives ncfg ngenesis (fun _ _ => True) n2 := blockOps_lives l1 _ (fun _ _ => trivial)
  have l3 : Lives ncfg ngenesis (fun _ _ => True) n3 := blockOps_lives l2 _ (fun _ _ => trivial)
  have hlog : n3.log = [d2, d3].reverse ++ [d1] := by rw [h3, h2, h1]; rfl
  refine ⟨ncfg, ngenesis, n1, n0, n3, peer n3, [d2, d3], d1, l1, n0_lives _, l3, hlog, rfl, h1, n0_log, (peer_spec n3).1,
    (peer_spec n3).2.1, (peer_spec n3).2.2.1, (peer_spec n3).2.2.2.1, (peer_spec n3).2.2.2.2, ?_⟩
  decide +kernel

/-! ### The hypotheses of `C38_partial` are met -/

namespace Demo

/-- Epoch 1 is empty, epochs 2 and 3 have payments. -/
def e1 : Node := block n0 []
def e2 : Node := block e1 [npay 1 2 10]
def e3 : Node := block e2 [npay 2 1 5 1]

theorem e1_eq : block n0 [] = e1 := rfl
theorem e2_eq : block e1 [npay 1 2 10] = e2 := rfl
theorem e3_eq : block e2 [npay 2 1 5 1] = e3 := rfl
theorem e1_ok : BlockOk n0 [] := by decide +kernel
theorem e2_ok : BlockOk e1 [npay 1 2 10] := by decide +kernel
theorem e3_ok : BlockOk e2 [npay 2 1 5 1] := by decide +kernel

theorem e1_runs : Runs ncfg (Regular ncfg) n0 e1 ∧ e1.status.cyclesPrice = ncfg.cyclesPrice ∧ ∃ d, e1.log = d :: n0.log := by
  have h := block_runs (m := n0) .refl n0_price e1_ok
  rw [e1_eq] at h
  exact h

theorem e2_runs : Runs ncfg (Regular ncfg) n0 e2 ∧ e2.status.cyclesPrice = ncfg.cyclesPrice ∧ ∃ d, e2.log = d :: e1.log := by
  have h := block_runs e1_runs.1 e1_runs.2.1 e2_ok
  rw [e2_eq] at h
  exact h

theorem e3_runs : Runs ncfg (Regular ncfg) n0 e3 ∧ e3.status.cyclesPrice = ncfg.cyclesPrice ∧ ∃ d, e3.log = d :: e2.log := by
  have h := block_runs e2_runs.1 e2_runs.2.1 e3_ok
  rw [e3_eq] at h
  exact h

theorem regular_mono {n m : Node} (h : Runs ncfg (Regular ncfg) n m) : Runs ncfg (fun n op => op.NotSync ∧ KeepsRoots ncfg n op) n m := by
  induction h with
  | refl => exact .refl
  | step op _ hok ih => exact .step op ih ⟨by cases op <;> first | exact hok.honest.elim | trivial, hok.keeps⟩

theorem Replays.splitAt {cfg : NodeCfg} {pre : List Done} : ∀ {w : World} {post : List Done} {w' : World}, Replays cfg w (pre ++ post) w' →
    ∃ w1, Replays cfg w pre w1 ∧ Replays cfg w1 post w' := by
  induction pre with
  | nil => intro w post w' h; exact ⟨w, .nil _, h⟩
  | cons x pre ih =>
    intro w post w' h
    cases h with
    | cons a h => obtain ⟨w1, h1, h2⟩ := ih h; exact ⟨w1, .cons a h1, h2⟩

set_option linter.constructorNameAsVariable false in
/-- A node that stopped after the empty epoch catches up with the one that went on: all hypotheses of `C38_partial` hold, and the
synchronisation indeed ends with the state root of the other node. -/
example : ∃ (e : Epoch) (ds rest : List Done) (w w' : World), Lives ncfg ngenesis (fun _ _ => True) e1 ∧ Lives ncfg ngenesis (fun _ _ => True) e3 ∧
    e3.log = ds.reverse ++ rest ∧ ds.length = 2 ∧ e1.store.latest = some e ∧ e.header.epochId = 1 ∧ e1.store.epochs 1 = some e ∧
    ChainOf ncfg 1 (ncfg.digest (encode e)) ds ∧ Replays ncfg w ds w' ∧ Resolves ncfg e1.tries e.header.stateRoot w ∧
    (∀ pre v, pre <+: ds → Replays ncfg w pre v → EmptyRootOf ncfg v) ∧ Serves (peer e3) ds ∧
    (e1.updateEpoch ncfg (peer e3) (u64LE 4)).2.status.stateRoot = e3.status.stateRoot := by
  obtain ⟨d1, h1⟩ := e1_runs.2.2
  obtain ⟨d2, h2⟩ := e2_runs.2.2
  obtain ⟨d3, h3⟩ := e3_runs.2.2
  rw [n0_log] at h1
  have l1 : Lives ncfg ngenesis (fun _ _ => True) e1 := blockOps_lives (n0_lives _) _ (fun _ _ => trivial)
  have l2 : Lives ncfg ngenesis (fun _ _ => True) e2 := blockOps_lives l1 _ (fun _ _ => trivial)
  have l3 : Lives ncfg ngenesis (fun _ _ => True) e3 := blockOps_lives l2 _ (fun _ _ => trivial)
  have hlog : e3.log = [d2, d3].reverse ++ [d1] := by rw [h3, h2, h1]; rfl
  have hl : e1.store.latest.isSome = true := by decide +kernel
  obtain ⟨e, he⟩ := Option.isSome_iff_exists.1 hl
  obtain ⟨w0, hw0⟩ := n0_resolves
  obtain ⟨wa, hra, hwa⟩ := C36_replay_partial (ncfg_emptyRoot (by decide +kernel)) n0_log n0_price hw0 (regular_mono e1_runs.1)
  obtain ⟨wb, hrb, hwb⟩ := C36_replay_partial (ncfg_emptyRoot (by decide +kernel)) n0_log n0_price hw0 (regular_mono e3_runs.1)
  rw [hlog, List.reverse_append, List.reverse_reverse] at hrb
  obtain ⟨w1, hr1, hr2⟩ := Replays.splitAt hrb
  have : w1 = wa := by rw [h1] at hra; exact hr1.det hra
  subst this
  have hst : e1.store.latest.map (fun e => (e.header.epochId, e.header.stateRoot)) = some (1, e1.status.stateRoot) ∧
    e1.store.epochs 1 = e1.store.latest ∧ e1.store.latest.map (fun e => ncfg.digest (encode e)) = e3.log[1]?.map (fun d => d.epoch.header.preHash) ∧
    e3.log[0]?.map (fun d => (d.height, d.epoch.header.epochId)) = some (3, 3) ∧
    e3.log[1]?.map (fun d => (d.height, d.epoch.header.epochId)) = some (2, 2) ∧
    e3.log[0]?.map (fun d => d.epoch.header.preHash) = e3.log[1]?.map (fun d => ncfg.digest (encode d.epoch)) ∧
    e3.log[0]?.map (fun d => d.epoch) = e3.store.epochs 3 ∧ e3.log[1]?.map (fun d => d.epoch) = e3.store.epochs 2 ∧
    e3.log[0]?.map (fun d => d.txs) = e3.log[0]?.bind (fun d => d.epoch.orderedTxHashes.mapM e3.store.txs) ∧
    e3.log[1]?.map (fun d => d.txs) = e3.log[1]?.bind (fun d => d.epoch.orderedTxHashes.mapM e3.store.txs) := by decide +kernel
  have hroot : (e1.updateEpoch ncfg (peer e3) (u64LE 4)).2.status.stateRoot = e3.status.stateRoot := by decide +kernel
  refine ⟨e, [d2, d3], [d1], w1, wb, l1, l3, hlog, rfl, he, ?_, ?_, ?_, hr2, ?_, fun _ v _ _ => ncfg_emptyRootOf v, ?_, hroot⟩
  all_goals
    generalize ncfg = cfg at *
    generalize e1 = a at *
    generalize e3 = b at *
    rw [hlog, he] at hst
    simp only [List.reverse_cons, List.reverse_nil, List.nil_append, List.cons_append, List.getElem?_cons_zero, List.getElem?_cons_succ,
      Option.map_some, Option.bind_some, Option.some.injEq, Prod.mk.injEq] at hst
    obtain ⟨⟨s1, s2⟩, s3, s4, ⟨s5, s6⟩, ⟨s7, s8⟩, s9, s10, s11, s12, s13⟩ := hst
  · exact s1
  · exact s3
  · exact ⟨by decide, s7, s8, s4.symm, by decide, s5, s6, s9, trivial⟩
  · rw [s2]; exact hwa
  · refine ⟨rfl, fun _ => rfl, rfl, ?_, ?_⟩
    · intro d hd k
      simp only [List.mem_cons, List.not_mem_nil, or_false] at hd
      rcases hd with rfl | rfl
      · show b.store.epochs _ = _; rw [s8]; exact s11.symm
      · show b.store.epochs _ = _; rw [s6]; exact s10.symm
    · intro d hd k
      simp only [List.mem_cons, List.not_mem_nil, or_false] at hd
      rcases hd with rfl | rfl
      · exact s13.symm
      · exact s12.symm

end Demo

end Huobi
