import Verif.Props.Replay
import Verif.Props.Consensus3
import Verif.Props.Genesis
/-
C88: nodes that commit the same epochs agree.
-/
namespace Huobi

/-- Configurations of two nodes of one chain: the same functions (keccak, trie roots, …), chain id and price; what concerns a node alone may differ. -/
structure OneChain (a b : NodeCfg) : Prop where
  digest : b.digest = a.digest
  rootOf : b.rootOf = a.rootOf
  showErr : b.showErr = a.showErr
  layout : b.layout = a.layout
  chainId : b.chainId = a.chainId
  price : b.cyclesPrice = a.cyclesPrice

theorem OneChain.env {a b : NodeCfg} (h : OneChain a b) (id p : UInt64) (c : Address) : b.env id p c = a.env id p c := by
  simp only [NodeCfg.env, h.digest, h.rootOf, h.showErr, h.chainId]

theorem OneChain.emptyHash {a b : NodeCfg} (h : OneChain a b) : b.emptyHash = a.emptyHash := by simp only [NodeCfg.emptyHash, h.digest]

/-- The process started for the first time, on empty databases. -/
def FirstStart (cfg : NodeCfg) (g : Genesis) (n : Node) : Prop :=
  ∃ s t, handleInit cfg g Store.empty PMap.empty = some (s, t) ∧ startNode cfg s t = some n

/-- Without its signature. -/
def SignedTx.core (t : SignedTx) : SignedTx := { t with signature := [] }

theorem execTx_core (env : Env) (t : SignedTx) : execTx env t.core = execTx env t := rfl

theorem execLoop_core (env : Env) (txs : List SignedTx) : execLoop env (txs.map SignedTx.core) = execLoop env txs := by
  induction txs with
  | nil => rfl
  | cons t txs ih => funext s; simp only [List.map_cons, execLoop, execTx_core, ih]

/-- Signatures have no influence on the execution. -/
theorem exec_core (env : Env) (txs : List SignedTx) : exec env (txs.map SignedTx.core) = exec env txs := by
  funext s; simp only [exec, execLoop_core]

theorem genesisAssets_coinbase (env : Env) (c : Address) (a : Address) (xs : List GenesisStateAsset) :
    genesisAssets { env with coinbase := c } a xs = genesisAssets env a xs := by
  induction xs with
  | nil => rfl
  | cons x xs ih =>
    funext s
    simp only [genesisAssets, ih]
    rfl

theorem genesisAllocs_coinbase (env : Env) (c : Address) (xs : List GenesisStateAlloc) :
    genesisAllocs { env with coinbase := c } xs = genesisAllocs env xs := by
  induction xs with
  | nil => rfl
  | cons x xs ih =>
    funext s
    simp only [genesisAllocs, ih, genesisAssets_coinbase]

theorem runGenesis_coinbase (env : Env) (c : Address) (db : StateDB) (g : Genesis) :
    runGenesis { env with coinbase := c } db g = runGenesis env db g := by
  have h : createGenesis { env with coinbase := c } g = createGenesis env g := by
    funext s
    have hb : bankRegister { env with coinbase := c } = bankRegister env := by
      have h1 : assetIdOf { env with coinbase := c } = assetIdOf env := rfl
      have h2 : Env.emptyHash { env with coinbase := c } = Env.emptyHash env := rfl
      funext a1 a2 a3 a4 a5 s
      simp only [bankRegister, h1, h2]
    simp only [createGenesis, genesisAllocs_coinbase, hb]
  simp only [runGenesis, h]
  rfl

theorem handleInit_self (cfg : NodeCfg) (u : UserAddress) (g : Genesis) (s : Store) (t : StateDB) :
    handleInit { cfg with selfAddress := u } g s t = handleInit cfg g s t := by
  have h : runGenesis (NodeCfg.env { cfg with selfAddress := u } 0 cfg.cyclesPrice (.user u)) t g =
      runGenesis (cfg.env 0 cfg.cyclesPrice (.user cfg.selfAddress)) t g :=
    runGenesis_coinbase (cfg.env 0 cfg.cyclesPrice (.user cfg.selfAddress)) (.user u) t g
  simp only [handleInit, h]
  rfl

/-- Two first starts from one genesis agree. -/
theorem firstStart_agree {a b : NodeCfg} (hc : OneChain a b) {g : Genesis} {n m : Node} (hn : FirstStart a g n) (hm : FirstStart b g m) :
    m.tries = n.tries ∧ m.store.latest = n.store.latest ∧ m.status.epochId = n.status.epochId ∧ m.status.prevHash = n.status.prevHash ∧
    m.status.stateRoot = n.status.stateRoot ∧ m.status.orderRoot = n.status.orderRoot ∧ m.status.confirmRoot = n.status.confirmRoot ∧
    m.status.receiptRoot = n.status.receiptRoot := by
  obtain ⟨s, t, h1, h2⟩ := hn
  obtain ⟨s', t', h1', h2'⟩ := hm
  obtain ⟨root, hr, hs⟩ := handleInit_empty h1
  obtain ⟨root', hr', hs'⟩ := handleInit_empty h1'
  obtain ⟨e, he, hst, htr, hstat, -⟩ := startNode_some h2
  obtain ⟨e', he', hst', htr', hstat', -⟩ := startNode_some h2'
  have hg : runGenesis (b.env 0 b.cyclesPrice (.user b.selfAddress)) PMap.empty g = runGenesis (a.env 0 a.cyclesPrice (.user a.selfAddress)) PMap.empty g := by
    rw [hc.env, hc.price]
    exact runGenesis_coinbase (a.env 0 a.cyclesPrice (.user a.selfAddress)) _ _ _
  rw [hg, hr] at hr'
  simp only [Prod.mk.injEq, Option.some.injEq, Except.ok.injEq] at hr'
  obtain ⟨rfl, rfl⟩ := hr'
  have hep : b.genesisEpoch g.timestamp root = a.genesisEpoch g.timestamp root := by
    simp only [NodeCfg.genesisEpoch, hc.emptyHash, hc.chainId]
  have hl : s.latest = some (a.genesisEpoch g.timestamp root) := by rw [hs]; rfl
  have hl' : s'.latest = some (a.genesisEpoch g.timestamp root) := by rw [hs', ← hep]; rfl
  rw [hl] at he; rw [hl'] at he'
  cases he; cases he'
  rw [htr, htr', hst, hst', hl, hl', hstat, hstat']
  simp only [startStatus, NodeCfg.epochHash, hc.digest, hc.emptyHash, and_self]

theorem FirstStart.lives {cfg : NodeCfg} {g : Genesis} {n : Node} (h : FirstStart cfg g n) (ok : Node → NodeOp → Prop) : Lives cfg g ok n := by
  obtain ⟨s, t, h1, h2⟩ := h; exact .init h1 h2

theorem Runs.lives {cfg : NodeCfg} {g : Genesis} {ok ok' : Node → NodeOp → Prop} {n0 n : Node} (h0 : Lives cfg g ok' n0)
    (h : Runs cfg ok n0 n) (hok : ∀ n op, ok n op → ok' n op) : Lives cfg g ok' n := by
  induction h with
  | refl => exact h0
  | step op _ ho ih => exact .step op ih (hok _ _ ho)

/-- The transactions executed for an epoch are those it names, in its order. -/
theorem Lives.named {cfg : NodeCfg} {g : Genesis} {n : Node} (h : Lives cfg g (fun _ op => op.NotSync) n) :
    ∀ d ∈ n.log, d.txs.map SignedTx.txHash = d.epoch.orderedTxHashes := by
  induction h with
  | init h1 h2 => obtain ⟨e, -, -, -, -, h4, -⟩ := startNode_some h2; rw [h4]; intro d hd; cases hd
  | restart _ _ h2 _ => obtain ⟨e, -, -, -, -, h4, -⟩ := startNode_some h2; rw [h4]; intro d hd; cases hd
  | @step n op hl hok ih =>
    cases op with
    | sync io msg => exact hok.elim
    | insertTx o b tx => rw [(passive_step cfg n (.insertTx o b tx) trivial).2.2.2]; exact ih
    | propose now id => rw [(passive_step cfg n (.propose now id) trivial).2.2.2]; exact ih
    | check p1 p2 ha pill => rw [(passive_step cfg n (.check p1 p2 ha pill) trivial).2.2.2]; exact ih
    | commit io id pill proof =>
      show ∀ d ∈ (n.commit cfg io id pill proof).2.log, _
      cases commit_effect cfg io id pill proof n with
      | quiet _ _ _ h4 => rw [h4]; exact ih
      | proof _ _ _ _ h4 => rw [h4]; exact ih
      | failed _ _ _ _ _ _ _ h4 => rw [h4]; exact ih
      | done d hd _ _ _ h4 =>
        rw [h4]
        intro x hx
        rcases List.mem_cons.1 hx with rfl | hx
        · obtain ⟨ops, hp⟩ := hl.pool
          rw [hd.epoch]
          exact (C26_full_txs_exact _ _ _ ops hp _).2.1 _ hd.txs
        · exact ih x hx

theorem executes_core {env : Env} {w w' : World} {txs : List SignedTx} {resp : ExecResp} :
    Executes env w txs resp w' ↔ Executes env w (txs.map SignedTx.core) resp w' := by
  unfold Executes; rw [exec_core]

/-- What of a recorded epoch its execution depends on. -/
def Done.input (d : Done) : UInt64 × Epoch × List SignedTx := (d.height, d.epoch, d.txs.map SignedTx.core)

theorem replays_agree {a b : NodeCfg} (hc : OneChain a b) : ∀ {ds es : List Done} {w x y : World}, ds.map Done.input = es.map Done.input →
    Replays a w ds x → Replays b w es y → x = y ∧ ds.map Done.resp = es.map Done.resp := by
  intro ds
  induction ds with
  | nil =>
    intro es w x y he h1 h2
    cases es with
    | nil => cases h1; cases h2; exact ⟨rfl, rfl⟩
    | cons e es => cases he
  | cons d ds ih =>
    intro es w x y he h1 h2
    cases es with
    | nil => cases he
    | cons e es =>
      simp only [List.map_cons, List.cons.injEq] at he
      obtain ⟨hde, he⟩ := he
      simp only [Done.input, Prod.mk.injEq] at hde
      obtain ⟨hh, hep, htx⟩ := hde
      cases h1 with
      | cons h1 h1' =>
        cases h2 with
        | cons h2 h2' =>
          rw [executes_core] at h1 h2
          rw [hc.env, hc.price, ← hh, ← hep, ← htx] at h2
          obtain ⟨r1, c1⟩ := h1
          obtain ⟨r2, c2⟩ := h2
          rw [r1] at r2
          injection r2 with r2
          rw [← c1] at h1'
          rw [← c2] at h2'
          obtain ⟨i1, i2⟩ := ih he h1' h2'
          exact ⟨i1, by simp only [List.map_cons, r2, i2]⟩

theorem core_eq_of {ts us : List SignedTx} (hh : ts.map SignedTx.txHash = us.map SignedTx.txHash)
    (hid : ∀ t ∈ ts, ∀ u ∈ us, t.txHash = u.txHash → t.raw = u.raw ∧ t.pubkey = u.pubkey) : ts.map SignedTx.core = us.map SignedTx.core := by
  induction ts generalizing us with
  | nil => cases us with
    | nil => rfl
    | cons u us => cases hh
  | cons t ts ih =>
    cases us with
    | nil => cases hh
    | cons u us =>
      simp only [List.map_cons, List.cons.injEq] at hh
      obtain ⟨h1, h2⟩ := hh
      obtain ⟨h3, h4⟩ := hid t List.mem_cons_self u List.mem_cons_self h1
      have hc : t.core = u.core := by simp only [SignedTx.core, h1, h3, h4]
      rw [List.map_cons, List.map_cons, hc,
        ih h2 (fun t ht u hu => hid t (List.mem_cons_of_mem _ ht) u (List.mem_cons_of_mem _ hu))]

theorem inputs_eq {ds es : List Done} (hs : ds.map (fun d => (d.height, d.epoch)) = es.map (fun d => (d.height, d.epoch)))
    (hd : ∀ d ∈ ds, d.txs.map SignedTx.txHash = d.epoch.orderedTxHashes) (he : ∀ d ∈ es, d.txs.map SignedTx.txHash = d.epoch.orderedTxHashes)
    (hid : ∀ d ∈ ds, ∀ e ∈ es, ∀ t ∈ d.txs, ∀ u ∈ e.txs, t.txHash = u.txHash → t.raw = u.raw ∧ t.pubkey = u.pubkey) :
    ds.map Done.input = es.map Done.input := by
  induction ds generalizing es with
  | nil => cases es with
    | nil => rfl
    | cons u us => cases hs
  | cons d ds ih =>
    cases es with
    | nil => cases hs
    | cons e es =>
      simp only [List.map_cons, List.cons.injEq, Prod.mk.injEq] at hs
      obtain ⟨⟨h1, h2⟩, h3⟩ := hs
      have hin : d.input = e.input := by
        unfold Done.input
        rw [h1, h2, core_eq_of (us := e.txs) (by rw [hd d List.mem_cons_self, he e List.mem_cons_self, h2])
          (hid d List.mem_cons_self e List.mem_cons_self)]
      rw [List.map_cons, List.map_cons, hin, ih h3 (fun d h => hd d (List.mem_cons_of_mem _ h)) (fun d h => he d (List.mem_cons_of_mem _ h))
        (fun d h e h' => hid d (List.mem_cons_of_mem _ h) e (List.mem_cons_of_mem _ h'))]

/-- The roots of the status are those of the last epoch recorded. -/
theorem Runs.roots {cfg : NodeCfg} {n0 n : Node} (h : Runs cfg (fun _ op => op.NotSync) n0 n) (h0 : n0.log = []) :
    (n.log = [] ∧ n.status = n0.status ∧ n.store.latest = n0.store.latest) ∨ ∃ d rest st, n.log = d :: rest ∧
      n.status = Status.updated cfg st d.height d.epoch d.proof d.resp ∧ n.store.latest = some d.epoch := by
  induction h with
  | refl => exact .inl ⟨h0, rfl, rfl⟩
  | @step n op _ hok ih =>
    cases op with
    | sync io msg => exact hok.elim
    | insertTx o b tx => obtain ⟨a, -, c, d⟩ := passive_step cfg n (.insertTx o b tx) trivial; rw [a, c, d]; exact ih
    | propose now id => obtain ⟨a, -, c, d⟩ := passive_step cfg n (.propose now id) trivial; rw [a, c, d]; exact ih
    | check p1 p2 ha pill => obtain ⟨a, -, c, d⟩ := passive_step cfg n (.check p1 p2 ha pill) trivial; rw [a, c, d]; exact ih
    | commit io id pill proof =>
      simp only [Node.step]
      cases commit_effect cfg io id pill proof n with
      | quiet h1 _ h3 h4 => rw [h1, h3, h4]; exact ih
      | proof _ h1 _ h3 h4 => rw [h1, h3, h4]; exact ih
      | failed d j _ _ hj h1 h3 h4 => rw [h1, h3, h4, latest_take cfg d _ j hj]; exact ih
      | done d hd _ h1 h3 h4 => exact .inr ⟨d, n.log, n.status, h4, h3, by rw [h1]; rfl⟩

/-- The parts of two statuses that describe the chain are equal. -/
structure Status.Agrees (a b : Status) : Prop where
  epochId : a.epochId = b.epochId
  prevHash : a.prevHash = b.prevHash
  stateRoot : a.stateRoot = b.stateRoot
  orderRoot : a.orderRoot = b.orderRoot
  confirmRoot : a.confirmRoot = b.confirmRoot
  receiptRoot : a.receiptRoot = b.receiptRoot

theorem createGenesis_root {env : Env} {g : Genesis} {s s1 : St} {r : MerkleRoot} (hg : createGenesis env g s = (.ok r, s1)) :
    r = env.rootOf s1.committed := by
  unfold createGenesis at hg
  simp only at hg
  split at hg
  · cases hg
  · split at hg
    · cases hg
    · split at hg
      · cases hg
      · injection hg with hg1 hg2
        injection hg1 with hg1
        rw [← hg1, ← hg2]

/-- **C13 (genesis epoch).**  After the first start the node answers one epoch, the latest and the one of height zero: it has the configured
chain id and the timestamp of the genesis file, no transactions and no predecessor; its state root is the root of the state that genesis created;
every field that the genesis file does not give is zero, empty, or the hash of the empty trie. -/
theorem C13_genesis_epoch {cfg : NodeCfg} {g : Genesis} {n : Node} (h : FirstStart cfg g n) :
    ∃ e, n.queryEpoch none = some e ∧ n.queryEpoch (some 0) = some e ∧ (∀ i, i ≠ 0 → n.queryEpoch (some i) = none) ∧
      e.orderedTxHashes = [] ∧ e.header.chainId = cfg.chainId ∧ e.header.epochId = 0 ∧ e.header.timestamp = g.timestamp ∧
      e.header.preHash = cfg.emptyHash ∧ e.header.orderRoot = cfg.emptyHash ∧ e.header.confirmRoot = [] ∧ e.header.receiptRoot = [cfg.emptyHash] ∧
      e.header.stateRoot = n.status.stateRoot ∧ e.header.cyclesUsed = 0 ∧ e.header.proposer.body = List.replicate 20 0 ∧ e.header.validators = [] ∧
      e.header.validatorVersion = 0 ∧ e.header.logsBloom = Bloom.zero ∧
      e.header.proof = { epochId := 0, round := 0, epochHash := cfg.emptyHash, signature := [], bitmap := [] } := by
  obtain ⟨s, t, h1, h2⟩ := h
  obtain ⟨root, hr, hs⟩ := handleInit_empty h1
  obtain ⟨e, hl, hst, htr, hstat, -⟩ := startNode_some h2
  have hl' : s.latest = some (cfg.genesisEpoch g.timestamp root) := by rw [hs]; rfl
  rw [hl'] at hl; cases hl
  refine ⟨_, by rw [Node.queryEpoch, hst]; exact hl', by rw [Node.queryEpoch, hst, hs]; rfl, fun i hi => ?_, rfl, rfl, rfl, rfl, rfl, rfl, rfl, rfl,
    by rw [hstat]; rfl, rfl, rfl, rfl, rfl, rfl, rfl⟩
  rw [Node.queryEpoch, hst, hs]
  show (if i = 0 then _ else none) = none
  rw [if_neg hi]

/-- **C13, for the node.**  A node started for the first time works on the state that the genesis creates: the state root of its
status and of its epoch 0 is the root of that world, its database can reproduce it, and a balance asked for through the API, at the
latest epoch or at epoch 0, is the amount the genesis allocates. -/
theorem C13_first_start {cfg : NodeCfg} {g : Genesis} {n : Node} (he : EmptyRoot cfg n) (h : FirstStart cfg g n) :
    ∃ w, CreatesGenesis (cfg.env 0 cfg.cyclesPrice (.user cfg.selfAddress)) g w ∧ n.status.stateRoot = cfg.rootOf w ∧
      Resolves cfg n.tries n.status.stateRoot w ∧ n.status.epochId = 1 ∧
      ∀ a id, n.apiBalance cfg a id none = allocated g a id ∧ n.apiBalance cfg a id (some 0) = allocated g a id := by
  obtain ⟨s, t, h1, h2⟩ := h
  obtain ⟨root, hr, hs⟩ := handleInit_empty h1
  obtain ⟨e, hl, hst, htr, hstat, -⟩ := startNode_some h2
  have hl' : s.latest = some (cfg.genesisEpoch g.timestamp root) := by rw [hs]; rfl
  have he0 : s.epochs 0 = some (cfg.genesisEpoch g.timestamp root) := by rw [hs]; rfl
  rw [hl'] at hl; cases hl
  have hsr : n.status.stateRoot = root := by rw [hstat]; rfl
  have hid : n.status.epochId = 1 := by rw [hstat]; rfl
  unfold runGenesis at hr
  split at hr
  · cases hr
  · rename_i s0 hs0
    have hs0 : s0 = St.open World.empty := by
      unfold fromRoot at hs0
      rw [if_pos rfl] at hs0
      injection hs0 with hs0
      exact hs0.symm
    split at hr
    · rename_i r s1 hg
      simp only [Prod.mk.injEq, Option.some.injEq, Except.ok.injEq] at hr
      obtain ⟨rfl, hdb⟩ := hr
      rw [hs0] at hg
      have hcg : CreatesGenesis (cfg.env 0 cfg.cyclesPrice (.user cfg.selfAddress)) g s1.committed :=
        ⟨⟨r, by rw [hg]⟩, by rw [hg]⟩
      have hroot : r = cfg.rootOf s1.committed := createGenesis_root hg
      have hres : Resolves cfg n.tries r s1.committed := by
        have hput := htr
        rw [← hdb] at hput
        rw [htr, ← hdb, hroot]
        exact resolves_put (he.of_put hput) _
      refine ⟨s1.committed, hcg, hsr.trans hroot, by rw [hsr]; exact hres, hid, fun a id => ⟨?_, ?_⟩⟩
      · rw [← C13_genesis_balances hcg]
        exact apiBalance_resolves (e := cfg.genesisEpoch g.timestamp r) (by show n.store.latest = _; rw [hst]; exact hl') hres a id
      · rw [← C13_genesis_balances hcg]
        exact apiBalance_resolves (e := cfg.genesisEpoch g.timestamp r) (by show n.store.epochs 0 = _; rw [hst]; exact he0) hres a id
    · cases hr

theorem firstStart_resolves {cfg : NodeCfg} {g : Genesis} {n : Node} (he : EmptyRoot cfg n) (h : FirstStart cfg g n) :
    ∃ w, Resolves cfg n.tries n.status.stateRoot w := by
  obtain ⟨w, -, -, h, -⟩ := C13_first_start he h
  exact ⟨w, h⟩

open Demo in
/-- The demo node starts so, with 100 for user 1. -/
example : EmptyRoot ncfg n0 ∧ FirstStart ncfg ngenesis n0 ∧ allocated ngenesis (naddr 1) token = 100 :=
  ⟨ncfg_emptyRoot (by decide +kernel), n0_start, by decide +kernel⟩

/-- **C88 (partial: without synchronisation and restart, and for transactions that their hash identifies; see `C88_refuted`).**  Two
nodes of one chain, started from the same genesis, that recorded the same epochs at the same heights, have computed the same receipts
and state roots for each of them, agree on everything their next proposals say about the chain, and are at the same world - whatever
else happened to them: other transactions pooled, other proposals checked, failed commits, in any order. -/
theorem C88_agreement_partial {a b : NodeCfg} (hc : OneChain a b) {g : Genesis} {n0 m0 n m : Node} (hempty : EmptyRoot a n) (hemptyb : EmptyRoot b m)
    (hn0 : FirstStart a g n0) (hm0 : FirstStart b g m0)
    (hn : Runs a (fun n op => op.NotSync ∧ KeepsRoots a n op) n0 n) (hm : Runs b (fun n op => op.NotSync ∧ KeepsRoots b n op) m0 m)
    (hsame : n.log.map (fun d => (d.height, d.epoch)) = m.log.map (fun d => (d.height, d.epoch)))
    (hid : ∀ d ∈ n.log, ∀ e ∈ m.log, ∀ t ∈ d.txs, ∀ u ∈ e.txs, t.txHash = u.txHash → t.raw = u.raw ∧ t.pubkey = u.pubkey) :
    n.log.map Done.resp = m.log.map Done.resp ∧ n.status.Agrees m.status ∧ n.store.latest = m.store.latest ∧
    ∃ w, Resolves a n.tries n.status.stateRoot w ∧ Resolves b m.tries m.status.stateRoot w := by
  obtain ⟨ht, hlat, hi1, hi2, hi3, hi4, hi5, hi6⟩ := firstStart_agree hc hn0 hm0
  obtain ⟨w0, hw0⟩ := firstStart_resolves (hn.emptyRoot (fun _ _ hok => hok.2) hempty) hn0
  have hw0' : Resolves b m0.tries m0.status.stateRoot w0 := by
    unfold Resolves at hw0 ⊢; rw [ht, hi3, hc.emptyHash]; exact hw0
  have start : ∀ {c : NodeCfg} {k : Node}, FirstStart c g k → k.log = [] ∧ k.status.cyclesPrice = c.cyclesPrice := by
    intro c k hk
    obtain ⟨s, t, -, h2⟩ := hk
    obtain ⟨e, -, -, -, h3, h4, -⟩ := startNode_some h2
    exact ⟨h4, by rw [h3]; rfl⟩
  have hruns : ∀ {c : NodeCfg} {k0 k : Node}, Runs c (fun n op => op.NotSync ∧ KeepsRoots c n op) k0 k → Runs c (fun _ op => op.NotSync) k0 k := by
    intro c k0 k h
    induction h with
    | refl => exact .refl
    | step op _ ho ih => exact .step op ih ho.1
  obtain ⟨w, hr, hw⟩ := C36_replay_partial hempty (start hn0).1 (start hn0).2 hw0 hn
  obtain ⟨x, hr', hx⟩ := C36_replay_partial hemptyb (start hm0).1 (start hm0).2 hw0' hm
  have hnamed := ((hruns hn).lives (hn0.lives _) (fun _ _ h => h)).named
  have hnamed' := ((hruns hm).lives (hm0.lives _) (fun _ _ h => h)).named
  have hin := inputs_eq hsame hnamed hnamed' hid
  obtain ⟨rfl, hresp⟩ := replays_agree hc (by rw [List.map_reverse, List.map_reverse, hin]) hr hr'
  have hresp : n.log.map Done.resp = m.log.map Done.resp := by
    rw [List.map_reverse, List.map_reverse] at hresp
    exact List.reverse_injective hresp
  refine ⟨hresp, ?_, ?_, w, hw, hx⟩
  all_goals
    rcases (hruns hn).roots (start hn0).1 with ⟨e1, e2, e3⟩ | ⟨d, rest, st, e1, e2, e3⟩ <;>
      rcases (hruns hm).roots (start hm0).1 with ⟨f1, f2, f3⟩ | ⟨d', rest', st', f1, f2, f3⟩
  · rw [e2, f2]; exact ⟨hi1.symm, hi2.symm, hi3.symm, hi4.symm, hi5.symm, hi6.symm⟩
  · rw [e1, f1] at hsame; cases hsame
  · rw [e1, f1] at hsame; cases hsame
  · rw [e1, f1] at hsame hresp
    simp only [List.map_cons, List.cons.injEq, Prod.mk.injEq] at hsame hresp
    obtain ⟨⟨hh, he⟩, -⟩ := hsame
    rw [e2, f2]
    simp only [Status.updated, NodeCfg.epochHash, NodeCfg.merkle, hc.digest, hc.layout, hc.emptyHash, hh, he, hresp.1]
    exact ⟨rfl, rfl, rfl, rfl, rfl, rfl⟩
  · rw [e3, f3, hlat]
  · rw [e1, f1] at hsame; cases hsame
  · rw [e1, f1] at hsame; cases hsame
  · rw [e1, f1] at hsame
    simp only [List.map_cons, List.cons.injEq, Prod.mk.injEq] at hsame
    rw [e3, f3, hsame.1.2]

/-! ### The refutation: one hash, two senders -/

namespace Demo

/-- The demo configuration with a signature scheme in which everyone can sign only for his own key. -/
def scfg : NodeCfg := { ncfg with sigOk := fun h sig pk => decide (sig = pk ++ h.bytes) }

/-- The owner of key `k` signs a payment of 10 to user 3. -/
def spay (k : UInt8) : SignedTx := { npay 1 3 10 with pubkey := [k], signature := [k] ++ (npay 1 3 10).txHash.bytes }

/-- Node A gets the transaction signed with key 1 and proposes, node B gets it signed with key 2. -/
def splitA : Node := n0.step scfg (.insertTx false true (spay 1))
def splitB : Node := n0.step scfg (.insertTx false true (spay 2))
def splitPill : Pill := match (splitA.getEpoch scfg 7 1).1 with
  | .ok (pill, _) => pill
  | .error _ => noPill
def splitHash : Bytes := (scfg.digest (encode splitPill)).bytes
def proposedA : Node := splitA.step scfg (.propose 7 1)
def checkedB : Node := splitB.step scfg (.check noPull noPull splitHash splitPill)
def committedA : Node := proposedA.step scfg (.commit .ok 1 splitPill (oproof 1))
def committedB : Node := checkedB.step scfg (.commit .ok 1 splitPill (oproof 1))

theorem n0_first : FirstStart scfg ngenesis n0 := n0_start

theorem passive_keeps (cfg : NodeCfg) (n : Node) (op : NodeOp) (h : op.Passive) : op.NotSync ∧ KeepsRoots cfg n op :=
  ⟨by cases op <;> first | exact h.elim | trivial, fun r w hw => by rw [(passive_step cfg n op h).2.1]; exact hw⟩

theorem regular_keeps {n m : Node} (h : Runs ncfg (Regular ncfg) n m) : Runs ncfg (fun n op => op.NotSync ∧ KeepsRoots ncfg n op) n m := by
  induction h with
  | refl => exact .refl
  | step op _ hok ih => exact .step op ih ⟨by cases op <;> first | exact hok.honest.elim | trivial, hok.keeps⟩

/-- `k` differs from `n` in its pool only. -/
def Passively (n k : Node) : Prop := k.tries = n.tries ∧ k.status = n.status ∧ k.log = n.log

theorem Passively.step (cfg : NodeCfg) {n k : Node} (h : Passively n k) (op : NodeOp) (hp : op.Passive) : Passively n (k.step cfg op) := by
  obtain ⟨-, a, b, c⟩ := passive_step cfg k op hp
  exact ⟨a.trans h.1, b.trans h.2.1, c.trans h.2.2⟩

/-- A commit of the examples that records an epoch under a root not in use keeps the roots. -/
theorem commit_keeps (cfg : NodeCfg) {n k : Node} (he : Passively n k) (hp : n.status.cyclesPrice = cfg.cyclesPrice)
    (hr : n.status.stateRoot ≠ cfg.emptyHash ∧ (n.tries n.status.stateRoot).isSome = true) (id : UInt64) (pill : Pill) (pr : OverlordProof)
    (hlen : (k.step cfg (.commit .ok id pill pr)).log.length ≠ n.log.length)
    (hf : (n.tries (k.step cfg (.commit .ok id pill pr)).status.stateRoot).isNone = true) :
    NodeOp.NotSync (.commit .ok id pill pr) ∧ KeepsRoots cfg k (.commit .ok id pill pr) := by
  obtain ⟨e2, e3, e4⟩ := he
  obtain ⟨w, hw⟩ := Option.isSome_iff_exists.1 hr.2
  refine ⟨trivial, keeps_commit (w := w) (by rw [e3]; exact hp) (by rw [e2, e3]; unfold Resolves; rw [if_neg hr.1]; exact hw) ?_ ?_⟩
  · rw [e4]; exact hlen
  · rw [e2]; exact Option.isNone_iff_eq_none.1 hf

/-- Node B of the example: another address, another transaction in its pool, and the payment got from a peer with
another signature. -/
def bcfg : NodeCfg := { ncfg with selfAddress := nuser 98 }
def resigned : SignedTx := { npay 1 2 10 with signature := [7] }
def otherPulled : Node := (n0.step bcfg (.insertTx true true (npay 2 1 5 1))).step bcfg
  (.check (fun _ => none) (fun _ => some [resigned]) [] (proposal (inserted n0 [npay 1 2 10])))
def otherDone : Node := otherPulled.step bcfg (.commit .ok n0.status.epochId (proposal (inserted n0 [npay 1 2 10])) (oproof n0.status.epochId))

theorem n0_first_other : FirstStart bcfg ngenesis n0 := by
  obtain ⟨s, t, h1, h2⟩ := n0_start
  refine ⟨s, t, ?_, h2⟩
  rw [← h1]
  exact handleInit_self ncfg (nuser 98) ngenesis _ _

theorem otherPulled_passive : Passively n0 otherPulled :=
  (Passively.step bcfg ⟨rfl, rfl, rfl⟩ (.insertTx true true (npay 2 1 5 1)) trivial).step bcfg (.check _ _ _ _) trivial

theorem otherDone_runs : Runs bcfg (fun n op => op.NotSync ∧ KeepsRoots bcfg n op) n0 otherDone := by
  have h1 : Runs bcfg (fun n op => op.NotSync ∧ KeepsRoots bcfg n op) n0 otherPulled :=
    .step _ (.step _ .refl (passive_keeps bcfg _ _ trivial)) (passive_keeps bcfg _ _ trivial)
  refine .step _ h1 (commit_keeps bcfg otherPulled_passive n0_price (by decide +kernel) _ _ _ (by decide +kernel) (by decide +kernel))

end Demo

open Demo in
/-- The hypotheses of `C88_agreement_partial` are met by two nodes, of which one proposed the epoch and the other pulled its
transaction, with another signature, from a peer. -/
example : OneChain ncfg bcfg ∧ EmptyRoot ncfg n1 ∧ EmptyRoot bcfg otherDone ∧ FirstStart ncfg ngenesis n0 ∧ FirstStart bcfg ngenesis n0 ∧
    Runs ncfg (fun n op => op.NotSync ∧ KeepsRoots ncfg n op) n0 n1 ∧ Runs bcfg (fun n op => op.NotSync ∧ KeepsRoots bcfg n op) n0 otherDone ∧
    n1.log.map (fun d => (d.height, d.epoch)) = otherDone.log.map (fun d => (d.height, d.epoch)) ∧
    n1.log.map Done.txs = [[npay 1 2 10]] ∧ otherDone.log.map Done.txs = [[resigned]] :=
  ⟨⟨rfl, rfl, rfl, rfl, rfl, rfl⟩, ncfg_emptyRoot (by decide +kernel), ncfg_emptyRoot (by decide +kernel), n0_start, n0_first_other, regular_keeps n1_runs.1, otherDone_runs, by decide +kernel, by decide +kernel,
    by decide +kernel⟩

open Demo in
set_option linter.constructorNameAsVariable false in
/-- **C88 is false of the code as it stands.**  The hash of a transaction covers neither its public key nor its signature, but the
sender is computed from the public key.  The owner of two keys signs one payment with both and submits it to two nodes, one version
to each.  Both admit it; one proposes it, the other finds the hash in its pool and accepts the proposal; both commit the same epoch
successfully - and one has taken the 10 from user 1, the other from user 2.  (No peer misbehaves, and no signature is forged: every
signature accepted here is the key's owner's.) -/
theorem C88_refuted : ∃ (cfg : NodeCfg) (g : Genesis) (n0 a1 b1 a2 b2 a b : Node) (tx ty : SignedTx) (pill : Pill) (hash : Bytes) (proof : OverlordProof) (wa wb : World),
    FirstStart cfg g n0 ∧ (∀ h sig pk, cfg.sigOk h sig pk = true ↔ sig = pk ++ h.bytes) ∧
    (n0.pool.insert cfg.mem (n0.view cfg (fun _ => none) true) false tx).1 = .ok () ∧ a1 = n0.step cfg (.insertTx false true tx) ∧
    (n0.pool.insert cfg.mem (n0.view cfg (fun _ => none) true) false ty).1 = .ok () ∧ b1 = n0.step cfg (.insertTx false true ty) ∧
    a1.getEpoch cfg 7 1 = (.ok (pill, hash), a2) ∧ b1.checkEpoch cfg noPull noPull hash pill = (.ok [ty], b2) ∧
    a2.commit cfg .ok 1 pill proof = (.ok 2, a) ∧ b2.commit cfg .ok 1 pill proof = (.ok 2, b) ∧
    a.log.map (fun d => (d.height, d.epoch)) = b.log.map (fun d => (d.height, d.epoch)) ∧ a.status.prevHash = b.status.prevHash ∧
    a.status.stateRoot ≠ b.status.stateRoot ∧ Resolves cfg a.tries a.status.stateRoot wa ∧ Resolves cfg b.tries b.status.stateRoot wb ∧
    balance wa (naddr 1) token = 90 ∧ balance wb (naddr 1) token = 100 ∧ balance wa (naddr 2) token = 50 ∧ balance wb (naddr 2) token = 40 := by
  have ok_of : ∀ {ε α : Type} (x : Except ε α) (v : α), x.toOption = some v → x = .ok v := by
    intro ε α x v h
    cases x with
    | error e => cases h
    | ok y => simp only [Except.toOption, Option.some.injEq] at h; rw [h]
  have h1 : (n0.pool.insert scfg.mem (n0.view scfg (fun _ => none) true) false (spay 1)).1.toOption = some () := by decide +kernel
  have h2 : (n0.pool.insert scfg.mem (n0.view scfg (fun _ => none) true) false (spay 2)).1.toOption = some () := by decide +kernel
  have h3 : (splitA.getEpoch scfg 7 1).1.toOption = some (splitPill, splitHash) := by decide +kernel
  have h4 : (splitB.checkEpoch scfg noPull noPull splitHash splitPill).1.toOption = some [spay 2] := by decide +kernel
  have h5 : (proposedA.commit scfg .ok 1 splitPill (oproof 1)).1.toOption = some 2 := by decide +kernel
  have h6 : (checkedB.commit scfg .ok 1 splitPill (oproof 1)).1.toOption = some 2 := by decide +kernel
  have h7 : committedA.log.map (fun d => (d.height, d.epoch)) = committedB.log.map (fun d => (d.height, d.epoch)) := by decide +kernel
  have h8 : committedA.status.prevHash = committedB.status.prevHash := by decide +kernel
  have h9 : committedA.status.stateRoot ≠ committedB.status.stateRoot := by decide +kernel
  have ha : ((committedA.tries committedA.status.stateRoot).map fun w => (balance w (naddr 1) token, balance w (naddr 2) token)) = some (90, 50) := by decide +kernel
  have hb : ((committedB.tries committedB.status.stateRoot).map fun w => (balance w (naddr 1) token, balance w (naddr 2) token)) = some (100, 40) := by decide +kernel
  have hea : committedA.status.stateRoot ≠ scfg.emptyHash ∧ committedB.status.stateRoot ≠ scfg.emptyHash := by decide +kernel
  obtain ⟨wa, hwa, hba⟩ := Option.map_eq_some_iff.1 ha
  obtain ⟨wb, hwb, hbb⟩ := Option.map_eq_some_iff.1 hb
  simp only [Prod.mk.injEq] at hba hbb
  have k1 : (n0.pool.insert scfg.mem (n0.view scfg (fun _ => none) true) false (spay 1)).1 = .ok () := ok_of _ _ h1
  have k2 : (n0.pool.insert scfg.mem (n0.view scfg (fun _ => none) true) false (spay 2)).1 = .ok () := ok_of _ _ h2
  have k3 : splitA.getEpoch scfg 7 1 = (.ok (splitPill, splitHash), proposedA) := Prod.ext (ok_of _ _ h3) (by simp only [proposedA, Node.step])
  have k4 : splitB.checkEpoch scfg noPull noPull splitHash splitPill = (.ok [spay 2], checkedB) := Prod.ext (ok_of _ _ h4) (by simp only [checkedB, Node.step])
  have k5 : proposedA.commit scfg .ok 1 splitPill (oproof 1) = (.ok 2, committedA) := Prod.ext (ok_of _ _ h5) (by simp only [committedA, Node.step])
  have k6 : checkedB.commit scfg .ok 1 splitPill (oproof 1) = (.ok 2, committedB) := Prod.ext (ok_of _ _ h6) (by simp only [committedB, Node.step])
  have k7 : splitA = n0.step scfg (.insertTx false true (spay 1)) := rfl
  have k8 : splitB = n0.step scfg (.insertTx false true (spay 2)) := rfl
  have r1 : Resolves scfg committedA.tries committedA.status.stateRoot wa := by unfold Resolves; rw [if_neg hea.1]; exact hwa
  have r2 : Resolves scfg committedB.tries committedB.status.stateRoot wb := by unfold Resolves; rw [if_neg hea.2]; exact hwb
  have hs : ∀ h sig pk, scfg.sigOk h sig pk = true ↔ sig = pk ++ h.bytes := fun h sig pk => decide_eq_true_iff
  have hf := n0_first
  clear h1 h2 h3 h4 h5 h6 ha hb hea ok_of hwa hwb
  generalize splitA = a1, splitB = b1, proposedA = a2, checkedB = b2, committedA = a, committedB = b, n0 = n0, scfg = cfg, splitPill = pill,
    splitHash = hash, spay 1 = tx, spay 2 = ty, oproof 1 = proof, ngenesis = g at *
  exact ⟨cfg, g, n0, a1, b1, a2, b2, a, b, tx, ty, pill, hash, proof, wa, wb, hf, hs, k1, k7, k2, k8, k3, k4, k5, k6, h7, h8, h9, r1, r2,
    hba.1, hbb.1, hba.2, hbb.2⟩

end Huobi
