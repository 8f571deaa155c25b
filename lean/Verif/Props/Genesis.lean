import Verif.Props.Executor
/-
C13 (genesis), C15 (determinism over a shared database), C11 (state adapter).
-/
namespace Huobi

/-! ## C13 -/

/-- The amount a genesis description gives to account `a` in asset `id`: the sum over all allocations to `a` of their
entries for `id`. -/
def allocated (g : Genesis) (a : Address) (id : AssetID) : Nat :=
  (g.stateAlloc.map (fun al =>
    if Address.fromHex al.address.toList = some a then
      (al.assets.map (fun x =>
        if Hash.fromHex x.assetId.toList = some id then
          match hexDecode x.balance.toList with
          | some b => natOfBE b
          | none => 0
        else 0)).sum
    else 0)).sum

/-- The id under which genesis registers the system token with the given code. -/
def systemTokenId (env : Env) (code : Bytes) : AssetID :=
  env.digest (env.chainId.bytes ++ (ContractAddress.fromCode env.digest code 0 .asset).toBytes)

theorem genesisAssets_spec {env : Env} {a : Address} {xs : List GenesisStateAsset} {s s' : St}
    (h : genesisAssets env a xs s = (.ok (), s')) :
    (∀ b id, balance s'.view b id = balance s.view b id +
      if a = b then (xs.map (fun x =>
        if Hash.fromHex x.assetId.toList = some id then
          match hexDecode x.balance.toList with
          | some b => natOfBE b
          | none => 0
        else 0)).sum else 0) ∧
    (∀ b, nonceOf s'.view b = nonceOf s.view b) ∧ s'.view.assets = s.view.assets ∧
    (∀ b, s'.view.HasAccount b ↔ s.view.HasAccount b ∨ (a = b ∧ xs ≠ [])) ∧
    (s.view.WellTyped → s'.view.WellTyped) := by
  induction xs generalizing s with
  | nil =>
    simp only [genesisAssets, Prod.mk.injEq] at h
    obtain ⟨-, rfl⟩ := h
    simp
  | cons x xs ih =>
    simp only [genesisAssets] at h
    cases hid : Hash.fromHex x.assetId.toList with
    | none => simp [hid] at h
    | some id0 =>
      cases hb : hexDecode x.balance.toList with
      | none => simp [hid, hb] at h
      | some bytes =>
        simp only [hid, hb] at h
        obtain ⟨h1, h2, h3, h4, h5⟩ := ih h
        have hv : (addBalance env id0 a (natOfBE bytes) s).view =
            s.view.setAcc a (creditAccount id0 (natOfBE bytes) (s.view.findOrCreate env a)) := by
          rw [addBalance_eq, St.view_putAccount]
        refine ⟨?_, ?_, ?_, ?_, ?_⟩
        · intro b id
          rw [h1 b id, hv, balance_setAcc, balance_credit, balance_findOrCreate]
          by_cases hab : a = b
          · subst hab
            simp only [if_true, List.map_cons, List.sum_cons, hid, hb, Option.some.injEq]
            by_cases hj : id = id0
            · subst hj; simp; omega
            · have : ¬ id0 = id := fun e => hj e.symm
              simp [hj, this]
          · have : ¬ b = a := fun e => hab e.symm
            simp [hab, this]
        · intro b
          rw [h2 b, hv, nonceOf_setAcc, nonce_credit, nonce_findOrCreate]
          split
          · rename_i h; rw [h]
          · rfl
        · rw [h3, hv]; rfl
        · intro b
          rw [h4 b, hv]
          unfold World.HasAccount
          rw [World.accounts_setAcc]
          by_cases hab : b = a
          · subst hab; simp
          · have : ¬ a = b := fun e => hab e.symm
            simp [hab, this]
        · intro hw
          apply h5
          rw [hv]
          apply wellTyped_setAcc hw
          intro u hu
          subst hu
          obtain ⟨y, hy⟩ := findOrCreate_user (env := env) hw u
          rw [hy]; exact ⟨_, rfl⟩

theorem genesisAllocs_spec {env : Env} {xs : List GenesisStateAlloc} {s s' : St}
    (h : genesisAllocs env xs s = (.ok (), s')) :
    (∀ b id, balance s'.view b id = balance s.view b id +
      (xs.map (fun al =>
        if Address.fromHex al.address.toList = some b then
          (al.assets.map (fun x =>
            if Hash.fromHex x.assetId.toList = some id then
              match hexDecode x.balance.toList with
              | some b => natOfBE b
              | none => 0
            else 0)).sum
        else 0)).sum) ∧
    (∀ b, nonceOf s'.view b = nonceOf s.view b) ∧ s'.view.assets = s.view.assets ∧
    (∀ b, s'.view.HasAccount b ↔ s.view.HasAccount b ∨
      ∃ al ∈ xs, Address.fromHex al.address.toList = some b ∧ al.assets ≠ []) ∧
    (s.view.WellTyped → s'.view.WellTyped) := by
  induction xs generalizing s with
  | nil =>
    simp only [genesisAllocs, Prod.mk.injEq] at h
    obtain ⟨-, rfl⟩ := h
    simp
  | cons x xs ih =>
    simp only [genesisAllocs] at h
    cases ha : Address.fromHex x.address.toList with
    | none => simp [ha] at h
    | some a =>
      simp only [ha] at h
      cases hg : genesisAssets env a x.assets s with
      | mk res s1 =>
        rw [hg] at h
        cases res with
        | error f => simp at h
        | ok u =>
          simp only [] at h
          obtain ⟨g1, g2, g3, g4, g5⟩ := genesisAssets_spec hg
          obtain ⟨h1, h2, h3, h4, h5⟩ := ih h
          refine ⟨?_, ?_, by rw [h3, g3], ?_, fun hw => h5 (g5 hw)⟩
          · intro b id
            rw [h1 b id, g1 b id]
            simp only [List.map_cons, List.sum_cons, ha, Option.some.injEq]
            omega
          · intro b; rw [h2 b, g2 b]
          · intro b
            rw [h4 b, g4 b]
            simp only [List.mem_cons, exists_eq_or_imp, ha, Option.some.injEq, or_assoc]

theorem createsGenesis_spec {env : Env} {g : Genesis} {w : World} (h : CreatesGenesis env g w) :
    ∃ code, hexDecode g.systemToken.code.toList = some code ∧
      (∀ a id, balance w a id = allocated g a id) ∧ (∀ a, nonceOf w a = 0) ∧ w.WellTyped ∧
      (∀ a, w.HasAccount a ↔ ∃ al ∈ g.stateAlloc, Address.fromHex al.address.toList = some a ∧ al.assets ≠ []) ∧
      w.assets = PMap.set PMap.empty (systemTokenId env code)
        { id := systemTokenId env code, name := g.systemToken.name, symbol := g.systemToken.symbol,
          supply := g.systemToken.supply.toNat,
          manageContract := ContractAddress.fromCode env.digest code 0 .asset, storageRoot := env.emptyHash } := by
  obtain ⟨⟨root, hroot⟩, hw⟩ := h
  simp only [createGenesis] at hroot hw
  generalize (999999999999 : UInt64) = lim at hroot hw
  cases hc : hexDecode g.systemToken.code.toList with
  | none => simp [hc] at hroot
  | some code =>
    simp only [hc] at hroot hw
    refine ⟨code, rfl, ?_⟩
    generalize hr : bankRegister env _ _ _ _ lim _ = y at hroot hw
    cases y with
    | mk res s1 =>
      cases res with
      | error f => simp at hroot
      | ok asset =>
        simp only [] at hroot hw
        cases hg : genesisAllocs env g.stateAlloc s1 with
        | mk res2 s2 =>
          rw [hg] at hroot hw
          cases res2 with
          | error f => simp at hroot
          | ok u =>
            simp only [] at hroot hw
            rw [St.committed_commit, St.base_stash] at hw
            -- the state after registration
            have hs1 : s1.view.accounts = PMap.empty ∧ s1.view.assets = PMap.set PMap.empty (systemTokenId env code)
                { id := systemTokenId env code, name := g.systemToken.name, symbol := g.systemToken.symbol,
                  supply := g.systemToken.supply.toNat,
                  manageContract := ContractAddress.fromCode env.digest code 0 .asset,
                  storageRoot := env.emptyHash } := by
              simp only [bankRegister] at hr
              split at hr
              · simp at hr
              · split at hr
                · simp at hr
                · split at hr
                  · simp at hr
                  · simp only [Prod.mk.injEq] at hr
                    obtain ⟨-, rfl⟩ := hr
                    constructor
                    · simp only [St.view]
                      rw [show (St.open World.empty).acc = Layers.ofTrie PMap.empty from rfl, Layers.get_ofTrie]
                    · simp only [St.view]
                      rw [Layers.get_insertCache]
                      rw [show (St.open World.empty).bank = Layers.ofTrie PMap.empty from rfl, Layers.get_ofTrie]
                      rfl
            obtain ⟨h1, h2, h3, h4, h5⟩ := genesisAllocs_spec hg
            subst hw
            have hb0 : ∀ a id, balance s1.view a id = 0 := by
              intro a id; simp [balance, hs1.1, PMap.empty]
            refine ⟨?_, ?_, ?_, ?_, ?_⟩
            · intro a id; rw [h1 a id, hb0]; simp [allocated]
            · intro a; rw [h2 a]; simp [nonceOf, hs1.1, PMap.empty]
            · apply h5; intro u acc hacc; rw [hs1.1] at hacc; simp [PMap.empty] at hacc
            · intro a; rw [h4 a]; simp [World.HasAccount, hs1.1, PMap.empty]
            · rw [h3, hs1.2]

/-- **C13 (balances).**  After genesis every account holds exactly the sum of its allocations, in every asset. -/
theorem C13_genesis_balances {env : Env} {g : Genesis} {w : World} (h : CreatesGenesis env g w) (a : Address)
    (id : AssetID) : balance w a id = allocated g a id := by
  obtain ⟨code, -, hb, -⟩ := createsGenesis_spec h
  exact hb a id

/-- **C13 (system token).**  Exactly one asset is registered: the system token, with the configured name, symbol and
supply, under its own id. -/
theorem C13_genesis_token {env : Env} {g : Genesis} {w : World} (h : CreatesGenesis env g w) :
    ∃ id x, w.assets id = some x ∧ x.id = id ∧ x.name = g.systemToken.name ∧ x.symbol = g.systemToken.symbol ∧
      x.supply = g.systemToken.supply.toNat ∧ ∀ j, j ≠ id → w.assets j = none := by
  obtain ⟨code, -, -, -, -, -, ha⟩ := createsGenesis_spec h
  refine ⟨systemTokenId env code, _, by rw [ha]; simp only [PMap.set, if_true]; rfl, rfl, rfl, rfl, rfl, ?_⟩
  intro j hj
  rw [ha]
  simp [PMap.set, hj, PMap.empty]

/-- C13: all nonces are zero and an account exists iff some allocation to it lists at least one asset. -/
theorem C13_genesis_accounts {env : Env} {g : Genesis} {w : World} (h : CreatesGenesis env g w) :
    (∀ a, nonceOf w a = 0) ∧
    ∀ a, w.HasAccount a ↔ ∃ al ∈ g.stateAlloc, Address.fromHex al.address.toList = some a ∧ al.assets ≠ [] := by
  obtain ⟨code, -, -, hn, -, hacc, -⟩ := createsGenesis_spec h
  exact ⟨hn, hacc⟩

namespace Demo

/-- Hex of user 1 and of the gold asset id used in the genesis examples. -/
def hexUser1 : String := "100100000000000000000000000000000000000000"
def hexGold : String := "0700000000000000000000000000000000000000000000000000000000000000"

/-- Genesis giving user 1 twice 0x10 of an asset that is not the system token; supply 1000. -/
def genesis : Genesis :=
  { timestamp := 0, prevhash := "", systemToken := ⟨"abcd", "Huobi Token", "HT", 1000⟩
    stateAlloc := [⟨hexUser1, [⟨hexGold, "10"⟩, ⟨hexGold, "0100"⟩]⟩, ⟨hexUser1, [⟨hexGold, "01"⟩]⟩] }

/-- The world genesis commits. -/
def genesisWorld : World := (createGenesis env genesis (St.open World.empty)).2.committed

end Demo

theorem demo_genesis : CreatesGenesis Demo.env Demo.genesis Demo.genesisWorld := by
  refine ⟨?_, rfl⟩
  have : (createGenesis Demo.env Demo.genesis (St.open World.empty)).1.isOk = true := by decide +kernel
  cases h : (createGenesis Demo.env Demo.genesis (St.open World.empty)).1 with
  | ok r => exact ⟨r, rfl⟩
  | error f => rw [h] at this; simp [Except.isOk, Except.toBool] at this

example : balance Demo.genesisWorld (Demo.addr 1) Demo.gold = 0x111 := by decide +kernel

/-- **C13 is false for the supply.**  Genesis accepts a description that allocates none of the declared supply of the
system token: the supply is recorded but nobody holds it. -/
theorem C13_supply_refuted :
    ∃ (id : AssetID) (x : Asset), Demo.genesisWorld.assets id = some x ∧ x.supply = 1000 ∧
      TotalIs Demo.genesisWorld id 0 := by
  obtain ⟨id, x, hx, hid, -, -, hs, hno⟩ := C13_genesis_token demo_genesis
  refine ⟨id, x, hx, hs, [], by simp, ?_, rfl⟩
  intro a _
  rw [C13_genesis_balances demo_genesis]
  have hne : id ≠ Demo.gold := by
    intro e
    rw [e] at hx
    have : Demo.genesisWorld.assets Demo.gold = none := by decide +kernel
    rw [this] at hx; simp at hx
  have h1 : Hash.fromHex Demo.hexGold.toList = some Demo.gold := by decide +kernel
  have hne' : ¬ Demo.gold = id := fun e => hne e.symm
  simp [allocated, Demo.genesis, h1, hne']

/-- Worlds a node reaches are well typed, their assets are stored under their ids, and the total of every asset is
defined and constant from genesis on. -/
theorem reachable_wellTyped {w : World} (h : Reachable w) :
    w.WellTyped ∧ ∀ i x, w.assets i = some x → x.id = i := by
  induction h with
  | genesis hg =>
    obtain ⟨code, -, -, -, ht, -, ha⟩ := createsGenesis_spec hg
    refine ⟨ht, fun i x hx => ?_⟩
    rw [ha] at hx
    simp only [PMap.set] at hx
    split at hx
    · rename_i he
      rw [← Option.some.inj hx, he]
    · simp [PMap.empty] at hx
  | block _ he ih => exact ⟨executes_wellTyped ih.1 he, C12_asset_ids_step ih.1 he ih.2⟩

example : Reachable Demo.genesisWorld := .genesis demo_genesis

/-! ## C15 -/

/-- A job run against the shared database: a genesis or a block, in a context. -/
inductive Job where
  | genesis (chainId : Hash) (epochId price : UInt64) (coinbase : Address) (g : Genesis)
  | block (chainId : Hash) (epochId price : UInt64) (coinbase : Address) (root : MerkleRoot) (txs : List SignedTx)

/-- The environment with a job's context. -/
def Env.ctx (env : Env) (chainId : Hash) (epochId price : UInt64) (coinbase : Address) : Env :=
  { env with chainId := chainId, epochId := epochId, cyclesPrice := price, coinbase := coinbase }

/-- The database after a job. -/
def runJob (env : Env) (db : StateDB) : Job → StateDB
  | .genesis c e p cb g => (runGenesis (env.ctx c e p cb) db g).2
  | .block c e p cb root txs => (runBlock (env.ctx c e p cb) db root txs).2

/-- The database after a history of jobs, from an empty one. -/
def runJobs (env : Env) (jobs : List Job) : StateDB := jobs.foldl (runJob env) PMap.empty

/-- Every stored world is stored under its root. -/
theorem runJob_sound (env : Env) (db : StateDB) (j : Job) (h : ∀ r w, db r = some w → env.rootOf w = r) :
    ∀ r w, runJob env db j r = some w → env.rootOf w = r := by
  have hput : ∀ (e : Env) (he : e.rootOf = env.rootOf) (v : World) r w, StateDB.put e db v r = some w → env.rootOf w = r := by
    intro e he v r w hw
    simp only [StateDB.put, PMap.set] at hw
    split at hw
    · rename_i h1; rw [Option.some.inj hw.symm, h1, he]
    · exact h r w hw
  intro r w hw
  cases j with
  | genesis c e p cb g =>
    simp only [runJob, runGenesis] at hw
    split at hw
    · exact h r w hw
    · split at hw
      · exact hput (env.ctx c e p cb) rfl _ r w hw
      · exact h r w hw
  | block c e p cb root txs =>
    simp only [runJob, runBlock] at hw
    split at hw
    · exact h r w hw
    · split at hw
      · exact hput (env.ctx c e p cb) rfl _ r w hw
      · exact h r w hw

theorem runJobs_sound (env : Env) (jobs : List Job) : ∀ r w, runJobs env jobs r = some w → env.rootOf w = r := by
  unfold runJobs
  have : ∀ (db : StateDB), (∀ r w, db r = some w → env.rootOf w = r) →
      ∀ r w, jobs.foldl (runJob env) db r = some w → env.rootOf w = r := by
    induction jobs with
    | nil => intro db h; exact h
    | cons j js ih => intro db h; exact ih _ (runJob_sound env db j h)
  exact this _ (by simp [PMap.empty])

/-- **C15.**  Two nodes with arbitrary histories that can both open a root, where the root function does not confuse
the two worlds they have under it, get the same result for the same block in the same context. -/
theorem C15_history_independent (env : Env) (jobs1 jobs2 : List Job) (root : MerkleRoot) (txs : List SignedTx)
    (hnc : ∀ w1 w2, runJobs env jobs1 root = some w1 → runJobs env jobs2 root = some w2 →
      env.rootOf w1 = env.rootOf w2 → w1 = w2)
    (h1 : (runJobs env jobs1 root).isSome) (h2 : (runJobs env jobs2 root).isSome) :
    (runBlock env (runJobs env jobs1) root txs).1 = (runBlock env (runJobs env jobs2) root txs).1 := by
  obtain ⟨w1, hw1⟩ := Option.isSome_iff_exists.1 h1
  obtain ⟨w2, hw2⟩ := Option.isSome_iff_exists.1 h2
  have : w1 = w2 := hnc w1 w2 hw1 hw2 (by rw [runJobs_sound env jobs1 _ _ hw1, runJobs_sound env jobs2 _ _ hw2])
  subst this
  have hf : fromRoot env (runJobs env jobs1) root = fromRoot env (runJobs env jobs2) root := by
    simp [fromRoot, hw1, hw2]
  simp only [runBlock, hf]
  split
  · rfl
  · split <;> rfl

/-- C15: a failed or panicking execution leaves the database untouched. -/
theorem C15_failed_execution_leaves_db (env : Env) (db : StateDB) (root : MerkleRoot) (txs : List SignedTx) (f : Fault)
    (h : (runBlock env db root txs).1 = some (.error f)) : (runBlock env db root txs).2 = db := by
  simp only [runBlock] at h ⊢
  split
  · rfl
  · rename_i s hs
    rw [hs] at h
    simp only [] at h
    generalize exec env txs s = y at h ⊢
    obtain ⟨a, b⟩ := y
    cases a with
    | ok r => simp at h
    | error f => rfl

/-- C15: executing a block never changes what another root resolves to (only the root it returns is written). -/
theorem C15_other_roots_kept (env : Env) (db : StateDB) (root r : MerkleRoot) (txs : List SignedTx) (resp : ExecResp)
    (h : (runBlock env db root txs).1 = some (.ok resp)) (hr : r ≠ resp.stateRoot) :
    (runBlock env db root txs).2 r = db r := by
  simp only [runBlock] at h ⊢
  cases hs : fromRoot env db root with
  | none => rfl
  | some s =>
    rw [hs] at h
    simp only [] at h ⊢
    have key : ∀ r0, (exec env txs s).1 = .ok r0 → r0.stateRoot = env.rootOf (exec env txs s).2.committed := by
      intro r0 h0
      simp only [exec] at h0 ⊢
      generalize execLoop env txs s = y at h0 ⊢
      obtain ⟨a, b⟩ := y
      cases a with
      | error f => simp at h0
      | ok rs => simp only [Except.ok.injEq] at h0; rw [← h0]
    generalize he : exec env txs s = y at h key ⊢
    obtain ⟨a, b⟩ := y
    cases a with
    | error f => simp at h
    | ok r0 =>
      simp only [Option.some.injEq, Except.ok.injEq] at h
      subst h
      have := key r0 rfl
      simp only [StateDB.put, PMap.set]
      rw [← this]
      simp [hr]

/-- Two different histories (the second also tried a block on an unknown root) that can open the genesis root. -/
example :
    let j : Job := .genesis (Demo.hash 9) 0 2 (Demo.addr 9) Demo.genesis
    let k : Job := .block (Demo.hash 9) 1 2 (Demo.addr 9) (Demo.hash 77) []
    (runJobs Demo.env [j] (Demo.hash 2)).isSome ∧ (runJobs Demo.env [j, k] (Demo.hash 2)).isSome ∧
    (∀ w1 w2, runJobs Demo.env [j] (Demo.hash 2) = some w1 → runJobs Demo.env [j, k] (Demo.hash 2) = some w2 →
      Demo.env.rootOf w1 = Demo.env.rootOf w2 → w1 = w2) := by
  intro j k
  have hk : runJobs Demo.env [j, k] = runJobs Demo.env [j] := by
    show runJob Demo.env (runJobs Demo.env [j]) k = _
    have : fromRoot (Demo.env.ctx (Demo.hash 9) 1 2 (Demo.addr 9)) (runJobs Demo.env [j]) (Demo.hash 77) = none := by
      have h0 : (runJobs Demo.env [j] (Demo.hash 77)).isSome = false := by decide +kernel
      have h1 : ¬ Demo.hash 77 = (Demo.env.ctx (Demo.hash 9) 1 2 (Demo.addr 9)).emptyHash := by decide +kernel
      simp only [fromRoot, h1, if_false]
      cases h : runJobs Demo.env [j] (Demo.hash 77) with
      | none => rfl
      | some x => rw [h] at h0; simp at h0
    simp only [runJob, k, runBlock, this]
  rw [hk]
  refine ⟨by decide +kernel, by decide +kernel, fun w1 w2 h1 h2 _ => ?_⟩
  rw [h1] at h2
  exact Option.some.inj h2

/-- **C15 is false for an executor that is reused.**  After a first block, the same executor object carries the
leftover nonce increment and coinbase reward of that block into the next one, so the second block commits a different
world than a fresh executor opened on the committed world. -/
theorem C15_reuse_refuted :
    ∃ (a b : List SignedTx),
      let s1 := (exec Demo.env a (St.open Demo.world)).2
      nonceOf (exec Demo.env b s1).2.committed (Demo.addr 1) ≠
        nonceOf (exec Demo.env b (St.open s1.committed)).2.committed (Demo.addr 1) ∧
      balance (exec Demo.env b s1).2.committed Demo.env.coinbase Demo.gold ≠
        balance (exec Demo.env b (St.open s1.committed)).2.committed Demo.env.coinbase Demo.gold := by
  refine ⟨[Demo.pay 1 2 1], [Demo.pay 2 1 1], ?_⟩
  decide +kernel

end Huobi
