import Verif.Proof.ExecEffects
/-
Consequences of the step effects for the whole loop.
-/
namespace Huobi

/-- Sender of the last transaction of a list. -/
def lastSender (env : Env) (txs : List SignedTx) : Option Address :=
  txs.getLast?.map (fun t => Address.user (senderOf env t))

/-- The response built from the loop's receipts and world. -/
def respOf (env : Env) (rs : List Receipt) (w' : World) : ExecResp :=
  { receipts := rs.map (fun r => { r with stateRoot := env.rootOf w' })
    allCyclesUsed := allCyclesUsed rs
    logsBloom := Bloom.zero
    stateRoot := env.rootOf w' }

theorem executes_iff {env : Env} {w : World} {txs : List SignedTx} {resp : ExecResp} {w' : World} :
    Executes env w txs resp w' ↔ ∃ rs, flatLoop env txs w none = .ok (rs, w') ∧ resp = respOf env rs w' := by
  have he := exec_open_eq env txs w
  unfold Executes
  cases hf : flatLoop env txs w none with
  | error f => rw [hf] at he; rw [he]; simp
  | ok x =>
    obtain ⟨rs, w2⟩ := x
    rw [hf] at he
    rw [he.1, he.2]
    constructor
    · rintro ⟨h1, h2⟩
      subst h2
      exact ⟨rs, rfl, (Except.ok.inj h1).symm⟩
    · rintro ⟨rs', h1, h2⟩
      simp only [Except.ok.injEq, Prod.mk.injEq] at h1
      obtain ⟨rfl, rfl⟩ := h1
      exact ⟨by rw [h2]; rfl, rfl⟩

/-- A relation chain through the loop: each step of the loop is one `flatStep`. -/
inductive Run (env : Env) : Option Address → World → List (SignedTx × Receipt) → World → Prop
  | nil (p w) : Run env p w [] w
  | cons {p w tx r w1 rest w2} : flatStep env tx w p = .ok (r, w1) →
      Run env (some (.user (senderOf env tx))) w1 rest w2 → Run env p w ((tx, r) :: rest) w2

theorem flatLoop_run {env : Env} {txs : List SignedTx} {w : World} {p : Option Address} {rs : List Receipt}
    {w' : World} (h : flatLoop env txs w p = .ok (rs, w')) :
    rs.length = txs.length ∧ Run env p w (txs.zip rs) w' := by
  induction txs generalizing w p rs with
  | nil =>
    simp only [flatLoop, Except.ok.injEq, Prod.mk.injEq] at h
    obtain ⟨rfl, rfl⟩ := h
    exact ⟨rfl, .nil _ _⟩
  | cons tx txs ih =>
    simp only [flatLoop] at h
    cases hs : flatStep env tx w p with
    | error f => rw [hs] at h; simp at h
    | ok x =>
      obtain ⟨r, w1⟩ := x
      rw [hs] at h
      simp only [] at h
      cases hl : flatLoop env txs w1 (some (.user (senderOf env tx))) with
      | error f => rw [hl] at h; simp at h
      | ok y =>
        obtain ⟨rs', w2⟩ := y
        rw [hl] at h
        simp only [Except.ok.injEq, Prod.mk.injEq] at h
        obtain ⟨rfl, rfl⟩ := h
        obtain ⟨h1, h2⟩ := ih hl
        exact ⟨by simp [h1], .cons hs h2⟩

theorem Run.typed {env : Env} {p : Option Address} {w w' : World} {l : List (SignedTx × Receipt)}
    (h : Run env p w l w') (hw : w.WellTyped) : w'.WellTyped := by
  induction h with
  | nil => exact hw
  | cons hs _ ih => exact ih ((flatStep_effect hw hs).2.2.2.2.typed hw)

theorem StepEffect.ledger {env : Env} {tx : SignedTx} {w : World} {p : Option Address} {r : Receipt} {w' : World}
    (h : StepEffect env tx w p r w') (a : Address) (id : AssetID) :
    balance w' a id + outgoing env a id (tx, r) = balance w a id + incoming a id (tx, r) := by
  cases h with
  | fail e hr hc h =>
    rw [h]
    simp only [outgoing, incoming, hr, ReceiptResult.isFail]
    cases tx.raw.action <;> simp
  | transfer recv c ha hl hc hr hreg hm =>
    have := hm.bal a id
    rw [balance_bumpAt] at this
    simp only [outgoing, incoming, ha, hr, ReceiptResult.isFail, true_and]
    exact this
  | deploy code ha address haddr hl hc hr hnew h =>
    have : balance w' a id = balance w a id := by
      rw [← balance_bumpAt w p]; rw [h]; rfl
    simp [outgoing, incoming, ha, this]

theorem Run.ledger {env : Env} {p : Option Address} {w w' : World} {l : List (SignedTx × Receipt)}
    (h : Run env p w l w') (hw : w.WellTyped) (a : Address) (id : AssetID) :
    balance w' a id + (l.map (outgoing env a id)).sum = balance w a id + (l.map (incoming a id)).sum := by
  induction h with
  | nil => simp
  | cons hs _ ih =>
    have he := (flatStep_effect hw hs).2.2.2.2
    have h1 := he.ledger a id
    have h2 := ih (he.typed hw)
    simp only [List.map_cons, List.sum_cons]
    omega

theorem Run.receipts {env : Env} {p : Option Address} {w w' : World} {l : List (SignedTx × Receipt)}
    (h : Run env p w l w') (hw : w.WellTyped) :
    ∀ t ∈ l, t.2.txHash = t.1.txHash ∧ t.2.epochId = env.epochId ∧ t.2.cyclesUsed.assetId = t.1.raw.fee.assetId := by
  induction h with
  | nil => simp
  | cons hs _ ih =>
    have he := flatStep_effect hw hs
    intro t ht
    rcases List.mem_cons.1 ht with rfl | ht
    · exact ⟨he.1, he.2.1, he.2.2.1⟩
    · exact ih (he.2.2.2.2.typed hw) t ht

theorem StepEffect.has {env : Env} {tx : SignedTx} {w : World} {p : Option Address} {r : Receipt} {w' : World}
    (h : StepEffect env tx w p r w') {a : Address} (ha : w.HasAccount a) : w'.HasAccount a := by
  cases h with
  | fail e hr hc h => rw [h]; exact ha
  | transfer recv c hact hl hc hr hreg hm =>
    exact (hm.has a).2 (Or.inr (Or.inr ((hasAccount_bumpAt w p a).2 ha)))
  | deploy code hact address haddr hl hc hr hnew h =>
    rw [h]; exact (hasAccount_bumpAt w p a).2 ha

/-- Effect of one step on nonces. -/
theorem StepEffect.nonce {env : Env} {tx : SignedTx} {w : World} {p : Option Address} {r : Receipt} {w' : World}
    (h : StepEffect env tx w p r w') (hp : ∀ a, p = some a → w.HasAccount a) (a : Address) :
    nonceOf w' a = nonceOf w a + UInt64.ofNat (if p = some a ∧ r.result.isFail = false then 1 else 0) := by
  have key : nonceOf (w.bumpAt p) a = nonceOf w a + UInt64.ofNat (if p = some a then 1 else 0) := by
    rw [nonceOf_bumpAt]
    by_cases hpa : p = some a
    · simp [hpa, hp a hpa]
    · simp [hpa]
  cases h with
  | fail e hr hc h => rw [h]; simp [hr, ReceiptResult.isFail]
  | transfer recv c hact hl hc hr hreg hm =>
    rw [hm.nonce a, key]; simp [hr, ReceiptResult.isFail]
  | deploy code hact address haddr hl hc hr hnew h =>
    have : nonceOf w' a = nonceOf (w.bumpAt p) a := by rw [h]; rfl
    rw [this, key]; simp [hr, ReceiptResult.isFail]

/-- Whether the pending increment survives. -/
def pendingBump (a : Address) (p : Option Address) : List (SignedTx × Receipt) → Nat
  | [] => 0
  | t :: _ => if p = some a ∧ t.2.result.isFail = false then 1 else 0

theorem survivingBumps_cons (env : Env) (a : Address) (t : SignedTx × Receipt) (l : List (SignedTx × Receipt)) :
    survivingBumps env a (t :: l) =
      pendingBump a (some (.user (senderOf env t.1))) l + survivingBumps env a l := by
  cases l with
  | nil => simp [survivingBumps, pendingBump]
  | cons t' rest =>
    simp only [survivingBumps, pendingBump, Option.some.injEq]
    congr 1
    simp only [eq_comm (a := a)]

theorem Run.nonce {env : Env} {p : Option Address} {w w' : World} {l : List (SignedTx × Receipt)}
    (h : Run env p w l w') (hw : w.WellTyped) (hp : ∀ a, p = some a → w.HasAccount a) (a : Address) :
    nonceOf w' a = nonceOf w a + UInt64.ofNat (pendingBump a p l + survivingBumps env a l) := by
  induction h with
  | nil => simp [pendingBump, survivingBumps]
  | @cons p w tx r w1 rest w2 hs _ ih =>
    obtain ⟨-, -, -, hacc, he⟩ := flatStep_effect hw hs
    have h1 := he.nonce hp a
    have h2 := ih (he.typed hw) (by intro b hb; simp only [Option.some.injEq] at hb; rw [← hb]; exact hacc)
    rw [h2, h1, survivingBumps_cons]
    rw [show pendingBump a p ((tx, r) :: rest) = (if p = some a ∧ r.result.isFail = false then 1 else 0) from rfl]
    simp only [UInt64.ofNat_add, UInt64.add_assoc]

theorem StepEffect.assets {env : Env} {tx : SignedTx} {w : World} {p : Option Address} {r : Receipt} {w' : World}
    (h : StepEffect env tx w p r w') {id : AssetID} {x : Asset} (hx : w.assets id = some x) :
    w'.assets id = some x := by
  cases h with
  | fail e hr hc h => rw [h]; exact hx
  | transfer recv c hact hl hc hr hreg hm => rw [hm.assets, World.assets_bumpAt]; exact hx
  | deploy code hact address haddr hl hc hr hnew h =>
    rw [h]
    show PMap.set _ _ _ id = _
    simp only [PMap.set]
    split
    · rename_i he; rw [he, hnew] at hx; simp at hx
    · rw [World.assets_bumpAt]; exact hx

theorem Run.assets {env : Env} {p : Option Address} {w w' : World} {l : List (SignedTx × Receipt)}
    (h : Run env p w l w') (hw : w.WellTyped) {id : AssetID} {x : Asset} (hx : w.assets id = some x) :
    w'.assets id = some x := by
  induction h with
  | nil => exact hx
  | cons hs _ ih =>
    have he := (flatStep_effect hw hs).2.2.2.2
    exact ih (he.typed hw) (he.assets hx)

/-- Assets of the result are old ones or consistent new ones. -/
theorem Run.assets_new {env : Env} {p : Option Address} {w w' : World} {l : List (SignedTx × Receipt)}
    (h : Run env p w l w') (hw : w.WellTyped) {id : AssetID} {x : Asset} (hx : w'.assets id = some x) :
    w.assets id = some x ∨ ∃ address, x = deployedAsset env address ∧ id = assetIdOf env address ∧
      ∃ t ∈ l, t.2.result = .deploy address .asset := by
  induction h with
  | nil => exact .inl hx
  | @cons p w tx r w1 rest w2 hs _ ih =>
    have he := (flatStep_effect hw hs).2.2.2.2
    rcases ih (he.typed hw) hx with h | ⟨ad, h1, h2, t, ht, h3⟩
    · cases he with
      | fail e hr hc hw => rw [hw] at h; exact .inl h
      | transfer recv c hact hl hc hr hreg hm => rw [hm.assets, World.assets_bumpAt] at h; exact .inl h
      | deploy code hact address haddr hl hc hr hnew hw' =>
        rw [hw'] at h
        change PMap.set _ _ _ id = _ at h
        simp only [PMap.set] at h
        split at h
        · rename_i he
          exact .inr ⟨address, (Option.some.inj h).symm, he, (tx, r), by simp, hr⟩
        · rw [World.assets_bumpAt] at h; exact .inl h
    · exact .inr ⟨ad, h1, h2, t, by simp [ht], h3⟩

/-- Splitting a run at a prefix. -/
theorem flatLoop_append_ok {env : Env} {xs ys : List SignedTx} {w : World} {p : Option Address} {rs : List Receipt}
    {w' : World} (h : flatLoop env (xs ++ ys) w p = .ok (rs, w')) :
    ∃ rs1 w1 rs2, flatLoop env xs w p = .ok (rs1, w1) ∧
      flatLoop env ys w1 ((lastSender env xs).or p) = .ok (rs2, w') ∧ rs = rs1 ++ rs2 := by
  rw [flatLoop_append] at h
  cases h1 : flatLoop env xs w p with
  | error f => rw [h1] at h; simp at h
  | ok x =>
    obtain ⟨rs1, w1⟩ := x
    rw [h1] at h
    simp only [] at h
    cases h2 : flatLoop env ys w1 ((xs.getLast?.map (fun t => Address.user (senderOf env t))).or p) with
    | error f => rw [h2] at h; simp at h
    | ok y =>
      obtain ⟨rs2, w2⟩ := y
      rw [h2] at h
      simp only [Except.ok.injEq, Prod.mk.injEq] at h
      obtain ⟨rfl, rfl⟩ := h
      exact ⟨rs1, w1, rs2, rfl, h2, rfl⟩

theorem flatLoop_snoc_ok {env : Env} {xs : List SignedTx} {tx : SignedTx} {w : World} {rs : List Receipt}
    {w' : World} (h : flatLoop env (xs ++ [tx]) w none = .ok (rs, w')) :
    ∃ rs1 w1 r, flatLoop env xs w none = .ok (rs1, w1) ∧
      flatStep env tx w1 (lastSender env xs) = .ok (r, w') ∧ rs = rs1 ++ [r] := by
  obtain ⟨rs1, w1, rs2, h1, h2, h3⟩ := flatLoop_append_ok h
  simp only [flatLoop, Option.or_none] at h2
  cases hs : flatStep env tx w1 (lastSender env xs) with
  | error f => rw [hs] at h2; simp at h2
  | ok x =>
    obtain ⟨r, w2⟩ := x
    rw [hs] at h2
    simp only [Except.ok.injEq, Prod.mk.injEq] at h2
    obtain ⟨rfl, rfl⟩ := h2
    exact ⟨rs1, w1, r, h1, hs, h3⟩

/-- Executing one more transaction: the execution of the prefix, and the effect of the last step. -/
theorem executes_snoc {env : Env} {w : World} {pre : List SignedTx} {tx : SignedTx} {resp : ExecResp} {w1 : World}
    (hw : w.WellTyped) (h : Executes env w (pre ++ [tx]) resp w1) :
    ∃ resp0 w0 r, Executes env w pre resp0 w0 ∧ w0.WellTyped ∧
      (∀ r', resp.receipts.getLast? = some r' → r' = { r with stateRoot := env.rootOf w1 }) ∧
      (∀ a, lastSender env pre = some a → w0.HasAccount a) ∧
      r.txHash = tx.txHash ∧ r.cyclesUsed.assetId = tx.raw.fee.assetId ∧ w1.HasAccount (.user (senderOf env tx)) ∧
      StepEffect env tx w0 (lastSender env pre) r w1 := by
  obtain ⟨rs, hf, rfl⟩ := executes_iff.1 h
  obtain ⟨rs1, w0, r, h1, h2, rfl⟩ := flatLoop_snoc_ok hf
  have hrun := (flatLoop_run h1).2
  have hw0 := hrun.typed hw
  obtain ⟨e1, -, e3, e4, e5⟩ := flatStep_effect hw0 h2
  refine ⟨_, w0, r, executes_iff.2 ⟨rs1, h1, rfl⟩, hw0, ?_, ?_, e1, e3, e4, e5⟩
  · intro r' hr'
    simp [respOf] at hr'
    exact hr'.symm
  · intro a ha
    rcases List.eq_nil_or_concat pre with rfl | ⟨pre', t, rfl⟩
    · simp [lastSender] at ha
    · rw [List.concat_eq_append] at h1
      obtain ⟨rs2, w2, r2, h3, h4, -⟩ := flatLoop_snoc_ok h1
      have hw2 := (flatLoop_run h3).2.typed hw
      have := (flatStep_effect hw2 h4).2.2.2.1
      simp only [lastSender, List.concat_eq_append, List.getLast?_append, List.getLast?_singleton,
        Option.some_or, Option.map_some, Option.some.injEq] at ha
      rw [← ha]; exact this

end Huobi
