import Verif.Proof.ExecFlat
import Verif.Spec.Executor
/-
The effect of one step of the flat loop on every observation.
-/
namespace Huobi

theorem balance_eq (w : World) (a : Address) (id : AssetID) :
    balance w a id = match w.accounts a with
      | none => 0
      | some acc => accountBalance id acc := by
  simp only [balance, accountBalance]
  cases w.accounts a with
  | none => rfl
  | some acc =>
    cases acc with
    | user u => simp only []; cases u.assets.get id <;> rfl
    | contract c => simp only []; cases c.assets.get id <;> rfl

theorem nonceOf_eq (w : World) (a : Address) :
    nonceOf w a = match w.accounts a with
      | none => 0
      | some acc => accountNonce acc := by
  simp only [nonceOf, accountNonce]
  cases w.accounts a with
  | none => rfl
  | some acc => cases acc <;> rfl

/-- Approvals of an account value. -/
def accountApprovals (id : AssetID) : Account → BMap ContractAddress ApprovedInfo
  | .user u => match u.assets.get id with
    | none => []
    | some info => info.approved
  | .contract _ => []

theorem approvals_eq (w : World) (a : Address) (id : AssetID) :
    approvals w a id = match w.accounts a with
      | none => []
      | some acc => accountApprovals id acc := by
  simp only [approvals, accountApprovals]
  cases w.accounts a with
  | none => rfl
  | some acc => cases acc <;> rfl

/-! ### Account values -/

theorem balance_credit (id j : AssetID) (n : Nat) (x : Account) :
    accountBalance j (creditAccount id n x) = accountBalance j x + if j = id then n else 0 := by
  cases x with
  | user u =>
    simp only [creditAccount, addBalanceUser, accountBalance]
    cases h : u.assets.get id with
    | none =>
      by_cases hj : j = id
      · subst hj; simp [BMap.get_insert_self, h]
      · simp [BMap.get_insert_ne _ _ hj, hj]
    | some info =>
      by_cases hj : j = id
      · subst hj; simp [BMap.get_insert_self, h]
      · simp [BMap.get_insert_ne _ _ hj, hj]
  | contract c =>
    simp only [creditAccount, addBalanceContract, accountBalance]
    cases h : c.assets.get id with
    | none =>
      by_cases hj : j = id
      · subst hj; simp [BMap.get_insert_self, h]
      · simp [BMap.get_insert_ne _ _ hj, hj]
    | some info =>
      by_cases hj : j = id
      · subst hj; simp [BMap.get_insert_self, h]
      · simp [BMap.get_insert_ne _ _ hj, hj]

theorem nonce_credit (id : AssetID) (n : Nat) (x : Account) : accountNonce (creditAccount id n x) = accountNonce x := by
  cases x with
  | user u => simp only [creditAccount, addBalanceUser, accountNonce]; cases u.assets.get id <;> rfl
  | contract c => simp only [creditAccount, addBalanceContract, accountNonce]; cases c.assets.get id <;> rfl

theorem approvals_credit (id j : AssetID) (n : Nat) (x : Account) :
    accountApprovals j (creditAccount id n x) = accountApprovals j x := by
  cases x with
  | contract c => rfl
  | user u =>
    simp only [creditAccount, addBalanceUser, accountApprovals]
    cases h : u.assets.get id with
    | none =>
      by_cases hj : j = id
      · subst hj; simp [BMap.get_insert_self, h]
      · simp [BMap.get_insert_ne _ _ hj]
    | some info =>
      by_cases hj : j = id
      · subst hj; simp [BMap.get_insert_self, h]
      · simp [BMap.get_insert_ne _ _ hj]

theorem debit_user_spec {id : AssetID} {n : Nat} {u : UserAccount} {y : Account}
    (h : debitAccount id n (.user u) = .ok y) :
    ∃ v, y = .user v ∧ v.nonce = u.nonce ∧ n ≤ accountBalance id (.user u) ∧
      (∀ j, accountBalance j (.user v) + (if j = id then n else 0) = accountBalance j (.user u)) ∧
      (∀ j, accountApprovals j (.user v) = accountApprovals j (.user u)) := by
  simp only [debitAccount, subBalanceUser] at h
  cases hg : u.assets.get id with
  | none => rw [hg] at h; simp [Except.map] at h
  | some info =>
    rw [hg] at h
    by_cases hlt : info.balance < n
    · simp [hlt, Except.map] at h
    · simp only [hlt, if_false, Except.map, Except.ok.injEq] at h
      refine ⟨_, h.symm, rfl, ?_, ?_, ?_⟩
      · simp only [accountBalance, hg]; omega
      · intro j
        simp only [accountBalance]
        by_cases hj : j = id
        · subst hj; simp only [BMap.get_insert_self, hg, if_true]; omega
        · simp [BMap.get_insert_ne _ _ hj, hj]
      · intro j
        simp only [accountApprovals]
        by_cases hj : j = id
        · subst hj; simp only [BMap.get_insert_self, hg]
        · simp [BMap.get_insert_ne _ _ hj]

theorem debit_user_fails {id : AssetID} {n : Nat} {u : UserAccount}
    (h : accountBalance id (.user u) < n) : debitAccount id n (.user u) = .error (.err .insufficientBalance) := by
  simp only [debitAccount, subBalanceUser]
  simp only [accountBalance] at h
  cases hg : u.assets.get id with
  | none => rfl
  | some info => rw [hg] at h; simp only [] at h; simp [h, Except.map]

/-! ### bumpAt -/

theorem accountBalance_bump (id : AssetID) (x : Account) : accountBalance id (bumpNonce x) = accountBalance id x := by
  cases x <;> rfl
theorem accountApprovals_bump (id : AssetID) (x : Account) :
    accountApprovals id (bumpNonce x) = accountApprovals id x := by
  cases x <;> rfl
theorem accountNonce_bump (x : Account) : accountNonce (bumpNonce x) = accountNonce x + 1 := by
  cases x <;> rfl

theorem World.accounts_setAcc (w : World) (a b : Address) (x : Account) :
    (w.setAcc a x).accounts b = if b = a then some x else w.accounts b := rfl
@[simp] theorem World.assets_setAcc (w : World) (a : Address) (x : Account) : (w.setAcc a x).assets = w.assets := rfl
@[simp] theorem World.accounts_setAsset (w : World) (i : AssetID) (x : Asset) :
    (w.setAsset i x).accounts = w.accounts := rfl

@[simp] theorem World.assets_bumpAt (w : World) (p : Option Address) : (w.bumpAt p).assets = w.assets := by
  cases p with
  | none => rfl
  | some a => simp only [World.bumpAt]; cases w.accounts a <;> rfl

theorem World.accounts_bumpAt (w : World) (p : Option Address) (a : Address) :
    (w.bumpAt p).accounts a = if p = some a then (w.accounts a).map bumpNonce else w.accounts a := by
  cases p with
  | none => simp [World.bumpAt]
  | some b =>
    simp only [World.bumpAt]
    cases hb : w.accounts b with
    | none =>
      by_cases h : b = a
      · subst h; simp [hb]
      · simp [h]
    | some acc =>
      rw [World.accounts_setAcc]
      by_cases h : b = a
      · subst h; simp [hb]
      · have h' : ¬ a = b := fun e => h e.symm
        simp [h, h']

theorem balance_bumpAt (w : World) (p : Option Address) (a : Address) (id : AssetID) :
    balance (w.bumpAt p) a id = balance w a id := by
  rw [balance_eq, balance_eq, World.accounts_bumpAt]
  by_cases h : p = some a
  · simp only [h, if_true]; cases w.accounts a <;> simp [accountBalance_bump]
  · simp only [h, if_false]

theorem approvals_bumpAt (w : World) (p : Option Address) (a : Address) (id : AssetID) :
    approvals (w.bumpAt p) a id = approvals w a id := by
  rw [approvals_eq, approvals_eq, World.accounts_bumpAt]
  by_cases h : p = some a
  · simp only [h, if_true]; cases w.accounts a <;> simp [accountApprovals_bump]
  · simp only [h, if_false]

theorem hasAccount_bumpAt (w : World) (p : Option Address) (a : Address) :
    (w.bumpAt p).HasAccount a ↔ w.HasAccount a := by
  unfold World.HasAccount
  rw [World.accounts_bumpAt]
  split <;> simp

theorem nonceOf_bumpAt (w : World) (p : Option Address) (a : Address) :
    nonceOf (w.bumpAt p) a = if p = some a ∧ w.HasAccount a then nonceOf w a + 1 else nonceOf w a := by
  unfold World.HasAccount
  rw [nonceOf_eq, nonceOf_eq, World.accounts_bumpAt]
  by_cases h : p = some a
  · simp only [h, if_true, true_and]
    cases w.accounts a <;> simp [accountNonce_bump]
  · simp [h]

theorem wellTyped_bumpAt {w : World} (hw : w.WellTyped) (p : Option Address) : (w.bumpAt p).WellTyped := by
  intro u acc h
  rw [World.accounts_bumpAt] at h
  split at h
  · cases hx : w.accounts (.user u) with
    | none => rw [hx] at h; simp at h
    | some y =>
      rw [hx] at h
      obtain ⟨x, rfl⟩ := hw u y hx
      simp only [Option.map_some, Option.some.injEq] at h
      exact ⟨_, h.symm⟩
  · exact hw u acc h

theorem wellTyped_setAcc {w : World} (hw : w.WellTyped) {a : Address} {x : Account}
    (hx : ∀ u, a = .user u → ∃ y, x = .user y) : (w.setAcc a x).WellTyped := by
  intro u acc h
  rw [World.accounts_setAcc] at h
  split at h
  · rename_i he
    obtain ⟨y, rfl⟩ := hx u he.symm
    exact ⟨y, by simpa using h.symm⟩
  · exact hw u acc h

/-- A fresh or existing account at a user address is a user account. -/
theorem findOrCreate_user {env : Env} {w : World} (hw : w.WellTyped) (u : UserAddress) :
    ∃ x, w.findOrCreate env (.user u) = .user x := by
  simp only [World.findOrCreate]
  cases h : w.accounts (.user u) with
  | none => exact ⟨_, rfl⟩
  | some acc => obtain ⟨x, rfl⟩ := hw u acc h; exact ⟨x, rfl⟩

theorem balance_findOrCreate (env : Env) (w : World) (a : Address) (id : AssetID) :
    accountBalance id (w.findOrCreate env a) = balance w a id := by
  rw [balance_eq]; simp only [World.findOrCreate]
  cases w.accounts a with
  | none => cases a <;> rfl
  | some x => rfl

theorem nonce_findOrCreate (env : Env) (w : World) (a : Address) :
    accountNonce (w.findOrCreate env a) = nonceOf w a := by
  rw [nonceOf_eq]; simp only [World.findOrCreate]
  cases w.accounts a with
  | none => cases a <;> rfl
  | some x => rfl

theorem approvals_findOrCreate (env : Env) (w : World) (a : Address) (id : AssetID) :
    accountApprovals id (w.findOrCreate env a) = approvals w a id := by
  rw [approvals_eq]; simp only [World.findOrCreate]
  cases w.accounts a with
  | none => cases a <;> rfl
  | some x => rfl

theorem balance_setAcc (w : World) (a b : Address) (x : Account) (id : AssetID) :
    balance (w.setAcc a x) b id = if b = a then accountBalance id x else balance w b id := by
  rw [balance_eq, balance_eq, World.accounts_setAcc]; by_cases h : b = a <;> simp [h]
theorem nonceOf_setAcc (w : World) (a b : Address) (x : Account) :
    nonceOf (w.setAcc a x) b = if b = a then accountNonce x else nonceOf w b := by
  rw [nonceOf_eq, nonceOf_eq, World.accounts_setAcc]; by_cases h : b = a <;> simp [h]
theorem approvals_setAcc (w : World) (a b : Address) (x : Account) (id : AssetID) :
    approvals (w.setAcc a x) b id = if b = a then accountApprovals id x else approvals w b id := by
  rw [approvals_eq, approvals_eq, World.accounts_setAcc]; by_cases h : b = a <;> simp [h]

/-- What moving an amount between user accounts does. -/
structure Moved (w w' : World) (s r : Address) (id : AssetID) (n : Nat) : Prop where
  enough : n ≤ balance w s id
  assets : w'.assets = w.assets
  bal : ∀ a j, balance w' a j + (if a = s ∧ j = id then n else 0) =
    balance w a j + (if a = r ∧ j = id then n else 0)
  nonce : ∀ a, nonceOf w' a = nonceOf w a
  appr : ∀ a j, approvals w' a j = approvals w a j
  has : ∀ a, w'.HasAccount a ↔ (a = s ∨ a = r ∨ w.HasAccount a)
  typed : w'.WellTyped

theorem move_ok {env : Env} {w w' : World} {s r : UserAddress} {id : AssetID} {n : Nat} (hw : w.WellTyped)
    (h : w.move env (.user s) (.user r) id n = .ok w') : Moved w w' (.user s) (.user r) id n := by
  obtain ⟨us, hus⟩ := findOrCreate_user (env := env) hw s
  simp only [World.move] at h
  cases hd : debitAccount id n (w.findOrCreate env (.user s)) with
  | error f => rw [hd] at h; simp at h
  | ok x =>
    rw [hd] at h
    simp only [Except.ok.injEq] at h
    rw [hus] at hd
    obtain ⟨v, rfl, hn, hle, hb, hap⟩ := debit_user_spec hd
    rw [← hus] at hle hb hap
    rw [balance_findOrCreate] at hle
    have hn' : accountNonce (.user v) = nonceOf w (.user s) := by
      rw [← nonce_findOrCreate env, hus]; exact hn
    have hty1 : (w.setAcc (.user s) (.user v)).WellTyped := wellTyped_setAcc hw (fun u _ => ⟨v, rfl⟩)
    obtain ⟨ur, hur⟩ := findOrCreate_user (env := env) hty1 r
    subst h
    refine ⟨hle, rfl, ?_, ?_, ?_, ?_, ?_⟩
    · intro a j
      rw [balance_setAcc, balance_credit, balance_findOrCreate, balance_setAcc, balance_setAcc]
      have hbj := hb j
      rw [balance_findOrCreate] at hbj
      by_cases ha : a = .user r
      · subst ha
        by_cases hs : Address.user r = .user s
        · rw [hs]
          simp only [if_true, true_and]
          omega
        · simp only [hs, if_true, if_false, true_and, false_and]; omega
      · by_cases hs : a = .user s
        · subst hs; simp only [ha, if_true, if_false, true_and, false_and]; omega
        · simp [ha, hs]
    · intro a
      rw [nonceOf_setAcc, nonce_credit, nonce_findOrCreate, nonceOf_setAcc, nonceOf_setAcc]
      split
      · rename_i h; subst h; split
        · rename_i h; rw [hn', h]
        · rfl
      · split
        · rename_i h; rw [hn', h]
        · rfl
    · intro a j
      rw [approvals_setAcc, approvals_credit, approvals_findOrCreate, approvals_setAcc, approvals_setAcc]
      have := hap j
      rw [approvals_findOrCreate] at this
      split
      · rename_i h; subst h; split
        · rename_i h; rw [this, h]
        · rfl
      · split
        · rename_i h; rw [this, h]
        · rfl
    · intro a
      unfold World.HasAccount
      rw [World.accounts_setAcc, World.accounts_setAcc]
      by_cases ha : a = .user r
      · simp [ha]
      · by_cases hs : a = .user s
        · simp only [hs, if_true, true_or]
          split <;> simp
        · simp [ha, hs]
    · refine wellTyped_setAcc hty1 (fun u _ => ?_)
      rw [hur]; exact ⟨_, rfl⟩

/-- `consumeCycles` from zero. -/
theorem consume_ok {a : CyclesAction} {limit u : UInt64} (h : consumeCycles a 0 limit = .ok u) :
    u = a.cost ∧ a.cost ≤ limit := by
  have h0 : (0 : UInt64) + a.cost = a.cost := by simp
  simp only [consumeCycles, h0] at h
  split at h
  · simp at h
  · rename_i hgt
    simp only [Except.ok.injEq] at h
    exact ⟨h.symm, by simpa using hgt⟩

/-- The asset a deploy registers. -/
def deployedAsset (env : Env) (address : ContractAddress) : Asset :=
  { id := assetIdOf env address, name := "System token", symbol := "ST", supply := 21000000000000000,
    manageContract := address, storageRoot := env.emptyHash }

/-- Everything one step does. -/
inductive StepEffect (env : Env) (tx : SignedTx) (w : World) (p : Option Address) (r : Receipt) (w' : World) : Prop
  | fail (e : ExecErr) (hr : r.result = .fail (env.showErr e) "") (hc : r.cyclesUsed.cycle = 0) (hw : w' = w)
  | transfer (recv : UserAddress) (c : CarryingAsset) (ha : tx.raw.action = .transfer recv c)
      (hl : (210 : UInt64) ≤ tx.raw.fee.cycle) (hc : r.cyclesUsed.cycle = 210 * env.cyclesPrice)
      (hr : r.result = .transfer recv c.assetId (balance w (.user (senderOf env tx)) c.assetId)
        (balance w' (.user (senderOf env tx)) c.assetId))
      (hreg : (w.assets c.assetId).isSome)
      (hm : Moved (w.bumpAt p) w' (.user (senderOf env tx)) (.user recv) c.assetId c.amount)
  | deploy (code : Bytes) (ha : tx.raw.action = .deploy code .asset)
      (address : ContractAddress)
      (haddr : address = ContractAddress.fromCode env.digest code
        (nonceOf (w.bumpAt p) (.user (senderOf env tx))) .asset)
      (hl : (2100 : UInt64) ≤ tx.raw.fee.cycle) (hc : r.cyclesUsed.cycle = 2100 * env.cyclesPrice)
      (hr : r.result = .deploy address .asset)
      (hnew : w.assets (assetIdOf env address) = none)
      (hw : w' = (w.bumpAt p).setAsset (assetIdOf env address) (deployedAsset env address))

theorem finishStep_ok {env : Env} {tx : SignedTx} {res : ReceiptResult} {u : UInt64} {w2 : World} {r : Receipt}
    {w' : World} (h : finishStep env tx res u w2 = .ok (r, w')) :
    r.txHash = tx.txHash ∧ r.epochId = env.epochId ∧ r.cyclesUsed.assetId = tx.raw.fee.assetId ∧
      w'.HasAccount (.user (senderOf env tx)) ∧ r.result = res ∧ r.cyclesUsed.cycle = u * env.cyclesPrice ∧
      w' = w2 := by
  simp only [finishStep] at h
  cases hacc : w2.accounts (.user (senderOf env tx)) with
  | none => rw [hacc] at h; simp at h
  | some y =>
    rw [hacc] at h
    simp only [Except.ok.injEq, Prod.mk.injEq] at h
    obtain ⟨rfl, rfl⟩ := h
    exact ⟨rfl, rfl, rfl, by simp [World.HasAccount, hacc], rfl, rfl, rfl⟩

theorem flatStep_effect {env : Env} {tx : SignedTx} {w : World} {p : Option Address} {r : Receipt} {w' : World}
    (hw : w.WellTyped) (h : flatStep env tx w p = .ok (r, w')) :
    r.txHash = tx.txHash ∧ r.epochId = env.epochId ∧ r.cyclesUsed.assetId = tx.raw.fee.assetId ∧
      w'.HasAccount (.user (senderOf env tx)) ∧ StepEffect env tx w p r w' := by
  simp only [flatStep] at h
  cases ha : (w.bumpAt p).apply env tx with
  | error f =>
    rw [ha] at h
    cases f with
    | panic => simp at h
    | err e =>
      obtain ⟨h1, h2, h3, h4, h5, h6, h7⟩ := finishStep_ok h
      exact ⟨h1, h2, h3, h4, .fail e h5 (by simpa using h6) h7⟩
  | ok y =>
    obtain ⟨res, u, w2⟩ := y
    rw [ha] at h
    obtain ⟨h1, h2, h3, h4, h5, h6, h7⟩ := finishStep_ok h
    refine ⟨h1, h2, h3, h4, ?_⟩
    subst h7
    have hwt := wellTyped_bumpAt hw p
    cases hact : tx.raw.action with
    | approve _ _ _ => simp [World.apply, hact] at ha
    | call _ _ _ _ => simp [World.apply, hact] at ha
    | transfer recv c =>
      simp only [World.apply, hact, World.assets_bumpAt] at ha
      cases hass : w.assets c.assetId with
      | none => simp [hass] at ha
      | some x =>
        simp only [hass] at ha
        cases hacc : (w.bumpAt p).accounts (.user (senderOf env tx)) with
        | none => simp [hacc] at ha
        | some acc =>
          simp only [hacc] at ha
          cases hm : (w.bumpAt p).move env (.user (senderOf env tx)) (.user recv) c.assetId c.amount with
          | error f => simp [hm] at ha
          | ok w3 =>
            simp only [hm] at ha
            cases hc : consumeCycles .accountTransfer 0 tx.raw.fee.cycle with
            | error f => simp [hc] at ha
            | ok u' =>
              simp only [hc] at ha
              cases hacc' : w3.accounts (.user (senderOf env tx)) with
              | none => simp [hacc'] at ha
              | some acc' =>
                simp only [hacc', Except.ok.injEq, Prod.mk.injEq] at ha
                obtain ⟨rfl, rfl, rfl⟩ := ha
                obtain ⟨hu, hle⟩ := consume_ok hc
                refine .transfer recv c hact hle (by rw [h6, hu]; rfl) ?_ (by simp [hass]) (move_ok hwt hm)
                rw [h5]
                have e1 : accountBalance c.assetId acc = balance w (.user (senderOf env tx)) c.assetId := by
                  rw [← balance_bumpAt w p, balance_eq, hacc]
                have e2 : accountBalance c.assetId acc' = balance w3 (.user (senderOf env tx)) c.assetId := by
                  rw [balance_eq, hacc']
                rw [e1, e2]
    | deploy code ty =>
      cases ty with
      | app => simp [World.apply, hact] at ha
      | library => simp [World.apply, hact] at ha
      | native => simp [World.apply, hact] at ha
      | asset =>
        simp only [World.apply, hact, World.assets_bumpAt] at ha
        cases hacc : (w.bumpAt p).accounts (.user (senderOf env tx)) with
        | none => simp [hacc] at ha
        | some acc =>
          simp only [hacc] at ha
          have hn : accountNonce acc = nonceOf (w.bumpAt p) (.user (senderOf env tx)) := by
            rw [nonceOf_eq, hacc]
          rw [hn] at ha
          split at ha
          · simp at ha
          · rename_i hns
            cases hc : consumeCycles .bankRegister 0 tx.raw.fee.cycle with
            | error f => simp [hc] at ha
            | ok u' =>
              simp only [hc, Except.ok.injEq, Prod.mk.injEq] at ha
              obtain ⟨rfl, rfl, rfl⟩ := ha
              obtain ⟨hu, hle⟩ := consume_ok hc
              refine .deploy code hact _ rfl hle (by rw [h6, hu]; rfl) h5 ?_ rfl
              simpa using hns

theorem StepEffect.typed {env : Env} {tx : SignedTx} {w : World} {p : Option Address} {r : Receipt} {w' : World}
    (hw : w.WellTyped) (h : StepEffect env tx w p r w') : w'.WellTyped := by
  cases h with
  | fail e hr hc h => rw [h]; exact hw
  | transfer recv c ha hl hc hr hreg hm => exact hm.typed
  | deploy code ha address haddr hl hc hr hnew h => rw [h]; exact wellTyped_bumpAt hw p

end Huobi
