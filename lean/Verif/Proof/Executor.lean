import Verif.Model.Executor
/-
Helper lemmas about the executor model.
-/
set_option linter.unusedSectionVars false

namespace Huobi

/-! ### Maps -/

theorem BMap.get_insert_self {K V : Type} [DecidableEq K] [KeyOrd K] (k : K) (v : V) (m : BMap K V) :
    (m.insert k v).get k = some v := by
  induction m with
  | nil => simp [BMap.insert, BMap.get]
  | cons p rest ih =>
    obtain ⟨k', v'⟩ := p
    simp only [BMap.insert]
    split
    · simp [BMap.get]
    · split
      · simp [BMap.get]
      · rename_i h _; simp [BMap.get, h, ih]

theorem BMap.get_insert_ne {K V : Type} [DecidableEq K] [KeyOrd K] {k j : K} (v : V) (m : BMap K V) (h : j ≠ k) :
    (m.insert k v).get j = m.get j := by
  induction m with
  | nil => simp [BMap.insert, BMap.get, h]
  | cons p rest ih =>
    obtain ⟨k', v'⟩ := p
    simp only [BMap.insert]
    split
    · rename_i hk; subst hk; simp [BMap.get, h]
    · split
      · simp [BMap.get, h]
      · simp [BMap.get, ih]

theorem BMap.get_insert {K V : Type} [DecidableEq K] [KeyOrd K] (k j : K) (v : V) (m : BMap K V) :
    (m.insert k v).get j = if j = k then some v else m.get j := by
  split
  · rename_i h; subst h; exact BMap.get_insert_self _ _ _
  · rename_i h; exact BMap.get_insert_ne _ _ h

section
variable {K V : Type} [DecidableEq K]

theorem Layers.get_eq_over (l : Layers K V) : l.get = l.cache.over (l.stash.over l.trie) := by
  funext k; simp only [Layers.get, PMap.over]

theorem PMap.over_empty (m : PMap K V) : PMap.over PMap.empty m = m := by
  funext k; simp [PMap.over, PMap.empty]

theorem PMap.set_over (t b : PMap K V) (k : K) (v : V) : (t.set k v).over b = (t.over b).set k v := by
  funext j; simp only [PMap.over, PMap.set]; by_cases h : j = k <;> simp [h]

/-- What the adapter would hold after a revert: stash over trie. -/
def Layers.base (l : Layers K V) : PMap K V := l.stash.over l.trie

theorem Layers.get_insertCache (l : Layers K V) (k : K) (v : V) : (l.insertCache k v).get = PMap.set l.get k v := by
  rw [Layers.get_eq_over, Layers.get_eq_over]; exact PMap.set_over _ _ _ _

@[simp] theorem Layers.base_insertCache (l : Layers K V) (k : K) (v : V) : (l.insertCache k v).base = l.base := rfl
@[simp] theorem Layers.trie_insertCache (l : Layers K V) (k : K) (v : V) : (l.insertCache k v).trie = l.trie := rfl
@[simp] theorem Layers.base_revertCache (l : Layers K V) : l.revertCache.base = l.base := rfl
@[simp] theorem Layers.trie_revertCache (l : Layers K V) : l.revertCache.trie = l.trie := rfl
@[simp] theorem Layers.trie_stashCache (l : Layers K V) : l.stashCache.trie = l.trie := rfl

theorem Layers.get_revertCache (l : Layers K V) : l.revertCache.get = l.base := by
  rw [Layers.get_eq_over]; exact PMap.over_empty _

theorem Layers.base_stashCache (l : Layers K V) : l.stashCache.base = l.get := by
  funext k
  simp only [Layers.base, Layers.stashCache, PMap.over, Layers.get]
  cases l.cache k <;> rfl

theorem Layers.get_stashCache (l : Layers K V) : l.stashCache.get = l.get := by
  rw [Layers.get_eq_over, show l.stashCache.cache = PMap.empty from rfl, PMap.over_empty]
  exact Layers.base_stashCache l

theorem Layers.trie_commit (l : Layers K V) : l.commit.trie = l.base := rfl

theorem Layers.get_ofTrie (t : PMap K V) : (Layers.ofTrie t).get = t := by
  funext k; simp [Layers.get, Layers.ofTrie, PMap.empty]

theorem Layers.base_ofTrie (t : PMap K V) : (Layers.ofTrie t).base = t := PMap.over_empty t

theorem Layers.contains_eq (l : Layers K V) (k : K) : l.contains k = (l.get k).isSome := by
  simp only [Layers.contains, Layers.get]
  cases l.cache k <;> cases l.stash k <;> simp
end

/-! ### Views of an executor state -/

/-- The world reads see. -/
def St.view (s : St) : World := ⟨s.acc.get, s.bank.get⟩
/-- The world a commit would make permanent. -/
def St.base (s : St) : World := ⟨s.acc.base, s.bank.base⟩

theorem St.committed_commit (s : St) : s.commit.committed = s.base := rfl
theorem St.view_open (w : World) : (St.open w).view = w := by
  simp [St.view, St.open, Layers.get_ofTrie]
theorem St.base_open (w : World) : (St.open w).base = w := by
  simp [St.base, St.open, Layers.base_ofTrie]

/-- Replace one account. -/
def World.setAcc (w : World) (a : Address) (x : Account) : World := { w with accounts := w.accounts.set a x }
/-- Add one asset. -/
def World.setAsset (w : World) (id : AssetID) (x : Asset) : World := { w with assets := w.assets.set id x }

theorem St.view_putAccount (s : St) (a : Address) (x : Account) : (putAccount a x s).view = s.view.setAcc a x := by
  simp [St.view, putAccount, World.setAcc, Layers.get_insertCache]
@[simp] theorem St.base_putAccount (s : St) (a : Address) (x : Account) : (putAccount a x s).base = s.base := rfl
@[simp] theorem St.used_putAccount (s : St) (a : Address) (x : Account) : (putAccount a x s).used = s.used := rfl
theorem St.view_stash (s : St) : s.stash.view = s.view := by
  simp [St.view, St.stash, Layers.get_stashCache]
theorem St.base_stash (s : St) : s.stash.base = s.view := by
  simp [St.view, St.base, St.stash, Layers.base_stashCache]
theorem St.view_revert (s : St) : s.revert.view = s.base := by
  simp [St.view, St.base, St.revert, Layers.get_revertCache]
@[simp] theorem St.base_revert (s : St) : s.revert.base = s.base := rfl
@[simp] theorem St.used_stash (s : St) : s.stash.used = s.used := rfl
@[simp] theorem St.used_revert (s : St) : s.revert.used = s.used := rfl

/-! ### Pure counterpart of one dispatch, on flat worlds -/

/-- Account of an address in a flat world, fresh if absent. -/
def World.findOrCreate (env : Env) (w : World) (a : Address) : Account :=
  match w.accounts a with
  | some x => x
  | none =>
    match a with
    | .user _ => .user ⟨0, []⟩
    | .contract _ => .contract ⟨0, [], env.emptyHash⟩

theorem findOrCreate_view (env : Env) (s : St) (a : Address) : findOrCreate env s a = s.view.findOrCreate env a := rfl

/-- `add_balance` on an account value. -/
def creditAccount (id : AssetID) (n : Nat) : Account → Account
  | .user u => .user (addBalanceUser id u n)
  | .contract c => .contract (addBalanceContract id c n)

/-- `sub_balance` on an account value. -/
def debitAccount (id : AssetID) (n : Nat) : Account → Except Fault Account
  | .user u => (subBalanceUser id u n).map .user
  | .contract c => (subBalanceContract id c n).map .contract

theorem addBalance_eq (env : Env) (id : AssetID) (a : Address) (n : Nat) (s : St) :
    addBalance env id a n s = putAccount a (creditAccount id n (s.view.findOrCreate env a)) s := by
  simp only [addBalance, findOrCreate_view, creditAccount]
  cases s.view.findOrCreate env a <;> rfl

theorem subBalance_eq (env : Env) (id : AssetID) (a : Address) (n : Nat) (s : St) :
    subBalance env id a n s =
      match debitAccount id n (s.view.findOrCreate env a) with
      | .ok x => (.ok (), putAccount a x s)
      | .error f => (.error f, s) := by
  simp only [subBalance, findOrCreate_view, debitAccount]
  cases s.view.findOrCreate env a with
  | user u => cases h : subBalanceUser id u n <;> simp [Except.map, h]
  | contract c => cases h : subBalanceContract id c n <;> simp [Except.map, h]

/-- The world after moving an amount: debit, then credit in the debited world. -/
def World.move (env : Env) (w : World) (caller to : Address) (id : AssetID) (n : Nat) : Except Fault World :=
  match debitAccount id n (w.findOrCreate env caller) with
  | .error f => .error f
  | .ok x =>
    let w1 := w.setAcc caller x
    .ok (w1.setAcc to (creditAccount id n (w1.findOrCreate env to)))

/-- Pure counterpart of `dispatch` on a flat world: result, cycles used, new world. -/
def World.apply (env : Env) (w : World) (tx : SignedTx) : Except Fault (ReceiptResult × UInt64 × World) :=
  let caller := Address.user (senderOf env tx)
  match tx.raw.action with
  | .transfer receiver carrying =>
    match w.assets carrying.assetId with
    | none => .error (.err (.assetNotFound carrying.assetId))
    | some _ =>
      match w.accounts caller with
      | none => .error (.err (.accountNotFound caller))
      | some acc =>
        match w.move env caller (.user receiver) carrying.assetId carrying.amount with
        | .error f => .error f
        | .ok w2 =>
          match consumeCycles .accountTransfer 0 tx.raw.fee.cycle with
          | .error f => .error f
          | .ok used =>
            match w2.accounts caller with
            | none => .error (.err (.accountNotFound caller))
            | some acc' =>
              .ok (.transfer receiver carrying.assetId (accountBalance carrying.assetId acc)
                (accountBalance carrying.assetId acc'), used, w2)
  | .deploy code ty =>
    match ty with
    | .asset =>
      match w.accounts caller with
      | none => .error (.err (.accountNotFound caller))
      | some acc =>
        let address := ContractAddress.fromCode env.digest code (accountNonce acc) .asset
        let id := assetIdOf env address
        if (w.assets id).isSome then .error (.err (.assetExists id))
        else
          match consumeCycles .bankRegister 0 tx.raw.fee.cycle with
          | .error f => .error f
          | .ok used =>
            .ok (.deploy address .asset, used,
              w.setAsset id { id := id, name := "System token", symbol := "ST", supply := 21000000000000000,
                              manageContract := address, storageRoot := env.emptyHash })
    | _ => .error .panic
  | .approve _ _ _ => .error .panic
  | .call _ _ _ _ => .error .panic

theorem getAccount_view (s : St) (a : Address) :
    getAccount s a = match s.view.accounts a with
      | some x => .ok x
      | none => .error (.err (.accountNotFound a)) := rfl

theorem getAsset_view (s : St) (id : AssetID) :
    getAsset id s = match s.view.assets id with
      | some x => .ok x
      | none => .error (.err (.assetNotFound id)) := rfl

theorem accTransfer_eq (env : Env) (caller to : Address) (c : CarryingAsset) (limit : UInt64) (s : St) :
    ∃ s', (accTransfer env caller to c limit s).2 = s' ∧ s'.base = s.base ∧
      match s.view.move env caller to c.assetId c.amount with
      | .error f => (accTransfer env caller to c limit s).1 = .error f ∧ s'.used = s.used
      | .ok w2 =>
        match consumeCycles .accountTransfer s.used limit with
        | .error f => (accTransfer env caller to c limit s).1 = .error f ∧ s'.used = s.used
        | .ok u => (accTransfer env caller to c limit s).1 = .ok () ∧ s'.used = u ∧ s'.view = w2 := by
  refine ⟨_, rfl, ?_⟩
  simp only [accTransfer, subBalance_eq, World.move, addBalance_eq]
  cases hd : debitAccount c.assetId c.amount (s.view.findOrCreate env caller) with
  | error f => simp
  | ok x =>
    simp only []
    cases hc : consumeCycles .accountTransfer s.used limit with
    | error f => simp
    | ok u =>
      simp only [true_and]
      constructor
      · rfl
      · show (putAccount to _ (putAccount caller x s)).view = _
        rw [St.view_putAccount, St.view_putAccount]

theorem dispatch_eq (env : Env) (tx : SignedTx) (s : St) (hu : s.used = 0) :
    ∃ s', (dispatch env tx s).2 = s' ∧ s'.base = s.base ∧
      match s.view.apply env tx with
      | .error f => (dispatch env tx s).1 = .error f ∧ s'.used = 0
      | .ok (r, u, w) => (dispatch env tx s).1 = .ok r ∧ s'.used = u ∧ s'.view = w := by
  refine ⟨_, rfl, ?_⟩
  simp only [dispatch, World.apply]
  cases tx.raw.action with
  | approve _ _ _ => simp [hu]
  | call _ _ _ _ => simp [hu]
  | transfer receiver c =>
    simp only [handleTransfer, getAsset_view]
    cases s.view.assets c.assetId with
    | none => simp [hu]
    | some a0 =>
      simp only [getBalance, getAccount_view]
      cases hacc : s.view.accounts (.user (senderOf env tx)) with
      | none => simp [hu]
      | some acc =>
        simp only []
        obtain ⟨s', hs', hb, hm⟩ := accTransfer_eq env (.user (senderOf env tx)) (.user receiver) c
          tx.raw.fee.cycle s
        rw [hu] at hm
        cases hmv : s.view.move env (.user (senderOf env tx)) (.user receiver) c.assetId c.amount with
        | error f =>
          rw [hmv] at hm
          obtain ⟨h1, h2⟩ := hm
          have : accTransfer env (.user (senderOf env tx)) (.user receiver) c tx.raw.fee.cycle s = (.error f, s') :=
            Prod.ext h1 hs'
          rw [this]; simp [hb, h2]
        | ok w2 =>
          rw [hmv] at hm
          simp only [] at hm ⊢
          cases hcc : consumeCycles .accountTransfer 0 tx.raw.fee.cycle with
          | error f =>
            rw [hcc] at hm
            obtain ⟨h1, h2⟩ := hm
            have : accTransfer env (.user (senderOf env tx)) (.user receiver) c tx.raw.fee.cycle s = (.error f, s') :=
              Prod.ext h1 hs'
            rw [this]; simp [hb, h2]
          | ok u =>
            rw [hcc] at hm
            obtain ⟨h1, h2, h3⟩ := hm
            have he : accTransfer env (.user (senderOf env tx)) (.user receiver) c tx.raw.fee.cycle s = (.ok (), s') :=
              Prod.ext h1 hs'
            rw [he, ← h3]
            simp only []
            have hsome : ∃ acc', s'.view.accounts (.user (senderOf env tx)) = some acc' := by
              rw [h3]
              simp only [World.move] at hmv
              cases hd : debitAccount c.assetId c.amount (s.view.findOrCreate env (.user (senderOf env tx))) with
              | error f => rw [hd] at hmv; simp at hmv
              | ok x =>
                rw [hd] at hmv
                simp only [Except.ok.injEq] at hmv
                rw [← hmv]
                by_cases heq : (Address.user (senderOf env tx)) = .user receiver
                · simp [World.setAcc, PMap.set, heq]
                · simp [World.setAcc, PMap.set, heq]
            obtain ⟨acc', hacc'⟩ := hsome
            rw [hacc']
            simp [hb, h2]
  | deploy code ty =>
    cases ty with
    | app => simp [handleDeploy, hu]
    | library => simp [handleDeploy, hu]
    | native => simp [handleDeploy, hu]
    | asset =>
      simp only [handleDeploy, getAccount_view]
      cases s.view.accounts (.user (senderOf env tx)) with
      | none => simp [hu]
      | some acc =>
        simp only [bankRegister, Layers.contains_eq]
        rw [show s.view.assets = s.bank.get from rfl]
        have hty : (ContractAddress.fromCode env.digest code (accountNonce acc) .asset).ty = .asset := rfl
        simp only [hty, ne_eq, not_true_eq_false, if_false]
        by_cases hex : (s.bank.get (assetIdOf env (ContractAddress.fromCode env.digest code (accountNonce acc)
          .asset))).isSome = true
        · simp [hex, hu]
        · simp only [hex, if_false, hu, Bool.false_eq_true]
          cases hcc : consumeCycles .bankRegister 0 tx.raw.fee.cycle with
          | error f =>
            simp only [and_true]
            rfl
          | ok u =>
            simp only [true_and]
            refine ⟨rfl, ?_⟩
            exact congrArg (World.mk s.acc.get) (Layers.get_insertCache s.bank _ _)

end Huobi
