import Verif.Proof.ExecLoop
/-
Sums over accounts, simulation up to nonces, totality of the loop, and the fee summary.
-/
namespace Huobi

/-! ### Receipts with the root filled in -/

theorem outgoing_root (env : Env) (a : Address) (id : AssetID) (t : SignedTx) (r : Receipt) (h : Hash) :
    outgoing env a id (t, { r with stateRoot := h }) = outgoing env a id (t, r) := rfl
theorem incoming_root (a : Address) (id : AssetID) (t : SignedTx) (r : Receipt) (h : Hash) :
    incoming a id (t, { r with stateRoot := h }) = incoming a id (t, r) := rfl

theorem zip_respOf_sum (env : Env) (f : SignedTx × Receipt → Nat)
    (hf : ∀ t r h, f (t, { r with stateRoot := h }) = f (t, r)) {txs : List SignedTx} {rs : List Receipt} {w : World} :
    ((txs.zip (respOf env rs w).receipts).map f).sum = ((txs.zip rs).map f).sum := by
  simp only [respOf]
  induction txs generalizing rs with
  | nil => rfl
  | cons t ts ih =>
    cases rs with
    | nil => rfl
    | cons r rs => simp only [List.map_cons, List.zip_cons_cons, List.sum_cons, hf, ih]

theorem survivingBumps_root (env : Env) (a : Address) {txs : List SignedTx} {rs : List Receipt} {w : World} :
    survivingBumps env a (txs.zip (respOf env rs w).receipts) = survivingBumps env a (txs.zip rs) := by
  simp only [respOf]
  induction txs generalizing rs with
  | nil => rfl
  | cons t ts ih =>
    cases rs with
    | nil => rfl
    | cons r rs =>
      simp only [List.map_cons, List.zip_cons_cons, survivingBumps_cons, ih]
      congr 1
      cases ts with
      | nil => rfl
      | cons t' ts' => cases rs <;> rfl

theorem survivingBumps_le (env : Env) (a : Address) (l : List (SignedTx × Receipt)) :
    survivingBumps env a l ≤ (l.filter (fun t => decide (a = .user (senderOf env t.1)))).length := by
  induction l with
  | nil => simp [survivingBumps]
  | cons t l ih =>
    rw [survivingBumps_cons]
    have hp : pendingBump a (some (.user (senderOf env t.1))) l ≤ if a = .user (senderOf env t.1) then 1 else 0 := by
      cases l with
      | nil => simp [pendingBump]
      | cons t' l' =>
        simp only [pendingBump, Option.some.injEq]
        by_cases h : a = .user (senderOf env t.1)
        · simp only [h, true_and, if_true]; split <;> omega
        · have h' : ¬ Address.user (senderOf env t.1) = a := fun e => h e.symm
          simp [h, h']
    rw [List.filter_cons]
    by_cases h : a = .user (senderOf env t.1)
    · simp only [h, if_true, decide_true, List.length_cons] at hp ih ⊢; omega
    · simp only [h, if_false, decide_false, Bool.false_eq_true] at hp ⊢; omega

theorem filter_zip_le {α β : Type} (p : α → Bool) (xs : List α) (ys : List β) :
    ((xs.zip ys).filter (fun t => p t.1)).length ≤ (xs.filter p).length := by
  induction xs generalizing ys with
  | nil => simp
  | cons x xs ih =>
    cases ys with
    | nil => simp
    | cons y ys =>
      simp only [List.zip_cons_cons, List.filter_cons]
      have := ih ys
      cases p x <;> simp <;> omega

theorem zip_map_eq {α β γ : Type} {f : α → γ} {g : β → γ} {xs : List α} {ys : List β} (hlen : ys.length = xs.length)
    (h : ∀ t ∈ xs.zip ys, g t.2 = f t.1) : ys.map g = xs.map f := by
  induction xs generalizing ys with
  | nil => cases ys with
    | nil => rfl
    | cons _ _ => simp at hlen
  | cons x xs ih =>
    cases ys with
    | nil => simp at hlen
    | cons y ys =>
      simp only [List.length_cons, Nat.add_right_cancel_iff] at hlen
      simp only [List.map_cons]
      rw [ih hlen (fun t ht => h t (by simp [ht])), h (x, y) (by simp)]

theorem mem_zip_of_mem {α β : Type} {xs : List α} {ys : List β} (hlen : ys.length = xs.length) {y : β} (hy : y ∈ ys) :
    ∃ t ∈ xs.zip ys, t.2 = y := by
  induction xs generalizing ys with
  | nil => cases ys with
    | nil => simp at hy
    | cons _ _ => simp at hlen
  | cons x xs ih =>
    cases ys with
    | nil => simp at hy
    | cons z ys =>
      simp only [List.length_cons, Nat.add_right_cancel_iff] at hlen
      rcases List.mem_cons.1 hy with rfl | hy
      · exact ⟨(x, y), by simp, rfl⟩
      · obtain ⟨t, ht, rfl⟩ := ih hlen hy
        exact ⟨t, by simp [ht], rfl⟩

/-! ### Sums -/

theorem sum_map_congr_add {α : Type} (L : List α) (b' b o i : α → Nat) (h : ∀ a, b' a + o a = b a + i a) :
    (L.map b').sum + (L.map o).sum = (L.map b).sum + (L.map i).sum := by
  induction L with
  | nil => rfl
  | cons a L ih => simp only [List.map_cons, List.sum_cons]; have := h a; omega

theorem sum_erase {α : Type} [DecidableEq α] (f : α → Nat) {L : List α} {a : α} (h : a ∈ L) :
    (L.map f).sum = f a + ((L.erase a).map f).sum := by
  induction L with
  | nil => simp at h
  | cons b L ih =>
    by_cases hb : b = a
    · subst hb; simp
    · rcases List.mem_cons.1 h with rfl | h
      · exact absurd rfl hb
      · rw [List.erase_cons_tail (by simpa using hb)]
        simp only [List.map_cons, List.sum_cons, ih h]; omega

theorem sum_zero {α : Type} (f : α → Nat) {L : List α} (h : ∀ a ∈ L, f a = 0) : (L.map f).sum = 0 := by
  induction L with
  | nil => rfl
  | cons a L ih =>
    simp only [List.map_cons, List.sum_cons, h a (by simp), ih (fun b hb => h b (by simp [hb]))]

theorem sum_support_unique {α : Type} [DecidableEq α] (f : α → Nat) {L1 L2 : List α} (h1 : L1.Nodup) (h2 : L2.Nodup)
    (z1 : ∀ a, a ∉ L1 → f a = 0) (z2 : ∀ a, a ∉ L2 → f a = 0) : (L1.map f).sum = (L2.map f).sum := by
  induction L1 generalizing L2 f with
  | nil => simp only [List.map_nil, List.sum_nil]; exact (sum_zero f (fun a _ => z1 a (by simp))).symm
  | cons a L1 ih =>
    rw [List.nodup_cons] at h1
    by_cases ha : a ∈ L2
    · rw [sum_erase f ha]
      simp only [List.map_cons, List.sum_cons]
      congr 1
      have e1 : (L1.map f).sum = (L1.map (fun b => if b = a then 0 else f b)).sum := by
        congr 1; apply List.map_congr_left; intro b hb
        have : b ≠ a := fun e => h1.1 (e ▸ hb)
        simp [this]
      have e2 : ((L2.erase a).map f).sum = ((L2.erase a).map (fun b => if b = a then 0 else f b)).sum := by
        congr 1; apply List.map_congr_left; intro b hb
        have : b ≠ a := fun e => by rw [e] at hb; exact (h2.not_mem_erase) hb
        simp [this]
      rw [e1, e2]
      apply ih _ h1.2 (h2.erase a)
      · intro b hb
        by_cases e : b = a
        · simp [e]
        · simp only [e, if_false]; exact z1 b (by simp [e, hb])
      · intro b hb
        by_cases e : b = a
        · simp [e]
        · simp only [e, if_false]
          exact z2 b (fun hc => hb ((List.mem_erase_of_ne e).2 hc))
    · have fa := z2 a ha
      simp only [List.map_cons, List.sum_cons, fa, Nat.zero_add]
      apply ih f h1.2 h2
      · intro b hb
        by_cases e : b = a
        · rw [e]; exact fa
        · exact z1 b (by simp [e, hb])
      · exact z2

theorem extend_nodup {α : Type} [DecidableEq α] (L : List α) (hn : L.Nodup) (M : List α) :
    ∃ L' : List α, L'.Nodup ∧ (∀ {a}, a ∈ L → a ∈ L') ∧ (∀ {a}, a ∈ M → a ∈ L') := by
  induction M with
  | nil => exact ⟨L, hn, id, by simp⟩
  | cons m M ih =>
    obtain ⟨L', h1, h2, h3⟩ := ih
    by_cases hm : m ∈ L'
    · exact ⟨L', h1, h2, fun h => (List.mem_cons.1 h).elim (fun e => e ▸ hm) (fun h => h3 h)⟩
    · refine ⟨m :: L', List.nodup_cons.2 ⟨hm, h1⟩, fun h => by simp [h2 h], fun h => ?_⟩
      rcases List.mem_cons.1 h with rfl | h
      · simp
      · simp [h3 h]

/-- The accounts a transaction can move value between. -/
def parties (env : Env) (t : SignedTx) : List Address :=
  match t.raw.action with
  | .transfer receiver _ => [.user (senderOf env t), .user receiver]
  | _ => []

theorem sum_incoming_zero (env : Env) (a : Address) (id : AssetID) (l : List (SignedTx × Receipt))
    (h : a ∉ l.flatMap (fun t => parties env t.1)) : (l.map (incoming a id)).sum = 0 := by
  apply sum_zero
  intro t ht
  simp only [incoming]
  cases hact : t.1.raw.action with
  | transfer recv c =>
    simp only []
    have : a ≠ .user recv := by
      intro e
      apply h
      rw [List.mem_flatMap]
      exact ⟨t, ht, by simp [parties, hact, e]⟩
    simp [this]
  | _ => rfl

theorem sum_indicator {α : Type} [DecidableEq α] (L : List α) (hn : L.Nodup) (x : α) (hx : x ∈ L) (P : Prop)
    [Decidable P] (n : Nat) : (L.map (fun a => if P ∧ a = x then n else 0)).sum = if P then n else 0 := by
  rw [sum_erase _ hx]
  rw [sum_zero _ (L := L.erase x)]
  · simp
  · intro b hb
    have : b ≠ x := fun e => by rw [e] at hb; exact (hn.not_mem_erase) hb
    simp [this]

theorem sum_add {α : Type} (L : List α) (f g : α → Nat) : (L.map (fun a => f a + g a)).sum = (L.map f).sum + (L.map g).sum := by
  induction L with
  | nil => rfl
  | cons a L ih => simp only [List.map_cons, List.sum_cons, ih]; omega

theorem sum_out_eq_in (env : Env) (id : AssetID) (L : List Address) (hn : L.Nodup) (l : List (SignedTx × Receipt))
    (h : ∀ a, a ∈ l.flatMap (fun t => parties env t.1) → a ∈ L) :
    (L.map (fun a => (l.map (outgoing env a id)).sum)).sum = (L.map (fun a => (l.map (incoming a id)).sum)).sum := by
  induction l with
  | nil => simp
  | cons t l ih =>
    simp only [List.map_cons, List.sum_cons]
    rw [sum_add, sum_add, ih (fun a ha => h a (by simp only [List.flatMap_cons, List.mem_append]; exact .inr ha))]
    congr 1
    cases hact : t.1.raw.action with
    | transfer recv c =>
      have hs : Address.user (senderOf env t.1) ∈ L := h _ (by simp [parties, hact])
      have hr : Address.user recv ∈ L := h _ (by simp [parties, hact])
      have e1 := sum_indicator L hn _ hs (t.2.result.isFail = false ∧ id = c.assetId) c.amount
      have e2 := sum_indicator L hn _ hr (t.2.result.isFail = false ∧ id = c.assetId) c.amount
      have o : ∀ a, outgoing env a id t = if (t.2.result.isFail = false ∧ id = c.assetId) ∧ a = .user (senderOf env t.1) then c.amount else 0 := by
        intro a; simp only [outgoing, hact]; congr 1; simp only [and_assoc, and_comm (a := id = c.assetId)]
      have i : ∀ a, incoming a id t = if (t.2.result.isFail = false ∧ id = c.assetId) ∧ a = .user recv then c.amount else 0 := by
        intro a; simp only [incoming, hact]; congr 1; simp only [and_assoc, and_comm (a := id = c.assetId)]
      simp only [o, i]
      rw [e1, e2]
    | approve _ _ _ => simp [outgoing, incoming, hact]
    | deploy _ _ => simp [outgoing, incoming, hact]
    | call _ _ _ _ => simp [outgoing, incoming, hact]

/-! ### Simulation up to nonces -/

/-- Equal accounts but for the nonce. -/
def SimAccount : Account → Account → Prop
  | .user u, .user v => u.assets = v.assets
  | .contract c, .contract d => c.assets = d.assets ∧ c.storageRoot = d.storageRoot
  | _, _ => False

/-- Both absent, or both present and related. -/
inductive RelO {α β : Type} (R : α → β → Prop) : Option α → Option β → Prop
  | none : RelO R none none
  | some {x y} : R x y → RelO R (some x) (some y)

/-- Both the same fault, or both related results. -/
inductive RelE {α β : Type} (R : α → β → Prop) : Except Fault α → Except Fault β → Prop
  | error (f) : RelE R (.error f) (.error f)
  | ok {x y} : R x y → RelE R (.ok x) (.ok y)

/-- Equal worlds but for nonces. -/
structure SimWorld (w v : World) : Prop where
  assets : w.assets = v.assets
  acc : ∀ a, RelO SimAccount (w.accounts a) (v.accounts a)

theorem SimAccount.refl (x : Account) : SimAccount x x := by cases x <;> simp [SimAccount]
theorem SimAccount.bump {x y : Account} (h : SimAccount x y) : SimAccount (bumpNonce x) y := by
  cases x <;> cases y <;> first | exact h | (simp only [SimAccount] at h)
theorem SimAccount.symm {x y : Account} (h : SimAccount x y) : SimAccount y x := by
  cases x <;> cases y <;> simp only [SimAccount] at h ⊢
  · exact h.symm
  · exact ⟨h.1.symm, h.2.symm⟩

theorem SimWorld.refl (w : World) : SimWorld w w :=
  ⟨rfl, fun a => by cases w.accounts a with | none => exact .none | some x => exact .some (SimAccount.refl x)⟩

theorem SimWorld.bump {w v : World} (h : SimWorld w v) (p q : Option Address) : SimWorld (w.bumpAt p) (v.bumpAt q) := by
  refine ⟨by simp [h.assets], fun a => ?_⟩
  rw [World.accounts_bumpAt, World.accounts_bumpAt]
  generalize hx : w.accounts a = x, hy : v.accounts a = y
  have := h.acc a
  rw [hx, hy] at this
  cases this with
  | none => simp only [Option.map_none, ite_self]; exact .none
  | some hs =>
    by_cases h1 : p = some a <;> by_cases h2 : q = some a <;> simp only [h1, h2, if_true, if_false, Option.map_some]
    · exact .some (hs.bump.symm.bump).symm
    · exact .some hs.bump
    · exact .some hs.symm.bump.symm
    · exact .some hs

theorem accountBalance_sim {x y : Account} (h : SimAccount x y) (id : AssetID) :
    accountBalance id x = accountBalance id y := by
  cases x <;> cases y <;> simp only [SimAccount] at h
  · simp only [accountBalance, h]
  · simp only [accountBalance, h.1]

theorem accountApprovals_sim {x y : Account} (h : SimAccount x y) (id : AssetID) :
    accountApprovals id x = accountApprovals id y := by
  cases x <;> cases y <;> simp only [SimAccount] at h
  · simp only [accountApprovals, h]
  · simp only [accountApprovals]

theorem SimWorld.balance {w v : World} (h : SimWorld w v) (a : Address) (id : AssetID) :
    Huobi.balance w a id = Huobi.balance v a id := by
  rw [balance_eq, balance_eq]
  generalize hx : w.accounts a = x, hy : v.accounts a = y
  have := h.acc a
  rw [hx, hy] at this
  cases this with
  | none => rfl
  | some hs => exact accountBalance_sim hs id

theorem SimWorld.approvals {w v : World} (h : SimWorld w v) (a : Address) (id : AssetID) :
    Huobi.approvals w a id = Huobi.approvals v a id := by
  rw [approvals_eq, approvals_eq]
  generalize hx : w.accounts a = x, hy : v.accounts a = y
  have := h.acc a
  rw [hx, hy] at this
  cases this with
  | none => rfl
  | some hs => exact accountApprovals_sim hs id

theorem SimWorld.has {w v : World} (h : SimWorld w v) (a : Address) : w.HasAccount a ↔ v.HasAccount a := by
  unfold World.HasAccount
  generalize hx : w.accounts a = x, hy : v.accounts a = y
  have := h.acc a
  rw [hx, hy] at this
  cases this <;> simp

theorem SimWorld.setAcc {w v : World} (h : SimWorld w v) {a : Address} {x y : Account} (hxy : SimAccount x y) :
    SimWorld (w.setAcc a x) (v.setAcc a y) := by
  refine ⟨h.assets, fun b => ?_⟩
  rw [World.accounts_setAcc, World.accounts_setAcc]
  by_cases hb : b = a
  · simp only [hb, if_true]; exact .some hxy
  · simp only [hb, if_false]; exact h.acc b

theorem SimWorld.findOrCreate {env : Env} {w v : World} (h : SimWorld w v) (a : Address) :
    SimAccount (w.findOrCreate env a) (v.findOrCreate env a) := by
  simp only [World.findOrCreate]
  generalize hx : w.accounts a = x, hy : v.accounts a = y
  have := h.acc a
  rw [hx, hy] at this
  cases this with
  | none => exact SimAccount.refl _
  | some hs => exact hs

theorem SimAccount.credit {x y : Account} (h : SimAccount x y) (id : AssetID) (n : Nat) :
    SimAccount (creditAccount id n x) (creditAccount id n y) := by
  cases x <;> cases y <;> simp only [SimAccount] at h
  · rename_i u v
    simp only [creditAccount, addBalanceUser, h]
    cases v.assets.get id <;> simp [SimAccount]
  · rename_i u v
    simp only [creditAccount, addBalanceContract, h.1]
    cases v.assets.get id <;> simp [SimAccount, h.2]

theorem SimAccount.debit {x y : Account} (h : SimAccount x y) (id : AssetID) (n : Nat) :
    RelE SimAccount (debitAccount id n x) (debitAccount id n y) := by
  cases x <;> cases y <;> simp only [SimAccount] at h
  · rename_i u v
    simp only [debitAccount, subBalanceUser, h]
    cases v.assets.get id with
    | none => exact .error _
    | some info =>
      by_cases hlt : info.balance < n
      · simp only [hlt, if_true, Except.map]; exact .error _
      · simp only [hlt, if_false, Except.map]; exact .ok (by simp [SimAccount])
  · rename_i u v
    simp only [debitAccount, subBalanceContract, h.1]
    cases v.assets.get id with
    | none => exact .ok (by simp [SimAccount, h.2])
    | some b =>
      by_cases hlt : b < n
      · simp only [hlt, if_true, Except.map]; exact .error _
      · simp only [hlt, if_false, Except.map]; exact .ok (by simp [SimAccount, h.2])

theorem SimWorld.move {env : Env} {w v : World} (h : SimWorld w v) (s r : Address) (id : AssetID) (n : Nat) :
    RelE SimWorld (w.move env s r id n) (v.move env s r id n) := by
  simp only [World.move]
  generalize hx : debitAccount id n (w.findOrCreate env s) = x
  generalize hy : debitAccount id n (v.findOrCreate env s) = y
  have hd := (h.findOrCreate (env := env) s).debit id n
  rw [hx, hy] at hd
  cases hd with
  | error f => exact .error f
  | ok hs =>
    have h1 := h.setAcc (a := s) hs
    exact .ok (h1.setAcc ((h1.findOrCreate (env := env) r).credit id n))

theorem SimWorld.apply {env : Env} {w v : World} (h : SimWorld w v) (tx : SignedTx)
    (hact : ∀ code ty, tx.raw.action ≠ .deploy code ty) :
    RelE (fun x y => x.1 = y.1 ∧ x.2.1 = y.2.1 ∧ SimWorld x.2.2 y.2.2) (w.apply env tx) (v.apply env tx) := by
  simp only [World.apply]
  cases ha : tx.raw.action with
  | deploy code ty => exact absurd ha (hact code ty)
  | approve _ _ _ => exact .error _
  | call _ _ _ _ => exact .error _
  | transfer recv c =>
    simp only [h.assets]
    cases v.assets c.assetId with
    | none => exact .error _
    | some a0 =>
      simp only []
      generalize hx : w.accounts (.user (senderOf env tx)) = x
      generalize hy : v.accounts (.user (senderOf env tx)) = y
      have hacc := h.acc (.user (senderOf env tx))
      rw [hx, hy] at hacc
      cases hacc with
      | none => exact .error _
      | some hs =>
        simp only []
        generalize hmx : w.move env (.user (senderOf env tx)) (.user recv) c.assetId c.amount = mx
        generalize hmy : v.move env (.user (senderOf env tx)) (.user recv) c.assetId c.amount = my
        have hm := h.move (env := env) (.user (senderOf env tx)) (.user recv) c.assetId c.amount
        rw [hmx, hmy] at hm
        cases hm with
        | error f => exact .error f
        | @ok w2 v2 hm =>
          simp only []
          cases consumeCycles .accountTransfer 0 tx.raw.fee.cycle with
          | error f => exact .error f
          | ok u =>
            simp only []
            generalize hx2 : w2.accounts (.user (senderOf env tx)) = x2
            generalize hy2 : v2.accounts (.user (senderOf env tx)) = y2
            have hacc2 := hm.acc (.user (senderOf env tx))
            rw [hx2, hy2] at hacc2
            cases hacc2 with
            | none => exact .error _
            | some hs2 =>
              exact .ok ⟨by rw [accountBalance_sim hs, accountBalance_sim hs2], rfl, hm⟩

theorem SimWorld.finish {env : Env} {w v : World} (h : SimWorld w v) (tx : SignedTx) (res : ReceiptResult) (u : UInt64) :
    RelE (fun x y => x.1 = y.1 ∧ SimWorld x.2 y.2) (finishStep env tx res u w) (finishStep env tx res u v) := by
  simp only [finishStep]
  generalize hx : w.accounts (.user (senderOf env tx)) = x
  generalize hy : v.accounts (.user (senderOf env tx)) = y
  have hacc := h.acc (.user (senderOf env tx))
  rw [hx, hy] at hacc
  cases hacc with
  | none => exact .error _
  | some _ => exact .ok ⟨rfl, h⟩

theorem SimWorld.step {env : Env} {w v : World} (h : SimWorld w v) (tx : SignedTx) (p q : Option Address)
    (hact : ∀ code ty, tx.raw.action ≠ .deploy code ty) :
    RelE (fun x y => x.1 = y.1 ∧ SimWorld x.2 y.2) (flatStep env tx w p) (flatStep env tx v q) := by
  simp only [flatStep]
  generalize hx : (w.bumpAt p).apply env tx = x
  generalize hy : (v.bumpAt q).apply env tx = y
  have ha := (h.bump p q).apply (env := env) tx hact
  rw [hx, hy] at ha
  cases ha with
  | error f =>
    cases f with
    | panic => exact .error _
    | err e => exact h.finish tx _ _
  | @ok x y hs =>
    obtain ⟨r, u, w'⟩ := x
    obtain ⟨r', u', v'⟩ := y
    obtain ⟨rfl, rfl, hs⟩ := hs
    exact hs.finish tx _ _

theorem flatLoop_sim {env : Env} {txs : List SignedTx} {w v : World} {p p' : Option Address} {rs : List Receipt}
    {w' : World} (hact : ∀ t ∈ txs, ∀ code ty, t.raw.action ≠ .deploy code ty) (hs : SimWorld w v)
    (h : flatLoop env txs w p = .ok (rs, w')) : ∃ v', flatLoop env txs v p' = .ok (rs, v') ∧ SimWorld w' v' := by
  induction txs generalizing w v p p' rs with
  | nil =>
    simp only [flatLoop, Except.ok.injEq, Prod.mk.injEq] at h ⊢
    obtain ⟨rfl, rfl⟩ := h
    exact ⟨v, ⟨rfl, rfl⟩, hs⟩
  | cons tx txs ih =>
    have hst := hs.step (env := env) tx p p' (hact tx (by simp))
    simp only [flatLoop] at h ⊢
    generalize hx : flatStep env tx w p = x at h hst
    generalize hy : flatStep env tx v p' = y at hst ⊢
    cases hst with
    | error f => simp at h
    | @ok x y hst =>
        obtain ⟨r, w1⟩ := x
        obtain ⟨r', v1⟩ := y
        obtain ⟨hrr, hs1⟩ := hst
        simp only [] at hrr hs1
        subst hrr
        simp only [] at h ⊢
        cases hl : flatLoop env txs w1 (some (.user (senderOf env tx))) with
        | error f => rw [hl] at h; simp at h
        | ok z =>
          obtain ⟨rs', w2⟩ := z
          rw [hl] at h
          simp only [Except.ok.injEq, Prod.mk.injEq] at h
          obtain ⟨rfl, rfl⟩ := h
          obtain ⟨v2, hv2, hs2⟩ := ih (fun t ht => hact t (by simp [ht])) hs1 hl
            (p' := some (.user (senderOf env tx)))
          exact ⟨v2, by rw [hv2], hs2⟩

/-! ### Which actions are supported -/

theorem flatStep_supported {env : Env} {tx : SignedTx} {w : World} {p : Option Address} {x : Receipt × World}
    (h : flatStep env tx w p = .ok x) :
    (∃ r c, tx.raw.action = .transfer r c) ∨ (∃ code, tx.raw.action = .deploy code .asset) := by
  cases ha : tx.raw.action with
  | transfer r c => exact .inl ⟨r, c, rfl⟩
  | approve _ _ _ => simp [flatStep, World.apply, ha] at h
  | call _ _ _ _ => simp [flatStep, World.apply, ha] at h
  | deploy code ty =>
    cases ty with
    | asset => exact .inr ⟨code, rfl⟩
    | _ => simp [flatStep, World.apply, ha] at h

theorem flatStep_panics {env : Env} {tx : SignedTx} {w : World} {p : Option Address}
    (hact : (∃ s i m, tx.raw.action = .approve s i m) ∨ (∃ c m as k, tx.raw.action = .call c m as k) ∨
      (∃ code ty, ty ≠ .asset ∧ tx.raw.action = .deploy code ty)) :
    flatStep env tx w p = .error .panic := by
  rcases hact with ⟨_, _, _, h⟩ | ⟨_, _, _, _, h⟩ | ⟨_, ty, hne, h⟩
  · simp [flatStep, World.apply, h]
  · simp [flatStep, World.apply, h]
  · cases ty with
    | asset => exact absurd rfl hne
    | _ => simp [flatStep, World.apply, h]

theorem flatStep_sender_exists {env : Env} {tx : SignedTx} {w : World} {p : Option Address} {x : Receipt × World}
    (h : flatStep env tx w p = .ok x) : w.HasAccount (.user (senderOf env tx)) := by
  cases hacc : w.accounts (.user (senderOf env tx)) with
  | some y => simp [World.HasAccount, hacc]
  | none =>
    exfalso
    have hb : (w.bumpAt p).accounts (.user (senderOf env tx)) = none := by
      rw [World.accounts_bumpAt]; split <;> simp [hacc]
    rcases flatStep_supported h with ⟨r, c, ha⟩ | ⟨code, ha⟩
    · simp only [flatStep, World.apply, ha, hb] at h
      cases hx : (w.bumpAt p).assets c.assetId <;> rw [hx] at h <;> simp [finishStep, hacc] at h
    · simp [flatStep, World.apply, ha, hb, finishStep, hacc] at h

theorem flatLoop_coinbase (env : Env) (cb : Address) (txs : List SignedTx) (w : World) (p : Option Address) :
    flatLoop { env with coinbase := cb } txs w p = flatLoop env txs w p := by
  induction txs generalizing w p with
  | nil => rfl
  | cons tx txs ih =>
    simp only [flatLoop]
    have : flatStep { env with coinbase := cb } tx w p = flatStep env tx w p := rfl
    rw [this]
    simp only [ih]
    rfl

theorem flatStep_total (env : Env) (tx : SignedTx) (w : World) (p : Option Address) (hw : w.WellTyped)
    (hs : w.HasAccount (.user (senderOf env tx)))
    (hact : (∃ r c, tx.raw.action = .transfer r c) ∨ (∃ code, tx.raw.action = .deploy code .asset)) :
    ∃ x, flatStep env tx w p = .ok x := by
  have hfin : ∀ res u (v : World), v.HasAccount (.user (senderOf env tx)) → ∃ x, finishStep env tx res u v = .ok x := by
    intro res u v hv
    simp only [finishStep]
    cases h : v.accounts (.user (senderOf env tx)) with
    | none => simp [World.HasAccount, h] at hv
    | some y => exact ⟨_, rfl⟩
  have hb := (hasAccount_bumpAt w p (.user (senderOf env tx))).2 hs
  obtain ⟨acc, hacc⟩ := Option.isSome_iff_exists.1 hb
  simp only [flatStep]
  cases hap : (w.bumpAt p).apply env tx with
  | error f =>
    cases f with
    | err e => exact hfin _ _ w hs
    | panic =>
      exfalso
      rcases hact with ⟨r, c, ha⟩ | ⟨code, ha⟩
      · simp only [World.apply, ha, hacc] at hap
        cases hx : (w.bumpAt p).assets c.assetId with
        | none => rw [hx] at hap; simp at hap
        | some a0 =>
          rw [hx] at hap
          simp only [] at hap
          obtain ⟨u, hu⟩ := findOrCreate_user (env := env) (wellTyped_bumpAt hw p) (senderOf env tx)
          simp only [World.move, hu, debitAccount, subBalanceUser] at hap
          cases hg : u.assets.get c.assetId with
          | none => rw [hg] at hap; simp [Except.map] at hap
          | some info =>
            rw [hg] at hap
            simp only [] at hap
            by_cases hlt : info.balance < c.amount
            · simp [hlt, Except.map] at hap
            · simp only [hlt, if_false, Except.map] at hap
              simp only [consumeCycles] at hap
              split at hap
              · rename_i heq
                split at heq
                · simp only [Except.error.injEq] at heq; subst heq; simp at hap
                · simp at heq
              · split at hap <;> simp at hap
      · simp only [World.apply, ha, hacc] at hap
        split at hap
        · simp at hap
        · simp only [consumeCycles] at hap
          split at hap
          · rename_i heq
            split at heq
            · simp only [Except.error.injEq] at heq; subst heq; simp at hap
            · simp at heq
          · simp at hap
  | ok y =>
    obtain ⟨res, u, w'⟩ := y
    apply hfin
    rcases hact with ⟨r, c, ha⟩ | ⟨code, ha⟩
    · simp only [World.apply, ha, hacc] at hap
      split at hap
      · simp at hap
      · split at hap
        · simp at hap
        · split at hap
          · simp at hap
          · split at hap
            · simp at hap
            · rename_i h
              simp only [Except.ok.injEq, Prod.mk.injEq] at hap
              obtain ⟨-, -, rfl⟩ := hap
              simp [World.HasAccount, h]
    · simp only [World.apply, ha, hacc] at hap
      split at hap
      · simp at hap
      · split at hap
        · simp at hap
        · simp only [Except.ok.injEq, Prod.mk.injEq] at hap
          obtain ⟨-, -, rfl⟩ := hap
          exact hb

theorem flatLoop_total (env : Env) (txs : List SignedTx) (w : World) (p : Option Address) (hw : w.WellTyped)
    (hs : ∀ t ∈ txs, w.HasAccount (.user (senderOf env t)))
    (hact : ∀ t ∈ txs, (∃ r c, t.raw.action = .transfer r c) ∨ (∃ code, t.raw.action = .deploy code .asset)) :
    ∃ rs w', flatLoop env txs w p = .ok (rs, w') := by
  induction txs generalizing w p with
  | nil => exact ⟨_, _, rfl⟩
  | cons tx txs ih =>
    obtain ⟨⟨r, w1⟩, h1⟩ := flatStep_total env tx w p hw (hs tx (by simp)) (hact tx (by simp))
    have he := (flatStep_effect hw h1).2.2.2.2
    obtain ⟨rs, w2, h2⟩ := ih w1 (some (.user (senderOf env tx))) (he.typed hw)
      (fun t ht => he.has (hs t (by simp [ht]))) (fun t ht => hact t (by simp [ht]))
    exact ⟨r :: rs, w2, by simp only [flatLoop, h1, h2]⟩

/-! ### Fee summary -/

theorem modifyAll_ids (l : List Fee) (f : Fee) :
    (modifyAllCyclesUsed l f).map (·.assetId) =
      if f.assetId ∈ l.map (·.assetId) then l.map (·.assetId) else l.map (·.assetId) ++ [f.assetId] := by
  induction l with
  | nil => simp [modifyAllCyclesUsed]
  | cons g gs ih =>
    simp only [modifyAllCyclesUsed]
    by_cases h : g.assetId = f.assetId
    · simp [h]
    · have h' : ¬ f.assetId = g.assetId := fun e => h e.symm
      simp only [h, if_false, List.map_cons, ih, List.mem_cons, h', false_or]
      split <;> simp

/-- The recorded amount of an asset, zero if absent. -/
def feeOf (id : AssetID) : List Fee → UInt64
  | [] => 0
  | g :: gs => if g.assetId = id then g.cycle else feeOf id gs

theorem feeOf_not_mem {id : AssetID} {l : List Fee} (h : id ∉ l.map (·.assetId)) : feeOf id l = 0 := by
  induction l with
  | nil => rfl
  | cons g gs ih =>
    simp only [List.map_cons, List.mem_cons, not_or] at h
    have : ¬ g.assetId = id := fun e => h.1 e.symm
    simp only [feeOf, this, if_false]
    exact ih h.2

theorem modifyAll_fee (l : List Fee) (f : Fee) (id : AssetID) :
    feeOf id (modifyAllCyclesUsed l f) = feeOf id l + if f.assetId = id then f.cycle else 0 := by
  induction l with
  | nil => simp [modifyAllCyclesUsed, feeOf]
  | cons g gs ih =>
    simp only [modifyAllCyclesUsed]
    by_cases h : g.assetId = f.assetId
    · simp only [h, if_true, feeOf]
      by_cases h2 : f.assetId = id <;> simp [h2]
    · simp only [h, if_false, feeOf, ih]
      by_cases h2 : g.assetId = id
      · have : ¬ f.assetId = id := fun e => h (h2.trans e.symm)
        simp [h2, this]
      · simp [h2]

theorem feeOf_mem {l : List Fee} (hn : (l.map (·.assetId)).Nodup) {f : Fee} (hf : f ∈ l) : feeOf f.assetId l = f.cycle := by
  induction l with
  | nil => simp at hf
  | cons g gs ih =>
    simp only [List.map_cons, List.nodup_cons] at hn
    rcases List.mem_cons.1 hf with rfl | hf
    · simp [feeOf]
    · have : ¬ g.assetId = f.assetId := fun e => hn.1 (e ▸ List.mem_map_of_mem hf)
      simp only [feeOf, this, if_false]
      exact ih hn.2 hf

theorem eraseDups_append_singleton {α : Type} [DecidableEq α] (l : List α) (a : α) :
    (l ++ [a]).eraseDups = if a ∈ l then l.eraseDups else l.eraseDups ++ [a] := by
  rw [List.eraseDups_append]
  by_cases h : a ∈ l
  · simp [h, List.removeAll]
  · simp [h, List.removeAll, List.eraseDups_cons]

theorem nodup_eraseDups {α : Type} [DecidableEq α] (l : List α) : l.eraseDups.Nodup := by
  have key : ∀ l : List α, l.reverse.eraseDups.Nodup := by
    intro l
    induction l with
    | nil => simp
    | cons a l ih =>
      rw [List.reverse_cons, eraseDups_append_singleton]
      split
      · exact ih
      · rename_i h
        rw [List.nodup_append]
        refine ⟨ih, by simp, ?_⟩
        intro x hx y hy
        simp only [List.mem_singleton] at hy
        subst hy
        intro e
        rw [e, List.mem_eraseDups] at hx
        exact h hx
  have := key l.reverse
  rwa [List.reverse_reverse] at this

theorem allCyclesUsed_spec (rs : List Receipt) :
    (allCyclesUsed rs).map (·.assetId) = (rs.map (·.cyclesUsed.assetId)).eraseDups ∧
    ∀ f ∈ allCyclesUsed rs,
      f.cycle = UInt64.ofNat (((rs.filter (fun r => decide (r.cyclesUsed.assetId = f.assetId))).map
        (fun r => r.cyclesUsed.cycle.toNat)).sum) := by
  have key : ∀ l : List Receipt, (allCyclesUsed l.reverse).map (·.assetId) =
        (l.reverse.map (·.cyclesUsed.assetId)).eraseDups ∧
      ∀ id, feeOf id (allCyclesUsed l.reverse) =
        UInt64.ofNat (((l.reverse.filter (fun r => decide (r.cyclesUsed.assetId = id))).map
          (fun r => r.cyclesUsed.cycle.toNat)).sum) := by
    intro l
    induction l with
    | nil => exact ⟨rfl, fun _ => rfl⟩
    | cons r l ih =>
      have hstep : allCyclesUsed (r :: l).reverse = modifyAllCyclesUsed (allCyclesUsed l.reverse) r.cyclesUsed := by
        simp [allCyclesUsed, List.foldl_append]
      rw [hstep]
      constructor
      · rw [modifyAll_ids, ih.1, List.reverse_cons, List.map_append, List.map_singleton, eraseDups_append_singleton]
        simp only [List.mem_eraseDups]
      · intro id
        rw [modifyAll_fee, ih.2 id, List.reverse_cons, List.filter_append, List.map_append, List.sum_append,
          UInt64.ofNat_add]
        congr 1
        by_cases h : r.cyclesUsed.assetId = id <;> simp [h]
  have hk := key rs.reverse
  rw [List.reverse_reverse] at hk
  refine ⟨hk.1, fun f hf => ?_⟩
  rw [← hk.2 f.assetId]
  refine (feeOf_mem ?_ hf).symm
  rw [hk.1]
  exact nodup_eraseDups _

end Huobi
