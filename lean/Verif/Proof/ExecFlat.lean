import Verif.Proof.Executor
/-
The executor loop is equivalent to a loop over a flat world with at most one pending nonce increment.
-/
namespace Huobi

/-- The world with the nonce of one account incremented. -/
def World.bumpAt (w : World) : Option Address → World
  | none => w
  | some a => match w.accounts a with
    | none => w
    | some acc => w.setAcc a (bumpNonce acc)

/-- The end of one iteration: the sender's account must exist; build the receipt. -/
def finishStep (env : Env) (tx : SignedTx) (res : ReceiptResult) (u : UInt64) (w' : World) :
    Except Fault (Receipt × World) :=
  match w'.accounts (.user (senderOf env tx)) with
  | none => .error (.err (.accountNotFound (.user (senderOf env tx))))
  | some _ => .ok ({ stateRoot := env.emptyHash, epochId := env.epochId, txHash := tx.txHash,
                     cyclesUsed := { assetId := tx.raw.fee.assetId, cycle := u * env.cyclesPrice },
                     result := res }, w')

/-- What one transaction does to (base world, pending nonce increment). -/
def flatStep (env : Env) (tx : SignedTx) (w : World) (p : Option Address) :
    Except Fault (Receipt × World) :=
  match (w.bumpAt p).apply env tx with
  | .ok (res, u, w') => finishStep env tx res u w'
  | .error (.err e) => finishStep env tx (.fail (env.showErr e) "") 0 w
  | .error .panic => .error .panic

/-- The loop. -/
def flatLoop (env : Env) : List SignedTx → World → Option Address → Except Fault (List Receipt × World)
  | [], w, _ => .ok ([], w)
  | tx :: txs, w, p =>
    match flatStep env tx w p with
    | .error f => .error f
    | .ok (r, w') =>
      match flatLoop env txs w' (some (.user (senderOf env tx))) with
      | .error f => .error f
      | .ok (rs, w'') => .ok (r :: rs, w'')

theorem incNonce_eq (a : Address) (s : St) :
    incNonce a s = match s.view.accounts a with
      | none => (.error (.err (.accountNotFound a)), s)
      | some acc => (.ok (), putAccount a (bumpNonce acc) s) := by
  simp only [incNonce, getAccount_view]
  cases s.view.accounts a <;> rfl

theorem bumpAt_view (s : St) (a : Address) (acc : Account) (h : s.view.accounts a = some acc)
    (hb : s.view = s.base) :
    (putAccount a (bumpNonce acc) s).view = (putAccount a (bumpNonce acc) s).base.bumpAt (some a) := by
  rw [St.view_putAccount, St.base_putAccount, ← hb]
  simp only [World.bumpAt, h]

theorem execTx_eq (env : Env) (tx : SignedTx) (s : St) (p : Option Address) (hv : s.view = s.base.bumpAt p) :
    match flatStep env tx s.base p with
    | .error f => (execTx env tx s).1 = .error f
    | .ok (r, w') => (execTx env tx s).1 = .ok r ∧ (execTx env tx s).2.base = w' ∧
        (execTx env tx s).2.view = w'.bumpAt (some (.user (senderOf env tx))) := by
  obtain ⟨s', hs', hb, hd⟩ := dispatch_eq env tx { s with used := 0 } rfl
  have hview : St.view { s with used := 0 } = s.base.bumpAt p := hv
  have hbase : s'.base = s.base := hb
  rw [hview] at hd
  simp only [flatStep, finishStep, execTx]
  cases ha : (s.base.bumpAt p).apply env tx with
  | error f =>
    rw [ha] at hd
    obtain ⟨h1, h2⟩ := hd
    have he : dispatch env tx { s with used := 0 } = (.error f, s') := Prod.ext h1 hs'
    rw [he]
    cases f with
    | panic => simp [settle]
    | err e =>
      simp only [settle, incNonce_eq, St.view_revert, hbase]
      cases hacc : s.base.accounts (.user (senderOf env tx)) with
      | none => simp
      | some acc =>
        simp only [St.used_putAccount, St.used_revert, h2]
        refine ⟨trivial, ?_, ?_⟩
        · simp [hbase]
        · have := bumpAt_view s'.revert (.user (senderOf env tx)) acc
            (by rw [St.view_revert, hbase]; exact hacc) (by rw [St.view_revert, St.base_revert])
          rw [this, St.base_putAccount, St.base_revert, hbase]
  | ok x =>
    obtain ⟨res, u, w⟩ := x
    rw [ha] at hd
    obtain ⟨h1, h2, h3⟩ := hd
    have he : dispatch env tx { s with used := 0 } = (.ok res, s') := Prod.ext h1 hs'
    rw [he]
    simp only [settle, incNonce_eq, St.view_stash, h3]
    cases hacc : w.accounts (.user (senderOf env tx)) with
    | none => simp
    | some acc =>
      simp only [St.used_putAccount, St.used_stash, h2]
      refine ⟨trivial, ?_, ?_⟩
      · rw [St.base_putAccount, St.base_stash, h3]
      · have := bumpAt_view s'.stash (.user (senderOf env tx)) acc
          (by rw [St.view_stash, h3]; exact hacc) (by rw [St.view_stash, St.base_stash])
        rw [this, St.base_putAccount, St.base_stash, h3]

theorem execLoop_eq (env : Env) (txs : List SignedTx) (s : St) (p : Option Address)
    (hv : s.view = s.base.bumpAt p) :
    match flatLoop env txs s.base p with
    | .error f => (execLoop env txs s).1 = .error f
    | .ok (rs, w') => (execLoop env txs s).1 = .ok rs ∧ (execLoop env txs s).2.base = w' := by
  induction txs generalizing s p with
  | nil => simp [flatLoop, execLoop]
  | cons tx txs ih =>
    have hstep := execTx_eq env tx s p hv
    simp only [flatLoop, execLoop]
    cases hf : flatStep env tx s.base p with
    | error f =>
      rw [hf] at hstep
      have : execTx env tx s = (.error f, (execTx env tx s).2) := Prod.ext hstep rfl
      rw [this]
    | ok x =>
      obtain ⟨r, w'⟩ := x
      rw [hf] at hstep
      obtain ⟨h1, h2, h3⟩ := hstep
      have he : execTx env tx s = (.ok r, (execTx env tx s).2) := Prod.ext h1 rfl
      rw [he]
      simp only []
      have hih := ih (execTx env tx s).2 (some (.user (senderOf env tx))) (by rw [h3, h2])
      rw [h2] at hih
      cases hl : flatLoop env txs w' (some (.user (senderOf env tx))) with
      | error f =>
        rw [hl] at hih
        have : execLoop env txs (execTx env tx s).2 = (.error f, (execLoop env txs (execTx env tx s).2).2) :=
          Prod.ext hih rfl
        rw [this]
      | ok y =>
        obtain ⟨rs, w''⟩ := y
        rw [hl] at hih
        have : execLoop env txs (execTx env tx s).2 = (.ok rs, (execLoop env txs (execTx env tx s).2).2) :=
          Prod.ext hih.1 rfl
        rw [this]
        exact ⟨rfl, hih.2⟩

theorem base_rewardCoinbase (env : Env) (fees : List Fee) (s : St) : (rewardCoinbase env fees s).base = s.base := by
  unfold rewardCoinbase
  induction fees generalizing s with
  | nil => rfl
  | cons f fs ih =>
    simp only [List.foldl_cons]
    rw [ih, addBalance_eq, St.base_putAccount]

/-- The whole of `exec` on a freshly opened world, in terms of the flat loop. -/
theorem exec_open_eq (env : Env) (txs : List SignedTx) (w : World) :
    match flatLoop env txs w none with
    | .error f => (exec env txs (St.open w)).1 = .error f
    | .ok (rs, w') =>
      (exec env txs (St.open w)).1 = .ok
        { receipts := rs.map (fun r => { r with stateRoot := env.rootOf w' })
          allCyclesUsed := allCyclesUsed rs
          logsBloom := Bloom.zero
          stateRoot := env.rootOf w' } ∧
      (exec env txs (St.open w)).2.committed = w' := by
  have h := execLoop_eq env txs (St.open w) none (by rw [St.view_open, St.base_open]; rfl)
  rw [St.base_open] at h
  cases hf : flatLoop env txs w none with
  | error f =>
    rw [hf] at h
    have : execLoop env txs (St.open w) = (.error f, (execLoop env txs (St.open w)).2) := Prod.ext h rfl
    simp only [exec]; rw [this]
  | ok x =>
    obtain ⟨rs, w'⟩ := x
    rw [hf] at h
    have : execLoop env txs (St.open w) = (.ok rs, (execLoop env txs (St.open w)).2) := Prod.ext h.1 rfl
    simp only [exec]; rw [this]
    simp only [St.committed_commit, base_rewardCoinbase, h.2]
    exact ⟨trivial, trivial⟩

/-- `exec` succeeded on a fresh executor iff the flat loop did, with the corresponding results. -/
theorem exec_open_ok {env : Env} {txs : List SignedTx} {w : World} {resp : ExecResp} {s' : St}
    (h : exec env txs (St.open w) = (.ok resp, s')) :
    ∃ rs, flatLoop env txs w none = .ok (rs, s'.committed) ∧
      resp.receipts = rs.map (fun r => { r with stateRoot := env.rootOf s'.committed }) ∧
      resp.allCyclesUsed = allCyclesUsed rs ∧ resp.stateRoot = env.rootOf s'.committed := by
  have he := exec_open_eq env txs w
  cases hf : flatLoop env txs w none with
  | error f => rw [hf, h] at he; simp at he
  | ok x =>
    obtain ⟨rs, w'⟩ := x
    rw [hf, h] at he
    obtain ⟨h1, h2⟩ := he
    simp only [Except.ok.injEq] at h1
    subst h1
    exact ⟨rs, by rw [h2], by rw [h2], rfl, by rw [h2]⟩

theorem flatLoop_append (env : Env) (xs ys : List SignedTx) (w : World) (p : Option Address) :
    flatLoop env (xs ++ ys) w p =
      match flatLoop env xs w p with
      | .error f => .error f
      | .ok (rs, w') =>
        match flatLoop env ys w' ((xs.getLast?.map (fun t => Address.user (senderOf env t))).or p) with
        | .error f => .error f
        | .ok (rs', w'') => .ok (rs ++ rs', w'') := by
  induction xs generalizing w p with
  | nil =>
    simp only [List.nil_append, flatLoop, List.getLast?_nil, Option.map_none, Option.none_or]
    cases flatLoop env ys w p <;> simp
  | cons x xs ih =>
    simp only [List.cons_append, flatLoop]
    cases flatStep env x w p with
    | error f => simp
    | ok y =>
      obtain ⟨r, w1⟩ := y
      simp only [ih]
      cases hx : flatLoop env xs w1 (some (.user (senderOf env x))) with
      | error f => simp
      | ok z =>
        obtain ⟨rs, w2⟩ := z
        simp only [List.getLast?_cons]
        have : ((xs.getLast?.map (fun t => Address.user (senderOf env t))).or (some (.user (senderOf env x)))) =
            (((some (xs.getLast?.getD x)).map (fun t => Address.user (senderOf env t))).or p) := by
          cases xs.getLast? <;> simp
        rw [this]
        cases flatLoop env ys w2 ((Option.map (fun t => Address.user (senderOf env t)) (some (xs.getLast?.getD x))).or p) <;> simp

end Huobi
