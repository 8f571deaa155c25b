import Verif.Proof.ExecLoop
import Verif.Proof.ExecSums
import Verif.Spec.Demo
/-
Executor properties C01–C10, C12, C14.  Statements use only `Executes` (a fresh executor opened on a world runs a
block and commits), the observations of `Verif/Spec/Executor.lean`, and the data types.
-/
namespace Huobi
open Demo (pay tx addr gold outcome executes_of_outcome exists_executes world_typed)

/-! ## Reachable worlds are well typed -/

/-- Every block keeps user accounts at user addresses. -/
theorem executes_wellTyped {env : Env} {w : World} {txs : List SignedTx} {resp : ExecResp} {w' : World}
    (hw : w.WellTyped) (h : Executes env w txs resp w') : w'.WellTyped := by
  obtain ⟨rs, hf, -⟩ := executes_iff.1 h
  exact (flatLoop_run hf).2.typed hw

/-! ## The ledger equation -/

/-- **Ledger.**  After a block, what an account holds of an asset plus the successful transfers it sent equals what
it held before plus the successful transfers it received.  Nothing else — fees, rewards, deploys, failures — changes
any balance. -/
theorem C02_ledger {env : Env} {w : World} {txs : List SignedTx} {resp : ExecResp} {w' : World}
    (hw : w.WellTyped) (h : Executes env w txs resp w') (a : Address) (id : AssetID) :
    balance w' a id + ((txs.zip resp.receipts).map (outgoing env a id)).sum =
      balance w a id + ((txs.zip resp.receipts).map (incoming a id)).sum := by
  obtain ⟨rs, hf, rfl⟩ := executes_iff.1 h
  have := (flatLoop_run hf).2.ledger hw a id
  rw [zip_respOf_sum env (outgoing env a id) (outgoing_root env a id),
    zip_respOf_sum env (incoming a id) (incoming_root a id)]
  exact this

example : ∃ x, outcome [pay 1 2 30, pay 2 3 1000, pay 2 1 80] = some x ∧
    Executes Demo.env Demo.world [pay 1 2 30, pay 2 3 1000, pay 2 1 80] x.1 x.2 :=
  exists_executes (by decide +kernel)
example : (outcome [pay 1 2 30, pay 2 3 1000, pay 2 1 80]).map
    (fun x => (x.1.receipts.map (·.result.isFail), balance x.2 (addr 1) gold, balance x.2 (addr 2) gold)) =
    some ([false, true, false], 150, 0) := by decide +kernel

/-! ## C01 -/

/-- The total of an asset is unique, so `TotalIs` names one number. -/
theorem totalIs_unique {w : World} {id : AssetID} {n m : Nat} (h1 : TotalIs w id n) (h2 : TotalIs w id m) : n = m := by
  obtain ⟨L1, hn1, hz1, rfl⟩ := h1
  obtain ⟨L2, hn2, hz2, rfl⟩ := h2
  exact sum_support_unique (fun a => balance w a id) hn1 hn2 hz1 hz2

/-- **C01.**  Executing any block conserves the total of every asset. -/
theorem C01_conservation {env : Env} {w : World} {txs : List SignedTx} {resp : ExecResp} {w' : World}
    (hw : w.WellTyped) (h : Executes env w txs resp w') {id : AssetID} {n : Nat} (ht : TotalIs w id n) :
    TotalIs w' id n := by
  have hl := fun a => C02_ledger hw h a id
  obtain ⟨L, hn, hz, hs⟩ := ht
  obtain ⟨L', hn', hsub, hcov⟩ := extend_nodup L hn
    ((txs.zip resp.receipts).flatMap (fun t => parties env t.1))
  have hout : ∀ a, a ∉ L' → balance w' a id = 0 := by
    intro a ha
    have h0 := hz a (fun hc => ha (hsub hc))
    have hin : ((txs.zip resp.receipts).map (incoming a id)).sum = 0 :=
      sum_incoming_zero env a id _ (fun hc => ha (hcov hc))
    have := hl a
    omega
  refine ⟨L', hn', hout, ?_⟩
  have e1 : (L'.map (fun a => balance w a id)).sum = n := by
    rw [← hs]
    exact sum_support_unique (fun a => balance w a id) hn' hn (fun a ha => hz a (fun hc => ha (hsub hc))) hz
  have e2 := sum_map_congr_add L' (fun a => balance w' a id) (fun a => balance w a id)
    (fun a => ((txs.zip resp.receipts).map (outgoing env a id)).sum)
    (fun a => ((txs.zip resp.receipts).map (incoming a id)).sum) hl
  have e3 := sum_out_eq_in env id L' hn' (txs.zip resp.receipts) (fun a ha => hcov ha)
  omega

/-- C01 over any number of blocks. -/
theorem C01_conservation_chain {w w' : World} (hw : w.WellTyped) (h : BlocksLater w w') {id : AssetID} {n : Nat}
    (ht : TotalIs w id n) : TotalIs w' id n ∧ w'.WellTyped := by
  induction h with
  | refl => exact ⟨ht, hw⟩
  | step _ he ih =>
    have ih := ih hw ht
    exact ⟨C01_conservation ih.2 he ih.1, executes_wellTyped ih.2 he⟩

example : TotalIs Demo.world gold 150 :=
  ⟨[addr 1, addr 2, addr 3], by decide +kernel, by
    intro a ha
    simp only [List.mem_cons, List.not_mem_nil, or_false, not_or] at ha
    simp [balance, Demo.world, ha], by decide +kernel⟩

/-! ## C02 -/

/-- **C02.**  A successful transfer at any position (here: last of a prefix of the block, see
`executes_prefix`) moves exactly its amount, which the caller had; the receipt states the caller's balances. -/
theorem C02_transfer_exact {env : Env} {w : World} {pre : List SignedTx} {tx : SignedTx} {resp : ExecResp}
    {w1 : World} {receiver : UserAddress} {c : CarryingAsset} {r : Receipt}
    (hw : w.WellTyped) (h : Executes env w (pre ++ [tx]) resp w1)
    (ha : tx.raw.action = .transfer receiver c)
    (hr : resp.receipts.getLast? = some r) (hok : r.result.isFail = false) :
    ∃ resp0 w0, Executes env w pre resp0 w0 ∧
      c.amount ≤ balance w0 (.user (senderOf env tx)) c.assetId ∧
      (w0.assets c.assetId).isSome ∧
      r.result = .transfer receiver c.assetId (balance w0 (.user (senderOf env tx)) c.assetId)
        (balance w1 (.user (senderOf env tx)) c.assetId) ∧
      w1.assets = w0.assets ∧
      ∀ a j, balance w1 a j =
        (if a = .user (senderOf env tx) ∧ j = c.assetId then balance w0 a j - c.amount else balance w0 a j) +
        (if a = .user receiver ∧ j = c.assetId then c.amount else 0) := by
  obtain ⟨resp0, w0, r0, hex, -, hlast, -, -, -, -, heff⟩ := executes_snoc hw h
  have := hlast r hr
  subst this
  refine ⟨resp0, w0, hex, ?_⟩
  cases heff with
  | fail e hr' _ _ => simp [hr', ReceiptResult.isFail] at hok
  | deploy code ha' _ _ _ _ _ _ _ => rw [ha] at ha'; simp at ha'
  | transfer recv c' ha' hl hc hr' hreg hm =>
    rw [ha] at ha'
    simp only [Action.transfer.injEq] at ha'
    obtain ⟨rfl, rfl⟩ := ha'
    have henough := hm.enough
    rw [balance_bumpAt] at henough
    refine ⟨henough, hreg, hr', by rw [hm.assets, World.assets_bumpAt], ?_⟩
    intro a j
    have hb := hm.bal a j
    rw [balance_bumpAt] at hb
    by_cases h1 : a = .user (senderOf env tx) ∧ j = c.assetId
    · obtain ⟨rfl, rfl⟩ := h1
      simp only [and_self, and_true, if_true] at hb ⊢
      omega
    · simp only [h1, if_false] at hb ⊢
      omega

/-- **C02.**  A transfer of more than the caller holds is reported as failed. -/
theorem C02_overdraw_fails {env : Env} {w : World} {pre : List SignedTx} {tx : SignedTx} {resp resp0 : ExecResp}
    {w0 w1 : World} {receiver : UserAddress} {c : CarryingAsset} {r : Receipt}
    (hw : w.WellTyped) (h : Executes env w (pre ++ [tx]) resp w1) (h0 : Executes env w pre resp0 w0)
    (ha : tx.raw.action = .transfer receiver c)
    (hr : resp.receipts.getLast? = some r)
    (hlow : balance w0 (.user (senderOf env tx)) c.assetId < c.amount) : r.result.isFail = true := by
  cases hf : r.result.isFail with
  | true => rfl
  | false =>
    obtain ⟨resp0', w0', hex, hle, -⟩ := C02_transfer_exact hw h ha hr hf
    have : w0' = w0 := by rw [← h0.2, ← hex.2]
    subst this
    omega

example : (outcome [pay 2 1 20, pay 1 2 30]).map (fun x => x.1.receipts.getLast?.map (·.result)) =
    some (some (.transfer (Demo.user 2) gold 120 90)) := by decide +kernel
example : (outcome [pay 1 1 100]).map (fun x => (balance x.2 (addr 1) gold, x.1.receipts.map (·.result.isFail))) =
    some (100, [false]) := by decide +kernel
example : (outcome [pay 1 2 101]).map (fun x => x.1.receipts.map (·.result.isFail)) = some [true] := by decide +kernel

/-- Every prefix of an executable block is executable on its own, with the same receipts up to the final root. -/
theorem executes_prefix {env : Env} {w : World} {pre post : List SignedTx} {resp : ExecResp} {w' : World}
    (h : Executes env w (pre ++ post) resp w') :
    ∃ resp0 w0, Executes env w pre resp0 w0 ∧ resp0.receipts.length = pre.length ∧
      ∀ (i : Nat) (r0 : Receipt), resp0.receipts[i]? = some r0 →
        resp.receipts[i]? = some { r0 with stateRoot := resp.stateRoot } := by
  obtain ⟨rs, hf, rfl⟩ := executes_iff.1 h
  obtain ⟨rs1, w1, rs2, h1, h2, rfl⟩ := flatLoop_append_ok hf
  have hlen := (flatLoop_run h1).1
  refine ⟨_, w1, executes_iff.2 ⟨rs1, h1, rfl⟩, by simp [respOf, hlen], ?_⟩
  intro i r0 hi
  simp only [respOf, List.getElem?_map, Option.map_eq_some_iff] at hi
  obtain ⟨r, hr, rfl⟩ := hi
  simp only [respOf, List.map_append, List.getElem?_append, List.length_map]
  have hlt : i < rs1.length := by
    rcases Nat.lt_or_ge i rs1.length with h | h
    · exact h
    · rw [List.getElem?_eq_none h] at hr; simp at hr
  rw [List.getElem?_eq_getElem hlt, Option.some.injEq] at hr
  simp [hlt, hr]

/-! ## C03 -/

/-- **C03 (committed state).**  If the last transaction of a block prefix failed, the committed world is exactly the
one its predecessors left: balances, assets, approvals and nonces. -/
theorem C03_failed_no_effect_partial {env : Env} {w : World} {pre : List SignedTx} {tx : SignedTx} {resp : ExecResp}
    {w1 : World} {r : Receipt} (hw : w.WellTyped) (h : Executes env w (pre ++ [tx]) resp w1)
    (hr : resp.receipts.getLast? = some r) (hfail : r.result.isFail = true) :
    ∃ resp0, Executes env w pre resp0 w1 := by
  obtain ⟨resp0, w0, r0, hex, -, hlast, -, -, -, -, heff⟩ := executes_snoc hw h
  have := hlast r hr
  subst this
  cases heff with
  | fail e hr' _ hw' => rw [hw']; exact ⟨_, hex⟩
  | deploy code _ ad _ _ _ hr' _ _ => simp [hr', ReceiptResult.isFail] at hfail
  | transfer recv c' _ _ _ hr' _ _ => simp [hr', ReceiptResult.isFail] at hfail

/-- **C03 (effect on later transactions).**  Taking a failed transaction out of a block whose later transactions are
not deploys changes no balance, no approval, no asset, and no receipt of the other transactions. -/
theorem C03_failed_removable_partial {env : Env} {w : World} {pre post : List SignedTx} {tx : SignedTx}
    {resp : ExecResp} {w1 : World} {r : Receipt} (hw : w.WellTyped)
    (h : Executes env w (pre ++ tx :: post) resp w1)
    (hr : resp.receipts[pre.length]? = some r) (hfail : r.result.isFail = true)
    (hpost : ∀ t ∈ post, ∀ code ty, t.raw.action ≠ .deploy code ty) :
    ∃ resp2 w2, Executes env w (pre ++ post) resp2 w2 ∧
      (∀ a id, balance w2 a id = balance w1 a id) ∧ (∀ a id, approvals w2 a id = approvals w1 a id) ∧
      w2.assets = w1.assets ∧ (∀ a, w2.HasAccount a ↔ w1.HasAccount a) ∧
      (resp2.receipts.map (fun r => (r.txHash, r.cyclesUsed, r.result))) =
        (resp.receipts.eraseIdx pre.length).map (fun r => (r.txHash, r.cyclesUsed, r.result)) := by
  obtain ⟨rs, hf, rfl⟩ := executes_iff.1 h
  obtain ⟨rs1, w0, rs2, h1, h2, rfl⟩ := flatLoop_append_ok hf
  have hlen := (flatLoop_run h1).1
  have hw0 := (flatLoop_run h1).2.typed hw
  simp only [flatLoop, Option.or_none] at h2
  cases hs : flatStep env tx w0 (lastSender env pre) with
  | error f => rw [hs] at h2; simp at h2
  | ok x =>
    obtain ⟨r0, w0'⟩ := x
    rw [hs] at h2
    simp only [] at h2
    cases h3 : flatLoop env post w0' (some (.user (senderOf env tx))) with
    | error f => rw [h3] at h2; simp at h2
    | ok y =>
      obtain ⟨rs3, w3⟩ := y
      rw [h3] at h2
      simp only [Except.ok.injEq, Prod.mk.injEq] at h2
      obtain ⟨rfl, rfl⟩ := h2
      have hr0 : r0.result.isFail = true := by
        simp only [respOf, List.map_append, List.getElem?_append, List.length_map, hlen, Nat.lt_irrefl, if_false,
          Nat.sub_self, List.map_cons, List.getElem?_cons_zero, Option.some.injEq] at hr
        rw [← hr] at hfail; exact hfail
      have hw0' : w0' = w0 := by
        cases (flatStep_effect hw0 hs).2.2.2.2 with
        | fail e hr' _ hw' => exact hw'
        | deploy code _ ad _ _ _ hr' _ _ => simp [hr', ReceiptResult.isFail] at hr0
        | transfer recv c' _ _ _ hr' _ _ => simp [hr', ReceiptResult.isFail] at hr0
      subst hw0'
      obtain ⟨w4, h4, hsim⟩ := flatLoop_sim hpost (SimWorld.refl w0') h3 (p' := lastSender env pre)
      have hfl : flatLoop env (pre ++ post) w none = .ok (rs1 ++ rs3, w4) := by
        rw [flatLoop_append, h1]
        simp only [Option.or_none]
        rw [show (Option.map (fun t => Address.user (senderOf env t)) pre.getLast?) = lastSender env pre from rfl, h4]
      refine ⟨_, w4, executes_iff.2 ⟨_, hfl, rfl⟩, fun a id => (hsim.balance a id).symm,
        fun a id => (hsim.approvals a id).symm, hsim.assets.symm, fun a => (hsim.has a).symm, ?_⟩
      simp only [respOf, List.map_append, List.map_cons]
      rw [← hlen, List.eraseIdx_append_of_length_le (by simp)]
      simp [Function.comp_def]

example : (outcome [pay 1 2 30, pay 2 3 1000, pay 2 1 80]).map (fun x => (x.1.receipts[1]?).map (·.result.isFail)) =
    some (some true) := by decide +kernel

/-- **C03 is false for nonces.**  With users 1, 2, 3 sending a success, a failure and a success, the nonce increment
of user 1 is lost; without the failed transaction it is kept. -/
theorem C03_other_nonce_refuted :
    ∃ (t1 t2 t3 : SignedTx) (x y : ExecResp × World),
      Executes Demo.env Demo.world [t1, t2, t3] x.1 x.2 ∧ x.1.receipts.map (·.result.isFail) = [false, true, false] ∧
      Executes Demo.env Demo.world [t1, t3] y.1 y.2 ∧
      senderOf Demo.env t1 ≠ senderOf Demo.env t2 ∧
      nonceOf x.2 (.user (senderOf Demo.env t1)) ≠ nonceOf y.2 (.user (senderOf Demo.env t1)) := by
  have hB : (outcome [pay 1 3 30, pay 2 3 1000, pay 3 1 0]).map
      (fun x => (x.1.receipts.map (·.result.isFail), nonceOf x.2 (addr 1))) = some ([false, true, false], 5) := by
    decide +kernel
  have hC : (outcome [pay 1 3 30, pay 3 1 0]).map (fun x => nonceOf x.2 (addr 1)) = some 6 := by decide +kernel
  cases h1 : outcome [pay 1 3 30, pay 2 3 1000, pay 3 1 0] with
  | none => rw [h1] at hB; simp at hB
  | some x =>
    cases h2 : outcome [pay 1 3 30, pay 3 1 0] with
    | none => rw [h2] at hC; simp at hC
    | some y =>
      rw [h1] at hB
      rw [h2] at hC
      simp only [Option.map_some, Option.some.injEq, Prod.mk.injEq] at hB hC
      refine ⟨_, _, _, x, y, executes_of_outcome h1, hB.1, executes_of_outcome h2, by decide +kernel, ?_⟩
      have : Address.user (senderOf Demo.env (pay 1 3 30)) = addr 1 := rfl
      rw [this, hB.2, hC]
      decide

/-! ## C04 -/

/-- **C04.**  One receipt per transaction, in order, with its hash, the block's epoch id and the returned root. -/
theorem C04_receipts {env : Env} {w : World} {txs : List SignedTx} {resp : ExecResp} {w' : World}
    (hw : w.WellTyped) (h : Executes env w txs resp w') :
    resp.receipts.map (·.txHash) = txs.map (·.txHash) ∧
      (∀ r ∈ resp.receipts, r.epochId = env.epochId ∧ r.stateRoot = resp.stateRoot) ∧
      resp.stateRoot = env.rootOf w' := by
  obtain ⟨rs, hf, rfl⟩ := executes_iff.1 h
  obtain ⟨hlen, hrun⟩ := flatLoop_run hf
  have hr := hrun.receipts hw
  refine ⟨?_, ?_, rfl⟩
  · simp only [respOf, List.map_map]
    exact zip_map_eq (f := fun t : SignedTx => t.txHash) (g := fun r : Receipt => r.txHash) hlen
      (fun t ht => (hr t ht).1)
  · intro r hmem
    simp only [respOf, List.mem_map] at hmem
    obtain ⟨r0, h0, rfl⟩ := hmem
    obtain ⟨t, ht, rfl⟩ := mem_zip_of_mem hlen h0
    exact ⟨(hr t ht).2.1, rfl⟩

/-! ## C05 -/

/-- Cycles the schedule charges for an action: 210 for a transfer, 2100 for registering an asset. -/
def requiredCycles : Action → Option UInt64
  | .transfer _ _ => some 210
  | .deploy _ .asset => some 2100
  | _ => none

/-- **C05.**  A transaction whose limit is below what it needs fails and has no effect on the committed world; a
successful one needed at most its limit, and its fee is cycles times price (as `u64`) in the asset it chose; a
failed one is charged nothing. -/
theorem C05_cycle_limit {env : Env} {w : World} {pre : List SignedTx} {tx : SignedTx} {resp : ExecResp}
    {w1 : World} {r : Receipt} (hw : w.WellTyped) (h : Executes env w (pre ++ [tx]) resp w1)
    (hr : resp.receipts.getLast? = some r) :
    r.cyclesUsed.assetId = tx.raw.fee.assetId ∧
    ∃ n, requiredCycles tx.raw.action = some n ∧
      (tx.raw.fee.cycle < n → r.result.isFail = true) ∧
      (r.result.isFail = false → n ≤ tx.raw.fee.cycle ∧ r.cyclesUsed.cycle = n * env.cyclesPrice) ∧
      (r.result.isFail = true → r.cyclesUsed.cycle = 0 ∧ ∃ resp0, Executes env w pre resp0 w1) := by
  have hC03 := fun hf => C03_failed_no_effect_partial hw h hr hf
  obtain ⟨rs, hf, hresp⟩ := executes_iff.1 h
  obtain ⟨rs1, w0', rr, hf1, hf2, -⟩ := flatLoop_snoc_ok hf
  have hsup := flatStep_supported hf2
  obtain ⟨resp0, w0, r0, hex, -, hlast, -, -, hfa, -, heff⟩ := executes_snoc hw h
  have := hlast r hr
  subst this
  refine ⟨hfa, ?_⟩
  cases heff with
  | fail e hr' hc hw' =>
    obtain ⟨n, hn⟩ : ∃ n, requiredCycles tx.raw.action = some n := by
      rcases hsup with ⟨recv, c, ha⟩ | ⟨code, ha⟩ <;> rw [ha] <;> exact ⟨_, rfl⟩
    exact ⟨n, hn, fun _ => by simp [hr', ReceiptResult.isFail], by simp [hr', ReceiptResult.isFail],
      fun _ => ⟨hc, hC03 (by simp [hr', ReceiptResult.isFail])⟩⟩
  | transfer recv c ha hl hc hr' hreg hm =>
    refine ⟨210, by rw [ha]; rfl, fun hlt => absurd hl (UInt64.not_le.2 hlt), fun _ => ⟨hl, hc⟩, ?_⟩
    simp [hr', ReceiptResult.isFail]
  | deploy code ha ad haddr hl hc hr' hnew hw' =>
    refine ⟨2100, by rw [ha]; rfl, fun hlt => absurd hl (UInt64.not_le.2 hlt), fun _ => ⟨hl, hc⟩, ?_⟩
    simp [hr', ReceiptResult.isFail]

example : (outcome [pay 1 2 30 209]).map (fun x => (x.1.receipts.map (fun r => (r.result.isFail, r.cyclesUsed.cycle)))) =
    some [(true, 0)] := by decide +kernel
example : (outcome [pay 1 2 30 210]).map (fun x => (x.1.receipts.map (fun r => (r.result.isFail, r.cyclesUsed.cycle)))) =
    some [(false, 420)] := by decide +kernel

/-! ## C06 -/

/-- **C06.**  The fee summary lists each fee asset of the receipts once, in order of first occurrence, with the sum
(as `u64`) of the fees of its receipts. -/
theorem C06_fee_summary {env : Env} {w : World} {txs : List SignedTx} {resp : ExecResp} {w' : World}
    (h : Executes env w txs resp w') :
    resp.allCyclesUsed.map (·.assetId) = (resp.receipts.map (·.cyclesUsed.assetId)).eraseDups ∧
    ∀ f ∈ resp.allCyclesUsed,
      f.cycle = UInt64.ofNat
        (((resp.receipts.filter (fun r => decide (r.cyclesUsed.assetId = f.assetId))).map
          (fun r => r.cyclesUsed.cycle.toNat)).sum) := by
  obtain ⟨rs, -, rfl⟩ := executes_iff.1 h
  obtain ⟨h1, h2⟩ := allCyclesUsed_spec rs
  constructor
  · simp only [respOf, List.map_map]; exact h1
  · intro f hf
    rw [h2 f hf]
    congr 2
    simp only [respOf, List.filter_map, List.map_map]
    rfl

/-- C06, exact: when the true sum fits a `u64` it is the reported number. -/
theorem C06_fee_summary_exact {env : Env} {w : World} {txs : List SignedTx} {resp : ExecResp} {w' : World}
    (h : Executes env w txs resp w') {f : Fee} (hf : f ∈ resp.allCyclesUsed)
    (hfit : ((resp.receipts.filter (fun r => decide (r.cyclesUsed.assetId = f.assetId))).map
          (fun r => r.cyclesUsed.cycle.toNat)).sum < 2 ^ 64) :
    f.cycle.toNat = ((resp.receipts.filter (fun r => decide (r.cyclesUsed.assetId = f.assetId))).map
          (fun r => r.cyclesUsed.cycle.toNat)).sum := by
  rw [(C06_fee_summary h).2 f hf]
  exact UInt64.toNat_ofNat_of_lt' hfit

example : (outcome [pay 1 2 30, pay 2 3 1]).map (fun x => x.1.allCyclesUsed) = some [⟨gold, 840⟩] := by decide +kernel

/-! ## C07 -/

/-- **C07 is false.**  The committed world and the whole response do not depend on who the coinbase is. -/
theorem C07_coinbase_irrelevant_refuted {env : Env} {w : World} {txs : List SignedTx} {resp : ExecResp} {w' : World}
    (h : Executes env w txs resp w') (coinbase : Address) :
    Executes { env with coinbase := coinbase } w txs resp w' := by
  obtain ⟨rs, hf, rfl⟩ := executes_iff.1 h
  exact executes_iff.2 ⟨rs, by rw [← hf]; exact flatLoop_coinbase env coinbase txs w none, rfl⟩

/-- **C07 is false**, a concrete block: fees are due but the coinbase's balance is what it was. -/
theorem C07_reward_refuted :
    ∃ (txs : List SignedTx) (x : ExecResp × World) (f : Fee),
      Executes Demo.env Demo.world txs x.1 x.2 ∧ f ∈ x.1.allCyclesUsed ∧ 0 < f.cycle.toNat ∧
      balance x.2 Demo.env.coinbase f.assetId ≠ balance Demo.world Demo.env.coinbase f.assetId + f.cycle.toNat := by
  have hA : (outcome [pay 1 2 30]).map (fun x => (x.1.allCyclesUsed, balance x.2 Demo.env.coinbase gold)) =
      some ([⟨gold, 420⟩], 0) := by decide +kernel
  cases h1 : outcome [pay 1 2 30] with
  | none => rw [h1] at hA; simp at hA
  | some x =>
    rw [h1] at hA
    simp only [Option.map_some, Option.some.injEq, Prod.mk.injEq] at hA
    refine ⟨_, x, ⟨gold, 420⟩, executes_of_outcome h1, by rw [hA.1]; simp, by decide, ?_⟩
    rw [hA.2]
    decide +kernel

/-- **C07, what holds.**  The coinbase's balance changes by its own successful transfers only. -/
theorem C07_coinbase_ledger_partial {env : Env} {w : World} {txs : List SignedTx} {resp : ExecResp} {w' : World}
    (hw : w.WellTyped) (h : Executes env w txs resp w') (id : AssetID) :
    balance w' env.coinbase id + ((txs.zip resp.receipts).map (outgoing env env.coinbase id)).sum =
      balance w env.coinbase id + ((txs.zip resp.receipts).map (incoming env.coinbase id)).sum :=
  C02_ledger hw h env.coinbase id

/-! ## C08 -/

/-- **C08, exact rule.**  The nonce of an account grows by the number of transactions it sent that are directly
followed in the block by a successful transaction (not by the number it sent). -/
theorem C08_nonce_exact_partial {env : Env} {w : World} {txs : List SignedTx} {resp : ExecResp} {w' : World}
    (hw : w.WellTyped) (h : Executes env w txs resp w') (a : Address) :
    nonceOf w' a = nonceOf w a + UInt64.ofNat (survivingBumps env a (txs.zip resp.receipts)) := by
  obtain ⟨rs, hf, rfl⟩ := executes_iff.1 h
  have hrun := (flatLoop_run hf).2
  have := hrun.nonce hw (by simp) a
  rw [this]
  have hz : pendingBump a none (txs.zip rs) = 0 := by cases txs.zip rs <;> simp [pendingBump]
  rw [hz, Nat.zero_add, survivingBumps_root]

/-- **C08 is false.**  A block with one successful transaction leaves its sender's nonce unchanged. -/
theorem C08_nonce_refuted :
    ∃ (t : SignedTx) (x : ExecResp × World), Executes Demo.env Demo.world [t] x.1 x.2 ∧
      x.1.receipts.map (·.result.isFail) = [false] ∧
      nonceOf x.2 (.user (senderOf Demo.env t)) ≠ nonceOf Demo.world (.user (senderOf Demo.env t)) + 1 := by
  have hA : (outcome [pay 1 2 30]).map (fun x => (x.1.receipts.map (·.result.isFail), nonceOf x.2 (addr 1))) =
      some ([false], 5) := by decide +kernel
  cases h1 : outcome [pay 1 2 30] with
  | none => rw [h1] at hA; simp at hA
  | some x =>
    rw [h1] at hA
    simp only [Option.map_some, Option.some.injEq, Prod.mk.injEq] at hA
    refine ⟨_, x, executes_of_outcome h1, hA.1, ?_⟩
    have : Address.user (senderOf Demo.env (pay 1 2 30)) = addr 1 := rfl
    rw [this, hA.2]
    decide +kernel

/-- C08, upper bound: an account's nonce never grows by more than the number of transactions it sent. -/
theorem C08_nonce_bound_partial {env : Env} {w : World} {txs : List SignedTx} {resp : ExecResp} {w' : World}
    (hw : w.WellTyped) (h : Executes env w txs resp w') (a : Address) :
    ∃ n ≤ (txs.filter (fun t => decide (a = .user (senderOf env t)))).length,
      nonceOf w' a = nonceOf w a + UInt64.ofNat n := by
  refine ⟨_, ?_, C08_nonce_exact_partial hw h a⟩
  exact Nat.le_trans (survivingBumps_le env a _) (filter_zip_le (fun t => decide (a = .user (senderOf env t))) _ _)

/-! ## C09 -/

/-- **C09 is false.**  A successful transfer with a positive fee in an asset leaves the sender with its old balance
minus the amount only. -/
theorem C09_fee_charged_refuted :
    ∃ (t : SignedTx) (x : ExecResp × World) (r : Receipt), Executes Demo.env Demo.world [t] x.1 x.2 ∧
      x.1.receipts = [r] ∧ 0 < r.cyclesUsed.cycle.toNat ∧
      t.raw.action = .transfer (Demo.user 2) ⟨r.cyclesUsed.assetId, 0⟩ ∧
      balance x.2 (.user (senderOf Demo.env t)) r.cyclesUsed.assetId =
        balance Demo.world (.user (senderOf Demo.env t)) r.cyclesUsed.assetId := by
  have hA : (outcome [pay 1 2 0]).map (fun x => (x.1.receipts.map (·.cyclesUsed), balance x.2 (addr 1) gold)) =
      some ([⟨gold, 420⟩], 100) := by decide +kernel
  cases h1 : outcome [pay 1 2 0] with
  | none => rw [h1] at hA; simp at hA
  | some x =>
    rw [h1] at hA
    simp only [Option.map_some, Option.some.injEq, Prod.mk.injEq] at hA
    obtain ⟨hA1, hA2⟩ := hA
    obtain ⟨r, hr⟩ : ∃ r, x.1.receipts = [r] := by
      have := congrArg List.length hA1
      simp only [List.length_map, List.length_cons, List.length_nil] at this
      exact List.length_eq_one_iff.1 this
    rw [hr] at hA1
    simp only [List.map_cons, List.map_nil, List.cons.injEq, and_true] at hA1
    refine ⟨_, x, r, executes_of_outcome h1, hr, by rw [hA1]; decide, by rw [hA1]; rfl, ?_⟩
    rw [hA1]
    have : Address.user (senderOf Demo.env (pay 1 2 0)) = addr 1 := rfl
    rw [this, hA2]
    decide +kernel

/-! ## C10 -/

/-- **C10, what holds.**  If every sender has an account and every action is a transfer or an asset deploy, the block
executes. -/
theorem C10_executable_partial (env : Env) (w : World) (txs : List SignedTx) (hw : w.WellTyped)
    (hsend : ∀ t ∈ txs, w.HasAccount (.user (senderOf env t)))
    (hact : ∀ t ∈ txs, (∃ r c, t.raw.action = .transfer r c) ∨ (∃ code, t.raw.action = .deploy code .asset)) :
    ∃ resp w', Executes env w txs resp w' := by
  obtain ⟨rs, w', h⟩ := flatLoop_total env txs w none hw hsend hact
  exact ⟨_, w', executes_iff.2 ⟨rs, h, rfl⟩⟩

/-- **C10 is false.**  A block in which some transaction is sent by an address that has no account after the
transactions before it never executes, whatever the other transactions are; nothing is committed. -/
theorem C10_unknown_sender_refuted {env : Env} {w : World} {pre post : List SignedTx} {tx : SignedTx}
    {resp0 : ExecResp} {w0 : World} (hw : w.WellTyped) (h0 : Executes env w pre resp0 w0)
    (hno : ¬ w0.HasAccount (.user (senderOf env tx))) :
    ¬ ∃ resp w', Executes env w (pre ++ tx :: post) resp w' := by
  rintro ⟨resp, w', h⟩
  have h' : Executes env w ((pre ++ [tx]) ++ post) resp w' := by simpa using h
  obtain ⟨resp1, w1, h1, -⟩ := executes_prefix h'
  obtain ⟨resp0', w0', r, hex, hw0, -, -, -, -, hacc, heff⟩ := executes_snoc hw h1
  have : w0' = w0 := by rw [← h0.2, ← hex.2]
  subst this
  cases heff with
  | fail e hr' hc hw' => rw [hw'] at hacc; exact hno hacc
  | transfer recv c ha hl hc hr' hreg hm =>
    obtain ⟨rs, hf, -⟩ := executes_iff.1 h1
    obtain ⟨rs1, w2, r2, hf1, hf2, -⟩ := flatLoop_snoc_ok hf
    have hw2 : w2 = w0' := by
      obtain ⟨rs3, hf3, -⟩ := executes_iff.1 hex
      rw [hf3] at hf1; simp only [Except.ok.injEq, Prod.mk.injEq] at hf1; exact hf1.2.symm
    subst hw2
    exact hno (flatStep_sender_exists hf2)
  | deploy code ha ad haddr hl hc hr' hnew hw' =>
    rw [hw'] at hacc
    exact hno ((hasAccount_bumpAt _ _ _).1 hacc)

/-- **C10 is false**, a concrete block: one transaction of an unknown sender makes the block fail although the other
transaction alone executes. -/
theorem C10_poison_refuted :
    (outcome [pay 1 2 30]).isSome = true ∧ (exec Demo.env [pay 1 2 30, pay 42 1 0] (St.open Demo.world)).1.isOk = false := by
  decide +kernel

/-- **C10 is false**: a block with an `Approve`, `Call` or non-asset `Deploy` transaction panics when it is reached. -/
theorem C10_unsupported_panics_refuted {env : Env} {w : World} {pre post : List SignedTx} {tx : SignedTx}
    {resp0 : ExecResp} {w0 : World} (h0 : Executes env w pre resp0 w0)
    (hact : (∃ s i m, tx.raw.action = .approve s i m) ∨ (∃ c m as k, tx.raw.action = .call c m as k) ∨
      (∃ code ty, ty ≠ .asset ∧ tx.raw.action = .deploy code ty)) :
    (exec env (pre ++ tx :: post) (St.open w)).1 = .error .panic := by
  obtain ⟨rs, hf, -⟩ := executes_iff.1 h0
  have he := exec_open_eq env (pre ++ tx :: post) w
  have : flatLoop env (pre ++ tx :: post) w none = .error .panic := by
    rw [flatLoop_append, hf]
    simp only [flatLoop, flatStep_panics hact]
  rw [this] at he
  exact he

/-! ## C12 -/

/-- **C12 (permanence).**  An asset registered in a world is the same in every world any number of blocks later. -/
theorem C12_asset_permanent {w w' : World} (hw : w.WellTyped) (h : BlocksLater w w') {id : AssetID} {x : Asset}
    (hx : w.assets id = some x) : w'.assets id = some x ∧ w'.WellTyped := by
  induction h with
  | refl => exact ⟨hx, hw⟩
  | step _ he ih =>
    have ih := ih hw hx
    obtain ⟨rs, hf, -⟩ := executes_iff.1 he
    exact ⟨(flatLoop_run hf).2.assets ih.2 ih.1, executes_wellTyped ih.2 he⟩

/-- **C12 (uniqueness).**  A successful deploy registers an id that was free before, and an asset that carries that
id; every other id resolves as before.  So a deploy whose id is taken fails. -/
theorem C12_deploy_fresh {env : Env} {w : World} {pre : List SignedTx} {tx : SignedTx} {resp : ExecResp}
    {w1 : World} {r : Receipt} {address : ContractAddress} {ty : ContractType}
    (hw : w.WellTyped) (h : Executes env w (pre ++ [tx]) resp w1)
    (hr : resp.receipts.getLast? = some r) (hok : r.result = .deploy address ty) :
    ∃ resp0 w0 x, Executes env w pre resp0 w0 ∧
      w0.assets (env.digest (env.chainId.bytes ++ address.toBytes)) = none ∧
      w1.assets (env.digest (env.chainId.bytes ++ address.toBytes)) = some x ∧
      x.id = env.digest (env.chainId.bytes ++ address.toBytes) ∧ x.manageContract = address ∧
      (∀ j, j ≠ env.digest (env.chainId.bytes ++ address.toBytes) → w1.assets j = w0.assets j) ∧
      ∀ a j, balance w1 a j = balance w0 a j := by
  obtain ⟨resp0, w0, r0, hex, -, hlast, -, -, -, -, heff⟩ := executes_snoc hw h
  have := hlast r hr
  subst this
  cases heff with
  | fail e hr' _ _ => simp only [hr'] at hok; simp at hok
  | transfer recv c' ha' hl hc hr' hreg hm => simp only [hr'] at hok; simp at hok
  | deploy code ha ad haddr hl hc hr' hnew hw' =>
    simp only [hr', ReceiptResult.deploy.injEq] at hok
    obtain ⟨rfl, rfl⟩ := hok
    refine ⟨resp0, w0, deployedAsset env ad, hex, hnew, ?_, rfl, rfl, ?_, ?_⟩
    · rw [hw']; simp [World.setAsset, PMap.set, assetIdOf]
    · intro j hj; rw [hw']
      show PMap.set _ _ _ j = _
      simp only [PMap.set, assetIdOf, hj, if_false, World.assets_bumpAt]
    · intro a j
      rw [← balance_bumpAt w0 (lastSender env pre), hw']; rfl

example : (outcome [tx 1 (.deploy [1, 2] .asset), tx 2 (.deploy [1, 2] .asset), tx 1 (.deploy [1, 2] .asset)]).map
    (fun x => x.1.receipts.map (·.result.isFail)) = some [false, false, false] := by decide +kernel
example : (outcome [tx 2 (.deploy [1, 2] .asset), tx 3 (.deploy [1, 2] .asset)]).map
    (fun x => x.1.receipts.map (·.result.isFail)) = some [false, true] := by decide +kernel

/-- Every asset of a reachable world is stored under its own id. -/
theorem C12_asset_ids_step {env : Env} {w : World} {txs : List SignedTx} {resp : ExecResp} {w' : World}
    (hw : w.WellTyped) (h : Executes env w txs resp w') (hid : ∀ i x, w.assets i = some x → x.id = i) :
    ∀ i x, w'.assets i = some x → x.id = i := by
  intro i x hx
  obtain ⟨rs, hf, -⟩ := executes_iff.1 h
  rcases (flatLoop_run hf).2.assets_new hw hx with h | ⟨ad, rfl, rfl, -⟩
  · exact hid i x h
  · rfl

/-! ## C14 -/

/-- **C14 (user accounts).**  Withdrawing from a user account fails exactly when it holds less than the amount;
otherwise only that balance changes, by the amount. -/
theorem C14_withdraw_user (id : AssetID) (u : UserAccount) (n : Nat) :
    (accountBalance id (.user u) < n → subBalanceUser id u n = .error (.err .insufficientBalance)) ∧
    ∀ v, subBalanceUser id u n = .ok v →
      accountBalance id (.user v) + n = accountBalance id (.user u) ∧
      (∀ j, j ≠ id → accountBalance j (.user v) = accountBalance j (.user u)) ∧ v.nonce = u.nonce := by
  constructor
  · intro h
    have := debit_user_fails h
    simp only [debitAccount] at this
    cases hs : subBalanceUser id u n with
    | error f => rw [hs] at this; simpa [Except.map] using this
    | ok v => rw [hs] at this; simp [Except.map] at this
  · intro v hv
    have : debitAccount id n (.user u) = .ok (.user v) := by simp [debitAccount, hv, Except.map]
    obtain ⟨v', hv', hn, -, hb, -⟩ := debit_user_spec this
    simp only [Account.user.injEq] at hv'
    subst hv'
    refine ⟨by simpa using hb id, fun j hj => by simpa [hj] using hb j, hn⟩

/-- **C14 (contract accounts), what holds.**  If the contract account holds the asset, withdrawing panics when the
balance is too low and otherwise decreases exactly it. -/
theorem C14_withdraw_contract_partial (id : AssetID) (c : ContractAccount) (n b : Nat) (hb : c.assets.get id = some b) :
    (b < n → subBalanceContract id c n = .error .panic) ∧
    (n ≤ b → ∃ d, subBalanceContract id c n = .ok d ∧ accountBalance id (.contract d) + n = b ∧
      ∀ j, j ≠ id → accountBalance j (.contract d) = accountBalance j (.contract c)) := by
  constructor
  · intro h; simp [subBalanceContract, hb, h]
  · intro h
    refine ⟨{ c with assets := c.assets.insert id (b - n) }, by simp [subBalanceContract, hb, Nat.not_lt.2 h], ?_, ?_⟩
    · simp only [accountBalance, BMap.get_insert_self]; omega
    · intro j hj; simp only [accountBalance, BMap.get_insert_ne _ _ hj]

/-- **C14 is false for contract accounts.**  Withdrawing any amount of an asset the contract never held succeeds and
credits the contract with that amount. -/
theorem C14_withdraw_contract_refuted (id : AssetID) (c : ContractAccount) (n : Nat) (h : c.assets.get id = none) :
    ∃ d, subBalanceContract id c n = .ok d ∧ accountBalance id (.contract c) = 0 ∧ accountBalance id (.contract d) = n := by
  refine ⟨{ c with assets := c.assets.insert id n }, by simp [subBalanceContract, h], by simp [accountBalance, h], ?_⟩
  simp only [accountBalance, BMap.get_insert_self]

example : (⟨0, [], Demo.hash 0⟩ : ContractAccount).assets.get gold = none := rfl

end Huobi
