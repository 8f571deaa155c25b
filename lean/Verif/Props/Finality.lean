import Verif.Props.Lifetime
import Verif.Props.PayOnce
/-
C105: what a node has committed is final.
-/
namespace Huobi

/-! ### Specification -/

/-- `m` is the node some time after it was `n`: any allowed calls later, with the process ended and started again any number of times. -/
inductive LaterNode (cfg : NodeCfg) (g : Genesis) (ok : Node → NodeOp → Prop) (n : Node) : Node → Prop
  | refl : LaterNode cfg g ok n n
  | step {m} (op : NodeOp) : LaterNode cfg g ok n m → ok m op → LaterNode cfg g ok n (m.step cfg op)
  | restart {m s t m'} : LaterNode cfg g ok n m → handleInit cfg g m.store m.tries = some (s, t) → startNode cfg s t = some m' →
      LaterNode cfg g ok n m'

/-- Nothing of the chain of `n` is different in `m`: the latest epoch of `m` is not below that of `n`, and up to the latest epoch of `n`
the API shows the same epochs. -/
def Extends (n m : Node) : Prop :=
  ∃ a b, n.queryEpoch none = some a ∧ m.queryEpoch none = some b ∧ a.header.epochId ≤ b.header.epochId ∧
    ∀ i, i ≤ a.header.epochId → m.queryEpoch (some i) = n.queryEpoch (some i)

/-! ### Proofs -/

theorem LaterNode.lives {cfg : NodeCfg} {g : Genesis} {ok : Node → NodeOp → Prop} {n m : Node} (h : LaterNode cfg g ok n m)
    (hn : Lives cfg g ok n) : Lives cfg g ok m := by
  induction h with
  | refl => exact hn
  | step op _ ho ih => exact .step op ih ho
  | restart _ h1 h2 ih => exact .restart ih h1 h2

theorem Extends.refl {n : Node} {a : Epoch} (h : n.store.latest = some a) : Extends n n :=
  ⟨a, a, h, h, UInt64.le_refl _, fun _ _ => rfl⟩

theorem Extends.trans {n m k : Node} (h1 : Extends n m) (h2 : Extends m k) : Extends n k := by
  obtain ⟨a, b, ha, hb, hab, h1⟩ := h1
  obtain ⟨b', c, hb', hc, hbc, h2⟩ := h2
  rw [hb] at hb'; cases hb'
  exact ⟨a, c, ha, hc, UInt64.le_trans hab hbc, fun i hi => (h2 i (UInt64.le_trans hi hab)).trans (h1 i hi)⟩

theorem Extends.same {n m : Node} {a : Epoch} (h : n.store.latest = some a) (h1 : m.store.latest = n.store.latest)
    (h2 : m.store.epochs = n.store.epochs) : Extends n m :=
  ⟨a, a, h, by show m.store.latest = _; rw [h1, h], UInt64.le_refl _, fun i _ => by show m.store.epochs i = _; rw [h2]; rfl⟩

theorem Extends.effect {cfg : NodeCfg} {P : Done → Prop} {n n' : Node} {last : Epoch} (hl : n.store.latest = some last) (he : Effect cfg P n n')
    (hP : ∀ d, P d → last.header.epochId + 1 ≠ 0 ∧ d.epoch.header.epochId = last.header.epochId + 1) : Extends n n' := by
  cases he with
  | quiet h1 h2 h3 h4 => exact .same hl (by rw [h1]) (by rw [h1])
  | proof p h1 h2 h3 h4 => exact .same hl (by rw [h1]; rfl) (by rw [h1]; rfl)
  | failed d j hp hr hj h1 h3 h4 =>
    obtain ⟨a, b⟩ := hP d hp
    refine ⟨last, last, hl, ?_, UInt64.le_refl _, fun i hi => ?_⟩
    · show n'.store.latest = _
      rw [h1, latest_take cfg d _ j hj, hl]
    · show n'.store.epochs i = n.store.epochs i
      rw [h1]
      rcases epochs_take cfg d n.store j i with h | ⟨h, -⟩
      · exact h
      · rw [h, b] at hi
        exact absurd (u64_lt_succ a) (UInt64.not_lt.2 hi)
  | done d hp hr h1 h3 h4 =>
    obtain ⟨a, b⟩ := hP d hp
    refine ⟨last, d.epoch, hl, ?_, ?_, fun i hi => ?_⟩
    · show n'.store.latest = _
      rw [h1, latest_all]
    · rw [b]; exact UInt64.le_of_lt (u64_lt_succ a)
    · show n'.store.epochs i = n.store.epochs i
      rw [h1, epochs_all, if_neg]
      intro h
      rw [h, b] at hi
      exact absurd (u64_lt_succ a) (UInt64.not_lt.2 hi)

theorem SyncSteps.extends {cfg : NodeCfg} {io : SyncIo} (hio : ∀ k id e, io.pullEpoch k id = some e → e.header.epochId = id)
    {k ids h r n n'} (hs : SyncSteps cfg io k ids h r n n') (last : Epoch) (hl : n.store.latest = some last)
    (hc : Consecutive last.header.epochId ids) : Extends n n' := by
  induction hs generalizing last with
  | stop => exact .refl hl
  | @fail k id ids h r n n' he _ _ =>
    obtain ⟨rfl, h0, -⟩ := hc
    exact .effect hl he fun d hd => ⟨h0, hio _ _ _ hd.pulled⟩
  | @round k id ids h r n n1 n' d hd hr hst hstat hlog _ ih =>
    have hid := hio _ _ _ hd.pulled
    obtain ⟨rfl, h0, hc⟩ := hc
    refine .trans (.effect hl (.done d hd hr hst hstat hlog) fun d' hd' => ⟨h0, hio _ _ _ hd'.pulled⟩) ?_
    exact ih d.epoch (by rw [hst]; rfl) (by rw [hid]; exact hc)

theorem Extends.step {cfg : NodeCfg} {g : Genesis} {n : Node} (h : Lives cfg g (Continues cfg) n) (op : NodeOp) (hok : Continues cfg n op) :
    Extends n (n.step cfg op) := by
  obtain ⟨last, hl, -, -⟩ := h.chained.linked
  cases op with
  | commit io id pill proof =>
    refine .effect hl (commit_effect cfg io id pill proof n) fun d hd => ?_
    obtain ⟨h0, hid, hh, -⟩ := hok
    obtain ⟨hn1, -⟩ := h.chained.next last hl
    rw [hd.epoch]
    exact ⟨by rw [← hn1, ← hid]; exact h0, by rw [hh, hid, hn1]⟩
  | sync io msg =>
    show Extends n (n.updateEpoch cfg io msg).2
    rcases updateEpoch_steps cfg io msg n with h | ⟨v, rest, h, r, -, hst, hs⟩
    · rw [h]; exact .refl hl
    · have hcur : n.currentId = last.header.epochId := by simp [Node.currentId, hl]
      rw [hcur] at hs
      exact hs.extends (fun k id e he => (hok k id e he).1) last hl (consecutive_syncIds _ _)
  | insertTx o b tx => exact .effect hl (passive_effect cfg (fun _ => False) n _ trivial) (fun _ h => h.elim)
  | propose now id => exact .effect hl (passive_effect cfg (fun _ => False) n _ trivial) (fun _ h => h.elim)
  | check p1 p2 hh pill => exact .effect hl (passive_effect cfg (fun _ => False) n _ trivial) (fun _ h => h.elim)

/-- **C105, epochs (partial: if commits and peers continue the chain, see `C105_refuted`).**  From whatever point of a node's lifetime on,
through any calls, failed calls, crashes and restarts: the latest epoch never goes back, and the API goes on showing the same epoch for every
height up to the latest one of that point. -/
theorem C105_epochs_partial {cfg : NodeCfg} {g : Genesis} {n m : Node} (h : Lives cfg g (Continues cfg) n)
    (hm : LaterNode cfg g (Continues cfg) n m) :
    ∃ a b, n.queryEpoch none = some a ∧ m.queryEpoch none = some b ∧ a.header.epochId ≤ b.header.epochId ∧
      ∀ i, i ≤ a.header.epochId → m.queryEpoch (some i) = n.queryEpoch (some i) := by
  show Extends n m
  induction hm with
  | refl => obtain ⟨last, hl, -, -⟩ := h.chained.linked; exact .refl hl
  | step op hm ho ih => exact ih.trans (.step (hm.lives h) op ho)
  | @restart m s t m' hm h1 h2 ih =>
    refine ih.trans ?_
    obtain ⟨last, hl, -, -⟩ := (hm.lives h).chained.linked
    obtain ⟨rfl, rfl⟩ := handleInit_some (by rw [hl]; rfl) h1
    obtain ⟨e, -, hs, -⟩ := startNode_some h2
    exact .same hl (by rw [hs]) (by rw [hs])

theorem LaterNode.tries {cfg : NodeCfg} {g : Genesis} {ok : Node → NodeOp → Prop} {n m : Node} (hn : Lives cfg g ok n) (hm : LaterNode cfg g ok n m)
    (hok : ∀ n op, ok n op → KeepsRoots cfg n op) {r : MerkleRoot} {w : World} (h : n.tries r = some w) : m.tries r = some w := by
  induction hm with
  | refl => exact h
  | step op hm ho ih => exact hok _ _ ho r w ih
  | @restart m s t m' hm h1 h2 ih =>
    obtain ⟨-, l, hl, -⟩ := (hm.lives hn).coherent
    obtain ⟨rfl, rfl⟩ := handleInit_some (by rw [hl]; rfl) h1
    obtain ⟨e, -, -, ht, -⟩ := startNode_some h2
    rw [ht]; exact ih

theorem Lives.weaken {cfg : NodeCfg} {g : Genesis} {ok ok' : Node → NodeOp → Prop} (h : ∀ n op, ok n op → ok' n op) {n : Node}
    (hn : Lives cfg g ok n) : Lives cfg g ok' n := by
  induction hn with
  | init h1 h2 => exact .init h1 h2
  | step op _ ho ih => exact .step op ih (h _ _ ho)
  | restart _ h1 h2 ih => exact .restart ih h1 h2

theorem LaterNode.weaken {cfg : NodeCfg} {g : Genesis} {ok ok' : Node → NodeOp → Prop} (h : ∀ n op, ok n op → ok' n op) {n m : Node}
    (hm : LaterNode cfg g ok n m) : LaterNode cfg g ok' n m := by
  induction hm with
  | refl => exact .refl
  | step op _ ho ih => exact .step op ih (h _ _ ho)
  | restart _ h1 h2 ih => exact .restart ih h1 h2

theorem balance_kept {cfg : NodeCfg} {n m : Node} {i : UInt64} (hq : m.queryEpoch (some i) = n.queryEpoch (some i))
    (ht : ∀ r w, n.tries r = some w → m.tries r = some w) (who : Address) (asset : AssetID) (v : Nat)
    (hv : n.queryBalance cfg who asset (some i) = some v) : m.queryBalance cfg who asset (some i) = some v := by
  unfold Node.queryBalance at hv ⊢
  rw [hq]
  cases he : n.queryEpoch (some i) with
  | none => rw [he] at hv; cases hv
  | some e =>
    rw [he] at hv
    simp only at hv ⊢
    unfold fromRoot at hv ⊢
    by_cases hz : e.header.stateRoot = (cfg.env e.header.epochId 0 (.user e.header.proposer)).emptyHash
    · rw [if_pos hz] at hv ⊢; exact hv
    · rw [if_neg hz] at hv ⊢
      cases hw : n.tries e.header.stateRoot with
      | none => rw [hw] at hv; cases hv
      | some w => rw [ht _ _ hw]; rw [hw] at hv; exact hv

/-- **C105, balances (partial: as above, and if no state is stored under the root of another one).**  A balance that the API answers for an
epoch up to the latest one is answered for that epoch ever after. -/
theorem C105_balances_partial {cfg : NodeCfg} {g : Genesis} {n m : Node}
    (h : Lives cfg g (fun n op => Continues cfg n op ∧ KeepsRoots cfg n op) n)
    (hm : LaterNode cfg g (fun n op => Continues cfg n op ∧ KeepsRoots cfg n op) n m) {a : Epoch} (ha : n.queryEpoch none = some a)
    (i : UInt64) (hi : i ≤ a.header.epochId) (who : Address) (asset : AssetID) (v : Nat)
    (hv : n.queryBalance cfg who asset (some i) = some v) : m.queryBalance cfg who asset (some i) = some v := by
  obtain ⟨a', b, ha', -, -, hq⟩ := C105_epochs_partial (h.weaken fun _ _ h => h.1) (hm.weaken fun _ _ h => h.1)
  rw [ha] at ha'; cases ha'
  exact balance_kept (hq i hi) (fun _ _ => hm.tries h (fun _ _ h => h.2)) who asset v hv

/-- Recording an epoch leaves alone the transactions, and their receipts, that are stored and not in the epoch. -/
theorem kept_effect {cfg : NodeCfg} {P : Done → Prop} {n n' : Node} {h : Hash} (hs : (n.store.txs h).isSome)
    (hP : ∀ d, P d → (∀ t ∈ d.txs, n.store.txs t.txHash = none)) (hr : ∀ d db, P d → d.Ran cfg n db → d.resp.receipts.map (·.txHash) = d.txs.map (·.txHash))
    (he : Effect cfg P n n') : n'.store.txs h = n.store.txs h ∧ n'.store.receipts h = n.store.receipts h := by
  have key : ∀ d, P d → ∀ t ∈ d.txs, t.txHash ≠ h := by
    rintro d hd t ht rfl
    rw [hP d hd t ht] at hs; cases hs
  have receipt : ∀ d db, P d → d.Ran cfg n db → (n.store.writes (d.writes cfg)).receipts h = n.store.receipts h := by
    intro d db hd hdb
    rw [receipts_writes]
    split
    · rename_i r hf
      obtain ⟨hm, rfl⟩ := find_receipt hf
      have : r.txHash ∈ d.txs.map (·.txHash) := hr d db hd hdb ▸ List.mem_map_of_mem hm
      obtain ⟨t, ht, hte⟩ := List.mem_map.1 this
      exact absurd hte (key d hd t ht)
    · rfl
  cases he with
  | quiet h1 h2 h3 h4 => rw [h1]; exact ⟨rfl, rfl⟩
  | proof p h1 h2 h3 h4 => rw [h1]; exact ⟨rfl, rfl⟩
  | failed d j hp hran hj h1 h3 h4 =>
    rw [h1]
    refine ⟨?_, ?_⟩
    · rcases txs_take cfg d n.store j h with h | ⟨t, ht, hte⟩
      · exact h
      · exact absurd hte (key d hp t ht)
    · rcases receipts_take cfg d n.store j with hj | hj <;> rw [hj]
      exact receipt d _ hp hran
  | done d hp hran h1 h3 h4 =>
    rw [h1]
    refine ⟨?_, receipt d _ hp hran⟩
    rcases txs_take cfg d n.store 6 h with h | ⟨t, ht, hte⟩
    · rw [List.take_of_length_le (by rw [Done.writes_eq]; simp)] at h; exact h
    · exact absurd hte (key d hp t ht)

/-- **C105, transactions (partial: without synchronisation and if peers hand over no transaction again, as C65).**  The transaction and the
receipt of whatever was recorded in an epoch stay the same ever after, through any calls, failed calls, crashes and restarts. -/
theorem C105_transactions_partial {cfg : NodeCfg} {g : Genesis} {n m : Node} {older : List Done} (h : History cfg g NodeOp.Fresh n older)
    (hm : LaterNode cfg g NodeOp.Fresh n m) (d : Done) (hd : d ∈ n.log ++ older) (t : SignedTx) (ht : t ∈ d.txs) :
    (n.store.txs t.txHash).isSome ∧ m.store.txs t.txHash = n.store.txs t.txHash ∧
    (n.apiReceipt t.txHash).isSome ∧ m.apiReceipt t.txHash = n.apiReceipt t.txHash := by
  have h1 := h.onceInv.stored d hd t ht
  have h2 := (C89_receipts_genuine h t.txHash).1 d hd ⟨t, ht, rfl⟩
  suffices m.store.txs t.txHash = n.store.txs t.txHash ∧ m.store.receipts t.txHash = n.store.receipts t.txHash from
    ⟨h1, this.1, h2, this.2⟩
  induction hm with
  | refl => exact ⟨rfl, rfl⟩
  | @restart m s tr m' hm e1 e2 ih =>
    obtain ⟨-, l, hl, -⟩ := (hm.lives h.lives).coherent
    obtain ⟨rfl, rfl⟩ := handleInit_some (by rw [hl]; rfl) e1
    obtain ⟨e, -, hs, -⟩ := startNode_some e2
    rw [hs]; exact ih
  | @step m op hm ho ih =>
    have hst : (m.store.txs t.txHash).isSome := by rw [ih.1]; exact h1
    suffices (m.step cfg op).store.txs t.txHash = m.store.txs t.txHash ∧ (m.step cfg op).store.receipts t.txHash = m.store.receipts t.txHash from
      ⟨this.1.trans ih.1, this.2.trans ih.2⟩
    have passive : op.Passive → (m.step cfg op).store.txs t.txHash = m.store.txs t.txHash ∧ (m.step cfg op).store.receipts t.txHash = m.store.receipts t.txHash := by
      intro hp; rw [(passive_step cfg m op hp).1]; exact ⟨rfl, rfl⟩
    cases op with
    | sync io msg => exact ho.elim
    | insertTx o b tx => exact passive trivial
    | propose now id => exact passive trivial
    | check p1 p2 hh pill => exact passive trivial
    | commit io id pill proof =>
      have hl := hm.lives h.lives
      obtain ⟨o', hist⟩ := hl.history
      exact kept_effect hst (fun d hd => (commitDone_unstored hl hl.replayInv hd).2)
        (fun d db _ hr => (ran_genuine hist.receiptInv.worlds hr).1) (commit_effect cfg io id pill proof m)

theorem Runs.laterNode {cfg : NodeCfg} {g : Genesis} {ok : Node → NodeOp → Prop} {n m : Node} (h : Runs cfg ok n m) : LaterNode cfg g ok n m := by
  induction h with
  | refl => exact .refl
  | step op _ ho ih => exact .step op ih ho

namespace Demo

/-- The node restarted after its second epoch. -/
def restarted2 : Node := (startNode ncfg n2.store n2.tries).getD noNode

theorem restarted2_start : handleInit ncfg ngenesis n2.store n2.tries = some (n2.store, n2.tries) ∧ startNode ncfg n2.store n2.tries = some restarted2 := by
  have h1 : n2.store.latest.isSome = true := by decide +kernel
  have h2 : (startNode ncfg n2.store n2.tries).isSome = true := by decide +kernel
  obtain ⟨e, he⟩ := Option.isSome_iff_exists.1 h1
  obtain ⟨m, hm⟩ := Option.isSome_iff_exists.1 h2
  refine ⟨by simp only [handleInit, he], ?_⟩
  unfold restarted2
  rw [hm]; rfl

/-- The node of the examples after its first epoch, and after a second epoch and a restart, under any condition that regular calls meet. -/
theorem restarted2_later {ok : Node → NodeOp → Prop} (h : ∀ n op, Regular ncfg n op → ok n op) :
    Lives ncfg ngenesis ok n1 ∧ LaterNode ncfg ngenesis ok n1 restarted2 := by
  refine ⟨Runs.lives (n0_lives ok) n1_runs.1 h, .weaken h (.restart ?_ restarted2_start.1 restarted2_start.2)⟩
  have := block_runs (m := n1) .refl n1_runs.2.1 n2_ok
  rw [n2_eq] at this
  exact this.1.laterNode

/-- Two epochs later, the API shows the first epoch and the balances at it as before. -/
example : (Lives ncfg ngenesis (fun n op => Continues ncfg n op ∧ KeepsRoots ncfg n op) n1 ∧
      LaterNode ncfg ngenesis (fun n op => Continues ncfg n op ∧ KeepsRoots ncfg n op) n1 restarted2) ∧
    n1.queryBalance ncfg (naddr 1) token (some 1) = some 100 ∧
    restarted2.queryBalance ncfg (naddr 1) token (some 2) = some 90 ∧ restarted2.queryBalance ncfg (naddr 1) token (some 1) = some 100 ∧
    (n1.queryEpoch none).map (·.header.epochId) = some 1 ∧ (restarted2.queryEpoch none).map (·.header.epochId) = some 2 :=
  ⟨restarted2_later fun _ _ h => ⟨h.continues, h.keeps⟩, by decide +kernel, by decide +kernel, by decide +kernel, by decide +kernel, by decide +kernel⟩

theorem run_laterNode {ok : Node → NodeOp → Prop} {n : Node} (ops : List NodeOp) : ∀ {m : Node}, LaterNode ncfg ngenesis ok n m →
    (∀ op ∈ ops, ∀ k, ok k op) → LaterNode ncfg ngenesis ok n (m.run ncfg ops) := by
  induction ops with
  | nil => intro _ h _; exact h
  | cons op ops ih => intro _ h ho; exact ih (.step op h (ho op (by simp) _)) (fun o hm => ho o (by simp [hm]))

theorem blockOps_fresh (n : Node) (txs : List SignedTx) (op : NodeOp) (hop : op ∈ blockOps n txs) (k : Node) : op.Fresh k := by
  simp only [blockOps, List.mem_append, List.mem_map, List.mem_cons, List.not_mem_nil, or_false] at hop
  rcases hop with ⟨t, -, rfl⟩ | rfl | rfl <;> trivial

/-- The payment of the first epoch keeps its receipt through a second epoch and a restart. -/
example : History ncfg ngenesis NodeOp.Fresh n1 [] ∧ LaterNode ncfg ngenesis NodeOp.Fresh n1 restarted2 ∧
    n1.log.map (fun d => d.txs) = [[npay 1 2 10]] ∧ restarted2.apiReceipt (npay 1 2 10).txHash = n1.apiReceipt (npay 1 2 10).txHash ∧
    (n1.apiReceipt (npay 1 2 10).txHash).isSome = true :=
  ⟨run_history _ (n0_history _) (fun op hop m => blockOps_fresh _ _ op hop m),
   .restart (run_laterNode _ .refl (fun op hop m => blockOps_fresh _ _ op hop m)) restarted2_start.1 restarted2_start.2,
   by decide +kernel, by decide +kernel, by decide +kernel⟩

/-- What a peer hands over as epoch 2: an epoch of height 0 that refers to epoch 1. -/
def rewrite : Epoch := ⟨header 0 n1.status.prevHash (hash 67), [(npay 1 2 10).txHash]⟩

/-- What it hands over as the payment of 10 from user 1 to user 2, recorded in epoch 1: a payment to user 3. -/
def rewriteTx : SignedTx := { npay 1 3 10 with txHash := (npay 1 2 10).txHash }

def rewriter : SyncIo :=
  { lock := true, pullEpoch := fun _ id => if id = 2 then some rewrite else none, pullTxs := fun _ _ => some [rewriteTx], save := fun _ => .ok,
    send := true }

def rewritten : Node := n1.step ncfg (.sync rewriter (u64LE 4))

end Demo

open Demo in
/-- **C105 is false of the code as it stands.**  After one epoch with one payment, one peer says that it is ahead and hands over, for epoch 2,
an epoch of height 0 with another transaction under the hash of that payment.  The node's latest epoch is 0 again, another one than before, and
for the payment it shows another transaction and another receipt. -/
theorem C105_refuted : ∃ (cfg : NodeCfg) (g : Genesis) (n : Node) (io : SyncIo) (msg : Bytes) (d : Done) (t : SignedTx),
    Lives cfg g (fun _ _ => True) n ∧ n.log = [d] ∧ d.txs = [t] ∧
    (n.queryEpoch none).map (·.header.epochId) = some 1 ∧
    ((n.step cfg (.sync io msg)).queryEpoch none).map (·.header.epochId) = some 0 ∧
    (n.step cfg (.sync io msg)).queryEpoch (some 0) ≠ n.queryEpoch (some 0) ∧
    ((n.step cfg (.sync io msg)).store.txs t.txHash).isSome ∧ (n.step cfg (.sync io msg)).store.txs t.txHash ≠ n.store.txs t.txHash ∧
    ((n.step cfg (.sync io msg)).apiReceipt t.txHash).isSome ∧ (n.step cfg (.sync io msg)).apiReceipt t.txHash ≠ n.apiReceipt t.txHash := by
  have hlen : n1.log.map (fun d => d.txs) = [[npay 1 2 10]] := by decide +kernel
  have hone : ∃ d, n1.log = [d] ∧ d.txs = [npay 1 2 10] := by
    revert hlen
    generalize n1.log = l
    generalize npay 1 2 10 = t
    intro h
    match l, h with
    | [d], h => exact ⟨d, rfl, by simpa using h⟩
    | _ :: _ :: _, h => simp at h
  obtain ⟨d, h1, h2⟩ := hone
  have e0 : (n1.queryEpoch none).map (·.header.epochId) = some 1 := by decide +kernel
  have e1 : (rewritten.queryEpoch none).map (·.header.epochId) = some 0 := by decide +kernel
  have e2 : rewritten.queryEpoch (some 0) ≠ n1.queryEpoch (some 0) := by decide +kernel
  have e3 : (rewritten.store.txs (npay 1 2 10).txHash).isSome = true := by decide +kernel
  have e4 : rewritten.store.txs (npay 1 2 10).txHash ≠ n1.store.txs (npay 1 2 10).txHash := by decide +kernel
  have e5 : (rewritten.apiReceipt (npay 1 2 10).txHash).isSome = true := by decide +kernel
  have e6 : rewritten.apiReceipt (npay 1 2 10).txHash ≠ n1.apiReceipt (npay 1 2 10).txHash := by decide +kernel
  have hl : Lives ncfg ngenesis (fun _ _ => True) n1 := blockOps_lives (n0_lives _) _ (fun _ _ => trivial)
  have hr : n1.step ncfg (.sync rewriter (u64LE 4)) = rewritten := rfl
  revert e0 e1 e2 e3 e4 e5 e6 h1 h2 hl
  rw [← hr]
  generalize n1 = n
  generalize rewriter = io
  generalize npay 1 2 10 = t
  intro h1 h2 e0 e1 e2 e3 e4 e5 e6 hl
  exact ⟨ncfg, ngenesis, n, io, u64LE 4, d, t, hl, h1, h2, e0, e1, e2, e3, e4, e5, e6⟩

end Huobi
