import Verif.Props.Finality2
/-
C105 with overlapping calls: the transactions and receipts of recorded epochs stay.
-/
namespace Huobi

/-- No event of a race-free schedule changes a stored transaction or its receipt. -/
theorem stored_event {cfg : NodeCfg} {n : Node} {older : List Done} {evs : List Event} (h : Sched cfg n older evs (Conf.after cfg n evs)) (e : Event) (k : Hash)
    (hk : ((Conf.after cfg n evs).node.store.txs k).isSome) :
    (Conf.after cfg n (evs ++ [e])).node.store.txs k = (Conf.after cfg n evs).node.store.txs k ∧
    (Conf.after cfg n (evs ++ [e])).node.store.receipts k = (Conf.after cfg n evs).node.store.receipts k := by
  rw [after_snoc]
  generalize Conf.after cfg n evs = c at h hk ⊢
  have start : ∀ t q, (c.start t q).node = c.node := fun t q => by unfold Conf.start; split <;> rfl
  cases e with
  | callCommit t io id pill proof => exact ⟨congrArg (fun n : Node => n.store.txs k) (start ..), congrArg (fun n : Node => n.store.receipts k) (start ..)⟩
  | callSync t io msg => exact ⟨congrArg (fun n : Node => n.store.txs k) (start ..), congrArg (fun n : Node => n.store.receipts k) (start ..)⟩
  | callInsert t o b tx => exact ⟨congrArg (fun n : Node => n.store.txs k) (start ..), congrArg (fun n : Node => n.store.receipts k) (start ..)⟩
  | callPropose t now id => exact ⟨congrArg (fun n : Node => n.store.txs k) (start ..), congrArg (fun n : Node => n.store.receipts k) (start ..)⟩
  | callCheck t p1 p2 hash pill => exact ⟨congrArg (fun n : Node => n.store.txs k) (start ..), congrArg (fun n : Node => n.store.receipts k) (start ..)⟩
  | run t =>
    simp only [Conf.step]
    split
    · exact ⟨rfl, rfl⟩
    · exact ⟨rfl, rfl⟩
    · rename_i f q hq
      show (f c.node).store.txs k = c.node.store.txs k ∧ (f c.node).store.receipts k = c.node.store.receipts k
      generalize hp : Prog.act f q = p at hq
      have hd := h.tasks t p hq
      cases hd with
      | done r => cases hp
      | wait _ => unfold Prog.commit at hp; cases hp
      | work _ _ hph hcom =>
        subst hp
        obtain ⟨-, hkeep, -⟩ := hcom _ hph
        exact hkeep k hk
      | pool _ hR hputs _ _ _ =>
        subst hp
        obtain ⟨hps, -⟩ := hputs _ hR h.base.good
        rw [← hps.same.store]
        exact ⟨rfl, rfl⟩
    · split <;> exact ⟨rfl, rfl⟩
    · exact ⟨rfl, rfl⟩

theorem stored_process {cfg : NodeCfg} {n : Node} {older : List Done} (hb : Base older n) (pre post : List Event) (hr : RaceFree cfg n (pre ++ post)) (k : Hash)
    (hk : ((Conf.after cfg n pre).node.store.txs k).isSome) :
    (Conf.after cfg n (pre ++ post)).node.store.txs k = (Conf.after cfg n pre).node.store.txs k ∧
    (Conf.after cfg n (pre ++ post)).node.store.receipts k = (Conf.after cfg n pre).node.store.receipts k := by
  induction post generalizing pre with
  | nil => rw [List.append_nil]; exact ⟨rfl, rfl⟩
  | cons e post ih =>
    have hr' : RaceFree cfg n (pre ++ [e] ++ post) := by rw [List.append_assoc]; exact hr
    obtain ⟨h1, h2⟩ := stored_event (Sched.after hb pre hr.prefix) e k hk
    obtain ⟨h3, h4⟩ := ih (pre ++ [e]) hr' (by rw [h1]; exact hk)
    rw [List.append_assoc] at h3 h4
    exact ⟨h3.trans h1, h4.trans h2⟩

theorem CStart.raceBase {cfg : NodeCfg} {g : Genesis} {n0 : Node} {older : List Done} (h : CStart cfg g (RaceFree cfg) n0 older) : Base older n0 := by
  cases h with
  | init h1 h2 => exact Base.start (fun d hd => by cases hd) .nil h1 h2
  | restart hh h1 h2 => exact Base.start hh.base.stored hh.base.once h1 h2

/-- **C105, transactions, for overlapping calls (partial: in the absence of the races of C101, `RaceFree`).**  The transaction and the receipt of
whatever was recorded in an epoch stay the same ever after: between any two moments of a node's lifetime, whatever insertions, proposals, checks
and commits overlap in between and wherever its processes are killed. -/
theorem C105_transactions_concurrent_partial {cfg : NodeCfg} {g : Genesis} {n m : Node} {older : List Done} (h : CHistory cfg g (RaceFree cfg) n older)
    (hm : CLater cfg g (RaceFree cfg) n m) (d : Done) (hd : d ∈ n.log ++ older) (t : SignedTx) (ht : t ∈ d.txs) :
    (n.store.txs t.txHash).isSome ∧ m.store.txs t.txHash = n.store.txs t.txHash ∧
    (n.apiReceipt t.txHash).isSome ∧ m.apiReceipt t.txHash = n.apiReceipt t.txHash := by
  have h1 := h.base.stored d hd t ht
  have h2 := (C89_concurrent_partial (h.mono fun _ _ hr => fun ⟨t, io, msg, hm⟩ => absurd hm (hr.noSync t io msg)) t.txHash).1 d hd ⟨t, ht, rfl⟩
  suffices m.store.txs t.txHash = n.store.txs t.txHash ∧ m.store.receipts t.txHash = n.store.receipts t.txHash from ⟨h1, this.1, h2, this.2⟩
  clear h2 hd
  induction hm with
  | same pre post hs hev e =>
    rw [e] at h1 ⊢
    exact stored_process hs.raceBase pre post hev _ h1
  | @restart m s tr n0 evs hm e1 e2 hev ih =>
    obtain ⟨older', hh⟩ := hm.history
    obtain ⟨e, -, hs, -⟩ := startNode_some e2
    have h3 : n0.store.txs t.txHash = n.store.txs t.txHash := by rw [hs, handleInit_keeps_txs e1]; exact ih.1
    have h4 : n0.store.receipts t.txHash = n.store.receipts t.txHash := by rw [hs, handleInit_receipts e1]; exact ih.2
    obtain ⟨h5, h6⟩ := stored_process (CStart.restart hh e1 e2 : CStart cfg g (RaceFree cfg) n0 _).raceBase [] evs hev t.txHash (by
      show (n0.store.txs t.txHash).isSome
      rw [h3]; exact h1)
    exact ⟨h5.trans h3, h6.trans h4⟩

open Demo in
/-- The hypotheses are met: the node when its first epoch, with a payment, has been committed and other calls are under way; and the node after it was
killed in the middle of the commit of the second epoch, restarted, and has committed that epoch. -/
example : CHistory ncfg ngenesis (RaceFree ncfg) (Conf.after ncfg n0 calm1).node [] ∧
    CLater ncfg ngenesis (RaceFree ncfg) (Conf.after ncfg n0 calm1).node (Conf.after ncfg calmNode calm3).node ∧
    (Conf.after ncfg n0 calm1).node.log.map Done.txs = [[late]] ∧ (Conf.after ncfg calmNode calm3).node.log.map Done.txs = [[other]] := by
  obtain ⟨s, t, hi, hs⟩ := n0_start
  exact ⟨.init calm1 hi hs (raceFree_of_check (by decide +kernel)), calm_later calm1 _ calm3 rfl (raceFree_of_check (by decide +kernel)) (raceFree_of_check (by decide +kernel)),
    by decide +kernel, by decide +kernel⟩

end Huobi
