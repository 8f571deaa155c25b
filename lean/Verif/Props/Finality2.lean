import Verif.Props.Finality
import Verif.Props.Linear2
/-
C105 with overlapping calls: what a node has committed is final, at every moment of every schedule.
-/
namespace Huobi

/-! ### Specification -/

/-- A node at two moments of a lifetime with overlapping calls: `n` after the events `pre` of a process, `m` after more events of the same process, or
after some events of a later one (each process is killed at any moment, in the middle of any calls). -/
inductive CLater (cfg : NodeCfg) (g : Genesis) (ok : Node → List Event → Prop) (n : Node) : Node → Prop
  | same {n0 older} (pre post : List Event) : CStart cfg g ok n0 older → ok n0 (pre ++ post) → n = (Conf.after cfg n0 pre).node →
      CLater cfg g ok n (Conf.after cfg n0 (pre ++ post)).node
  | restart {m s t n0} (evs : List Event) : CLater cfg g ok n m → handleInit cfg g m.store m.tries = some (s, t) → startNode cfg s t = some n0 →
      ok n0 evs → CLater cfg g ok n (Conf.after cfg n0 evs).node

/-! ### Every access extends the chain -/

/-- Every access of the program that starts with node `n` goes on from the node it finds, whatever other tasks do to the pool in between. -/
def Prog.Steady (R : Node → Node → Prop) : Prog → Node → Prop
  | .ret _, _ => True
  | .act f k, n => ∀ n1, n.Same n1 → R n1 (f n1) ∧ (k n1).Steady R (f n1)
  | .lock _ _ _, _ => True
  | .unlock _ _, _ => True

theorem Prog.Steady.same {R : Node → Node → Prop} {p : Prog} {n m : Node} (h : p.Steady R n) (hs : n.Same m) : p.Steady R m := by
  cases p with
  | act f k => exact fun n1 h1 => h n1 (hs.trans h1)
  | _ => trivial

theorem Prog.Steady.reach {R : Node → Node → Prop} {F : Node → Prop} {p q : Prog} {n m : Node} (h : p.Steady R n) (hr : Prog.Reach F p n q m) :
    q.Steady R m := by
  induction hr with
  | here hs => exact h.same hs
  | act hs _ _ ih => exact ih (h _ hs).2

/-- The status is not ahead of the latest epoch by more than one. -/
def Node.Fits (n : Node) : Prop := ∃ last, n.store.latest = some last ∧ n.status.epochId.toNat ≤ last.header.epochId.toNat + 1

/-- `m` extends the chain of `n`, and its status is in step with it. -/
structure Onward (n m : Node) : Prop where
  ext : Extends n m
  fits : n.Fits → m.Fits

theorem Onward.refl {n : Node} {a : Epoch} (h : n.store.latest = some a) : Onward n n := ⟨.refl h, fun h => h⟩

theorem Onward.same {n m : Node} {a : Epoch} (h : n.store.latest = some a) (h1 : m.store.latest = n.store.latest)
    (h2 : m.store.epochs = n.store.epochs) (h3 : m.status = n.status) : Onward n m :=
  ⟨.same h h1 h2, fun ⟨l, hl, hs⟩ => ⟨l, by rw [h1]; exact hl, by rw [h3]; exact hs⟩⟩

theorem Onward.trans {n m k : Node} (h1 : Onward n m) (h2 : Onward m k) : Onward n k := ⟨h1.ext.trans h2.ext, fun h => h2.fits (h1.fits h)⟩

theorem u64_succ_toNat (a : UInt64) : (a + 1).toNat ≤ a.toNat + 1 := by
  rw [UInt64.toNat_add]; exact Nat.mod_le _ _

theorem steady_endCommit {R : Node → Node → Prop} (r : Except CErr UInt64) (n : Node) : (Prog.endCommit r).Steady R n := trivial
theorem steady_endSync {R : Node → Node → Prop} (r : Except CErr (Option UInt64)) (n : Node) : (Prog.endSync r).Steady R n := trivial

theorem steady_write {n : Node} {last : Epoch} (hl : n.store.latest = some last) {ok : Bool} {w : Node → Node} {fail next : Prog}
    (hf : ∀ n', fail.Steady Onward n') (h : ∀ n1 : Node, n1.store = n.store → Onward n1 (w n1) ∧ next.Steady Onward (w n1)) :
    (Prog.write ok w fail next).Steady Onward n := by
  intro n1 hs
  cases ok with
  | false => exact ⟨.refl (by rw [← hs.store]; exact hl), hf _⟩
  | true => exact h n1 hs.store.symm

theorem steady_updateStatus {cfg : NodeCfg} {io : SaveIo} {root : MerkleRoot} {epochId : UInt64} {epoch : Epoch} {proof : Proof} {resp : ExecResp}
    {txs : List SignedTx} {fail next : Prog} {n : Node} {last : Epoch} (hl : n.store.latest = some last) (h0 : last.header.epochId + 1 ≠ 0)
    (hid : epoch.header.epochId = last.header.epochId + 1) (heid : epochId = epoch.header.epochId) (hf : ∀ n', fail.Steady Onward n')
    (hn : ∀ n' : Node, n'.store.latest = some epoch → next.Steady Onward n') :
    (Prog.updateStatus cfg io root epochId epoch proof resp txs fail next).Steady Onward n := by
  have hlt := u64_lt_succ h0
  unfold Prog.updateStatus
  refine steady_write hl hf fun n1 e1 => ?_
  have l1 : n1.store.latest = some last := by rw [e1]; exact hl
  refine ⟨.same l1 rfl rfl rfl, steady_write (last := last) (by exact l1) hf fun n2 e2 => ?_⟩
  have l2 : n2.store.latest = some last := by rw [e2]; exact l1
  refine ⟨.same l2 rfl rfl rfl, steady_write (last := last) (by exact l2) hf fun n3 e3 => ?_⟩
  have l3 : n3.store.latest = some last := by rw [e3]; exact l2
  refine ⟨⟨⟨last, last, l3, l3, UInt64.le_refl _, fun i hi => ?_⟩, fun h => h⟩, steady_write (last := last) (by exact l3) hf fun n4 e4 => ?_⟩
  · refine if_neg fun h => ?_
    have h : i = epoch.header.epochId := h
    rw [h, hid] at hi
    exact absurd hlt (UInt64.not_lt.2 hi)
  have l4 : n4.store.latest = some last := by rw [e4]; exact l3
  refine ⟨.same l4 rfl rfl rfl, steady_write (last := last) (by exact l4) hf fun n5 e5 => ?_⟩
  have l5 : n5.store.latest = some last := by rw [e5]; exact l4
  refine ⟨⟨⟨last, epoch, l5, rfl, ?_, fun i _ => rfl⟩, fun ⟨x, hx, hs⟩ => ⟨epoch, rfl, ?_⟩⟩, fun n6 e6 => ?_⟩
  · rw [hid]; exact UInt64.le_of_lt hlt
  · rw [l5] at hx; cases hx
    have := UInt64.lt_iff_toNat_lt.1 hlt
    rw [hid]
    exact Nat.le_trans hs (by omega)
  have l6 : n6.store.latest = some epoch := by rw [← e6.store]; rfl
  refine ⟨⟨.same l6 rfl rfl, fun _ => ⟨epoch, l6, ?_⟩⟩, hn _ l6⟩
  show (epochId + 1).toNat ≤ _
  rw [heid]; exact u64_succ_toNat _

theorem saveProof_chain (cfg : NodeCfg) (io : SaveIo) (p : Proof) (n : Node) : (n.saveProof cfg io p).2.store.latest = n.store.latest ∧
    (n.saveProof cfg io p).2.store.epochs = n.store.epochs ∧ (n.saveProof cfg io p).2.status = n.status := by
  unfold Node.saveProof
  split <;> exact ⟨rfl, rfl, rfl⟩

theorem exec_store (cfg : NodeCfg) (root : MerkleRoot) (id : UInt64) (cb : Address) (txs : List SignedTx) (n : Node) :
    (n.exec cfg root id cb txs).2.store = n.store := by
  unfold Node.exec
  split <;> rfl

theorem exec_status (cfg : NodeCfg) (root : MerkleRoot) (id : UInt64) (cb : Address) (txs : List SignedTx) (n : Node) :
    (n.exec cfg root id cb txs).2.status = n.status := by
  unfold Node.exec
  split <;> rfl

theorem steady_commit {cfg : NodeCfg} {io : CommitIo} {id : UInt64} {pill : Pill} {proof : OverlordProof} {body busy : Prog} {n : Node} {last : Epoch}
    (hb : Prog.commit cfg io id pill proof = .lock .engine body busy) (hl : n.store.latest = some last) (h0 : last.header.epochId + 1 ≠ 0)
    (hid : pill.epoch.header.epochId = last.header.epochId + 1) (heid : id = pill.epoch.header.epochId) : body.Steady Onward n := by
  unfold Prog.commit at hb
  injection hb with _ hb _
  subst hb
  split
  · exact steady_endCommit _ _
  intro n1 s1
  have l1 : n1.store.latest = some last := by rw [← s1.store]; exact hl
  obtain ⟨p1, p2, p3⟩ := saveProof_chain cfg io.save ‹Proof› n1
  refine ⟨.same l1 p1 p2 p3, ?_⟩
  rw [l1] at p1
  beta_reduce
  split
  · exact steady_endCommit _ _
  split
  · exact steady_endCommit _ _
  intro n2 s2
  have l2 : n2.store.latest = some last := by rw [← s2.store]; exact p1
  refine ⟨.refl l2, ?_⟩
  beta_reduce
  split
  · exact steady_endCommit _ _
  unfold Prog.commitTail
  intro n3 s3
  have l3 : n3.store.latest = some last := by rw [← s3.store]; exact l2
  refine ⟨.same l3 rfl rfl rfl, fun n4 s4 => ?_⟩
  have l4 : n4.store.latest = some last := by rw [← s4.store]; exact l3
  refine ⟨.refl l4, fun n5 s5 => ?_⟩
  have l5 : n5.store.latest = some last := by rw [← s5.store]; exact l4
  refine ⟨.same l5 (by rw [exec_store]) (by rw [exec_store]) (by rw [exec_status]), ?_⟩
  beta_reduce
  split
  · exact steady_endCommit _ _
  · exact steady_updateStatus (by rw [exec_store]; exact l5) h0 hid heid (steady_endCommit _) (fun _ _ => steady_endCommit _ _)

theorem steady_syncLoop {cfg : NodeCfg} {io : SyncIo} {next : Prog} (hio : ∀ k id e, io.pullEpoch k id = some e → e.header.epochId = id)
    (hnext : ∀ n', next.Steady Onward n') (ids : List UInt64) : ∀ (k : Nat) (h r : Hash) (n : Node) (last : Epoch), n.store.latest = some last →
    Consecutive last.header.epochId ids → (Prog.syncLoop cfg io next k ids h r).Steady Onward n := by
  induction ids with
  | nil => exact fun _ _ _ n _ _ _ => hnext n
  | cons id ids ih =>
    intro k h r n last hl hc
    obtain ⟨rfl, h0, hc⟩ := hc
    unfold Prog.syncLoop Prog.syncOne
    split
    · exact steady_endSync _ _
    rename_i epoch hp
    have hid := hio _ _ _ hp
    split
    · exact steady_endSync _ _
    intro n1 s1
    have l1 : n1.store.latest = some last := by rw [← s1.store]; exact hl
    obtain ⟨p1, p2, p3⟩ := saveProof_chain cfg (io.save k) epoch.header.proof n1
    refine ⟨.same l1 p1 p2 p3, ?_⟩
    rw [l1] at p1
    beta_reduce
    split
    · exact steady_endSync _ _
    split
    · exact steady_endSync _ _
    intro n2 s2
    have l2 : n2.store.latest = some last := by rw [← s2.store]; exact p1
    refine ⟨.same l2 (by rw [exec_store]) (by rw [exec_store]) (by rw [exec_status]), ?_⟩
    beta_reduce
    split
    · exact steady_endSync _ _
    · refine steady_updateStatus (by rw [exec_store]; exact l2) h0 hid rfl (steady_endSync _) (fun n' hn' => ?_)
      exact ih _ _ _ n' epoch hn' (by rw [hid]; exact hc)

theorem steady_syncBody {cfg : NodeCfg} {io : SyncIo} {rich : UInt64} {n : Node} {last : Epoch}
    (hio : ∀ k id e, io.pullEpoch k id = some e → e.header.epochId = id) (hl : n.store.latest = some last) :
    (Prog.syncBody cfg io rich n.currentId).Steady Onward n := by
  intro n1 s1
  have l1 : n1.store.latest = some last := by rw [← s1.store]; exact hl
  refine ⟨.refl l1, ?_⟩
  beta_reduce
  split
  · exact steady_endSync _ _
  · refine steady_syncLoop hio (steady_endSync _) _ _ _ _ _ last l1 ?_
    have hcur : n.currentId = last.header.epochId := by simp [Node.currentId, hl]
    rw [hcur]
    exact consecutive_syncIds _ _

/-! ### One event -/

theorem Onward.of_same {n m k : Node} (h : Onward n m) (hs : m.Same k) : Onward n k := by
  refine ⟨?_, fun hn => ?_⟩
  · have h := h.ext
    unfold Extends Node.queryEpoch at *
    rw [← hs.store]; exact h
  · have h := h.fits hn
    unfold Node.Fits at *
    rw [← hs.store, ← hs.status]; exact h

theorem CStart.lives {cfg : NodeCfg} {g : Genesis} {n0 : Node} {older : List Done} (h : CStart cfg g (CContinues cfg) n0 older) :
    Lives cfg g (Continues cfg) n0 := by
  cases h with
  | init h1 h2 => exact .init h1 h2
  | restart hh h1 h2 =>
    obtain ⟨m, hm, hd⟩ := C102_partial (fun _ _ h => h.orderly) hh
    have hl : Lives cfg g (Continues cfg) m := (hm.imp fun m op ⟨n0, _, evs, _, hc, hj⟩ => hc.sequential hj).lives
    exact .restart hl (by rw [hd.store, hd.tries]; exact h1) h2

theorem CContinues.left {cfg : NodeCfg} {n : Node} {evs post : List Event} (h : CContinues cfg n (evs ++ post)) : CContinues cfg n evs where
  orderly := fun ⟨t, io, msg, hm⟩ pre q hp => h.orderly ⟨t, io, msg, List.mem_append_left _ hm⟩ pre (q ++ post) (by rw [hp, List.append_assoc])
  commit pre t q io id pill proof he ht := h.commit pre t (q ++ post) io id pill proof (by rw [he]; simp) ht
  sync t io msg hm k id e hk := by
    obtain ⟨a, b⟩ := h.sync t io msg (List.mem_append_left _ hm) k id e hk
    exact ⟨a, fun h1 pre q gen hp => b h1 pre (q ++ post) gen (by rw [hp, List.append_assoc])⟩

theorem process_latest {cfg : NodeCfg} {g : Genesis} {n0 : Node} {older : List Done} (hs : CStart cfg g (CContinues cfg) n0 older) (evs : List Event)
    (hev : CContinues cfg n0 evs) : ∃ last, (Conf.after cfg n0 evs).node.store.latest = some last := by
  obtain ⟨hb, hc⟩ := hs.blank
  obtain ⟨m, hr, hd⟩ := linear hb evs hev.orderly fun pre post _ => (hc.after (closed_true cfg) fun e _ => brings_true cfg e).keyed
  have hl : Lives cfg g (Continues cfg) m := by
    clear hd
    induction hr with
    | refl => exact hs.lives
    | step op _ hj ih => exact .step op ih (hev.sequential hj)
  obtain ⟨last, hla, -, -⟩ := hl.chained.linked
  exact ⟨last, by rw [← hd.store]; exact hla⟩

theorem onward_event {cfg : NodeCfg} {g : Genesis} {n0 : Node} {older : List Done} (hs : CStart cfg g (CContinues cfg) n0 older) (evs : List Event) (e : Event)
    (hev : CContinues cfg n0 (evs ++ [e])) : Onward (Conf.after cfg n0 evs).node (Conf.after cfg n0 (evs ++ [e])).node := by
  have hev0 := hev.left
  obtain ⟨hb, hc⟩ := hs.blank
  have hk : ∀ pre post, evs = pre ++ post → (Conf.after cfg n0 pre).node.Keyed := fun pre post _ => (hc.after (closed_true cfg) fun e _ => brings_true cfg e).keyed
  obtain ⟨m, M⟩ := Mirror.after hb evs hev0.orderly hk
  obtain ⟨l, hl⟩ := process_latest hs evs hev0
  rw [after_snoc]
  by_cases hsame : (Conf.after cfg n0 evs).node.Same ((Conf.after cfg n0 evs).step cfg e).node
  · exact (Onward.refl hl).of_same hsame
  obtain ⟨t, rfl, hheld⟩ := (C41_serialised cfg n0 evs).1 e hsame
  obtain ⟨q, pre, mid, hq, he, hfree, hsm, hin⟩ := M.busy t hheld
  have hlives : Lives cfg g (Continues cfg) m := by
    have hr := M.runs
    clear hin hsm M
    induction hr with
    | refl => exact hs.lives
    | step op _ hj ih => exact .step op ih (hev0.sequential hj)
  obtain ⟨last, hla, -, -⟩ := hlives.chained.linked
  have hst : q.Steady Onward (Conf.after cfg n0 evs).node := by
    cases hin with
    | @commit io id pill proof body busy hw hbody hreach =>
      obtain ⟨a, b, c, -⟩ := hev0.commit pre t mid io id pill proof he ⟨hw, hfree⟩
      obtain ⟨hn1, -⟩ := hlives.chained.next last hla
      rw [hsm.status, ← b] at hn1
      exact (steady_commit hbody hla (by rw [← hn1]; exact a) (by rw [c, hn1]) c.symm).reach hreach
    | @sync io msg v rest hm hread hv hreach =>
      refine (steady_syncBody (fun k id e hk => ?_) hla).reach hreach
      exact (hev0.sync t io msg (by rw [he]; exact List.mem_append_left _ hm) k id e hk).1
  cases q with
  | ret r => simp only [Conf.step, hq]; exact .refl hl
  | act f k => simp only [Conf.step, hq]; exact (hst _ (.refl _)).1
  | lock a b c => simp only [Conf.step, hq]; split <;> exact .refl hl
  | unlock a b => simp only [Conf.step, hq]; exact .refl hl

theorem onward_process {cfg : NodeCfg} {g : Genesis} {n0 : Node} {older : List Done} (hs : CStart cfg g (CContinues cfg) n0 older) (pre post : List Event)
    (hev : CContinues cfg n0 (pre ++ post)) : Onward (Conf.after cfg n0 pre).node (Conf.after cfg n0 (pre ++ post)).node := by
  induction post generalizing pre with
  | nil =>
    rw [List.append_nil] at hev ⊢
    obtain ⟨l, hl⟩ := process_latest hs pre hev
    exact .refl hl
  | cons e post ih =>
    have h1 := onward_event hs pre e (CContinues.left (post := post) (by simpa using hev))
    have h2 := ih (pre ++ [e]) (by simpa using hev)
    rw [List.append_assoc] at h2
    exact h1.trans h2

/-! ### C105 -/

theorem CStart.process {cfg : NodeCfg} {g : Genesis} {ok : Node → List Event → Prop} {n0 : Node} {older : List Done} (h : CStart cfg g ok n0 older)
    (evs : List Event) (hev : ok n0 evs) : CHistory cfg g ok (Conf.after cfg n0 evs).node older := by
  cases h with
  | init h1 h2 => exact .init evs h1 h2 hev
  | restart hh h1 h2 => exact .restart evs hh h1 h2 hev

theorem CLater.history {cfg : NodeCfg} {g : Genesis} {ok : Node → List Event → Prop} {n m : Node} (h : CLater cfg g ok n m) :
    ∃ older, CHistory cfg g ok m older := by
  induction h with
  | same pre post hs hev _ => exact ⟨_, hs.process _ hev⟩
  | restart evs _ h1 h2 hev ih => obtain ⟨older, ih⟩ := ih; exact ⟨_, .restart evs ih h1 h2 hev⟩

theorem CStart.mono {cfg : NodeCfg} {g : Genesis} {ok ok' : Node → List Event → Prop} (hi : ∀ n evs, ok n evs → ok' n evs) {n0 : Node}
    {older : List Done} (h : CStart cfg g ok n0 older) : CStart cfg g ok' n0 older := by
  cases h with
  | init h1 h2 => exact .init h1 h2
  | restart hh h1 h2 => exact .restart (hh.mono hi) h1 h2

theorem CLater.mono {cfg : NodeCfg} {g : Genesis} {ok ok' : Node → List Event → Prop} (hi : ∀ n evs, ok n evs → ok' n evs) {n m : Node}
    (h : CLater cfg g ok n m) : CLater cfg g ok' n m := by
  induction h with
  | same pre post hs hev e => exact .same pre post (hs.mono hi) (hi _ _ hev) e
  | restart evs _ h1 h2 hev ih => exact .restart evs ih h1 h2 (hi _ _ hev)

/-- **C105, epochs, for overlapping calls (partial: if commits and peers continue the chain, see `C105_refuted`).**  Between any two moments of a
node's lifetime, whatever calls overlap in between and wherever its processes are killed: the latest epoch has not gone back, and the API shows
the same epoch for every height up to the latest one of the first moment. -/
theorem C105_concurrent_partial {cfg : NodeCfg} {g : Genesis} {n m : Node} (h : CLater cfg g (CContinues cfg) n m) :
    ∃ a b, n.queryEpoch none = some a ∧ m.queryEpoch none = some b ∧ a.header.epochId ≤ b.header.epochId ∧
      ∀ i, i ≤ a.header.epochId → m.queryEpoch (some i) = n.queryEpoch (some i) := by
  show Extends n m
  induction h with
  | same pre post hs hev e => rw [e]; exact (onward_process hs pre post hev).ext
  | @restart m s t n0 evs hm h1 h2 hev ih =>
    obtain ⟨older, hh⟩ := hm.history
    have hs : CStart cfg g (CContinues cfg) n0 (m.log ++ older) := .restart hh h1 h2
    have hb := ih
    obtain ⟨-, b, -, hb, -⟩ := hb
    have hb : m.store.latest = some b := hb
    obtain ⟨rfl, rfl⟩ := handleInit_some (by rw [hb]; rfl) h1
    obtain ⟨e, -, hst, -⟩ := startNode_some h2
    have h0 : Extends m n0 := .same hb (by rw [hst]) (by rw [hst])
    exact (ih.trans h0).trans (onward_process hs [] evs hev).ext

/-- No moment of the process loses a state that was stored before it. -/
def CStates (cfg : NodeCfg) (n : Node) (evs : List Event) : Prop :=
  ∀ pre mid post, evs = pre ++ mid ++ post → ∀ r w, (Conf.after cfg n pre).node.tries r = some w → (Conf.after cfg n (pre ++ mid)).node.tries r = some w

theorem CLater.tries {cfg : NodeCfg} {g : Genesis} {n m : Node} (h : CLater cfg g (fun n evs => CContinues cfg n evs ∧ CStates cfg n evs) n m)
    {r : MerkleRoot} {w : World} (hw : n.tries r = some w) : m.tries r = some w := by
  induction h with
  | same pre post hs hev e => rw [e] at hw; exact hev.2 pre post [] (by simp) r w hw
  | @restart m s t n0 evs hm h1 h2 hev ih =>
    obtain ⟨-, b, -, hb, -⟩ := C105_concurrent_partial (hm.mono fun _ _ h => h.1)
    have hb : m.store.latest = some b := hb
    obtain ⟨rfl, rfl⟩ := handleInit_some (by rw [hb]; rfl) h1
    obtain ⟨e, -, -, ht, -⟩ := startNode_some h2
    refine hev.2 [] evs [] (by simp) r w ?_
    show n0.tries r = _
    rw [ht]; exact ih

/-- **C105, balances, for overlapping calls (partial: as above, and if no state is stored under the root of another one).** -/
theorem C105_balances_concurrent_partial {cfg : NodeCfg} {g : Genesis} {n m : Node}
    (h : CLater cfg g (fun n evs => CContinues cfg n evs ∧ CStates cfg n evs) n m) {a : Epoch} (ha : n.queryEpoch none = some a)
    (i : UInt64) (hi : i ≤ a.header.epochId) (who : Address) (asset : AssetID) (v : Nat)
    (hv : n.queryBalance cfg who asset (some i) = some v) : m.queryBalance cfg who asset (some i) = some v := by
  obtain ⟨a', b, ha', -, -, hq⟩ := C105_concurrent_partial (h.mono fun _ _ h => h.1)
  rw [ha] at ha'; cases ha'
  exact balance_kept (hq i hi) (fun _ _ => h.tries) who asset v hv

open Demo in
theorem calm_later {ok : Node → List Event → Prop} (pre post evs : List Event) (he : pre ++ post = calm2) (h1 : ok n0 calm2) (h2 : ok calmNode evs) :
    CLater ncfg ngenesis ok (Conf.after ncfg n0 pre).node (Conf.after ncfg calmNode evs).node := by
  obtain ⟨s, t, hi, hs⟩ := n0_start
  have hd : calmData.isSome = true := by decide +kernel
  have h0 : CLater ncfg ngenesis ok (Conf.after ncfg n0 pre).node (Conf.after ncfg n0 calm2).node := by
    rw [← he]; exact .same pre post (.init hi hs) (by rw [he]; exact h1) rfl
  unfold calmNode at h2 ⊢
  unfold calmData at h2 hd ⊢
  cases hx : handleInit ncfg ngenesis (Conf.after ncfg n0 calm2).node.store (Conf.after ncfg n0 calm2).node.tries with
  | none => rw [hx] at hd; cases hd
  | some x =>
    rw [hx] at hd h2
    simp only [Option.bind_some] at hd h2 ⊢
    cases hy : startNode ncfg x.1 x.2 with
    | none => rw [hy] at hd; cases hd
    | some m =>
      rw [hy] at h2
      exact .restart evs h0 hx hy h2

open Demo in
/-- The hypotheses are met: the node when its first epoch has just been committed, with another payment and a call to propose under way; and the
node after it was killed in the middle of the commit of the second epoch, restarted, and is in the middle of committing that epoch again. -/
example : CLater ncfg ngenesis (fun n evs => CContinues ncfg n evs ∧ CStates ncfg n evs) (Conf.after ncfg n0 calm1).node (Conf.after ncfg calmNode calm5).node ∧
    ((Conf.after ncfg n0 calm1).node.queryEpoch none).map (·.header.epochId) = some 1 ∧
    ((Conf.after ncfg calmNode calm5).node.queryEpoch none).map (·.header.epochId) = some 2 ∧
    (Conf.after ncfg n0 calm1).node.queryBalance ncfg (naddr 1) token (some 1) = some 100 := by
  have p2 : plain calm2 = true := by decide +kernel
  have p5 : plain calm5 = true := by decide +kernel
  have hs {evs : List Event} (hp : plain evs = true) (t : Nat) (io : SyncIo) (msg : Bytes) : Event.callSync t io msg ∉ evs := fun hm => by
    simp only [plain, List.all_eq_true] at hp
    have := hp _ hm; cases this
  exact ⟨calm_later calm1 _ calm5 rfl
      ⟨plain_continues p2 (by decide +kernel), keeps_of_check (hs p2) (roots := calmRoots) (by decide +kernel)⟩
      ⟨plain_continues p5 (by decide +kernel), keeps_of_check (hs p5) (roots := calmRoots) (by decide +kernel)⟩,
    by decide +kernel, by decide +kernel, by decide +kernel⟩

end Huobi
