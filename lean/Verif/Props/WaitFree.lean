import Verif.Props.ConsensusLock
/-
C109: no call waits for another, and none leaves a lock behind.
-/
namespace Huobi

/-! ### Specification -/

/-- The event is an access of task `t`. -/
def Event.isRun (t : Nat) : Event → Bool
  | .run t' => t' == t
  | _ => false

/-- The event is a call in task `t`. -/
def Event.isCallIn (t : Nat) : Event → Bool
  | .callCommit t' .. | .callSync t' .. | .callInsert t' .. | .callPropose t' .. | .callCheck t' .. => t' == t
  | .run _ => false

/-- The event is a call that may change the chain: a commit or a synchronisation. -/
def Event.isChainCall : Event → Bool
  | .callCommit .. | .callSync .. => true
  | _ => false

/-- How many accesses a call makes at most, its return included.  `P`: the most transactions a peer gives for the hashes a proposal proposes. -/
def Event.cost (P : Nat) : Event → Nat
  | .callCommit .. => 14
  | .callSync _ _ msg => match readU64LE msg with
    | none => 3
    | some (v, _) => 7 + 8 * (UInt64.ofNat v - 1).toNat
  | .callInsert .. => 7
  | .callPropose .. => 5
  | .callCheck _ _ _ _ pill => 5 + P + pill.epoch.orderedTxHashes.length
  | .run _ => 0

/-- No answer of a peer about proposed transactions has more than `P` of them. -/
def Event.Answers (P : Nat) : Event → Prop
  | .callCheck _ pull1 _ _ _ => ∀ hs txs, pull1 hs = some txs → txs.length ≤ P
  | _ => True

/-! ### Proofs: the number of accesses -/

/-- The program has returned after `n` accesses. -/
def Prog.Within : Nat → Prog → Prop
  | 0, _ => False
  | _ + 1, .ret _ => True
  | n + 1, .act _ k => ∀ m, (k m).Within n
  | n + 1, .lock _ a b => a.Within n ∧ b.Within n
  | n + 1, .unlock _ k => k.Within n

theorem Prog.Within.mono {p : Prog} {a b : Nat} (h : p.Within a) (hab : a ≤ b) : p.Within b := by
  induction a generalizing p b with
  | zero => exact h.elim
  | succ a ih =>
    obtain ⟨b, rfl⟩ : ∃ c, b = c + 1 := ⟨b - 1, by omega⟩
    have hab : a ≤ b := by omega
    cases p with
    | ret r => trivial
    | act f k => exact fun m => ih (h m) hab
    | lock l x y => exact ⟨ih h.1 hab, ih h.2 hab⟩
    | unlock l k => exact ih (p := k) h hab

theorem within_test {E : Type} {c : Node → Except E Unit} {fail : E → Prog} {next : Prog} {n : Nat} (hf : ∀ e, (fail e).Within n) (hn : next.Within n) :
    (Prog.test c fail next).Within (n + 1) := by
  intro m
  beta_reduce
  split
  · exact hf _
  · exact hn

theorem within_write {ok : Bool} {w : Node → Node} {fail next : Prog} {n : Nat} (hf : fail.Within n) (hn : next.Within n) :
    (Prog.write ok w fail next).Within (n + 1) := by
  intro m
  cases ok
  · exact hf
  · exact hn

theorem within_endCommit (r : Except CErr UInt64) (n : Nat) : (Prog.endCommit r).Within (n + 2) := trivial
theorem within_endSync (r : Except CErr (Option UInt64)) (n : Nat) : (Prog.endSync r).Within (n + 3) := trivial

theorem within_updateStatus {cfg : NodeCfg} {io : SaveIo} {root : MerkleRoot} {epochId : UInt64} {epoch : Epoch} {proof : Proof} {resp : ExecResp}
    {txs : List SignedTx} {fail next : Prog} {n : Nat} (hf : fail.Within n) (hn : next.Within n) :
    (Prog.updateStatus cfg io root epochId epoch proof resp txs fail next).Within (n + 6) :=
  within_write (hf.mono (by omega)) <| within_write (hf.mono (by omega)) <| within_write (hf.mono (by omega)) <| within_write (hf.mono (by omega)) <|
    within_write (hf.mono (by omega)) fun _ => hn

theorem within_commit (cfg : NodeCfg) (io : CommitIo) (id : UInt64) (pill : Pill) (proof : OverlordProof) : (Prog.commit cfg io id pill proof).Within 14 := by
  refine ⟨?_, trivial⟩
  split
  · exact within_endCommit _ _
  intro n
  beta_reduce
  split
  · exact within_endCommit _ _
  split
  · exact within_endCommit _ _
  intro n
  beta_reduce
  split
  · exact within_endCommit _ _
  intro n1 n0 n2
  beta_reduce
  split
  · exact within_endCommit _ _
  · exact within_updateStatus (within_endCommit _ 0) (within_endCommit _ 0)

theorem within_syncLoop {cfg : NodeCfg} {io : SyncIo} {next : Prog} {n : Nat} (hn : next.Within (n + 3)) (ids : List UInt64) :
    ∀ k h r, (Prog.syncLoop cfg io next k ids h r).Within (n + 3 + 8 * ids.length) := by
  induction ids with
  | nil => exact fun _ _ _ => hn
  | cons id ids ih =>
    intro k h r
    have e : n + 3 + 8 * (id :: ids).length = (n + 8 * ids.length) + 3 + 8 := by simp only [List.length_cons]; omega
    rw [e]
    unfold Prog.syncLoop Prog.syncOne
    split
    · exact within_endSync _ _
    split
    · exact within_endSync _ _
    intro n
    beta_reduce
    split
    · exact within_endSync _ _
    split
    · exact within_endSync _ _
    intro n
    beta_reduce
    split
    · exact within_endSync _ _
    · exact within_updateStatus (within_endSync _ _) ((ih _ _ _).mono (by omega))

theorem within_sync (cfg : NodeCfg) (io : SyncIo) (msg : Bytes) :
    (Prog.sync cfg io msg).Within (match readU64LE msg with | none => 3 | some (v, _) => 7 + 8 * (UInt64.ofNat v - 1).toNat) := by
  unfold Prog.sync
  cases readU64LE msg with
  | none => exact ⟨trivial, trivial⟩
  | some x =>
    obtain ⟨v, rest⟩ := x
    simp only
    generalize UInt64.ofNat v - 1 = rich
    refine Prog.Within.mono (a := 3 + 8 * rich.toNat + 1 + 1 + 1 + 1) ?_ (by omega)
    refine ⟨?_, by rw [show 3 + 8 * rich.toNat + 1 + 1 + 1 = (2 + 8 * rich.toNat + 1 + 1 + 1) + 1 by omega]; trivial⟩
    intro n
    beta_reduce
    split
    · rw [show 3 + 8 * rich.toNat + 1 + 1 = (3 + 8 * rich.toNat) + 2 by omega]; trivial
    refine ⟨fun m => ?_, by rw [show 3 + 8 * rich.toNat + 1 = (2 + 8 * rich.toNat) + 2 by omega]; trivial⟩
    beta_reduce
    split
    · rw [show 3 + 8 * rich.toNat = (8 * rich.toNat) + 3 by omega]; trivial
    · refine (within_syncLoop (n := 0) (within_endSync _ 0) _ _ _ _).mono ?_
      simp only [syncIds, List.length_map, List.length_range]
      omega

theorem within_insert (cfg : NodeCfg) (o b : Bool) (tx : SignedTx) : (Prog.insert cfg o b tx).Within 7 := by
  refine within_test (fun _ => trivial) <| within_test (fun _ => trivial) <| within_test (fun _ => trivial) <| within_test (fun _ => trivial) <|
    within_test (fun _ => trivial) fun n => ?_
  beta_reduce
  split <;> trivial

theorem within_propose (cfg : NodeCfg) (now id : UInt64) : (Prog.propose cfg now id).Within 5 := by
  intro n0 n1
  beta_reduce
  split
  · trivial
  intro n
  beta_reduce
  split
  · trivial
  split
  · trivial
  · exact fun _ => trivial

theorem within_each {f : SignedTx → Node → Node} {next : Prog} {n : Nat} (h : next.Within n) (txs : List SignedTx) :
    (Prog.each f next txs).Within (n + txs.length) := by
  induction txs with
  | nil => exact h
  | cons tx txs ih => exact fun _ => ih

theorem showUnknown_length (c : TxCache) (hs : List Hash) : (c.showUnknown hs).length ≤ hs.length := by
  unfold TxCache.showUnknown
  exact List.length_filter_le ..

theorem within_check (P : Nat) (p1 p2 : List Hash → Option (List SignedTx)) (hash : Bytes) (pill : Pill) (hP : ∀ hs txs, p1 hs = some txs → txs.length ≤ P) :
    (Prog.check p1 p2 hash pill).Within (5 + P + pill.epoch.orderedTxHashes.length) := by
  generalize hL : pill.epoch.orderedTxHashes.length = L
  have hf (o : List Hash) (n : Nat) : (Prog.full o).Within (n + 2) := fun _ => trivial
  have he : (Prog.ensure p2 pill.epoch.orderedTxHashes (.full pill.epoch.orderedTxHashes)).Within (2 + L + 1) := by
    intro n
    beta_reduce
    simp only
    split
    · exact (hf _ 0).mono (by omega)
    split
    · exact Prog.Within.mono (a := 1) trivial (by omega)
    split
    · exact Prog.Within.mono (a := 1) trivial (by omega)
    · rename_i txs _ hl
      refine (within_each (hf _ 0) txs).mono ?_
      have := showUnknown_length n.pool.cache pill.epoch.orderedTxHashes
      omega
  rw [show 5 + P + L = (4 + P + L) + 1 by omega]
  intro n
  beta_reduce
  split
  · exact (hf _ 0).mono (by omega)
  rw [show 4 + P + L = (3 + P + L) + 1 by omega]
  intro n
  beta_reduce
  simp only
  split
  · exact he.mono (by omega)
  split
  · exact Prog.Within.mono (a := 1) trivial (by omega)
  · rename_i txs ht
    exact (within_each he txs).mono (by have := hP _ _ ht; omega)

theorem after_append' (cfg : NodeCfg) (n : Node) (a b : List Event) : Conf.after cfg n (a ++ b) = b.foldl (Conf.step cfg) (Conf.after cfg n a) := by
  unfold Conf.after; rw [List.foldl_append]

/-- A call in a task that is running changes nothing. -/
theorem start_running {c : Conf} {t t' : Nat} {p q : Prog} (h : c.tasks t = some p) : (c.start t' q).tasks t = some p := by
  unfold Conf.start
  split
  · rename_i hn
    by_cases e : t = t'
    · subst e; rw [h] at hn; cases hn
    · simp only [Conf.setTask, if_neg e, h]
  · exact h

theorem step_other {cfg : NodeCfg} {c : Conf} {e : Event} {t : Nat} {p : Prog} (h : c.tasks t = some p) (he : e.isRun t = false) :
    (c.step cfg e).tasks t = some p := by
  cases e with
  | callCommit => exact start_running h
  | callSync => exact start_running h
  | callInsert => exact start_running h
  | callPropose => exact start_running h
  | callCheck => exact start_running h
  | run t' =>
    have hne : t ≠ t' := by intro e; subst e; simp [Event.isRun] at he
    simp only [Conf.step]
    split
    · exact h
    · simp only [Conf.setTask, if_neg hne, h]
    · simp only [Conf.setTask, if_neg hne, h]
    · split <;> simp only [Conf.setTask, Conf.setLock, if_neg hne, h]
    · simp only [Conf.setTask, Conf.setLock, if_neg hne, h]

theorem step_own {cfg : NodeCfg} {c : Conf} {t : Nat} {p : Prog} {n : Nat} (h : c.tasks t = some p) (hp : p.Within (n + 1)) :
    (c.step cfg (.run t)).tasks t = none ∨ ∃ q, (c.step cfg (.run t)).tasks t = some q ∧ q.Within n := by
  simp only [Conf.step, h]
  cases p with
  | ret r => left; simp only [Conf.setTask, if_true]
  | act f k => right; exact ⟨k c.node, by simp only [Conf.setTask, if_true], hp _⟩
  | lock l a b =>
    right; simp only; split
    · exact ⟨_, by simp only [Conf.setTask, if_true], hp.1⟩
    · exact ⟨_, by simp only [Conf.setTask, if_true], hp.2⟩
  | unlock l k => right; exact ⟨_, by simp only [Conf.setTask, if_true], hp⟩

theorem ends_within {cfg : NodeCfg} {t : Nat} (post : List Event) : ∀ {c : Conf} {p : Prog} {N : Nat}, c.tasks t = some p → p.Within N →
    N ≤ post.countP (Event.isRun t) → ∃ pre rest, post = pre ++ rest ∧ pre.countP (Event.isRun t) ≤ N ∧ (pre.foldl (Conf.step cfg) c).tasks t = none := by
  induction post with
  | nil =>
    intro c p N _ hp hN
    obtain rfl : N = 0 := by simpa using hN
    exact hp.elim
  | cons e post ih =>
    intro c p N h hp hN
    cases he : e.isRun t with
    | false =>
      rw [List.countP_cons_of_neg (by simp [he])] at hN
      obtain ⟨pre, rest, h1, h2, h3⟩ := ih (step_other h he) hp hN
      exact ⟨e :: pre, rest, by rw [h1]; rfl, by rw [List.countP_cons_of_neg (by simp [he])]; exact h2, h3⟩
    | true =>
      rw [List.countP_cons_of_pos he] at hN
      have ee : e = .run t := by
        cases e <;> simp [Event.isRun] at he
        rw [he]
      subst ee
      cases N with
      | zero => exact hp.elim
      | succ N =>
        rcases step_own (cfg := cfg) h hp with h' | ⟨q, hq, hw⟩
        · exact ⟨[.run t], post, rfl, by rw [List.countP_cons_of_pos he]; simp, h'⟩
        · obtain ⟨pre, rest, h1, h2, h3⟩ := ih hq hw (by omega)
          exact ⟨.run t :: pre, rest, by rw [h1]; rfl, by rw [List.countP_cons_of_pos he]; omega, h3⟩

/-- **C109, every call ends.**  Whatever has happened before and whatever happens meanwhile in other tasks, a call has returned after `Event.cost`
accesses of its own task. -/
theorem C109_ends (cfg : NodeCfg) (n : Node) (evs post : List Event) (e : Event) (t P : Nat) (hc : e.isCallIn t = true) (hP : e.Answers P)
    (hfree : (Conf.after cfg n evs).tasks t = none) (hrun : e.cost P ≤ post.countP (Event.isRun t)) :
    ∃ pre rest, post = pre ++ rest ∧ pre.countP (Event.isRun t) ≤ e.cost P ∧ (Conf.after cfg n (evs ++ e :: pre)).tasks t = none := by
  have hs : ∃ p, ((Conf.after cfg n evs).step cfg e).tasks t = some p ∧ p.Within (e.cost P) := by
    have st (q : Prog) : ((Conf.after cfg n evs).start t q).tasks t = some q := by
      unfold Conf.start; rw [hfree]; simp [Conf.setTask]
    cases e with
    | callCommit t' io id pill proof => obtain rfl : t' = t := (by simpa [Event.isCallIn] using hc); exact ⟨_, st _, within_commit ..⟩
    | callSync t' io msg => obtain rfl : t' = t := (by simpa [Event.isCallIn] using hc); exact ⟨_, st _, within_sync ..⟩
    | callInsert t' o b tx => obtain rfl : t' = t := (by simpa [Event.isCallIn] using hc); exact ⟨_, st _, within_insert cfg o b tx⟩
    | callPropose t' now id => obtain rfl : t' = t := (by simpa [Event.isCallIn] using hc); exact ⟨_, st _, within_propose cfg now id⟩
    | callCheck t' p1 p2 hash pill => obtain rfl : t' = t := (by simpa [Event.isCallIn] using hc); exact ⟨_, st _, within_check P p1 p2 hash pill hP⟩
    | run t' => cases hc
  obtain ⟨p, hp, hw⟩ := hs
  obtain ⟨pre, rest, h1, h2, h3⟩ := ends_within post hp hw hrun
  refine ⟨pre, rest, h1, h2, ?_⟩
  rw [after_append']
  exact h3

/-- **C109, fair schedules.**  In every infinite schedule in which task `t` is run again and again, no call in it lasts for ever: from every moment on
there is a moment at which the task is not running. -/
theorem C109_fair (cfg : NodeCfg) (n : Node) (s : Nat → Event) (t : Nat) (hf : ∀ i, ∃ j, i ≤ j ∧ s j = .run t) (i : Nat) :
    ∃ j, i ≤ j ∧ (Conf.after cfg n ((List.range j).map s)).tasks t = none := by
  have hstep (j : Nat) : Conf.after cfg n ((List.range (j + 1)).map s) = (Conf.after cfg n ((List.range j).map s)).step cfg (s j) := by
    rw [List.range_succ, List.map_append, after_append']; rfl
  -- the next access of the task
  have next : ∀ p i, (Conf.after cfg n ((List.range i).map s)).tasks t = some p →
      ∃ j, i ≤ j ∧ s j = .run t ∧ (Conf.after cfg n ((List.range j).map s)).tasks t = some p := by
    intro p i hi
    obtain ⟨j, hij, hj⟩ := hf i
    obtain ⟨d, rfl⟩ : ∃ d, j = i + d := ⟨j - i, by omega⟩
    clear hij
    induction d generalizing i with
    | zero => exact ⟨i, Nat.le_refl _, hj, hi⟩
    | succ d ih =>
      cases he : (s i).isRun t with
      | true =>
        refine ⟨i, Nat.le_refl _, ?_, hi⟩
        revert he
        cases s i <;> simp [Event.isRun]
      | false =>
        obtain ⟨j, h1, h2⟩ := ih (i + 1) (by rw [hstep]; exact step_other hi he) (by rw [← hj]; congr 1; omega)
        exact ⟨j, by omega, h2⟩
  have go : ∀ (p : Prog) (i : Nat), (Conf.after cfg n ((List.range i).map s)).tasks t = some p →
      ∃ j, i ≤ j ∧ (Conf.after cfg n ((List.range j).map s)).tasks t = none := by
    intro p
    induction p with
    | ret r =>
      intro i hi
      obtain ⟨j, h1, h2, h3⟩ := next _ i hi
      refine ⟨j + 1, by omega, ?_⟩
      rw [hstep, h2]
      simp only [Conf.step, h3, Conf.setTask, if_true]
    | act f k ih =>
      intro i hi
      obtain ⟨j, h1, h2, h3⟩ := next _ i hi
      obtain ⟨j', h5, h6⟩ := ih (Conf.after cfg n ((List.range j).map s)).node (j + 1) (by
        rw [hstep, h2]
        simp only [Conf.step, h3, Conf.setTask, if_true])
      exact ⟨j', by omega, h6⟩
    | lock l a b iha ihb =>
      intro i hi
      obtain ⟨j, h1, h2, h3⟩ := next _ i hi
      cases hh : ((Conf.after cfg n ((List.range j).map s)).held l).isNone with
      | true =>
        obtain ⟨j', h5, h6⟩ := iha (j + 1) (by
          rw [hstep, h2]
          simp only [Conf.step, h3, hh, Conf.setTask, if_true])
        exact ⟨j', by omega, h6⟩
      | false =>
        obtain ⟨j', h5, h6⟩ := ihb (j + 1) (by
          rw [hstep, h2]
          simp [Conf.step, h3, hh, Conf.setTask])
        exact ⟨j', by omega, h6⟩
    | unlock l k ih =>
      intro i hi
      obtain ⟨j, h1, h2, h3⟩ := next _ i hi
      obtain ⟨j', h5, h6⟩ := ih (j + 1) (by
        rw [hstep, h2]
        simp only [Conf.step, h3, Conf.setTask, if_true])
      exact ⟨j', by omega, h6⟩
  cases h : (Conf.after cfg n ((List.range i).map s)).tasks t with
  | none => exact ⟨i, Nat.le_refl _, h⟩
  | some p => exact go p i h

/-! ### Proofs: locks -/

/-- The program gives back exactly the locks it holds (`hold`) before it ends. -/
def Prog.Owes : (Lock → Prop) → Prog → Prop
  | h, .ret _ => ∀ l, ¬ h l
  | h, .act _ k => ∀ n, (k n).Owes h
  | h, .lock l a b => ¬ h l ∧ a.Owes (fun i => i = l ∨ h i) ∧ b.Owes h
  | h, .unlock l k => h l ∧ k.Owes (fun i => i ≠ l ∧ h i)

def noLock : Lock → Prop := fun _ => False
def engineOnly : Lock → Prop := fun l => l = .engine
def syncOnly : Lock → Prop := fun l => l = .sync
def bothLocks : Lock → Prop := fun _ => True

theorem owes_eq {h h' : Lock → Prop} (e : ∀ l, h l ↔ h' l) : h = h' := funext fun l => propext (e l)

theorem take_engine : (fun i => i = Lock.engine ∨ noLock i) = engineOnly := owes_eq fun l => by simp [noLock, engineOnly]
theorem take_sync : (fun i => i = Lock.sync ∨ noLock i) = syncOnly := owes_eq fun l => by simp [noLock, syncOnly]
theorem take_both : (fun i => i = Lock.engine ∨ syncOnly i) = bothLocks := owes_eq fun l => by cases l <;> simp [syncOnly, bothLocks]
theorem drop_engine : (fun i => i ≠ Lock.engine ∧ engineOnly i) = noLock := owes_eq fun l => by cases l <;> simp [noLock, engineOnly]
theorem drop_sync : (fun i => i ≠ Lock.sync ∧ syncOnly i) = noLock := owes_eq fun l => by cases l <;> simp [noLock, syncOnly]
theorem drop_both : (fun i => i ≠ Lock.engine ∧ bothLocks i) = syncOnly := owes_eq fun l => by cases l <;> simp [syncOnly, bothLocks]

theorem Prog.Pooly.owes {p : Prog} (h : p.Pooly) : p.Owes noLock := by
  induction h with
  | ret => exact fun _ h => h
  | act _ _ ih => exact ih

theorem owes_write {ok : Bool} {w : Node → Node} {fail next : Prog} {h : Lock → Prop} (hf : fail.Owes h) (hn : next.Owes h) :
    (Prog.write ok w fail next).Owes h := by
  intro m
  cases ok
  · exact hf
  · exact hn

theorem owes_endCommit (r : Except CErr UInt64) : (Prog.endCommit r).Owes engineOnly := ⟨rfl, by rw [drop_engine]; exact fun _ h => h⟩
theorem owes_dropSync (r : Except CErr (Option UInt64)) : (Prog.unlock .sync (.ret (.sync r))).Owes syncOnly := ⟨rfl, by rw [drop_sync]; exact fun _ h => h⟩
theorem owes_endSync (r : Except CErr (Option UInt64)) : (Prog.endSync r).Owes bothLocks := ⟨trivial, by rw [drop_both]; exact owes_dropSync r⟩

theorem owes_updateStatus {cfg : NodeCfg} {io : SaveIo} {root : MerkleRoot} {epochId : UInt64} {epoch : Epoch} {proof : Proof} {resp : ExecResp}
    {txs : List SignedTx} {fail next : Prog} {h : Lock → Prop} (hf : fail.Owes h) (hn : next.Owes h) :
    (Prog.updateStatus cfg io root epochId epoch proof resp txs fail next).Owes h :=
  owes_write hf <| owes_write hf <| owes_write hf <| owes_write hf <| owes_write hf fun _ => hn

theorem owes_commit (cfg : NodeCfg) (io : CommitIo) (id : UInt64) (pill : Pill) (proof : OverlordProof) : (Prog.commit cfg io id pill proof).Owes noLock := by
  refine ⟨fun h => h, ?_, fun _ h => h⟩
  rw [take_engine]
  split
  · exact owes_endCommit _
  intro n
  beta_reduce
  split
  · exact owes_endCommit _
  split
  · exact owes_endCommit _
  intro n
  beta_reduce
  split
  · exact owes_endCommit _
  intro n1 n0 n2
  beta_reduce
  split
  · exact owes_endCommit _
  · exact owes_updateStatus (owes_endCommit _) (owes_endCommit _)

theorem owes_syncLoop {cfg : NodeCfg} {io : SyncIo} {next : Prog} (hn : next.Owes bothLocks) (ids : List UInt64) :
    ∀ k h r, (Prog.syncLoop cfg io next k ids h r).Owes bothLocks := by
  induction ids with
  | nil => exact fun _ _ _ => hn
  | cons id ids ih =>
    intro k h r
    unfold Prog.syncLoop Prog.syncOne
    split
    · exact owes_endSync _
    split
    · exact owes_endSync _
    intro n
    beta_reduce
    split
    · exact owes_endSync _
    split
    · exact owes_endSync _
    intro n
    beta_reduce
    split
    · exact owes_endSync _
    · exact owes_updateStatus (owes_endSync _) (ih _ _ _)

theorem owes_sync (cfg : NodeCfg) (io : SyncIo) (msg : Bytes) : (Prog.sync cfg io msg).Owes noLock := by
  refine ⟨fun h => h, ?_, fun _ h => h⟩
  rw [take_sync]
  split
  · exact owes_dropSync _
  intro n
  beta_reduce
  split
  · exact owes_dropSync _
  refine ⟨(fun h => nomatch (show Lock.engine = Lock.sync from h)), ?_, owes_dropSync _⟩
  rw [take_both]
  intro n
  beta_reduce
  split
  · exact owes_endSync _
  · exact owes_syncLoop (owes_endSync _) _ _ _ _

/-- Locks are held by running tasks, which give them back. -/
def Conf.Tidy (c : Conf) : Prop := ∀ t, match c.tasks t with
  | none => ∀ l, c.held l ≠ some t
  | some p => p.Owes (fun l => c.held l = some t)

theorem tidy_start {c : Conf} (h : c.Tidy) (t : Nat) (p : Prog) (hp : p.Owes noLock) : (c.start t p).Tidy := by
  unfold Conf.start
  split
  · rename_i hn
    intro t'
    have h' := h t'
    by_cases e : t' = t
    · subst e
      rw [Option.isNone_iff_eq_none] at hn
      rw [hn] at h'
      simp only [Conf.setTask, if_true]
      rw [show (fun l => c.held l = some t') = noLock from owes_eq fun l => iff_of_false (h' l) (fun h => h)]
      exact hp
    · simp only [Conf.setTask, if_neg e]
      exact h'
  · exact h

theorem tidy_step (cfg : NodeCfg) {c : Conf} (h : c.Tidy) (e : Event) : (c.step cfg e).Tidy := by
  cases e with
  | callCommit t io id pill proof => exact tidy_start h _ _ (owes_commit ..)
  | callSync t io msg => exact tidy_start h _ _ (owes_sync ..)
  | callInsert t o b tx => exact tidy_start h _ _ (pooly_insert ..).owes
  | callPropose t now id => exact tidy_start h _ _ (pooly_propose ..).owes
  | callCheck t p1 p2 hash pill => exact tidy_start h _ _ (pooly_check ..).owes
  | run t =>
    have ht := h t
    simp only [Conf.step]
    split
    · exact h
    · rename_i r hq
      rw [hq] at ht
      intro t'
      by_cases e : t' = t
      · subst e; simp only [Conf.setTask, if_true]; exact ht
      · simp only [Conf.setTask, if_neg e]; exact h t'
    · rename_i f k hq
      rw [hq] at ht
      intro t'
      by_cases e : t' = t
      · subst e; simp only [Conf.setTask, if_true]; exact ht _
      · simp only [Conf.setTask, if_neg e]; exact h t'
    · rename_i l a b hq
      rw [hq] at ht
      split
      · rename_i hn
        rw [Option.isNone_iff_eq_none] at hn
        intro t'
        by_cases e : t' = t
        · subst e
          simp only [Conf.setTask, if_true]
          have := ht.2.1
          rw [show (fun i => i = l ∨ c.held i = some t') = fun i => (c.setLock l (some t')).held i = some t' from owes_eq fun i => by
            by_cases ei : i = l <;> simp [Conf.setLock, ei]] at this
          exact this
        · simp only [Conf.setTask, if_neg e]
          have h' := h t'
          have hh : (fun i => (c.setLock l (some t)).held i = some t') = fun i => c.held i = some t' := owes_eq fun i => by
            by_cases ei : i = l
            · subst ei; simp [Conf.setLock, hn, Ne.symm e]
            · simp [Conf.setLock, ei]
          show match c.tasks t' with
            | none => ∀ i, ¬ (fun i => (c.setLock l (some t)).held i = some t') i
            | some p => p.Owes (fun i => (c.setLock l (some t)).held i = some t')
          rw [hh]; exact h'
      · intro t'
        by_cases e : t' = t
        · subst e; simp only [Conf.setTask, if_true]; exact ht.2.2
        · simp only [Conf.setTask, if_neg e]; exact h t'
    · rename_i l k hq
      rw [hq] at ht
      intro t'
      by_cases e : t' = t
      · subst e
        simp only [Conf.setTask, if_true]
        have := ht.2
        rw [show (fun i => i ≠ l ∧ c.held i = some t') = fun i => (c.setLock l none).held i = some t' from owes_eq fun i => by
          by_cases ei : i = l <;> simp [Conf.setLock, ei]] at this
        exact this
      · simp only [Conf.setTask, if_neg e]
        have h' := h t'
        have hl : c.held l = some t := ht.1
        have hh : (fun i => (c.setLock l none).held i = some t') = fun i => c.held i = some t' := owes_eq fun i => by
          by_cases ei : i = l
          · subst ei; simp [Conf.setLock, hl, Ne.symm e]
          · simp [Conf.setLock, ei]
        show match c.tasks t' with
          | none => ∀ i, ¬ (fun i => (c.setLock l none).held i = some t') i
          | some p => p.Owes (fun i => (c.setLock l none).held i = some t')
        rw [hh]; exact h'

theorem tidy_after (cfg : NodeCfg) (n : Node) (evs : List Event) : (Conf.after cfg n evs).Tidy := by
  unfold Conf.after
  have : Conf.Tidy { node := n, held := fun _ => none, tasks := fun _ => none } := fun t l => by simp
  revert this
  generalize ({ node := n, held := fun _ => none, tasks := fun _ => none } : Conf) = c
  induction evs generalizing c with
  | nil => exact _root_.id
  | cons e evs ih => exact fun h => ih _ (tidy_step cfg h e)

/-- **C109, no lock is left behind.**  In every schedule, a lock is held only by a task that is running; in particular all locks are free whenever no
call is under way. -/
theorem C109_locks (cfg : NodeCfg) (n : Node) (evs : List Event) (l : Lock) (t : Nat) (hl : (Conf.after cfg n evs).held l = some t) :
    ((Conf.after cfg n evs).tasks t).isSome ∧ ∀ r, (Conf.after cfg n evs).tasks t ≠ some (.ret r) := by
  have h := tidy_after cfg n evs t
  cases hq : (Conf.after cfg n evs).tasks t with
  | none => rw [hq] at h; exact absurd hl (h l)
  | some p =>
    refine ⟨rfl, fun r e => ?_⟩
    rw [hq, e] at h
    exact h l hl

/-! ### Proofs: who is turned away -/

/-- The program never answers that the lock is taken. -/
def Prog.Admitted : Prog → Prop
  | .ret r => r ≠ .commit (.error .lockInSync)
  | .act _ k => ∀ n, (k n).Admitted
  | .lock _ a b => a.Admitted ∧ b.Admitted
  | .unlock _ k => k.Admitted

theorem Prog.Pooly.admitted {p : Prog} (h : p.Pooly) : p.Admitted := by
  induction h with
  | ret hr => exact fun e => by rw [e] at hr; cases hr
  | act _ _ ih => exact ih

theorem admitted_write {ok : Bool} {w : Node → Node} {fail next : Prog} (hf : fail.Admitted) (hn : next.Admitted) : (Prog.write ok w fail next).Admitted := by
  intro m
  cases ok
  · exact hf
  · exact hn

theorem admitted_endCommit {r : Except CErr UInt64} (h : r ≠ .error .lockInSync) : (Prog.endCommit r).Admitted := fun e => h (by injection e)

theorem exec_not_locked (cfg : NodeCfg) (root : MerkleRoot) (id : UInt64) (cb : Address) (txs : List SignedTx) (n : Node) {e : CErr}
    (h : (n.exec cfg root id cb txs).1 = .error e) : e ≠ .lockInSync := by
  unfold Node.exec at h
  generalize runBlock (cfg.env id n.status.cyclesPrice cb) n.tries root txs = x at h
  obtain ⟨a, db⟩ := x
  rintro rfl
  cases a with
  | none => cases h
  | some a =>
    cases a with
    | error f => cases f <;> cases h
    | ok resp => cases h

/-- A commit that has the lock. -/
theorem admitted_commit (cfg : NodeCfg) (io : CommitIo) (id : UInt64) (pill : Pill) (proof : OverlordProof) :
    ∃ a b, Prog.commit cfg io id pill proof = .lock .engine a b ∧ a.Admitted := by
  refine ⟨_, _, rfl, ?_⟩
  split
  · exact admitted_endCommit (by simp)
  intro n
  beta_reduce
  split
  · rename_i e he
    refine admitted_endCommit fun h => ?_
    rw [Except.error.injEq] at h
    subst h
    unfold Node.saveProof at he
    split at he <;> cases he
  split
  · exact admitted_endCommit (by simp)
  intro n
  beta_reduce
  split
  · exact admitted_endCommit (by simp)
  intro n1 n0 n2
  beta_reduce
  split
  · rename_i e he
    exact admitted_endCommit fun h => exec_not_locked _ _ _ _ _ _ he (Except.error.inj h)
  · have hs : (Prog.endCommit (.error .storage)).Admitted := admitted_endCommit (by simp)
    refine admitted_write hs <| admitted_write hs <| admitted_write hs <| admitted_write hs <| admitted_write hs fun _ => admitted_endCommit ?_
    split <;> simp

/-- Every running task is that of a commit or synchronisation called in `evs`, or works on the pool only. -/
theorem running_pooly (cfg : NodeCfg) (n : Node) (evs : List Event) (t : Nat) (p : Prog) (h : (Conf.after cfg n evs).tasks t = some p) :
    p.Pooly ∨ ∃ e ∈ evs, e.isChainCall = true ∧ e.isCallIn t = true := by
  suffices ∀ l : List Event, ∀ t p, (Conf.after cfg n l.reverse).tasks t = some p → p.Pooly ∨ ∃ e ∈ l, e.isChainCall = true ∧ e.isCallIn t = true by
    obtain h | ⟨e, h1, h2⟩ := this evs.reverse t p (by rw [List.reverse_reverse]; exact h)
    · exact .inl h
    · exact .inr ⟨e, by simpa using h1, h2⟩
  intro l
  induction l with
  | nil => intro t p h; cases h
  | cons e l ih =>
    intro t p h
    rw [List.reverse_cons, after_append'] at h
    replace h : ((Conf.after cfg n l.reverse).step cfg e).tasks t = some p := h
    have old : (Conf.after cfg n l.reverse).tasks t = some p → p.Pooly ∨ ∃ e' ∈ e :: l, e'.isChainCall = true ∧ e'.isCallIn t = true := fun h =>
      (ih t p h).imp _root_.id fun ⟨e, h1, h2⟩ => ⟨e, List.mem_cons_of_mem _ h1, h2⟩
    have start (t' : Nat) (q : Prog) (h : ((Conf.after cfg n l.reverse).start t' q).tasks t = some p) : (t' = t ∧ q = p) ∨ (Conf.after cfg n l.reverse).tasks t = some p := by
      unfold Conf.start at h
      split at h
      · by_cases e : t = t'
        · subst e; simp only [Conf.setTask, if_true, Option.some.injEq] at h; exact .inl ⟨rfl, h⟩
        · simp only [Conf.setTask, if_neg e] at h; exact .inr h
      · exact .inr h
    cases e with
    | callCommit t' io id pill proof =>
      obtain ⟨rfl, _⟩ | h := start _ _ h
      · exact .inr ⟨_, List.mem_cons_self .., rfl, by simp [Event.isCallIn]⟩
      · exact old h
    | callSync t' io msg =>
      obtain ⟨rfl, _⟩ | h := start _ _ h
      · exact .inr ⟨_, List.mem_cons_self .., rfl, by simp [Event.isCallIn]⟩
      · exact old h
    | callInsert t' o b tx =>
      obtain ⟨rfl, rfl⟩ | h := start _ _ h
      · exact .inl (pooly_insert ..)
      · exact old h
    | callPropose t' now id =>
      obtain ⟨rfl, rfl⟩ | h := start _ _ h
      · exact .inl (pooly_propose ..)
      · exact old h
    | callCheck t' p1 p2 hash pill =>
      obtain ⟨rfl, rfl⟩ | h := start _ _ h
      · exact .inl (pooly_check ..)
      · exact old h
    | run t' =>
      by_cases e : t = t'
      · subst e
        simp only [Conf.step] at h
        split at h
        · exact old h
        · simp [Conf.setTask] at h
        · rename_i f k hq
          simp only [Conf.setTask, if_true, Option.some.injEq] at h
          subst h
          obtain hp | ⟨e, h1, h2⟩ := ih _ _ hq
          · cases hp with | act _ hk => exact .inl (hk _)
          · exact .inr ⟨e, List.mem_cons_of_mem _ h1, h2⟩
        · rename_i l' a b hq
          obtain hp | ⟨e, h1, h2⟩ := ih _ _ hq
          · cases hp
          · exact .inr ⟨e, List.mem_cons_of_mem _ h1, h2⟩
        · rename_i l' k hq
          obtain hp | ⟨e, h1, h2⟩ := ih _ _ hq
          · cases hp
          · exact .inr ⟨e, List.mem_cons_of_mem _ h1, h2⟩
      · cases hq : (Conf.after cfg n l.reverse).tasks t with
        | some q =>
          rw [step_other hq (by simp [Event.isRun, Ne.symm e])] at h
          exact old (hq.trans h)
        | none =>
          exfalso
          simp only [Conf.step] at h
          split at h
          · rw [hq] at h; cases h
          · simp [Conf.setTask, e, hq] at h
          · simp [Conf.setTask, e, hq] at h
          · split at h <;> simp [Conf.setTask, Conf.setLock, e, hq] at h
          · simp [Conf.setTask, Conf.setLock, e, hq] at h

/-- The commit of task `t` waits for its turn with all locks free, or is past its lock; all other tasks work on the pool. -/
structure Sole (commit : Prog) (t : Nat) (c : Conf) : Prop where
  others : ∀ t' p, t' ≠ t → c.tasks t' = some p → p.Pooly
  own : (c.tasks t = some commit ∧ ∀ l, c.held l = none) ∨ ∀ p, c.tasks t = some p → p.Admitted

theorem sole_start {commit q : Prog} {t t' : Nat} {c : Conf} (h : Sole commit t c) (hq : q.Pooly) : Sole commit t (c.start t' q) := by
  unfold Conf.start
  split
  · rename_i hn
    refine ⟨fun u p hu hp => ?_, ?_⟩
    · by_cases e : u = t'
      · subst e; simp only [Conf.setTask, if_true, Option.some.injEq] at hp; subst hp; exact hq
      · simp only [Conf.setTask, if_neg e] at hp; exact h.others u p hu hp
    · by_cases e : t = t'
      · subst e
        right
        intro p hp
        simp only [Conf.setTask, if_true, Option.some.injEq] at hp
        subst hp
        exact hq.admitted
      · simp only [Conf.setTask, if_neg e]; exact h.own
  · exact h

theorem sole_step {cfg : NodeCfg} {commit : Prog} (hc : ∃ a b, commit = .lock .engine a b ∧ a.Admitted) {t : Nat} {c : Conf} (h : Sole commit t c) {e : Event}
    (he : e.isChainCall = false) : Sole commit t (c.step cfg e) := by
  cases e with
  | callCommit => cases he
  | callSync => cases he
  | callInsert t' o b tx => exact sole_start h (pooly_insert ..)
  | callPropose t' now id => exact sole_start h (pooly_propose ..)
  | callCheck t' p1 p2 hash pill => exact sole_start h (pooly_check ..)
  | run t' =>
    by_cases e : t' = t
    · subst e
      refine ⟨fun u p hu hp => ?_, ?_⟩
      · cases hq : c.tasks u with
        | some q => rw [step_other hq (by simp [Event.isRun, Ne.symm hu])] at hp; exact h.others u _ hu (hq.trans hp)
        | none =>
          exfalso
          simp only [Conf.step] at hp
          split at hp
          · rw [hq] at hp; cases hp
          · simp [Conf.setTask, hu, hq] at hp
          · simp [Conf.setTask, hu, hq] at hp
          · split at hp <;> simp [Conf.setTask, Conf.setLock, hu, hq] at hp
          · simp [Conf.setTask, Conf.setLock, hu, hq] at hp
      · right
        intro p hp
        rcases h.own with ⟨h1, h2⟩ | h1
        · obtain ⟨a, b, rfl, ha⟩ := hc
          simp only [Conf.step, h1, h2 .engine, Option.isNone_none, if_true, Conf.setTask, Option.some.injEq] at hp
          subst hp
          exact ha
        · simp only [Conf.step] at hp
          split at hp
          · exact h1 p hp
          · simp [Conf.setTask] at hp
          · rename_i f k hq
            simp only [Conf.setTask, if_true, Option.some.injEq] at hp
            subst hp
            exact h1 _ hq _
          · rename_i l a b hq
            have := h1 _ hq
            split at hp <;> simp only [Conf.setTask, if_true, Option.some.injEq] at hp <;> subst hp
            · exact this.1
            · exact this.2
          · rename_i l k hq
            simp only [Conf.setTask, if_true, Option.some.injEq] at hp
            subst hp
            exact (show (Prog.unlock l k).Admitted from h1 _ hq)
    · have hr := e
      simp only [Conf.step]
      split
      · exact h
      · refine ⟨fun u p hu hp => ?_, ?_⟩
        · by_cases e' : u = t'
          · subst e'; simp [Conf.setTask] at hp
          · simp only [Conf.setTask, if_neg e'] at hp; exact h.others u p hu hp
        · simp only [Conf.setTask, if_neg (Ne.symm hr)]; exact h.own
      · rename_i f k hq
        refine ⟨fun u p hu hp => ?_, ?_⟩
        · by_cases e' : u = t'
          · subst e'
            simp only [Conf.setTask, if_true, Option.some.injEq] at hp
            subst hp
            cases h.others u _ hu hq with | act _ hk => exact hk _
          · simp only [Conf.setTask, if_neg e'] at hp; exact h.others u p hu hp
        · simp only [Conf.setTask, if_neg (Ne.symm hr)]; exact h.own
      · rename_i hq; cases h.others t' _ hr hq
      · rename_i hq; cases h.others t' _ hr hq

/-- **C109, who is turned away.**  A commit is answered that the lock is taken only if another commit or a synchronisation is under way: if all those
called before it have returned and none is called while it runs, it is not turned away, whatever insertions, proposals and checks go on. -/
theorem C109_admitted (cfg : NodeCfg) (n : Node) (evs mid : List Event) (t : Nat) (io : CommitIo) (id : UInt64) (pill : Pill) (proof : OverlordProof)
    (hfree : (Conf.after cfg n evs).tasks t = none)
    (hdone : ∀ e ∈ evs, e.isChainCall = true → ∀ t', e.isCallIn t' = true → (Conf.after cfg n evs).tasks t' = none)
    (hmid : ∀ e ∈ mid, e.isChainCall = false) :
    (Conf.after cfg n (evs ++ .callCommit t io id pill proof :: mid)).tasks t ≠ some (.ret (.commit (.error .lockInSync))) := by
  have h0 : Sole (Prog.commit cfg io id pill proof) t ((Conf.after cfg n evs).step cfg (.callCommit t io id pill proof)) := by
    have e : (Conf.after cfg n evs).step cfg (.callCommit t io id pill proof) = (Conf.after cfg n evs).setTask t (some (Prog.commit cfg io id pill proof)) := by
      simp only [Conf.step, Conf.start, hfree, Option.isNone_none, if_true]
    rw [e]
    have hp : ∀ t' p, (Conf.after cfg n evs).tasks t' = some p → p.Pooly := by
      intro t' p hp
      obtain h | ⟨e, h1, h2, h3⟩ := running_pooly cfg n evs t' p hp
      · exact h
      · rw [hdone e h1 h2 t' h3] at hp; cases hp
    refine ⟨fun u p hu hq => ?_, .inl ⟨by simp only [Conf.setTask, if_true], fun l => ?_⟩⟩
    · simp only [Conf.setTask, if_neg hu] at hq; exact hp u p hq
    · show (Conf.after cfg n evs).held l = none
      cases hh : (Conf.after cfg n evs).held l with
      | none => rfl
      | some u =>
        exfalso
        have ht := tidy_after cfg n evs u
        cases hq : (Conf.after cfg n evs).tasks u with
        | none => rw [hq] at ht; exact ht l hh
        | some p =>
          rw [hq] at ht
          have h1 : ∀ {p : Prog} {H : Lock → Prop}, p.Pooly → p.Owes H → ¬ H l := by
            intro p H hp
            induction hp with
            | ret _ => exact fun h => h l
            | act _ _ ih => exact fun h => ih n (h n)
          exact h1 (hp u p hq) ht hh
  have hS : Sole (Prog.commit cfg io id pill proof) t (Conf.after cfg n (evs ++ .callCommit t io id pill proof :: mid)) := by
    rw [after_append', List.foldl_cons]
    generalize (Conf.after cfg n evs).step cfg (.callCommit t io id pill proof) = c at h0
    induction mid generalizing c with
    | nil => exact h0
    | cons e mid ih => exact ih (fun x hx => hmid x (List.mem_cons_of_mem _ hx)) _ (sole_step (admitted_commit ..) h0 (hmid e (List.mem_cons_self ..)))
  intro hr
  rcases hS.own with ⟨h1, _⟩ | h1
  · rw [hr] at h1
    obtain ⟨a, b, h2, _⟩ := admitted_commit cfg io id pill proof
    rw [h2] at h1
    cases h1
  · exact h1 _ hr rfl

/-! ### The hypotheses can be met -/

/-- A commit in task 1 while the commit in task 0 holds the lock: it is turned away, and has ended after two accesses of its own, although task 0 does
not move. -/
example (cfg : NodeCfg) (n : Node) (io : CommitIo) (id : UInt64) (pill : Pill) (proof : OverlordProof) :
    (Conf.after cfg n [.callCommit 0 io id pill proof, .run 0]).held .engine = some 0 ∧
    (Conf.after cfg n [.callCommit 0 io id pill proof, .run 0, .callCommit 1 io id pill proof, .run 1]).tasks 1 = some (.ret (.commit (.error .lockInSync))) ∧
    (Conf.after cfg n [.callCommit 0 io id pill proof, .run 0, .callCommit 1 io id pill proof, .run 1, .run 1]).tasks 1 = none := ⟨rfl, rfl, rfl⟩

/-- Task 1 of the example above, by the theorem: 14 accesses are enough. -/
example (cfg : NodeCfg) (n : Node) (io : CommitIo) (id : UInt64) (pill : Pill) (proof : OverlordProof) :
    ∃ pre rest, List.replicate 14 (Event.run 1) = pre ++ rest ∧ pre.countP (Event.isRun 1) ≤ 14 ∧
      (Conf.after cfg n ([.callCommit 0 io id pill proof, .run 0] ++ .callCommit 1 io id pill proof :: pre)).tasks 1 = none :=
  C109_ends cfg n _ _ (.callCommit 1 io id pill proof) 1 0 rfl trivial rfl (by rw [List.countP_replicate]; simp [Event.isRun, Event.cost])

/-- A commit of which the proof cannot be read, in task 0, has returned; an insertion in task 2 is under way; the next commit is not turned away. -/
example (cfg : NodeCfg) (n : Node) (io : CommitIo) (id : UInt64) (pill : Pill) (bad proof : OverlordProof) (hb : bad.toProof = none) (tx : SignedTx) (k : Nat) :
    (Conf.after cfg n ([.callCommit 0 io id pill bad, .run 0, .run 0, .run 0, .callInsert 2 true true tx, .run 2] ++
      .callCommit 1 io id pill proof :: (.run 2 :: List.replicate k (.run 1)))).tasks 1 ≠ some (.ret (.commit (.error .lockInSync))) := by
  have h0 : (Conf.after cfg n [.callCommit 0 io id pill bad, .run 0, .run 0, .run 0, .callInsert 2 true true tx, .run 2]).tasks 0 = none := by
    simp [Conf.after, Conf.step, Conf.start, Conf.setTask, Conf.setLock, Prog.commit, hb, Prog.endCommit, Prog.insert, Prog.test]
  refine C109_admitted cfg n _ _ 1 io id pill proof ?_ ?_ ?_
  · simp [Conf.after, Conf.step, Conf.start, Conf.setTask, Conf.setLock, Prog.commit, hb, Prog.endCommit, Prog.insert, Prog.test]
  · intro e he hc t' ht
    simp only [List.mem_cons, List.not_mem_nil, or_false] at he
    rcases he with rfl | rfl | rfl | rfl | rfl | rfl
    · obtain rfl : 0 = t' := by simpa [Event.isCallIn] using ht
      exact h0
    all_goals cases hc
  · intro e he
    rcases List.mem_cons.1 he with rfl | he
    · rfl
    · rw [List.eq_of_mem_replicate he]; rfl

end Huobi
