import Verif.Props.Finality2
import Verif.Props.Timeout
/-
C104, proposals, with overlapping calls: what a node proposes has not timed out, whatever the node does while it makes the proposal.
-/
namespace Huobi

/-! ### Programs that propose nothing -/

/-- The program does not end with a proposal. -/
def Prog.Silent : Prog → Prop
  | .ret (.propose (.ok _)) => False
  | .ret _ => True
  | .act _ k => ∀ n, (k n).Silent
  | .lock _ a b => a.Silent ∧ b.Silent
  | .unlock _ k => k.Silent

theorem silent_endCommit (r : Except CErr UInt64) : (Prog.endCommit r).Silent := trivial
theorem silent_endSync (r : Except CErr (Option UInt64)) : (Prog.endSync r).Silent := trivial

theorem silent_write {ok : Bool} {w : Node → Node} {fail next : Prog} (hf : fail.Silent) (hn : next.Silent) : (Prog.write ok w fail next).Silent := by
  intro n
  cases ok
  · exact hf
  · exact hn

theorem silent_updateStatus {cfg : NodeCfg} {io : SaveIo} {root : MerkleRoot} {epochId : UInt64} {epoch : Epoch} {proof : Proof} {resp : ExecResp}
    {txs : List SignedTx} {fail next : Prog} (hf : fail.Silent) (hn : next.Silent) :
    (Prog.updateStatus cfg io root epochId epoch proof resp txs fail next).Silent :=
  silent_write hf <| silent_write hf <| silent_write hf <| silent_write hf <| silent_write hf fun _ => hn

theorem silent_commit (cfg : NodeCfg) (io : CommitIo) (id : UInt64) (pill : Pill) (proof : OverlordProof) : (Prog.commit cfg io id pill proof).Silent := by
  refine ⟨?_, trivial⟩
  split
  · exact silent_endCommit _
  intro n
  beta_reduce
  split
  · exact silent_endCommit _
  split
  · exact silent_endCommit _
  intro n
  beta_reduce
  split
  · exact silent_endCommit _
  intro n n1 n2
  beta_reduce
  split
  · exact silent_endCommit _
  · exact silent_updateStatus (silent_endCommit _) (silent_endCommit _)

theorem silent_syncLoop {cfg : NodeCfg} {io : SyncIo} {next : Prog} (hn : next.Silent) (ids : List UInt64) :
    ∀ k h r, (Prog.syncLoop cfg io next k ids h r).Silent := by
  induction ids with
  | nil => exact fun _ _ _ => hn
  | cons id ids ih =>
    intro k h r
    unfold Prog.syncLoop Prog.syncOne
    split
    · exact silent_endSync _
    split
    · exact silent_endSync _
    intro n
    beta_reduce
    split
    · exact silent_endSync _
    split
    · exact silent_endSync _
    intro n
    beta_reduce
    split
    · exact silent_endSync _
    · exact silent_updateStatus (silent_endSync _) (ih _ _ _)

theorem silent_sync (cfg : NodeCfg) (io : SyncIo) (msg : Bytes) : (Prog.sync cfg io msg).Silent := by
  refine ⟨?_, trivial⟩
  split
  · trivial
  intro n
  beta_reduce
  split
  · trivial
  refine ⟨fun n => ?_, trivial⟩
  beta_reduce
  split
  · exact silent_endSync _
  · exact silent_syncLoop (silent_endSync _) _ _ _ _

theorem silent_test {E : Type} {c : Node → Except E Unit} {fail : E → Prog} {next : Prog} (hf : ∀ e, (fail e).Silent) (hn : next.Silent) :
    (Prog.test c fail next).Silent := by
  intro n
  beta_reduce
  split
  · exact hf _
  · exact hn

theorem silent_insert (cfg : NodeCfg) (o b : Bool) (tx : SignedTx) : (Prog.insert cfg o b tx).Silent := by
  refine silent_test (fun _ => trivial) <| silent_test (fun _ => trivial) <| silent_test (fun _ => trivial) <| silent_test (fun _ => trivial) <|
    silent_test (fun _ => trivial) fun n => ?_
  beta_reduce
  split <;> trivial

theorem silent_each {f : SignedTx → Node → Node} {next : Prog} (hn : next.Silent) (txs : List SignedTx) : (Prog.each f next txs).Silent := by
  induction txs with
  | nil => exact hn
  | cons tx txs ih => exact fun _ => ih

theorem silent_full (order : List Hash) : (Prog.full order).Silent := fun _ => trivial

theorem silent_check (p1 p2 : List Hash → Option (List SignedTx)) (hash : Bytes) (pill : Pill) : (Prog.check p1 p2 hash pill).Silent := by
  intro n
  beta_reduce
  split
  · exact silent_full _
  have he : (Prog.ensure p2 pill.epoch.orderedTxHashes (.full pill.epoch.orderedTxHashes)).Silent := by
    intro n
    simp only
    split
    · exact silent_full _
    split
    · trivial
    split
    · trivial
    · exact silent_each (silent_full _) _
  intro n
  simp only
  split
  · exact he
  split
  · trivial
  · exact silent_each he _

/-! ### Proposals in time -/

/-- Every transaction of the pill was in the pool of one of the nodes `N 0`, ..., `N len`, with a time-out not before the height of the pill. -/
def PillInTime (N : Nat → Node) (len : Nat) (pill : Pill) : Prop :=
  ∀ k ∈ pill.epoch.orderedTxHashes ++ pill.proposeHashes, ∃ i, i ≤ len ∧ ∃ tx, (N i).pool.cache.get k = some tx ∧ tx.txHash = k ∧
    pill.epoch.header.epochId ≤ tx.raw.timeout

/-- A program that goes on from moment `j` of a schedule, through nodes `N i`, and proposes only what `Q` allows. -/
def Prog.Fine (Q : Pill → Prop) (N : Nat → Node) (len : Nat) : Prog → Nat → Prop
  | .ret (.propose (.ok (pill, _))), _ => Q pill
  | .ret _, _ => True
  | .act _ k, j => ∀ i, j ≤ i → i ≤ len → (k (N i)).Fine Q N len i
  | .lock _ a b, j => a.Fine Q N len j ∧ b.Fine Q N len j
  | .unlock _ k, j => k.Fine Q N len j

theorem Prog.Fine.mono {Q : Pill → Prop} {N : Nat → Node} {len : Nat} {p : Prog} {j i : Nat} (h : p.Fine Q N len j) (hj : j ≤ i) : p.Fine Q N len i := by
  induction p with
  | ret r =>
    cases r with
    | propose r => cases r with
      | ok x => exact h
      | error e => trivial
    | _ => trivial
  | act f k _ => exact fun i' h1 h2 => h i' (Nat.le_trans hj h1) h2
  | lock l a b iha ihb => exact ⟨iha h.1, ihb h.2⟩
  | unlock l k ih => exact ih h

theorem Prog.Silent.fine {Q : Pill → Prop} {N : Nat → Node} {len : Nat} {p : Prog} (h : p.Silent) : ∀ j, p.Fine Q N len j := by
  induction p with
  | ret r =>
    cases r with
    | propose r => cases r with
      | ok x => exact h.elim
      | error e => exact fun _ => trivial
    | _ => exact fun _ => trivial
  | act f k ih => exact fun j i _ _ => ih _ (h _) i
  | lock l a b iha ihb => exact fun j => ⟨iha h.1 j, ihb h.2 j⟩
  | unlock l k ih => exact fun j => ih h j

theorem package_window {c : TxCache} (g : c.Good) {limit current timeout : UInt64} {o p : List Hash} (hp : (c.package limit current timeout).1 = .ok (o, p)) :
    ∀ h ∈ o ++ p, ∃ tx, c.get h = some tx ∧ tx.txHash = h ∧ current < tx.raw.timeout := by
  have h1 := package_exact g limit current timeout
  rw [hp] at h1
  simp only [Except.ok.injEq, Prod.mk.injEq] at h1
  intro h hm
  rw [h1.1, h1.2, ← show hashesOf (_ ++ _) = hashesOf _ ++ hashesOf _ from List.map_append] at hm
  obtain ⟨e, he, rfl⟩ := List.mem_map.1 hm
  have he := (select_sublist limit _).subset he
  rw [List.mem_filter] at he
  have hw : current < e.tx.raw.timeout := by
    have := he.2
    simp only [Entry.inWindow, decide_eq_true_eq] at this
    exact this.1
  exact ⟨e.tx, (get_eq_some g).2 ⟨e, he.1, rfl, rfl⟩, rfl, hw⟩

theorem fine_propose {cfg : NodeCfg} {N : Nat → Node} {len : Nat} (hg : ∀ i, i ≤ len → (N i).pool.cache.Good)
    (hs : ∀ i j, i ≤ j → j ≤ len → ∃ last, (N j).store.latest = some last ∧ (N i).status.epochId.toNat ≤ last.header.epochId.toNat + 1)
    (now id : UInt64) (j : Nat) : (Prog.propose cfg now id).Fine (PillInTime N len) N len j := by
  intro i0 h0 l0 i1 h1 l1
  obtain ⟨last, hl, hle⟩ := hs i0 i1 h1 l1
  beta_reduce
  rw [hl]
  intro i2 h2 l2
  beta_reduce
  split
  · trivial
  · rename_i order propose hpk
    split
    · trivial
    · rename_i hid
      have hid : (N i0).status.epochId = id := Classical.not_not.1 hid
      intro i3 h3 l3 k hk
      obtain ⟨tx, t1, t2, t3⟩ := package_window (hg i2 l2) hpk k hk
      refine ⟨i2, l2, tx, t1, t2, ?_⟩
      show id ≤ _
      rw [← hid, UInt64.le_iff_toNat_le]
      have := UInt64.lt_iff_toNat_lt.1 t3
      omega

theorem fine_after {cfg : NodeCfg} {n : Node} {evs : List Event} {N : Nat → Node} {Q : Nat → Pill → Prop} (hN : ∀ i, N i = (Conf.after cfg n (evs.take i)).node)
    (hp : ∀ t now id j, evs[j]? = some (.callPropose t now id) → (Prog.propose cfg now id).Fine (Q t) N evs.length (j + 1)) :
    ∀ j, j ≤ evs.length → ∀ t q, (Conf.after cfg n (evs.take j)).tasks t = some q → q.Fine (Q t) N evs.length j := by
  intro j
  induction j with
  | zero => intro _ t q h; cases h
  | succ j ih =>
    intro hj t q h
    have ih := ih (by omega)
    have hlt : j < evs.length := by omega
    rw [List.take_succ_eq_append_getElem hlt, after_snoc] at h
    have hnode := hN j
    generalize Conf.after cfg n (evs.take j) = c at *
    have start : ∀ t' p, p.Fine (Q t') N evs.length (j + 1) → (c.start t' p).tasks t = some q → q.Fine (Q t) N evs.length (j + 1) := by
      intro t' p hpf h
      unfold Conf.start at h
      split at h
      · simp only [Conf.setTask] at h
        split at h
        · rename_i ht; cases h; rw [ht]; exact hpf
        · exact (ih t q h).mono (Nat.le_succ j)
      · exact (ih t q h).mono (Nat.le_succ j)
    cases he : evs[j] with
    | callCommit t' io id pill proof => rw [he] at h; exact start t' (.commit cfg io id pill proof) (Prog.Silent.fine (silent_commit cfg io id pill proof) _) h
    | callSync t' io msg => rw [he] at h; exact start t' (.sync cfg io msg) (Prog.Silent.fine (silent_sync cfg io msg) _) h
    | callInsert t' o b tx => rw [he] at h; exact start t' (.insert cfg o b tx) (Prog.Silent.fine (silent_insert cfg o b tx) _) h
    | callPropose t' now id => rw [he] at h; exact start t' (.propose cfg now id) (hp t' now id j (by rw [List.getElem?_eq_getElem hlt, he])) h
    | callCheck t' p1 p2 ha pill => rw [he] at h; exact start t' (.check p1 p2 ha pill) (Prog.Silent.fine (silent_check p1 p2 ha pill) _) h
    | run t' =>
      rw [he] at h
      have old : ∀ {c' : Conf}, c'.tasks t = some q → c'.tasks t = c.tasks t → q.Fine (Q t) N evs.length (j + 1) := by
        intro c' h1 h2
        rw [h2] at h1
        exact (ih t q h1).mono (Nat.le_succ j)
      by_cases ht : t = t'
      · subst ht
        unfold Conf.step at h
        simp only at h
        split at h
        · exact old h rfl
        · simp [Conf.setTask] at h
        · rename_i f k hk
          have hq : k c.node = q := by simpa [Conf.setTask] using h
          subst hq
          have := ih t _ hk j (Nat.le_refl j) (by omega)
          rw [hnode] at this
          exact this.mono (Nat.le_succ j)
        · rename_i l a b hk
          have := ih t _ hk
          split at h
          · have hq : a = q := by simpa [Conf.setTask, Conf.setLock] using h
            subst hq
            exact this.1.mono (Nat.le_succ j)
          · have hq : b = q := by simpa [Conf.setTask] using h
            subst hq
            exact this.2.mono (Nat.le_succ j)
        · rename_i l k hk
          have := ih t _ hk
          have hq : k = q := by simpa [Conf.setTask, Conf.setLock] using h
          subst hq
          exact Prog.Fine.mono (p := k) this (Nat.le_succ j)
      · refine old h ?_
        unfold Conf.step
        simp only
        split
        · rfl
        · simp [Conf.setTask, ht]
        · simp [Conf.setTask, ht]
        · split <;> simp [Conf.setTask, Conf.setLock, ht]
        · simp [Conf.setTask, Conf.setLock, ht]

/-- **C104, proposals, for overlapping calls (partial: if commits and peers continue the chain).**  In every process of every lifetime, whatever
calls overlap with the proposing one: each transaction of an epoch it proposes, and of those it announces for later, was in the pool at some moment,
and has not reached its time-out at the height of that epoch. -/
theorem C104_concurrent_partial {cfg : NodeCfg} {g : Genesis} {n0 : Node} {older : List Done} (hs : CStart cfg g (CContinues cfg) n0 older) (evs : List Event)
    (hev : CContinues cfg n0 evs) {t : Nat} {pill : Pill} {hash : Bytes}
    (hp : (Conf.after cfg n0 evs).tasks t = some (.ret (.propose (.ok (pill, hash))))) :
    ∀ k ∈ pill.epoch.orderedTxHashes ++ pill.proposeHashes, ∃ pre post tx, evs = pre ++ post ∧ (Conf.after cfg n0 pre).node.pool.cache.get k = some tx ∧
      tx.txHash = k ∧ pill.epoch.header.epochId ≤ tx.raw.timeout := by
  have hfit0 : n0.Fits := by
    obtain ⟨last, hla, -, -⟩ := hs.lives.chained.linked
    refine ⟨last, hla, ?_⟩
    rw [(hs.lives.chained.next last hla).1]
    exact u64_succ_toNat _
  have hstep : ∀ i j, i ≤ j → Onward (Conf.after cfg n0 (evs.take i)).node (Conf.after cfg n0 (evs.take j)).node := by
    intro i j hij
    have e : evs.take j = evs.take i ++ (evs.take j).drop i := by
      have := List.take_append_drop i (evs.take j)
      rw [List.take_take, Nat.min_eq_left hij] at this
      exact this.symm
    have hc : CContinues cfg n0 (evs.take j) := CContinues.left (post := evs.drop j) (by rw [List.take_append_drop]; exact hev)
    have := onward_process hs (evs.take i) ((evs.take j).drop i) (by rw [← e]; exact hc)
    rw [← e] at this
    exact this
  have hfits : ∀ i, (Conf.after cfg n0 (evs.take i)).node.Fits := fun i => (hstep 0 i (Nat.zero_le i)).fits (by exact hfit0)
  obtain ⟨-, hc⟩ := hs.blank
  have hfine := fine_after (cfg := cfg) (n := n0) (evs := evs) (N := fun i => (Conf.after cfg n0 (evs.take i)).node)
    (Q := fun _ => PillInTime (fun i => (Conf.after cfg n0 (evs.take i)).node) evs.length) (fun _ => rfl)
    (fun _ now id j _ => fine_propose (fun i _ => (hc.after (closed_true cfg) fun e _ => brings_true cfg e).good) (fun i j hij _ => by
      obtain ⟨a, b, ha, hb, hab, -⟩ := (hstep i j hij).ext
      obtain ⟨l, hl, hle⟩ := hfits i
      have ha : (Conf.after cfg n0 (evs.take i)).node.store.latest = some a := ha
      rw [ha] at hl; cases hl
      exact ⟨b, hb, by have := UInt64.le_iff_toNat_le.1 hab; omega⟩) now id (j + 1))
    evs.length (Nat.le_refl _) t _ (by rw [List.take_length]; exact hp)
  intro k hk
  obtain ⟨i, hi, tx, h1, h2, h3⟩ := hfine k hk
  exact ⟨evs.take i, evs.drop i, tx, (List.take_append_drop i evs).symm, h1, h2, h3⟩

open Demo in
/-- The hypotheses are met: a proposal with a transaction, by a node whose other tasks are inserting and have committed. -/
example : CStart ncfg ngenesis (CContinues ncfg) n0 [] ∧ CContinues ncfg n0 calm1 ∧
    (∃ hash, (Conf.after ncfg n0 calm1).tasks 2 = some (.ret (.propose (.ok (calmPill, hash))))) ∧
    calmPill.epoch.orderedTxHashes = [other.txHash] ∧ calmPill.epoch.header.epochId = 2 := by
  obtain ⟨s, t, hi, hs⟩ := n0_start
  exact ⟨.init hi hs, plain_continues (by decide +kernel) (by decide +kernel), pillOf_some (by decide +kernel) noPill, by decide +kernel, by decide +kernel⟩

end Huobi
