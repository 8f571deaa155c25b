import Verif.Model.Broadcaster
import Verif.Props.TxCache
/-
C29: the batch broadcaster, over every schedule of submissions, timer signals and task steps.
-/
namespace Huobi

/-- The transactions submitted in a run, in order. -/
def Bcast.submitted : List Bcast.Label → List SignedTx
  | [] => []
  | .submit tx _ :: ls => tx :: submitted ls
  | _ :: ls => submitted ls

/-- The concatenation of the batches handed to the network. -/
def Bcast.gossiped (b : Bcast) : List SignedTx := (b.sent.map Prod.fst).flatten

theorem Bcast.submitted_append (a b : List Bcast.Label) : submitted (a ++ b) = submitted a ++ submitted b := by
  induction a with
  | nil => rfl
  | cons l a ih => cases l <;> simp [submitted, ih]

theorem Bcast.run_append (b : Bcast) (xs ys : List Bcast.Label) : b.run (xs ++ ys) = (b.run xs).run ys := by
  simp [run, List.foldl_append]

theorem Bcast.doBroadcast_all (b : Bcast) (ok : Bool) :
    (b.doBroadcast ok).gossiped ++ (b.doBroadcast ok).buf = b.gossiped ++ b.buf ∧ (b.doBroadcast ok).buf = [] ∧
    (b.doBroadcast ok).chan = b.chan ∧ (b.doBroadcast ok).size = b.size := by
  unfold doBroadcast
  split
  · rename_i h; rw [List.isEmpty_iff] at h; exact ⟨rfl, h, rfl, rfl⟩
  · simp [gossiped]

/-- Facts that hold in every state of a run. -/
structure Bcast.Ok (n : Nat) (subm : List SignedTx) (b : Bcast) : Prop where
  size : b.size = n
  all : b.gossiped ++ b.buf ++ b.chan = subm
  short : 0 < n → b.buf.length < n
  batches : ∀ x ∈ b.sent, x.1 ≠ [] ∧ (0 < n → x.1.length ≤ n)

theorem Bcast.Ok.step {n : Nat} {subm : List SignedTx} {b : Bcast} (h : b.Ok n subm) (l : Label) :
    (b.step l).Ok n (subm ++ submitted [l]) := by
  have hall := h.all
  have key : ∀ (b : Bcast) (ok : Bool), b.size = n → b.gossiped ++ b.buf ++ b.chan = subm →
      (0 < n → b.buf.length ≤ n) → (∀ x ∈ b.sent, x.1 ≠ [] ∧ (0 < n → x.1.length ≤ n)) → (b.doBroadcast ok).Ok n subm := by
    intro b ok h1 h2 h3 h4
    obtain ⟨e1, e2, e3, e4⟩ := b.doBroadcast_all ok
    refine ⟨by rw [e4, h1], by rw [e1, e3, h2], fun hn => by rw [e2]; exact hn, ?_⟩
    unfold doBroadcast
    split
    · exact h4
    · rename_i hne
      intro x hx
      simp only [List.mem_append, List.mem_singleton] at hx
      rcases hx with hx | rfl
      · exact h4 x hx
      · exact ⟨by simpa using hne, h3⟩
  cases l with
  | submit tx locked =>
    refine ⟨h.size, ?_, h.short, h.batches⟩
    simp only [Bcast.step, submitted]
    rw [← hall]; simp [gossiped]
  | timer =>
    simp only [Bcast.step, submitted, List.append_nil]
    split <;> exact ⟨h.size, h.all, h.short, h.batches⟩
  | recvTx ok =>
    simp only [Bcast.step, submitted, List.append_nil]
    cases hc : b.chan with
    | nil => exact h
    | cons tx rest =>
      have hall' : b.gossiped ++ (b.buf ++ [tx]) ++ rest = subm := by rw [← hall, hc]; simp
      simp only
      split
      · rename_i hl
        exact key _ ok h.size hall' (fun _ => by rw [h.size] at hl; exact hl.le) h.batches
      · rename_i hl
        refine ⟨h.size, hall', fun hn => ?_, h.batches⟩
        have := h.short hn
        rw [h.size] at hl
        simp only [List.length_append, List.length_singleton] at hl ⊢
        omega
  | recvTick ok =>
    simp only [Bcast.step, submitted, List.append_nil]
    cases ht : b.ticks with
    | zero => exact h
    | succ k => exact key _ ok h.size h.all (fun hn => (h.short hn).le) h.batches

theorem Bcast.ok_run (n : Nat) (ls : List Label) : ((Bcast.new n).run ls).Ok n (submitted ls) := by
  induction ls using List.reverseRecOn with
  | nil => exact ⟨rfl, rfl, fun h => h, fun x hx => by cases hx⟩
  | append_singleton ls l ih =>
    rw [run_append, submitted_append]
    exact ih.step l

/-- **C29.**  In every schedule: the batches sent so far, followed by the buffered and then the queued transactions, are
exactly the submitted transactions in order (so none is lost, duplicated or reordered); no batch is empty or larger than
the configured size, and with a positive size fewer than that many are buffered, i.e. a batch leaves as soon as the size
is reached. -/
theorem C29_batches_are_submissions (n : Nat) (ls : List Bcast.Label) {b : Bcast} (hb : (Bcast.new n).run ls = b) :
    b.gossiped ++ b.buf ++ b.chan = Bcast.submitted ls ∧
    (∀ x ∈ b.sent, x.1 ≠ [] ∧ (0 < n → x.1.length ≤ n)) ∧
    (0 < n → b.buf.length < n) := by
  subst hb
  have h := Bcast.ok_run n ls
  exact ⟨h.all, h.batches, h.short⟩

/-- **C29, ticks.**  When the task receives a timer signal, everything received before it has been sent. -/
theorem C29_tick_sends_all (n : Nat) (ls : List Bcast.Label) {b : Bcast} (hb : (Bcast.new n).run ls = b) (ok : Bool)
    (ht : 0 < b.ticks) :
    (b.step (.recvTick ok)).buf = [] ∧ (b.step (.recvTick ok)).gossiped ++ b.chan = Bcast.submitted ls := by
  subst hb
  have h := (Bcast.ok_run n ls)
  generalize (Bcast.new n).run ls = b at *
  obtain ⟨k, hk⟩ : ∃ k, b.ticks = k + 1 := ⟨b.ticks - 1, by omega⟩
  simp only [Bcast.step, hk]
  obtain ⟨e1, e2, e3, e4⟩ := Bcast.doBroadcast_all { b with ticks := k } ok
  refine ⟨e2, ?_⟩
  rw [e2, List.append_nil] at e1
  rw [e1]; exact h.all

/-- **C29, liveness.**  From every reachable state, if the task receives everything in its channel and then a timer signal,
every submitted transaction has been sent. -/
theorem C29_drain_sends_all (n : Nat) (ls : List Bcast.Label) (oks : List Bool) (ok : Bool) {b : Bcast}
    (hb : (Bcast.new n).run ls = b) (hlen : oks.length = b.chan.length) :
    (b.run (oks.map Bcast.Label.recvTx ++ [.timer, .recvTick ok])).gossiped = Bcast.submitted ls := by
  have hchan : ∀ (oks : List Bool) (b : Bcast), oks.length = b.chan.length → (b.run (oks.map Bcast.Label.recvTx)).chan = [] := by
    intro oks
    induction oks with
    | nil => intro b h; exact List.length_eq_zero_iff.1 h.symm
    | cons o os ih =>
      intro b h
      refine ih (b.step (.recvTx o)) ?_
      cases hc : b.chan with
      | nil => rw [hc] at h; simp at h
      | cons t r =>
        rw [hc] at h
        have : (b.step (.recvTx o)).chan = r := by
          simp only [Bcast.step, hc]
          split
          · rw [(Bcast.doBroadcast_all _ _).2.2.1]
          · rfl
        rw [this]; simpa using h
  have hsub : ∀ oks : List Bool, Bcast.submitted (oks.map Bcast.Label.recvTx) = [] := by
    intro oks; induction oks with
    | nil => rfl
    | cons o os ih => exact ih
  set mid := oks.map Bcast.Label.recvTx ++ [Bcast.Label.timer] with hmid
  have hrun : (Bcast.new n).run (ls ++ mid) = b.run mid := by rw [Bcast.run_append, hb]
  have ht : 0 < (b.run mid).ticks := by
    rw [hmid, Bcast.run_append]
    simp only [Bcast.run, List.foldl_cons, List.foldl_nil, Bcast.step]
    split
    · exact Nat.succ_pos _
    · omega
  have hc : (b.run mid).chan = [] := by
    rw [hmid, Bcast.run_append]
    have := hchan oks b hlen
    generalize b.run (oks.map Bcast.Label.recvTx) = b' at *
    simp only [Bcast.run, List.foldl_cons, List.foldl_nil, Bcast.step]
    split <;> exact this
  have := (C29_tick_sends_all n (ls ++ mid) hrun ok ht).2
  rw [hc, List.append_nil, Bcast.submitted_append] at this
  have h0 : Bcast.submitted mid = [] := by rw [hmid, Bcast.submitted_append, hsub]; rfl
  rw [h0, List.append_nil] at this
  rw [← this]
  rw [show oks.map Bcast.Label.recvTx ++ [Bcast.Label.timer, .recvTick ok] = mid ++ [.recvTick ok] by simp [hmid],
    Bcast.run_append]
  rfl

/-! ### Errors of the network -/

/-- The errors returned by the `broadcast_tx` calls of a run started in `b`, in order. -/
def Bcast.reported (b : Bcast) : List Bcast.Label → List (List SignedTx)
  | [] => []
  | l :: ls =>
    (match l with
     | .submit _ locked => (b.submitResult locked).toList
     | _ => []) ++ (b.step l).reported ls

/-- The batches the network refused. -/
def Bcast.refused (b : Bcast) : List (List SignedTx) := (b.sent.filter (fun x => !x.2)).map Prod.fst

theorem Bcast.doBroadcast_errs (b : Bcast) (ok : Bool) : ∃ new, (b.doBroadcast ok).refused = b.refused ++ new ∧
    (b.doBroadcast ok).errs = b.errs ++ new := by
  unfold doBroadcast
  split
  · exact ⟨[], by simp, by simp⟩
  · cases ok
    · exact ⟨[b.buf], by simp [refused], rfl⟩
    · exact ⟨[], by simp [refused], by simp⟩

theorem Bcast.reported_run (b : Bcast) (ls : List Label) (pre : List (List SignedTx)) (h : pre ++ b.errs = b.refused) :
    pre ++ b.reported ls ++ (b.run ls).errs = (b.run ls).refused := by
  induction ls generalizing b pre with
  | nil => simpa [reported, run] using h
  | cons l ls ih =>
    simp only [reported]
    rw [show b.run (l :: ls) = (b.step l).run ls from rfl]
    have hstep : ∀ (pre' : List (List SignedTx)), pre' ++ (b.step l).errs = (b.step l).refused →
        pre' ++ (b.step l).reported ls ++ ((b.step l).run ls).errs = ((b.step l).run ls).refused := fun pre' h' => ih _ pre' h'
    cases l with
    | submit tx locked =>
      have := hstep (pre ++ (b.submitResult locked).toList) (by
        simp only [Bcast.step, submitResult]
        show _ = b.refused
        rw [← h]
        cases locked
        · cases b.errs <;> simp
        · simp)
      simpa [List.append_assoc] using this
    | timer =>
      have := hstep pre (by simp only [Bcast.step]; split <;> exact h)
      simpa using this
    | recvTx ok =>
      have := hstep pre (by
        simp only [Bcast.step]
        cases hc : b.chan with
        | nil => exact h
        | cons tx rest =>
          simp only
          split
          · obtain ⟨new, e1, e2⟩ := Bcast.doBroadcast_errs { b with chan := rest, buf := b.buf ++ [tx] } ok
            rw [e1, e2, ← List.append_assoc]
            exact congrArg (· ++ new) h
          · exact h)
      simpa using this
    | recvTick ok =>
      have := hstep pre (by
        simp only [Bcast.step]
        cases hc : b.ticks with
        | zero => exact h
        | succ k =>
          obtain ⟨new, e1, e2⟩ := Bcast.doBroadcast_errs { b with ticks := k } ok
          rw [e1, e2, ← List.append_assoc]
          exact congrArg (· ++ new) h)
      simpa using this

/-- **C29, errors.**  Every batch the network refuses is reported exactly once, in order, to a later `broadcast_tx` call, or
still waits in the error channel.  (The refused transactions themselves are not sent again.) -/
theorem C29_errors_reported_once (n : Nat) (ls : List Bcast.Label) {b : Bcast} (hb : (Bcast.new n).run ls = b) :
    (Bcast.new n).reported ls ++ b.errs = b.refused := by
  subst hb
  simpa using Bcast.reported_run (Bcast.new n) ls [] rfl

/-- A schedule with a full batch, a refused batch reported to a later caller, and a buffered transaction. -/
def Demo.bcast : List Bcast.Label :=
  [.submit (Demo.ptx 1 10 4) false, .submit (Demo.ptx 2 10 4) true, .recvTx true, .submit (Demo.ptx 3 10 4) false, .recvTx true,
   .timer, .recvTx true, .recvTick false, .submit (Demo.ptx 4 10 4) false, .recvTx true]

example : ((Bcast.new 2).run Demo.bcast).sent = [([Demo.ptx 1 10 4, Demo.ptx 2 10 4], true), ([Demo.ptx 3 10 4], false)] ∧
    ((Bcast.new 2).run Demo.bcast).buf = [Demo.ptx 4 10 4] ∧
    (Bcast.new 2).reported Demo.bcast = [[Demo.ptx 3 10 4]] := by decide +kernel

example : 0 < ((Bcast.new 2).run (Demo.bcast.take 7)).ticks := by decide +kernel

example : [true, true].length = ((Bcast.new 2).run (Demo.bcast.take 4)).chan.length := by decide +kernel

end Huobi
