import Verif.Model.Connection
import Verif.Props.PeerManager
/-
The connection service: C60, and `users_send` (C55), failed dials (C68).
-/
namespace Huobi

/-! ### Specification -/

/-- The calls a command asks for. -/
def ConnCmd.calls : ConnCmd → List Call
  | .connect addrs => addrs.map Call.dial
  | .disconnect sid => [.disconnect sid]
  | .send sids msg => [.send sids msg]

/-- The commands handed to the service, oldest first. -/
def handed : List ConnStep → List ConnCmd
  | [] => []
  | .command c :: l => c :: handed l
  | .poll :: l => handed l

/-- `acc` issues the commands one after the other, each call of each exactly once; the dials of one command in any order. -/
inductive Issues : List ConnCmd → List Call → Prop
  | nil : Issues [] []
  | snoc {cs : List ConnCmd} {acc part : List Call} {c : ConnCmd} (h : Issues cs acc) (hp : part.Perm c.calls) : Issues (cs ++ [c]) (acc ++ part)

/-- `acc` issues a first part of the commands, completely or up to the middle of a command, what remains of which is `rest`. -/
inductive IssuesUpTo (cmds : List ConnCmd) (acc : List Call) : List ConnCmd → List ConnCmd → Prop
  | clean {cs inbox : List ConnCmd} (hc : cmds = cs ++ inbox) (h : Issues cs acc) : IssuesUpTo cmds acc [] inbox
  | within {cs inbox : List ConnCmd} {c rest : ConnCmd} {acc0 part : List Call} (hc : cmds = cs ++ c :: inbox) (h : Issues cs acc0)
      (ha : acc = acc0 ++ part) (hp : (part ++ rest.calls).Perm c.calls) (hne : rest.calls ≠ []) : IssuesUpTo cmds acc [rest] inbox

/-! ### Proofs -/

namespace ConnSvc

theorem dials_spec (ans : Nat → Answer) (hans : ∀ n, ans n ≠ .closed) (addrs : List Maddr) (s : ConnSvc) :
    ∃ s' left part, s.dials ans addrs = (s', some left) ∧ s'.pending = s.pending ∧ s'.inbox = s.inbox ∧ s'.accepted = s.accepted ++ part ∧
      (part ++ left.map Call.dial).Perm (addrs.map Call.dial) ∧
      (addrs ≠ [] → ans s.calls = .ok → part ≠ []) ∧ ((∀ n, ans n = .ok) → left = [] ∧ part = addrs.map Call.dial) := by
  induction addrs generalizing s with
  | nil => exact ⟨s, [], [], rfl, rfl, rfl, by simp, .nil, fun h => absurd rfl h, fun _ => ⟨rfl, rfl⟩⟩
  | cons a rest ih =>
    unfold dials
    cases e : ans s.calls with
    | ok =>
      obtain ⟨s', left, part, h1, h2, h3, h4, h5, h6, h7⟩ := ih { s with calls := s.calls + 1, accepted := s.accepted ++ [Call.dial a] }
      refine ⟨s', left, .dial a :: part, h1, h2, h3, ?_, .cons _ h5, fun _ _ => by simp, fun h => ?_⟩
      · rw [h4]; simp
      · obtain ⟨x, y⟩ := h7 h; exact ⟨x, by rw [y]; rfl⟩
    | closed => exact absurd e (hans _)
    | busy =>
      obtain ⟨s', left, part, h1, h2, h3, h4, h5, h6, h7⟩ := ih { s with calls := s.calls + 1 }
      refine ⟨s', a :: left, part, by simp [h1], h2, h3, h4, ?_, fun _ h => (by cases h), fun h => ?_⟩
      · rw [List.map_cons, List.map_cons]; exact List.perm_middle.trans (.cons _ h5)
      · rw [h] at e; cases e
    | unexpected =>
      obtain ⟨s', left, part, h1, h2, h3, h4, h5, h6, h7⟩ := ih { s with calls := s.calls + 1 }
      refine ⟨s', a :: left, part, by simp [h1], h2, h3, h4, ?_, fun _ h => (by cases h), fun h => ?_⟩
      · rw [List.map_cons, List.map_cons]; exact List.perm_middle.trans (.cons _ h5)
      · rw [h] at e; cases e

/-- What one command does: some calls are accepted, the others are kept as one pending command. -/
theorem process_spec (ans : Nat → Answer) (hans : ∀ n, ans n ≠ .closed) (s : ConnSvc) (c : ConnCmd) :
    ∃ part, (s.process ans c).inbox = s.inbox ∧ (s.process ans c).accepted = s.accepted ++ part ∧
      (((s.process ans c).pending = s.pending ∧ part.Perm c.calls) ∨
       ∃ rest, (s.process ans c).pending = s.pending ++ [rest] ∧ (part ++ rest.calls).Perm c.calls ∧ rest.calls ≠ []) ∧
      (c.calls ≠ [] → ans s.calls = .ok → part ≠ []) ∧
      ((∀ n, ans n = .ok) → (s.process ans c).pending = s.pending ∧ part = c.calls) ∧
      (c.calls = [] → (s.process ans c).calls = s.calls ∧ (s.process ans c).pending = s.pending) := by
  cases c with
  | connect addrs =>
    obtain ⟨s', left, part, h1, h2, h3, h4, h5, h6, h7⟩ := dials_spec ans hans addrs s
    have hp : s.process ans (.connect addrs) = if left.isEmpty then s' else { s' with pending := s'.pending ++ [.connect left] } := by
      simp only [process, h1]
    rw [hp]
    have hempty : addrs.map Call.dial = [] → s' = s := by
      intro h
      rw [List.map_eq_nil_iff] at h
      subst h
      simp only [dials, Prod.mk.injEq] at h1
      exact h1.1.symm
    cases left with
    | nil =>
      refine ⟨part, ?_, ?_, .inl ⟨?_, by simpa [ConnCmd.calls] using h5⟩, fun hc => h6 (by rintro rfl; exact hc rfl), fun h => ⟨?_, (h7 h).2⟩, fun h => ⟨?_, ?_⟩⟩
      · simpa using h3
      · simpa using h4
      · simpa using h2
      · simpa using h2
      · simp [hempty h]
      · simp [hempty h]
    | cons a l =>
      refine ⟨part, ?_, ?_, .inr ⟨.connect (a :: l), ?_, h5, by simp [ConnCmd.calls]⟩, fun hc => h6 (by rintro rfl; exact hc rfl), fun h => ?_, fun h => ?_⟩
      · simpa using h3
      · simpa using h4
      · simp [h2]
      · cases (h7 h).1
      · have := h5.length_eq
        rw [show addrs.map Call.dial = [] from h] at this
        simp at this
  | disconnect sid =>
    show ∃ part, (s.single ans _ _).inbox = _ ∧ (s.single ans _ _).accepted = _ ∧ _ 
    unfold single
    cases e : ans s.calls with
    | ok => exact ⟨[.disconnect sid], rfl, rfl, .inl ⟨by simp [process, single, e], .refl _⟩, fun _ _ => by simp, fun _ => ⟨by simp [process, single, e], rfl⟩, fun h => by cases h⟩
    | closed => exact absurd e (hans _)
    | busy => exact ⟨[], rfl, by simp, .inr ⟨.disconnect sid, by simp [process, single, e], .refl _, by simp [ConnCmd.calls]⟩, fun _ h => (by cases h), fun h => (by rw [h] at e; cases e), fun h => by cases h⟩
    | unexpected => exact ⟨[], rfl, by simp, .inr ⟨.disconnect sid, by simp [process, single, e], .refl _, by simp [ConnCmd.calls]⟩, fun _ h => (by cases h), fun h => (by rw [h] at e; cases e), fun h => by cases h⟩
  | send sids msg =>
    show ∃ part, (s.single ans _ _).inbox = _ ∧ (s.single ans _ _).accepted = _ ∧ _ 
    unfold single
    cases e : ans s.calls with
    | ok => exact ⟨[.send sids msg], rfl, rfl, .inl ⟨by simp [process, single, e], .refl _⟩, fun _ _ => by simp, fun _ => ⟨by simp [process, single, e], rfl⟩, fun h => by cases h⟩
    | closed => exact absurd e (hans _)
    | busy => exact ⟨[], rfl, by simp, .inr ⟨.send sids msg, by simp [process, single, e], .refl _, by simp [ConnCmd.calls]⟩, fun _ h => (by cases h), fun h => (by rw [h] at e; cases e), fun h => by cases h⟩
    | unexpected => exact ⟨[], rfl, by simp, .inr ⟨.send sids msg, by simp [process, single, e], .refl _, by simp [ConnCmd.calls]⟩, fun _ h => (by cases h), fun h => (by rw [h] at e; cases e), fun h => by cases h⟩

theorem receive_inv (ans : Nat → Answer) (hans : ∀ n, ans n ≠ .closed) (cmds : List ConnCmd) (box : List ConnCmd) (s : ConnSvc)
    (h : IssuesUpTo cmds s.accepted s.pending box) :
    IssuesUpTo cmds (s.receive ans box).accepted (s.receive ans box).pending (s.receive ans box).inbox := by
  induction box generalizing s with
  | nil => exact h
  | cons c cs ih =>
    unfold receive
    split
    · rename_i he
      refine ih _ ?_
      obtain ⟨part, h1, h2, h3, _⟩ := process_spec ans hans s c
      have hp : s.pending = [] := by simpa using he
      rw [hp] at h h3
      rw [h2]
      obtain ⟨hc, hi⟩ : ∃ done, cmds = done ++ c :: cs ∧ Issues done s.accepted := by
        cases h with
        | clean hc hi => exact ⟨_, hc, hi⟩
      rcases h3 with ⟨h3, h4⟩ | ⟨rest, h3, h4, h5⟩
      · rw [h3]
        exact .clean (cs := hc ++ [c]) (by rw [hi.1]; simp) (.snoc hi.2 h4)
      · rw [h3]
        exact .within hi.1 hi.2 rfl h4 h5
    · exact h

theorem poll_inv (ans : Nat → Answer) (hans : ∀ n, ans n ≠ .closed) (cmds : List ConnCmd) (s : ConnSvc)
    (h : IssuesUpTo cmds s.accepted s.pending s.inbox) :
    IssuesUpTo cmds (s.poll ans).accepted (s.poll ans).pending (s.poll ans).inbox := by
  unfold poll
  simp only
  refine receive_inv ans hans cmds _ _ ?_
  generalize hp : s.pending = pend at h
  cases h with
  | clean hc hi => exact .clean hc hi
  | @within cs _ c rest acc0 part hc hi ha hperm hne =>
    obtain ⟨p2, h1, h2, h3, _⟩ := process_spec ans hans { s with pending := [] } rest
    simp only [List.foldl_cons, List.foldl_nil]
    rw [h1, h2]
    rcases h3 with ⟨h3, h4⟩ | ⟨r, h3, h4, h5⟩
    · rw [h3]
      have : (part ++ p2).Perm c.calls := (List.Perm.append_left part h4).trans hperm
      refine .clean (cs := cs ++ [c]) (by rw [hc]; simp) ?_
      show Issues (cs ++ [c]) (s.accepted ++ p2)
      rw [ha, List.append_assoc]
      exact .snoc hi this
    · rw [h3]
      refine .within (part := part ++ p2) hc hi ?_ ?_ h5
      · show s.accepted ++ p2 = _
        rw [ha, List.append_assoc]
      · rw [List.append_assoc]; exact (List.Perm.append_left part h4).trans hperm

theorem IssuesUpTo.more {cmds acc pend box} (h : IssuesUpTo cmds acc pend box) (c : ConnCmd) : IssuesUpTo (cmds ++ [c]) acc pend (box ++ [c]) := by
  cases h with
  | clean hc hi => exact .clean (by rw [hc]; simp) hi
  | within hc hi ha hp hne => exact .within (by rw [hc]; simp) hi ha hp hne

theorem handed_append (l m : List ConnStep) : handed (l ++ m) = handed l ++ handed m := by
  induction l with
  | nil => rfl
  | cons x l ih => cases x <;> simp [handed, ih]

theorem run_snoc (ans : Nat → Answer) (l : List ConnStep) (x : ConnStep) : run ans (l ++ [x]) = (run ans l).step ans x := by
  simp [run, List.foldl_append]

theorem list_snoc_induction {α : Type} {P : List α → Prop} (h0 : P []) (h1 : ∀ l x, P l → P (l ++ [x])) (l : List α) : P l := by
  have : ∀ m : List α, P m.reverse := by
    intro m
    induction m with
    | nil => exact h0
    | cons x m ih => rw [List.reverse_cons]; exact h1 _ _ ih
  simpa using this l.reverse

/-- **C60** (partial): as long as the transport does not answer that it is closed, for every schedule of commands, polls and answers: the accepted
calls issue the commands in the order they were handed over, each call exactly once, up to some point, possibly in the middle of one command;
what is missing of that command is the only pending one, and the later commands are waiting in the channel.  Missing (`C60_refuted`):
the dials of one command may be issued in another order. -/
theorem C60_in_order_exactly_once_partial (ans : Nat → Answer) (hans : ∀ n, ans n ≠ .closed) (l : List ConnStep) :
    IssuesUpTo (handed l) (run ans l).accepted (run ans l).pending (run ans l).inbox := by
  induction l using list_snoc_induction with
  | h0 => exact .clean (cs := []) rfl .nil
  | h1 l x ih =>
    rw [run_snoc, handed_append]
    cases x with
    | command c => exact IssuesUpTo.more ih c
    | poll =>
      rw [show handed [.poll] = [] from rfl, List.append_nil]
      exact poll_inv ans hans _ _ ih

theorem Issues.perm {cs acc} (h : Issues cs acc) : acc.Perm (cs.flatMap ConnCmd.calls) := by
  induction h with
  | nil => exact .nil
  | snoc _ hp ih => rw [List.flatMap_append]; simpa using List.Perm.append ih hp

/-- **C60** (partial): nothing is lost, nothing is issued twice: the accepted calls, those pending and those of the commands in the channel are together
exactly the calls of the commands handed over. -/
theorem C60_nothing_lost_partial (ans : Nat → Answer) (hans : ∀ n, ans n ≠ .closed) (l : List ConnStep) :
    ((run ans l).accepted ++ ((run ans l).pending ++ (run ans l).inbox).flatMap ConnCmd.calls).Perm ((handed l).flatMap ConnCmd.calls) := by
  have := C60_in_order_exactly_once_partial ans hans l
  generalize (run ans l).pending = pend at this
  generalize (run ans l).inbox = box at this
  cases this with
  | clean hc hi => rw [hc, List.nil_append, List.flatMap_append]; exact List.Perm.append_right _ (Issues.perm hi)
  | within hc hi ha hp hne =>
    rw [hc, ha]
    simp only [List.flatMap_append, List.flatMap_cons, List.flatMap_nil, List.append_nil, List.append_assoc]
    refine List.Perm.append (Issues.perm hi) ?_
    rw [← List.append_assoc]
    exact List.Perm.append_right _ hp

/-- The calls still to be issued. -/
def left (s : ConnSvc) : List Call := (s.pending ++ s.inbox).flatMap ConnCmd.calls

theorem receive_progress (ans : Nat → Answer) (hans : ∀ n, ans n ≠ .closed) (box : List ConnCmd) (s : ConnSvc) :
    ∃ part, (s.receive ans box).accepted = s.accepted ++ part ∧
      (s.pending = [] → box.flatMap ConnCmd.calls ≠ [] → ans s.calls = .ok → part ≠ []) ∧
      ((∀ n, ans n = .ok) → s.pending = [] → (s.receive ans box).pending = [] ∧ (s.receive ans box).inbox = []) := by
  induction box generalizing s with
  | nil => exact ⟨[], by simp [receive], fun _ h => absurd rfl h, fun _ h => ⟨h, rfl⟩⟩
  | cons c cs ih =>
    unfold receive
    split
    · rename_i he
      obtain ⟨part, h1, h2, h3, h4, h5, h6⟩ := process_spec ans hans s c
      obtain ⟨part', g1, g2, g3⟩ := ih (s.process ans c)
      refine ⟨part ++ part', by rw [g1, h2, List.append_assoc], fun hp hne hok => ?_, fun hall hp => ?_⟩
      · by_cases hc : c.calls = []
        · obtain ⟨h6, h7⟩ := h6 hc
          have : part' ≠ [] := g2 (by rw [h7, hp]) (by simpa [hc] using hne) (by rw [h6]; exact hok)
          simp [this]
        · simp [h4 hc hok]
      · exact g3 hall (by rw [(h5 hall).1, hp])
    · rename_i he
      refine ⟨[], by simp, fun hp => ?_, fun _ hp => ?_⟩ <;> simp [hp] at he

/-- **C60** (partial), progress: a poll whose first call is accepted issues at least one of the calls still to be issued. -/
theorem C60_progress_partial (ans : Nat → Answer) (hans : ∀ n, ans n ≠ .closed) (l : List ConnStep) (hleft : (run ans l).left ≠ [])
    (hok : ans (run ans l).calls = .ok) : ((run ans (l ++ [.poll])).left).length < ((run ans l).left).length := by
  have inv := C60_in_order_exactly_once_partial ans hans l
  have p1 := (C60_nothing_lost_partial ans hans l).length_eq
  have p2 := (C60_nothing_lost_partial ans hans (l ++ [.poll])).length_eq
  rw [handed_append, show handed [.poll] = [] from rfl, List.append_nil, ← p1, List.length_append, List.length_append] at p2
  suffices h : (run ans l).accepted.length < (run ans (l ++ [.poll])).accepted.length by
    unfold left; omega
  rw [run_snoc]
  show _ < ((run ans l).poll ans).accepted.length
  generalize run ans l = s at *
  unfold poll
  simp only
  generalize hp : s.pending = pend at *
  cases inv with
  | clean hc hi =>
    obtain ⟨part, h1, h2, _⟩ := receive_progress ans hans s.inbox { s with pending := [] }
    simp only [List.foldl_nil]
    rw [h1]
    have : part ≠ [] := h2 rfl (by simpa [left, hp] using hleft) hok
    have := List.length_pos_iff.2 this
    simp only [List.length_append]; omega
  | within hc hi ha hperm hne =>
    rename_i rest acc0 part0
    simp only [List.foldl_cons, List.foldl_nil]
    obtain ⟨part, g1, g2, g3, g4, _⟩ := process_spec ans hans { s with pending := [] } rest
    obtain ⟨part', h1, _⟩ := receive_progress ans hans ({ s with pending := [] }.process ans rest).inbox ({ s with pending := [] }.process ans rest)
    rw [h1, g2]
    have := List.length_pos_iff.2 (g4 hne hok)
    simp only [List.length_append]; omega

theorem replicate_snoc {α : Type} (n : Nat) (x : α) : List.replicate (n + 1) x = List.replicate n x ++ [x] := by
  rw [List.replicate_succ']

/-- **C60** (partial): every command is issued in the end: if each poll finds the transport ready at its first call, then after as many polls as there are
calls still to be issued, all calls of all commands handed over have been accepted, each exactly once. -/
theorem C60_eventually_issued_partial (ans : Nat → Answer) (hans : ∀ n, ans n ≠ .closed) (l : List ConnStep)
    (hok : ∀ k, ans (run ans (l ++ List.replicate k .poll)).calls = .ok) (n : Nat) (hn : (run ans l).left.length ≤ n) :
    (run ans (l ++ List.replicate n .poll)).accepted.Perm ((handed l).flatMap ConnCmd.calls) := by
  have hle : ∀ k, (run ans (l ++ List.replicate k .poll)).left.length ≤ (run ans l).left.length - k := by
    intro k
    induction k with
    | zero => simp
    | succ k ih =>
      rw [replicate_snoc, ← List.append_assoc]
      by_cases h : (run ans (l ++ List.replicate k .poll)).left = []
      · have p1 := (C60_nothing_lost_partial ans hans (l ++ List.replicate k .poll)).length_eq
        have p2 := (C60_nothing_lost_partial ans hans (l ++ List.replicate k .poll ++ [.poll])).length_eq
        rw [handed_append _ [.poll], show handed [.poll] = [] from rfl, List.append_nil, ← p1, List.length_append, List.length_append] at p2
        have mono : (run ans (l ++ List.replicate k .poll)).accepted.length ≤ (run ans (l ++ List.replicate k .poll ++ [.poll])).accepted.length := by
          unfold left at h
          rw [h] at p1
          have q := (C60_nothing_lost_partial ans hans (l ++ List.replicate k .poll)).length_eq
          rw [run_snoc]
          show _ ≤ (poll ans _).accepted.length
          generalize run ans (l ++ List.replicate k .poll) = s at *
          unfold poll
          simp only
          have hf : ∀ (cs : List ConnCmd) (s : ConnSvc), s.accepted.length ≤ (cs.foldl (fun (s : ConnSvc) c => s.process ans c) s).accepted.length := by
            intro cs
            induction cs with
            | nil => exact fun _ => Nat.le_refl _
            | cons c cs ih =>
              intro s
              obtain ⟨part, _, h2, _⟩ := process_spec ans hans s c
              refine Nat.le_trans ?_ (ih _)
              rw [h2, List.length_append]; omega
          obtain ⟨part, h1, _⟩ := receive_progress ans hans (s.pending.foldl (fun (s : ConnSvc) c => s.process ans c) { s with pending := [] }).inbox
            (s.pending.foldl (fun (s : ConnSvc) c => s.process ans c) { s with pending := [] })
          rw [h1, List.length_append]
          have := hf s.pending { s with pending := [] }
          simp only at this
          omega
        have h' : ((run ans (l ++ List.replicate k .poll)).pending ++ (run ans (l ++ List.replicate k .poll)).inbox).flatMap ConnCmd.calls = [] := h
        rw [h', List.length_nil] at p2
        unfold left; omega
      · have := C60_progress_partial ans hans (l ++ List.replicate k .poll) h (hok k)
        omega
  have h0 : (run ans (l ++ List.replicate n .poll)).left = [] := by
    have := hle n
    exact List.eq_nil_of_length_eq_zero (by omega)
  have := C60_nothing_lost_partial ans hans (l ++ List.replicate n .poll)
  have hh : handed (l ++ List.replicate n .poll) = handed l := by
    rw [handed_append]
    have : ∀ n, handed (List.replicate n .poll) = [] := by
      intro n
      induction n with
      | zero => rfl
      | succ n ih => rw [List.replicate_succ]; exact ih
    rw [this, List.append_nil]
  unfold left at h0
  rw [h0, List.append_nil, hh] at this
  exact this

/-- Commands of one call each keep their order exactly. -/
theorem C60_exact_order_of_single_calls (ans : Nat → Answer) (hans : ∀ n, ans n ≠ .closed) (l : List ConnStep)
    (h1 : ∀ c ∈ handed l, c.calls.length ≤ 1) : ∃ rest, (run ans l).accepted ++ rest = (handed l).flatMap ConnCmd.calls := by
  have perm1 : ∀ (a b : List Call), b.length ≤ 1 → a.Perm b → a = b := by
    intro a b hb hp
    match b, hb with
    | [], _ => exact hp.eq_nil
    | [x], _ => exact List.perm_singleton.1 hp
  have issues : ∀ {cs acc}, Issues cs acc → (∀ c ∈ cs, c.calls.length ≤ 1) → acc = cs.flatMap ConnCmd.calls := by
    intro cs acc h
    induction h with
    | nil => intro _; rfl
    | snoc _ hp ih =>
      intro hc
      rw [ih (fun c h => hc c (List.mem_append_left _ h)), perm1 _ _ (hc _ (List.mem_append_right _ (.head _))) hp, List.flatMap_append]
      simp
  have := C60_in_order_exactly_once_partial ans hans l
  generalize (run ans l).pending = pend at this
  generalize (run ans l).inbox = box at this
  cases this with
  | clean hc hi =>
    rw [hc] at h1
    exact ⟨_, by rw [issues hi (fun c h => h1 c (List.mem_append_left _ h)), hc, List.flatMap_append]⟩
  | @within cs _ c rest acc0 part hc hi ha hp hne =>
    rw [hc] at h1
    have e := perm1 _ _ (h1 c (by simp)) hp
    have i := issues hi (fun c h => h1 c (List.mem_append_left _ h))
    refine ⟨rest.calls ++ box.flatMap ConnCmd.calls, ?_⟩
    rw [ha, i, hc, List.flatMap_append, List.flatMap_cons, ← e]
    simp

/-- **C60 refuted** as far as the order of dials within one command goes: busy at the first address, ready at the second. -/
theorem C60_refuted : ∃ (ans : Nat → Answer) (l : List ConnStep), (∀ n, ans n ≠ .closed) ∧ handed l = [.connect [[.other 1], [.other 2]]] ∧
    (run ans l).accepted = [.dial [.other 2], .dial [.other 1]] :=
  ⟨fun n => if n = 0 then .busy else .ok, [.command (.connect [[.other 1], [.other 2]]), .poll, .poll],
    fun n => by dsimp only; split <;> simp, rfl, by decide +kernel⟩

/-- A closed transport drops a command. -/
theorem closed_drops (ans : Nat → Answer) (s : ConnSvc) (sid : Sid) (h : ans s.calls = .closed) :
    (s.process ans (.disconnect sid)).accepted = s.accepted ∧ (s.process ans (.disconnect sid)).pending = s.pending := by
  simp [process, single, h]

/-- C60 on a real case: three commands, a transport busy now and then: all issued in order after enough polls. -/
example : (run (fun n => if n % 2 = 0 then .busy else .ok)
    [.command (.disconnect 5), .command (.send [1, 2] 9), .poll, .command (.connect [[.other 1]]), .poll, .poll, .poll]).accepted
    = [.disconnect 5, .send [1, 2] 9, .dial [.other 1]] := by decide +kernel

end ConnSvc

/-- **C55**: sending to users succeeds exactly if every addressee has a session to be sent on, and otherwise fails naming exactly those that have none. -/
theorem PM.C55_users_send {cfg : PMCfg} (g : PM.GoodCfg cfg) {ok : PM → Clock → PMEvent → Prop} {s : PM} (h : PM.Reach cfg ok s) (us : List UserId) (msg : Nat) :
    (usersSend s us msg = .ok () ↔ ∀ u ∈ us, ∃ sid, PM.UserSession cfg s u sid) ∧
    (∀ miss, usersSend s us msg = .error miss → ∀ u, u ∈ miss ↔ u ∈ us ∧ ¬ ∃ sid, PM.UserSession cfg s u sid) := by
  obtain ⟨f, dial, missed, hf, hr, hp⟩ := PM.C55_each_addressee_sent_or_missed g h us msg
  have hmem : ∀ u, u ∈ missed ↔ u ∈ us ∧ ¬ ∃ sid, PM.UserSession cfg s u sid := by
    intro u
    rw [hp.mem_iff, List.mem_filter]
    refine and_congr_right fun _ => ?_
    rw [Option.isNone_iff_eq_none]
    constructor
    · rintro e ⟨sid, hs⟩; rw [(hf u sid).2 hs] at e; cases e
    · intro hn
      cases e : f u with
      | none => rfl
      | some sid => exact absurd ⟨sid, (hf u sid).1 e⟩ hn
  unfold usersSend
  rw [hr]
  simp only
  cases missed with
  | nil =>
    refine ⟨⟨fun _ u hu => ?_, fun _ => rfl⟩, fun miss h => by cases h⟩
    exact Classical.byContradiction fun hn => by cases (hmem u).2 ⟨hu, hn⟩
  | cons m ms =>
    refine ⟨⟨fun h => (by cases h), fun h => ?_⟩, fun miss h => ?_⟩
    · obtain ⟨h1, h2⟩ := (hmem m).1 (.head _)
      exact absurd (h m h1) h2
    · cases h; exact hmem

/-- **C68 refuted**: one refused dial (any error but a time-out, an interruption, a repeated connection or a connection to itself) makes the node forget that
address of a peer, unless it is a bootstrap address: the peer that was only restarting is left without it. -/
theorem PM.C68_refuted_refused_once_forgotten {cfg : PMCfg} {s : PM} {a : Maddr} {pid : Pid} {p : Peer} (now : Clock) (ha : s.addrPid a = some pid)
    (hp : s.pool pid = some p) (hb : a ∉ s.bootAddrs) :
    let t := (s.step cfg now (DialError.other.event true a)).1
    t.addrPid a = none ∧ t.pool pid = some { p with addrs := setRemove p.addrs a } := by
  show (s.unconnectable a).addrPid a = none ∧ (s.unconnectable a).pool pid = _
  unfold PM.unconnectable
  simp only
  rw [if_neg hb]
  unfold PM.tryRemoveAddr
  rw [show ({ s with unknown := upd s.unknown a none } : PM).addrPid a = some pid from ha]
  simp [PM.removePeerAddr, PM.modify, hp]

end Huobi
