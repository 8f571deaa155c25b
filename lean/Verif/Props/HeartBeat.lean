import Verif.Model.HeartBeat
/-
C122: the services of the network run again and again.
-/
namespace Huobi.Beat

/-- What holds after a run: `p` is the time of the latest poll. -/
structure Inv (interval lag : Nat) (s : State) (p : Nat) : Prop where
  past : p ≤ s.now
  dl : s.deadline ≤ s.now + interval
  reg : s.registered = true → s.woken = none ∧ s.deadline ≤ p + interval
  unreg : s.registered = false → ∃ t, s.woken = some t ∧ s.now ≤ t + lag ∧ t ≤ p + interval + 2 * lag
  due : s.fired = none → s.now ≤ s.deadline + lag
  fired : ∀ t, s.fired = some t → t ≤ s.now ∧ s.now ≤ t + lag ∧ (s.registered = true → t ≤ p + interval + lag)

theorem Inv.start {interval lag created now : Nat} (h : created ≤ now) : Inv interval lag (start interval created now) now where
  past := Nat.le_refl _
  dl := by simp only [Beat.start]; omega
  reg := fun _ => ⟨rfl, by simp only [Beat.start]; omega⟩
  unreg := fun h => by cases h
  due := fun hf => by
    simp only [Beat.start] at hf ⊢
    split at hf
    · cases hf
    · omega
  fired := fun t hf => by
    simp only [Beat.start] at hf ⊢
    split at hf
    · cases hf; omega
    · cases hf

theorem Inv.step {interval lag : Nat} {s s' : State} {a : Act} {p : Nat} (i : Inv interval lag s p) (h : Step interval lag s a s') :
    Inv interval lag s' (if a = .poll then s'.now else p) := by
  cases h with
  | tick h =>
    rw [if_neg (by decide)]
    obtain ⟨h1, h2⟩ := h
    refine ⟨?_, ?_, ?_, ?_, ?_, ?_⟩
    · have := i.past; simp only; omega
    · have := i.dl; simp only; omega
    · exact i.reg
    · intro hr
      obtain ⟨t, ht, -, h3⟩ := i.unreg hr
      rw [ht] at h2
      exact ⟨t, ht, h2, h3⟩
    · intro hf
      simp only at hf
      rw [hf] at h1
      exact h1
    · intro t hf
      simp only at hf
      rw [hf] at h1
      have h3 := i.fired t hf
      exact ⟨by simp only; omega, h1, h3.2.2⟩
  | fire h hd =>
    rw [if_neg (by decide)]
    refine ⟨i.past, i.dl, i.reg, i.unreg, (fun hf => by cases hf), ?_⟩
    intro t hf
    cases hf
    simp only
    refine ⟨Nat.le_refl _, by omega, fun hr => ?_⟩
    have := (i.reg hr).2
    have := i.due h
    omega
  | beat h =>
    rw [if_neg (by decide)]
    obtain ⟨t, ht⟩ := Option.ne_none_iff_exists'.1 h
    obtain ⟨h0, h1, h2⟩ := i.fired t ht
    refine ⟨i.past, ?_, (fun hr => by cases hr), fun _ => ?_, fun _ => ?_, fun t hf => by cases hf⟩
    · simp only [State.beat]; omega
    · cases hr : s.registered with
      | true => exact ⟨s.now, by simp [State.beat, hr], by simp only [State.beat]; omega, by have := h2 hr; omega⟩
      | false =>
        obtain ⟨t', h3, h4, h5⟩ := i.unreg hr
        exact ⟨t', by simp [State.beat, hr, h3], h4, h5⟩
    · simp only [State.beat]; omega
  | poll =>
    rw [if_pos rfl]
    refine ⟨Nat.le_refl _, i.dl, fun _ => ⟨rfl, i.dl⟩, (fun hr => by cases hr), i.due, fun t hf => ?_⟩
    obtain ⟨h1, h2, -⟩ := i.fired t hf
    exact ⟨h1, h2, fun _ => by simp only [State.poll]; omega⟩

/-- **C122: the services never sleep long.**  In every run, at every moment, the service was polled within the interval of its heart beat and three times
the lag of the runtime, whatever else wakes it or does not. -/
theorem C122_awake {interval lag : Nat} {s : State} {tr : List (Nat × Act)} (h : Run interval lag s tr) :
    ∃ p, (p, Act.poll) ∈ tr ∧ p ≤ s.now ∧ s.now ≤ p + interval + 3 * lag := by
  have : ∃ p, (p, Act.poll) ∈ tr ∧ Inv interval lag s p := by
    induction h with
    | start h => exact ⟨_, List.mem_cons_self, Inv.start h⟩
    | @step s tr a s' _ hs ih =>
      obtain ⟨p, hp, i⟩ := ih
      have i' := i.step hs
      by_cases ha : a = .poll
      · subst ha
        rw [if_pos rfl] at i'
        exact ⟨_, List.mem_cons_self, i'⟩
      · rw [if_neg ha] at i'
        exact ⟨p, List.mem_cons_of_mem _ hp, i'⟩
  obtain ⟨p, hp, i⟩ := this
  refine ⟨p, hp, i.past, ?_⟩
  cases hr : s.registered with
  | false =>
    obtain ⟨t, -, h1, h2⟩ := i.unreg hr
    omega
  | true =>
    have hd := (i.reg hr).2
    cases hf : s.fired with
    | none => have := i.due hf; omega
    | some t => obtain ⟨-, h1, h2⟩ := i.fired t hf; have := h2 hr; omega

/-- **C122: and this goes on for ever**: time passes in every run (unless the interval is zero), so that there are polls later than any given time. -/
theorem C122_time {interval lag : Nat} (hi : 0 < interval) {s : State} {tr : List (Nat × Act)} (h : Run interval lag s tr) :
    ∃ s' tr', Run interval lag s' (tr' ++ tr) ∧ s'.now = s.now + 1 := by
  -- whatever is due happens
  have key : ∀ {s : State} {tr : List (Nat × Act)}, Run interval lag s tr → s.fired = none → s.now < s.deadline →
      ∃ s' tr', Run interval lag s' (tr' ++ tr) ∧ s'.now = s.now + 1 := by
    intro s tr h hf hd
    have h1 := h.step (.poll (s := s))
    refine ⟨_, [_, _], h1.step (.tick (s := s.poll) ⟨?_, ?_⟩), rfl⟩
    · simp only [State.poll, hf]; omega
    · simp only [State.poll]
  have fire : ∀ {s : State} {tr : List (Nat × Act)}, Run interval lag s tr → s.fired ≠ none →
      ∃ s' tr', Run interval lag s' (tr' ++ tr) ∧ s'.now = s.now + 1 := by
    intro s tr h hf
    have h1 := h.step (.beat hf)
    obtain ⟨s', tr', h2, h3⟩ := key h1 rfl (by simp only [State.beat]; omega)
    exact ⟨s', tr' ++ [_], by simpa using h2, h3⟩
  by_cases hf : s.fired = none
  · by_cases hd : s.deadline ≤ s.now
    · have h1 := h.step (.fire hf hd)
      obtain ⟨s', tr', h2, h3⟩ := fire h1 (by simp)
      exact ⟨s', tr' ++ [_], by simpa using h2, h3⟩
    · exact key h hf (by omega)
  · exact fire h hf

/-- From any run, any later time is reached, and the service is polled after any given time. -/
theorem C122_for_ever {interval lag : Nat} (hi : 0 < interval) {s : State} {tr : List (Nat × Act)} (h : Run interval lag s tr) (T : Nat) :
    ∃ s' tr' p, Run interval lag s' (tr' ++ tr) ∧ (p, Act.poll) ∈ tr' ++ tr ∧ T ≤ p := by
  have : ∀ n, ∃ s' tr', Run interval lag s' (tr' ++ tr) ∧ s'.now = s.now + n := by
    intro n
    induction n with
    | zero => exact ⟨s, [], h, rfl⟩
    | succ n ih =>
      obtain ⟨s1, tr1, h1, e1⟩ := ih
      obtain ⟨s2, tr2, h2, e2⟩ := C122_time hi h1
      exact ⟨s2, tr2 ++ tr1, by simpa using h2, by omega⟩
  obtain ⟨s', tr', h', e⟩ := this (T + interval + 3 * lag)
  obtain ⟨p, hp, -, hb⟩ := C122_awake h'
  exact ⟨s', tr', p, h', hp, by omega⟩

/-- **C122: not without need**: two heart beats in a row are never closer than the interval. -/
theorem C122_spaced {interval lag : Nat} {s : State} {tr : List (Nat × Act)} (h : Run interval lag s tr) :
    ∀ {a b : List (Nat × Act)} {t t' : Nat}, tr = a ++ (t, .beat) :: b → (t', .beat) ∈ b → t' + interval ≤ t := by
  have key : (∀ t, (t, Act.beat) ∈ tr → t + interval ≤ s.deadline ∧ (s.fired ≠ none → t + interval ≤ s.now)) ∧
      ∀ {a b : List (Nat × Act)} {t t' : Nat}, tr = a ++ (t, .beat) :: b → (t', .beat) ∈ b → t' + interval ≤ t := by
    induction h with
    | start h =>
      refine ⟨fun t ht => by simp at ht, fun {a b t t'} e => ?_⟩
      cases a with
      | nil => simp at e
      | cons x a => simp at e
    | @step s tr a s' _ hs ih =>
      obtain ⟨i1, i2⟩ := ih
      have old : ∀ {c b : List (Nat × Act)} {t t' : Nat}, (s'.now, a) :: tr = c ++ (t, .beat) :: b → (t', .beat) ∈ b →
          (a = .beat → ∀ t', (t', Act.beat) ∈ tr → t' + interval ≤ s'.now) → t' + interval ≤ t := by
        intro c b t t' e hb hn
        cases c with
        | nil =>
          simp only [List.nil_append, List.cons.injEq, Prod.mk.injEq] at e
          obtain ⟨⟨rfl, ha⟩, rfl⟩ := e
          exact hn ha _ hb
        | cons x c =>
          simp only [List.cons_append, List.cons.injEq] at e
          exact i2 e.2 hb
      cases hs with
      | tick h =>
        refine ⟨fun t ht => ?_, fun e hb => old e hb (fun ha => by cases ha)⟩
        have ht : (t, Act.beat) ∈ tr := by simpa using ht
        have := i1 t ht
        exact ⟨this.1, fun hf => by have := this.2 hf; simp only; omega⟩
      | fire h hd =>
        refine ⟨fun t ht => ?_, fun e hb => old e hb (fun ha => by cases ha)⟩
        have ht : (t, Act.beat) ∈ tr := by simpa using ht
        have := (i1 t ht).1
        exact ⟨this, fun _ => by simp only; omega⟩
      | poll =>
        refine ⟨fun t ht => ?_, fun e hb => old e hb (fun ha => by cases ha)⟩
        have ht : (t, Act.beat) ∈ tr := by simpa using ht
        exact i1 t ht
      | beat h =>
        refine ⟨fun t ht => ?_, fun e hb => old e hb (fun _ t' ht' => (i1 t' ht').2 h)⟩
        rcases List.mem_cons.1 ht with e | ht
        · cases e
          exact ⟨by simp only [State.beat]; omega, fun hf => absurd rfl hf⟩
        · have := (i1 t ht).2 h
          exact ⟨by simp only [State.beat]; omega, fun hf => absurd rfl hf⟩
  exact fun {_ _ _ _} e hb => key.2 e hb

/-- The hypotheses are met: a run with an interval of 5 and a lag of 1 in which nothing else wakes the service, with a heart beat and a poll after it. -/
example : ∃ s, Run 5 1 s [(5, .poll), (5, .beat), (5, .fire), (5, .tick), (4, .tick), (3, .tick), (2, .tick), (1, .tick), (0, .poll)] := by
  have h0 : Run 5 1 (start 5 0 0) [(0, .poll)] := .start (Nat.le_refl _)
  have h1 := h0.step (.tick (by constructor <;> simp [start]))
  have h2 := h1.step (.tick (by constructor <;> simp [start]))
  have h3 := h2.step (.tick (by constructor <;> simp [start]))
  have h4 := h3.step (.tick (by constructor <;> simp [start]))
  have h5 := h4.step (.tick (by constructor <;> simp [start]))
  have h6 := h5.step (.fire rfl (by decide))
  have h7 := h6.step (.beat (by simp))
  exact ⟨_, h7.step .poll⟩

end Huobi.Beat
