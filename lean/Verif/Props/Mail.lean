import Verif.Model.Mail
import Verif.Props.Frame
/-
C107: every message that arrives is handled exactly once, whatever order the tasks of the network run in.
-/
namespace Huobi

/-! ### Specification -/

/-- The messages that arrive in a schedule. -/
def mailed {R ω : Type} (evs : List (MailEvent R ω)) : List (Nat × Bytes) :=
  evs.filterMap fun e => match e with
    | .arrive sid raw => some (sid, raw)
    | _ => none

/-- Nothing is under way. -/
def Mail.Quiet {R σ : Type} (s : Mail R σ) : Prop := s.raws = [] ∧ s.routing = [] ∧ s.queues = [] ∧ s.reacting = []

/-- The message is for this reactor: its bytes decompress to a frame whose url names an endpoint with this reactor. -/
def MailCfg.For {R σ ω : Type} (cfg : MailCfg R σ ω) (x : Nat × Bytes) (r : R) (m : NetMsg) : Prop :=
  ∃ b, cfg.z.decompress x.2 = some b ∧ (pbDecode b : PDec NetMsg) = .ok m ∧ cfg.reactors.route m.url = .ok r

/-- `s` becomes `t` when the messages are handled one after the other, each by the reactor it is for and with what the world answers then. -/
inductive Handles {R σ ω : Type} (cfg : MailCfg R σ ω) : σ → List (Nat × Bytes) → σ → Prop
  | nil (s) : Handles cfg s [] s
  | snoc {s t xs x r m} (io : ω) : Handles cfg s xs t → cfg.For x r m → Handles cfg s (xs ++ [x]) (cfg.handle r x.1 m io t)

/-! ### Proofs -/

section
set_option linter.unusedSectionVars false
variable {R σ ω : Type} [DecidableEq R] {cfg : MailCfg R σ ω}

theorem routed_some {x : Nat × Bytes} {y : R × Nat × NetMsg} : cfg.routed x = some y ↔ y.2.1 = x.1 ∧ cfg.For x y.1 y.2.2 := by
  obtain ⟨r, sid, m⟩ := y
  unfold MailCfg.routed MailCfg.For unframe
  constructor
  · intro h
    cases hd : cfg.z.decompress x.2 with
    | none => rw [hd] at h; simp at h
    | some b =>
      rw [hd] at h
      simp only at h
      cases hp : (pbDecode b : PDec NetMsg) with
      | error e => rw [hp] at h; simp at h
      | ok m' =>
        rw [hp] at h
        simp only at h
        cases hr : cfg.reactors.route m'.url with
        | error e => rw [hr] at h; simp at h
        | ok r' =>
          rw [hr] at h
          simp only [Option.some.injEq, Prod.mk.injEq] at h
          obtain ⟨rfl, rfl, rfl⟩ := h
          exact ⟨rfl, b, rfl, hp, hr⟩
  · rintro ⟨h, b, hd, hp, hr⟩
    simp only at h hp hr
    rw [hd]
    simp only
    rw [hp]
    simp only
    rw [hr, h]

/-- A list with one element taken out. -/
theorem eraseIdx_perm {α : Type} : ∀ {l : List α} {i : Nat} {x : α}, l[i]? = some x → (x :: l.eraseIdx i).Perm l
  | [], i, x, h => by simp at h
  | a :: l, 0, x, h => by simp at h; subst h; exact List.Perm.refl _
  | a :: l, i + 1, x, h => by
    have h' : l[i]? = some x := by simpa using h
    have := eraseIdx_perm h'
    exact (List.Perm.swap a x _).trans (this.cons a)

theorem takeFor_perm {r : R} : ∀ {l ys : List (R × Nat × NetMsg)} {y}, takeFor r l = some (y, ys) → y.1 = r ∧ (y :: ys).Perm l
  | [], ys, y, h => by simp [takeFor] at h
  | x :: xs, ys, y, h => by
    unfold takeFor at h
    split at h
    · rename_i he
      simp only [Option.some.injEq, Prod.mk.injEq] at h
      obtain ⟨rfl, rfl⟩ := h
      exact ⟨he, List.Perm.refl _⟩
    · split at h
      · cases h
      · rename_i z zs hz
        simp only [Option.some.injEq, Prod.mk.injEq] at h
        obtain ⟨rfl, rfl⟩ := h
        obtain ⟨h1, h2⟩ := takeFor_perm hz
        exact ⟨h1, (List.Perm.swap x z zs).trans (h2.cons x)⟩

/-- Messages and what routing made of them, up to order. -/
def Stands (cfg : MailCfg R σ ω) (xs : List (Nat × Bytes)) (ys : List (R × Nat × NetMsg)) : Prop :=
  ∃ zs : List ((Nat × Bytes) × (R × Nat × NetMsg)), (zs.map Prod.fst).Perm xs ∧ (zs.map Prod.snd).Perm ys ∧ ∀ z ∈ zs, cfg.routed z.1 = some z.2

theorem Stands.add {xs : List (Nat × Bytes)} {ys} (h : Stands cfg xs ys) {x y} (hr : cfg.routed x = some y) : Stands cfg (x :: xs) (y :: ys) := by
  obtain ⟨zs, h1, h2, h3⟩ := h
  refine ⟨(x, y) :: zs, h1.cons x, h2.cons y, fun z hz => ?_⟩
  rcases List.mem_cons.1 hz with rfl | hz
  · exact hr
  · exact h3 z hz

theorem Stands.perm {xs : List (Nat × Bytes)} {ys ys'} (h : Stands cfg xs ys) (hp : ys.Perm ys') : Stands cfg xs ys' := by
  obtain ⟨zs, h1, h2, h3⟩ := h
  exact ⟨zs, h1, h2.trans hp, h3⟩

theorem Stands.take {xs : List (Nat × Bytes)} {y ys} (h : Stands cfg xs (y :: ys)) :
    ∃ x xs', cfg.routed x = some y ∧ (x :: xs').Perm xs ∧ Stands cfg xs' ys := by
  obtain ⟨zs, h1, h2, h3⟩ := h
  have hm : y ∈ zs.map Prod.snd := h2.mem_iff.2 (List.mem_cons_self ..)
  obtain ⟨z, hz, rfl⟩ := List.mem_map.1 hm
  obtain ⟨a, b, rfl⟩ := List.append_of_mem hz
  refine ⟨z.1, (a ++ b).map Prod.fst, h3 z hz, ?_, a ++ b, List.Perm.refl _, ?_, fun w hw => h3 w ?_⟩
  · refine List.Perm.trans ?_ h1
    simp only [List.map_append, List.map_cons]
    exact List.perm_middle.symm
  · have : (z.2 :: (a ++ b).map Prod.snd).Perm (z.2 :: ys) := by
      refine List.Perm.trans ?_ h2
      simp only [List.map_append, List.map_cons]
      exact List.perm_middle.symm
    exact this.cons_inv
  · rcases List.mem_append.1 hw with hw | hw
    · exact List.mem_append_left _ hw
    · exact List.mem_append_right _ (List.mem_cons_of_mem _ hw)

theorem Stands.nil {xs : List (Nat × Bytes)} (h : Stands cfg xs []) : xs = [] := by
  obtain ⟨zs, h1, h2, -⟩ := h
  have : zs = [] := List.map_eq_nil_iff.1 h2.eq_nil
  subst this
  exact h1.nil_eq.symm

theorem Stands.length {xs : List (Nat × Bytes)} {ys} (h : Stands cfg xs ys) : xs.length = ys.length := by
  obtain ⟨zs, h1, h2, -⟩ := h
  rw [← h1.length_eq, ← h2.length_eq]; simp

theorem Stands.for {xs : List (Nat × Bytes)} {ys} (h : Stands cfg xs ys) : ∀ x ∈ xs, ∃ r m, cfg.For x r m := by
  obtain ⟨zs, h1, h2, h3⟩ := h
  intro x hx
  obtain ⟨z, hz, rfl⟩ := List.mem_map.1 (h1.mem_iff.2 hx)
  obtain ⟨-, hf⟩ := routed_some.1 (h3 z hz)
  exact ⟨_, _, hf⟩

/-- Where the messages that arrived are. -/
structure Accounted (cfg : MailCfg R σ ω) (s0 : σ) (s : Mail R σ) (all log dropped q w : List (Nat × Bytes)) : Prop where
  perm : (log ++ (dropped ++ (s.raws ++ (s.routing ++ (q ++ w))))).Perm all
  dropped_none : ∀ x ∈ dropped, cfg.routed x = none
  queue : Stands cfg q s.queues
  reacting : Stands cfg w s.reacting
  handled : Handles cfg s0 log s.node

theorem accounted_step {s0 : σ} {s : Mail R σ} {all log dropped q w : List (Nat × Bytes)} (h : Accounted cfg s0 s all log dropped q w) (e : MailEvent R ω) :
    ∃ log' dropped' q' w', Accounted cfg s0 (s.step cfg e) (all ++ mailed [e]) log' dropped' q' w' := by
  have same : Accounted cfg s0 s (all ++ []) log dropped q w := by rw [List.append_nil]; exact h
  cases e with
  | arrive sid raw =>
    refine ⟨log, dropped, q, w, ?_, h.dropped_none, h.queue, h.reacting, h.handled⟩
    show (log ++ (dropped ++ ((s.raws ++ [(sid, raw)]) ++ (s.routing ++ (q ++ w))))).Perm (all ++ [(sid, raw)])
    refine List.Perm.trans ?_ (h.perm.append_right _)
    simp only [List.append_assoc]
    refine List.Perm.append_left _ (List.Perm.append_left _ (List.Perm.append_left _ ?_))
    exact List.perm_append_comm.trans (by simp)
  | routerTake =>
    show ∃ log' dropped' q' w', Accounted cfg s0 (s.step cfg .routerTake) (all ++ []) log' dropped' q' w'
    simp only [Mail.step]
    split
    · exact ⟨_, _, _, _, same⟩
    · rename_i x xs hx
      refine ⟨log, dropped, q, w, ?_, h.dropped_none, h.queue, h.reacting, h.handled⟩
      rw [List.append_nil]
      refine List.Perm.trans ?_ h.perm
      rw [hx]
      refine List.Perm.append_left _ (List.Perm.append_left _ ?_)
      simp only [List.append_assoc, List.cons_append, List.nil_append]
      rw [← List.append_assoc]
      refine List.perm_middle.trans ?_
      simp only [List.append_assoc]
      exact List.Perm.refl _
  | route i =>
    show ∃ log' dropped' q' w', Accounted cfg s0 (s.step cfg (.route i)) (all ++ []) log' dropped' q' w'
    simp only [Mail.step]
    split
    · exact ⟨_, _, _, _, same⟩
    · rename_i x hx
      have hp := eraseIdx_perm hx
      split
      · rename_i hn
        refine ⟨log, x :: dropped, q, w, ?_, ?_, h.queue, h.reacting, h.handled⟩
        · rw [List.append_nil]
          refine List.Perm.trans ?_ h.perm
          refine List.Perm.append_left _ ?_
          show (x :: (dropped ++ (s.raws ++ (s.routing.eraseIdx i ++ (q ++ w))))).Perm _
          refine List.Perm.trans ?_ (List.Perm.append_left dropped (List.Perm.append_left s.raws (List.Perm.append_right (q ++ w) hp)))
          rw [List.cons_append]
          refine List.Perm.trans ?_ (List.Perm.append_left dropped List.perm_middle.symm)
          exact List.perm_middle.symm
        · intro z hz
          rcases List.mem_cons.1 hz with rfl | hz
          · exact hn
          · exact h.dropped_none z hz
      · rename_i y hy
        refine ⟨log, dropped, x :: q, w, ?_, h.dropped_none, (h.queue.add hy).perm ?_, h.reacting, h.handled⟩
        · rw [List.append_nil]
          refine List.Perm.trans ?_ h.perm
          refine List.Perm.append_left _ (List.Perm.append_left _ (List.Perm.append_left _ ?_))
          refine List.Perm.trans ?_ (List.Perm.append_right (q ++ w) hp)
          rw [List.cons_append, List.cons_append]
          exact List.perm_middle
        · exact (List.perm_append_singleton y s.queues).symm
  | reactorTake r =>
    show ∃ log' dropped' q' w', Accounted cfg s0 (s.step cfg (.reactorTake r)) (all ++ []) log' dropped' q' w'
    simp only [Mail.step]
    split
    · exact ⟨_, _, _, _, same⟩
    · rename_i y ys hy
      obtain ⟨-, hp⟩ := takeFor_perm hy
      obtain ⟨x, q', hx, hq, hs⟩ := (h.queue.perm hp.symm).take
      refine ⟨log, dropped, q', x :: w, ?_, h.dropped_none, hs, (h.reacting.add hx).perm (List.perm_append_singleton y s.reacting).symm, h.handled⟩
      rw [List.append_nil]
      refine List.Perm.trans ?_ h.perm
      refine List.Perm.append_left _ (List.Perm.append_left _ (List.Perm.append_left _ (List.Perm.append_left _ ?_)))
      refine List.Perm.trans ?_ (List.Perm.append_right w hq)
      rw [List.cons_append]
      exact List.perm_middle
  | react i io =>
    show ∃ log' dropped' q' w', Accounted cfg s0 (s.step cfg (.react i io)) (all ++ []) log' dropped' q' w'
    simp only [Mail.step]
    split
    · exact ⟨_, _, _, _, same⟩
    · rename_i y hy
      obtain ⟨x, w', hx, hw, hs⟩ := (h.reacting.perm (eraseIdx_perm hy).symm).take
      obtain ⟨hsid, hfor⟩ := routed_some.1 hx
      refine ⟨log ++ [x], dropped, q, w', ?_, h.dropped_none, h.queue, hs, ?_⟩
      · rw [List.append_nil]
        refine List.Perm.trans ?_ h.perm
        rw [List.append_assoc]
        refine List.Perm.append_left _ ?_
        have e : ([x] ++ (dropped ++ (s.raws ++ (s.routing ++ (q ++ w'))))).Perm (dropped ++ (s.raws ++ (s.routing ++ (q ++ (x :: w'))))) := by
          have := (List.perm_middle (a := x) (l₁ := dropped ++ (s.raws ++ (s.routing ++ q))) (l₂ := w')).symm
          simp only [List.append_assoc, List.singleton_append] at this ⊢
          exact this
        refine e.trans ?_
        exact List.Perm.append_left _ (List.Perm.append_left _ (List.Perm.append_left _ (List.Perm.append_left _ hw)))
      · have := Handles.snoc io h.handled hfor
        rw [← hsid] at this
        exact this

theorem mailed_append (a b : List (MailEvent R ω)) : mailed (a ++ b) = mailed a ++ mailed b := by
  unfold mailed; rw [List.filterMap_append]

theorem accounted_run {s0 : σ} : ∀ (evs : List (MailEvent R ω)) {s : Mail R σ} {all log dropped q w : List (Nat × Bytes)},
    Accounted cfg s0 s all log dropped q w → ∃ log' dropped' q' w', Accounted cfg s0 (s.run cfg evs) (all ++ mailed evs) log' dropped' q' w'
  | [], s, all, log, dropped, q, w, h => ⟨log, dropped, q, w, by
      show Accounted cfg s0 s (all ++ []) log dropped q w
      rw [List.append_nil]; exact h⟩
  | e :: evs, s, all, log, dropped, q, w, h => by
    obtain ⟨l1, d1, q1, w1, h1⟩ := accounted_step h e
    obtain ⟨l2, d2, q2, w2, h2⟩ := accounted_run evs h1
    refine ⟨l2, d2, q2, w2, ?_⟩
    have : all ++ mailed (e :: evs) = all ++ mailed [e] ++ mailed evs := by
      rw [List.append_assoc, ← mailed_append]; rfl
    rw [this]
    exact h2

theorem accounted_start (s0 : σ) : Accounted cfg s0 (Mail.new s0) [] [] [] [] [] :=
  ⟨List.Perm.refl _, fun _ h => (by simp at h), ⟨[], .refl _, .refl _, fun _ h => (by simp at h)⟩, ⟨[], .refl _, .refl _, fun _ h => (by simp at h)⟩, .nil _⟩

/-- **C107, once.**  In every schedule of the tasks of the network, with any messages arriving at any time: the messages that arrived are those that were
handled (each by the reactor of its endpoint, with its session, in some order), those that are not for any reactor, and those under way; so if
nothing is under way, each message that is for a reactor was handled exactly as often as it arrived, and nothing else was handled. -/
theorem C107_once (cfg : MailCfg R σ ω) (s0 : σ) (evs : List (MailEvent R ω)) :
    ∃ handled dropped waiting, (handled ++ (dropped ++ waiting)).Perm (mailed evs) ∧ Handles cfg s0 handled ((Mail.new s0).run cfg evs).node ∧
      (∀ x ∈ dropped, ¬ ∃ r m, cfg.For x r m) ∧ (((Mail.new s0).run cfg evs).Quiet → waiting = []) := by
  obtain ⟨log, dropped, q, w, h⟩ := accounted_run (cfg := cfg) evs (accounted_start s0)
  refine ⟨log, dropped, _, h.perm, h.handled, ?_, ?_⟩
  · rintro x hx ⟨r, m, hf⟩
    have := routed_some (cfg := cfg) (x := x) (y := (r, x.1, m)) |>.2 ⟨rfl, hf⟩
    rw [h.dropped_none x hx] at this
    cases this
  · rintro ⟨h1, h2, h3, h4⟩
    have hq := h.queue; rw [h3] at hq
    have hw := h.reacting; rw [h4] at hw
    rw [h1, h2, hq.nil, hw.nil]
    rfl

/-- A step of a task of the network, not of a peer. -/
def MailEvent.Internal : MailEvent R ω → Prop
  | .arrive _ _ => False
  | _ => True

/-- The steps that messages under way still need. -/
def Mail.work (s : Mail R σ) : Nat := 4 * s.raws.length + 3 * s.routing.length + 2 * s.queues.length + s.reacting.length

/-- The step does something. -/
def Mail.Effective (_ : MailCfg R σ ω) (s : Mail R σ) (e : MailEvent R ω) : Prop :=
  match e with
  | .arrive _ _ => True
  | .routerTake => s.raws ≠ []
  | .route i => i < s.routing.length
  | .reactorTake r => ∃ x ∈ s.queues, x.1 = r
  | .react i _ => i < s.reacting.length

theorem takeFor_some {r : R} : ∀ {l : List (R × Nat × NetMsg)}, (∃ x ∈ l, x.1 = r) → ∃ y ys, takeFor r l = some (y, ys)
  | [], ⟨x, h, _⟩ => by simp at h
  | a :: l, ⟨x, h, e⟩ => by
    unfold takeFor
    split
    · exact ⟨_, _, rfl⟩
    · rename_i hne
      rcases List.mem_cons.1 h with rfl | h
      · exact absurd e hne
      · obtain ⟨y, ys, hy⟩ := takeFor_some ⟨x, h, e⟩
        rw [hy]
        exact ⟨_, _, rfl⟩

theorem work_step {s : Mail R σ} {e : MailEvent R ω} (hi : e.Internal) (he : s.Effective cfg e) : (s.step cfg e).work < s.work := by
  cases e with
  | arrive => exact absurd hi (by simp [MailEvent.Internal])
  | routerTake =>
    have he : s.raws ≠ [] := he
    simp only [Mail.step]
    split
    · rename_i h; exact absurd h he
    · rename_i x xs h
      simp only [Mail.work, h, List.length_append, List.length_cons, List.length_nil]
      omega
  | route i =>
    have he : i < s.routing.length := he
    simp only [Mail.step]
    rw [List.getElem?_eq_getElem he]
    simp only
    split
    · simp only [Mail.work, List.length_eraseIdx, if_pos he]
      omega
    · simp only [Mail.work, List.length_eraseIdx, if_pos he, List.length_append, List.length_cons, List.length_nil]
      omega
  | reactorTake r =>
    obtain ⟨y, ys, hy⟩ := takeFor_some he
    have hl := (takeFor_perm hy).2.length_eq
    simp only [List.length_cons] at hl
    simp only [Mail.step]
    rw [hy]
    simp only [Mail.work, List.length_append, List.length_cons, List.length_nil]
    omega
  | react i io =>
    have he : i < s.reacting.length := he
    simp only [Mail.step]
    rw [List.getElem?_eq_getElem he]
    simp only [Mail.work, List.length_eraseIdx, if_pos he]
    omega

/-- Each step of the list does something. -/
def AllEffective (cfg : MailCfg R σ ω) : Mail R σ → List (MailEvent R ω) → Prop
  | _, [] => True
  | s, e :: es => s.Effective cfg e ∧ AllEffective cfg (s.step cfg e) es

theorem work_bound : ∀ (es : List (MailEvent R ω)) (s : Mail R σ), (∀ e ∈ es, e.Internal) → AllEffective cfg s es →
    es.length + (s.run cfg es).work ≤ s.work
  | [], s, _, _ => by simp [Mail.run]
  | e :: es, s, hi, ⟨h1, h2⟩ => by
    have a := work_step (cfg := cfg) (hi e (List.mem_cons_self ..)) h1
    have b := work_bound es (s.step cfg e) (fun x hx => hi x (List.mem_cons_of_mem _ hx)) h2
    have : s.run cfg (e :: es) = (s.step cfg e).run cfg es := rfl
    rw [this, List.length_cons]
    omega

theorem step_work_le (s : Mail R σ) (e : MailEvent R ω) : (s.step cfg e).work ≤ s.work + 4 * (mailed [e]).length := by
  by_cases hi : e.Internal
  · by_cases he : s.Effective cfg e
    · have := work_step (cfg := cfg) hi he; omega
    · have : s.step cfg e = s := by
        cases e with
        | arrive => exact absurd hi (by simp [MailEvent.Internal])
        | routerTake =>
          simp only [Mail.step]
          split
          · rfl
          · rename_i x xs h
            exact absurd (show s.raws ≠ [] by rw [h]; simp) he
        | route i =>
          have he : ¬ i < s.routing.length := he
          simp only [Mail.step]
          rw [List.getElem?_eq_none (by omega)]
        | reactorTake r =>
          simp only [Mail.step]
          split
          · rfl
          · rename_i y ys h
            obtain ⟨h1, h2⟩ := takeFor_perm h
            exact absurd ⟨y, h2.mem_iff.1 (List.mem_cons_self ..), h1⟩ he
        | react i io =>
          have he : ¬ i < s.reacting.length := he
          simp only [Mail.step]
          rw [List.getElem?_eq_none (by omega)]
      rw [this]; omega
  · cases e with
    | arrive sid raw =>
      show 4 * (s.raws ++ [(sid, raw)]).length + 3 * s.routing.length + 2 * s.queues.length + s.reacting.length ≤ s.work + 4 * 1
      simp only [Mail.work, List.length_append, List.length_cons, List.length_nil]
      omega
    | _ => exact absurd trivial hi

theorem run_work_le : ∀ (es : List (MailEvent R ω)) (s : Mail R σ), (s.run cfg es).work ≤ s.work + 4 * (mailed es).length
  | [], s => by simp [Mail.run]
  | e :: es, s => by
    have a := step_work_le (cfg := cfg) s e
    have b := run_work_le es (s.step cfg e)
    have c : mailed (e :: es) = mailed [e] ++ mailed es := by rw [← mailed_append]; rfl
    have d : s.run cfg (e :: es) = (s.step cfg e).run cfg es := rfl
    rw [c, d, List.length_append]
    omega

/-- **C107, no message waits for ever.**  After any schedule: as long as something is under way some task can do something; each step that does something
brings a message nearer to its handler, so that after at most four steps for each message that ever arrived nothing is under way; and whatever steps
are done when no task can do anything more, nothing is under way. -/
theorem C107_progress (cfg : MailCfg R σ ω) (s0 : σ) (io : ω) (evs : List (MailEvent R ω)) :
    (¬ ((Mail.new s0).run cfg evs).Quiet → ∃ e, e.Internal ∧ ((Mail.new s0).run cfg evs).Effective cfg e) ∧
    (∀ es : List (MailEvent R ω), (∀ e ∈ es, e.Internal) → AllEffective cfg ((Mail.new s0).run cfg evs) es → es.length ≤ 4 * (mailed evs).length) ∧
    (∀ es : List (MailEvent R ω), (∀ e, e.Internal → ¬ (((Mail.new s0).run cfg evs).run cfg es).Effective cfg e) → (((Mail.new s0).run cfg evs).run cfg es).Quiet) := by
  have key : ∀ s : Mail R σ, ¬ s.Quiet → ∃ e : MailEvent R ω, e.Internal ∧ s.Effective cfg e := by
    intro s h
    by_cases h1 : s.raws = []
    · by_cases h2 : s.routing = []
      · by_cases h3 : s.queues = []
        · by_cases h4 : s.reacting = []
          · exact absurd ⟨h1, h2, h3, h4⟩ h
          · exact ⟨.react 0 io, trivial, List.length_pos_iff.2 h4⟩
        · obtain ⟨x, xs, hx⟩ := List.exists_cons_of_ne_nil h3
          exact ⟨.reactorTake x.1, trivial, x, by rw [hx]; exact List.mem_cons_self .., rfl⟩
      · exact ⟨.route 0, trivial, List.length_pos_iff.2 h2⟩
    · exact ⟨.routerTake, trivial, h1⟩
  refine ⟨key _, fun es hi he => ?_, fun es hes => ?_⟩
  · have a := work_bound es _ hi he
    have b := run_work_le (cfg := cfg) evs (Mail.new s0)
    have : (Mail.new (R := R) s0).work = 0 := rfl
    omega
  · refine Classical.byContradiction fun hq => ?_
    obtain ⟨e, he, hf⟩ := key _ hq
    exact hes e he hf

end

/-! ### The node -/

/-- Receive messages one after the other; the bytes sent in reply are collected. -/
def Node.receiveMail (z : Compression) (cfg : NodeCfg) (n : Node) (xs : List ((Nat × Bytes) × SyncIo)) : List (Nat × Bytes) × Node :=
  xs.foldl (fun s x => (s.1 ++ (s.2.receive z cfg x.2 x.1.1 x.1.2).1, (s.2.receive z cfg x.2 x.1.1 x.1.2).2)) ([], n)

theorem receive_handle {z : Compression} {cfg : NodeCfg} {x : Nat × Bytes} {h : Handler} {m : NetMsg} (hf : (nodeMail z cfg).For x h m) (io : SyncIo)
    (s : List (Nat × Bytes) × Node) :
    Node.handle z cfg h x.1 m io s = (s.1 ++ (s.2.receive z cfg io x.1 x.2).1, (s.2.receive z cfg io x.1 x.2).2) := by
  obtain ⟨b, hd, hp, hr⟩ := hf
  have hd : z.decompress x.2 = some b := hd
  have hr : mainReactors.route m.url = .ok h := hr
  have hu : unframe z x.2 = some m := by unfold unframe; rw [hd]; simp only; rw [hp]
  unfold Node.receive
  rw [hu]
  simp only
  unfold Node.serve Node.handle
  rw [hr]
  cases Endpoint.parse m.url <;> rfl

theorem receive_dropped {z : Compression} {cfg : NodeCfg} {x : Nat × Bytes} (hf : ¬ ∃ h m, (nodeMail z cfg).For x h m) (io : SyncIo) (n : Node) :
    n.receive z cfg io x.1 x.2 = ([], n) := by
  unfold Node.receive
  cases hu : unframe z x.2 with
  | none => rfl
  | some m =>
    simp only
    have hr : ∃ e, mainReactors.route m.url = .error e := by
      cases hr : mainReactors.route m.url with
      | error e => exact ⟨e, rfl⟩
      | ok h =>
        refine absurd ⟨h, m, ?_⟩ hf
        unfold unframe at hu
        cases hd : z.decompress x.2 with
        | none => rw [hd] at hu; cases hu
        | some b =>
          rw [hd] at hu
          simp only at hu
          cases hp : (pbDecode b : PDec NetMsg) with
          | error e => rw [hp] at hu; cases hu
          | ok m' =>
            rw [hp] at hu
            cases hu
            exact ⟨b, hd, hp, hr⟩
    obtain ⟨e, hr⟩ := hr
    unfold Node.serve
    rw [hr]
    rfl

theorem Handles.receiveMail {z : Compression} {cfg : NodeCfg} {n : Node} {xs : List (Nat × Bytes)} {t : List (Nat × Bytes) × Node}
    (h : Handles (nodeMail z cfg) ([], n) xs t) : ∃ ys : List ((Nat × Bytes) × SyncIo), ys.map Prod.fst = xs ∧ n.receiveMail z cfg ys = t := by
  induction h with
  | nil => exact ⟨[], rfl, rfl⟩
  | @snoc t xs x r m io h hf ih =>
    obtain ⟨ys, h1, h2⟩ := ih
    refine ⟨ys ++ [(x, io)], by rw [List.map_append, h1]; rfl, ?_⟩
    show _ = Node.handle z cfg r x.1 m io t
    rw [receive_handle hf io t]
    unfold Node.receiveMail at h2 ⊢
    rw [List.foldl_append, h2]
    rfl

theorem receiveMail_dropped {z : Compression} {cfg : NodeCfg} (io : SyncIo) : ∀ (xs : List (Nat × Bytes)) (n : Node) (ys : List ((Nat × Bytes) × SyncIo)),
    (∀ x ∈ xs, ¬ ∃ h m, (nodeMail z cfg).For x h m) → n.receiveMail z cfg (ys ++ xs.map (fun x => (x, io))) = n.receiveMail z cfg ys
  | [], n, ys, _ => by simp
  | x :: xs, n, ys, h => by
    have ih := receiveMail_dropped io xs n (ys ++ [(x, io)]) (fun y hy => h y (List.mem_cons_of_mem _ hy))
    rw [List.map_cons]
    have e : ys ++ (x, io) :: xs.map (fun x => (x, io)) = ys ++ [(x, io)] ++ xs.map (fun x => (x, io)) := by simp
    rw [e, ih]
    unfold Node.receiveMail
    rw [List.foldl_append]
    simp only [List.foldl_cons, List.foldl_nil]
    rw [receive_dropped (h x (List.mem_cons_self ..)) io]
    simp

/-- **C107, the node.**  Whatever messages arrive and in whatever order the tasks of the network run: once nothing is under way, the node and the bytes
it sent in reply are as after receiving these messages, each as often as it arrived, one after the other in some order. -/
theorem C107_node (z : Compression) (cfg : NodeCfg) (n : Node) (io : SyncIo) (evs : List (MailEvent Handler SyncIo))
    (hq : ((Mail.new ([], n)).run (nodeMail z cfg) evs).Quiet) :
    ∃ ys : List ((Nat × Bytes) × SyncIo), (ys.map Prod.fst).Perm (mailed evs) ∧ ((Mail.new ([], n)).run (nodeMail z cfg) evs).node = n.receiveMail z cfg ys := by
  obtain ⟨handled, dropped, waiting, hp, hh, hd, hw⟩ := C107_once (nodeMail z cfg) ([], n) evs
  rw [hw hq, List.append_nil] at hp
  obtain ⟨ys, h1, h2⟩ := hh.receiveMail
  refine ⟨ys ++ dropped.map (fun x => (x, io)), ?_, ?_⟩
  · rw [List.map_append, h1, List.map_map]
    have : dropped.map (Prod.fst ∘ fun x => (x, io)) = dropped := by
      rw [show (Prod.fst ∘ fun x : Nat × Bytes => (x, io)) = _root_.id from rfl, List.map_id]
    rw [this]
    exact hp
  · rw [receiveMail_dropped io dropped n ys hd, h2]

/-! ### Order -/

/-- A network with one endpoint whose handler writes down what it gets. -/
def diary : MailCfg Unit (List (Nat × Bytes)) Unit :=
  ⟨⟨fun b => b, fun b => some b⟩, Reactors.register [] ⟨endNewTxs⟩ (), fun _ sid m _ l => l ++ [(sid, m.content)]⟩

/-- The frame of a message to that endpoint. -/
def diaryFrame (c : Bytes) : Bytes := pbEncode (NetMsg.mk endNewTxs c)

/-- Three messages arrive: two on session 5 for the endpoint, one between them that is no frame.  The second is routed before the first. -/
def diaryRun : List (MailEvent Unit Unit) :=
  [.arrive 5 (diaryFrame [1]), .arrive 6 [255], .arrive 5 (diaryFrame [2]), .routerTake, .routerTake, .routerTake, .route 2, .route 1, .route 0,
    .reactorTake (), .reactorTake (), .react 0 (), .react 0 ()]

/-- C107 says nothing about the order, because it is not kept: of two messages that one peer sends on one session, the second can be handled first. -/
theorem C107_order_not_kept : mailed diaryRun = [(5, diaryFrame [1]), (6, [255]), (5, diaryFrame [2])] ∧
    ((Mail.new []).run diary diaryRun).node = [(5, [2]), (5, [1])] ∧ ((Mail.new []).run diary diaryRun).Quiet := by
  refine ⟨rfl, by decide +kernel, ?_⟩
  unfold Mail.Quiet
  refine ⟨by decide +kernel, by decide +kernel, by decide +kernel, by decide +kernel⟩

/-- The garbage on session 6 is for nobody; the others are for the endpoint. -/
example : diary.routed (6, [255]) = none ∧ diary.routed (5, diaryFrame [1]) = some ((), 5, ⟨endNewTxs, [1]⟩) := by
  constructor <;> decide +kernel

open Demo in
/-- The hypothesis of `C107_node` on a real case: garbage arrives on session 6 and the announcement of epoch 3 on session 5 at a node that stopped after
epoch 1; the tasks run in an order of their own, and in the end nothing is under way and the node has caught up. -/
example :
    let raw := demoZip.compress (pbEncode (NetMsg.mk (richMessage 3).1 (richMessage 3).2))
    let evs : List (MailEvent Handler SyncIo) := [.arrive 6 [255], .arrive 5 raw, .routerTake, .routerTake, .route 1, .reactorTake .richEpochId,
      .react 0 (peer e3), .route 0]
    let s := (Mail.new ([], e1)).run (nodeMail demoZip ncfg) evs
    s.Quiet ∧ s.node.1 = [] ∧ s.node.2.status.epochId = 4 ∧ s.node.2.status.stateRoot = e3.status.stateRoot := by
  unfold Mail.Quiet
  refine ⟨⟨by decide +kernel, by decide +kernel, by decide +kernel, by decide +kernel⟩, by decide +kernel, by decide +kernel, by decide +kernel⟩

end Huobi
