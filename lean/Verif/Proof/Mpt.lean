import Verif.Model.Mpt
/-
The trie as a map: lemmas for C96.
-/
namespace Huobi
namespace Mpt

theorem strip_eq {p k r : List Nib} : strip p k = some r ↔ k = p ++ r := by
  induction p generalizing k with
  | nil => simp only [strip, Option.some.injEq, List.nil_append]
  | cons x p ih =>
    cases k with
    | nil => simp [strip]
    | cons y k =>
      simp only [strip]
      by_cases h : x = y
      · subst h; simp [ih]
      · rw [if_neg h]; simp only [List.cons_append, List.cons.injEq]; constructor
        · intro h; cases h
        · rintro ⟨h', -⟩; exact absurd h'.symm h

theorem strip_append (p r : List Nib) : strip p (p ++ r) = some r := strip_eq.2 rfl

/-- What `split` gives: the two paths put together again, with nothing in common any more. -/
theorem split_spec (p k : List Nib) : ∀ c a b, split p k = (c, a, b) → p = c ++ a ∧ k = c ++ b ∧
    (∀ x a' b', a = x :: a' → b ≠ x :: b') := by
  induction p generalizing k with
  | nil => intro c a b h; simp only [split, Prod.mk.injEq] at h; obtain ⟨rfl, rfl, rfl⟩ := h; simp
  | cons x p ih =>
    intro c a b h
    cases k with
    | nil => simp only [split, Prod.mk.injEq] at h; obtain ⟨rfl, rfl, rfl⟩ := h; simp
    | cons y k =>
      simp only [split] at h
      by_cases e : x = y
      · subst e
        rw [if_pos rfl] at h
        simp only [Prod.mk.injEq] at h
        obtain ⟨rfl, rfl, rfl⟩ := h
        obtain ⟨h1, h2, h3⟩ := ih k _ _ _ rfl
        exact ⟨by rw [List.cons_append, ← h1], by rw [List.cons_append, ← h2], h3⟩
      · rw [if_neg e] at h
        simp only [Prod.mk.injEq] at h
        obtain ⟨rfl, rfl, rfl⟩ := h
        refine ⟨rfl, rfl, ?_⟩
        intro z a' b' h1 h2
        simp only [List.cons.injEq] at h1 h2
        exact e (h1.1.trans h2.1.symm)

/-- A trie holds no empty value, and has the shape that its contents determine: extensions lead to branches and have a path, a
branch has at least two entries. -/
def WF : Mpt → Prop
  | empty => True
  | leaf _ v => v ≠ []
  | ext p c => p ≠ [] ∧ (∃ kids v, c = branch kids v) ∧ WF c
  | branch kids v => (∀ i, WF (kids i)) ∧ v ≠ some [] ∧
    ((∃ i j, i ≠ j ∧ kids i ≠ empty ∧ kids j ≠ empty) ∨ (∃ i w, kids i ≠ empty ∧ v = some w))

@[simp] theorem get_empty (k : List Nib) : get empty k = none := by cases k <;> rfl
@[simp] theorem get_leaf (p : List Nib) (v : Bytes) (k : List Nib) : get (leaf p v) k = if k = p then some v else none := by
  cases k <;> rfl
theorem get_ext (p : List Nib) (c : Mpt) (k : List Nib) : get (ext p c) k = (match strip p k with | some r => get c r | none => none) := by
  cases k <;> rfl
@[simp] theorem get_branch_nil (kids : Nib → Mpt) (v : Option Bytes) : get (branch kids v) [] = v := rfl
@[simp] theorem get_branch_cons (kids : Nib → Mpt) (v : Option Bytes) (x : Nib) (k : List Nib) :
    get (branch kids v) (x :: k) = get (kids x) k := rfl

theorem get_ext_append (p : List Nib) (c : Mpt) (k : List Nib) : get (ext p c) (p ++ k) = get c k := by
  rw [get_ext, strip_append]
theorem get_ext_none (p : List Nib) (c : Mpt) (k : List Nib) (h : ∀ r, k ≠ p ++ r) : get (ext p c) k = none := by
  rw [get_ext]
  cases e : strip p k with
  | none => rfl
  | some r => exact absurd (strip_eq.1 e) (h r)

/-- Reading a subtree put below a path. -/
theorem get_join (p : List Nib) (t : Mpt) (k : List Nib) :
    (∀ r, k = p ++ r → get (join p t) k = get t r) ∧ ((∀ r, k ≠ p ++ r) → get (join p t) k = none) := by
  cases t with
  | empty => exact ⟨fun r _ => by simp [join], fun _ => by simp [join]⟩
  | leaf q v =>
    refine ⟨fun r hr => ?_, fun hr => ?_⟩
    · subst hr; simp [join]
    · simp only [join, get_leaf]; rw [if_neg (hr q)]
  | ext q c =>
    refine ⟨fun r hr => ?_, fun hr => ?_⟩
    · subst hr
      simp only [join]
      rw [get_ext, get_ext]
      cases e : strip q r with
      | some s =>
        have := strip_eq.1 e
        subst this
        rw [← List.append_assoc, strip_append]
      | none =>
        cases e' : strip (p ++ q) (p ++ r) with
        | none => rfl
        | some s =>
          have := strip_eq.1 e'
          rw [List.append_assoc, List.append_cancel_left_eq] at this
          rw [strip_eq.2 this] at e
          cases e
    · simp only [join]
      apply get_ext_none
      intro r h
      exact hr (q ++ r) (by rw [h, List.append_assoc])
  | branch kids v =>
    simp only [join]
    split
    · rename_i h; subst h; exact ⟨fun r hr => by subst hr; rfl, fun hr => absurd rfl (hr k)⟩
    · refine ⟨fun r hr => ?_, fun hr => get_ext_none _ _ _ hr⟩
      subst hr; exact get_ext_append ..

theorem join_wf {p : List Nib} {t : Mpt} (h : WF t) : WF (join p t) := by
  cases t with
  | empty => trivial
  | leaf q v => exact h
  | ext q c =>
    obtain ⟨h1, h2, h3⟩ := h
    exact ⟨by simp [h1], h2, h3⟩
  | branch kids v =>
    simp only [join]
    split
    · exact h
    · rename_i hp; exact ⟨hp, ⟨_, _, rfl⟩, h⟩

theorem join_ne_empty {p : List Nib} {t : Mpt} (h : t ≠ empty) : join p t ≠ empty := by
  cases t with
  | empty => exact absurd rfl h
  | leaf q v => intro h; cases h
  | ext q c => intro h; cases h
  | branch kids v => simp only [join]; split <;> (intro h; cases h)

theorem get_seat (kids : Nib → Mpt) (bv : Option Bytes) (k : List Nib) (v : Bytes) (hf : ∀ x r, k = x :: r → kids x = empty)
    (k' : List Nib) : get (seat kids bv k v) k' = if k' = k then some v else get (branch kids bv) k' := by
  cases k with
  | nil =>
    simp only [seat]
    cases k' with
    | nil => simp
    | cons y k' => simp
  | cons x r =>
    simp only [seat]
    cases k' with
    | nil => simp
    | cons y k' =>
      simp only [get_branch_cons, setKid]
      by_cases h : y = x
      · subst h
        simp only [if_true, get_leaf, List.cons.injEq, true_and]
        rw [hf y r rfl, get_empty]
      · rw [if_neg h, if_neg (by simp [h])]

theorem get_insert (t : Mpt) (k : List Nib) (v : Bytes) (k' : List Nib) :
    get (insert t k v) k' = if k' = k then some v else get t k' := by
  induction t generalizing k k' with
  | empty => cases k <;> simp [insert]
  | leaf p w =>
    have hi : insert (leaf p w) k v = (match split p k with
      | (_, [], []) => leaf p v
      | (c, [], x :: r) => join c (seat (fun _ => empty) (some w) (x :: r) v)
      | (c, y :: q, r) => join c (seat (setKid (fun _ => empty) y (leaf q w)) none r v)) := by cases k <;> rfl
    rw [hi]
    rcases hs : split p k with ⟨c, a, b⟩
    obtain ⟨h1, h2, h3⟩ := split_spec p k c a b hs
    cases a with
    | nil =>
      cases b with
      | nil =>
        simp only [List.append_nil] at h1 h2
        subst h1; subst h2
        simp only [get_leaf]
        split <;> simp_all
      | cons x r =>
        simp only [List.append_nil] at h1
        subst h1
        simp only
        by_cases hk : ∃ s, k' = p ++ s
        · obtain ⟨s, rfl⟩ := hk
          rw [(get_join p _ _).1 s rfl, get_seat _ _ _ _ (fun _ _ _ => rfl), h2]
          simp only [List.append_cancel_left_eq]
          split
          · rfl
          · cases s with
            | nil => simp
            | cons y s => simp
        · have hk : ∀ s, k' ≠ p ++ s := fun s h => hk ⟨s, h⟩
          rw [(get_join p _ _).2 hk, if_neg (by rw [h2]; exact hk _), get_leaf, if_neg (by have := hk []; simpa using this)]
    | cons y q =>
      simp only
      by_cases hk : ∃ s, k' = c ++ s
      · obtain ⟨s, rfl⟩ := hk
        rw [(get_join c _ _).1 s rfl, get_seat _ _ _ _ ?_, h1, h2]
        · simp only [List.append_cancel_left_eq, get_leaf]
          split
          · rfl
          · cases s with
            | nil => simp
            | cons z s =>
              simp only [get_branch_cons, setKid]
              by_cases hz : z = y
              · subst hz; simp
              · rw [if_neg hz, if_neg (by simp [hz]), get_empty]
        · intro x r hx
          unfold setKid
          rw [if_neg]
          rintro rfl
          exact h3 x q r rfl hx
      · have hk : ∀ s, k' ≠ c ++ s := fun s h => hk ⟨s, h⟩
        rw [(get_join c _ _).2 hk, if_neg (by rw [h2]; exact hk _), get_leaf, if_neg (by rw [h1]; exact hk _)]
  | ext p t ih =>
    have hi : insert (ext p t) k v = (match split p k with
      | (_, [], r) => ext p (insert t r v)
      | (q, y :: s, r) => join q (seat (setKid (fun _ => empty) y (join s t)) none r v)) := by cases k <;> rfl
    rw [hi]
    rcases hs : split p k with ⟨c, a, b⟩
    obtain ⟨h1, h2, h3⟩ := split_spec p k c a b hs
    cases a with
    | nil =>
      simp only [List.append_nil] at h1
      subst h1
      simp only
      by_cases hk : ∃ s, k' = p ++ s
      · obtain ⟨s, rfl⟩ := hk
        rw [get_ext_append, get_ext_append, ih, h2]
        simp only [List.append_cancel_left_eq]
      · have hk : ∀ s, k' ≠ p ++ s := fun s h => hk ⟨s, h⟩
        rw [get_ext_none _ _ _ hk, get_ext_none _ _ _ hk, if_neg (by rw [h2]; exact hk _)]
    | cons y q =>
      simp only
      by_cases hk : ∃ s, k' = c ++ s
      · obtain ⟨s, rfl⟩ := hk
        rw [(get_join c _ _).1 s rfl, get_seat _ _ _ _ ?_, h1, h2]
        · simp only [List.append_cancel_left_eq]
          split
          · rfl
          · cases s with
            | nil =>
              rw [get_branch_nil, get_ext_none]
              intro r h
              have := congrArg List.length h
              simp at this
            | cons z s =>
              simp only [get_branch_cons, setKid]
              by_cases hz : z = y
              · subst hz
                simp only [if_true]
                by_cases hq : ∃ r, s = q ++ r
                · obtain ⟨r, rfl⟩ := hq
                  rw [(get_join q _ _).1 r rfl]
                  have : c ++ z :: (q ++ r) = (c ++ z :: q) ++ r := by simp
                  rw [this, get_ext_append]
                · have hq : ∀ r, s ≠ q ++ r := fun r h => hq ⟨r, h⟩
                  rw [(get_join q _ _).2 hq, get_ext_none]
                  intro r h
                  simp only [List.append_assoc, List.append_cancel_left_eq, List.cons_append, List.cons.injEq, true_and] at h
                  exact hq r h
              · rw [if_neg hz, get_empty, get_ext_none]
                intro r h
                simp only [List.append_assoc, List.append_cancel_left_eq, List.cons_append, List.cons.injEq] at h
                exact hz h.1
        · intro x r hx
          unfold setKid
          rw [if_neg]
          rintro rfl
          exact h3 x q r rfl hx
      · have hk : ∀ s, k' ≠ c ++ s := fun s h => hk ⟨s, h⟩
        rw [(get_join c _ _).2 hk, if_neg (by rw [h2]; exact hk _), get_ext_none]
        intro r h
        rw [h1, List.append_assoc] at h
        exact hk _ h
  | branch kids bv ih =>
    cases k with
    | nil =>
      show get (branch kids (some v)) k' = _
      cases k' <;> simp
    | cons x k =>
      show get (branch (setKid kids x (insert (kids x) k v)) bv) k' = _
      cases k' with
      | nil => simp
      | cons y k' =>
        simp only [get_branch_cons, setKid, List.cons.injEq]
        by_cases h : y = x
        · subst h; simp [ih]
        · simp [h]

theorem seat_branch (kids : Nib → Mpt) (bv : Option Bytes) (k : List Nib) (v : Bytes) : ∃ kids' v', seat kids bv k v = branch kids' v' := by
  cases k <;> exact ⟨_, _, rfl⟩

theorem setKid_same (kids : Nib → Mpt) (i : Nib) (t : Mpt) : setKid kids i t i = t := if_pos rfl
theorem setKid_ne (kids : Nib → Mpt) {i j : Nib} (t : Mpt) (h : j ≠ i) : setKid kids i t j = kids j := if_neg h

theorem setKid_wf {kids : Nib → Mpt} {i : Nib} {t : Mpt} (h : ∀ j, WF (kids j)) (ht : WF t) : ∀ j, WF (setKid kids i t j) := by
  intro j
  by_cases e : j = i
  · subst e; rw [setKid_same]; exact ht
  · rw [setKid_ne _ _ e]; exact h j

theorem insert_ne_empty (t : Mpt) (k : List Nib) (v : Bytes) : insert t k v ≠ empty := by
  intro h
  have := get_insert t k v k
  rw [h] at this
  simp at this

theorem insert_branch (kids : Nib → Mpt) (bv : Option Bytes) (k : List Nib) (v : Bytes) :
    ∃ kids' v', insert (branch kids bv) k v = branch kids' v' := by
  cases k <;> exact ⟨_, _, rfl⟩

theorem insert_wf {t : Mpt} (h : WF t) (k : List Nib) {v : Bytes} (hv : v ≠ []) : WF (insert t k v) := by
  have hv' : some v ≠ some [] := fun h => hv (Option.some.inj h)
  induction t generalizing k with
  | empty => cases k <;> exact hv
  | leaf p w =>
    have hi : insert (leaf p w) k v = (match split p k with
      | (_, [], []) => leaf p v
      | (c, [], x :: r) => join c (seat (fun _ => empty) (some w) (x :: r) v)
      | (c, y :: q, r) => join c (seat (setKid (fun _ => empty) y (leaf q w)) none r v)) := by cases k <;> rfl
    rw [hi]
    have hw : some w ≠ some [] := fun e => h (Option.some.inj e)
    rcases hs : split p k with ⟨c, a, b⟩
    obtain ⟨h1, h2, h3⟩ := split_spec p k c a b hs
    cases a with
    | nil =>
      cases b with
      | nil => exact hv
      | cons x r =>
        refine join_wf ⟨setKid_wf (fun _ => trivial) hv, hw, .inr ⟨x, w, ?_, rfl⟩⟩
        rw [setKid_same]; intro h; cases h
    | cons y q =>
      refine join_wf ?_
      have hk : ∀ j, WF (setKid (fun _ => empty) y (leaf q w) j) := setKid_wf (fun _ => trivial) h
      have hne : setKid (fun _ => empty) y (leaf q w) y ≠ empty := by rw [setKid_same]; intro h; cases h
      cases b with
      | nil => exact ⟨hk, hv', .inr ⟨y, v, hne, rfl⟩⟩
      | cons x r =>
        have hxy : y ≠ x := by rintro rfl; exact h3 y q r rfl rfl
        refine ⟨setKid_wf hk hv, by simp, .inl ⟨y, x, hxy, ?_, ?_⟩⟩
        · rw [setKid_ne _ _ hxy]; exact hne
        · rw [setKid_same]; intro h; cases h
  | ext p t ih =>
    have hi : insert (ext p t) k v = (match split p k with
      | (_, [], r) => ext p (insert t r v)
      | (q, y :: s, r) => join q (seat (setKid (fun _ => empty) y (join s t)) none r v)) := by cases k <;> rfl
    rw [hi]
    obtain ⟨g1, ⟨kids, bv, rfl⟩, g3⟩ := h
    rcases hs : split p k with ⟨c, a, b⟩
    obtain ⟨h1, h2, h3⟩ := split_spec p k c a b hs
    cases a with
    | nil => exact ⟨g1, insert_branch .., ih g3 b⟩
    | cons y q =>
      refine join_wf ?_
      have hk : ∀ j, WF (setKid (fun _ => empty) y (join q (branch kids bv)) j) := setKid_wf (fun _ => trivial) (join_wf g3)
      have hne : setKid (fun _ => empty) y (join q (branch kids bv)) y ≠ empty := by
        rw [setKid_same]; exact join_ne_empty (by intro h; cases h)
      cases b with
      | nil => exact ⟨hk, hv', .inr ⟨y, v, hne, rfl⟩⟩
      | cons x r =>
        have hxy : y ≠ x := by rintro rfl; exact h3 y q r rfl rfl
        refine ⟨setKid_wf hk hv, by simp, .inl ⟨y, x, hxy, ?_, ?_⟩⟩
        · rw [setKid_ne _ _ hxy]; exact hne
        · rw [setKid_same]; intro h; cases h
  | branch kids bv ih =>
    obtain ⟨g1, g2, g3⟩ := h
    cases k with
    | nil =>
      refine ⟨g1, hv', ?_⟩
      rcases g3 with g3 | ⟨i, w, hi, -⟩
      · exact .inl g3
      · exact .inr ⟨i, v, hi, rfl⟩
    | cons x k =>
      refine ⟨setKid_wf g1 (ih x (g1 x) k), g2, ?_⟩
      have keep : ∀ i, kids i ≠ empty → setKid kids x (insert (kids x) k v) i ≠ empty := by
        intro i hi
        by_cases e : i = x
        · subst e; rw [setKid_same]; exact insert_ne_empty _ _ _
        · rw [setKid_ne _ _ e]; exact hi
      rcases g3 with ⟨i, j, hij, hi, hj⟩ | ⟨i, w, hi, hw⟩
      · exact .inl ⟨i, j, hij, keep i hi, keep j hj⟩
      · exact .inr ⟨i, w, keep i hi, hw⟩

/-! ### Removal -/

theorem isEmpty_iff (t : Mpt) : t.isEmpty = true ↔ t = empty := by cases t <;> simp [isEmpty]

theorem mem_occupied (kids : Nib → Mpt) (i : Nib) : i ∈ occupied kids ↔ kids i ≠ empty := by
  unfold occupied
  simp only [List.mem_filter, List.mem_ofFn, exists_eq, true_and, Bool.not_eq_true', Bool.eq_false_iff, ne_eq, isEmpty_iff]

theorem nodup_occupied (kids : Nib → Mpt) : (occupied kids).Nodup := by
  unfold occupied
  refine List.Sublist.nodup List.filter_sublist ?_
  decide

/-- A shrunk branch has the same contents and is well formed. -/
theorem get_shrink (kids : Nib → Mpt) (v : Option Bytes) (k : List Nib) : get (shrink kids v) k = get (branch kids v) k := by
  unfold shrink
  have hm := mem_occupied kids
  split
  · rename_i h; rw [h] at hm
    cases k with
    | nil => rfl
    | cons x k =>
      have : kids x = empty := Classical.byContradiction fun h => by simpa using (hm x).2 h
      simp [this]
  · rename_i w h; rw [h] at hm
    cases k with
    | nil => rfl
    | cons x k =>
      have : kids x = empty := Classical.byContradiction fun h => by simpa using (hm x).2 h
      simp [this]
  · rename_i i h; rw [h] at hm
    cases k with
    | nil => rw [(get_join [i] _ _).2 (by simp)]; rfl
    | cons x k =>
      by_cases hx : x = i
      · subst hx; exact (get_join [x] (kids x) (x :: k)).1 k rfl
      · have : kids x = empty := Classical.byContradiction fun h => hx (by simpa using (hm x).2 h)
        rw [(get_join [i] _ _).2 (by intro r h; simp at h; exact hx h.1)]
        simp [this]
  · rfl

theorem shrink_wf {kids : Nib → Mpt} {v : Option Bytes} (hk : ∀ i, WF (kids i)) (hv : v ≠ some []) : WF (shrink kids v) := by
  unfold shrink
  have hm := mem_occupied kids
  have hn := nodup_occupied kids
  split
  · trivial
  · rename_i w h; exact fun e => hv (by rw [e])
  · exact join_wf (hk _)
  · rename_i v _ _ n1 n2 n3
    refine ⟨hk, hv, ?_⟩
    rcases ho : occupied kids with _ | ⟨i, _ | ⟨j, l⟩⟩
    · cases v with
      | none => exact (n1 ho rfl).elim
      | some w => exact (n2 w ho rfl).elim
    · cases v with
      | none => exact (n3 i ho rfl).elim
      | some w => exact .inr ⟨i, w, (hm i).1 (by rw [ho]; simp), rfl⟩
    · rw [ho] at hn
      simp only [List.nodup_cons, List.mem_cons, not_or] at hn
      exact .inl ⟨i, j, hn.1.1, (hm i).1 (by rw [ho]; simp), (hm j).1 (by rw [ho]; simp)⟩

theorem get_remove (t : Mpt) (k k' : List Nib) : get (remove t k) k' = if k' = k then none else get t k' := by
  induction t generalizing k k' with
  | empty => cases k <;> simp [remove]
  | leaf p w =>
    have hi : remove (leaf p w) k = if k = p then empty else leaf p w := by cases k <;> rfl
    rw [hi]
    split
    · rename_i h; subst h; simp only [get_empty, get_leaf]; split <;> simp_all
    · rename_i h; simp only [get_leaf]; split
      · rename_i h'; subst h'; simp [Ne.symm h]
      · split <;> simp_all
  | ext p t ih =>
    have hi : remove (ext p t) k = (match strip p k with | some r => join p (remove t r) | none => ext p t) := by cases k <;> rfl
    rw [hi]
    cases hs : strip p k with
    | some r =>
      have := strip_eq.1 hs
      subst this
      simp only
      by_cases hk : ∃ s, k' = p ++ s
      · obtain ⟨s, rfl⟩ := hk
        rw [(get_join p _ _).1 s rfl, ih, get_ext_append]
        simp only [List.append_cancel_left_eq]
      · have hk : ∀ s, k' ≠ p ++ s := fun s h => hk ⟨s, h⟩
        rw [(get_join p _ _).2 hk, get_ext_none _ _ _ hk]; simp
    | none =>
      simp only
      split
      · rename_i h; subst h
        rw [get_ext, hs]
      · rfl
  | branch kids bv ih =>
    cases k with
    | nil =>
      show get (shrink kids none) k' = _
      rw [get_shrink]
      cases k' <;> simp
    | cons x k =>
      show get (shrink (setKid kids x (remove (kids x) k)) bv) k' = _
      rw [get_shrink]
      cases k' with
      | nil => simp
      | cons y k' =>
        simp only [get_branch_cons, setKid, List.cons.injEq]
        by_cases h : y = x
        · subst h; simp [ih]
        · simp [h]

theorem remove_wf {t : Mpt} (h : WF t) (k : List Nib) : WF (remove t k) := by
  induction t generalizing k with
  | empty => cases k <;> trivial
  | leaf p w =>
    have hi : remove (leaf p w) k = if k = p then empty else leaf p w := by cases k <;> rfl
    rw [hi]; split
    · trivial
    · exact h
  | ext p t ih =>
    have hi : remove (ext p t) k = (match strip p k with | some r => join p (remove t r) | none => ext p t) := by cases k <;> rfl
    rw [hi]
    split
    · exact join_wf (ih h.2.2 _)
    · exact h
  | branch kids bv ih =>
    obtain ⟨g1, g2, -⟩ := h
    cases k with
    | nil => exact shrink_wf g1 (by simp)
    | cons x k => exact shrink_wf (setKid_wf g1 (ih x (g1 x) k)) g2

/-! ### The shape is determined by the contents -/

/-- A trie that is not empty has a key. -/
theorem has_key {t : Mpt} (h : WF t) (hn : t ≠ empty) : ∃ k v, get t k = some v := by
  induction t with
  | empty => exact absurd rfl hn
  | leaf p v => exact ⟨p, v, by simp⟩
  | ext p c ih =>
    obtain ⟨-, ⟨kids, v, rfl⟩, h3⟩ := h
    obtain ⟨k, w, hk⟩ := ih h3 (by intro h; cases h)
    exact ⟨p ++ k, w, by rw [get_ext_append]; exact hk⟩
  | branch kids v ih =>
    obtain ⟨h1, -, h3⟩ := h
    have : ∃ i, kids i ≠ empty := by
      rcases h3 with ⟨i, -, -, hi, -⟩ | ⟨i, -, hi, -⟩ <;> exact ⟨i, hi⟩
    obtain ⟨i, hi⟩ := this
    obtain ⟨k, w, hk⟩ := ih i (h1 i) hi
    exact ⟨i :: k, w, hk⟩

/-- The keys of a branch do not all begin with the same nibble. -/
theorem branch_spreads {kids : Nib → Mpt} {v : Option Bytes} (h : WF (branch kids v)) (x : Nib) :
    ∃ k w, get (branch kids v) k = some w ∧ ∀ r, k ≠ x :: r := by
  obtain ⟨h1, -, h3⟩ := h
  have one : ∀ i, kids i ≠ empty → i ≠ x → ∃ k w, get (branch kids v) k = some w ∧ ∀ r, k ≠ x :: r := by
    intro i hi hx
    obtain ⟨k, w, hk⟩ := has_key (h1 i) hi
    exact ⟨i :: k, w, hk, fun r e => hx (List.cons.inj e).1⟩
  rcases h3 with ⟨i, j, hij, hi, hj⟩ | ⟨i, w, hi, hw⟩
  · by_cases e : i = x
    · exact one j hj (fun h => hij (e.trans h.symm))
    · exact one i hi e
  · exact ⟨[], w, hw, fun r e => by cases e⟩

/-- A branch has two keys. -/
theorem branch_two {kids : Nib → Mpt} {v : Option Bytes} (h : WF (branch kids v)) (k : List Nib) :
    ∃ k' w, get (branch kids v) k' = some w ∧ k' ≠ k := by
  cases k with
  | nil =>
    obtain ⟨h1, -, h3⟩ := h
    have : ∃ i, kids i ≠ empty := by
      rcases h3 with ⟨i, -, -, hi, -⟩ | ⟨i, -, hi, -⟩ <;> exact ⟨i, hi⟩
    obtain ⟨i, hi⟩ := this
    obtain ⟨k, w, hk⟩ := has_key (h1 i) hi
    exact ⟨i :: k, w, hk, by simp⟩
  | cons x k =>
    obtain ⟨k', w, h1, h2⟩ := branch_spreads h x
    exact ⟨k', w, h1, h2 k⟩

theorem ext_keys {p : List Nib} {c : Mpt} {k : List Nib} {v : Bytes} (h : get (ext p c) k = some v) : ∃ r, k = p ++ r ∧ get c r = some v := by
  rw [get_ext] at h
  split at h
  · rename_i r e; exact ⟨r, strip_eq.1 e, h⟩
  · cases h

/-- Tries with the same contents are the same trie. -/
theorem canonical {t t' : Mpt} (h : WF t) (h' : WF t') (he : ∀ k, get t k = get t' k) : t = t' := by
  induction t generalizing t' with
  | empty =>
    refine Classical.byContradiction fun hn => ?_
    obtain ⟨k, v, hk⟩ := has_key h' (Ne.symm hn)
    rw [← he] at hk; simp at hk
  | leaf p v =>
    have hp := he p
    simp only [get_leaf, if_true] at hp
    have only : ∀ k w, get t' k = some w → k = p := by
      intro k w hk
      rw [← he, get_leaf] at hk
      split at hk
      · assumption
      · cases hk
    cases t' with
    | empty => simp at hp
    | leaf q w =>
      have := only q w (by simp)
      subst this
      simp at hp
      rw [hp]
    | ext q c =>
      obtain ⟨-, ⟨kids, bv, rfl⟩, h3⟩ := h'
      obtain ⟨k, w, hk, hne⟩ := branch_two h3 (p.drop q.length)
      have := only (q ++ k) w (by rw [get_ext_append]; exact hk)
      exfalso; apply hne
      rw [← this]; simp
    | branch kids bv =>
      obtain ⟨k, w, hk, hne⟩ := branch_two h' p
      exact absurd (only k w hk) hne
  | ext p c ih =>
    obtain ⟨g1, ⟨kids, bv, rfl⟩, g3⟩ := h
    cases t' with
    | empty =>
      obtain ⟨k, v, hk⟩ := has_key g3 (by intro h; cases h)
      have := he (p ++ k)
      rw [get_ext_append, hk] at this; simp at this
    | leaf q w =>
      obtain ⟨k, v, hk, hne⟩ := branch_two g3 (q.drop p.length)
      have := he (p ++ k)
      rw [get_ext_append, hk, get_leaf] at this
      split at this
      · rename_i e
        exfalso; apply hne; rw [← e]; simp
      · cases this
    | ext q c' =>
      obtain ⟨f1, ⟨kids', bv', rfl⟩, f3⟩ := h'
      have cmp : ∀ {a b : List Nib} {ka kb : Nib → Mpt} {va vb : Option Bytes}, WF (branch ka va) → WF (branch kb vb) →
          (∀ k, get (ext a (branch ka va)) k = get (ext b (branch kb vb)) k) → ∀ s, b ≠ a ++ s ∨ s = [] := by
        intro a b ka kb va vb wa wb hk s
        cases s with
        | nil => exact .inr rfl
        | cons x s =>
          left
          rintro rfl
          obtain ⟨k, w, e1, e2⟩ := branch_spreads wa x
          have := hk (a ++ k)
          rw [get_ext_append, e1] at this
          obtain ⟨r, e3, -⟩ := ext_keys this.symm
          simp only [List.append_assoc, List.append_cancel_left_eq, List.cons_append] at e3
          exact e2 _ e3
      have hpq : p = q := by
        obtain ⟨k, v, hk⟩ := has_key g3 (by intro h; cases h)
        have := he (p ++ k)
        rw [get_ext_append, hk] at this
        obtain ⟨r, e, -⟩ := ext_keys this.symm
        rcases List.append_eq_append_iff.1 e with ⟨s, e1, -⟩ | ⟨s, e1, -⟩
        · rcases cmp g3 f3 he s with h | h
          · exact absurd e1 h
          · rw [h, List.append_nil] at e1; exact e1.symm
        · rcases cmp f3 g3 (fun k => (he k).symm) s with h | h
          · exact absurd e1 h
          · rw [h, List.append_nil] at e1; exact e1
      subst hpq
      rw [ih g3 f3 (fun k => by have := he (p ++ k); rwa [get_ext_append, get_ext_append] at this)]
    | branch kids' bv' =>
      cases p with
      | nil => exact absurd rfl g1
      | cons x p =>
        obtain ⟨k, w, e1, e2⟩ := branch_spreads h' x
        rw [← he] at e1
        obtain ⟨r, e3, -⟩ := ext_keys e1
        exact absurd e3 (e2 _)
  | branch kids bv ih =>
    cases t' with
    | empty =>
      obtain ⟨k, v, hk⟩ := has_key h (by intro h; cases h)
      rw [he] at hk; simp at hk
    | leaf q w =>
      obtain ⟨k, v, hk, hne⟩ := branch_two h q
      rw [he, get_leaf, if_neg hne] at hk; cases hk
    | ext q c' =>
      obtain ⟨f1, -, -⟩ := h'
      cases q with
      | nil => exact absurd rfl f1
      | cons x p =>
        obtain ⟨k, w, e1, e2⟩ := branch_spreads h x
        rw [he] at e1
        obtain ⟨r, e3, -⟩ := ext_keys e1
        exact absurd e3 (e2 _)
    | branch kids' bv' =>
      have e1 : bv = bv' := he []
      have e2 : kids = kids' := funext fun i => ih i (h.1 i) (h'.1 i) (fun k => he (i :: k))
      rw [e1, e2]

end Mpt
end Huobi
