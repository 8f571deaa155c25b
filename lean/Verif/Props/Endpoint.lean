import Verif.Model.Endpoint
/-
C54: endpoints.
-/
namespace Huobi

/-! ### Splitting -/

theorem splitSlash_ne (s : Str) : splitSlash s ≠ [] := by
  cases s with
  | nil => simp [splitSlash]
  | cons c cs =>
    simp only [splitSlash]
    split
    · simp
    · split <;> simp

theorem splitSlash_append (a b : Str) : splitSlash (a ++ '/' :: b) = splitSlash a ++ splitSlash b := by
  induction a with
  | nil => simp [splitSlash]
  | cons c cs ih =>
    simp only [List.cons_append, splitSlash]
    split
    · rw [ih]; rfl
    · rw [ih]
      cases h : splitSlash cs with
      | nil => exact absurd h (splitSlash_ne cs)
      | cons x xs => rfl

theorem splitSlash_plain {s : Str} (h : '/' ∉ s) : splitSlash s = [s] := by
  induction s with
  | nil => rfl
  | cons c cs ih =>
    have hc : c ≠ '/' := fun he => h (by simp [he])
    simp only [splitSlash, hc, if_false]
    rw [ih (fun he => h (by simp [he]))]

theorem urlComps_append (a b : Str) : urlComps (a ++ '/' :: b) = urlComps a ++ urlComps b := by
  simp [urlComps, splitSlash_append]

theorem urlComps_plain {s : Str} (h : '/' ∉ s) (hn : s ≠ []) : urlComps s = [s] := by
  cases s with
  | nil => exact absurd rfl hn
  | cons c cs => simp [urlComps, splitSlash_plain h]

/-- The first piece of a split. -/
theorem splitSlash_head (s : Str) : ∃ h rest tl, splitSlash s = h :: tl ∧ s = h ++ rest ∧ '/' ∉ h ∧ (rest = [] ∨ ∃ r, rest = '/' :: r) := by
  induction s with
  | nil => exact ⟨[], [], [], rfl, rfl, by simp, .inl rfl⟩
  | cons c cs ih =>
    obtain ⟨h, rest, tl, h1, h2, h3, h4⟩ := ih
    by_cases hc : c = '/'
    · subst hc
      exact ⟨[], '/' :: cs, splitSlash cs, by simp [splitSlash], rfl, by simp, .inr ⟨cs, rfl⟩⟩
    · exact ⟨c :: h, rest, tl, by simp [splitSlash, hc, h1], by simp [h2], by simp [h3, Ne.symm hc], h4⟩

theorem comps_noSlash {s c : Str} (h : c ∈ urlComps s) : '/' ∉ c ∧ c ≠ [] := by
  have key : ∀ s : Str, ∀ c ∈ splitSlash s, '/' ∉ c := by
    intro s
    induction s with
    | nil => intro c hc; simp [splitSlash] at hc; simp [hc]
    | cons d ds ih =>
      intro c hc
      simp only [splitSlash] at hc
      split at hc
      · rcases List.mem_cons.mp hc with rfl | hc
        · simp
        · exact ih c hc
      · rename_i hd
        split at hc
        · rename_i he; exact absurd he (splitSlash_ne ds)
        · rename_i x xs he
          rw [he] at ih
          rcases List.mem_cons.mp hc with rfl | hc
          · have := ih x (by simp)
            simp [this, Ne.symm hd]
          · exact ih c (by simp [hc])
  unfold urlComps at h
  rw [List.mem_filter] at h
  exact ⟨key s c h.1, by intro hn; simp [hn] at h⟩

/-! ### Parsing -/

theorem parse_spec {s : Str} {e : Endpoint} (h : Endpoint.parse s = .ok e) :
    e = ⟨s⟩ ∧ strLen s ≤ 120 ∧ (gossipScheme.isPrefixOf s = true ∨ rpcCallScheme.isPrefixOf s = true ∨ rpcRespScheme.isPrefixOf s = true) ∧
    3 ≤ (urlComps s).length ∧ (urlComps s).length ≤ 4 := by
  unfold Endpoint.parse at h
  split at h
  · cases h
  · rename_i h1
    split at h
    · cases h
    · rename_i h2
      split at h
      · cases h
      · rename_i h3
        injection h with h
        refine ⟨h.symm, ?_, ?_, ?_, ?_⟩
        · have h1' : ¬ (s.isEmpty || decide (120 < strLen s)) = true := h1
          rw [Bool.or_eq_true, decide_eq_true_eq] at h1'
          omega
        · cases hg : gossipScheme.isPrefixOf s <;> cases hc : rpcCallScheme.isPrefixOf s <;> cases hr : rpcRespScheme.isPrefixOf s <;> simp_all
        · omega
        · omega

theorem parse_ok {s : Str} (h1 : strLen s ≤ 120) (h2 : gossipScheme.isPrefixOf s = true ∨ rpcCallScheme.isPrefixOf s = true ∨ rpcRespScheme.isPrefixOf s = true)
    (h3 : 3 ≤ (urlComps s).length) (h4 : (urlComps s).length ≤ 4) : Endpoint.parse s = .ok ⟨s⟩ := by
  unfold Endpoint.parse
  have hn : s ≠ [] := by rintro rfl; simp [urlComps, splitSlash] at h3
  rw [if_neg, if_neg, if_neg]
  · omega
  · simp only [Bool.and_eq_true, Bool.not_eq_true']
    rintro ⟨⟨a, b⟩, c⟩
    rcases h2 with h | h | h
    · rw [h] at a; cases a
    · rw [h] at b; cases b
    · rw [h] at c; cases c
  · intro h
    have h' : (s.isEmpty || decide (120 < strLen s)) = true := h
    rw [Bool.or_eq_true, decide_eq_true_eq, List.isEmpty_iff] at h'
    rcases h' with h' | h'
    · exact hn h'
    · omega

theorem isPrefixOf_append {p s t : Str} (h : p.isPrefixOf s = true) : p.isPrefixOf (s ++ t) = true := by
  rw [List.isPrefixOf_iff_prefix] at h ⊢
  exact h.trans (List.prefix_append s t)

/-- A scheme is a prefix of the url iff it is one of the first component. -/
theorem prefix_head {p h rest : Str} (hp : '/' ∉ p) (hr : rest = [] ∨ ∃ r, rest = '/' :: r) : p <+: h ++ rest ↔ p <+: h := by
  constructor
  · intro hx
    by_cases hl : p.length ≤ h.length
    · exact List.prefix_of_prefix_length_le hx (List.prefix_append _ _) hl
    · exfalso
      obtain ⟨w, hw⟩ := hx
      rcases hr with rfl | ⟨r, rfl⟩
      · have := congrArg List.length hw
        simp at this
        omega
      · have h1 : (p ++ w)[h.length]? = some '/' := by rw [hw]; simp
        rw [List.getElem?_append_left (by omega)] at h1
        exact hp (List.mem_of_getElem? h1)
  · intro hx; exact hx.trans (List.prefix_append _ _)

/-- A parsed url is a slash, the first component, and the rest. -/
theorem parse_head {s : Str} {e : Endpoint} (h : Endpoint.parse s = .ok e) :
    ∃ a rest tl, s = '/' :: (a ++ rest) ∧ urlComps s = a :: tl ∧ (rest = [] ∨ ∃ r, rest = '/' :: r) := by
  obtain ⟨-, -, hp, -, -⟩ := parse_spec h
  have hs : ∃ c t, s = '/' :: c :: t ∧ c ≠ '/' := by
    have go : ∀ (p : Str), p.isPrefixOf s = true → (∃ c p', p = '/' :: c :: p' ∧ c ≠ '/') → ∃ c t, s = '/' :: c :: t ∧ c ≠ '/' := by
      rintro p h1 ⟨c, p', rfl, hc⟩
      rw [List.isPrefixOf_iff_prefix] at h1
      obtain ⟨t, ht⟩ := h1
      exact ⟨c, p' ++ t, by rw [← ht]; simp, hc⟩
    rcases hp with hp | hp | hp
    · exact go _ hp ⟨'g', "ossip".toList, by decide +kernel, by decide⟩
    · exact go _ hp ⟨'r', "pc_call".toList, by decide +kernel, by decide⟩
    · exact go _ hp ⟨'r', "pc_resp".toList, by decide +kernel, by decide⟩
  obtain ⟨c, t, rfl, hc⟩ := hs
  obtain ⟨a, rest, tl, h1, h2, h3, h4⟩ := splitSlash_head (c :: t)
  have ha : a ≠ [] := by
    rintro rfl
    rcases h4 with rfl | ⟨r, rfl⟩
    · simp at h2
    · simp at h2; exact hc h2.1
  refine ⟨a, rest, tl.filter (fun c => !c.isEmpty), by rw [h2], ?_, h4⟩
  simp only [urlComps]
  rw [show splitSlash ('/' :: c :: t) = [] :: splitSlash (c :: t) by simp [splitSlash], h1]
  cases a with
  | nil => exact absurd rfl ha
  | cons x xs => rfl

/-! ### Rpc ids -/

theorem digitVal_decDigit {d : Nat} (h : d < 10) : digitVal (decDigit d) = some d := by
  have : d = 0 ∨ d = 1 ∨ d = 2 ∨ d = 3 ∨ d = 4 ∨ d = 5 ∨ d = 6 ∨ d = 7 ∨ d = 8 ∨ d = 9 := by omega
  rcases this with rfl | rfl | rfl | rfl | rfl | rfl | rfl | rfl | rfl | rfl <;> decide

theorem decDigit_plain {d : Nat} (h : d < 10) : decDigit d ≠ '/' ∧ decDigit d ≠ '+' ∧ (decDigit d).utf8Size = 1 := by
  have : d = 0 ∨ d = 1 ∨ d = 2 ∨ d = 3 ∨ d = 4 ∨ d = 5 ∨ d = 6 ∨ d = 7 ∨ d = 8 ∨ d = 9 := by omega
  rcases this with rfl | rfl | rfl | rfl | rfl | rfl | rfl | rfl | rfl | rfl <;> decide

theorem showNat_digits (n : Nat) : showNat n ≠ [] ∧ ∀ c ∈ showNat n, ∃ d, d < 10 ∧ c = decDigit d := by
  induction n using Nat.strongRecOn with
  | _ n ih =>
    rw [showNat]
    split
    · rename_i h; exact ⟨by simp, by intro c hc; simp at hc; exact ⟨n, h, hc⟩⟩
    · rename_i h
      refine ⟨by simp, fun c hc => ?_⟩
      rcases List.mem_append.mp hc with hc | hc
      · exact (ih (n / 10) (by omega)).2 c hc
      · simp at hc; exact ⟨n % 10, Nat.mod_lt _ (by omega), hc⟩

theorem readDec_append (a : Str) : ∀ (acc : Nat) (b : Str), readDec acc (a ++ b) = (readDec acc a).bind (fun x => readDec x b) := by
  induction a with
  | nil => intro acc b; rfl
  | cons c cs ih =>
    intro acc b
    simp only [List.cons_append, readDec]
    split
    · rfl
    · split
      · exact ih _ _
      · rfl

theorem readDec_showNat (n : Nat) (h : n < 2 ^ 64) : readDec 0 (showNat n) = some n := by
  induction n using Nat.strongRecOn with
  | _ n ih =>
    rw [showNat]
    split
    · rename_i hn; simp [readDec, digitVal_decDigit hn, h]
    · rename_i hn
      rw [readDec_append, ih (n / 10) (by omega) (by omega)]
      have hm : n % 10 < 10 := Nat.mod_lt _ (by omega)
      simp only [Option.bind_some, readDec, digitVal_decDigit hm]
      have : n / 10 * 10 + n % 10 = n := by omega
      rw [this, if_pos h]

theorem showNat_plain (n : Nat) : '/' ∉ showNat n ∧ '+' ∉ showNat n := by
  constructor <;> intro h
  · obtain ⟨d, hd, he⟩ := (showNat_digits n).2 _ h; exact (decDigit_plain hd).1 he.symm
  · obtain ⟨d, hd, he⟩ := (showNat_digits n).2 _ h; exact (decDigit_plain hd).2.1 he.symm

theorem strLen_showNat (n : Nat) : strLen (showNat n) = (showNat n).length := by
  have : ∀ l : Str, (∀ c ∈ l, c.utf8Size = 1) → strLen l = l.length := by
    intro l
    induction l with
    | nil => intro _; rfl
    | cons c cs ih =>
      intro h
      have := ih (fun c hc => h c (by simp [hc]))
      simp only [strLen, List.map_cons, List.sum_cons, List.length_cons] at this ⊢
      rw [this, h c (by simp)]
      omega
  apply this
  intro c hc
  obtain ⟨d, hd, rfl⟩ := (showNat_digits n).2 c hc
  exact (decDigit_plain hd).2.2

/-- Reading back what was written. -/
theorem parseU64_showNat (r : UInt64) : parseU64 (showNat r.toNat) = some r := by
  have hr := readDec_showNat r.toNat r.toNat_lt
  obtain ⟨hn, -⟩ := showNat_digits r.toNat
  have hp := (showNat_plain r.toNat).2
  unfold parseU64
  generalize showNat r.toNat = s at *
  cases s with
  | nil => exact absurd rfl hn
  | cons c cs =>
    have hc : c ≠ '+' := fun he => hp (by simp [he])
    simp only
    split
    · rename_i r' he
      injection he with h1 _
      exact absurd h1 hc
    · rw [hr]; simp

theorem takeWhile_append_stop {α : Type} {p : α → Bool} {a : List α} {x : α} {b : List α} (ha : ∀ y ∈ a, p y = true) (hx : p x = false) :
    (a ++ x :: b).takeWhile p = a := by
  induction a with
  | nil => simp [hx]
  | cons y ys ih => simp [ha y (by simp), ih (fun z hz => ha z (by simp [hz]))]

theorem rpcId_extend (u : Str) (r : UInt64) : Endpoint.rpcId ⟨u ++ '/' :: showNat r.toNat⟩ = .ok r := by
  have hn := (showNat_digits r.toNat).1
  have hp := (showNat_plain r.toNat).1
  have hpar := parseU64_showNat r
  generalize showNat r.toNat = d at *
  have ht : ((u ++ '/' :: d).reverse.takeWhile (· != '/')).reverse = d := by
    rw [List.reverse_append, List.reverse_cons, List.append_assoc]
    have : ([('/' : Char)] ++ u.reverse) = '/' :: u.reverse := rfl
    rw [this, takeWhile_append_stop (a := d.reverse)]
    · simp
    · intro y hy
      have : y ≠ '/' := by rintro rfl; exact hp (List.mem_reverse.mp hy)
      simpa using this
    · simp
  unfold Endpoint.rpcId
  rw [if_pos (by simp)]
  simp only [ht, hpar]
  cases d with
  | nil => exact absurd rfl hn
  | cons c cs => rfl

theorem strLen_append (a b : Str) : strLen (a ++ b) = strLen a + strLen b := by simp [strLen]

theorem dropWhile_showNat (n : Nat) : (showNat n).dropWhile (· == '/') = showNat n := by
  have hp := (showNat_plain n).1
  generalize showNat n = d at *
  cases d with
  | nil => rfl
  | cons c cs =>
    have : (c == '/') = false := by simpa using fun he : c = '/' => hp (by simp [he])
    simp [this]

/-! ### C54 -/

/-- C54: extending an endpoint by an rpc id.  It succeeds exactly if the endpoint has three components and the url is not too long, and
then the new endpoint has the same root and scheme, and exactly that id. -/
theorem C54_extend (s : Str) (e : Endpoint) (r : UInt64) (h : Endpoint.parse s = .ok e) :
    (∀ e', e.extend (showNat r.toNat) = .ok e' → e'.root = e.root ∧ e'.scheme = e.scheme ∧ e'.rpcId = .ok r ∧ Endpoint.parse e'.url = .ok e') ∧
    ((∃ e', e.extend (showNat r.toNat) = .ok e') ↔ (urlComps s).length = 3 ∧ strLen s + 1 + (showNat r.toNat).length ≤ 120) := by
  obtain ⟨rfl, h1, h2, h3, h4⟩ := parse_spec h
  have hcomps : urlComps (s ++ '/' :: showNat r.toNat) = urlComps s ++ [showNat r.toNat] := by
    rw [urlComps_append, urlComps_plain (showNat_plain _).1 (showNat_digits _).1]
  have hlen : strLen (s ++ '/' :: showNat r.toNat) = strLen s + 1 + (showNat r.toNat).length := by
    rw [strLen_append]
    have : strLen ('/' :: showNat r.toNat) = 1 + strLen (showNat r.toNat) := by simp only [strLen, List.map_cons, List.sum_cons]; rfl
    rw [this, strLen_showNat]
    omega
  have hext : Endpoint.extend ⟨s⟩ (showNat r.toNat) = Endpoint.parse (s ++ '/' :: showNat r.toNat) := by
    unfold Endpoint.extend; rw [dropWhile_showNat]
  rw [hext]
  refine ⟨fun e' he => ?_, ?_⟩
  · have he' := he
    obtain ⟨rfl, -, -, -, -⟩ := parse_spec he
    refine ⟨?_, ?_, rpcId_extend s r, he'⟩
    · unfold Endpoint.root
      simp only [hcomps]
      match hc : urlComps s with
      | [] => simp [hc] at h3
      | [_] => simp [hc] at h3
      | [_, _] => simp [hc] at h3
      | a :: b :: c :: tl => rfl
    · obtain ⟨a, rest, tl, hs, -, hr⟩ := parse_head h
      obtain ⟨a', rest', tl', hs', hc', hr'⟩ := parse_head he'
      have key : ∀ p : Str, (∃ q, p = '/' :: q ∧ '/' ∉ q) → p.isPrefixOf (s ++ '/' :: showNat r.toNat) = p.isPrefixOf s := by
        rintro p ⟨q, rfl, hq⟩
        rw [Bool.eq_iff_iff, List.isPrefixOf_iff_prefix, List.isPrefixOf_iff_prefix, hs, List.cons_append, List.append_assoc]
        have hr2 : (rest ++ '/' :: showNat r.toNat) = [] ∨ ∃ r', rest ++ '/' :: showNat r.toNat = '/' :: r' := by
          rcases hr with rfl | ⟨w, rfl⟩
          · exact .inr ⟨_, rfl⟩
          · exact .inr ⟨_, rfl⟩
        rw [List.prefix_cons_iff, List.prefix_cons_iff]
        constructor
        · rintro (h | ⟨t, ht, hx⟩)
          · cases h
          · injection ht with _ ht; subst ht
            exact .inr ⟨q, rfl, (prefix_head hq hr).mpr ((prefix_head hq hr2).mp hx)⟩
        · rintro (h | ⟨t, ht, hx⟩)
          · cases h
          · injection ht with _ ht; subst ht
            exact .inr ⟨q, rfl, (prefix_head hq hr2).mpr ((prefix_head hq hr).mp hx)⟩
      unfold Endpoint.scheme
      simp only
      rw [key gossipScheme ⟨"gossip".toList, by decide +kernel, by decide +kernel⟩, key rpcCallScheme ⟨"rpc_call".toList, by decide +kernel, by decide +kernel⟩,
        key rpcRespScheme ⟨"rpc_resp".toList, by decide +kernel, by decide +kernel⟩]
  · constructor
    · rintro ⟨e', he⟩
      obtain ⟨-, h5, -, -, h6⟩ := parse_spec he
      rw [hcomps, List.length_append] at h6
      rw [hlen] at h5
      simp at h6
      omega
    · rintro ⟨h5, h6⟩
      refine ⟨_, parse_ok (by rw [hlen]; exact h6) ?_ (by rw [hcomps]; simp; omega) (by rw [hcomps]; simp; omega)⟩
      rcases h2 with h2 | h2 | h2
      · exact .inl (isPrefixOf_append h2)
      · exact .inr (.inl (isPrefixOf_append h2))
      · exact .inr (.inr (isPrefixOf_append h2))

/-- C54: what is accepted, and that scheme and root are defined (no abort) for every accepted url. -/
theorem C54_total (s : Str) : (∃ err, Endpoint.parse s = .error err) ∨
    (Endpoint.parse s = .ok ⟨s⟩ ∧ strLen s ≤ 120 ∧ ((urlComps s).length = 3 ∨ (urlComps s).length = 4) ∧
      (Endpoint.scheme ⟨s⟩).isSome = true ∧ (Endpoint.root ⟨s⟩).isSome = true) := by
  cases h : Endpoint.parse s with
  | error err => exact .inl ⟨err, rfl⟩
  | ok e =>
    obtain ⟨rfl, h1, h2, h3, h4⟩ := parse_spec h
    refine .inr ⟨rfl, h1, by omega, ?_, ?_⟩
    · unfold Endpoint.scheme
      simp only
      split
      · rfl
      · rename_i a
        split
        · rfl
        · rename_i b
          split
          · rfl
          · rename_i c
            rcases h2 with h2 | h2 | h2
            · exact absurd h2 a
            · exact absurd h2 b
            · exact absurd h2 c
    · unfold Endpoint.root
      simp only
      match hc : urlComps s with
      | [] => simp [hc] at h3
      | [_] => simp [hc] at h3
      | [_, _] => simp [hc] at h3
      | a :: b :: c :: tl => rfl

/-- C54: two accepted urls have the same root iff their first three components are the same, and then the same scheme. -/
theorem C54_root (s t : Str) (d e : Endpoint) (hs : Endpoint.parse s = .ok d) (ht : Endpoint.parse t = .ok e) :
    (d.root = e.root ↔ (urlComps s).take 3 = (urlComps t).take 3) ∧ (d.root = e.root → d.scheme = e.scheme) := by
  have hiff : d.root = e.root ↔ (urlComps s).take 3 = (urlComps t).take 3 := by
    obtain ⟨rfl, -, -, h3, -⟩ := parse_spec hs
    obtain ⟨rfl, -, -, g3, -⟩ := parse_spec ht
    unfold Endpoint.root
    simp only
    have hno := fun c => comps_noSlash (s := s) (c := c)
    have gno := fun c => comps_noSlash (s := t) (c := c)
    match hc : urlComps s with
    | [] => simp [hc] at h3
    | [_] => simp [hc] at h3
    | [_, _] => simp [hc] at h3
    | a :: b :: c :: tl =>
      match gc : urlComps t with
      | [] => simp [gc] at g3
      | [_] => simp [gc] at g3
      | [_, _] => simp [gc] at g3
      | a' :: b' :: c' :: tl' =>
        rw [hc] at hno
        rw [gc] at gno
        have ha := (hno a (by simp)); have hb := (hno b (by simp)); have hcc := (hno c (by simp))
        have ga := (gno a' (by simp)); have gb := (gno b' (by simp)); have gcc := (gno c' (by simp))
        constructor
        · intro h
          injection h with h
          have h' : urlComps ('/' :: a ++ '/' :: b ++ '/' :: c) = urlComps ('/' :: a' ++ '/' :: b' ++ '/' :: c') := by rw [h]
          have hx : ∀ x y z : Str, ('/' ∉ x ∧ x ≠ []) → ('/' ∉ y ∧ y ≠ []) → ('/' ∉ z ∧ z ≠ []) → urlComps ('/' :: x ++ '/' :: y ++ '/' :: z) = [x, y, z] := by
            intro x y z h1 h2 h3
            have : ('/' :: x ++ '/' :: y ++ '/' :: z) = ([] ++ '/' :: x) ++ '/' :: y ++ '/' :: z := by simp
            rw [this, urlComps_append, urlComps_append, urlComps_append, urlComps_plain h1.1 h1.2, urlComps_plain h2.1 h2.2, urlComps_plain h3.1 h3.2]
            rfl
          rw [hx a b c ha hb hcc, hx a' b' c' ga gb gcc] at h'
          simpa using h'
        · intro h
          simp at h
          obtain ⟨rfl, rfl, rfl⟩ := h
          rfl
  refine ⟨hiff, fun h => ?_⟩
  have htake := hiff.mp h
  obtain ⟨a, rest, tl, h1, h2, h3⟩ := parse_head hs
  obtain ⟨a', rest', tl', g1, g2, g3⟩ := parse_head ht
  obtain ⟨rfl, -⟩ := parse_spec hs
  obtain ⟨rfl, -⟩ := parse_spec ht
  rw [h2, g2] at htake
  simp at htake
  obtain ⟨rfl, -⟩ := htake
  have key : ∀ p : Str, (∃ q, p = '/' :: q ∧ '/' ∉ q) → p.isPrefixOf s = p.isPrefixOf t := by
    rintro p ⟨q, rfl, hq⟩
    rw [Bool.eq_iff_iff, List.isPrefixOf_iff_prefix, List.isPrefixOf_iff_prefix, h1, g1, List.prefix_cons_iff, List.prefix_cons_iff]
    constructor <;>
    · rintro (h | ⟨t, ht, hx⟩)
      · cases h
      · injection ht with _ ht; subst ht
        first
        | exact .inr ⟨q, rfl, (prefix_head hq g3).mpr ((prefix_head hq h3).mp hx)⟩
        | exact .inr ⟨q, rfl, (prefix_head hq h3).mpr ((prefix_head hq g3).mp hx)⟩
  unfold Endpoint.scheme
  simp only
  rw [key gossipScheme ⟨"gossip".toList, by decide +kernel, by decide +kernel⟩, key rpcCallScheme ⟨"rpc_call".toList, by decide +kernel, by decide +kernel⟩,
    key rpcRespScheme ⟨"rpc_resp".toList, by decide +kernel, by decide +kernel⟩]

/-- C54: routing depends only on the first three components. -/
theorem C54_route {R : Type} (m : Reactors R) (s t : Str) (d e : Endpoint) (hs : Endpoint.parse s = .ok d) (ht : Endpoint.parse t = .ok e)
    (h : (urlComps s).take 3 = (urlComps t).take 3) : m.route s = m.route t := by
  have hr := (C54_root s t d e hs ht).1.mpr h
  unfold Reactors.route
  rw [hs, ht]
  simp only [hr]

/-- C54: a message goes to the reactor registered last for its first three components; other registrations do not matter. -/
theorem C54_register {R : Type} (m : Reactors R) (s t : Str) (d e : Endpoint) (x : R) (hs : Endpoint.parse s = .ok d) (ht : Endpoint.parse t = .ok e) :
    ((urlComps t).take 3 = (urlComps s).take 3 → (m.register d x).route t = .ok x) ∧
    ((urlComps t).take 3 ≠ (urlComps s).take 3 → (m.register d x).route t = m.route t) := by
  have hr := (C54_root s t d e hs ht).1
  unfold Reactors.route Reactors.register
  rw [ht]
  simp only
  constructor
  · intro h
    have := hr.mpr h.symm
    simp [this]
  · intro h
    have hne : d.root ≠ e.root := fun he => h (hr.mp he).symm
    have hf : (m.filter (fun x => x.1.root != d.root)).find? (fun x => x.1.root == e.root) = m.find? (fun x => x.1.root == e.root) := by
      rw [List.find?_filter]
      congr 1
      funext y
      by_cases hy : y.1.root = e.root
      · simp [hy, Ne.symm hne]
      · simp [hy]
    rw [List.find?_cons_of_neg (by simp [hne]), hf]

/-- The three schemes as components. -/
def schemeNames : List Str := ["gossip".toList, "rpc_call".toList, "rpc_resp".toList]

/-- C54 is false in one point: a url whose first component is none of the schemes but begins with one is accepted. -/
theorem C54_refuted : ∃ s : Str, (urlComps s).head? = some "gossipx".toList ∧ "gossipx".toList ∉ schemeNames ∧
    (Endpoint.parse s).toOption = some ⟨s⟩ ∧ Endpoint.scheme ⟨s⟩ = some .gossip :=
  ⟨"/gossipx/mempool/new_txs".toList, by decide +kernel, by decide +kernel, by decide +kernel, by decide +kernel⟩

/-- The endpoints of the node are accepted, and can be extended by any id. -/
example : ∀ r : UInt64, ∃ e, Endpoint.parse "/rpc_call/consensus/sync_pull".toList = .ok e ∧ ∃ e', e.extend (showNat r.toNat) = .ok e' := by
  intro r
  have hp : Endpoint.parse "/rpc_call/consensus/sync_pull".toList = .ok ⟨"/rpc_call/consensus/sync_pull".toList⟩ :=
    parse_ok (by decide +kernel) (.inr (.inl (by decide +kernel))) (by decide +kernel) (by decide +kernel)
  refine ⟨_, hp, ((C54_extend _ _ r hp).2).mpr ⟨by decide +kernel, ?_⟩⟩
  have hl : ∀ k n, n < 10 ^ (k + 1) → (showNat n).length ≤ k + 1 := by
    intro k
    induction k with
    | zero => intro n hn; rw [showNat, if_pos (by omega)]; simp
    | succ k ih =>
      intro n hn
      rw [showNat]
      split
      · simp
      · have := ih (n / 10) (by rw [Nat.pow_succ] at hn; omega)
        simp; omega
  have h20 := hl 19 r.toNat (Nat.lt_of_lt_of_le r.toNat_lt (by decide))
  have : strLen "/rpc_call/consensus/sync_pull".toList = 29 := by decide +kernel
  omega

end Huobi
