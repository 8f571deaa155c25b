import Verif.Proof.Mpt
import Verif.Proof.ByteExecutor
/-
Coding and storage of trie nodes: lemmas for C96 and C97.
-/
namespace Huobi
namespace Mpt

/-! ### Paths -/

theorem nib_ofNat (x : Nib) : Fin.ofNat 16 x.val = x := by
  apply Fin.ext
  simp only [Fin.ofNat, Fin.val_mk]
  exact Nat.mod_eq_of_lt x.isLt

theorem nibbles_pack : ∀ (p : List Nib), p.length % 2 = 0 → nibblesOf (pack p) = p
  | [], _ => rfl
  | [_], h => by simp at h
  | x :: y :: r, h => by
    have hx := x.isLt
    have hy := y.isLt
    have e : (UInt8.ofNat (x.val * 16 + y.val)).toNat = x.val * 16 + y.val := ofNat_toNat (by omega)
    simp only [pack, nibblesOf, e]
    rw [show (x.val * 16 + y.val) / 16 = x.val by omega, show (x.val * 16 + y.val) % 16 = y.val by omega, nib_ofNat, nib_ofNat,
      nibbles_pack r (by simp only [List.length_cons] at h; omega)]

theorem uncompact_compact (l : Bool) (p : List Nib) : uncompact (compact l p) = some (l, p) := by
  unfold compact
  simp only
  split
  · rename_i x r h
    have hx := x.isLt
    have hr : r.length % 2 = 0 := by simp only [List.length_cons] at h; omega
    cases l
    · have e : (UInt8.ofNat ((0 + 1) * 16 + x.val)).toNat = 16 + x.val := ofNat_toNat (by omega)
      simp only [Bool.false_eq_true, if_false, uncompact, e]
      rw [if_neg (by omega), if_pos (by omega), show (16 + x.val) % 16 = x.val by omega, nib_ofNat, nibbles_pack r hr]
    · have e : (UInt8.ofNat ((2 + 1) * 16 + x.val)).toNat = 48 + x.val := ofNat_toNat (by omega)
      simp only [if_true, uncompact, e]
      rw [if_neg (by omega), if_neg (by omega), if_neg (by omega), if_pos (by omega), show (48 + x.val) % 16 = x.val by omega, nib_ofNat,
        nibbles_pack r hr]
  · rename_i p _ _ hn
    have hp : p.length % 2 = 0 := by
      rcases Nat.mod_two_eq_zero_or_one p.length with h | h
      · exact h
      · cases p with
        | nil => rfl
        | cons x r => exact (hn x r h rfl).elim
    cases l
    · show (some (false, nibblesOf (pack p)) : Option (Bool × List Nib)) = _
      rw [nibbles_pack p hp]
    · show (some (true, nibblesOf (pack p)) : Option (Bool × List Nib)) = _
      rw [nibbles_pack p hp]

theorem compact_inj {l l' : Bool} {p p' : List Nib} (h : compact l p = compact l' p') : l = l' ∧ p = p' := by
  have := congrArg uncompact h
  rw [uncompact_compact, uncompact_compact] at this
  simpa using this

/-! ### Nodes -/

/-- The nodes of a trie are shorter than 2^64 bytes. -/
def Fits (digest : Bytes → Hash) (t : Mpt) : Prop := ∀ b ∈ t.codings digest, b.length < 2 ^ 64

variable {digest : Bytes → Hash}

theorem coding_mem (t : Mpt) : t.coding digest ∈ t.codings digest := by cases t <;> exact .head _

theorem codings_ext {p : List Nib} {c : Mpt} {b : Bytes} (h : b ∈ c.codings digest) : b ∈ (ext p c).codings digest := .tail _ h
theorem codings_kid {kids : Nib → Mpt} {v : Option Bytes} (i : Nib) {b : Bytes} (h : b ∈ (kids i).codings digest) :
    b ∈ (branch kids v).codings digest := by
  refine .tail _ (List.mem_flatten.2 ⟨_, ?_, h⟩)
  exact List.mem_ofFn.2 ⟨i, rfl⟩

theorem Fits.ext {p : List Nib} {c : Mpt} (h : Fits digest (.ext p c)) : Fits digest c := fun b hb => h b (codings_ext hb)
theorem Fits.kid {kids : Nib → Mpt} {v : Option Bytes} (h : Fits digest (branch kids v)) (i : Nib) : Fits digest (kids i) :=
  fun b hb => h b (codings_kid i hb)
theorem Fits.self {t : Mpt} (h : Fits digest t) : (t.item digest).enc.length < 2 ^ 64 := h _ (coding_mem t)

theorem item_data {t : Mpt} {b : Bytes} (h : t.item digest = .data b) : b = [] := by
  cases t with
  | empty => cases h; rfl
  | leaf p v => cases h
  | ext p c => cases h
  | branch kids v => cases h

theorem enc_inj {x y : Item} (hx : x.enc.length < 2 ^ 64) (hy : y.enc.length < 2 ^ 64) (h : x.enc = y.enc) : x = y := by
  have a := C43_tree_round_trip x [] hx
  have b := C43_tree_round_trip y [] hy
  rw [List.append_nil] at a b
  rw [h, b] at a
  exact (Option.some.inj a).symm

/-- The hash function tells the nodes of the two tries apart. -/
def Apart (digest : Bytes → Hash) (t t' : Mpt) : Prop :=
  ∀ a ∈ t.codings digest, ∀ b ∈ t'.codings digest, digest a = digest b → a = b

theorem ref_inj {t t' : Mpt} (f : Fits digest t) (f' : Fits digest t') (ha : Apart digest t t')
    (h : ref digest (t.item digest) = ref digest (t'.item digest)) : t.item digest = t'.item digest := by
  unfold ref at h
  split at h
  · split at h
    · exact h
    · have := item_data h
      have := congrArg List.length this
      rw [Hash.size] at this
      cases this
  · split at h
    · have := item_data h.symm
      have := congrArg List.length this
      rw [Hash.size] at this
      cases this
    · injection h with h
      exact enc_inj f.self f'.self (ha _ (coding_mem t) _ (coding_mem t') (Hash.bytes_inj h))

theorem item_inj {t t' : Mpt} (w : WF t) (w' : WF t') (f : Fits digest t) (f' : Fits digest t') (ha : Apart digest t t')
    (h : t.item digest = t'.item digest) : t = t' := by
  induction t generalizing t' with
  | empty =>
    cases t' with
    | empty => rfl
    | leaf => cases h
    | ext => cases h
    | branch => cases h
  | leaf p v =>
    cases t' with
    | empty => cases h
    | leaf p' v' =>
      simp only [item, Item.list.injEq, List.cons.injEq, Item.data.injEq, and_true] at h
      rw [(compact_inj h.1).2, h.2]
    | ext p' c' =>
      simp only [item, Item.list.injEq, List.cons.injEq, Item.data.injEq, and_true] at h
      have := (compact_inj h.1).1
      cases this
    | branch kids' v' =>
      simp only [item, Item.list.injEq] at h
      have := congrArg List.length h
      simp at this
  | ext p c ih =>
    cases t' with
    | empty => cases h
    | leaf p' v' =>
      simp only [item, Item.list.injEq, List.cons.injEq, Item.data.injEq, and_true] at h
      have := (compact_inj h.1).1
      cases this
    | ext p' c' =>
      simp only [item, Item.list.injEq, List.cons.injEq, Item.data.injEq, and_true] at h
      have hac : Apart digest c c' := fun a h1 b h2 => ha a (codings_ext h1) b (codings_ext h2)
      rw [(compact_inj h.1).2, ih w.2.2 w'.2.2 f.ext f'.ext hac (ref_inj f.ext f'.ext hac h.2)]
    | branch kids' v' =>
      simp only [item, Item.list.injEq] at h
      have := congrArg List.length h
      simp at this
  | branch kids v ih =>
    cases t' with
    | empty => cases h
    | leaf p' v' =>
      simp only [item, Item.list.injEq] at h
      have := congrArg List.length h
      simp at this
    | ext p' c' =>
      simp only [item, Item.list.injEq] at h
      have := congrArg List.length h
      simp at this
    | branch kids' v' =>
      simp only [item, Item.list.injEq] at h
      obtain ⟨h1, h2⟩ := List.append_inj h (by simp)
      have hk : kids = kids' := by
        funext i
        have hac : Apart digest (kids i) (kids' i) := fun a h1 b h2 => ha a (codings_kid i h1) b (codings_kid i h2)
        have := congrArg (fun l => l[i.val]?) h1
        simp only [List.getElem?_ofFn, i.isLt, dif_pos, Option.some.injEq] at this
        exact ih i (w.1 i) (w'.1 i) (f.kid i) (f'.kid i) hac (ref_inj (f.kid i) (f'.kid i) hac this)
      have hv : v = v' := by
        simp only [List.cons.injEq, Item.data.injEq, and_true] at h2
        have n := w.2.1
        have n' := w'.2.1
        cases v <;> cases v' <;> simp_all
      rw [hk, hv]

/-- Tries with the same root are the same trie. -/
theorem root_inj {t t' : Mpt} (w : WF t) (w' : WF t') (f : Fits digest t) (f' : Fits digest t') (ha : Apart digest t t')
    (h : t.root digest = t'.root digest) : t = t' :=
  item_inj w w' f f' ha (enc_inj f.self f'.self (ha _ (coding_mem t) _ (coding_mem t') h))

/-! ### Loading -/

/-- A bound on the nesting of a trie's nodes. -/
def depth : Mpt → Nat
  | empty => 1
  | leaf _ _ => 1
  | ext _ c => 2 + depth c
  | branch kids _ => 2 + (List.ofFn (fun i => depth (kids i))).sum

theorem le_sum {l : List Nat} {n : Nat} (h : n ∈ l) : n ≤ l.sum := by
  induction l with
  | nil => cases h
  | cons x l ih =>
    simp only [List.sum_cons]
    rcases List.mem_cons.1 h with rfl | h
    · omega
    · have := ih h; omega

end Mpt

namespace TrieDb

open Mpt

theorem load_hash (db : TrieDb) (n : Nat) {h : Bytes} (hl : h.length = 32) :
    db.load (n + 1) (.data h) = (match db.get h with
      | none => none
      | some b => match Rlp.tree b with
        | none => none
        | some x => db.load n x) := by
  cases h with
  | nil => cases hl
  | cons a h => simp only [load]; rw [if_pos hl]; rfl

theorem load_leaf (db : TrieDb) (n : Nat) (p : List Nib) (v : Bytes) :
    db.load (n + 1) (.list [.data (compact true p), .data v]) = some (.leaf p v) := by
  simp only [load, uncompact_compact]

theorem load_ext (db : TrieDb) (n : Nat) (p : List Nib) (x : Item) :
    db.load (n + 1) (.list [.data (compact false p), x]) = (db.load n x).map (.ext p) := by
  simp only [load, uncompact_compact]

theorem load_seventeen (db : TrieDb) (n : Nat) (xs : List Item) (hl : xs.length = 17) :
    db.load (n + 1) (.list xs) = (match xs.drop 16 with
      | [.data v] => match (xs.take 16).mapM (db.load n) with
        | none => none
        | some ks => some (.branch (fun i => ks.getD i.val .empty) (if v = [] then none else some v))
      | _ => none) := by
  match xs, hl with
  | a :: b :: c :: r, hl =>
    cases a <;> (simp only [load]; rw [if_neg (by simp only [ne_eq, hl, not_true_eq_false, not_false_eq_true])]; rfl)

/-- The database holds the nodes `bs` under their hashes. -/
def Holds (digest : Bytes → Hash) (db : TrieDb) (bs : List Bytes) : Prop := ∀ b ∈ bs, db.get (digest b).bytes = some b

variable {digest : Bytes → Hash}

theorem load_ref {db : TrieDb} {t : Mpt} {n : Nat} (f : Mpt.Fits digest t)
    (hs : ∀ b ∈ t.codings digest, 32 ≤ b.length → db.get (digest b).bytes = some b)
    (hl : ∀ m, n ≤ m → db.load m (t.item digest) = some t) : ∀ m, n + 1 ≤ m → db.load m (ref digest (t.item digest)) = some t := by
  intro m hm
  unfold ref
  split
  · exact hl m (by omega)
  · rename_i h
    obtain ⟨m, rfl⟩ : ∃ k, m = k + 1 := ⟨m - 1, by omega⟩
    have hg : db.get (digest (t.item digest).enc).bytes = some (t.item digest).enc := hs (t.item digest).enc (coding_mem t) (by omega)
    have hr : Rlp.tree (t.item digest).enc = some (t.item digest) := by simpa using C43_tree_round_trip _ [] f.self
    rw [load_hash _ _ (Hash.size _), hg]
    simp only [hr]
    exact hl m (by omega)

theorem load_item {db : TrieDb} {t : Mpt} (w : WF t) (f : Mpt.Fits digest t)
    (hs : ∀ b ∈ t.codings digest, 32 ≤ b.length → db.get (digest b).bytes = some b) :
    ∀ m, t.depth ≤ m → db.load m (t.item digest) = some t := by
  induction t with
  | empty => intro m hm; obtain ⟨m, rfl⟩ : ∃ k, m = k + 1 := ⟨m - 1, by simp only [depth] at hm; omega⟩; rfl
  | leaf p v => intro m hm; obtain ⟨m, rfl⟩ : ∃ k, m = k + 1 := ⟨m - 1, by simp only [depth] at hm; omega⟩; exact load_leaf ..
  | ext p c ih =>
    intro m hm
    simp only [depth] at hm
    obtain ⟨m, rfl⟩ : ∃ k, m = k + 1 := ⟨m - 1, by omega⟩
    have hs' := fun b hb => hs b (codings_ext hb)
    have := load_ref f.ext hs' (ih w.2.2 f.ext hs') m (by omega)
    rw [item, load_ext, this]
    rfl
  | branch kids v ih =>
    intro m hm
    simp only [depth] at hm
    obtain ⟨m, rfl⟩ : ∃ k, m = k + 1 := ⟨m - 1, by omega⟩
    have hk : ∀ i, db.load m (ref digest ((kids i).item digest)) = some (kids i) := by
      intro i
      have hs' := fun b hb => hs b (codings_kid (v := v) i hb)
      have hd : (kids i).depth ≤ (List.ofFn (fun i => (kids i).depth)).sum := le_sum (List.mem_ofFn.2 ⟨i, rfl⟩)
      exact load_ref (f.kid i) hs' (ih i (w.1 i) (f.kid i) hs') m (by omega)
    have hlen : (List.ofFn (fun i => ref digest ((kids i).item digest))).length = 16 := List.length_ofFn
    have htake : (List.ofFn (fun i => ref digest ((kids i).item digest)) ++ [Item.data (v.getD [])]).take 16 =
        List.ofFn (fun i => ref digest ((kids i).item digest)) := List.take_left' hlen
    have hdrop : (List.ofFn (fun i => ref digest ((kids i).item digest)) ++ [Item.data (v.getD [])]).drop 16 =
        [Item.data (v.getD [])] := List.drop_left' hlen
    have hmap : (List.ofFn (fun i => ref digest ((kids i).item digest))).mapM (db.load m) = some (List.ofFn kids) := by
      have : List.ofFn (fun i => ref digest ((kids i).item digest)) = (List.ofFn kids).map (fun t => ref digest (t.item digest)) := by
        rw [List.map_ofFn]; rfl
      rw [this]
      apply Rlp.mapM_map_some
      intro x hx
      obtain ⟨i, rfl⟩ := List.mem_ofFn.1 hx
      exact hk i
    rw [item, load_seventeen _ _ _ (by rw [List.length_append, hlen]; rfl), htake, hdrop, hmap]
    simp only [Option.some.injEq, Mpt.branch.injEq]
    refine ⟨funext fun i => ?_, ?_⟩
    · rw [List.getD_eq_getElem?_getD, List.getElem?_ofFn, dif_pos i.isLt]; rfl
    · have n := w.2.1
      cases v with
      | none => rfl
      | some x =>
        have : x ≠ [] := fun h => n (by rw [h])
        simp [this]

/-- A trie whose nodes are in the database can be opened at its root. -/
theorem opens_of_holds {db : TrieDb} {t : Mpt} (w : WF t) (f : Mpt.Fits digest t) (hs : Holds digest db (t.stored digest)) :
    db.Opens (t.root digest) t := by
  have hs' : ∀ b ∈ t.codings digest, 32 ≤ b.length → db.get (digest b).bytes = some b := fun b hb hl =>
    hs b (.tail _ (List.mem_filter.2 ⟨hb, decide_eq_true hl⟩))
  refine ⟨t.depth + 1, ?_⟩
  have hr : Rlp.tree (t.coding digest) = some (t.item digest) := by simpa [coding] using C43_tree_round_trip _ [] f.self
  rw [load_hash _ _ (Hash.size _), show db.get (t.root digest).bytes = some (t.coding digest) from hs _ (.head _)]
  simp only [hr]
  exact load_item w f hs' _ (Nat.le_refl _)

theorem mapM_mono {f g : Item → Option Mpt} (h : ∀ x t, f x = some t → g x = some t) (xs : List Item) :
    ∀ ts, xs.mapM f = some ts → xs.mapM g = some ts := by
  induction xs with
  | nil => intro ts h; exact h
  | cons x xs ih =>
    intro ts hts
    simp only [List.mapM_cons] at hts ⊢
    cases hx : f x with
    | none => rw [hx] at hts; cases hts
    | some t =>
      rw [hx] at hts
      cases hr : xs.mapM f with
      | none => simp [hr] at hts
      | some r =>
        rw [h x t hx, ih r hr]
        rw [hr] at hts
        exact hts

theorem load_mono (db : TrieDb) (n : Nat) : ∀ x t, db.load n x = some t → db.load (n + 1) x = some t := by
  induction n with
  | zero => intro x t h; cases h
  | succ n ih =>
    intro x t h
    unfold load at h
    split at h
    · rename_i e; cases e
    · exact h
    · rename_i k b _ e
      cases e
      split at h
      · rename_i hl
        rw [load_hash _ _ hl]
        split at h
        · cases h
        · split at h
          · cases h
          · rename_i hg _ _ ht
            rw [hg]
            simp only [ht]
            exact ih _ _ h
      · cases h
    · rename_i k p x e
      cases e
      simp only [load]
      split at h
      · cases h
      · exact h
      · cases hx : db.load n x with
        | none => rw [hx] at h; cases h
        | some c =>
          rw [hx] at h
          rw [ih _ _ hx]; exact h
    · rename_i k xs hn e
      cases e
      split at h
      · cases h
      · rename_i hl
        have hl : xs.length = 17 := Classical.byContradiction hl
        rw [load_seventeen _ _ _ hl]
        split at h
        · rename_i v hd
          rw [hd]
          simp only
          split at h
          · cases h
          · rename_i ks hm
            rw [mapM_mono ih _ _ hm]; exact h
        · cases h

theorem load_le (db : TrieDb) {n m : Nat} (h : n ≤ m) {x : Item} {t : Mpt} (hx : db.load n x = some t) : db.load m x = some t := by
  obtain ⟨d, rfl⟩ : ∃ d, m = n + d := ⟨m - n, by omega⟩
  clear h
  induction d with
  | zero => exact hx
  | succ d ih => exact load_mono db _ _ _ ih

/-- A root names one trie. -/
theorem opens_unique {db : TrieDb} {r : Hash} {t t' : Mpt} (h : db.Opens r t) (h' : db.Opens r t') : t = t' := by
  obtain ⟨n, h⟩ := h
  obtain ⟨m, h'⟩ := h'
  have a := load_le db (Nat.le_max_left n m) h
  have b := load_le db (Nat.le_max_right n m) h'
  rw [a] at b
  exact Option.some.inj b

/-! ### A database whose entries are what they claim to be -/

theorem mapM_each {f : Item → Option Mpt} : ∀ (xs : List Item) (ts : List Mpt), xs.mapM f = some ts →
    ∀ (i : Nat) (x : Item), xs[i]? = some x → ∃ t, ts[i]? = some t ∧ f x = some t
  | [], ts, _, i, x, hi => by simp at hi
  | y :: xs, ts, h, i, x, hi => by
    simp only [List.mapM_cons] at h
    cases hy : f y with
    | none => rw [hy] at h; cases h
    | some t =>
      rw [hy] at h
      cases hr : xs.mapM f with
      | none => simp [hr] at h
      | some r =>
        rw [hr] at h
        have e : ts = t :: r := by simpa using h.symm
        subst e
        cases i with
        | zero => simp only [List.getElem?_cons_zero, Option.some.injEq] at hi; subst hi; exact ⟨t, rfl, hy⟩
        | succ i => simp only [List.getElem?_cons_succ] at hi ⊢; exact mapM_each xs r hr i x hi

/-- What is loaded in place of a node is that node, and all nodes below it are there. -/
def Honest (digest : Bytes → Hash) (db : TrieDb) (x : Item) (t : Mpt) (self : Bytes → Prop) : Prop :=
  ∀ m t', db.load m x = some t' → t' = t ∧ ∀ b ∈ t.codings digest, self b ∨ (32 ≤ b.length → db.get (digest b).bytes = some b)

theorem honest_ref {db : TrieDb} {t : Mpt} (f : Mpt.Fits digest t)
    (hs : ∀ b ∈ t.codings digest, 32 ≤ b.length → ∀ v, db.get (digest b).bytes = some v → v = b)
    (hl : Honest digest db (t.item digest) t (· = t.coding digest)) :
    Honest digest db (ref digest (t.item digest)) t (fun _ => False) := by
  intro m t' h
  unfold ref at h
  split at h
  · rename_i hlen
    obtain ⟨e, hb⟩ := hl m t' h
    refine ⟨e, fun b hm => .inr fun h32 => ?_⟩
    rcases hb b hm with rfl | hb
    · exact absurd h32 (by unfold coding; omega)
    · exact hb h32
  · rename_i hlen
    cases m with
    | zero => cases h
    | succ m =>
      rw [load_hash _ _ (Hash.size _)] at h
      split at h
      · cases h
      · rename_i v hv
        have e : v = (t.item digest).enc := hs (t.item digest).enc (coding_mem t) (by omega) v hv
        subst e
        have hr : Rlp.tree (t.item digest).enc = some (t.item digest) := by simpa using C43_tree_round_trip _ [] f.self
        rw [hr] at h
        obtain ⟨e, hb⟩ := hl m t' h
        refine ⟨e, fun b hm => .inr fun h32 => ?_⟩
        rcases hb b hm with rfl | hb
        · exact hv
        · exact hb h32

theorem honest_item {db : TrieDb} {t : Mpt} (w : WF t) (f : Mpt.Fits digest t)
    (hs : ∀ b ∈ t.codings digest, 32 ≤ b.length → ∀ v, db.get (digest b).bytes = some v → v = b) :
    Honest digest db (t.item digest) t (· = t.coding digest) := by
  induction t with
  | empty =>
    intro m t' h
    cases m with
    | zero => cases h
    | succ m =>
      have e : t' = .empty := by
        have : db.load (m + 1) (Mpt.empty.item digest) = some .empty := rfl
        rw [this] at h; exact (Option.some.inj h).symm
      exact ⟨e, fun b hb => .inl (by simpa [codings, coding] using hb)⟩
  | leaf p v =>
    intro m t' h
    cases m with
    | zero => cases h
    | succ m =>
      rw [item, load_leaf] at h
      exact ⟨(Option.some.inj h).symm, fun b hb => .inl (by simpa [codings, coding] using hb)⟩
  | ext p c ih =>
    intro m t' h
    cases m with
    | zero => cases h
    | succ m =>
      rw [item, load_ext] at h
      have hs' := fun b hb => hs b (codings_ext hb)
      have hc := honest_ref f.ext hs' (ih w.2.2 f.ext hs')
      cases hx : db.load m (ref digest (c.item digest)) with
      | none => rw [hx] at h; cases h
      | some c' =>
        rw [hx] at h
        obtain ⟨rfl, hb⟩ := hc m c' hx
        refine ⟨(Option.some.inj h).symm, fun b hm => ?_⟩
        rcases List.mem_cons.1 hm with rfl | hm
        · exact .inl rfl
        · exact .inr ((hb b hm).resolve_left id)
  | branch kids v ih =>
    intro m t' h
    cases m with
    | zero => cases h
    | succ m =>
      have hk : ∀ i, Honest digest db (ref digest ((kids i).item digest)) (kids i) (fun _ => False) := fun i =>
        have hs' := fun b hb => hs b (codings_kid (v := v) i hb)
        honest_ref (f.kid i) hs' (ih i (w.1 i) (f.kid i) hs')
      have hlen : (List.ofFn (fun i => ref digest ((kids i).item digest))).length = 16 := List.length_ofFn
      have htake : (List.ofFn (fun i => ref digest ((kids i).item digest)) ++ [Item.data (v.getD [])]).take 16 =
          List.ofFn (fun i => ref digest ((kids i).item digest)) := List.take_left' hlen
      have hdrop : (List.ofFn (fun i => ref digest ((kids i).item digest)) ++ [Item.data (v.getD [])]).drop 16 =
          [Item.data (v.getD [])] := List.drop_left' hlen
      rw [item, load_seventeen _ _ _ (by rw [List.length_append, hlen]; rfl), htake, hdrop] at h
      simp only at h
      split at h
      · cases h
      · rename_i ks hm
        have each : ∀ i : Nib, ks.getD i.val .empty = kids i ∧
            ∀ b ∈ (kids i).codings digest, 32 ≤ b.length → db.get (digest b).bytes = some b := by
          intro i
          obtain ⟨t, h1, h2⟩ := mapM_each _ _ hm i.val (ref digest ((kids i).item digest))
            (by rw [List.getElem?_ofFn, dif_pos i.isLt])
          obtain ⟨e, hb⟩ := hk i m t h2
          refine ⟨?_, fun b hm => (hb b hm).resolve_left id⟩
          rw [List.getD_eq_getElem?_getD, h1, e]; rfl
        refine ⟨?_, fun b hb => ?_⟩
        · have e := (Option.some.inj h).symm
          rw [e]
          simp only [Mpt.branch.injEq]
          refine ⟨funext fun i => (each i).1, ?_⟩
          have n := w.2.1
          cases v with
          | none => rfl
          | some x =>
            have : x ≠ [] := fun h => n (by rw [h])
            simp [this]
        · rcases List.mem_cons.1 hb with rfl | hb
          · exact .inl rfl
          · obtain ⟨l, hl, hb⟩ := List.mem_flatten.1 hb
            obtain ⟨i, rfl⟩ := List.mem_ofFn.1 hl
            exact .inr ((each i).2 b hb)

/-- In a database whose entries are genuine, only the trie with a given root can be opened there, and all its nodes are in
the database then. -/
theorem opens_honest {db : TrieDb} {t : Mpt} (w : WF t) (f : Mpt.Fits digest t)
    (hs : ∀ b ∈ t.stored digest, ∀ v, db.get (digest b).bytes = some v → v = b) {t' : Mpt}
    (h : db.Opens (t.root digest) t') : t' = t ∧ Holds digest db (t.stored digest) := by
  obtain ⟨m, h⟩ := h
  cases m with
  | zero => cases h
  | succ m =>
    rw [load_hash _ _ (Hash.size _)] at h
    split at h
    · cases h
    · rename_i v hv
      have e : v = t.coding digest := hs (t.coding digest) (.head _) v hv
      subst e
      have hr : Rlp.tree (t.coding digest) = some (t.item digest) := by simpa [coding] using C43_tree_round_trip _ [] f.self
      rw [hr] at h
      have hs' : ∀ b ∈ t.codings digest, 32 ≤ b.length → ∀ v, db.get (digest b).bytes = some v → v = b := fun b hb hl =>
        hs b (.tail _ (List.mem_filter.2 ⟨hb, decide_eq_true hl⟩))
      obtain ⟨e, hb⟩ := honest_item w f hs' m t' h
      refine ⟨e, fun b hm => ?_⟩
      rcases List.mem_cons.1 hm with rfl | hm
      · exact hv
      · obtain ⟨hm, hl⟩ := List.mem_filter.1 hm
        rcases hb b hm with rfl | hb
        · exact hv
        · exact hb (of_decide_eq_true hl)

end TrieDb
end Huobi
