import Verif.Model.TxMap
import Mathlib.Data.Fintype.BigOperators
import Mathlib.Algebra.BigOperators.Fin
/-
The sharded map refines one finite map.
-/
namespace Huobi

namespace Bucket

variable {V : Type}

/-- Keys of a bucket. -/
def keys (b : Bucket V) : List Hash := b.map Prod.fst

theorem get_isSome_iff (b : Bucket V) (h : Hash) : (Bucket.get h b).isSome ↔ h ∈ b.keys := by
  induction b with
  | nil => simp [get, keys]
  | cons p rest ih =>
    obtain ⟨k, v⟩ := p
    simp only [get, keys, List.map_cons, List.mem_cons]
    split
    · simp_all
    · rename_i hne; rw [ih]; simp [hne, keys]

theorem get_insert (b : Bucket V) (h : Hash) (v : V) (k : Hash) :
    Bucket.get k (b.insert h v).2 = if k = h ∧ b.containsKey h = false then some v else Bucket.get k b := by
  unfold insert
  split
  · rename_i hc; simp [hc]
  · rename_i hc
    simp only [get]
    by_cases hk : k = h <;> simp [hk, hc]

theorem get_remove (b : Bucket V) (hnd : b.keys.Nodup) (h k : Hash) :
    Bucket.get k (Bucket.remove h b) = if k = h then none else Bucket.get k b := by
  induction b with
  | nil => simp [remove, get]
  | cons p rest ih =>
    obtain ⟨k', v⟩ := p
    simp only [keys, List.map_cons, List.nodup_cons] at hnd
    obtain ⟨hn, hnd⟩ := hnd
    simp only [remove]
    split
    · rename_i he
      subst he
      by_cases hk : k = h
      · subst hk
        simp only [if_true]
        cases hg : Bucket.get k rest with
        | none => rfl
        | some x =>
          exact absurd ((get_isSome_iff rest k).1 (by simp [hg])) hn
      · simp [get, hk]
    · rename_i hne
      simp only [get]
      split
      · rename_i hk
        subst hk
        have : k ≠ h := fun hh => hne hh.symm
        simp [this]
      · rw [ih hnd]

theorem remove_sublist (h : Hash) (b : Bucket V) : List.Sublist (Bucket.remove h b) b := by
  induction b with
  | nil => exact List.Sublist.slnil
  | cons p rest ih =>
    obtain ⟨k', v⟩ := p
    simp only [remove]
    split
    · exact List.sublist_cons_self _ _
    · exact ih.cons_cons _

theorem nodup_remove (h : Hash) (b : Bucket V) (hnd : b.keys.Nodup) : (Bucket.remove h b).keys.Nodup :=
  hnd.sublist ((remove_sublist h b).map _)

theorem nodup_insert (b : Bucket V) (hnd : b.keys.Nodup) (h : Hash) (v : V) : (b.insert h v).2.keys.Nodup := by
  unfold insert
  split
  · exact hnd
  · rename_i hc
    simp only [keys, List.map_cons, List.nodup_cons]
    refine ⟨fun hm => hc ?_, hnd⟩
    exact (get_isSome_iff b h).2 hm

theorem nodup_deletes (hs : List Hash) (b : Bucket V) (hnd : b.keys.Nodup) : (b.deletes hs).keys.Nodup := by
  induction hs generalizing b with
  | nil => exact hnd
  | cons h hs ih => exact ih _ (nodup_remove h b hnd)

theorem get_deletes (hs : List Hash) (b : Bucket V) (hnd : b.keys.Nodup) (k : Hash) :
    Bucket.get k (b.deletes hs) = if k ∈ hs then none else Bucket.get k b := by
  induction hs generalizing b with
  | nil => simp [deletes]
  | cons h hs ih =>
    have := ih (Bucket.remove h b) (nodup_remove h b hnd)
    show Bucket.get k ((Bucket.remove h b).deletes hs) = _
    rw [this, get_remove b hnd]
    by_cases h1 : k = h <;> by_cases h2 : k ∈ hs <;> simp [h1, h2]

end Bucket

namespace TxMap

variable {V : Type}

/-- Every bucket has distinct keys that belong to it. -/
structure WF (m : TxMap V) : Prop where
  nodup : ∀ i, (m i).keys.Nodup
  place : ∀ i h, h ∈ (m i).keys → h.index = i

theorem wf_new : (new : TxMap V).WF := ⟨fun _ => List.nodup_nil, fun _ _ h => by cases h⟩

theorem wf_insert {m : TxMap V} (w : m.WF) (h : Hash) (v : V) : (m.insert h v).2.WF := by
  refine ⟨fun i => ?_, fun i k hk => ?_⟩
  · simp only [insert, setBucket]
    split
    · exact Bucket.nodup_insert _ (w.nodup _) h v
    · exact w.nodup i
  · simp only [insert, setBucket] at hk
    split at hk
    · rename_i hi
      rw [← Bucket.get_isSome_iff, Bucket.get_insert] at hk
      split at hk
      · rename_i hc; rw [hi, hc.1]
      · rw [hi]; exact w.place _ _ ((Bucket.get_isSome_iff _ _).1 hk)
    · exact w.place i k hk

theorem wf_remove {m : TxMap V} (w : m.WF) (h : Hash) : (m.remove h).WF := by
  refine ⟨fun i => ?_, fun i k hk => ?_⟩
  · simp only [remove, setBucket]
    split
    · exact Bucket.nodup_remove _ _ (w.nodup _)
    · exact w.nodup i
  · simp only [remove, setBucket] at hk
    split at hk
    · rename_i hi
      rw [hi]
      exact w.place _ _ (((Bucket.remove_sublist h _).map _).subset hk)
    · exact w.place i k hk

theorem wf_deletes {m : TxMap V} (w : m.WF) (hs : List Hash) : (m.deletes hs).WF := by
  refine ⟨fun i => Bucket.nodup_deletes _ _ (w.nodup i), fun i k hk => ?_⟩
  rw [← Bucket.get_isSome_iff] at hk
  simp only [deletes] at hk
  rw [Bucket.get_deletes _ _ (w.nodup i)] at hk
  split at hk
  · simp at hk
  · exact w.place i k ((Bucket.get_isSome_iff _ _).1 hk)

theorem get_insert (m : TxMap V) (h : Hash) (v : V) (k : Hash) :
    (m.insert h v).2.get k = if k = h ∧ m.get h = none then some v else m.get k := by
  simp only [get, insert, setBucket]
  by_cases hi : k.index = h.index
  · rw [if_pos hi, Bucket.get_insert, hi]
    by_cases hc : Bucket.get h (m h.index) = none
    · simp [Bucket.containsKey, hc]
    · simp [Bucket.containsKey, hc]
  · rw [if_neg hi]
    have : k ≠ h := fun e => hi (by rw [e])
    simp [this]

theorem insert_fst (m : TxMap V) (h : Hash) (v : V) :
    (m.insert h v).1 = if (m.get h).isSome then some v else none := by
  simp only [insert, Bucket.insert, get, Bucket.containsKey]
  by_cases hc : (Bucket.get h (m h.index)).isSome = true <;> simp [hc]

theorem get_new (k : Hash) : (new : TxMap V).get k = none := rfl

theorem get_clear (m : TxMap V) (k : Hash) : m.clear.get k = none := rfl

theorem get_remove {m : TxMap V} (w : m.WF) (h k : Hash) :
    (m.remove h).get k = if k = h then none else m.get k := by
  simp only [get, remove, setBucket]
  by_cases hi : k.index = h.index
  · rw [if_pos hi, Bucket.get_remove _ (w.nodup _), hi]
  · rw [if_neg hi]
    have : k ≠ h := fun e => hi (by rw [e])
    simp [this]

theorem get_deletes {m : TxMap V} (w : m.WF) (hs : List Hash) (k : Hash) :
    (m.deletes hs).get k = if k ∈ hs then none else m.get k := by
  simp only [get, deletes]
  rw [Bucket.get_deletes _ _ (w.nodup _)]
  simp

/-- All keys of the map. -/
def allKeys (m : TxMap V) : List Hash := (List.finRange 16).flatMap (fun i => (m i).keys)

theorem nodup_allKeys {m : TxMap V} (w : m.WF) : m.allKeys.Nodup := by
  unfold allKeys
  rw [List.nodup_flatMap]
  refine ⟨fun i _ => w.nodup i, ?_⟩
  refine (List.nodup_finRange 16).imp ?_
  intro i j hij
  rw [Function.onFun, List.disjoint_left]
  intro h h1 h2
  exact hij ((w.place i h h1).symm.trans (w.place j h h2))

theorem mem_allKeys {m : TxMap V} (w : m.WF) (h : Hash) : h ∈ m.allKeys ↔ (m.get h).isSome := by
  unfold allKeys get
  rw [List.mem_flatMap, Bucket.get_isSome_iff]
  constructor
  · rintro ⟨i, _, hi⟩
    rw [w.place i h hi]; exact hi
  · intro hh; exact ⟨_, List.mem_finRange _, hh⟩

theorem length_allKeys (m : TxMap V) : m.allKeys.length = m.len := by
  unfold allKeys len
  rw [List.length_flatMap]
  simp [Bucket.keys]

theorem containsKey_eq (m : TxMap V) (h : Hash) : m.containsKey h = (m.get h).isSome := rfl

end TxMap

end Huobi
