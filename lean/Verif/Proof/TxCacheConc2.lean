import Verif.Proof.TxCacheConc
/-
More invariants of the concurrent transaction cache: what a package has chosen, and which call a wrapper comes from.
-/
namespace Huobi

/-- Hashes a package has chosen so far, or has returned. -/
def PkPc.chosen : PkPc → List Hash
  | .loop _ _ pk => pk.order ++ pk.propose
  | .got _ _ pk _ => pk.order ++ pk.propose
  | .live _ _ pk _ => pk.order ++ pk.propose
  | .switch _ _ pk => pk.order ++ pk.propose
  | .wait _ _ pk => pk.order ++ pk.propose
  | .drain _ _ pk => pk.order ++ pk.propose
  | .move _ _ pk _ => pk.order ++ pk.propose
  | .delete _ pk => pk.order ++ pk.propose
  | .done (.ok (o, p)) => o ++ p
  | _ => []

/-- In the pop loop, with the queue it pops from. -/
def PkPc.looping : PkPc → Option Bool
  | .loop _ z _ => some z
  | .got _ z _ _ => some z
  | .live _ z _ _ => some z
  | _ => none

namespace Sys

/-- Every chosen hash that is never flushed is that of a wrapper in a queue, in the candidate queue during the loop. -/
structure Chosen (A : List PkArgs) (F : List Hash) (s : Sys) : Prop where
  nodup : (s.pk.chosen.filter (fun h => h ∉ F)).Nodup
  at_ : ∀ h ∈ s.pk.chosen, h ∉ F → ∃ id ∈ s.places, s.hashAt id = h ∧
    (∃ a ∈ A, (s.cache.heap id).isTimeout a.current a.timeout = false) ∧
    ∀ z, s.pk.looping = some z → id ∈ s.cache.queue (!z)
  live : ∀ a z pk id, s.pk = .live a z pk id → (s.cache.heap id).isTimeout a.current a.timeout = false

theorem chosen_new (A : List PkArgs) (F : List Hash) (n : Nat) : (new n).Chosen A F :=
  ⟨List.nodup_nil, (fun _ h => by cases h), (fun _ _ _ _ h => by cases h)⟩

theorem take_chosen (limit : UInt64) (pk : Pk) (w : Wrapper) :
    ((pk.take limit w).order ++ (pk.take limit w).propose).Perm (pk.order ++ pk.propose) ∨
    ((pk.take limit w).order ++ (pk.take limit w).propose).Perm (pk.order ++ pk.propose ++ [w.tx.txHash]) := by
  unfold Pk.take
  split
  · exact Or.inl (List.Perm.refl _)
  · simp only
    by_cases hl : limit < pk.cycles + w.tx.raw.fee.cycle
    · simp only [hl, if_true]
      cases pk.stage with
      | orderTxs => right; simp only [Stage.next]; rw [List.append_assoc]
      | proposeTxs => exact Or.inl (List.Perm.refl _)
      | finished => exact Or.inl (List.Perm.refl _)
    · simp only [hl, if_false]
      cases pk.stage with
      | orderTxs =>
        right
        rw [List.append_assoc, List.append_assoc]
        exact List.Perm.append_left _ List.perm_append_comm
      | proposeTxs => right; rw [List.append_assoc]
      | finished => exact Or.inl (List.Perm.refl _)

theorem isTimeout_congr {w w' : Wrapper} (h : w'.tx = w.tx) (a b : UInt64) : w'.isTimeout a b = w.isTimeout a b := by
  simp only [Wrapper.isTimeout, h]

/-- Steps that leave the chosen ones in place. -/
theorem Chosen.frame {A : List PkArgs} {F : List Hash} {s s' : Sys} (c : s.Chosen A F) (hch : s'.pk.chosen = s.pk.chosen)
    (hheap : ∀ id ∈ s.places, (s'.cache.heap id).tx = (s.cache.heap id).tx)
    (hmem : ∀ id ∈ s.places, (∃ h ∈ s.pk.chosen, s.hashAt id = h) → s.hashAt id ∉ F → 
      (∀ z, s.pk.looping = some z → id ∈ s.cache.queue (!z)) → id ∈ s'.places ∧
      ∀ z, s'.pk.looping = some z → id ∈ s'.cache.queue (!z))
    (hlive : ∀ a z pk id, s'.pk = .live a z pk id → (s'.cache.heap id).isTimeout a.current a.timeout = false) :
    s'.Chosen A F := by
  refine ⟨by rw [hch]; exact c.nodup, ?_, hlive⟩
  intro h hm hF
  rw [hch] at hm
  obtain ⟨id, h1, h2, ⟨a, h3, h4⟩, h5⟩ := c.at_ h hm hF
  obtain ⟨h6, h7⟩ := hmem id h1 ⟨h, hm, h2⟩ (by rw [h2]; exact hF) h5
  refine ⟨id, h6, ?_, ⟨a, h3, ?_⟩, h7⟩
  · simp only [hashAt, hheap id h1]; exact h2
  · rw [isTimeout_congr (hheap id h1)]; exact h4

theorem Chosen.setIns {A : List PkArgs} {F : List Hash} {s : Sys} (c : s.Chosen A F) (t : Nat) (p : InsPc) : (s.setIns t p).Chosen A F :=
  c.frame rfl (fun _ _ => rfl) (fun _ h _ _ h' => ⟨h, h'⟩) c.live

theorem Chosen.step {A : List PkArgs} {F : List Hash} {s : Sys} (c : s.Chosen A F) (i : s.Inv A F) (l : Label) (hl : l.fits A F)
    (hf0 : s.cache.q0.length < s.cache.cap) (hf1 : s.cache.q1.length < s.cache.cap) : (s.step l).Chosen A F := by
  have hfull : ∀ z, (s.cache.queue z).length < s.cache.cap := by intro z; cases z <;> assumption
  have halloc : ∀ w t, (({ s with cache := (s.cache.alloc w).2 } : Sys).setIns t (.start s.cache.next)).Chosen A F := by
    intro w t
    have hh : ∀ id ∈ s.places, (({ s with cache := (s.cache.alloc w).2 } : Sys).setIns t (.start s.cache.next)).cache.heap id
        = s.cache.heap id := by
      intro id hid
      have := (i.placed id hid).1
      simp only [setIns_cache, TxCache.alloc]; rw [if_neg (by omega)]
    refine c.frame rfl (fun id h => by rw [hh id h]) (fun _ h _ _ h' => ⟨h, h'⟩) ?_
    intro a z pk id h
    have hpk : s.pk = .live a z pk id := h
    rw [hh id (by rw [mem_places, hpk]; simp [PkPc.hand])]
    exact c.live a z pk id hpk
  cases l with
  | callFlush t hs =>
    simp only [Sys.step]; split
    · exact c.frame rfl (fun _ _ => rfl) (fun _ h _ _ h' => ⟨h, h'⟩) c.live
    · exact c
  | fl t =>
    have hrem : ∀ id t p, (({ s with cache := s.cache.setRemoved id } : Sys).setFl t p).Chosen A F := by
      intro id t p
      have hh : ∀ x, ((({ s with cache := s.cache.setRemoved id } : Sys).setFl t p).cache.heap x).tx = (s.cache.heap x).tx := by
        intro x; simp only [Sys.setFl, TxCache.setRemoved]; split <;> rfl
      refine c.frame rfl (fun x _ => hh x) (fun _ h _ _ h' => ⟨h, h'⟩) ?_
      intro a z pk x h
      rw [isTimeout_congr (hh x)]; exact c.live a z pk x h
    simp only [Sys.step, Sys.stepFl]
    split
    · exact c
    · exact c.frame rfl (fun _ _ => rfl) (fun _ h _ _ h' => ⟨h, h'⟩) c.live
    · split
      · exact c.frame rfl (fun _ _ => rfl) (fun _ h _ _ h' => ⟨h, h'⟩) c.live
      · exact c.frame rfl (fun _ _ => rfl) (fun _ h _ _ h' => ⟨h, h'⟩) c.live
    · exact hrem _ _ _
    · exact c.frame rfl (fun _ _ => rfl) (fun _ h _ _ h' => ⟨h, h'⟩) c.live
    · exact c
  | callInsert t tx =>
    simp only [Sys.step]; split
    · exact c.setIns t _
    · exact c
  | callPropose t tx =>
    simp only [Sys.step]; split
    · exact halloc _ t
    · exact c
  | callPackage a =>
    simp only [Sys.step]; split
    · exact ⟨List.nodup_nil, (fun _ h => by cases h), (fun _ _ _ _ h => by cases h)⟩
    · exact ⟨List.nodup_nil, (fun _ h => by cases h), (fun _ _ _ _ h => by cases h)⟩
    · exact c
  | ins t =>
    simp only [Sys.step, Sys.stepIns]
    split
    · exact c
    · split
      · exact c.setIns t _
      · exact halloc _ t
    · split
      · exact c.setIns t _
      · exact c.frame rfl (fun _ _ => rfl) (fun _ h _ _ h' => ⟨h, h'⟩) c.live
    · exact c.frame rfl (fun _ _ => rfl) (fun _ h _ _ h' => ⟨h, h'⟩) c.live
    · exact c.setIns t _
    · rename_i id z ht
      have e0 : s.cache.push z id = (true, s.cache.setQueue z (s.cache.queue z ++ [id])) := by
        unfold TxCache.push; rw [if_pos (hfull z)]
      rw [e0]
      have hq : ∀ z' x, x ∈ s.cache.queue z' → x ∈ (s.cache.setQueue z (s.cache.queue z ++ [id])).queue z' := by
        intro z' x hx
        cases z <;> cases z' <;> simp [TxCache.setQueue, TxCache.queue] at hx ⊢ <;> tauto
      refine c.frame rfl (fun _ _ => by simp) ?_ (by simpa using c.live)
      intro x hx _ hF h'
      refine ⟨?_, fun z' hz => hq _ _ (h' z' hz)⟩
      rw [mem_places] at hx ⊢
      rcases hx with hx | hx | hx
      · exact Or.inl (hq _ _ hx)
      · exact Or.inr (Or.inl (hq _ _ hx))
      · exact Or.inr (Or.inr hx)
    · exact c.frame rfl (fun _ _ => rfl) (fun _ h _ _ h' => ⟨h, h'⟩) c.live
    · split
      · exact c.setIns t _
      · exact c.frame rfl (fun _ _ => rfl) (fun _ h _ _ h' => ⟨h, h'⟩) c.live
    · exact c
  | pk =>
    simp only [Sys.step, Sys.stepPk]
    split
    · exact c
    · rename_i a z pk hpk
      split
      · rename_i id c' hp
        obtain ⟨rest, hq, rfl⟩ := pop_some hp
        have hperm := perm_pop (s := s) (pc := .got a z pk id) hq (by rw [hpk]; rfl) rfl
        refine c.frame (by rw [hpk]; rfl) (fun _ _ => by simp) ?_ (fun _ _ _ _ h => by cases h)
        intro x hx _ hF h'
        refine ⟨hperm.mem_iff.2 hx, fun z' hz => ?_⟩
        simp only [PkPc.looping, Option.some.injEq] at hz
        subst hz
        rw [TxCache.queue_setQueue_not]
        exact h' z (by rw [hpk]; rfl)
      · exact c.frame (by rw [hpk]; rfl) (fun _ _ => rfl)
          (fun x h _ _ _ => ⟨by rw [mem_places, hpk] at h; rw [mem_places]; exact h, fun z' hz => by cases hz⟩) (fun _ _ _ _ h => by cases h)
    · rename_i a z pk id hpk
      split
      · refine c.frame (by rw [hpk]; rfl) (fun _ _ => rfl) ?_ (fun _ _ _ _ h => by cases h)
        intro x hx _ hF h'
        have hx' := h' z (by rw [hpk]; rfl)
        refine ⟨?_, fun z' hz => ?_⟩
        · rw [mem_places]
          cases z
          · exact Or.inl hx'
          · exact Or.inr (Or.inl hx')
        · simp only [PkPc.looping, Option.some.injEq] at hz; subst hz; exact hx'
      · split
        · refine c.frame (by rw [hpk]; rfl) (fun _ _ => rfl) ?_ (fun _ _ _ _ h => by cases h)
          intro x hx _ hF h'
          have hx' := h' z (by rw [hpk]; rfl)
          refine ⟨?_, fun z' hz => ?_⟩
          · rw [mem_places]
            cases z
            · exact Or.inl hx'
            · exact Or.inr (Or.inl hx')
          · simp only [PkPc.looping, Option.some.injEq] at hz; subst hz; exact hx'
        · refine c.frame (by rw [hpk]; rfl) (fun _ _ => rfl) ?_ (fun a' z' pk' id' h => by
            cases h; rename_i hnt; simpa using hnt)
          intro x hx _ hF h'
          refine ⟨by rw [mem_places, hpk] at hx; rw [mem_places]; exact hx, fun z' hz => ?_⟩
          exact h' z' (by rw [hpk]; exact hz)
    · rename_i a z pk id hpk
      have e0 : s.cache.push (!z) id = (true, s.cache.setQueue (!z) (s.cache.queue (!z) ++ [id])) := by
        unfold TxCache.push; rw [if_pos (hfull _)]
      rw [e0]
      simp only [if_true]
      have hperm := perm_push (s := s) (z := !z) (id := id) (pc := .loop a z (pk.take a.limit (s.cache.heap id)))
        (by rw [hpk]; rfl) rfl
      have hid : id ∈ s.places := by rw [mem_places, hpk]; simp [PkPc.hand]
      obtain ⟨_, hidm⟩ := i.placed id hid
      have hnotin : id ∉ s.cache.queue (!z) := by
        intro hm
        have hc := List.nodup_iff_count_le_one.1 i.nodup id
        rw [count_places, hpk] at hc
        have h1 := List.count_pos_iff.2 hm
        simp only [PkPc.hand, List.count_cons_self, List.count_nil] at hc
        cases z <;> simp only [Bool.not_true, Bool.not_false] at h1 <;> omega
      have hch : s.pk.chosen = pk.order ++ pk.propose := by rw [hpk]; rfl
      have hfresh : s.hashAt id ∉ F → s.hashAt id ∉ pk.order ++ pk.propose := by
        intro hF hm
        rw [← hch] at hm
        obtain ⟨id', h1, h2, _, h4⟩ := c.at_ _ hm hF
        have h5 := h4 z (by rw [hpk]; rfl)
        obtain ⟨_, h6⟩ := i.placed id' h1
        rw [h2] at h6
        have h7 := h6 hF
        rw [hidm hF] at h7
        simp only [Option.some.injEq] at h7
        subst h7
        exact hnotin h5
      have hnd := c.nodup
      rw [hch] at hnd
      have ht := take_chosen a.limit pk (s.cache.heap id)
      have t1 : ∀ h, h ∈ (pk.take a.limit (s.cache.heap id)).order ++ (pk.take a.limit (s.cache.heap id)).propose →
          h ∈ pk.order ++ pk.propose ∨ h = s.hashAt id := by
        intro h hm
        rcases ht with ht | ht
        · exact Or.inl (ht.mem_iff.1 hm)
        · have := ht.mem_iff.1 hm
          rw [List.mem_append, List.mem_singleton] at this
          exact this
      refine ⟨?_, ?_, (fun _ _ _ _ h => by cases h)⟩
      · show (((pk.take a.limit (s.cache.heap id)).order ++ (pk.take a.limit (s.cache.heap id)).propose).filter
          (fun h => h ∉ F)).Nodup
        rcases ht with ht | ht
        · rw [(ht.filter _).nodup_iff]; exact hnd
        · rw [(ht.filter _).nodup_iff, List.filter_append, List.nodup_append]
          refine ⟨hnd, (List.nodup_singleton _).filter _, ?_⟩
          intro x hx y hy e
          subst e
          rw [List.mem_filter, List.mem_singleton] at hy
          obtain ⟨rfl, hF⟩ := hy
          exact hfresh (by simpa [hashAt] using hF) (List.mem_filter.1 hx).1
      intro h hm hF
      rcases t1 h hm with hm | rfl
      · rw [← hch] at hm
        obtain ⟨id', h1, h2, ⟨a', h3, h3'⟩, h4⟩ := c.at_ h hm hF
        refine ⟨id', hperm.mem_iff.2 h1, by simpa [hashAt] using h2, ⟨a', h3, by simpa using h3'⟩, fun z' hz => ?_⟩
        simp only [PkPc.looping, Option.some.injEq] at hz
        subst hz
        simp only [TxCache.queue_setQueue_same, List.mem_append]
        exact Or.inl (h4 z (by rw [hpk]; rfl))
      · refine ⟨id, hperm.mem_iff.2 hid, by simp [hashAt], ⟨a, i.args a (by rw [hpk]; rfl), ?_⟩, fun z' hz => ?_⟩
        · simp only [TxCache.setQueue_heap]; exact c.live a z pk id hpk
        · simp only [PkPc.looping, Option.some.injEq] at hz
          subst hz
          simp
    · rename_i a z pk hpk
      exact c.frame (by rw [hpk]; rfl) (fun _ _ => rfl)
        (fun x h _ _ _ => ⟨by rw [mem_places, hpk] at h; rw [mem_places]; exact h, fun z' hz => by cases hz⟩) (fun _ _ _ _ h => by cases h)
    · rename_i a z pk hpk
      split
      · exact c.frame (by rw [hpk]; rfl) (fun _ _ => rfl)
          (fun x h _ _ _ => ⟨by rw [mem_places, hpk] at h; rw [mem_places]; exact h, fun z' hz => by cases hz⟩) (fun _ _ _ _ h => by cases h)
      · exact c
    · rename_i a z pk hpk
      split
      · rename_i id c' hp
        obtain ⟨rest, hq, rfl⟩ := pop_some hp
        have hperm := perm_pop (s := s) (pc := .move a z pk id) hq (by rw [hpk]; rfl) rfl
        exact c.frame (by rw [hpk]; rfl) (fun _ _ => by simp)
          (fun x hx _ _ _ => ⟨hperm.mem_iff.2 hx, fun z' hz => by cases hz⟩) (fun _ _ _ _ h => by cases h)
      · exact c.frame (by rw [hpk]; rfl) (fun _ _ => rfl)
          (fun x h _ _ _ => ⟨by rw [mem_places, hpk] at h; rw [mem_places]; exact h, fun z' hz => by cases hz⟩) (fun _ _ _ _ h => by cases h)
    · rename_i a z pk id hpk
      have e0 : s.cache.push z id = (true, s.cache.setQueue z (s.cache.queue z ++ [id])) := by
        unfold TxCache.push; rw [if_pos (hfull _)]
      rw [e0]
      have hperm := perm_push (s := s) (z := z) (id := id) (pc := .drain a z pk) (by rw [hpk]; rfl) rfl
      exact c.frame (by rw [hpk]; rfl) (fun _ _ => by simp)
        (fun x hx _ _ _ => ⟨hperm.mem_iff.2 hx, fun z' hz => by cases hz⟩) (fun _ _ _ _ h => by cases h)
    · rename_i a pk hpk
      exact c.frame (by rw [hpk]; rfl) (fun _ _ => rfl)
        (fun x h _ _ _ => ⟨by rw [mem_places, hpk] at h; rw [mem_places]; exact h, fun z' hz => by cases hz⟩) (fun _ _ _ _ h => by cases h)
    · exact c

end Sys

end Huobi
