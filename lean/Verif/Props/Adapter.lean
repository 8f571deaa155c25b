import Verif.Model.Adapter
import Verif.Props.Storage
/-
C106: a storage adapter is a set of maps.
-/
namespace Huobi

/-! ### Specification -/

/-- A place for a value: a schema and a key. -/
abbrev Place {ι : Type} (S : ι → StoreSchema) := (i : ι) × (S i).Key

/-- One map per schema. -/
abbrev Maps {ι : Type} (S : ι → StoreSchema) := (p : Place S) → Option (S p.1).Value

open Classical in
/-- `M` with `v` (or nothing) at the place `p`. -/
noncomputable def Maps.set {ι : Type} {S : ι → StoreSchema} (M : Maps S) (p : Place S) (v : Option (S p.1).Value) : Maps S :=
  fun q => if h : q = p then h ▸ v else M q

/-- What a batch entry puts in a place. -/
def Modify.value {V : Type} : Modify V → Option V
  | .remove => none
  | .insert v => some v

/-- What the call means on maps. -/
noncomputable def Maps.call {ι : Type} {S : ι → StoreSchema} (M : Maps S) : AdapterCall S → AdapterAns S × Maps S
  | .insert i k v => (.unit, M.set ⟨i, k⟩ (some v))
  | .get i k => (.value i (M ⟨i, k⟩), M)
  | .getBatch i ks => (.values i (ks.map fun k => M ⟨i, k⟩), M)
  | .remove i k => (.unit, M.set ⟨i, k⟩ none)
  | .contains i k => (.bool (M ⟨i, k⟩).isSome, M)
  | .batch i ks ms => (.unit, (ks.zip ms).foldl (fun M x => M.set ⟨i, x.1⟩ x.2.value) M)

/-- The codecs take the keys and values of the call, and a batch has as many keys as values. -/
def AdapterCall.Fit {ι : Type} {S : ι → StoreSchema} : AdapterCall S → Prop
  | .insert i k v => ((S i).encodeKey k).isSome ∧ ((S i).encode v).isSome
  | .get i k => ((S i).encodeKey k).isSome
  | .getBatch i ks => ∀ k ∈ ks, ((S i).encodeKey k).isSome
  | .remove i k => ((S i).encodeKey k).isSome
  | .contains i k => ((S i).encodeKey k).isSome
  | .batch i ks ms => ks.length = ms.length ∧ (∀ k ∈ ks, ((S i).encodeKey k).isSome) ∧ ∀ v, Modify.insert v ∈ ms → ((S i).encode v).isSome

open Classical in
/-- The answers that maps give to a sequence of calls: a call that the database does not serve, or that does not fit, fails (`none`) and does
nothing.  (A batch of reads of no keys is served without the database.) -/
noncomputable def Maps.calls {ι : Type} {S : ι → StoreSchema} (M : Maps S) : List (Bool × AdapterCall S) → List (Option (AdapterAns S)) × Maps S
  | [] => ([], M)
  | (io, c) :: cs =>
    if c.Fit ∧ (io = true ∨ ∃ i, c = .getBatch i []) then (some (M.call c).1 :: ((M.call c).2.calls cs).1, ((M.call c).2.calls cs).2)
    else (none :: (M.calls cs).1, (M.calls cs).2)

/-- Values are read as they were written. -/
def Faithful {ι : Type} (S : ι → StoreSchema) : Prop := ∀ i v b, (S i).encode v = some b → (S i).decode b = some v

/-- Different places are stored apart: in different columns or under different keys. -/
def KeysApart {ι : Type} (S : ι → StoreSchema) (be : Backend) : Prop :=
  ∀ p q : Place S, be (S p.1).category = be (S q.1).category → ∀ b, (S p.1).encodeKey p.2 = some b → (S q.1).encodeKey q.2 = some b → p = q

/-! ### Proofs -/

section
variable {ι : Type} {S : ι → StoreSchema} {be : Backend}

theorem Maps.set_same (M : Maps S) (p : Place S) (v : Option (S p.1).Value) : M.set p v p = v := by simp [Maps.set]

theorem Maps.set_other (M : Maps S) {p q : Place S} (v : Option (S p.1).Value) (h : q ≠ p) : M.set p v q = M q := by simp [Maps.set, h]

/-- The database holds the maps. -/
def HoldsMaps (be : Backend) (db : Db) (M : Maps S) : Prop :=
  ∀ (p : Place S) b, (S p.1).encodeKey p.2 = some b →
    (M p = none → db (be (S p.1).category) b = none) ∧ ∀ v, M p = some v → ∃ vb, (S p.1).encode v = some vb ∧ db (be (S p.1).category) b = some vb

theorem HoldsMaps.write {db db' : Db} {M : Maps S} (h : HoldsMaps be db M) (ha : KeysApart S be) {p : Place S} {b : Bytes}
    (hb : (S p.1).encodeKey p.2 = some b) {x : Option (S p.1).Value} {y : Option Bytes}
    (hxy : (x = none → y = none) ∧ ∀ v, x = some v → ∃ vb, (S p.1).encode v = some vb ∧ y = some vb)
    (hdb : ∀ c k, db' c k = if c = be (S p.1).category ∧ k = b then y else db c k) : HoldsMaps be db' (M.set p x) := by
  intro q b' hb'
  by_cases hq : q = p
  · subst hq
    rw [hb] at hb'; cases hb'
    rw [Maps.set_same, hdb, if_pos ⟨rfl, rfl⟩]
    exact hxy
  · rw [Maps.set_other _ _ hq, hdb, if_neg]
    · exact h q b' hb'
    · rintro ⟨h1, rfl⟩
      exact hq (ha q p h1 _ hb' hb)

theorem HoldsMaps.modify {db : Db} {M : Maps S} (h : HoldsMaps be db M) (ha : KeysApart S be) {i : ι} {k : (S i).Key} {b : Bytes}
    (hb : (S i).encodeKey k = some b) {m : Modify (S i).Value} {y : Option Bytes}
    (hy : (S i).encodeMod m = some y) :
    HoldsMaps be (db.modify (be (S i).category) (b, y)) (M.set ⟨i, k⟩ m.value) := by
  cases m with
  | remove => cases hy; exact h.write ha (p := ⟨i, k⟩) hb ⟨fun _ => rfl, fun _ h => by cases h⟩ (fun c k => rfl)
  | insert v =>
    cases he : (S i).encode v with
    | none => simp [StoreSchema.encodeMod, he] at hy
    | some vb =>
      simp only [StoreSchema.encodeMod, he, Option.map_some, Option.some.injEq] at hy
      subst hy
      exact h.write ha (p := ⟨i, k⟩) hb ⟨fun h => (by cases h), fun _ h => by cases h; exact ⟨vb, he, rfl⟩⟩ (fun c k => rfl)

theorem pairs_none {s : StoreSchema} : ∀ {ks : List s.Key} {ms : List (Modify s.Value)}, ks.length = ms.length →
    (s.pairs ks ms = none ↔ ¬ ((∀ k ∈ ks, (s.encodeKey k).isSome) ∧ ∀ v, Modify.insert v ∈ ms → (s.encode v).isSome))
  | [], [], _ => by simp [StoreSchema.pairs]
  | k :: ks, m :: ms, h => by
    have ih := pairs_none (s := s) (ks := ks) (ms := ms) (by simpa using h)
    simp only [StoreSchema.pairs, StoreSchema.encodeMod]
    cases hk : s.encodeKey k with
    | none => simp [hk]
    | some kb =>
      cases m with
      | remove =>
        cases hp : s.pairs ks ms <;> simp_all
      | insert v =>
        cases hv : s.encode v with
        | none => simp [hv]
        | some vb => cases hp : s.pairs ks ms <;> simp_all

theorem HoldsMaps.pairs (ha : KeysApart S be) {i : ι} : ∀ {ks : List (S i).Key} {ms : List (Modify (S i).Value)} {ps : List (Bytes × Option Bytes)} {db : Db}
    {M : Maps S}, HoldsMaps be db M → ks.length = ms.length → (S i).pairs ks ms = some ps →
    HoldsMaps be (ps.foldl (fun d p => d.modify (be (S i).category) p) db) ((ks.zip ms).foldl (fun M x => M.set ⟨i, x.1⟩ x.2.value) M)
  | [], [], ps, db, M, h, _, hp => by cases hp; exact h
  | k :: ks, m :: ms, ps, db, M, h, hl, hp => by
    simp only [StoreSchema.pairs] at hp
    cases hk : (S i).encodeKey k with
    | none => simp [hk] at hp
    | some kb =>
      rw [hk] at hp
      cases hy : (S i).encodeMod m with
      | none => simp [hy] at hp
      | some y =>
        rw [hy] at hp
        cases hr : (S i).pairs ks ms with
        | none => simp [hr] at hp
        | some rest =>
          simp [hr] at hp
          subst hp
          have h' := h.modify ha hk hy
          exact HoldsMaps.pairs (ks := ks) (ms := ms) (ps := rest) ha h' (by simpa using hl) hr

theorem HoldsMaps.read {db : Db} {M : Maps S} (h : HoldsMaps be db M) (hf : Faithful S) {i : ι} {k : (S i).Key} (hk : ((S i).encodeKey k).isSome) :
    (S i).read be true db k = .ok (M ⟨i, k⟩) := by
  obtain ⟨b, hb⟩ := Option.isSome_iff_exists.1 hk
  obtain ⟨h1, h2⟩ := h ⟨i, k⟩ b hb
  simp only [StoreSchema.read, hb]
  cases hM : M ⟨i, k⟩ with
  | none => simp [h1 hM]
  | some v =>
    obtain ⟨vb, hv, hd⟩ := h2 v hM
    simp only at hd hv
    simp [hd, hf i v vb hv]

theorem read_fails {s : StoreSchema} {io : Bool} {db : Db} {k : s.Key} (h : ¬ ((s.encodeKey k).isSome ∧ io = true)) : ∃ e, s.read be io db k = .error e := by
  simp only [StoreSchema.read]
  cases hk : s.encodeKey k with
  | none => exact ⟨_, rfl⟩
  | some b => cases io with
    | false => exact ⟨_, rfl⟩
    | true => simp [hk] at h

theorem mapM_reads {α β E : Type} {f : α → Except E β} {g : α → β} : ∀ {l : List α}, (∀ a ∈ l, f a = .ok (g a)) → l.mapM f = .ok (l.map g)
  | [], _ => rfl
  | a :: l, h => by rw [List.mapM_cons, h a (by simp), mapM_reads (fun b hb => h b (by simp [hb]))]; rfl

theorem mapM_fails {α β E : Type} {f : α → Except E β} : ∀ {l : List α} {a : α}, a ∈ l → (∃ e, f a = .error e) → ∃ e, l.mapM f = .error e
  | b :: l, a, hm, h => by
    rw [List.mapM_cons]
    cases hb : f b with
    | error e => exact ⟨e, rfl⟩
    | ok v =>
      rcases List.mem_cons.1 hm with rfl | hm
      · obtain ⟨e, he⟩ := h; rw [hb] at he; cases he
      · obtain ⟨e, he⟩ := mapM_fails hm h
        exact ⟨e, by rw [he]; rfl⟩

theorem call_served {db : Db} {M : Maps S} (h : HoldsMaps be db M) (ha : KeysApart S be) (hf : Faithful S) {io : Bool} {c : AdapterCall S} (hc : c.Fit)
    (hio : io = true ∨ ∃ i, c = .getBatch i []) :
    (db.call be io c).1 = .ok (M.call c).1 ∧ HoldsMaps be (db.call be io c).2 (M.call c).2 := by
  rcases hio with rfl | ⟨i, rfl⟩
  · cases c with
    | insert i k v =>
      obtain ⟨b, hb⟩ := Option.isSome_iff_exists.1 hc.1
      obtain ⟨vb, hv⟩ := Option.isSome_iff_exists.1 hc.2
      simp only [Db.call, hb, hv, Maps.call]
      exact ⟨rfl, h.modify ha hb (m := .insert v) (y := some vb) (by simp [StoreSchema.encodeMod, hv])⟩
    | remove i k =>
      obtain ⟨b, hb⟩ := Option.isSome_iff_exists.1 hc
      simp only [Db.call, hb, Maps.call]
      exact ⟨rfl, h.modify ha hb (m := .remove) (y := none) rfl⟩
    | get i k => simp only [Db.call, Maps.call, h.read hf hc]; exact ⟨rfl, h⟩
    | getBatch i ks =>
      simp only [Db.call, Maps.call]
      rw [mapM_reads (g := fun k => M ⟨i, k⟩) (fun k hk => h.read hf (hc k hk))]
      exact ⟨rfl, h⟩
    | contains i k =>
      obtain ⟨b, hb⟩ := Option.isSome_iff_exists.1 hc
      obtain ⟨h1, h2⟩ := h ⟨i, k⟩ b hb
      simp only [Db.call, hb, Maps.call]
      refine ⟨?_, h⟩
      cases hM : M ⟨i, k⟩ with
      | none => have := h1 hM; simp only at this; simp [this]
      | some v => obtain ⟨vb, -, hd⟩ := h2 v hM; simp only at hd; simp [hd]
    | batch i ks ms =>
      obtain ⟨hl, hk, hv⟩ := hc
      cases hp : (S i).pairs ks ms with
      | none => exact absurd ⟨hk, hv⟩ ((pairs_none hl).1 hp)
      | some ps =>
        simp only [Db.call, hl, ne_eq, not_true_eq_false, if_false, hp, Maps.call]
        exact ⟨rfl, HoldsMaps.pairs ha h hl hp⟩
  · exact ⟨rfl, h⟩

theorem call_refused {db : Db} {io : Bool} {c : AdapterCall S} (hc : ¬ (c.Fit ∧ (io = true ∨ ∃ i, c = .getBatch i []))) :
    (∃ e, (db.call be io c).1 = .error e) ∧ (db.call be io c).2 = db := by
  cases c with
  | insert i k v =>
    simp only [Db.call]
    cases hk : (S i).encodeKey k with
    | none => exact ⟨⟨_, rfl⟩, rfl⟩
    | some b =>
      cases hv : (S i).encode v with
      | none => exact ⟨⟨_, rfl⟩, rfl⟩
      | some vb =>
        cases io with
        | false => exact ⟨⟨_, rfl⟩, rfl⟩
        | true => exact absurd ⟨⟨by simp [hk], by simp [hv]⟩, .inl rfl⟩ hc
  | remove i k =>
    simp only [Db.call]
    cases hk : (S i).encodeKey k with
    | none => exact ⟨⟨_, rfl⟩, rfl⟩
    | some b =>
      cases io with
      | false => exact ⟨⟨_, rfl⟩, rfl⟩
      | true => exact absurd ⟨by simp [AdapterCall.Fit, hk], .inl rfl⟩ hc
  | contains i k =>
    simp only [Db.call]
    cases hk : (S i).encodeKey k with
    | none => exact ⟨⟨_, rfl⟩, rfl⟩
    | some b =>
      cases io with
      | false => exact ⟨⟨_, rfl⟩, rfl⟩
      | true => exact absurd ⟨by simp [AdapterCall.Fit, hk], .inl rfl⟩ hc
  | get i k =>
    obtain ⟨e, he⟩ := read_fails (be := be) (s := S i) (io := io) (db := db) (k := k) (fun h => hc ⟨h.1, .inl h.2⟩)
    exact ⟨⟨e, by simp only [Db.call, he]; rfl⟩, rfl⟩
  | getBatch i ks =>
    refine ⟨?_, rfl⟩
    suffices ∃ k ∈ ks, ¬ (((S i).encodeKey k).isSome ∧ io = true) by
      obtain ⟨k, hk, hn⟩ := this
      obtain ⟨e, he⟩ := mapM_fails hk (read_fails (be := be) (db := db) hn)
      exact ⟨e, by simp only [Db.call, he]; rfl⟩
    cases ks with
    | nil => exact absurd ⟨fun k hk => (List.not_mem_nil hk).elim, .inr ⟨i, rfl⟩⟩ hc
    | cons k ks =>
      cases io with
      | false => exact ⟨k, by simp, by simp⟩
      | true =>
        have : ¬ ∀ k' ∈ k :: ks, ((S i).encodeKey k').isSome := fun h => hc ⟨h, .inl rfl⟩
        rw [Classical.not_forall] at this
        obtain ⟨k', hk'⟩ := this
        rw [Classical.not_imp] at hk'
        exact ⟨k', hk'.1, fun h => hk'.2 h.1⟩
  | batch i ks ms =>
    simp only [Db.call]
    split
    · exact ⟨⟨_, rfl⟩, rfl⟩
    · rename_i hl
      have hl : ks.length = ms.length := Classical.not_not.1 hl
      cases hp : (S i).pairs ks ms with
      | none => exact ⟨⟨_, rfl⟩, rfl⟩
      | some ps =>
        cases io with
        | false => exact ⟨⟨_, rfl⟩, rfl⟩
        | true =>
          refine absurd ⟨⟨hl, ?_⟩, .inl rfl⟩ hc
          exact Classical.not_not.1 (mt (pairs_none hl).2 (by rw [hp]; simp))

/-- **C106 (partial: if no two places are stored in one column under one key; always so for `RocksAdapter` if each category has one schema and
its keys are coded apart, but see `C106_refuted`).**  Whatever calls are made, with whatever keys, values and failures of the database, the
adapter answers as one map per schema does: reads give what was last put there and not removed, `contains` tells whether they give anything, a
batch is its entries in order; a call with unequal numbers of keys and values, that a codec refuses or that the database does not serve fails
and changes nothing. -/
theorem C106_partial (ha : KeysApart S be) (hf : Faithful S) (cs : List (Bool × AdapterCall S)) :
    (Db.empty.calls be cs).1.map Except.toOption = (Maps.calls (S := S) (fun _ => none) cs).1 := by
  have h0 : HoldsMaps be Db.empty (fun _ : Place S => none) := fun p b _ => ⟨fun _ => rfl, fun _ h => by cases h⟩
  revert h0
  generalize Db.empty = db
  generalize (fun _ : Place S => none : Maps S) = M
  intro h0
  induction cs generalizing db M with
  | nil => rfl
  | cons x cs ih =>
    obtain ⟨io, c⟩ := x
    simp only [Db.calls, Maps.calls, List.map_cons]
    split
    · rename_i hc
      obtain ⟨h1, h2⟩ := call_served h0 ha hf hc.1 hc.2
      rw [h1]
      simp only
      rw [ih _ _ h2]; rfl
    · rename_i hc
      obtain ⟨⟨e, he⟩, h2⟩ := call_refused (be := be) (db := db) hc
      rw [he, h2]
      simp only
      rw [ih _ _ h0]; rfl

/-- C106: whoever reads keys of a batch on `RocksAdapter` while it is written sees all of it or none of it. -/
theorem C106_atomic {i : ι} {db : Db} {ks : List (S i).Key} {ms : List (Modify (S i).Value)} {ps : List (Bytes × Option Bytes)}
    (hl : ks.length = ms.length) (hp : (S i).pairs ks ms = some ps) {d : Db} (hd : d ∈ db.seen true (be (S i).category) ps) :
    (∀ k, (S i).read be true d k = (S i).read be true db k) ∨
    (∀ k, (S i).read be true d k = (S i).read be true (db.call be true (.batch (S := S) i ks ms)).2 k) := by
  simp only [Db.seen, if_true, List.mem_cons, List.not_mem_nil, or_false] at hd
  rcases hd with rfl | rfl
  · exact .inl fun _ => rfl
  · right
    intro k
    simp only [Db.call, hl, ne_eq, not_true_eq_false, if_false, hp]
    rfl

end

namespace Demo

/-- `TransactionSchema` and `ReceiptSchema` (core/storage/src/lib.rs:54-60), for the transactions and receipts that their codec keeps (C48). -/
def storeSchemas : Bool → StoreSchema
  | true =>
    { category := .signedTx, Key := Hash, Value := { t : SignedTx // t.raw.action.deploysNonAsset = false ∧ (pbEncode t).length < 2 ^ 64 },
      encodeKey := fun h => some (pbEncode h), encode := fun t => some (pbEncode t.1),
      decode := fun b => match (pbDecode b : PDec SignedTx) with
        | .ok t => if h : t.raw.action.deploysNonAsset = false ∧ (pbEncode t).length < 2 ^ 64 then some ⟨t, h⟩ else none
        | .error _ => none }
  | false =>
    { category := .receipt, Key := Hash, Value := { t : Receipt // t.result.deploysNonAsset = false ∧ (pbEncode t).length < 2 ^ 64 },
      encodeKey := fun h => some (pbEncode h), encode := fun t => some (pbEncode t.1),
      decode := fun b => match (pbDecode b : PDec Receipt) with
        | .ok t => if h : t.result.deploysNonAsset = false ∧ (pbEncode t).length < 2 ^ 64 then some ⟨t, h⟩ else none
        | .error _ => none }

end Demo

open Demo in
/-- The hypotheses of `C106_partial` are met by the tables of transactions and receipts on `RocksAdapter`. -/
theorem C106_transactions_receipts : KeysApart storeSchemas .rocks ∧ Faithful storeSchemas := by
  refine ⟨?_, ?_⟩
  · rintro ⟨i, k⟩ ⟨j, k'⟩ hc b hb hb'
    cases i <;> cases j
    · have h1 : pbEncode (show Hash from k) = b := Option.some.inj hb
      have h2 : pbEncode (show Hash from k') = b := Option.some.inj hb'
      have : k = k' := hash_key_inj (h1.trans h2.symm)
      rw [this]
    · cases hc
    · cases hc
    · have h1 : pbEncode (show Hash from k) = b := Option.some.inj hb
      have h2 : pbEncode (show Hash from k') = b := Option.some.inj hb'
      have : k = k' := hash_key_inj (h1.trans h2.symm)
      rw [this]
  · intro i v b hb
    cases i
    · obtain ⟨v, hv⟩ := v
      have hb : pbEncode v = b := Option.some.inj hb
      subst hb
      have := preserved_receipt hv.1 hv.2
      unfold Preserved at this
      simp only [storeSchemas]
      rw [this]
      simp only
      rw [dif_pos hv]
    · obtain ⟨v, hv⟩ := v
      have hb : pbEncode v = b := Option.some.inj hb
      subst hb
      have := preserved_tx hv.1 hv.2
      unfold Preserved at this
      simp only [storeSchemas]
      rw [this]
      simp only
      rw [dif_pos hv]

namespace Demo

/-- A payment, as a value of the table of transactions. -/
def storedPay : (storeSchemas true).Value := ⟨pay 1 2 3, by decide +kernel⟩

/-- Put the payment into the table of transactions, ask the table of receipts whether it has the same key. -/
def mixedCalls : List (Bool × AdapterCall storeSchemas) :=
  [(true, .insert true (pay 1 2 3).txHash storedPay), (true, .contains false (pay 1 2 3).txHash)]

/-- A batch of two entries. -/
def twoEntries : List (Bytes × Option Bytes) := [([1], some [1]), ([2], some [2])]

end Demo

open Demo in
/-- **C106 is false of `MemoryAdapter`**: it has one map for all categories, so after a transaction was put into an empty database it reports that
there is a receipt under its hash; and while it writes a batch others can see its first entry without the second. -/
theorem C106_refuted :
    (∃ cs : List (Bool × AdapterCall storeSchemas), Faithful storeSchemas ∧
      (Db.empty.calls .memory cs).1 = [.ok .unit, .ok (.bool true)] ∧ (Maps.calls (S := storeSchemas) (fun _ => none) cs).1 = [some .unit, some (.bool false)]) ∧
    ∃ (db d : Db) (ps : List (Bytes × Option Bytes)), d ∈ db.seen false 0 ps ∧ (d 0 [1]).isSome ∧ (db 0 [1]).isNone ∧ (d 0 [2]).isNone ∧
      ((ps.foldl (fun d p => d.modify 0 p) db) 0 [2]).isSome := by
  refine ⟨⟨mixedCalls, C106_transactions_receipts.2, ?_, ?_⟩, Db.empty, Db.empty.modify 0 ([1], some [1]), twoEntries, ?_, rfl, rfl, rfl, rfl⟩
  · have h : (Db.put Db.empty 0 (pbEncode (pay 1 2 3).txHash) (pbEncode (pay 1 2 3))) 0 (pbEncode (pay 1 2 3).txHash) = some (pbEncode (pay 1 2 3)) := by
      simp [Db.put]
    simp only [mixedCalls, Db.calls, Db.call]
    simp [storeSchemas, Backend.memory, storedPay, h]
  · have hne : (⟨false, (pay 1 2 3).txHash⟩ : Place storeSchemas) ≠ ⟨true, (pay 1 2 3).txHash⟩ := by intro h; cases h
    have f1 : (AdapterCall.insert (S := storeSchemas) true (pay 1 2 3).txHash storedPay).Fit := ⟨rfl, rfl⟩
    have f2 : (AdapterCall.contains (S := storeSchemas) false (pay 1 2 3).txHash).Fit := rfl
    simp only [mixedCalls, Maps.calls, f1, f2, true_and, true_or, if_true, Maps.call]
    rw [Maps.set_other _ _ hne]
    rfl
  · exact List.mem_map.2 ⟨1, by decide, rfl⟩

open Demo in
/-- A batch with a removal, of two entries for one key; a batch of unequal lengths; a call that RocksDB does not serve. -/
example : (Db.calls (S := storeSchemas) .rocks Db.empty
    [(true, .batch true [(pay 1 2 3).txHash, (pay 1 2 3).txHash] [.remove, .insert storedPay]), (true, .batch true [(pay 1 2 3).txHash] []),
      (false, .remove true (pay 1 2 3).txHash), (true, .contains true (pay 1 2 3).txHash), (true, .contains false (pay 1 2 3).txHash)]).1.map
    (fun a => match a with | .ok (.bool b) => some b | .ok _ => none | .error .mismatch => some true | .error _ => some false) =
    [none, some true, some false, some true, some false] := by decide +kernel

end Huobi
