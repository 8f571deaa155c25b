import Verif.Spec.Store
import Verif.Props.Protobuf
/-
C31 – C34: the storage.  The database starts empty and is changed by any sequence of atomic writes.
-/
namespace Huobi

/-! ### Keys -/

theorem hash_key_length (h : Hash) : (pbEncode h).length = 34 := by
  obtain ⟨b, hb⟩ := h
  have : b ≠ [] := by intro h; rw [h] at hb; simp at hb
  simp only [pbEncode, Protobuf.toFields, Hash.pb, fBytes]
  simp [encFields, encField, this, hb, encVarint]

theorem epochId_key_length (i : EpochId) : (pbEncode i).length ≤ 11 := by
  have hv : ∀ c n, (encVarint c n).length ≤ c := by
    intro c
    induction c with
    | zero => intro n; simp [encVarint]
    | succ c ih =>
      intro n
      unfold encVarint
      split
      · simp
      · simp; exact ih _
  simp only [pbEncode, Protobuf.toFields, EpochId.pb, fU64]
  split
  · simp [encFields]
  · simp only [encFields, encField, List.flatMap_cons, List.flatMap_nil, List.append_nil, List.length_append]
    have := hv 10 i.id.toNat
    have h2 : (encVarint 10 (1 * 8)).length = 1 := by decide
    omega

theorem hash_key_ne_id (h : Hash) (i : EpochId) : pbEncode h ≠ pbEncode i := by
  intro e
  have h1 := hash_key_length h
  have h2 := epochId_key_length i
  rw [e] at h1
  omega

theorem hash_key_inj {h k : Hash} (e : pbEncode h = pbEncode k) : h = k :=
  C48_injective_partial (P := fun _ => True) C48_round_trip_partial.2.1 trivial trivial
    (by rw [hash_key_length]; decide) e

theorem id_key_inj {i j : EpochId} (e : pbEncode i = pbEncode j) : i = j :=
  C48_injective_partial (P := fun _ => True) C48_round_trip_partial.2.2.2.2.2.2.2.2.2.2.2.2.2.2 trivial trivial
    (by have := epochId_key_length i; omega) e

theorem hash_key_iff {h k : Hash} : pbEncode h = pbEncode k ↔ h = k := ⟨hash_key_inj, fun e => by rw [e]⟩
theorem id_key_iff {i j : EpochId} : pbEncode i = pbEncode j ↔ i = j := ⟨id_key_inj, fun e => by rw [e]⟩

/-! ### Refinement -/

/-- The columns of `RocksAdapter` hold exactly the encodings of the records of `s`.  No hash that is used to find epochs is
one of the two reserved keys. -/
structure Refines (lk : LatestKeys) (db : Db) (s : Store) : Prop where
  txs : ∀ h, db 2 (pbEncode h) = (s.txs h).map pbEncode
  receipts : ∀ h, db 3 (pbEncode h) = (s.receipts h).map pbEncode
  epochs : ∀ i, db 1 (pbEncode (EpochId.mk i)) = (s.epochs i).map pbEncode
  byHash : ∀ h, h ≠ lk.epoch → h ≠ lk.proof → db 1 (pbEncode h) = (s.byHash h).map (fun i => pbEncode (EpochId.mk i))
  latest : db 1 (pbEncode lk.epoch) = s.latest.map pbEncode
  proof : db 1 (pbEncode lk.proof) = s.proof.map pbEncode

/-- No hash under which an epoch is stored is a reserved key. -/
def Write.Apart (lk : LatestKeys) : Write → Prop
  | .hashEpoch h _ => h ≠ lk.epoch ∧ h ≠ lk.proof
  | _ => True

theorem Refines.empty (lk : LatestKeys) : Refines lk Db.empty Store.empty :=
  ⟨fun _ => rfl, fun _ => rfl, fun _ => rfl, fun _ _ _ => rfl, rfl, rfl⟩

theorem foldl_put_other {V : Type} (col : Nat) (key val : V → Bytes) (l : List V) (db : Db) (c : Nat) (k : Bytes)
    (h : c ≠ col) : (l.foldl (fun db v => db.put col (key v) (val v)) db) c k = db c k := by
  induction l generalizing db with
  | nil => rfl
  | cons v l ih => rw [List.foldl_cons, ih]; simp [Db.put, h]

theorem foldl_put_hash {V : Type} [Protobuf V] (col : Nat) (key : V → Hash) (l : List V) (db : Db) (m : Hash → Option V)
    (hm : ∀ h, db col (pbEncode h) = (m h).map pbEncode) (h : Hash) :
    (l.foldl (fun db v => db.put col (pbEncode (key v)) (pbEncode v)) db) col (pbEncode h) =
      (insertAll key l m h).map pbEncode := by
  induction l generalizing db m with
  | nil => simp [insertAll, hm]
  | cons v l ih =>
    rw [List.foldl_cons, ih (m := fun k => if k = key v then some v else m k)]
    · simp only [insertAll, List.reverse_cons, List.find?_append, List.find?_cons, List.find?_nil]
      by_cases e : key v = h
      · subst e; simp [Option.orElse_eq_or]
      · simp [e, Ne.symm e]
    · intro k
      simp only [Db.put, hash_key_iff, true_and]
      split
      · simp
      · exact hm k

theorem Refines.write {lk : LatestKeys} {db : Db} {s : Store} (h : Refines lk db s) (hk : lk.epoch ≠ lk.proof) (w : Write)
    (hw : w.Apart lk) : Refines lk (db.write .rocks lk w) (s.write w) := by
  cases w with
  | txs l =>
    simp only [Db.write, Write.puts, Store.write, List.foldl_map, Backend.rocks]
    exact ⟨fun k => foldl_put_hash 2 SignedTx.txHash l db s.txs h.txs k,
      fun k => by rw [foldl_put_other _ _ _ _ _ _ _ (by decide)]; exact h.receipts k,
      fun k => by rw [foldl_put_other _ _ _ _ _ _ _ (by decide)]; exact h.epochs k,
      fun k h1 h2 => by rw [foldl_put_other _ _ _ _ _ _ _ (by decide)]; exact h.byHash k h1 h2,
      by rw [foldl_put_other _ _ _ _ _ _ _ (by decide)]; exact h.latest,
      by rw [foldl_put_other _ _ _ _ _ _ _ (by decide)]; exact h.proof⟩
  | receipts l =>
    simp only [Db.write, Write.puts, Store.write, List.foldl_map, Backend.rocks]
    exact ⟨fun k => by rw [foldl_put_other _ _ _ _ _ _ _ (by decide)]; exact h.txs k,
      fun k => foldl_put_hash 3 Receipt.txHash l db s.receipts h.receipts k,
      fun k => by rw [foldl_put_other _ _ _ _ _ _ _ (by decide)]; exact h.epochs k,
      fun k h1 h2 => by rw [foldl_put_other _ _ _ _ _ _ _ (by decide)]; exact h.byHash k h1 h2,
      by rw [foldl_put_other _ _ _ _ _ _ _ (by decide)]; exact h.latest,
      by rw [foldl_put_other _ _ _ _ _ _ _ (by decide)]; exact h.proof⟩
  | epoch id e =>
    simp only [Db.write, Write.puts, Store.write, List.foldl_cons, List.foldl_nil, Backend.rocks]
    refine ⟨fun k => ?_, fun k => ?_, fun k => ?_, fun k h1 h2 => ?_, ?_, ?_⟩
    · simp [Db.put, h.txs]
    · simp [Db.put, h.receipts]
    · simp only [Db.put, id_key_iff, true_and, h.epochs]
      by_cases e' : k = id.id
      · subst e'; simp
      · have : EpochId.mk k ≠ id := fun x => e' (by rw [← x])
        simp [e', this]
    · simp [Db.put, hash_key_ne_id, h.byHash k h1 h2]
    · simp [Db.put, hash_key_ne_id, h.latest]
    · simp [Db.put, hash_key_ne_id, h.proof]
  | hashEpoch x id =>
    simp only [Db.write, Write.puts, Store.write, List.foldl_cons, List.foldl_nil, Backend.rocks]
    refine ⟨fun k => ?_, fun k => ?_, fun k => ?_, fun k h1 h2 => ?_, ?_, ?_⟩
    · simp [Db.put, h.txs]
    · simp [Db.put, h.receipts]
    · simp [Db.put, (hash_key_ne_id _ _).symm, h.epochs]
    · simp only [Db.put, hash_key_iff, true_and]
      split
      · simp
      · exact h.byHash k h1 h2
    · simp [Db.put, hash_key_iff, hw.1.symm, h.latest]
    · simp [Db.put, hash_key_iff, hw.2.symm, h.proof]
  | latestEpoch e =>
    simp only [Db.write, Write.puts, Store.write, List.foldl_cons, List.foldl_nil, Backend.rocks]
    refine ⟨fun k => ?_, fun k => ?_, fun k => ?_, fun k h1 h2 => ?_, ?_, ?_⟩
    · simp [Db.put, h.txs]
    · simp [Db.put, h.receipts]
    · simp [Db.put, (hash_key_ne_id _ _).symm, h.epochs]
    · simp [Db.put, hash_key_iff, h1, h.byHash k h1 h2]
    · simp [Db.put]
    · simp [Db.put, hash_key_iff, hk.symm, h.proof]
  | latestProof e =>
    simp only [Db.write, Write.puts, Store.write, List.foldl_cons, List.foldl_nil, Backend.rocks]
    refine ⟨fun k => ?_, fun k => ?_, fun k => ?_, fun k h1 h2 => ?_, ?_, ?_⟩
    · simp [Db.put, h.txs]
    · simp [Db.put, h.receipts]
    · simp [Db.put, (hash_key_ne_id _ _).symm, h.epochs]
    · simp [Db.put, hash_key_iff, h2, h.byHash k h1 h2]
    · simp [Db.put, hash_key_iff, hk, h.latest]
    · simp [Db.put]

theorem Refines.writes {lk : LatestKeys} (hk : lk.epoch ≠ lk.proof) (ws : List Write) (hw : ∀ w ∈ ws, w.Apart lk) :
    ∀ {db : Db} {s : Store}, Refines lk db s → Refines lk (db.writes .rocks lk ws) (s.writes ws) := by
  induction ws with
  | nil => intro db s h; exact h
  | cons w ws ih =>
    intro db s h
    exact ih (fun x hx => hw x (by simp [hx])) (h.write hk w (hw w (by simp)))

/-! ### C31 -/

/-- The record comes back from its protobuf coding unchanged. -/
def Preserved {V : Type} [Protobuf V] (v : V) : Prop := pbDecode (pbEncode v) = .ok v

theorem Db.get_of {V : Type} [Protobuf V] {be : Backend} {db : Db} {c : Category} {key : Bytes} {o : Option V}
    (h : db (be c) key = o.map pbEncode) (ho : ∀ v, o = some v → Preserved v) : db.get be c key = .ok o := by
  unfold Db.get
  rw [h]
  cases o with
  | none => rfl
  | some v => simp only [Option.map_some]; rw [ho v rfl]

/-- What a query for one record answers. -/
def answer {V : Type} : Option V → Except SErr V
  | some v => .ok v
  | none => .error .getNone

theorem Db.get_answer {V : Type} [Protobuf V] {be : Backend} {db : Db} {c : Category} {key : Bytes} {o : Option V}
    (h : db (be c) key = o.map pbEncode) (ho : ∀ v, o = some v → Preserved v) :
    (db.get be c key >>= checkNone) = answer o := by
  rw [Db.get_of h ho]
  cases o <;> rfl

theorem preserved_epoch {e : Epoch} (h : (pbEncode e).length < 2 ^ 64) : Preserved e :=
  C48_round_trip_partial.2.2.2.2.2.2.2.2.2.2.2.2.1 e trivial h
theorem preserved_proof {e : Proof} (h : (pbEncode e).length < 2 ^ 64) : Preserved e :=
  C48_round_trip_partial.2.2.2.2.2.2.2.2.2.1 e trivial h
theorem preserved_id (e : EpochId) : Preserved e :=
  C48_round_trip_partial.2.2.2.2.2.2.2.2.2.2.2.2.2.2 e trivial (by have := epochId_key_length e; omega)
theorem preserved_tx {t : SignedTx} (h : t.raw.action.deploysNonAsset = false) (hl : (pbEncode t).length < 2 ^ 64) : Preserved t :=
  C48_round_trip_partial.2.2.2.2.2.2.2.1 t h hl
theorem preserved_receipt {t : Receipt} (h : t.result.deploysNonAsset = false) (hl : (pbEncode t).length < 2 ^ 64) : Preserved t :=
  C48_round_trip_partial.2.2.2.2.2.2.2.2.1 t h hl

/-- The database after the writes `ws` on an empty node with `RocksAdapter`. -/
def rocksAfter (lk : LatestKeys) (ws : List Write) : Db := Db.empty.writes .rocks lk ws

/-- What a user expects to be stored after the writes. -/
def storeAfter (ws : List Write) : Store := Store.empty.writes ws

theorem refines_after {lk : LatestKeys} (hk : lk.epoch ≠ lk.proof) {ws : List Write} (hw : ∀ w ∈ ws, w.Apart lk) :
    Refines lk (rocksAfter lk ws) (storeAfter ws) := Refines.writes hk ws hw (Refines.empty lk)

/-- **C31 for the production backend, the true part.**  After any sequence of writes, every query on `RocksAdapter` is
answered as by six independent tables: the last record inserted under the key, or not-found.  Excepted are (only) the
reading of records that themselves do not survive the protobuf coding, i.e. deployments of a contract other than an asset
(see `C48_deploy_exact`), whatever else is stored. -/
theorem C31_rocks_partial {lk : LatestKeys} (hk : lk.epoch ≠ lk.proof) {ws : List Write} (hw : ∀ w ∈ ws, w.Apart lk) :
    (∀ h, (∀ t, (storeAfter ws).txs h = some t → t.raw.action.deploysNonAsset = false ∧ (pbEncode t).length < 2 ^ 64) →
      (rocksAfter lk ws).getTransaction .rocks h = answer ((storeAfter ws).txs h)) ∧
    (∀ h, (∀ r, (storeAfter ws).receipts h = some r → r.result.deploysNonAsset = false ∧ (pbEncode r).length < 2 ^ 64) →
      (rocksAfter lk ws).getReceipt .rocks h = answer ((storeAfter ws).receipts h)) ∧
    (∀ i, (∀ e, (storeAfter ws).epochs i = some e → (pbEncode e).length < 2 ^ 64) →
      (rocksAfter lk ws).getEpochById .rocks i = answer ((storeAfter ws).epochs i)) ∧
    (∀ h, h ≠ lk.epoch → h ≠ lk.proof →
      (∀ i e, (storeAfter ws).byHash h = some i → (storeAfter ws).epochs i = some e → (pbEncode e).length < 2 ^ 64) →
      (rocksAfter lk ws).getEpochByHash .rocks h = answer ((storeAfter ws).byHash h >>= (storeAfter ws).epochs)) ∧
    ((∀ e, (storeAfter ws).latest = some e → (pbEncode e).length < 2 ^ 64) →
      (rocksAfter lk ws).getLatestEpoch .rocks lk = answer (storeAfter ws).latest) ∧
    ((∀ p, (storeAfter ws).proof = some p → (pbEncode p).length < 2 ^ 64) →
      (rocksAfter lk ws).getLatestProof .rocks lk = answer (storeAfter ws).proof) := by
  have R := refines_after hk hw
  generalize rocksAfter lk ws = db at R ⊢
  generalize storeAfter ws = s at R ⊢
  refine ⟨fun h hc => Db.get_answer (R.txs h) (fun t ht => preserved_tx (hc t ht).1 (hc t ht).2),
    fun h hc => Db.get_answer (R.receipts h) (fun t ht => preserved_receipt (hc t ht).1 (hc t ht).2),
    fun i hc => Db.get_answer (R.epochs i) (fun e he => preserved_epoch (hc e he)),
    fun h h1 h2 hc => ?_,
    fun hc => Db.get_answer R.latest (fun e he => preserved_epoch (hc e he)),
    fun hc => Db.get_answer R.proof (fun e he => preserved_proof (hc e he))⟩
  unfold Db.getEpochByHash
  have hb : db (Backend.rocks .epoch) (pbEncode h) = ((s.byHash h).map EpochId.mk).map pbEncode := by
    rw [Option.map_map]; exact R.byHash h h1 h2
  have h3 : (db.get (V := EpochId) .rocks .epoch (pbEncode h) >>= checkNone) = answer ((s.byHash h).map EpochId.mk) :=
    Db.get_answer hb (fun v _ => preserved_id v)
  rw [h3]
  cases hh : s.byHash h with
  | none => rfl
  | some i => exact Db.get_answer (R.epochs i) (fun e he => preserved_epoch (hc i e hh he))

/-- The last write of a transaction counts: a transaction inserted by a batch, and whose hash occurs in no later batch, is
what the query returns.  (An instance of `C31_rocks_partial` that does not mention the tables.) -/
theorem C31_read_your_write_partial {lk : LatestKeys} (hk : lk.epoch ≠ lk.proof) (before after : List Write) (pre post : List SignedTx)
    (t : SignedTx) (hw : ∀ w ∈ before ++ .txs (pre ++ t :: post) :: after, w.Apart lk)
    (hpost : ∀ t' ∈ post, t'.txHash ≠ t.txHash) (hafter : ∀ l, Write.txs l ∈ after → ∀ t' ∈ l, t'.txHash ≠ t.txHash)
    (hd : t.raw.action.deploysNonAsset = false) (hl : (pbEncode t).length < 2 ^ 64) :
    (rocksAfter lk (before ++ .txs (pre ++ t :: post) :: after)).getTransaction .rocks t.txHash = .ok t := by
  have hs : (storeAfter (before ++ .txs (pre ++ t :: post) :: after)).txs t.txHash = some t := by
    unfold storeAfter Store.writes
    rw [List.foldl_append, List.foldl_cons]
    generalize List.foldl Store.write Store.empty before = s0
    have h1 : (s0.write (.txs (pre ++ t :: post))).txs t.txHash = some t := by
      simp only [Store.write, insertAll, List.reverse_append, List.reverse_cons, List.find?_append]
      have : List.find? (fun v => decide (v.txHash = t.txHash)) post.reverse = none := by
        rw [List.find?_eq_none]; simpa using hpost
      simp [this]
    generalize s0.write (.txs (pre ++ t :: post)) = s1 at h1
    clear hw
    induction after generalizing s1 with
    | nil => exact h1
    | cons w ws ih =>
      rw [List.foldl_cons]
      refine ih (fun l hm => hafter l (by simp [hm])) _ ?_
      cases w with
      | txs l =>
        have : List.find? (fun v => decide (v.txHash = t.txHash)) l.reverse = none := by
          rw [List.find?_eq_none]; simpa using hafter l (by simp)
        simp [Store.write, insertAll, this, h1]
      | _ => exact h1
  have := (C31_rocks_partial hk hw).1 t.txHash (fun t' ht' => by rw [hs] at ht'; cases ht'; exact ⟨hd, hl⟩)
  rw [this, hs]
  rfl

/-- A receipt of the transaction with hash `n`. -/
def Demo.receipt (n : UInt8) (res : ReceiptResult := .fail "s" "u") : Receipt :=
  { stateRoot := Demo.hash 1, epochId := 3, txHash := Demo.hash n, cyclesUsed := ⟨Demo.gold, 10⟩, result := res }

/-- A header with id and previous hash. -/
def Demo.header (id : UInt64) (pre : Hash := Demo.hash 4) (root : Hash := Demo.hash 5) : EpochHeader :=
  { chainId := Demo.hash 9, epochId := id, preHash := pre, timestamp := 5, logsBloom := Bloom.zero, orderRoot := Demo.hash 0,
    confirmRoot := [], stateRoot := root, receiptRoot := [], cyclesUsed := 0, proposer := Demo.user 1,
    proof := ⟨0, 0, Demo.hash 0, [], []⟩, validatorVersion := 0, validators := [] }

def Demo.epochOf (id : UInt64) (txs : List Hash) : Epoch := ⟨Demo.header id, txs⟩

def Demo.keys : LatestKeys := ⟨Demo.hash 100, Demo.hash 101⟩

/-- Non-vacuity of C31: a history on all tables, with an overwritten transaction. -/
example : ∃ ws : List Write, (∀ w ∈ ws, w.Apart Demo.keys) ∧ Demo.keys.epoch ≠ Demo.keys.proof ∧
    (storeAfter ws).txs (Demo.hash 1) = some (Demo.pay 1 3 5) ∧ (Demo.pay 1 3 5).raw.action.deploysNonAsset = false ∧
    (pbEncode (Demo.pay 1 3 5)).length < 2 ^ 64 ∧ ((storeAfter ws).byHash (Demo.hash 7)).isSome ∧ (storeAfter ws).latest.isSome :=
  ⟨[.txs [Demo.pay 1 2 3, Demo.pay 2 1 1], .receipts [Demo.receipt 1], .hashEpoch (Demo.hash 7) ⟨3⟩, .txs [Demo.pay 1 3 5],
    .latestEpoch (Demo.epochOf 3 [])],
   by simp only [List.forall_mem_cons, Write.Apart, true_and]; simp; decide +kernel,
   by decide +kernel, by decide +kernel, by decide +kernel, by decide +kernel, by decide +kernel, rfl⟩

def Demo.exceptOption {ε α : Type} : Except ε α → Option α
  | .ok a => some a
  | .error _ => none

/-- **C31 refuted.**  With `MemoryAdapter`, inserting the receipt of a stored transaction makes the transaction unreadable
(its hash now holds bytes of the receipt, which do not decode as a transaction).  With either backend, a stored deployment
of an application is read back as a different transaction. -/
theorem C31_refuted :
    (∃ (t : SignedTx) (r : Receipt), t.raw.action.deploysNonAsset = false ∧
      (Db.empty.writes .memory Demo.keys [.txs [t]]).getTransaction .memory t.txHash = .ok t ∧
      (Db.empty.writes .memory Demo.keys [.txs [t], .receipts [r]]).getTransaction .memory t.txHash ≠ .ok t) ∧
    (∃ t t' : SignedTx, t' ≠ t ∧ (rocksAfter Demo.keys [.txs [t]]).getTransaction .rocks t.txHash = .ok t') := by
  refine ⟨⟨Demo.pay 1 2 3, Demo.receipt 1, rfl, ?_, ?_⟩, ⟨Demo.deployTx, (Demo.deployTx).withAction (.deploy [1, 2, 3] .library), ?_, ?_⟩⟩
  · have h : Demo.exceptOption ((Db.empty.writes .memory Demo.keys [.txs [Demo.pay 1 2 3]]).getTransaction .memory (Demo.pay 1 2 3).txHash) =
        some (Demo.pay 1 2 3) := by decide +kernel
    generalize ((Db.empty.writes .memory Demo.keys [.txs [Demo.pay 1 2 3]]).getTransaction .memory (Demo.pay 1 2 3).txHash) = x at h
    cases x with
    | error e => simp [Demo.exceptOption] at h
    | ok v => simp only [Demo.exceptOption, Option.some.injEq] at h; rw [h]
  · have h : Demo.exceptOption ((Db.empty.writes .memory Demo.keys [.txs [Demo.pay 1 2 3], .receipts [Demo.receipt 1]]).getTransaction
        .memory (Demo.pay 1 2 3).txHash) = none := by decide +kernel
    intro e
    rw [e] at h
    cases h
  · intro h
    exact absurd (congrArg (fun t : SignedTx => t.raw.action) h) (by decide)
  · have h : Demo.exceptOption ((rocksAfter Demo.keys [.txs [Demo.deployTx]]).getTransaction .rocks (Demo.deployTx).txHash) =
        some ((Demo.deployTx).withAction (.deploy [1, 2, 3] .library)) := by decide +kernel
    generalize ((rocksAfter Demo.keys [.txs [Demo.deployTx]]).getTransaction .rocks (Demo.deployTx).txHash) = x at h
    cases x with
    | error e => simp [Demo.exceptOption] at h
    | ok v => simp only [Demo.exceptOption, Option.some.injEq] at h; rw [h]

/-! ### C33 -/

theorem getBatch_of {V : Type} [Protobuf V] {be : Backend} {db : Db} {c : Category} {m : Hash → Option V}
    (hm : ∀ h, db (be c) (pbEncode h) = (m h).map pbEncode) (hs : List Hash) (hp : ∀ h ∈ hs, ∀ v, m h = some v → Preserved v) :
    (hs.mapM (fun h => db.get (V := V) be c (pbEncode h))) = .ok (hs.map m) :=
  mapM_ok _ m hs (fun h hh => Db.get_of (hm h) (hp h hh))

/-- **C33, what the queries do.**  `get_transactions` and `get_receipts` return the records found, in order of the request,
and silently leave out the hashes that are not stored. -/
theorem C33_batch_exact {lk : LatestKeys} (hk : lk.epoch ≠ lk.proof) {ws : List Write} (hw : ∀ w ∈ ws, w.Apart lk) (hs : List Hash) :
    ((∀ h ∈ hs, ∀ t, (storeAfter ws).txs h = some t → t.raw.action.deploysNonAsset = false ∧ (pbEncode t).length < 2 ^ 64) →
      (rocksAfter lk ws).getTransactions .rocks hs = .ok (hs.filterMap (storeAfter ws).txs)) ∧
    ((∀ h ∈ hs, ∀ r, (storeAfter ws).receipts h = some r → r.result.deploysNonAsset = false ∧ (pbEncode r).length < 2 ^ 64) →
      (rocksAfter lk ws).getReceipts .rocks hs = .ok (hs.filterMap (storeAfter ws).receipts)) := by
  have R := refines_after hk hw
  constructor
  · intro hc
    unfold Db.getTransactions
    rw [getBatch_of (be := .rocks) (c := .signedTx) R.txs hs (fun h hh v hv => preserved_tx (hc h hh v hv).1 (hc h hh v hv).2)]
    show Except.ok (List.filterMap id (List.map _ hs)) = _
    simp [List.filterMap_map]
  · intro hc
    unfold Db.getReceipts
    rw [getBatch_of (be := .rocks) (c := .receipt) R.receipts hs (fun h hh v hv => preserved_receipt (hc h hh v hv).1 (hc h hh v hv).2)]
    show Except.ok (List.filterMap id (List.map _ hs)) = _
    simp [List.filterMap_map]

theorem filterMap_all {α β : Type} (f : α → Option β) : ∀ (l : List α) (r : List β), List.Forall₂ (fun a b => f a = some b) l r →
    l.filterMap f = r := by
  intro l r h
  induction h with
  | nil => rfl
  | cons h _ ih => rw [List.filterMap_cons_some h, ih]

theorem Forall₂.imp {α β : Type} {R S : α → β → Prop} (h : ∀ a b, R a b → S a b) {l : List α} {r : List β}
    (hf : List.Forall₂ R l r) : List.Forall₂ S l r := by
  induction hf with
  | nil => exact .nil
  | cons hd _ ih => exact .cons (h _ _ hd) ih

/-- **C33, the true part.**  If every requested hash is stored, the answer has exactly the stored record for each requested
hash, position by position. -/
theorem C33_all_stored_partial {lk : LatestKeys} (hk : lk.epoch ≠ lk.proof) {ws : List Write} (hw : ∀ w ∈ ws, w.Apart lk)
    (hs : List Hash) :
    (∀ ts, List.Forall₂ (fun h t => (storeAfter ws).txs h = some t ∧ t.raw.action.deploysNonAsset = false ∧
        (pbEncode t).length < 2 ^ 64) hs ts → (rocksAfter lk ws).getTransactions .rocks hs = .ok ts) ∧
    (∀ rs, List.Forall₂ (fun h r => (storeAfter ws).receipts h = some r ∧ r.result.deploysNonAsset = false ∧
        (pbEncode r).length < 2 ^ 64) hs rs → (rocksAfter lk ws).getReceipts .rocks hs = .ok rs) := by
  have key : ∀ {V : Type} (m : Hash → Option V) (P : V → Prop) (hs : List Hash) (vs : List V),
      List.Forall₂ (fun h v => m h = some v ∧ P v) hs vs → ∀ h ∈ hs, ∀ v, m h = some v → P v := by
    intro V m P hs vs hf
    induction hf with
    | nil => simp
    | cons hd _ ih =>
      intro h hm v hv
      rcases List.mem_cons.1 hm with e | e
      · subst e; rw [hd.1] at hv; cases hv; exact hd.2
      · exact ih h e v hv
  constructor
  · intro ts hf
    rw [(C33_batch_exact hk hw hs).1 (key _ _ hs ts hf), filterMap_all _ hs ts (Forall₂.imp (fun _ _ h => h.1) hf)]
  · intro ts hf
    rw [(C33_batch_exact hk hw hs).2 (key _ _ hs ts hf), filterMap_all _ hs ts (Forall₂.imp (fun _ _ h => h.1) hf)]

/-- **C33 refuted.**  Of two requested transactions only the second is stored: the answer is the one-element list with the
second, no error, so the caller takes it for the answer to its first hash. -/
theorem C33_refuted : ∃ (ws : List Write) (h1 h2 : Hash) (t2 : SignedTx), (∀ w ∈ ws, w.Apart Demo.keys) ∧ h1 ≠ h2 ∧ t2.txHash = h2 ∧
    (rocksAfter Demo.keys ws).getTransactions .rocks [h1, h2] = .ok [t2] ∧
    (rocksAfter Demo.keys ws).getReceipts .rocks [h1, h2] = .ok [] := by
  have hw : ∀ w ∈ [Write.txs [Demo.pay 2 1 1]], w.Apart Demo.keys := by simp [Write.Apart]
  have hk : Demo.keys.epoch ≠ Demo.keys.proof := by decide +kernel
  have h1 : (storeAfter [Write.txs [Demo.pay 2 1 1]]).txs (Demo.hash 1) = none := by decide +kernel
  have h2 : (storeAfter [Write.txs [Demo.pay 2 1 1]]).txs (Demo.hash 2) = some (Demo.pay 2 1 1) := by decide +kernel
  refine ⟨[.txs [Demo.pay 2 1 1]], Demo.hash 1, Demo.hash 2, Demo.pay 2 1 1, hw, by decide +kernel, rfl, ?_, ?_⟩
  · rw [(C33_batch_exact hk hw _).1]
    · simp [h1, h2]
    · intro h hh t ht
      simp only [List.mem_cons, List.not_mem_nil, or_false] at hh
      rcases hh with e | e <;> subst e
      · rw [h1] at ht; cases ht
      · rw [h2] at ht; cases ht; exact ⟨rfl, by decide +kernel⟩
  · rw [(C33_batch_exact hk hw _).2 (fun h _ r hr => by cases hr)]
    rfl

example : List.Forall₂ (fun h t => (storeAfter [Write.txs [Demo.pay 2 1 1, Demo.pay 1 2 3]]).txs h = some t ∧
    t.raw.action.deploysNonAsset = false ∧ (pbEncode t).length < 2 ^ 64) [Demo.hash 1, Demo.hash 2, Demo.hash 1]
    [Demo.pay 1 2 3, Demo.pay 2 1 1, Demo.pay 1 2 3] := by
  refine .cons ⟨?_, rfl, ?_⟩ (.cons ⟨?_, rfl, ?_⟩ (.cons ⟨?_, rfl, ?_⟩ .nil)) <;> decide +kernel

/-! ### Histories of calls; C32 and C34 -/

/-- The writes of a sequence of completed calls. -/
def opWrites (digest : Bytes → Hash) (ops : List StoreOp) : List Write := ops.flatMap (StoreOp.writes digest)

/-- The writes done at a crash: the calls `ops` were completed, of the call `op` only the first `j` writes were done. -/
def crashWrites (digest : Bytes → Hash) (ops : List StoreOp) (op : StoreOp) (j : Nat) : List Write :=
  opWrites digest ops ++ (op.writes digest).take j

theorem opWrites_append (digest : Bytes → Hash) (a b : List StoreOp) : opWrites digest (a ++ b) = opWrites digest a ++ opWrites digest b := by
  simp [opWrites]

theorem storeAfter_append (a b : List Write) : storeAfter (a ++ b) = (storeAfter a).writes b := by
  simp [storeAfter, Store.writes]

/-- The first byte of the protobuf coding of a header. -/
theorem header_head (h : EpochHeader) : ∃ r, pbEncode h = 10 :: r := by
  show ∃ r, encFields h.pb = _
  unfold EpochHeader.pb
  simp only [List.append_assoc]
  rw [encFields_append]
  simp only [fMsg, encFields, List.flatMap_cons, List.flatMap_nil, List.append_nil, encField]
  have : encVarint 10 (1 * 8 + 2) = [10] := by decide
  rw [this]
  exact ⟨_, rfl⟩

theorem epoch_rlp_head (e : Epoch) (hl : (encode e : Bytes).length < 2 ^ 64) : ∃ l r, (encode e : Bytes) = l :: r ∧ 0xc0 ≤ l.toNat :=
  Rlp.head_enc_list _ hl

/-- The hypothesis `Apart` of the theorems above can only fail by an explicit collision of the hash function. -/
theorem apart_or_collision (digest : Bytes → Hash) (e : Epoch) :
    (digest (pbEncode e.header) ≠ (LatestKeys.of digest).epoch ∧ digest (pbEncode e.header) ≠ (LatestKeys.of digest).proof) ∨
    ∃ x, (x = utf8 "latest_hash" ∨ x = utf8 "latest_proof") ∧ x ≠ pbEncode e.header ∧ digest x = digest (pbEncode e.header) := by
  obtain ⟨r, hr⟩ := header_head e.header
  by_cases h1 : digest (pbEncode e.header) = (LatestKeys.of digest).epoch
  · refine .inr ⟨utf8 "latest_hash", .inl rfl, ?_, h1.symm⟩
    rw [hr]
    intro h
    have := congrArg List.head? h
    revert this
    simp only [List.head?_cons]
    decide
  · by_cases h2 : digest (pbEncode e.header) = (LatestKeys.of digest).proof
    · refine .inr ⟨utf8 "latest_proof", .inr rfl, ?_, h2.symm⟩
      rw [hr]
      intro h
      have := congrArg List.head? h
      revert this
      simp only [List.head?_cons]
      decide
    · exact .inl ⟨h1, h2⟩

/-- Every hash under which something is stored in the epoch column is the digest of one of the texts `Q` that digests are
taken of. -/
theorem hash_key_origin (digest : Bytes → Hash) (Q : Bytes → Prop) (q1 : Q (utf8 "latest_hash")) (q2 : Q (utf8 "latest_proof")) (ws : List Write)
    (hw : ∀ w ∈ ws, ∀ h id, w = .hashEpoch h id → ∃ x, Q x ∧ h = digest x) (h : Hash)
    (hs : (rocksAfter (LatestKeys.of digest) ws 1 (pbEncode h)).isSome) :
    ∃ x, Q x ∧ h = digest x := by
  have : ∀ (ws : List Write) (db : Db), (∀ w ∈ ws, ∀ h id, w = .hashEpoch h id → ∃ x, Q x ∧ h = digest x) →
      (∀ h, (db 1 (pbEncode h)).isSome → ∃ x, Q x ∧ h = digest x) →
      ∀ h, ((db.writes .rocks (LatestKeys.of digest) ws) 1 (pbEncode h)).isSome →
        ∃ x, Q x ∧ h = digest x := by
    intro ws
    induction ws with
    | nil => intro db _ hdb; exact hdb
    | cons w ws ih =>
      intro db hw hdb
      refine ih (db.write .rocks _ w) (fun w' hw' => hw w' (by simp [hw'])) ?_
      intro h hs
      cases w with
      | txs l =>
        simp only [Db.write, Write.puts, List.foldl_map, Backend.rocks] at hs
        rw [foldl_put_other _ _ _ _ _ _ _ (by decide)] at hs
        exact hdb h hs
      | receipts l =>
        simp only [Db.write, Write.puts, List.foldl_map, Backend.rocks] at hs
        rw [foldl_put_other _ _ _ _ _ _ _ (by decide)] at hs
        exact hdb h hs
      | epoch id e =>
        simp only [Db.write, Write.puts, List.foldl_cons, List.foldl_nil, Backend.rocks, Db.put, hash_key_ne_id, and_false, if_false] at hs
        exact hdb h hs
      | hashEpoch h' id =>
        simp only [Db.write, Write.puts, List.foldl_cons, List.foldl_nil, Backend.rocks, Db.put, hash_key_iff, true_and] at hs
        by_cases e : h = h'
        · obtain ⟨ep, hep⟩ := hw _ (by simp) h' id rfl
          exact ⟨ep, hep.1, e.trans hep.2⟩
        · rw [if_neg e] at hs; exact hdb h hs
      | latestEpoch ep =>
        simp only [Db.write, Write.puts, List.foldl_cons, List.foldl_nil, Backend.rocks, Db.put, hash_key_iff, true_and] at hs
        by_cases e : h = (LatestKeys.of digest).epoch
        · exact ⟨utf8 "latest_hash", q1, e⟩
        · rw [if_neg e] at hs; exact hdb h hs
      | latestProof p =>
        simp only [Db.write, Write.puts, List.foldl_cons, List.foldl_nil, Backend.rocks, Db.put, hash_key_iff, true_and] at hs
        by_cases e : h = (LatestKeys.of digest).proof
        · exact ⟨utf8 "latest_proof", q2, e⟩
        · rw [if_neg e] at hs; exact hdb h hs
  exact this ws Db.empty hw (fun h hs => by simp [Db.empty] at hs) h hs

theorem hashEpoch_of_ops {digest : Bytes → Hash} {ops : List StoreOp} {h : Hash} {id : EpochId}
    (hm : Write.hashEpoch h id ∈ opWrites digest ops) :
    ∃ e, StoreOp.insertEpoch e ∈ ops ∧ h = digest (pbEncode e.header) ∧ id = ⟨e.header.epochId⟩ := by
  simp only [opWrites, List.mem_flatMap] at hm
  obtain ⟨op, ho, hm⟩ := hm
  cases op <;> simp [StoreOp.writes] at hm
  exact ⟨_, ho, hm⟩

theorem mem_take_writes {digest : Bytes → Hash} {ops : List StoreOp} {op : StoreOp} {j : Nat} {w : Write}
    (h : w ∈ crashWrites digest ops op j) : w ∈ opWrites digest (ops ++ [op]) := by
  unfold crashWrites at h
  rw [opWrites_append]
  rcases List.mem_append.1 h with h | h
  · exact List.mem_append.2 (.inl h)
  · refine List.mem_append.2 (.inr ?_)
    simp only [opWrites, List.flatMap_cons, List.flatMap_nil, List.append_nil]
    exact List.mem_of_mem_take h

/-- **C34 refuted, for every chain and every hash function.**  Looking up an epoch by the hash its successor links to
(the digest of the fixed coding of the epoch, `C35_pre_hash`) finds something only if that digest collides with the digest
of another text: that of a header recorded in the history, or one of the two names the store reserves. -/
theorem C34_refuted (digest : Bytes → Hash) (ops : List StoreOp) (op : StoreOp) (j : Nat) (e e' : Epoch)
    (hl : (encode e : Bytes).length < 2 ^ 64)
    (h : (rocksAfter (LatestKeys.of digest) (crashWrites digest ops op j)).getEpochByHash .rocks (digest (encode e)) = .ok e') :
    ∃ x, ((∃ e0, StoreOp.insertEpoch e0 ∈ ops ++ [op] ∧ x = pbEncode e0.header) ∨ x = utf8 "latest_hash" ∨ x = utf8 "latest_proof") ∧
      x ≠ encode e ∧ digest x = digest (encode e) := by
  have hs : (rocksAfter (LatestKeys.of digest) (crashWrites digest ops op j) 1 (pbEncode (digest (encode e)))).isSome := by
    cases hx : rocksAfter (LatestKeys.of digest) (crashWrites digest ops op j) 1 (pbEncode (digest (encode e))) with
    | some b => rfl
    | none =>
      unfold Db.getEpochByHash Db.get at h
      rw [show Backend.rocks .epoch = 1 from rfl, hx] at h
      cases h
  obtain ⟨x, hq, hd⟩ := hash_key_origin digest
    (fun x => (∃ e0, StoreOp.insertEpoch e0 ∈ ops ++ [op] ∧ x = pbEncode e0.header) ∨ x = utf8 "latest_hash" ∨ x = utf8 "latest_proof")
    (.inr (.inl rfl)) (.inr (.inr rfl)) _ (fun w hw h id e => by
    subst e
    obtain ⟨e, he, h, _⟩ := hashEpoch_of_ops (mem_take_writes hw)
    exact ⟨_, .inl ⟨e, he, rfl⟩, h⟩) _ hs
  have hc : ∃ c r, x = c :: r ∧ c.toNat < 0xc0 := by
    rcases hq with ⟨e0, -, rfl⟩ | rfl | rfl
    · obtain ⟨r, hr⟩ := header_head e0.header
      exact ⟨10, r, hr, by decide⟩
    · exact ⟨_, _, rfl, by decide⟩
    · exact ⟨_, _, rfl, by decide⟩
  obtain ⟨c, r, hx, hc⟩ := hc
  obtain ⟨l, r', he, hlc⟩ := epoch_rlp_head e hl
  refine ⟨x, hq, ?_, hd.symm⟩
  rw [hx, he]
  intro h
  simp only [List.cons.injEq] at h
  rw [h.1] at hc
  omega

/-- A hash for examples that depends on all bytes. -/
def Demo.mix (b : Bytes) : Hash :=
  let n := b.foldl (fun acc x => (acc * 257 + x.toNat + 1) % 2 ^ 256) 7
  ⟨(List.range 32).map (fun i => UInt8.ofNat (n / 256 ^ i % 256)), by simp⟩

theorem Demo.eq_ok_of {ε α : Type} {x : Except ε α} {v : α} (h : Demo.exceptOption x = some v) : x = .ok v := by
  cases x with
  | error e => simp [Demo.exceptOption] at h
  | ok w => simp only [Demo.exceptOption, Option.some.injEq] at h; rw [h]

/-- Whether a query answers not-found. -/
def Demo.notFound {α : Type} : Except SErr α → Bool
  | .error .getNone => true
  | _ => false

theorem Demo.eq_getNone_of {α : Type} {x : Except SErr α} (h : Demo.notFound x = true) : x = .error .getNone := by
  match x, h with
  | .error .getNone, _ => rfl

def Demo.epoch3 : Epoch := ⟨Demo.header 3, [Demo.hash 1]⟩
def Demo.epoch4 : Epoch := ⟨Demo.header 4 (Demo.mix (encode Demo.epoch3)), []⟩

/-- **C34 refuted, a chain.**  The epoch is stored, but not found by the hash the next epoch carries. -/
theorem C34_refuted_witness : ∃ (digest : Bytes → Hash) (e e2 : Epoch), e2.header.preHash = digest (encode e) ∧
    e2.header.epochId = e.header.epochId + 1 ∧
    (rocksAfter (LatestKeys.of digest) (opWrites digest [.insertEpoch e, .insertEpoch e2])).getEpochById .rocks e.header.epochId = .ok e ∧
    (rocksAfter (LatestKeys.of digest) (opWrites digest [.insertEpoch e, .insertEpoch e2])).getEpochByHash .rocks e2.header.preHash =
      .error .getNone :=
  ⟨Demo.mix, Demo.epoch3, Demo.epoch4, rfl, rfl, Demo.eq_ok_of (by decide +kernel), Demo.eq_getNone_of (by decide +kernel)⟩

/-! Facts about what is stored after a history, in terms of the tables. -/

theorem Store.writes_append (s : Store) (a b : List Write) : s.writes (a ++ b) = (s.writes a).writes b := by
  simp [Store.writes]

theorem epochs_origin (ws : List Write) : ∀ (s : Store) (i : UInt64) (e : Epoch), (s.writes ws).epochs i = some e →
    s.epochs i = some e ∨ Write.epoch ⟨i⟩ e ∈ ws := by
  induction ws with
  | nil => intro s i e h; exact .inl h
  | cons w ws ih =>
    intro s i e h
    rcases ih (s.write w) i e h with h | h
    · cases w with
      | epoch id e' =>
        simp only [Store.write] at h
        by_cases hi : i = id.id
        · rw [if_pos hi] at h
          cases h
          right
          obtain ⟨x⟩ := id
          simp only at hi
          rw [hi]
          simp
        · rw [if_neg hi] at h; exact .inl h
      | _ => exact .inl h
    · exact .inr (by simp [h])

theorem byHash_origin (ws : List Write) : ∀ (s : Store) (h : Hash) (i : UInt64), (s.writes ws).byHash h = some i →
    s.byHash h = some i ∨ Write.hashEpoch h ⟨i⟩ ∈ ws := by
  induction ws with
  | nil => intro s h i hh; exact .inl hh
  | cons w ws ih =>
    intro s h i hh
    rcases ih (s.write w) h i hh with hh | hh
    · cases w with
      | hashEpoch h' id =>
        simp only [Store.write] at hh
        by_cases hi : h = h'
        · rw [if_pos hi] at hh
          obtain ⟨x⟩ := id
          cases hh
          rw [hi]
          exact .inr (by simp)
        · rw [if_neg hi] at hh; exact .inl hh
      | _ => exact .inl hh
    · exact .inr (by simp [hh])

theorem insertAll_isSome {K V : Type} [DecidableEq K] (key : V → K) (l : List V) (m : K → Option V) (k : K)
    (h : (m k).isSome ∨ ∃ v ∈ l, key v = k) : (insertAll key l m k).isSome := by
  unfold insertAll
  cases hf : List.find? (fun v => decide (key v = k)) l.reverse with
  | some v => rfl
  | none =>
    rcases h with h | ⟨v, hv, hk⟩
    · simpa using h
    · rw [List.find?_eq_none] at hf
      exact absurd (by simpa using hk) (hf v (by simpa using hv))

theorem insertAll_key {K V : Type} [DecidableEq K] (key : V → K) (l : List V) (m : K → Option V)
    (hm : ∀ k v, m k = some v → key v = k) (k : K) (v : V) (h : insertAll key l m k = some v) :
    key v = k ∧ (v ∈ l ∨ m k = some v) := by
  unfold insertAll at h
  cases hf : List.find? (fun v => decide (key v = k)) l.reverse with
  | some w =>
    rw [hf] at h
    cases h
    exact ⟨by simpa using List.find?_some hf, .inl (by simpa using List.mem_of_find?_eq_some hf)⟩
  | none =>
    rw [hf] at h
    exact ⟨hm k v h, .inr h⟩

/-- Nothing that is stored disappears. -/
structure Store.Grows (s s' : Store) : Prop where
  txs : ∀ h, (s.txs h).isSome → (s'.txs h).isSome
  receipts : ∀ h, (s.receipts h).isSome → (s'.receipts h).isSome
  epochs : ∀ i, (s.epochs i).isSome → (s'.epochs i).isSome
  byHash : ∀ h, (s.byHash h).isSome → (s'.byHash h).isSome
  latest : s.latest.isSome → s'.latest.isSome
  proof : s.proof.isSome → s'.proof.isSome

theorem Store.Grows.refl (s : Store) : s.Grows s := ⟨fun _ h => h, fun _ h => h, fun _ h => h, fun _ h => h, fun h => h, fun h => h⟩

theorem Store.Grows.trans {a b c : Store} (h : a.Grows b) (h' : b.Grows c) : a.Grows c :=
  ⟨fun x y => h'.txs x (h.txs x y), fun x y => h'.receipts x (h.receipts x y), fun x y => h'.epochs x (h.epochs x y),
   fun x y => h'.byHash x (h.byHash x y), fun y => h'.latest (h.latest y), fun y => h'.proof (h.proof y)⟩

theorem Store.grows_write (s : Store) (w : Write) : s.Grows (s.write w) := by
  have r := Store.Grows.refl s
  cases w with
  | txs l => exact { r with txs := fun h hh => insertAll_isSome _ _ _ _ (.inl hh) }
  | receipts l => exact { r with receipts := fun h hh => insertAll_isSome _ _ _ _ (.inl hh) }
  | epoch id e => exact { r with epochs := fun i hi => by simp only [Store.write]; split <;> simp [hi] }
  | hashEpoch h id => exact { r with byHash := fun i hi => by simp only [Store.write]; split <;> simp [hi] }
  | latestEpoch e => exact { r with latest := fun _ => rfl }
  | latestProof p => exact { r with proof := fun _ => rfl }

theorem Store.grows_writes (ws : List Write) : ∀ s : Store, s.Grows (s.writes ws) := by
  induction ws with
  | nil => exact Store.Grows.refl
  | cons w ws ih => intro s; exact (s.grows_write w).trans (ih _)

theorem epochs_of_mem {ws : List Write} {s : Store} {i : UInt64} {e : Epoch} (h : Write.epoch ⟨i⟩ e ∈ ws) :
    ((s.writes ws).epochs i).isSome := by
  obtain ⟨a, b, rfl⟩ := List.append_of_mem h
  rw [Store.writes_append]
  show (Store.epochs (Store.writes _ b) i).isSome
  refine (Store.grows_writes b _).epochs i ?_
  simp [Store.write]

theorem byHash_of_mem {ws : List Write} {s : Store} {h : Hash} {i : UInt64} (hm : Write.hashEpoch h ⟨i⟩ ∈ ws) :
    ((s.writes ws).byHash h).isSome := by
  obtain ⟨a, b, rfl⟩ := List.append_of_mem hm
  rw [Store.writes_append]
  show (Store.byHash (Store.writes _ b) h).isSome
  refine (Store.grows_writes b _).byHash h ?_
  simp [Store.write]

theorem epoch_of_ops {digest : Bytes → Hash} {ops : List StoreOp} {e : Epoch} {id : EpochId}
    (hm : Write.epoch id e ∈ opWrites digest ops) : StoreOp.insertEpoch e ∈ ops ∧ id = ⟨e.header.epochId⟩ := by
  simp only [opWrites, List.mem_flatMap] at hm
  obtain ⟨op, ho, hm⟩ := hm
  cases op <;> simp [StoreOp.writes] at hm
  obtain ⟨h1, rfl⟩ := hm
  exact ⟨ho, h1⟩

/-- The hash function has no collision between headers and reserved keys in the history (`apart_or_collision`). -/
def OpsApart (digest : Bytes → Hash) (ops : List StoreOp) : Prop :=
  ∀ e, StoreOp.insertEpoch e ∈ ops →
    digest (pbEncode e.header) ≠ (LatestKeys.of digest).epoch ∧ digest (pbEncode e.header) ≠ (LatestKeys.of digest).proof

theorem OpsApart.writes {digest : Bytes → Hash} {ops : List StoreOp} (h : OpsApart digest ops) :
    ∀ w ∈ opWrites digest ops, w.Apart (LatestKeys.of digest) := by
  intro w hw
  cases w with
  | hashEpoch k id =>
    obtain ⟨e, he, hk, _⟩ := hashEpoch_of_ops hw
    rw [hk]; exact h e he
  | _ => trivial

/-- **C34, the true part.**  A stored epoch is found by the digest of the *protobuf coding of its header*, provided no
other epoch of the history has the same id, and no header of another height the same digest. -/
theorem C34_by_header_hash_partial (digest : Bytes → Hash) (ops : List StoreOp) (e : Epoch)
    (hk : (LatestKeys.of digest).epoch ≠ (LatestKeys.of digest).proof) (ha : OpsApart digest ops)
    (he : StoreOp.insertEpoch e ∈ ops) (hl : (pbEncode e).length < 2 ^ 64)
    (huniq : ∀ e', StoreOp.insertEpoch e' ∈ ops → e'.header.epochId = e.header.epochId → e' = e)
    (hcol : ∀ e', StoreOp.insertEpoch e' ∈ ops → digest (pbEncode e'.header) = digest (pbEncode e.header) →
      e'.header.epochId = e.header.epochId) :
    (rocksAfter (LatestKeys.of digest) (opWrites digest ops)).getEpochByHash .rocks (digest (pbEncode e.header)) = .ok e := by
  have hmem : ∀ w ∈ StoreOp.writes digest (.insertEpoch e), w ∈ opWrites digest ops := fun w hw => by
    simp only [opWrites, List.mem_flatMap]; exact ⟨_, he, hw⟩
  have h1 : ((storeAfter (opWrites digest ops)).epochs e.header.epochId) = some e := by
    have hs : ((storeAfter (opWrites digest ops)).epochs e.header.epochId).isSome :=
      epochs_of_mem (hmem (.epoch ⟨e.header.epochId⟩ e) (by simp [StoreOp.writes]))
    obtain ⟨e', he'⟩ := Option.isSome_iff_exists.1 hs
    rcases epochs_origin _ _ _ _ he' with h | h
    · cases h
    · obtain ⟨h2, h3⟩ := epoch_of_ops h
      rw [he', huniq e' h2 (by injection h3 with h3; exact h3.symm)]
  have h2 : (storeAfter (opWrites digest ops)).byHash (digest (pbEncode e.header)) = some e.header.epochId := by
    have hs : ((storeAfter (opWrites digest ops)).byHash (digest (pbEncode e.header))).isSome :=
      byHash_of_mem (hmem (.hashEpoch _ ⟨e.header.epochId⟩) (by simp [StoreOp.writes]))
    obtain ⟨i, hi⟩ := Option.isSome_iff_exists.1 hs
    rcases byHash_origin _ _ _ _ hi with h | h
    · cases h
    · obtain ⟨e', h2, h3, h4⟩ := hashEpoch_of_ops h
      rw [hi]
      injection h4 with h4
      rw [h4, hcol e' h2 h3.symm]
  have := (C31_rocks_partial hk ha.writes).2.2.2.1 (digest (pbEncode e.header)) (ha e he).1 (ha e he).2 (fun i e' hi he' => by
    rw [h2] at hi; cases hi; rw [h1] at he'; cases he'; exact hl)
  rw [this, h2]
  show answer ((storeAfter (opWrites digest ops)).epochs e.header.epochId) = _
  rw [h1]
  rfl

/-- Non-vacuity: the two epochs of the chain above. -/
example : (LatestKeys.of Demo.mix).epoch ≠ (LatestKeys.of Demo.mix).proof ∧
    OpsApart Demo.mix [.insertEpoch Demo.epoch3, .insertEpoch Demo.epoch4] ∧
    Demo.mix (pbEncode Demo.epoch3.header) ≠ Demo.mix (pbEncode Demo.epoch4.header) ∧
    (pbEncode Demo.epoch3).length < 2 ^ 64 := by
  refine ⟨by decide +kernel, ?_, by decide +kernel, by decide +kernel⟩
  intro e he
  simp only [List.mem_cons, StoreOp.insertEpoch.injEq, List.not_mem_nil, or_false] at he
  rcases he with rfl | rfl <;> decide +kernel

/-! ### C32 -/

theorem apart_crash {digest : Bytes → Hash} {ops : List StoreOp} {op : StoreOp} (h : OpsApart digest (ops ++ [op])) (j : Nat) :
    ∀ w ∈ crashWrites digest ops op j, w.Apart (LatestKeys.of digest) := fun w hw => h.writes w (mem_take_writes hw)

/-- The latest epoch is always among the epochs stored under their id. -/
def Store.LatestStored (s : Store) : Prop := ∀ e, s.latest = some e → (s.epochs e.header.epochId).isSome

theorem latestStored_crash (digest : Bytes → Hash) (op : StoreOp) (j : Nat) (s : Store) (h : s.LatestStored) :
    (s.writes ((op.writes digest).take j)).LatestStored := by
  have keep : ∀ w : Write, (∀ e, w ≠ .latestEpoch e) → ∀ s : Store, s.LatestStored → (s.write w).LatestStored := by
    intro w hw s h e he
    have : (s.write w).latest = s.latest := by
      cases w <;> first | rfl | exact absurd rfl (hw _)
    rw [this] at he
    exact (s.grows_write w).epochs _ (h e he)
  cases op with
  | insertTransactions l =>
    match j with
    | 0 => exact h
    | _ + 1 => simp only [StoreOp.writes, List.take_succ_cons, List.take_nil]; exact keep (.txs l) (by simp) s h
  | insertReceipts l =>
    match j with
    | 0 => exact h
    | _ + 1 => simp only [StoreOp.writes, List.take_succ_cons, List.take_nil]; exact keep (.receipts l) (by simp) s h
  | updateLatestProof p =>
    match j with
    | 0 => exact h
    | _ + 1 => simp only [StoreOp.writes, List.take_succ_cons, List.take_nil]; exact keep (.latestProof p) (by simp) s h
  | insertEpoch e =>
    match j with
    | 0 => exact h
    | 1 => exact keep (.epoch ⟨e.header.epochId⟩ e) (by simp) _ h
    | 2 =>
      have h1 := keep (.epoch ⟨e.header.epochId⟩ e) (by simp) _ h
      exact keep (.hashEpoch (digest (pbEncode e.header)) ⟨e.header.epochId⟩) (by simp) _ h1
    | _ + 3 =>
      simp only [StoreOp.writes, List.take_succ_cons, List.take_nil]
      intro e' he'
      simp only [Store.writes, List.foldl_cons, List.foldl_nil, Store.write, Option.some.injEq] at he' ⊢
      subst he'
      simp

theorem latestStored_ops (digest : Bytes → Hash) (ops : List StoreOp) : ∀ s : Store, s.LatestStored →
    (s.writes (opWrites digest ops)).LatestStored := by
  induction ops with
  | nil => intro s h; exact h
  | cons op ops ih =>
    intro s h
    show (s.writes (op.writes digest ++ opWrites digest ops)).LatestStored
    rw [Store.writes_append]
    refine ih _ ?_
    have := latestStored_crash digest op (op.writes digest).length s h
    rwa [List.take_length] at this

theorem latest_crash (digest : Bytes → Hash) (op : StoreOp) (j : Nat) (s : Store) :
    (s.writes ((op.writes digest).take j)).latest = s.latest ∨
    (s.writes ((op.writes digest).take j)).latest = (s.writes (op.writes digest)).latest := by
  cases op with
  | insertTransactions l => match j with
    | 0 => exact .inl rfl
    | _ + 1 => exact .inl (by simp [StoreOp.writes, Store.writes, Store.write])
  | insertReceipts l => match j with
    | 0 => exact .inl rfl
    | _ + 1 => exact .inl (by simp [StoreOp.writes, Store.writes, Store.write])
  | updateLatestProof l => match j with
    | 0 => exact .inl rfl
    | _ + 1 => exact .inl (by simp [StoreOp.writes, Store.writes, Store.write])
  | insertEpoch e => match j with
    | 0 => exact .inl rfl
    | 1 => exact .inl rfl
    | 2 => exact .inl rfl
    | _ + 3 => exact .inr (by simp [StoreOp.writes])

/-- **C32, the latest epoch.**  Whatever calls were completed and wherever a further call is interrupted: the latest epoch
reported afterwards is the one before or the one after the interrupted call, and if an epoch is reported, an epoch with its
id is stored under its id; it is the very same epoch if no two different epochs with the same id were saved. -/
theorem C32_latest_readable (digest : Bytes → Hash) (ops : List StoreOp) (op : StoreOp) (j : Nat)
    (hk : (LatestKeys.of digest).epoch ≠ (LatestKeys.of digest).proof) (ha : OpsApart digest (ops ++ [op]))
    (hl : ∀ e, StoreOp.insertEpoch e ∈ ops ++ [op] → (pbEncode e).length < 2 ^ 64) :
    let after := fun ws => rocksAfter (LatestKeys.of digest) ws
    let latest := fun ws => (after ws).getLatestEpoch .rocks (LatestKeys.of digest)
    (latest (crashWrites digest ops op j) = latest (opWrites digest ops) ∨
      latest (crashWrites digest ops op j) = latest (opWrites digest (ops ++ [op]))) ∧
    ∀ e, latest (crashWrites digest ops op j) = .ok e →
      ∃ e', (after (crashWrites digest ops op j)).getEpochById .rocks e.header.epochId = .ok e' ∧
        e'.header.epochId = e.header.epochId ∧
        ((∀ a b, StoreOp.insertEpoch a ∈ ops ++ [op] → StoreOp.insertEpoch b ∈ ops ++ [op] →
          a.header.epochId = b.header.epochId → a = b) → e' = e) := by
  intro after latest
  -- origin of the latest epoch
  have horigin : ∀ (ws : List Write) (s : Store) (e : Epoch), (s.writes ws).latest = some e → s.latest = some e ∨ Write.latestEpoch e ∈ ws := by
    intro ws
    induction ws with
    | nil => intro s e h; exact .inl h
    | cons w ws ih =>
      intro s e h
      rcases ih (s.write w) e h with h | h
      · cases w with
        | latestEpoch e' => simp only [Store.write, Option.some.injEq] at h; subst h; exact .inr (by simp)
        | _ => exact .inl h
      · exact .inr (by simp [h])
  have hlat : ∀ (ops' : List StoreOp) (ws : List Write), (∀ w ∈ ws, w ∈ opWrites digest ops') → ∀ e, (storeAfter ws).latest = some e →
      StoreOp.insertEpoch e ∈ ops' := by
    intro ops' ws hws e he
    rcases horigin ws _ e he with h | h
    · cases h
    · have := hws _ h
      simp only [opWrites, List.mem_flatMap] at this
      obtain ⟨op, ho, hm⟩ := this
      cases op <;> simp [StoreOp.writes] at hm
      subst hm
      exact ho
  have hA : ∀ w ∈ opWrites digest ops, w ∈ opWrites digest (ops ++ [op]) := fun w hw => by
    rw [opWrites_append]; exact List.mem_append.2 (.inl hw)
  have q : ∀ ws : List Write, (∀ w ∈ ws, w ∈ opWrites digest (ops ++ [op])) → latest ws = answer (storeAfter ws).latest := by
    intro ws hws
    exact (C31_rocks_partial hk (fun w hw => ha.writes w (hws w hw))).2.2.2.2.1 (fun e he => hl e (hlat _ ws hws e he))
  refine ⟨?_, ?_⟩
  · rw [q _ (fun w hw => mem_take_writes hw), q _ hA, q _ (fun w hw => hw)]
    have h := latest_crash digest op j (storeAfter (opWrites digest ops))
    rw [← storeAfter_append, ← storeAfter_append] at h
    rw [opWrites_append, show opWrites digest [op] = op.writes digest from by simp [opWrites]]
    rcases h with h | h
    · exact .inl (congrArg answer h)
    · exact .inr (congrArg answer h)
  · intro e he
    rw [q _ (fun w hw => mem_take_writes hw)] at he
    have he' : (storeAfter (crashWrites digest ops op j)).latest = some e := by
      cases hx : (storeAfter (crashWrites digest ops op j)).latest with
      | none => rw [hx] at he; cases he
      | some x => rw [hx] at he; cases he; rfl
    have hst : (storeAfter (crashWrites digest ops op j)).LatestStored := by
      unfold crashWrites
      rw [storeAfter_append]
      exact latestStored_crash digest op j _ (latestStored_ops digest ops _ (fun e he => by cases he))
    obtain ⟨e2, h2⟩ := Option.isSome_iff_exists.1 (hst e he')
    have hin : StoreOp.insertEpoch e2 ∈ ops ++ [op] ∧ e2.header.epochId = e.header.epochId := by
      rcases epochs_origin _ _ _ _ h2 with h | h
      · cases h
      · obtain ⟨h3, h4⟩ := epoch_of_ops (mem_take_writes h)
        injection h4 with h4
        exact ⟨h3, h4.symm⟩
    refine ⟨e2, ?_, hin.2, fun hu => hu e2 e hin.1 (hlat _ _ (fun w hw => mem_take_writes hw) e he') hin.2⟩
    have := (C31_rocks_partial hk (apart_crash ha j)).2.2.1 e.header.epochId (fun x hx => by rw [h2] at hx; cases hx; exact hl _ hin.1)
    show Db.getEpochById _ _ _ = _
    rw [this, h2]
    rfl

/-- What is saved when an epoch is committed: core/consensus/src/engine.rs:153, 333-347; core/consensus/src/consensus.rs:137, 164-168. -/
structure CommitRec where
  proof : Proof
  receipts : List Receipt
  txs : List SignedTx
  epoch : Epoch

/-- The calls in order. -/
def CommitRec.ops (c : CommitRec) : List StoreOp :=
  [.updateLatestProof c.proof, .insertReceipts c.receipts, .insertTransactions c.txs, .insertEpoch c.epoch]

/-- The saved transactions and receipts are those of the epoch (C36 shows that `commit` saves such records). -/
def CommitRec.Complete (c : CommitRec) : Prop :=
  ∀ h ∈ c.epoch.orderedTxHashes, (∃ t ∈ c.txs, t.txHash = h) ∧ ∃ r ∈ c.receipts, r.txHash = h

/-- The writes done at a crash during the commit of `c`, after the commits `cs`. -/
def commitCrash (digest : Bytes → Hash) (cs : List CommitRec) (c : CommitRec) (j : Nat) : List Write :=
  opWrites digest (cs.flatMap CommitRec.ops) ++ (opWrites digest c.ops).take j

/-- All transactions and receipts of the latest epoch are stored. -/
def Store.LatestComplete (s : Store) : Prop :=
  (∀ e, s.latest = some e → (s.epochs e.header.epochId).isSome ∧
    ∀ h ∈ e.orderedTxHashes, (s.txs h).isSome ∧ (s.receipts h).isSome) ∧
  (∀ h t, s.txs h = some t → t.txHash = h) ∧ (∀ h r, s.receipts h = some r → r.txHash = h)

theorem Store.LatestComplete.keep {s : Store} (h : s.LatestComplete) (w : Write) (hw : ∀ e, w ≠ .latestEpoch e) :
    (s.write w).LatestComplete := by
  obtain ⟨h1, h2, h3⟩ := h
  refine ⟨fun e he => ?_, ?_, ?_⟩
  · have : (s.write w).latest = s.latest := by
      cases w <;> first | rfl | exact absurd rfl (hw _)
    rw [this] at he
    have g := s.grows_write w
    exact ⟨g.epochs _ (h1 e he).1, fun h hh => ⟨g.txs _ ((h1 e he).2 h hh).1, g.receipts _ ((h1 e he).2 h hh).2⟩⟩
  · cases w with
    | txs l => exact fun h t ht => (insertAll_key _ l _ h2 h t ht).1
    | _ => exact h2
  · cases w with
    | receipts l => exact fun h t ht => (insertAll_key _ l _ h3 h t ht).1
    | _ => exact h3

theorem latestComplete_commit (digest : Bytes → Hash) (c : CommitRec) (hc : c.Complete) (j : Nat) (s : Store) (h : s.LatestComplete) :
    (s.writes ((opWrites digest c.ops).take j)).LatestComplete := by
  have e : opWrites digest c.ops = [.latestProof c.proof, .receipts c.receipts, .txs c.txs, .epoch ⟨c.epoch.header.epochId⟩ c.epoch,
      .hashEpoch (digest (pbEncode c.epoch.header)) ⟨c.epoch.header.epochId⟩, .latestEpoch c.epoch] := rfl
  rw [e]
  have k1 := h.keep (.latestProof c.proof) (by simp)
  have k2 := k1.keep (.receipts c.receipts) (by simp)
  have k3 := k2.keep (.txs c.txs) (by simp)
  have k4 := k3.keep (.epoch ⟨c.epoch.header.epochId⟩ c.epoch) (by simp)
  have k5 := k4.keep (.hashEpoch (digest (pbEncode c.epoch.header)) ⟨c.epoch.header.epochId⟩) (by simp)
  match j with
  | 0 => exact h
  | 1 => exact k1
  | 2 => exact k2
  | 3 => exact k3
  | 4 => exact k4
  | 5 => exact k5
  | _ + 6 =>
    simp only [List.take_succ_cons, List.take_nil]
    refine ⟨fun e he => ?_, k5.2.1, k5.2.2⟩
    simp only [Store.writes, List.foldl_cons, List.foldl_nil, Store.write, Option.some.injEq] at he ⊢
    subst he
    refine ⟨by simp, fun h hh => ?_⟩
    exact ⟨insertAll_isSome _ _ _ _ (.inr (hc h hh).1), insertAll_isSome _ _ _ _ (.inr (hc h hh).2)⟩

theorem latestComplete_commits (digest : Bytes → Hash) (cs : List CommitRec) (hc : ∀ c ∈ cs, c.Complete) : ∀ s : Store,
    s.LatestComplete → (s.writes (opWrites digest (cs.flatMap CommitRec.ops))).LatestComplete := by
  induction cs with
  | nil => intro s h; exact h
  | cons c cs ih =>
    intro s h
    rw [List.flatMap_cons, opWrites_append, Store.writes_append]
    refine ih (fun c' hc' => hc c' (by simp [hc'])) _ ?_
    have := latestComplete_commit digest c (hc c (by simp)) (opWrites digest c.ops).length s h
    rwa [List.take_length] at this

/-- **C32, the contents of the latest epoch.**  After any number of complete commits and a crash anywhere inside the next
commit, the epoch reported as latest is stored under its id and all its transactions and receipts are stored: every query
for one of them is answered with a record carrying that hash.  (Deployments of contracts other than assets are excluded for
the reason of `C48_deploy_exact`.) -/
theorem C32_contents_partial (digest : Bytes → Hash) (cs : List CommitRec) (c : CommitRec) (j : Nat)
    (hk : (LatestKeys.of digest).epoch ≠ (LatestKeys.of digest).proof)
    (ha : OpsApart digest ((cs ++ [c]).flatMap CommitRec.ops))
    (hc : ∀ c' ∈ cs ++ [c], c'.Complete)
    (hfit : ∀ c' ∈ cs ++ [c], (pbEncode c'.epoch).length < 2 ^ 64 ∧
      (∀ t ∈ c'.txs, t.raw.action.deploysNonAsset = false ∧ (pbEncode t).length < 2 ^ 64) ∧
      (∀ r ∈ c'.receipts, r.result.deploysNonAsset = false ∧ (pbEncode r).length < 2 ^ 64))
    (e : Epoch)
    (he : (rocksAfter (LatestKeys.of digest) (commitCrash digest cs c j)).getLatestEpoch .rocks (LatestKeys.of digest) = .ok e) :
    (∃ e', (rocksAfter (LatestKeys.of digest) (commitCrash digest cs c j)).getEpochById .rocks e.header.epochId = .ok e') ∧
    ∀ h ∈ e.orderedTxHashes,
      (∃ t, (rocksAfter (LatestKeys.of digest) (commitCrash digest cs c j)).getTransaction .rocks h = .ok t ∧ t.txHash = h) ∧
      (∃ r, (rocksAfter (LatestKeys.of digest) (commitCrash digest cs c j)).getReceipt .rocks h = .ok r ∧ r.txHash = h) := by
  have hsub : ∀ w ∈ commitCrash digest cs c j, w ∈ opWrites digest ((cs ++ [c]).flatMap CommitRec.ops) := by
    intro w hw
    rw [List.flatMap_append, opWrites_append]
    rcases List.mem_append.1 hw with h | h
    · exact List.mem_append.2 (.inl h)
    · exact List.mem_append.2 (.inr (by simpa using List.mem_of_mem_take h))
  have hmem : ∀ op ∈ (cs ++ [c]).flatMap CommitRec.ops, ∃ c' ∈ cs ++ [c], op ∈ c'.ops := fun op ho => by
    simpa only [List.mem_flatMap] using ho
  have hap : ∀ w ∈ commitCrash digest cs c j, w.Apart (LatestKeys.of digest) := fun w hw => ha.writes w (hsub w hw)
  -- every stored record comes from one of the commits
  have htx : ∀ (ws : List Write) (s : Store) (h : Hash) (t : SignedTx), (s.writes ws).txs h = some t →
      s.txs h = some t ∨ ∃ l, Write.txs l ∈ ws ∧ t ∈ l := by
    intro ws
    induction ws with
    | nil => intro s h t ht; exact .inl ht
    | cons w ws ih =>
      intro s h t ht
      rcases ih (s.write w) h t ht with ht | ⟨l, hl, ht⟩
      · cases w with
        | txs l =>
          simp only [Store.write, insertAll] at ht
          cases hf : List.find? (fun v => decide (SignedTx.txHash v = h)) l.reverse with
          | some v => rw [hf] at ht; cases ht; exact .inr ⟨l, by simp, by simpa using List.mem_of_find?_eq_some hf⟩
          | none => rw [hf] at ht; exact .inl ht
        | _ => exact .inl ht
      · exact .inr ⟨l, by simp [hl], ht⟩
  have hrc : ∀ (ws : List Write) (s : Store) (h : Hash) (t : Receipt), (s.writes ws).receipts h = some t →
      s.receipts h = some t ∨ ∃ l, Write.receipts l ∈ ws ∧ t ∈ l := by
    intro ws
    induction ws with
    | nil => intro s h t ht; exact .inl ht
    | cons w ws ih =>
      intro s h t ht
      rcases ih (s.write w) h t ht with ht | ⟨l, hl, ht⟩
      · cases w with
        | receipts l =>
          simp only [Store.write, insertAll] at ht
          cases hf : List.find? (fun v => decide (Receipt.txHash v = h)) l.reverse with
          | some v => rw [hf] at ht; cases ht; exact .inr ⟨l, by simp, by simpa using List.mem_of_find?_eq_some hf⟩
          | none => rw [hf] at ht; exact .inl ht
        | _ => exact .inl ht
      · exact .inr ⟨l, by simp [hl], ht⟩
  have hlate : ∀ (ws : List Write) (s : Store) (e : Epoch), (s.writes ws).latest = some e → s.latest = some e ∨ Write.latestEpoch e ∈ ws := by
    intro ws
    induction ws with
    | nil => intro s e h; exact .inl h
    | cons w ws ih =>
      intro s e h
      rcases ih (s.write w) e h with h | h
      · cases w with
        | latestEpoch e' => simp only [Store.write, Option.some.injEq] at h; subst h; exact .inr (by simp)
        | _ => exact .inl h
      · exact .inr (by simp [h])
  have hom : ∀ w ∈ opWrites digest ((cs ++ [c]).flatMap CommitRec.ops), ∃ c' ∈ cs ++ [c], w ∈ opWrites digest c'.ops := by
    intro w hw
    simp only [opWrites, List.mem_flatMap] at hw ⊢
    obtain ⟨op, ho, hw⟩ := hw
    obtain ⟨c', hc', ho⟩ := hmem op (by simpa only [List.mem_flatMap] using ho)
    exact ⟨c', hc', op, ho, hw⟩
  have S : (storeAfter (commitCrash digest cs c j)).LatestComplete := by
    unfold commitCrash
    rw [storeAfter_append]
    refine latestComplete_commit digest c (hc c (by simp)) j _ ?_
    refine latestComplete_commits digest cs (fun c' h => hc c' (by simp [h])) _ ⟨?_, ?_, ?_⟩
    · intro e he; cases he
    · intro h t ht; cases ht
    · intro h t ht; cases ht
  obtain ⟨q1, q2, q3, _, q5, _⟩ := C31_rocks_partial hk hap
  have ee : (storeAfter (commitCrash digest cs c j)).latest = some e := by
    rw [q5 (fun e he => ?_)] at he
    · cases hx : (storeAfter (commitCrash digest cs c j)).latest with
      | none => rw [hx] at he; cases he
      | some x => rw [hx] at he; cases he; rfl
    · rcases hlate _ _ _ he with h | h
      · cases h
      · obtain ⟨c', hc', hw⟩ := hom _ (hsub _ h)
        simp [opWrites, CommitRec.ops, StoreOp.writes] at hw
        rw [hw]
        exact (hfit c' hc').1
  obtain ⟨s1, s2⟩ := S.1 e ee
  constructor
  · obtain ⟨e', h'⟩ := Option.isSome_iff_exists.1 s1
    refine ⟨e', ?_⟩
    rw [q3 _ (fun x hx => ?_), h']
    · rfl
    · rcases epochs_origin _ _ _ _ hx with h | h
      · cases h
      · obtain ⟨c', hc', hw⟩ := hom _ (hsub _ h)
        simp [opWrites, CommitRec.ops, StoreOp.writes] at hw
        rw [hw.2]
        exact (hfit c' hc').1
  · intro h hh
    obtain ⟨t1, t2⟩ := s2 h hh
    obtain ⟨t, ht⟩ := Option.isSome_iff_exists.1 t1
    obtain ⟨r, hr⟩ := Option.isSome_iff_exists.1 t2
    refine ⟨⟨t, ?_, S.2.1 h t ht⟩, ⟨r, ?_, S.2.2 h r hr⟩⟩
    · rw [q1 h (fun t ht => ?_), ht]
      · rfl
      · rcases htx _ _ _ _ ht with h | ⟨l, hl, hm⟩
        · cases h
        · obtain ⟨c', hc', hw⟩ := hom _ (hsub _ hl)
          simp [opWrites, CommitRec.ops, StoreOp.writes] at hw
          exact (hfit c' hc').2.1 t (hw ▸ hm)
    · rw [q2 h (fun t ht => ?_), hr]
      · rfl
      · rcases hrc _ _ _ _ ht with h | ⟨l, hl, hm⟩
        · cases h
        · obtain ⟨c', hc', hw⟩ := hom _ (hsub _ hl)
          simp [opWrites, CommitRec.ops, StoreOp.writes] at hw
          exact (hfit c' hc').2.2 t (hw ▸ hm)

/-- **C32.**  The same without any restriction on the kind of transactions: none of the transactions and receipts of the
latest epoch is ever reported as not found, and the epoch is found under its id. -/
theorem C32_contents (digest : Bytes → Hash) (cs : List CommitRec) (c : CommitRec) (j : Nat)
    (hk : (LatestKeys.of digest).epoch ≠ (LatestKeys.of digest).proof)
    (ha : OpsApart digest ((cs ++ [c]).flatMap CommitRec.ops))
    (hc : ∀ c' ∈ cs ++ [c], c'.Complete)
    (hfit : ∀ c' ∈ cs ++ [c], (pbEncode c'.epoch).length < 2 ^ 64)
    (e : Epoch)
    (he : (rocksAfter (LatestKeys.of digest) (commitCrash digest cs c j)).getLatestEpoch .rocks (LatestKeys.of digest) = .ok e) :
    (rocksAfter (LatestKeys.of digest) (commitCrash digest cs c j)).getEpochById .rocks e.header.epochId ≠ .error .getNone ∧
    ∀ h ∈ e.orderedTxHashes,
      (rocksAfter (LatestKeys.of digest) (commitCrash digest cs c j)).getTransaction .rocks h ≠ .error .getNone ∧
      (rocksAfter (LatestKeys.of digest) (commitCrash digest cs c j)).getReceipt .rocks h ≠ .error .getNone := by
  have hsub : ∀ w ∈ commitCrash digest cs c j, w ∈ opWrites digest ((cs ++ [c]).flatMap CommitRec.ops) := by
    intro w hw
    rw [List.flatMap_append, opWrites_append]
    rcases List.mem_append.1 hw with h | h
    · exact List.mem_append.2 (.inl h)
    · exact List.mem_append.2 (.inr (by simpa using List.mem_of_mem_take h))
  have hap : ∀ w ∈ commitCrash digest cs c j, w.Apart (LatestKeys.of digest) := fun w hw => ha.writes w (hsub w hw)
  have hlate : ∀ (ws : List Write) (s : Store) (e : Epoch), (s.writes ws).latest = some e → s.latest = some e ∨ Write.latestEpoch e ∈ ws := by
    intro ws
    induction ws with
    | nil => intro s e h; exact .inl h
    | cons w ws ih =>
      intro s e h
      rcases ih (s.write w) e h with h | h
      · cases w with
        | latestEpoch e' => simp only [Store.write, Option.some.injEq] at h; subst h; exact .inr (by simp)
        | _ => exact .inl h
      · exact .inr (by simp [h])
  have S : (storeAfter (commitCrash digest cs c j)).LatestComplete := by
    unfold commitCrash
    rw [storeAfter_append]
    refine latestComplete_commit digest c (hc c (by simp)) j _ ?_
    refine latestComplete_commits digest cs (fun c' h => hc c' (by simp [h])) _ ⟨?_, ?_, ?_⟩
    · intro e he; cases he
    · intro h t ht; cases ht
    · intro h t ht; cases ht
  have ee : (storeAfter (commitCrash digest cs c j)).latest = some e := by
    rw [(C31_rocks_partial hk hap).2.2.2.2.1 (fun e he => ?_)] at he
    · cases hx : (storeAfter (commitCrash digest cs c j)).latest with
      | none => rw [hx] at he; cases he
      | some x => rw [hx] at he; cases he; rfl
    · rcases hlate _ _ _ he with h | h
      · cases h
      · have hw := hsub _ h
        simp only [opWrites, List.mem_flatMap] at hw
        obtain ⟨op, ⟨c', hc', ho⟩, hw⟩ := hw
        have : e = c'.epoch := by
          simp only [CommitRec.ops, List.mem_cons, List.not_mem_nil, or_false] at ho
          rcases ho with rfl | rfl | rfl | rfl <;> simp [StoreOp.writes] at hw
          exact hw
        rw [this]
        exact hfit c' hc'
  have R := refines_after hk hap
  have found : ∀ {V : Type} [Protobuf V] (cat : Category) (key : Bytes) (o : Option V),
      (rocksAfter (LatestKeys.of digest) (commitCrash digest cs c j)) (Backend.rocks cat) key = o.map pbEncode → o.isSome →
      ((rocksAfter (LatestKeys.of digest) (commitCrash digest cs c j)).get (V := V) .rocks cat key >>= checkNone) ≠ .error .getNone := by
    intro V _ cat key o ho hs
    obtain ⟨v, rfl⟩ := Option.isSome_iff_exists.1 hs
    unfold Db.get
    rw [ho]
    simp only [Option.map_some]
    cases pbDecode (T := V) (pbEncode v) with
    | ok w => intro h; cases h
    | error e => intro h; cases h
  obtain ⟨s1, s2⟩ := S.1 e ee
  exact ⟨found .epoch _ _ (R.epochs e.header.epochId) s1,
    fun h hh => ⟨found .signedTx _ _ (R.txs h) (s2 h hh).1, found .receipt _ _ (R.receipts h) (s2 h hh).2⟩⟩

/-- A commit of one transaction. -/
def Demo.commit3 : CommitRec := ⟨default, [Demo.receipt 1], [Demo.pay 1 2 3], Demo.epoch3⟩

/-- A crash inside the second commit, when the epoch is written but the latest epoch is not. -/
example : Demo.commit3.Complete ∧ (CommitRec.mk default [] [] Demo.epoch4).Complete ∧
    (rocksAfter (LatestKeys.of Demo.mix) (commitCrash Demo.mix [Demo.commit3] ⟨default, [], [], Demo.epoch4⟩ 4)).getLatestEpoch .rocks
      (LatestKeys.of Demo.mix) = .ok Demo.epoch3 := by
  refine ⟨?_, ?_, Demo.eq_ok_of (by decide +kernel)⟩
  · intro h hh
    simp only [Demo.commit3, Demo.epoch3, List.mem_cons, List.not_mem_nil, or_false] at hh
    subst hh
    exact ⟨⟨_, List.mem_cons_self, rfl⟩, ⟨_, List.mem_cons_self, rfl⟩⟩
  · intro h hh
    simp [Demo.epoch4] at hh

end Huobi
