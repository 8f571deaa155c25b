import Verif.Proof.Mpt
import Verif.Proof.MptCode
import Verif.Props.ByteExecutor
import Verif.Spec.DemoNode
/-
C96: a state trie is a map from keys to values, and its root stands for its contents.
C97: what was committed to a trie database stays readable.
-/
namespace Huobi

/-! ### Specification -/

/-- Writing in a map of bytes: the empty value removes. -/
def setOrErase (m : Bytes → Option Bytes) (w : Bytes × Bytes) : Bytes → Option Bytes := fun k =>
  if k = w.1 then (if w.2 = [] then none else some w.2) else m k

/-- A map after some writes. -/
def afterWrites (m : Bytes → Option Bytes) (ws : List (Bytes × Bytes)) : Bytes → Option Bytes := ws.foldl setOrErase m

/-- The map with nothing in it. -/
def nothing : Bytes → Option Bytes := fun _ => none

/-- Calls of `insert` on a trie. -/
def Mpt.writes (t : Mpt) (ws : List (Bytes × Bytes)) : Mpt := ws.foldl (fun t w => t.write w.1 w.2) t

/-- Two texts with one hash, one from each list. -/
def ClashOf (digest : Bytes → Hash) (as bs : List Bytes) : Prop := ∃ a ∈ as, ∃ b ∈ bs, a ≠ b ∧ digest a = digest b

/-! ### Proofs -/

theorem nibbles_even (b : Bytes) : (nibblesOf b).length % 2 = 0 := by
  induction b with
  | nil => rfl
  | cons x b ih => simp only [nibblesOf, List.length_cons]; omega

theorem nibbles_inj {a b : Bytes} (h : nibblesOf a = nibblesOf b) : a = b := by
  induction a generalizing b with
  | nil => cases b with
    | nil => rfl
    | cons y b => simp [nibblesOf] at h
  | cons x a ih => cases b with
    | nil => simp [nibblesOf] at h
    | cons y b =>
      simp only [nibblesOf, List.cons.injEq] at h
      obtain ⟨h1, h2, h3⟩ := h
      have e1 := congrArg Fin.val h1
      have e2 := congrArg Fin.val h2
      simp only [Fin.ofNat, Fin.val_mk] at e1 e2
      have hx := x.toNat_lt
      have hy := y.toNat_lt
      rw [ih h3]
      congr 1
      apply UInt8.toNat_inj.1
      omega

/-- A trie as it arises from writes: well formed, with whole bytes as keys. -/
structure Mpt.Sound (t : Mpt) : Prop where
  wf : t.WF
  even : ∀ k v, t.get k = some v → k.length % 2 = 0

theorem Mpt.sound_new : Mpt.Sound .new := ⟨trivial, fun k v h => by simp [Mpt.new] at h⟩

theorem Mpt.get_write (t : Mpt) (k v : Bytes) (n : List Nib) :
    (t.write k v).get n = if n = nibblesOf k then (if v = [] then none else some v) else t.get n := by
  unfold Mpt.write
  by_cases h : v = []
  · simp only [if_pos h, Mpt.get_remove]
  · simp only [if_neg h, Mpt.get_insert]

theorem Mpt.Sound.write {t : Mpt} (h : t.Sound) (k v : Bytes) : (t.write k v).Sound := by
  refine ⟨?_, fun n w hn => ?_⟩
  · unfold Mpt.write
    split
    · exact Mpt.remove_wf h.wf _
    · rename_i hv; exact Mpt.insert_wf h.wf _ hv
  · rw [Mpt.get_write] at hn
    split at hn
    · rename_i e; rw [e]; exact nibbles_even k
    · exact h.even n w hn

theorem Mpt.Sound.writes {t : Mpt} (h : t.Sound) (ws : List (Bytes × Bytes)) : (t.writes ws).Sound := by
  induction ws generalizing t with
  | nil => exact h
  | cons w ws ih => exact ih (h.write w.1 w.2)

theorem Mpt.read_write (t : Mpt) (w : Bytes × Bytes) : (t.write w.1 w.2).read = setOrErase t.read w := by
  funext k
  unfold Mpt.read setOrErase
  rw [Mpt.get_write]
  by_cases h : k = w.1
  · rw [if_pos h, if_pos (by rw [h])]
  · rw [if_neg h, if_neg (fun e => h (nibbles_inj e))]

theorem Mpt.read_writes (t : Mpt) (ws : List (Bytes × Bytes)) : (t.writes ws).read = afterWrites t.read ws := by
  induction ws generalizing t with
  | nil => rfl
  | cons w ws ih =>
    show ((t.write w.1 w.2).writes ws).read = afterWrites (setOrErase t.read w) ws
    rw [ih, Mpt.read_write]

theorem Mpt.Sound.ext {t t' : Mpt} (h : t.Sound) (h' : t'.Sound) (he : t.read = t'.read) : t = t' := by
  refine Mpt.canonical h.wf h'.wf fun k => ?_
  by_cases hk : k.length % 2 = 0
  · have := congrFun he (Mpt.pack k)
    unfold Mpt.read at this
    rwa [Mpt.nibbles_pack k hk] at this
  · have a : t.get k = none := by
      cases e : t.get k with
      | none => rfl
      | some v => exact absurd (h.even k v e) hk
    have b : t'.get k = none := by
      cases e : t'.get k with
      | none => rfl
      | some v => exact absurd (h'.even k v e) hk
    rw [a, b]

/-- C96: a trie is a map: what is read under a key is what was last written under it (the empty value removes it), whatever
else was written, in the trie of an empty database and in one that was opened at a root. -/
theorem C96_map (t : Mpt) (ws : List (Bytes × Bytes)) (k : Bytes) :
    (Mpt.new.writes ws).read k = afterWrites nothing ws k ∧
    (t.writes ws).read k = afterWrites t.read ws k ∧ (t.writes ws).has k = (afterWrites t.read ws k).isSome := by
  refine ⟨?_, ?_, ?_⟩
  · rw [Mpt.read_writes]
    have : Mpt.new.read = nothing := by funext k; unfold Mpt.read Mpt.new; simp [nothing]
    rw [this]
  · rw [Mpt.read_writes]
  · unfold Mpt.has; rw [Mpt.read_writes]

/-- C96: the root depends on the contents only: histories of writes that leave the same contents leave the same root. -/
theorem C96_root (digest : Bytes → Hash) (ws ws' : List (Bytes × Bytes)) (h : afterWrites nothing ws = afterWrites nothing ws') :
    (Mpt.new.writes ws).root digest = (Mpt.new.writes ws').root digest := by
  have : Mpt.new.writes ws = Mpt.new.writes ws' := by
    refine (Mpt.sound_new.writes ws).ext (Mpt.sound_new.writes ws') ?_
    funext k
    rw [(C96_map .new ws k).1, (C96_map .new ws' k).1, h]
  rw [this]

/-- C96: the root commits to the contents: equal roots mean equal contents, unless two nodes of the two tries have different
codings with one hash. -/
theorem C96_commits (digest : Bytes → Hash) (ws ws' : List (Bytes × Bytes))
    (f : ∀ b ∈ (Mpt.new.writes ws).codings digest, b.length < 2 ^ 64)
    (f' : ∀ b ∈ (Mpt.new.writes ws').codings digest, b.length < 2 ^ 64)
    (h : (Mpt.new.writes ws).root digest = (Mpt.new.writes ws').root digest) :
    afterWrites nothing ws = afterWrites nothing ws' ∨
      ClashOf digest ((Mpt.new.writes ws).codings digest) ((Mpt.new.writes ws').codings digest) := by
  by_cases hc : ClashOf digest ((Mpt.new.writes ws).codings digest) ((Mpt.new.writes ws').codings digest)
  · exact .inr hc
  · left
    have ha : Mpt.Apart digest (Mpt.new.writes ws) (Mpt.new.writes ws') := fun a h1 b h2 he =>
      Classical.byContradiction fun hne => hc ⟨a, h1, b, h2, hne, he⟩
    have := Mpt.root_inj (Mpt.sound_new.writes ws).wf (Mpt.sound_new.writes ws').wf f f' ha h
    funext k
    rw [← (C96_map .new ws k).1, ← (C96_map .new ws' k).1, this]

/-! ### C97: the database -/

/-- What happened on one trie database: `states` are the roots that were given out, each with the contents it was given out
for, and `blobs` the nodes that were written.  A trie starts empty or is opened at a root given out earlier; any number of
writes follow and a commit, after which the process may stop; it may also stop before the commit, without any effect.
Nodes may also be removed one by one. -/
inductive TrieRun (digest : Bytes → Hash) (light : Bool) : TrieDb → List (Hash × (Bytes → Option Bytes)) → List Bytes → Prop
  | new : TrieRun digest light (.new light) [] []
  | commit {db states blobs} (h : TrieRun digest light db states blobs) (t : Mpt) (m : Bytes → Option Bytes)
      (start : (t = .new ∧ m = nothing) ∨ ∃ r, (r, m) ∈ states ∧ db.Opens r t)
      (ws : List (Bytes × Bytes)) (stale : List Bytes) (db' : TrieDb) (r : Hash)
      (he : (t.writes ws).commit digest stale db = some (r, db')) :
      TrieRun digest light db' ((r, afterWrites m ws) :: states) ((t.writes ws).stored digest ++ blobs)
  | stop {db states blobs} (h : TrieRun digest light db states blobs) (t : Mpt) (m : Bytes → Option Bytes)
      (start : (t = .new ∧ m = nothing) ∨ ∃ r, (r, m) ∈ states ∧ db.Opens r t)
      (ws : List (Bytes × Bytes)) (db' : TrieDb)
      (he : db.insertBatch (((t.writes ws).stored digest).map (fun b => (digest b).bytes)) ((t.writes ws).stored digest) = some db') :
      TrieRun digest light db' states ((t.writes ws).stored digest ++ blobs)
  | remove {db states blobs} (h : TrieRun digest light db states blobs) (k : Bytes) : TrieRun digest light (db.remove k) states blobs

/-- All nodes that were written can be told apart by their hashes, and are shorter than 2^64 bytes. -/
def Distinct (digest : Bytes → Hash) (blobs : List Bytes) : Prop :=
  (∀ b ∈ blobs, b.length < 2 ^ 64) ∧ ¬ ClashOf digest blobs blobs

namespace TrieDb

theorem foldl_insert_get (ps : List (Bytes × Bytes)) (db : TrieDb) (k : Bytes) :
    ((ps.foldl (fun db x => db.insert x.1 x.2) db).light = db.light) ∧
    ((ps.foldl (fun db x => db.insert x.1 x.2) db).get k = db.get k ∧ (∀ v, (k, v) ∉ ps) ∨
      ∃ v, (k, v) ∈ ps ∧ (ps.foldl (fun db x => db.insert x.1 x.2) db).get k = some v) := by
  induction ps generalizing db with
  | nil => exact ⟨rfl, .inl ⟨rfl, fun _ h => by cases h⟩⟩
  | cons p ps ih =>
    simp only [List.foldl_cons]
    obtain ⟨h0, h⟩ := ih (db.insert p.1 p.2)
    refine ⟨h0, ?_⟩
    rcases h with ⟨h, hn⟩ | ⟨v, h1, h2⟩
    · by_cases e : k = p.1
      · refine .inr ⟨p.2, by rw [e]; exact .head _, ?_⟩
        rw [h]
        simp [TrieDb.insert, TrieDb.get, e]
      · refine .inl ⟨?_, fun v hv => ?_⟩
        · rw [h]; simp [TrieDb.insert, TrieDb.get, e]
        · rcases List.mem_cons.1 hv with hv | hv
          · exact e (by rw [← hv])
          · exact hn v hv
    · exact .inr ⟨v, .tail _ h1, h2⟩

theorem mem_zip_map {f : Bytes → Bytes} {bs : List Bytes} {k v : Bytes} : (k, v) ∈ (bs.map f).zip bs ↔ v ∈ bs ∧ k = f v := by
  induction bs with
  | nil => simp
  | cons b bs ih =>
    simp only [List.map_cons, List.zip_cons_cons, List.mem_cons, Prod.mk.injEq, ih]
    constructor
    · rintro (⟨rfl, rfl⟩ | ⟨h, rfl⟩)
      · exact ⟨.inl rfl, rfl⟩
      · exact ⟨.inr h, rfl⟩
    · rintro ⟨rfl | h, rfl⟩
      · exact .inl ⟨rfl, rfl⟩
      · exact .inr ⟨h, rfl⟩

/-- A batch of nodes under their hashes. -/
theorem insertBatch_get {digest : Bytes → Hash} {db db' : TrieDb} {bs : List Bytes}
    (h : db.insertBatch (bs.map (fun b => (digest b).bytes)) bs = some db') (k : Bytes) :
    db'.light = db.light ∧ (db'.get k = db.get k ∧ (∀ b ∈ bs, k ≠ (digest b).bytes) ∨
      ∃ b ∈ bs, k = (digest b).bytes ∧ db'.get k = some b) := by
  unfold insertBatch at h
  rw [if_neg (by simp)] at h
  have := foldl_insert_get ((bs.map (fun b => (digest b).bytes)).zip bs) db k
  rw [Option.some.inj h] at this
  refine ⟨this.1, ?_⟩
  rcases this.2 with ⟨h1, h2⟩ | ⟨v, h1, h2⟩
  · exact .inl ⟨h1, fun b hb e => h2 b (mem_zip_map.2 ⟨hb, e⟩)⟩
  · obtain ⟨h3, h4⟩ := mem_zip_map.1 h1
    exact .inr ⟨v, h3, h4, h2⟩

theorem foldl_erase_get (ks : List Bytes) (db : TrieDb) (k : Bytes) :
    (ks.foldl (fun db k => { db with data := fun i => if i = k then none else db.data i }) db).get k =
      if k ∈ ks then none else db.get k := by
  induction ks generalizing db with
  | nil => simp
  | cons x ks ih =>
    simp only [List.foldl_cons]
    rw [ih]
    by_cases h : k ∈ ks
    · simp [h]
    · by_cases e : k = x
      · simp [e, TrieDb.get]
      · simp [h, e, TrieDb.get]

theorem foldl_erase_light (ks : List Bytes) (db : TrieDb) :
    (ks.foldl (fun db k => { db with data := fun i => if i = k then none else db.data i }) db).light = db.light := by
  induction ks generalizing db with
  | nil => rfl
  | cons x ks ih => simp only [List.foldl_cons]; rw [ih]

theorem removeBatch_get (db : TrieDb) (ks : List Bytes) (k : Bytes) :
    (db.removeBatch ks).light = db.light ∧ (db.removeBatch ks).get k = if db.light = true ∧ k ∈ ks then none else db.get k := by
  unfold removeBatch
  split
  · rename_i h
    refine ⟨foldl_erase_light ks db, ?_⟩
    rw [foldl_erase_get]
    simp [h]
  · rename_i h; exact ⟨rfl, by simp [h]⟩

end TrieDb

theorem digest_of_bytes {a b : Hash} (h : a.bytes = b.bytes) : a = b := by
  have := hash_fromBytes a
  rw [h, hash_fromBytes] at this
  exact (Option.some.inj this).symm

theorem ClashOf.mono {digest : Bytes → Hash} {as bs as' bs' : List Bytes} (h : ClashOf digest as bs) (ha : ∀ a ∈ as, a ∈ as')
    (hb : ∀ b ∈ bs, b ∈ bs') : ClashOf digest as' bs' := by
  obtain ⟨a, h1, b, h2, h3⟩ := h
  exact ⟨a, ha a h1, b, hb b h2, h3⟩

theorem Distinct.mono {digest : Bytes → Hash} {bs bs' : List Bytes} (h : Distinct digest bs') (hs : ∀ b ∈ bs, b ∈ bs') :
    Distinct digest bs := ⟨fun b hb => h.1 b (hs b hb), fun hc => h.2 (hc.mono hs hs)⟩

theorem Distinct.eq {digest : Bytes → Hash} {bs : List Bytes} (h : Distinct digest bs) {a b : Bytes} (ha : a ∈ bs) (hb : b ∈ bs)
    (e : (digest a).bytes = (digest b).bytes) : a = b :=
  Classical.byContradiction fun hne => h.2 ⟨a, ha, b, hb, hne, digest_of_bytes e⟩

theorem fits_of_stored {digest : Bytes → Hash} {bs : List Bytes} (h : Distinct digest bs) {t : Mpt}
    (hs : ∀ b ∈ t.stored digest, b ∈ bs) : Mpt.Fits digest t := by
  intro b hb
  by_cases hl : 32 ≤ b.length
  · exact h.1 b (hs b (.tail _ (List.mem_filter.2 ⟨hb, decide_eq_true hl⟩)))
  · exact Nat.lt_of_lt_of_le (Nat.lt_of_not_le hl) (Nat.pow_le_pow_right (n := 2) (by omega) (by omega : 5 ≤ 64))

/-- What holds of a trie database at any time. -/
structure TrieRun.Inv (digest : Bytes → Hash) (light : Bool) (db : TrieDb) (states : List (Hash × (Bytes → Option Bytes)))
    (blobs : List Bytes) : Prop where
  mode : db.light = light
  full : light = false → ∀ b ∈ blobs, db.get (digest b).bytes = some b
  genuine : ∀ k v, db.get k = some v → v ∈ blobs ∧ k = (digest v).bytes
  state : ∀ r m, (r, m) ∈ states → ∃ t : Mpt, t.Sound ∧ t.read = m ∧ t.root digest = r ∧ ∀ b ∈ t.stored digest, b ∈ blobs

theorem TrieRun.Inv.opens {digest : Bytes → Hash} {light : Bool} {db : TrieDb} {states : List (Hash × (Bytes → Option Bytes))}
    {blobs : List Bytes} (i : TrieRun.Inv digest light db states blobs) (hd : Distinct digest blobs) {t : Mpt} (w : t.WF)
    (hs : ∀ b ∈ t.stored digest, b ∈ blobs) {t' : Mpt} (h : db.Opens (t.root digest) t') :
    t' = t ∧ ∀ b ∈ t.stored digest, db.get (digest b).bytes = some b := by
  refine TrieDb.opens_honest w (fits_of_stored hd hs) (fun b hb v hv => ?_) h
  obtain ⟨h1, h2⟩ := i.genuine _ v hv
  exact (hd.eq (hs b hb) h1 h2).symm

theorem TrieRun.Inv.batch {digest : Bytes → Hash} {light : Bool} {db db' : TrieDb} {states : List (Hash × (Bytes → Option Bytes))}
    {blobs bs : List Bytes} (i : TrieRun.Inv digest light db states blobs) (hd : Distinct digest (bs ++ blobs))
    (h : db.insertBatch (bs.map (fun b => (digest b).bytes)) bs = some db') : TrieRun.Inv digest light db' states (bs ++ blobs) := by
  have hg := TrieDb.insertBatch_get h
  refine ⟨by rw [(hg []).1]; exact i.mode, fun hl b hb => ?_, fun k v hv => ?_, fun r m hm => ?_⟩
  · rcases (hg (digest b).bytes).2 with ⟨h1, h2⟩ | ⟨c, h1, h2, h3⟩
    · rw [h1]
      rcases List.mem_append.1 hb with hb | hb
      · exact absurd rfl (h2 b hb)
      · exact i.full hl b hb
    · rw [h3, hd.eq hb (List.mem_append_left _ h1) h2]
  · rcases (hg k).2 with ⟨h1, h2⟩ | ⟨c, h1, h2, h3⟩
    · rw [h1] at hv
      obtain ⟨h4, h5⟩ := i.genuine k v hv
      exact ⟨List.mem_append_right _ h4, h5⟩
    · rw [h3] at hv
      injection hv with hv
      subst hv
      exact ⟨List.mem_append_left _ h1, h2⟩
  · obtain ⟨t, h1, h2, h3, h4⟩ := i.state r m hm
    exact ⟨t, h1, h2, h3, fun b hb => List.mem_append_right _ (h4 b hb)⟩

theorem TrieRun.Inv.start {digest : Bytes → Hash} {light : Bool} {db : TrieDb} {states : List (Hash × (Bytes → Option Bytes))}
    {blobs : List Bytes} (i : TrieRun.Inv digest light db states blobs) (hd : Distinct digest blobs) {t : Mpt}
    {m : Bytes → Option Bytes} (h : (t = .new ∧ m = nothing) ∨ ∃ r, (r, m) ∈ states ∧ db.Opens r t) : t.Sound ∧ t.read = m := by
  rcases h with ⟨rfl, rfl⟩ | ⟨r, h1, h2⟩
  · exact ⟨Mpt.sound_new, by funext k; unfold Mpt.read Mpt.new; simp [nothing]⟩
  · obtain ⟨t0, h3, h4, h5, h6⟩ := i.state r m h1
    subst h5
    obtain ⟨rfl, -⟩ := i.opens hd h3.wf h6 h2
    exact ⟨h3, h4⟩

theorem TrieRun.inv {digest : Bytes → Hash} {light : Bool} {db : TrieDb} {states : List (Hash × (Bytes → Option Bytes))}
    {blobs : List Bytes} (h : TrieRun digest light db states blobs) (hd : Distinct digest blobs) :
    TrieRun.Inv digest light db states blobs := by
  induction h with
  | new =>
    refine ⟨rfl, fun _ b hb => ?_, fun k v hv => ?_, fun r m hm => ?_⟩
    · cases hb
    · simp [TrieDb.new, TrieDb.get] at hv
    · cases hm
  | @commit db states blobs h t m start ws stale db' r he ih =>
    have hd0 := hd.mono (fun b hb => List.mem_append_right _ hb)
    have i := ih hd0
    obtain ⟨h1, h2⟩ := i.start hd0 start
    unfold Mpt.commit at he
    obtain ⟨db1, hb, he⟩ := Option.map_eq_some_iff.1 he
    injection he with hr hdb
    have i1 := i.batch hd hb
    have hg := TrieDb.removeBatch_get db1 stale
    rw [hdb] at hg
    refine ⟨by rw [(hg []).1]; exact i1.mode, fun hl b hb => ?_, fun k v hv => ?_, fun r' m' hm => ?_⟩
    · rw [(hg _).2, if_neg (by rw [i1.mode, hl]; simp)]
      exact i1.full hl b hb
    · rw [(hg _).2] at hv
      split at hv
      · cases hv
      · exact i1.genuine k v hv
    · rcases List.mem_cons.1 hm with hm | hm
      · injection hm with e1 e2
        subst e1 e2
        exact ⟨t.writes ws, h1.writes ws, by rw [Mpt.read_writes, h2], hr, fun b hb => List.mem_append_left _ hb⟩
      · exact i1.state r' m' hm
  | @stop db states blobs h t m start ws db' he ih =>
    exact (ih (hd.mono (fun b hb => List.mem_append_right _ hb))).batch hd he
  | @remove db states blobs h k ih =>
    have i := ih hd
    have hg : ∀ j, (db.remove k).get j = if db.light = true ∧ j = k then none else db.get j := by
      intro j
      unfold TrieDb.remove
      split
      · rename_i hl; simp [TrieDb.get, hl]
      · rename_i hl; simp [hl]
    have hl : (db.remove k).light = db.light := by unfold TrieDb.remove; split <;> rfl
    refine ⟨by rw [hl]; exact i.mode, fun hf b hb => ?_, fun j v hv => ?_, i.state⟩
    · rw [hg, if_neg (by rw [i.mode, hf]; simp)]; exact i.full hf b hb
    · rw [hg] at hv
      split at hv
      · cases hv
      · exact i.genuine j v hv

/-- C97: in a full database every root ever given out can be opened, whatever was committed since and wherever the process
stopped. -/
theorem C97_kept (digest : Bytes → Hash) (db : TrieDb) (states : List (Hash × (Bytes → Option Bytes))) (blobs : List Bytes)
    (h : TrieRun digest false db states blobs) (hd : Distinct digest blobs) (r : Hash) (m : Bytes → Option Bytes)
    (hm : (r, m) ∈ states) : ∃ t, db.Opens r t ∧ ∀ k, t.read k = m k := by
  have i := h.inv hd
  obtain ⟨t, h1, h2, h3, h4⟩ := i.state r m hm
  subst h3
  exact ⟨t, TrieDb.opens_of_holds h1.wf (fits_of_stored hd h4) (fun b hb => i.full rfl b (h4 b hb)), fun k => by rw [h2]⟩

/-- C97: what is opened at a root, in a full or a light database, is what the root was given out for: never other contents. -/
theorem C97_exact (digest : Bytes → Hash) (light : Bool) (db : TrieDb) (states : List (Hash × (Bytes → Option Bytes)))
    (blobs : List Bytes) (h : TrieRun digest light db states blobs) (hd : Distinct digest blobs) (r : Hash)
    (m : Bytes → Option Bytes) (hm : (r, m) ∈ states) (t : Mpt) (ht : db.Opens r t) (k : Bytes) : t.read k = m k := by
  have i := h.inv hd
  obtain ⟨t0, h1, h2, h3, h4⟩ := i.state r m hm
  subst h3
  obtain ⟨rfl, -⟩ := i.opens hd h1.wf h4 ht
  rw [h2]

/-- C97: one root is never given out for two contents. -/
theorem C97_one (digest : Bytes → Hash) (light : Bool) (db : TrieDb) (states : List (Hash × (Bytes → Option Bytes)))
    (blobs : List Bytes) (h : TrieRun digest light db states blobs) (hd : Distinct digest blobs) (r : Hash)
    (m m' : Bytes → Option Bytes) (hm : (r, m) ∈ states) (hm' : (r, m') ∈ states) : m = m' := by
  have i := h.inv hd
  obtain ⟨t, h1, h2, h3, h4⟩ := i.state r m hm
  obtain ⟨t', h1', h2', h3', h4'⟩ := i.state r m' hm'
  let all : TrieDb := ⟨false, fun k => blobs.find? (fun b => (digest b).bytes = k)⟩
  have hold : ∀ b ∈ blobs, all.get (digest b).bytes = some b := by
    intro b hb
    show blobs.find? (fun c => (digest c).bytes = (digest b).bytes) = some b
    cases e : blobs.find? (fun c => (digest c).bytes = (digest b).bytes) with
    | none => have := List.find?_eq_none.1 e b hb; simp at this
    | some c =>
      have hc := List.find?_some e
      simp only [decide_eq_true_eq] at hc
      rw [hd.eq (List.mem_of_find?_eq_some e) hb hc]
  have o := TrieDb.opens_of_holds (db := all) h1.wf (fits_of_stored hd h4) (fun b hb => hold b (h4 b hb))
  have o' := TrieDb.opens_of_holds (db := all) h1'.wf (fits_of_stored hd h4') (fun b hb => hold b (h4' b hb))
  rw [h3] at o
  rw [h3'] at o'
  rw [← h2, ← h2', TrieDb.opens_unique o o']

/-- C97 does not hold of a light database: a commit that removes a stale node makes every root given out whose trie has that
node unreadable, for as long as no commit writes the node again.  (`cita_trie` reports as stale the nodes of the trie it was
opened at that the writes replaced; the root is the first of them.) -/
theorem C97_light_refuted (digest : Bytes → Hash) (db : TrieDb) (states : List (Hash × (Bytes → Option Bytes)))
    (blobs : List Bytes) (h : TrieRun digest true db states blobs) (t : Mpt) (m : Bytes → Option Bytes)
    (start : (t = .new ∧ m = nothing) ∨ ∃ r, (r, m) ∈ states ∧ db.Opens r t) (ws : List (Bytes × Bytes)) (stale : List Bytes)
    (db' : TrieDb) (r : Hash) (he : (t.writes ws).commit digest stale db = some (r, db'))
    (hd : Distinct digest ((t.writes ws).stored digest ++ blobs)) (r0 : Hash) (ws0 : List (Bytes × Bytes))
    (hm : (r0, afterWrites nothing ws0) ∈ states) (b : Bytes) (hb : b ∈ (Mpt.new.writes ws0).stored digest)
    (hst : (digest b).bytes ∈ stale) : ¬ ∃ t', db'.Opens r0 t' := by
  rintro ⟨t', ht'⟩
  have i := (TrieRun.commit h t m start ws stale db' r he).inv hd
  obtain ⟨t0, h1, h2, h3, h4⟩ := i.state r0 _ (.tail _ hm)
  have e : t0 = Mpt.new.writes ws0 := h1.ext (Mpt.sound_new.writes ws0) (by rw [h2]; funext k; rw [(C96_map .new ws0 k).1])
  subst h3
  obtain ⟨-, hg⟩ := i.opens hd h1.wf h4 ht'
  have := hg b (by rw [e]; exact hb)
  unfold Mpt.commit at he
  obtain ⟨db1, -, he⟩ := Option.map_eq_some_iff.1 he
  injection he with _ hdb
  have hl : db1.light = true := by rw [← (TrieDb.removeBatch_get db1 stale []).1, hdb]; exact i.mode
  have hr := (TrieDb.removeBatch_get db1 stale (digest b).bytes).2
  rw [hdb, if_pos ⟨hl, hst⟩, this] at hr
  cases hr

/-! ### Examples -/

namespace Demo

/-- Writes that make leaves, branches and an extension: two keys that share a start, one that is the start of another, one
written twice, one removed again. -/
def tws : List (Bytes × Bytes) :=
  [([0x11, 0x22], List.replicate 40 7), ([0x11, 0x33], [5]), ([0x11], [9]), ([0x21], [1]), ([0x11, 0x33], [6]), ([0x21], [])]

/-- Other writes with the same outcome. -/
def tws' : List (Bytes × Bytes) := [([0x11], [9]), ([0x11, 0x33], [6]), ([0x11, 0x22], List.replicate 40 7)]

/-- Further writes. -/
def tws2 : List (Bytes × Bytes) := [([0x11, 0x22], [1, 2]), ([0x77], List.replicate 50 3)]

/-- The trie after the first writes, and after the further ones. -/
def tr1 : Mpt := Mpt.new.writes tws
@[inherit_doc tr1] def tr2 : Mpt := tr1.writes tws2

/-- The database after both commits; the second commit reports the first root as stale. -/
def tdb1 (light : Bool) : TrieDb := ((tr1.commit mix [] (.new light)).map (·.2)).getD (.new light)
@[inherit_doc tdb1] def tdb2 (light : Bool) : TrieDb :=
  ((tr2.commit mix [(tr1.root mix).bytes] (tdb1 light)).map (·.2)).getD (.new light)

example : (Mpt.new.writes tws).read [0x11, 0x33] = some [6] ∧ (Mpt.new.writes tws).read [0x21] = none ∧
    (Mpt.new.writes tws).has [0x11] = true ∧ (Mpt.new.writes tws).read [0x11, 0x22] = some (List.replicate 40 7) := by decide +kernel

/-- The hypotheses of `C96_root` are met by writes in another order, with other writes in between. -/
example : tws ≠ tws' ∧ afterWrites nothing tws = afterWrites nothing tws' := by
  refine ⟨by decide, ?_⟩
  funext k
  simp only [tws, tws', afterWrites, List.foldl, setOrErase, nothing]
  by_cases h1 : k = [0x21]
  · subst h1; decide
  · by_cases h2 : k = [0x11, 0x33]
    · subst h2; decide
    · by_cases h3 : k = [0x11]
      · subst h3; decide
      · by_cases h4 : k = [0x11, 0x22]
        · subst h4; decide
        · simp [h1, h2, h3, h4]

/-- The hypotheses of `C96_commits` are met; and other contents have another root. -/
example : (∀ b ∈ (Mpt.new.writes tws).codings mix, b.length < 2 ^ 64) ∧ (Mpt.new.writes tws).root mix = (Mpt.new.writes tws').root mix ∧
    (Mpt.new.writes tws).root mix ≠ tr2.root mix := by decide +kernel

theorem tdb_hist (light : Bool) : TrieRun mix light (tdb2 light)
    [(tr2.root mix, afterWrites (afterWrites nothing tws) tws2), (tr1.root mix, afterWrites nothing tws)]
    (tr2.stored mix ++ (tr1.stored mix ++ [])) := by
  have h1 : TrieRun mix light (tdb1 light) [(tr1.root mix, afterWrites nothing tws)] (tr1.stored mix ++ []) :=
    .commit .new .new nothing (.inl ⟨rfl, rfl⟩) tws [] (tdb1 light) (tr1.root mix) (by cases light <;> rfl)
  refine .commit h1 tr1 (afterWrites nothing tws) (.inr ⟨tr1.root mix, .head _, ?_⟩) tws2 [(tr1.root mix).bytes] (tdb2 light)
    (tr2.root mix) (by cases light <;> rfl)
  refine TrieDb.opens_of_holds (Mpt.sound_new.writes tws).wf ?_ ?_
  · show ∀ b ∈ tr1.codings mix, b.length < 2 ^ 64
    decide +kernel
  · show ∀ b ∈ tr1.stored mix, (tdb1 light).get (mix b).bytes = some b
    cases light <;> decide +kernel

theorem tdb_distinct : Distinct mix (tr2.stored mix ++ (tr1.stored mix ++ [])) := by
  refine ⟨by decide +kernel, ?_⟩
  rintro ⟨a, ha, b, hb, hne, he⟩
  have : ∀ a ∈ tr2.stored mix ++ (tr1.stored mix ++ []), ∀ b ∈ tr2.stored mix ++ (tr1.stored mix ++ []), mix a = mix b → a = b := by
    decide +kernel
  exact hne (this a ha b hb he)

/-- The hypotheses of `C97_kept` are met: both roots can be opened in the full database. -/
example : (tr1.root mix ≠ tr2.root mix) ∧ (∃ t, (tdb2 false).Opens (tr1.root mix) t ∧ t.read [0x11, 0x33] = some [6]) ∧
    (∃ t, (tdb2 false).Opens (tr2.root mix) t ∧ t.read [0x11, 0x22] = some [1, 2]) := by
  refine ⟨by decide +kernel, ?_, ?_⟩
  · obtain ⟨t, h1, h2⟩ := C97_kept mix _ _ _ (tdb_hist false) tdb_distinct _ _ (.tail _ (.head _))
    exact ⟨t, h1, (h2 _).trans (by decide)⟩
  · obtain ⟨t, h1, h2⟩ := C97_kept mix _ _ _ (tdb_hist false) tdb_distinct _ _ (.head _)
    exact ⟨t, h1, (h2 _).trans (by decide)⟩

/-- In the light database the first root cannot be opened after the second commit. -/
example : ¬ ∃ t, (tdb2 true).Opens (tr1.root mix) t := by
  have h1 : TrieRun mix true (tdb1 true) [(tr1.root mix, afterWrites nothing tws)] (tr1.stored mix ++ []) :=
    .commit .new .new nothing (.inl ⟨rfl, rfl⟩) tws [] (tdb1 true) (tr1.root mix) rfl
  refine C97_light_refuted mix (tdb1 true) _ _ h1 tr1 (afterWrites nothing tws) (.inr ⟨tr1.root mix, .head _, ?_⟩) tws2
    [(tr1.root mix).bytes] (tdb2 true) (tr2.root mix) rfl tdb_distinct (tr1.root mix) tws (.head _) (tr1.coding mix) (.head _)
    (.head _)
  refine TrieDb.opens_of_holds (Mpt.sound_new.writes tws).wf ?_ ?_
  · show ∀ b ∈ tr1.codings mix, b.length < 2 ^ 64
    decide +kernel
  · show ∀ b ∈ tr1.stored mix, (tdb1 true).get (mix b).bytes = some b
    decide +kernel

end Demo
end Huobi
