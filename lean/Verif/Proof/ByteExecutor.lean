import Verif.Model.ByteExecutor
import Verif.Proof.FixedCodec
/- The executor on bytes does what the typed executor does. -/
namespace Huobi

/-! ### Ordered maps stay ordered -/

theorem bytesLt_trans (a b c : Bytes) (h1 : bytesLt a b = true) (h2 : bytesLt b c = true) : bytesLt a c = true := by
  induction a generalizing b c with
  | nil =>
    cases c with
    | nil => cases b <;> simp [bytesLt] at h1 h2
    | cons z zs => rfl
  | cons x xs ih =>
    cases b with
    | nil => simp [bytesLt] at h1
    | cons y ys =>
      cases c with
      | nil => simp [bytesLt] at h2
      | cons z zs =>
        simp only [bytesLt] at h1 h2 ⊢
        by_cases hxz : x < z
        · rw [if_pos hxz]
        · rw [if_neg hxz]
          by_cases hxy : x < y
          · by_cases hyz : y < z
            · exfalso; apply hxz; rw [UInt8.lt_iff_toNat_lt] at *; omega
            · rw [if_neg hyz] at h2
              by_cases e : y = z
              · subst e; exact absurd hxy hxz
              · rw [if_neg e] at h2; simp at h2
          · rw [if_neg hxy] at h1
            by_cases e : x = y
            · subst e
              rw [if_pos rfl] at h1
              rw [if_neg hxz] at h2
              by_cases e : x = z
              · rw [if_pos e] at h2 ⊢; exact ih _ _ h1 h2
              · rw [if_neg e] at h2; simp at h2
            · rw [if_neg e] at h1; simp at h1

theorem bytesLt_total (a b : Bytes) (h : a ≠ b) (h2 : bytesLt a b = false) : bytesLt b a = true := by
  induction a generalizing b with
  | nil => cases b <;> simp_all [bytesLt]
  | cons x xs ih =>
    cases b with
    | nil => rfl
    | cons y ys =>
      simp only [bytesLt] at h2 ⊢
      by_cases hxy : x < y
      · rw [if_pos hxy] at h2; simp at h2
      · rw [if_neg hxy] at h2
        by_cases e : x = y
        · subst e
          rw [if_pos rfl] at h2
          rw [if_neg hxy, if_pos rfl]
          exact ih _ (fun hc => h (by rw [hc])) h2
        · have : y < x := by
            rw [UInt8.lt_iff_toNat_lt] at *
            have : x.toNat ≠ y.toNat := fun hc => e (UInt8.toNat_inj.1 hc)
            omega
          rw [if_pos this]

/-- A strict total order. -/
class KeyOrd.Total (K : Type) [KeyOrd K] : Prop where
  trans : ∀ a b c : K, KeyOrd.lt a b = true → KeyOrd.lt b c = true → KeyOrd.lt a c = true
  total : ∀ a b : K, a ≠ b → KeyOrd.lt a b = false → KeyOrd.lt b a = true

theorem Hash.bytes_inj {a b : Hash} (h : a.bytes = b.bytes) : a = b := by
  cases a; cases b; simp only at h; subst h; rfl

instance : KeyOrd.Total Hash :=
  ⟨fun _ _ _ => bytesLt_trans _ _ _, fun _ _ h => bytesLt_total _ _ (fun hc => h (Hash.bytes_inj hc))⟩

theorem BMap.mem_insert {K V : Type} [DecidableEq K] [KeyOrd K] {k : K} {v : V} {m : BMap K V} {x : K × V}
    (h : x ∈ m.insert k v) : x = (k, v) ∨ x ∈ m := by
  induction m with
  | nil => simp only [BMap.insert, List.mem_singleton] at h; exact Or.inl h
  | cons y m ih =>
    obtain ⟨k', v'⟩ := y
    simp only [BMap.insert] at h
    split at h
    · rcases List.mem_cons.1 h with h | h
      · exact Or.inl h
      · exact Or.inr (List.mem_cons_of_mem _ h)
    · split at h
      · rcases List.mem_cons.1 h with h | h
        · exact Or.inl h
        · exact Or.inr h
      · rcases List.mem_cons.1 h with h | h
        · exact Or.inr (h ▸ List.mem_cons_self)
        · rcases ih h with h | h
          · exact Or.inl h
          · exact Or.inr (List.mem_cons_of_mem _ h)

theorem BMap.insert_ordered {K V : Type} [DecidableEq K] [KeyOrd K] [KeyOrd.Total K] {m : BMap K V} (k : K) (v : V)
    (h : m.Ordered) : (m.insert k v).Ordered := by
  induction m with
  | nil => exact List.pairwise_singleton _ _
  | cons y m ih =>
    obtain ⟨k', v'⟩ := y
    have h' := List.pairwise_cons.1 h
    simp only [BMap.insert]
    split
    · rename_i e; subst e; exact List.pairwise_cons.2 ⟨h'.1, h'.2⟩
    · rename_i e
      split
      · rename_i hlt
        refine List.pairwise_cons.2 ⟨?_, h⟩
        intro x hx
        rcases List.mem_cons.1 hx with hx | hx
        · subst hx; exact hlt
        · exact KeyOrd.Total.trans _ _ _ hlt (h'.1 x hx)
      · rename_i hlt
        refine List.pairwise_cons.2 ⟨?_, ih h'.2⟩
        intro x hx
        rcases BMap.mem_insert hx with hx | hx
        · subst hx; exact KeyOrd.Total.total _ _ e (by simpa using hlt)
        · exact h'.1 x hx

theorem BMap.get_mem {K V : Type} [DecidableEq K] {m : BMap K V} {k : K} {v : V} (h : m.get k = some v) :
    (k, v) ∈ m := by
  induction m with
  | nil => simp [BMap.get] at h
  | cons y m ih =>
    obtain ⟨k', v'⟩ := y
    simp only [BMap.get] at h
    split at h
    · rename_i e; subst e; injection h with h; subst h; exact List.mem_cons_self
    · exact List.mem_cons_of_mem _ (ih h)

theorem addBalanceUser_ordered (id : AssetID) (u : UserAccount) (n : Nat) (h : (Account.user u).Ordered) :
    (Account.user (addBalanceUser id u n)).Ordered := by
  unfold addBalanceUser
  cases e : u.assets.get id with
  | none =>
    refine ⟨BMap.insert_ordered _ _ h.1, ?_⟩
    intro x hx
    rcases BMap.mem_insert hx with hx | hx
    · subst hx; exact List.Pairwise.nil
    · exact h.2 x hx
  | some info =>
    refine ⟨BMap.insert_ordered _ _ h.1, ?_⟩
    intro x hx
    rcases BMap.mem_insert hx with hx | hx
    · subst hx; exact h.2 (id, info) (BMap.get_mem e)
    · exact h.2 x hx

theorem addBalanceContract_ordered (id : AssetID) (c : ContractAccount) (n : Nat) (h : (Account.contract c).Ordered) :
    (Account.contract (addBalanceContract id c n)).Ordered := by
  unfold addBalanceContract
  split <;> exact BMap.insert_ordered _ _ h

theorem subBalanceUser_ordered {id : AssetID} {u u' : UserAccount} {n : Nat} (h : (Account.user u).Ordered)
    (he : subBalanceUser id u n = .ok u') : (Account.user u').Ordered := by
  unfold subBalanceUser at he
  cases e : u.assets.get id with
  | none => rw [e] at he; simp at he
  | some info =>
    rw [e] at he
    simp only at he
    split at he
    · simp at he
    · injection he with he
      subst he
      refine ⟨BMap.insert_ordered _ _ h.1, ?_⟩
      intro x hx
      rcases BMap.mem_insert hx with hx | hx
      · subst hx; exact h.2 (id, info) (BMap.get_mem e)
      · exact h.2 x hx

theorem subBalanceContract_ordered {id : AssetID} {c c' : ContractAccount} {n : Nat} (h : (Account.contract c).Ordered)
    (he : subBalanceContract id c n = .ok c') : (Account.contract c').Ordered := by
  unfold subBalanceContract at he
  split at he
  · split at he
    · simp at he
    · injection he with he; subst he; exact BMap.insert_ordered _ _ h
  · injection he with he; subst he; exact BMap.insert_ordered _ _ h

theorem bumpNonce_ordered {a : Account} (h : a.Ordered) : (bumpNonce a).Ordered := by
  cases a <;> exact h

/-! ### Adapters -/

/-- Laws of a schema for the values in `Good` (those the executor stores). -/
structure Schema.Lawful {K V : Type} (S : Schema K V) (Good : V → Prop) : Prop where
  inj : ∀ a b, S.encKey a = S.encKey b → a = b
  rt : ∀ v, Good v → S.decVal (S.encVal v) = .ok v
  ne : ∀ v, S.encVal v ≠ []

/-- `bm` is the bytes of `m`. -/
structure RepM {K V : Type} (S : Schema K V) (Good : V → Prop) (m : PMap K V) (bm : ByteMap) : Prop where
  at_key : ∀ k, bm (S.encKey k) = (m k).map S.encVal
  only : ∀ b v, bm b = some v → ∃ k, b = S.encKey k
  good : ∀ k v, m k = some v → Good v

/-- An adapter and its bytes. -/
structure Rep {K V : Type} (S : Schema K V) (Good : V → Prop) (l : Layers K V) (b : Adapter) : Prop where
  trie : RepM S Good l.trie b.trie
  stash : RepM S Good l.stash b.stash
  cache : RepM S Good l.cache b.cache

section
set_option linter.unusedSectionVars false
variable {K V : Type} [DecidableEq K] {S : Schema K V} {Good : V → Prop}

theorem RepM.empty : RepM S Good (PMap.empty : PMap K V) PMap.empty :=
  ⟨fun _ => rfl, fun _ _ h => by simp [PMap.empty] at h, fun _ _ h => by simp [PMap.empty] at h⟩

theorem RepM.set (hS : S.Lawful Good) {m : PMap K V} {bm : ByteMap} (h : RepM S Good m bm) (k : K) (v : V) (hv : Good v) :
    RepM S Good (m.set k v) (PMap.set bm (S.encKey k) (S.encVal v)) := by
  refine ⟨?_, ?_, ?_⟩
  · intro k'
    simp only [PMap.set]
    by_cases e : k' = k
    · subst e; rw [if_pos rfl, if_pos rfl]; rfl
    · rw [if_neg e, if_neg (fun hc => e (hS.inj _ _ hc)), h.at_key]
  · intro b w hb
    simp only [PMap.set] at hb
    split at hb
    · rename_i e; exact ⟨k, e⟩
    · exact h.only b w hb
  · intro k' w hb
    simp only [PMap.set] at hb
    split at hb
    · injection hb with hb; subst hb; exact hv
    · exact h.good k' w hb

theorem RepM.over {m m' : PMap K V} {b b' : ByteMap} (h : RepM S Good m b) (h' : RepM S Good m' b') :
    RepM S Good (m.over m') (PMap.over b b') := by
  refine ⟨?_, ?_, ?_⟩
  · intro k
    simp only [PMap.over, h.at_key, h'.at_key]
    cases m k <;> rfl
  · intro x w hx
    simp only [PMap.over] at hx
    cases e : b x with
    | some v => exact h.only _ _ e
    | none => rw [e] at hx; exact h'.only _ _ hx
  · intro k w hk
    simp only [PMap.over] at hk
    cases e : m k with
    | some v => rw [e] at hk; injection hk with hk; subst hk; exact h.good _ _ e
    | none => rw [e] at hk; exact h'.good _ _ hk

/-- The bytes of a map are unique. -/
theorem RepM.unique {m : PMap K V} {b b' : ByteMap} (h : RepM S Good m b) (h' : RepM S Good m b') : b = b' := by
  funext x
  cases e : b x with
  | some v =>
    obtain ⟨k, rfl⟩ := h.only _ _ e
    rw [← e, h.at_key, h'.at_key]
  | none =>
    cases e' : b' x with
    | none => rfl
    | some v =>
      obtain ⟨k, rfl⟩ := h'.only _ _ e'
      rw [← e, ← e', h.at_key, h'.at_key]

/-- The map is determined by its bytes. -/
theorem RepM.unique_left (hS : S.Lawful Good) {m m' : PMap K V} {b : ByteMap} (h : RepM S Good m b)
    (h' : RepM S Good m' b) : m = m' := by
  funext k
  have e := (h.at_key k).symm.trans (h'.at_key k)
  cases e1 : m k with
  | none =>
    cases e2 : m' k with
    | none => rfl
    | some v => rw [e1, e2] at e; simp at e
  | some v =>
    cases e2 : m' k with
    | none => rw [e1, e2] at e; simp at e
    | some v' =>
      rw [e1, e2] at e
      simp only [Option.map_some, Option.some.injEq] at e
      have r1 := hS.rt v (h.good _ _ e1)
      have r2 := hS.rt v' (h'.good _ _ e2)
      rw [e, r2] at r1
      injection r1 with r1
      rw [r1]

theorem Rep.get {l : Layers K V} {b : Adapter} (h : Rep S Good l b) (k : K) :
    b.get (S.encKey k) = (l.get k).map S.encVal := by
  simp only [Layers.get, h.trie.at_key, h.stash.at_key, h.cache.at_key]
  cases l.cache k with
  | some v => rfl
  | none => cases l.stash k <;> rfl

theorem Rep.get_good {l : Layers K V} {b : Adapter} (h : Rep S Good l b) {k : K} {v : V} (e : l.get k = some v) :
    Good v := by
  simp only [Layers.get] at e
  cases e1 : l.cache k with
  | some w => rw [e1] at e; injection e with e; subst e; exact h.cache.good _ _ e1
  | none =>
    rw [e1] at e
    cases e2 : l.stash k with
    | some w => rw [e2] at e; injection e with e; subst e; exact h.stash.good _ _ e2
    | none => rw [e2] at e; exact h.trie.good _ _ e

theorem Rep.read (hS : S.Lawful Good) {l : Layers K V} {b : Adapter} (h : Rep S Good l b) (k : K) :
    b.read S k = .ok (l.get k) := by
  unfold Adapter.read
  rw [h.get]
  cases e : l.get k with
  | none => rfl
  | some v => simp only [Option.map_some, hS.rt v (h.get_good e)]

theorem Rep.has {l : Layers K V} {b : Adapter} (h : Rep S Good l b) (k : K) : b.has S k = l.contains k := by
  simp only [Adapter.has, Layers.contains, h.trie.at_key, h.stash.at_key, h.cache.at_key, Option.isSome_map]

theorem Rep.write (hS : S.Lawful Good) {l : Layers K V} {b : Adapter} (h : Rep S Good l b) (k : K) (v : V)
    (hv : (S.encVal v).length < 2 ^ 64 → Good v) :
    b.write S k v = .error .memory ∨ ∃ b', b.write S k v = .ok b' ∧ Rep S Good (l.insertCache k v) b' := by
  unfold Adapter.write
  by_cases e : (S.encVal v).length < 2 ^ 64
  · rw [if_pos e]
    exact Or.inr ⟨_, rfl, h.trie, h.stash, h.cache.set hS k v (hv e)⟩
  · rw [if_neg e]; exact Or.inl rfl

theorem Rep.stashCache {l : Layers K V} {b : Adapter} (h : Rep S Good l b) : Rep S Good l.stashCache b.stashCache :=
  ⟨h.trie, h.cache.over h.stash, RepM.empty⟩

theorem Rep.revertCache {l : Layers K V} {b : Adapter} (h : Rep S Good l b) : Rep S Good l.revertCache b.revertCache :=
  ⟨h.trie, h.stash, RepM.empty⟩

theorem Rep.commit (hS : S.Lawful Good) {l : Layers K V} {b : Adapter} (h : Rep S Good l b) :
    Rep S Good l.commit b.commitTrie := by
  have e : b.commitTrie.trie = PMap.over b.stash b.trie := by
    funext x
    simp only [Adapter.commitTrie, PMap.over]
    cases e : b.stash x with
    | none => rfl
    | some v =>
      obtain ⟨k, rfl⟩ := h.stash.only _ _ e
      rw [h.stash.at_key] at e
      cases e2 : l.stash k with
      | none => rw [e2] at e; simp at e
      | some w =>
        rw [e2] at e
        simp only [Option.map_some, Option.some.injEq] at e
        subst e
        simp only [if_neg (hS.ne w)]
  refine ⟨?_, RepM.empty, h.cache⟩
  rw [e]
  exact h.stash.over h.trie

theorem Rep.ofTrie {m : PMap K V} {b : ByteMap} (h : RepM S Good m b) : Rep S Good (Layers.ofTrie m) (Layers.ofTrie b) :=
  ⟨h, RepM.empty, RepM.empty⟩

end

/-- The accounts the executor stores. -/
def GoodAccount (a : Account) : Prop := a.Ordered ∧ Fits a.item
/-- The assets the executor stores. -/
def GoodAsset (a : Asset) : Prop := Fits a.item

theorem enc_list_ne (xs : List Item) : (Item.list xs).enc ≠ [] := by
  simp only [Item.enc, rlpHeader]
  split <;> simp

theorem encData_len (b : Bytes) (h : b.length ≤ 55) : (encData b).length ≤ 56 := by
  unfold encData
  split
  · split
    · simp
    · simp [rlpHeader]
  · simp [rlpHeader, h]

theorem smallItem_fits (b : Bytes) (h : b.length ≤ 54) : Fits (.list [.data b]) := by
  have h1 : (Item.encs [.data b]).length ≤ 56 := by
    simp only [Item.encs, List.append_nil, Item.enc]; exact encData_len b (by omega)
  show (Item.list [.data b]).enc.length < 2 ^ 64
  simp only [Item.enc]
  generalize Item.encs [Item.data b] = e at h1 ⊢
  have h2 : (rlpHeader 192 e.length).length ≤ 2 := by
    unfold rlpHeader
    split
    · simp
    · have : e.length = 56 := by omega
      rw [this]; decide
  rw [List.length_append]
  omega

theorem Address.toBytes_len (a : Address) : a.toBytes.length = 21 := by
  cases a with
  | user a => simp [Address.toBytes, UserAddress.toBytes, a.size]
  | contract a => simp [Address.toBytes, ContractAddress.toBytes, a.size]

theorem account_lawful : accountSchema.Lawful GoodAccount := by
  refine ⟨?_, ?_, ?_⟩
  · intro a b h
    have f : ∀ x : Address, Fits x.item := fun x => smallItem_fits _ (by rw [Address.toBytes_len]; omega)
    have e1 := address_rt a (f a)
    have e2 := address_rt b (f b)
    have h : a.item.enc = b.item.enc := h
    rw [h, e2] at e1
    injection e1 with e1
    exact e1.symm
  · intro v hv
    exact account_rt v hv.1 hv.2
  · intro v
    cases v <;> exact enc_list_ne _

theorem asset_lawful : assetSchema.Lawful GoodAsset := by
  refine ⟨?_, ?_, ?_⟩
  · intro a b h
    have f : ∀ x : Hash, Fits x.item := fun x => smallItem_fits _ (by rw [x.size]; omega)
    have e1 := hash_rt a (f a)
    have e2 := hash_rt b (f b)
    have h : a.item.enc = b.item.enc := h
    rw [h, e2] at e1
    injection e1 with e1
    exact e1.symm
  · intro v hv
    exact asset_rt v hv
  · intro v
    exact enc_list_ne _

/-! ### The contracts and the executor -/

/-- An executor and its bytes. -/
structure SimR (s : St) (b : BSt) : Prop where
  acc : Rep accountSchema GoodAccount s.acc b.acc
  bank : Rep assetSchema GoodAsset s.bank b.bank
  used : b.used = s.used

/-- A typed result at the byte level. -/
def liftE {α : Type} : Except Fault α → Except BFault α
  | .ok a => .ok a
  | .error f => .error f.toB

/-- The byte-level call runs out of memory, or ends as the typed one. -/
def Sim {α : Type} (top : ByteMap) (r : Except Fault α × St) (b : Except BFault α × BSt) : Prop :=
  b.1 = .error .memory ∨ (b.1 = liftE r.1 ∧ SimR r.2 b.2 ∧ b.2.top = top)

theorem findOrCreate_sim (env : Env) {s : St} {b : BSt} (h : SimR s b) (a : Address) :
    bFindOrCreate env b a = .ok (findOrCreate env s a) ∧ (findOrCreate env s a).Ordered := by
  unfold bFindOrCreate findOrCreate
  rw [h.acc.read account_lawful]
  cases e : s.acc.get a with
  | some x => exact ⟨rfl, (h.acc.get_good e).1⟩
  | none =>
    cases a with
    | user u => exact ⟨rfl, List.Pairwise.nil, fun x hx => by cases hx⟩
    | contract c => exact ⟨rfl, List.Pairwise.nil⟩

theorem getAccount_sim {s : St} {b : BSt} (h : SimR s b) (a : Address) : bGetAccount b a = liftE (getAccount s a) := by
  unfold bGetAccount getAccount
  rw [h.acc.read account_lawful]
  cases s.acc.get a <;> rfl

theorem getAccount_ordered {s : St} {b : BSt} (h : SimR s b) {a : Address} {x : Account} (e : getAccount s a = .ok x) :
    x.Ordered := by
  unfold getAccount at e
  cases e' : s.acc.get a with
  | none => rw [e'] at e; simp at e
  | some y => rw [e'] at e; injection e with e; subst e; exact (h.acc.get_good e').1

theorem getBalance_sim {s : St} {b : BSt} (h : SimR s b) (id : AssetID) (a : Address) :
    bGetBalance id a b = liftE (getBalance id a s) := by
  unfold bGetBalance getBalance
  rw [getAccount_sim h]
  cases getAccount s a <;> rfl

theorem getAsset_sim {s : St} {b : BSt} (h : SimR s b) (id : AssetID) : bGetAsset id b = liftE (getAsset id s) := by
  unfold bGetAsset getAsset
  rw [h.bank.read asset_lawful]
  cases s.bank.get id <;> rfl

theorem putAccount_sim {s : St} {b : BSt} (h : SimR s b) (a : Address) (x : Account) (hx : x.Ordered) :
    Sim b.top (.ok (), putAccount a x s) (bPutAccount a x b) := by
  unfold bPutAccount
  rcases h.acc.write account_lawful a x (fun hl => ⟨hx, hl⟩) with e | ⟨b', e, r⟩
  · rw [e]; exact Or.inl rfl
  · rw [e]; exact Or.inr ⟨rfl, ⟨r, h.bank, h.used⟩, rfl⟩

theorem addBalance_sim (env : Env) {s : St} {b : BSt} (h : SimR s b) (id : AssetID) (a : Address) (n : Nat) :
    Sim b.top (.ok (), addBalance env id a n s) (bAddBalance env id a n b) := by
  obtain ⟨e, o⟩ := findOrCreate_sim env h a
  unfold bAddBalance addBalance
  rw [e]
  cases f : findOrCreate env s a with
  | user u => rw [f] at o; exact putAccount_sim h a _ (addBalanceUser_ordered id u n o)
  | contract c => rw [f] at o; exact putAccount_sim h a _ (addBalanceContract_ordered id c n o)

theorem subBalance_sim (env : Env) {s : St} {b : BSt} (h : SimR s b) (id : AssetID) (a : Address) (n : Nat) :
    Sim b.top (subBalance env id a n s) (bSubBalance env id a n b) := by
  obtain ⟨e, o⟩ := findOrCreate_sim env h a
  unfold bSubBalance subBalance
  rw [e]
  cases f : findOrCreate env s a with
  | user u =>
    rw [f] at o
    simp only
    cases g : subBalanceUser id u n with
    | ok u' => exact putAccount_sim h a _ (subBalanceUser_ordered o g)
    | error e => exact Or.inr ⟨rfl, h, rfl⟩
  | contract c =>
    rw [f] at o
    simp only
    cases g : subBalanceContract id c n with
    | ok u' => exact putAccount_sim h a _ (subBalanceContract_ordered o g)
    | error e => exact Or.inr ⟨rfl, h, rfl⟩

theorem incNonce_sim {s : St} {b : BSt} (h : SimR s b) (a : Address) :
    Sim b.top (incNonce a s) (bIncNonce a b) := by
  unfold bIncNonce incNonce
  rw [getAccount_sim h]
  cases e : getAccount s a with
  | error f => exact Or.inr ⟨rfl, h, rfl⟩
  | ok acc => exact putAccount_sim h a _ (bumpNonce_ordered (getAccount_ordered h e))

/-- Sequencing: what the rest of a call does after a simulated step. -/
theorem Sim.cases {α β : Type} {top : ByteMap} {r : Except Fault α × St} {b : Except BFault α × BSt} (h : Sim top r b)
    {r' : Except Fault β × St} {b' : Except BFault β × BSt}
    (hm : ∀ s, b = (.error .memory, s) → b'.1 = .error .memory)
    (he : ∀ f s s', r = (.error f, s) → b = (.error f.toB, s') → SimR s s' → s'.top = top → Sim top r' b')
    (ho : ∀ a s s', r = (.ok a, s) → b = (.ok a, s') → SimR s s' → s'.top = top → Sim top r' b') : Sim top r' b' := by
  obtain ⟨b1, b2⟩ := b
  obtain ⟨r1, r2⟩ := r
  rcases h with h | ⟨h1, h2, h3⟩
  · simp only at h; subst h; exact Or.inl (hm b2 rfl)
  · simp only at h1 h2 h3
    cases r1 with
    | ok a => simp only [liftE] at h1; subst h1; exact ho a r2 b2 rfl rfl h2 h3
    | error f => simp only [liftE] at h1; subst h1; exact he f r2 b2 rfl rfl h2 h3

theorem accTransfer_sim (env : Env) {s : St} {b : BSt} (h : SimR s b) (caller to_ : Address) (c : CarryingAsset)
    (limit : UInt64) : Sim b.top (accTransfer env caller to_ c limit s) (bAccTransfer env caller to_ c limit b) := by
  unfold accTransfer bAccTransfer
  refine (subBalance_sim env h c.assetId caller c.amount).cases ?_ ?_ ?_
  · intro s1 e; rw [e]
  · intro f s1 s1' e e' r ht; rw [e, e']; exact Or.inr ⟨rfl, r, ht⟩
  · intro a s1 s1' e e' r ht
    rw [e, e']
    cases a
    simp only
    rw [← ht]
    refine (addBalance_sim env r c.assetId to_ c.amount).cases ?_ ?_ ?_
    · intro s2 e; rw [e]
    · intro f s2 s2' e; simp at e
    · intro a s2 s2' e e' r2 ht2
      rw [e']
      simp only [Prod.mk.injEq, true_and] at e
      rw [e, h.used]
      cases consumeCycles .accountTransfer s.used limit with
      | error f => exact Or.inr ⟨rfl, r2, ht2⟩
      | ok u => exact Or.inr ⟨rfl, ⟨r2.acc, r2.bank, rfl⟩, ht2⟩

theorem bankRegister_sim (env : Env) {s : St} {b : BSt} (h : SimR s b) (address : ContractAddress) (name symbol : String)
    (supply : Nat) (limit : UInt64) :
    Sim b.top (bankRegister env address name symbol supply limit s) (bBankRegister env address name symbol supply limit b) := by
  unfold bankRegister bBankRegister
  by_cases hty : address.ty ≠ .asset
  · rw [if_pos hty, if_pos hty]; exact Or.inr ⟨rfl, h, rfl⟩
  · rw [if_neg hty, if_neg hty]
    simp only
    rw [h.bank.has]
    by_cases hc : s.bank.contains (assetIdOf env address) = true
    · rw [if_pos hc, if_pos hc]; exact Or.inr ⟨rfl, h, rfl⟩
    · rw [if_neg hc, if_neg hc]
      generalize hx : (Asset.mk (assetIdOf env address) name symbol supply address env.emptyHash) = asset
      rcases h.bank.write asset_lawful (assetIdOf env address) asset (fun hl => hl) with e | ⟨b', e, r⟩
      · rw [e]; exact Or.inl rfl
      · rw [e, h.used]
        simp only
        cases consumeCycles .bankRegister s.used limit with
        | error f => exact Or.inr ⟨rfl, ⟨h.acc, r, rfl⟩, rfl⟩
        | ok u => exact Or.inr ⟨rfl, ⟨h.acc, r, rfl⟩, rfl⟩

theorem handleTransfer_sim (env : Env) {s : St} {b : BSt} (h : SimR s b) (caller : Address) (receiver : UserAddress)
    (c : CarryingAsset) (limit : UInt64) :
    Sim b.top (handleTransfer env caller receiver c limit s) (bHandleTransfer env caller receiver c limit b) := by
  unfold handleTransfer bHandleTransfer
  rw [getAsset_sim h]
  cases getAsset c.assetId s with
  | error f => exact Or.inr ⟨rfl, h, rfl⟩
  | ok x =>
    simp only [liftE]
    rw [getBalance_sim h]
    cases getBalance c.assetId caller s with
    | error f => exact Or.inr ⟨rfl, h, rfl⟩
    | ok before =>
      simp only [liftE]
      refine (accTransfer_sim env h caller (.user receiver) c limit).cases ?_ ?_ ?_
      · intro s1 e; rw [e]
      · intro f s1 s1' e e' r ht; rw [e, e']; exact Or.inr ⟨rfl, r, ht⟩
      · intro a s1 s1' e e' r ht
        rw [e, e']
        simp only
        rw [getBalance_sim r]
        cases getBalance c.assetId caller s1 with
        | error f => exact Or.inr ⟨rfl, r, ht⟩
        | ok after => exact Or.inr ⟨rfl, r, ht⟩

theorem handleDeploy_sim (env : Env) {s : St} {b : BSt} (h : SimR s b) (caller : Address) (code : Bytes)
    (ty : ContractType) (limit : UInt64) :
    Sim b.top (handleDeploy env caller code ty limit s) (bHandleDeploy env caller code ty limit b) := by
  unfold handleDeploy bHandleDeploy
  cases ty with
  | asset =>
    simp only
    rw [getAccount_sim h]
    cases getAccount s caller with
    | error f => exact Or.inr ⟨rfl, h, rfl⟩
    | ok acc =>
      simp only [liftE]
      refine (bankRegister_sim env h (ContractAddress.fromCode env.digest code (accountNonce acc) .asset)
        "System token" "ST" 21000000000000000 limit).cases ?_ ?_ ?_
      · intro s1 e; rw [e]
      · intro f s1 s1' e e' r ht; rw [e, e']; exact Or.inr ⟨rfl, r, ht⟩
      · intro a s1 s1' e e' r ht; rw [e, e']; exact Or.inr ⟨rfl, r, ht⟩
  | app => exact Or.inr ⟨rfl, h, rfl⟩
  | library => exact Or.inr ⟨rfl, h, rfl⟩
  | native => exact Or.inr ⟨rfl, h, rfl⟩

theorem dispatch_sim (env : Env) {s : St} {b : BSt} (h : SimR s b) (tx : SignedTx) :
    Sim b.top (dispatch env tx s) (bDispatch env tx b) := by
  unfold dispatch bDispatch
  simp only
  cases tx.raw.action with
  | transfer receiver c => exact handleTransfer_sim env h _ receiver c _
  | deploy code ty => exact handleDeploy_sim env h _ code ty _
  | approve _ _ _ => exact Or.inr ⟨rfl, h, rfl⟩
  | call _ _ _ _ => exact Or.inr ⟨rfl, h, rfl⟩

theorem SimR.stash {s : St} {b : BSt} (h : SimR s b) : SimR s.stash b.stash :=
  ⟨h.acc.stashCache, h.bank.stashCache, h.used⟩

theorem SimR.revert {s : St} {b : BSt} (h : SimR s b) : SimR s.revert b.revert :=
  ⟨h.acc.revertCache, h.bank.revertCache, h.used⟩

theorem execTx_sim (env : Env) (sc : DErr → String) {s : St} {b : BSt} (h : SimR s b) (tx : SignedTx) :
    Sim b.top (execTx env tx s) (bExecTx env sc tx b) := by
  unfold execTx bExecTx
  simp only
  have h0 : SimR { s with used := 0 } { b with used := 0 } := ⟨h.acc, h.bank, rfl⟩
  have tail : ∀ (res : ReceiptResult) (s1 : St) (b1 : BSt), SimR s1 b1 → b1.top = b.top →
      Sim b.top
        (match incNonce (.user (senderOf env tx)) s1 with
          | (.error f, s2) => ((.error f, s2) : Except Fault Receipt × St)
          | (.ok (), s2) =>
            (.ok { stateRoot := env.emptyHash
                   epochId := env.epochId
                   txHash := tx.txHash
                   cyclesUsed := { assetId := tx.raw.fee.assetId, cycle := s2.used * env.cyclesPrice }
                   result := res }, s2))
        (match bIncNonce (.user (senderOf env tx)) b1 with
          | (.error f, s2) => ((.error f, s2) : Except BFault Receipt × BSt)
          | (.ok (), s2) =>
            (.ok { stateRoot := env.emptyHash
                   epochId := env.epochId
                   txHash := tx.txHash
                   cyclesUsed := { assetId := tx.raw.fee.assetId, cycle := s2.used * env.cyclesPrice }
                   result := res }, s2)) := by
    intro res s1 b1 r ht
    rw [← ht]
    refine (incNonce_sim r (.user (senderOf env tx))).cases ?_ ?_ ?_
    · intro s2 e; rw [e]
    · intro f s2 s2' e e' r2 ht2; rw [e, e']; exact Or.inr ⟨rfl, r2, ht2⟩
    · intro a s2 s2' e e' r2 ht2
      rw [e, e']
      cases a
      simp only
      rw [r2.used]
      exact Or.inr ⟨rfl, r2, ht2⟩
  have hd := dispatch_sim env h0 tx
  refine Sim.cases (show Sim b.top _ _ from hd) ?_ ?_ ?_
  · intro s1 e; rw [e]; rfl
  · intro f s1 s1' e e' r ht
    rw [e, e']
    cases f with
    | panic => exact Or.inr ⟨rfl, h0, rfl⟩
    | err x => exact tail _ _ _ r.revert ht
  · intro a s1 s1' e e' r ht
    rw [e, e']
    exact tail _ _ _ r.stash ht

theorem execLoop_sim (env : Env) (sc : DErr → String) (txs : List SignedTx) {s : St} {b : BSt} (h : SimR s b) :
    Sim b.top (execLoop env txs s) (bExecLoop env sc txs b) := by
  induction txs generalizing s b with
  | nil => exact Or.inr ⟨rfl, h, rfl⟩
  | cons tx txs ih =>
    unfold execLoop bExecLoop
    refine (execTx_sim env sc h tx).cases ?_ ?_ ?_
    · intro s1 e; rw [e]
    · intro f s1 s1' e e' r ht; rw [e, e']; exact Or.inr ⟨rfl, r, ht⟩
    · intro a s1 s1' e e' r ht
      rw [e, e']
      simp only
      rw [← ht]
      refine (ih r).cases ?_ ?_ ?_
      · intro s2 e; rw [e]
      · intro f s2 s2' e e' r2 ht2; rw [e, e']; exact Or.inr ⟨rfl, r2, ht2⟩
      · intro a s2 s2' e e' r2 ht2; rw [e, e']; exact Or.inr ⟨rfl, r2, ht2⟩

theorem rewardCoinbase_sim (env : Env) (fees : List Fee) {s : St} {b : BSt} (h : SimR s b) :
    Sim b.top (.ok (), rewardCoinbase env fees s) (bRewardCoinbase env fees b) := by
  induction fees generalizing s b with
  | nil => exact Or.inr ⟨rfl, h, rfl⟩
  | cons f fs ih =>
    unfold bRewardCoinbase
    refine (addBalance_sim env h f.assetId env.coinbase f.cycle.toNat).cases ?_ ?_ ?_
    · intro s1 e; rw [e]
    · intro f s1 s1' e; simp at e
    · intro a s1 s1' e e' r ht
      rw [e']
      simp only [Prod.mk.injEq, true_and] at e
      simp only
      rw [← ht]
      have := ih r
      rw [← e] at this
      exact this

theorem genesisAssets_sim (env : Env) (a : Address) (xs : List GenesisStateAsset) {s : St} {b : BSt} (h : SimR s b) :
    Sim b.top (genesisAssets env a xs s) (bGenesisAssets env a xs b) := by
  induction xs generalizing s b with
  | nil => exact Or.inr ⟨rfl, h, rfl⟩
  | cons x xs ih =>
    unfold genesisAssets bGenesisAssets
    cases Hash.fromHex x.assetId.toList with
    | none => exact Or.inr ⟨rfl, h, rfl⟩
    | some id =>
      cases hexDecode x.balance.toList with
      | none => exact Or.inr ⟨rfl, h, rfl⟩
      | some v =>
        simp only
        refine (addBalance_sim env h id a (natOfBE v)).cases ?_ ?_ ?_
        · intro s1 e; rw [e]
        · intro f s1 s1' e; simp at e
        · intro u s1 s1' e e' r ht
          rw [e']
          simp only [Prod.mk.injEq, true_and] at e
          simp only
          rw [← ht, e]
          exact ih r

theorem genesisAllocs_sim (env : Env) (xs : List GenesisStateAlloc) {s : St} {b : BSt} (h : SimR s b) :
    Sim b.top (genesisAllocs env xs s) (bGenesisAllocs env xs b) := by
  induction xs generalizing s b with
  | nil => exact Or.inr ⟨rfl, h, rfl⟩
  | cons x xs ih =>
    unfold genesisAllocs bGenesisAllocs
    cases Address.fromHex x.address.toList with
    | none => exact Or.inr ⟨rfl, h, rfl⟩
    | some a =>
      simp only
      rw [(findOrCreate_sim env h a).1]
      simp only
      refine (genesisAssets_sim env a x.assets h).cases ?_ ?_ ?_
      · intro s1 e; rw [e]
      · intro f s1 s1' e e' r ht; rw [e, e']; exact Or.inr ⟨rfl, r, ht⟩
      · intro u s1 s1' e e' r ht
        rw [e, e']
        simp only
        rw [← ht]
        exact ih r

end Huobi
