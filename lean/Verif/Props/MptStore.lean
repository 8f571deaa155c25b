import Verif.Proof.MptStore
/-
C96, C97 for the executor: with Patricia tries in a database of nodes, state roots stand for worlds, and the store of tries
the executor works on is what the database holds.
-/
namespace Huobi

/-! ### Specification -/

/-- The root of a trie with given contents is that of the Patricia trie. -/
def IsMpt (digest : Bytes → Hash) (T : TrieLib) : Prop := ∀ ws, T.root (afterWrites nothing ws) = (Mpt.new.writes ws).root digest

/-- A node of one of the tries in a store. -/
def NodeOf (digest : Bytes → Hash) (store : TrieStore) (b : Bytes) : Prop :=
  ∃ ws, afterWrites nothing ws ∈ store ∧ b ∈ (Mpt.new.writes ws).stored digest

/-- Two nodes of the tries in a store are different and have one hash. -/
def NodeClash (digest : Bytes → Hash) (store : TrieStore) : Prop :=
  ∃ a b, NodeOf digest store a ∧ NodeOf digest store b ∧ a ≠ b ∧ digest a = digest b

/-- A node of one of the tries in a store needs a buffer of 2^64 bytes. -/
def NodeTooLong (digest : Bytes → Hash) (store : TrieStore) : Prop := ∃ b, NodeOf digest store b ∧ 2 ^ 64 ≤ b.length

/-- Finitely many accounts and assets. -/
structure World.Finite (w : World) : Prop where
  accounts : ∃ l : List Address, ∀ a x, w.accounts a = some x → a ∈ l
  assets : ∃ l : List AssetID, ∀ a x, w.assets a = some x → a ∈ l

/-- The three tries of a world. -/
def worldTries (T : TrieLib) (w : World) : TrieStore := [worldTop T w, accountBytes w.accounts, assetBytes w.assets]

/-! ### Proofs -/

/-- There is such a root function. -/
theorem mpt_exists (digest : Bytes → Hash) : ∃ T, IsMpt digest T := by
  refine ⟨⟨fun m => open Classical in if h : ∃ ws, afterWrites nothing ws = m then (Mpt.new.writes h.choose).root digest else default⟩,
    fun ws => ?_⟩
  have h : ∃ ws', afterWrites nothing ws' = afterWrites nothing ws := ⟨ws, rfl⟩
  simp only
  rw [dif_pos h]
  exact C96_root digest _ _ h.choose_spec

theorem NodeOf.mono {digest : Bytes → Hash} {s s' : TrieStore} (h : ∀ m ∈ s, m ∈ s') {b : Bytes} (hb : NodeOf digest s b) :
    NodeOf digest s' b := by
  obtain ⟨ws, h1, h2⟩ := hb
  exact ⟨ws, h _ h1, h2⟩

/-- The database after committing the tries of a store, oldest first. -/
theorem store_run {digest : Bytes → Hash} {T : TrieLib} (hT : IsMpt digest T) (store : TrieStore) (hb : ∀ m ∈ store, Built m) :
    ∃ db blobs, TrieRun digest false db (store.map (fun m => (T.root m, m))) blobs ∧ ∀ b ∈ blobs, NodeOf digest store b := by
  induction store with
  | nil => exact ⟨_, _, .new, fun b h => by cases h⟩
  | cons m store ih =>
    obtain ⟨db, blobs, h1, h2⟩ := ih (fun m hm => hb m (.tail _ hm))
    obtain ⟨ws, hw⟩ := hb m (.head _)
    subst hw
    have he : ∃ db', (Mpt.new.writes ws).commit digest [] db = some ((Mpt.new.writes ws).root digest, db') := by
      unfold Mpt.commit TrieDb.insertBatch
      rw [if_neg (by simp)]
      exact ⟨_, rfl⟩
    obtain ⟨db', he⟩ := he
    refine ⟨db', (Mpt.new.writes ws).stored digest ++ blobs, ?_, fun b hm => ?_⟩
    · have := TrieRun.commit h1 .new nothing (.inl ⟨rfl, rfl⟩) ws [] db' _ he
      simp only [List.map_cons]
      rw [hT ws]
      exact this
    · rcases List.mem_append.1 hm with hm | hm
      · exact ⟨ws, .head _, hm⟩
      · exact (h2 b hm).mono (fun m h => .tail _ h)

theorem distinct_of_nodes {digest : Bytes → Hash} {store : TrieStore} (hc : ¬ NodeClash digest store)
    (hl : ¬ NodeTooLong digest store) {blobs : List Bytes} (h : ∀ b ∈ blobs, NodeOf digest store b) : Distinct digest blobs := by
  refine ⟨fun b hb => Nat.lt_of_not_le fun h64 => hl ⟨b, h b hb, h64⟩, ?_⟩
  rintro ⟨a, ha, b, hb, h1, h2⟩
  exact hc ⟨a, b, h a ha, h b hb, h1, h2⟩

theorem not_collides {digest : Bytes → Hash} {T : TrieLib} (hT : IsMpt digest T) {store : TrieStore} (hb : ∀ m ∈ store, Built m)
    (hc : ¬ NodeClash digest store) (hl : ¬ NodeTooLong digest store) : ¬ Collides T store := by
  rintro ⟨m, hm, m', hm', hne, hr⟩
  obtain ⟨db, blobs, h1, h2⟩ := store_run hT store hb
  refine hne (C97_one digest false db _ blobs h1 (distinct_of_nodes hc hl h2) (T.root m) m m' ?_ ?_)
  · exact List.mem_map.2 ⟨m, hm, rfl⟩
  · exact List.mem_map.2 ⟨m', hm', by rw [hr]⟩

theorem accountBytes_built {w : World} (h : w.Finite) : Built (accountBytes w.accounts) := by
  obtain ⟨l, hl⟩ := h.accounts
  refine built_of_listed ⟨l.map (fun a => a.item.enc), fun k v e => ?_⟩ (fun k v e => ?_)
  · simp only [accountBytes] at e
    split at e
    · split at e
      · rename_i a _ he
        obtain ⟨x, hx, -⟩ := Option.map_eq_some_iff.1 e
        exact List.mem_map.2 ⟨a, hl a x hx, he⟩
      · cases e
    · cases e
  · simp only [accountBytes] at e
    split at e
    · split at e
      · obtain ⟨x, -, rfl⟩ := Option.map_eq_some_iff.1 e
        exact enc_ne_nil _
      · cases e
    · cases e

theorem assetBytes_built {w : World} (h : w.Finite) : Built (assetBytes w.assets) := by
  obtain ⟨l, hl⟩ := h.assets
  refine built_of_listed ⟨l.map (fun a => a.item.enc), fun k v e => ?_⟩ (fun k v e => ?_)
  · simp only [assetBytes] at e
    split at e
    · split at e
      · rename_i a _ he
        obtain ⟨x, hx, -⟩ := Option.map_eq_some_iff.1 e
        exact List.mem_map.2 ⟨a, hl a x hx, he⟩
      · cases e
    · cases e
  · simp only [assetBytes] at e
    split at e
    · split at e
      · obtain ⟨x, -, rfl⟩ := Option.map_eq_some_iff.1 e
        exact enc_ne_nil _
      · cases e
    · cases e

theorem worldTries_built {T : TrieLib} {w : World} (h : w.Finite) : ∀ m ∈ worldTries T w, Built m := by
  intro m hm
  simp only [worldTries, List.mem_cons, List.not_mem_nil, or_false] at hm
  rcases hm with rfl | rfl | rfl
  · exact (Built.empty.set _ (hash_bytes_ne _)).set _ (hash_bytes_ne _)
  · exact accountBytes_built h
  · exact assetBytes_built h

/-- C96: a state root stands for one world: worlds with the same state root have the same accounts, nonces, balances and
assets, unless two nodes of their tries clash. -/
theorem C96_world (digest : Bytes → Hash) (T : TrieLib) (hT : IsMpt digest T) (w w' : World) (g : GoodWorld w) (g' : GoodWorld w')
    (f : w.Finite) (f' : w'.Finite) (h : worldRoot T w = worldRoot T w') :
    w = w' ∨ NodeClash digest (worldTries T w ++ worldTries T w') ∨ NodeTooLong digest (worldTries T w ++ worldTries T w') := by
  by_cases hc : NodeClash digest (worldTries T w ++ worldTries T w')
  · exact .inr (.inl hc)
  · by_cases hl : NodeTooLong digest (worldTries T w ++ worldTries T w')
    · exact .inr (.inr hl)
    · left
      have hb : ∀ m ∈ worldTries T w ++ worldTries T w', Built m := fun m hm =>
        (List.mem_append.1 hm).elim (worldTries_built f m) (worldTries_built f' m)
      refine worldRoot_inj (not_collides hT hb hc hl) g g' ?_ ?_ ?_ ?_ ?_ ?_ h <;> simp [worldTries]

/-- C96: no world has the root of the empty trie, on which genesis is created, unless a node of its top trie has the hash of
the empty one. -/
theorem C96_not_empty (digest : Bytes → Hash) (T : TrieLib) (hT : IsMpt digest T) (w : World) (h : worldRoot T w = digest [0x80]) :
    NodeClash digest [worldTop T w, PMap.empty] ∨ NodeTooLong digest [worldTop T w, PMap.empty] := by
  refine Classical.byContradiction fun hn => ?_
  have hb : ∀ m ∈ [worldTop T w, (PMap.empty : ByteMap)], Built m := by
    intro m hm
    simp only [List.mem_cons, List.not_mem_nil, or_false] at hm
    rcases hm with rfl | rfl
    · exact (Built.empty.set _ (hash_bytes_ne _)).set _ (hash_bytes_ne _)
    · exact .empty
  refine not_collides hT hb (fun hc => hn (.inl hc)) (fun hc => hn (.inr hc)) ⟨worldTop T w, .head _, PMap.empty, .tail _ (.head _), ?_, ?_⟩
  · intro e
    have := congrFun e bankContract.toBytes
    simp [worldTop, PMap.set, PMap.empty] at this
  · have : T.root PMap.empty = digest [0x80] := hT []
    rw [this]; exact h

/-- C96: C85 for the executor on Patricia tries: every answer is the one of the executor on typed accounts and assets, unless
memory runs out or two nodes of the tries that were committed clash. -/
theorem C96_executor (digest : Bytes → Hash) (T : TrieLib) (hT : IsMpt digest T) (showCodec : DErr → String)
    (calls : List ExecCall) (hroot : ∀ c ∈ calls, c.env.rootOf = worldRoot T)
    (hmem : ∀ a ∈ (callAll (byteCall T showCodec) [] calls).1, ¬ ExecAns.outOfMemory a)
    (hlong : ¬ NodeTooLong digest (callAll (byteCall T showCodec) [] calls).2)
    (hclash : ¬ NodeClash digest (callAll (byteCall T showCodec) [] calls).2) :
    List.Forall₂ (fun t b => t = none ∨ b = t.map ExecAns.toB)
      (callAll typedCall (fun _ => none) calls).1 (callAll (byteCall T showCodec) [] calls).1 :=
  C85_bytes_refine T showCodec calls hroot hmem
    (not_collides hT (byteCalls_built T showCodec calls (fun m hm => by cases hm)) hclash hlong)

/-- C97: the store of tries that any calls on executors leave is a database of nodes: in it every root the executor can open
opens to one trie, with the same contents. -/
theorem C97_executor (digest : Bytes → Hash) (T : TrieLib) (hT : IsMpt digest T) (showCodec : DErr → String)
    (calls : List ExecCall) (hlong : ¬ NodeTooLong digest (callAll (byteCall T showCodec) [] calls).2)
    (hclash : ¬ NodeClash digest (callAll (byteCall T showCodec) [] calls).2) :
    ∃ db states blobs, TrieRun digest false db states blobs ∧
      (∀ r m, (r, m) ∈ states ↔ m ∈ (callAll (byteCall T showCodec) [] calls).2 ∧ r = T.root m) ∧
      ∀ r m, TrieStore.open T (callAll (byteCall T showCodec) [] calls).2 r = some m →
        ∃ t, db.Opens r t ∧ (∀ t', db.Opens r t' → t' = t) ∧ ∀ k, t.read k = m k := by
  generalize hs : (callAll (byteCall T showCodec) [] calls).2 = store at hlong hclash
  have hb : ∀ m ∈ store, Built m := by rw [← hs]; exact byteCalls_built T showCodec calls (fun m hm => by cases hm)
  obtain ⟨db, blobs, h1, h2⟩ := store_run hT store hb
  refine ⟨db, _, blobs, h1, fun r m => ?_, fun r m ho => ?_⟩
  · simp only [List.mem_map, Prod.mk.injEq]
    constructor
    · rintro ⟨m', hm, rfl, rfl⟩; exact ⟨hm, rfl⟩
    · rintro ⟨hm, rfl⟩; exact ⟨m, hm, rfl, rfl⟩
  · have hm := List.mem_of_find?_eq_some ho
    have hr := List.find?_some ho
    simp only [decide_eq_true_eq] at hr
    obtain ⟨t, h3, h4⟩ := C97_kept digest db _ blobs h1 (distinct_of_nodes hclash hlong h2) r m (List.mem_map.2 ⟨m, hm, by rw [hr]⟩)
    exact ⟨t, h3, fun t' h5 => TrieDb.opens_unique h5 h3, h4⟩

theorem finite_of_built {w : World} (g : GoodWorld w) (ha : Built (accountBytes w.accounts)) (hb : Built (assetBytes w.assets)) :
    w.Finite := by
  obtain ⟨⟨ks, h1⟩, -⟩ := ha.spec
  obtain ⟨⟨ks', h2⟩, -⟩ := hb.spec
  refine ⟨⟨ks.filterMap (fun b => (Address.dec b).toOption), fun a x e => ?_⟩, ⟨ks'.filterMap (fun b => (Hash.dec b).toOption), fun a x e => ?_⟩⟩
  · have r := (accountBytes_rep g.acc).at_key a
    rw [e] at r
    refine List.mem_filterMap.2 ⟨a.item.enc, h1 _ _ r, ?_⟩
    rw [address_rt a (smallItem_fits _ (by rw [Address.toBytes_len]; omega))]
    rfl
  · have r := (assetBytes_rep g.bank).at_key a
    rw [e] at r
    refine List.mem_filterMap.2 ⟨a.item.enc, h2 _ _ r, ?_⟩
    rw [hash_rt a (smallItem_fits _ (by rw [a.size]; omega))]
    rfl

/-- C96: every world that executors reach is one `C96_world` speaks about. -/
theorem C96_reachable (digest : Bytes → Hash) (T : TrieLib) (hT : IsMpt digest T) (showCodec : DErr → String)
    (calls : List ExecCall) (hroot : ∀ c ∈ calls, c.env.rootOf = worldRoot T)
    (hmem : ∀ a ∈ (callAll (byteCall T showCodec) [] calls).1, ¬ ExecAns.outOfMemory a)
    (hlong : ¬ NodeTooLong digest (callAll (byteCall T showCodec) [] calls).2)
    (hclash : ¬ NodeClash digest (callAll (byteCall T showCodec) [] calls).2) (r : MerkleRoot) (w : World)
    (h : (callAll typedCall (fun _ => none) calls).2 r = some w) : r = worldRoot T w ∧ GoodWorld w ∧ w.Finite := by
  have hb := byteCalls_built T showCodec calls (db := []) (fun m hm => by cases hm)
  have hm := (calls_sim showCodec calls hroot (Mirrors.start T) (not_collides hT hb hclash hlong) hmem).2
  obtain ⟨h1, h2, -, h4, h5⟩ := hm r w h
  exact ⟨h1, h2, finite_of_built h2 (hb _ h4) (hb _ h5)⟩

/-! ### Examples -/

/-- The nodes of tries that are given by writes. -/
theorem nodes_listed {digest : Bytes → Hash} {wss : List (List (Bytes × Bytes))} {b : Bytes}
    (h : NodeOf digest (wss.map (afterWrites nothing)) b) : b ∈ wss.flatMap (fun ws => (Mpt.new.writes ws).stored digest) := by
  obtain ⟨ws, h1, h2⟩ := h
  obtain ⟨ws', h3, h4⟩ := List.mem_map.1 h1
  have : Mpt.new.writes ws = Mpt.new.writes ws' := by
    refine (Mpt.sound_new.writes ws).ext (Mpt.sound_new.writes ws') (funext fun k => ?_)
    rw [(C96_map .new ws k).1, (C96_map .new ws' k).1, h4]
  rw [this] at h2
  exact List.mem_flatMap.2 ⟨ws', h3, h2⟩

namespace Demo

/-- A world with one account, at a nonce. -/
def oneWorld (n : UInt64) : World := ⟨fun a => if a = naddr 1 then some (.user ⟨n, []⟩) else none, fun _ => none⟩

/-- Its three tries as writes. -/
def oneAccount (n : UInt64) : List (Bytes × Bytes) := [((naddr 1).item.enc, (Account.user ⟨n, []⟩).item.enc)]
@[inherit_doc oneAccount] def oneTop (n : UInt64) : List (Bytes × Bytes) :=
  [(accountContract.toBytes, ((Mpt.new.writes (oneAccount n)).root mix).bytes), (bankContract.toBytes, (mix [0x80]).bytes)]

theorem oneWorld_acc (n : UInt64) : accountBytes (oneWorld n).accounts = afterWrites nothing (oneAccount n) := by
  funext b
  simp only [accountBytes, oneWorld, oneAccount, afterWrites, List.foldl, setOrErase, nothing, enc_ne_nil, if_false]
  have rt : Address.dec (naddr 1).item.enc = .ok (naddr 1) := address_rt _ (smallItem_fits _ (by rw [Address.toBytes_len]; omega))
  by_cases h : b = (naddr 1).item.enc
  · subst h; rw [rt]; simp
  · rw [if_neg h]
    cases e : Address.dec b with
    | error => rfl
    | ok a =>
      simp only
      split
      · rename_i ha
        split
        · rename_i hn; rw [hn] at ha; exact absurd ha.symm h
        · rfl
      · rfl

theorem oneWorld_bank (n : UInt64) : assetBytes (oneWorld n).assets = afterWrites nothing [] := by
  funext b
  simp only [assetBytes, oneWorld, afterWrites, List.foldl, nothing]
  split
  · split <;> rfl
  · rfl

theorem oneWorld_tries {T : TrieLib} (hT : IsMpt mix T) (n : UInt64) :
    worldTries T (oneWorld n) = [oneTop n, oneAccount n, []].map (afterWrites nothing) := by
  have e1 : T.root (accountBytes (oneWorld n).accounts) = (Mpt.new.writes (oneAccount n)).root mix := by
    rw [oneWorld_acc]; exact hT _
  have e2 : T.root (assetBytes (oneWorld n).assets) = mix [0x80] := by
    rw [oneWorld_bank]; exact hT []
  have e3 : worldTop T (oneWorld n) = afterWrites nothing (oneTop n) := ?_
  · simp only [worldTries, List.map_cons, List.map_nil, e3, oneWorld_acc, oneWorld_bank]
  simp only [worldTop, e1, e2]
  funext k
  simp only [oneTop, afterWrites, List.foldl, setOrErase, nothing, PMap.set, PMap.empty, hash_bytes_ne, if_false]

theorem oneWorld_good (n : UInt64) (h : ((Account.user ⟨n, []⟩).item.enc).length < 2 ^ 64) : GoodWorld (oneWorld n) ∧ (oneWorld n).Finite := by
  refine ⟨⟨fun k v e => ?_, fun k v e => by cases e⟩, ⟨[naddr 1], fun a x e => ?_⟩, ⟨[], fun a x e => by cases e⟩⟩
  · simp only [oneWorld] at e
    split at e
    · cases e
      refine ⟨?_, h⟩
      simp [Account.Ordered, BMap.Ordered]
    · cases e
  · simp only [oneWorld] at e
    split at e
    · rename_i h; rw [h]; exact .head _
    · cases e

/-- The hypotheses of `C96_world` are met by two worlds that differ in a nonce, and nothing clashes: their roots differ. -/
example {T : TrieLib} (hT : IsMpt mix T) : worldRoot T (oneWorld 5) ≠ worldRoot T (oneWorld 6) := by
  intro h
  have g := oneWorld_good 5 (by decide +kernel)
  have g' := oneWorld_good 6 (by decide +kernel)
  have nodes : ∀ b, NodeOf mix (worldTries T (oneWorld 5) ++ worldTries T (oneWorld 6)) b →
      b ∈ [oneTop 5, oneAccount 5, [], oneTop 6, oneAccount 6, []].flatMap (fun ws => (Mpt.new.writes ws).stored mix) := by
    intro b hb
    rw [oneWorld_tries hT, oneWorld_tries hT, ← List.map_append] at hb
    exact nodes_listed hb
  rcases C96_world mix T hT _ _ g.1 g'.1 g.2 g'.2 h with h | ⟨a, b, ha, hb, hne, he⟩ | ⟨b, hb, hl⟩
  · have := congrArg (fun w => w.accounts (naddr 1)) h
    simp only [oneWorld, if_true] at this
    exact absurd this (by decide)
  · have : ∀ a ∈ [oneTop 5, oneAccount 5, [], oneTop 6, oneAccount 6, []].flatMap (fun ws => (Mpt.new.writes ws).stored mix),
        ∀ b ∈ [oneTop 5, oneAccount 5, [], oneTop 6, oneAccount 6, []].flatMap (fun ws => (Mpt.new.writes ws).stored mix),
        mix a = mix b → a = b := by decide +kernel
    exact hne (this a (nodes a ha) b (nodes b hb) he)
  · have : ∀ b ∈ [oneTop 5, oneAccount 5, [], oneTop 6, oneAccount 6, []].flatMap (fun ws => (Mpt.new.writes ws).stored mix),
        b.length < 2 ^ 64 := by decide +kernel
    exact absurd (this b (nodes b hb)) (Nat.not_lt.2 hl)

end Demo
end Huobi
