import Verif.Proof.ByteExecutor
import Verif.Spec.Run
import Verif.Spec.DemoNode
/-
C85: the state kept on disk as bytes is the state the executor computes with.
-/
namespace Huobi

/-! ### Specification: the bytes of a world -/

/-- The contents of the account contract's trie for given accounts. -/
def accountBytes (m : PMap Address Account) : ByteMap := fun b =>
  match Address.dec b with
  | .ok a => if a.item.enc = b then (m a).map (fun x => x.item.enc) else none
  | .error _ => none

/-- The contents of the bank contract's trie for given assets. -/
def assetBytes (m : PMap AssetID Asset) : ByteMap := fun b =>
  match Hash.dec b with
  | .ok a => if a.item.enc = b then (m a).map (fun x => x.item.enc) else none
  | .error _ => none

/-- The top trie of a world: the roots of the two contracts' tries under the contracts' addresses. -/
def worldTop (T : TrieLib) (w : World) : ByteMap :=
  PMap.set (PMap.set PMap.empty accountContract.toBytes (T.root (accountBytes w.accounts)).bytes)
    bankContract.toBytes (T.root (assetBytes w.assets)).bytes

/-- The state root of a world. -/
def worldRoot (T : TrieLib) (w : World) : MerkleRoot := T.root (worldTop T w)

/-- Two different tries with the same root were committed. -/
def Collides (T : TrieLib) (db : TrieStore) : Prop := ∃ m ∈ db, ∃ m' ∈ db, m ≠ m' ∧ T.root m = T.root m'

/-- Calls on executors over one database.  `accFirst` is the order in which the `HashMap` of contracts is iterated. -/
inductive ExecCall where
  | genesis (env : Env) (accFirst : Bool) (g : Genesis)
  | block (env : Env) (accFirst : Bool) (root : MerkleRoot) (txs : List SignedTx)
  | balance (env : Env) (root : MerkleRoot) (a : Address) (id : AssetID)

/-- The parameters of the executor a call creates. -/
def ExecCall.env : ExecCall → Env
  | .genesis env _ _ => env
  | .block env _ _ _ => env
  | .balance env _ _ _ => env

/-- What a call answers. -/
inductive ExecAns (F : Type) where
  | genesis (r : Except F MerkleRoot)
  | block (r : Except F ExecResp)
  | balance (r : Except F Nat)

/-- A call on the typed model (`none` = the root cannot be opened). -/
def typedCall (db : StateDB) : ExecCall → Option (ExecAns Fault) × StateDB
  | .genesis env _ g => ((runGenesis env db g).1.map .genesis, (runGenesis env db g).2)
  | .block env _ root txs => ((runBlock env db root txs).1.map .block, (runBlock env db root txs).2)
  | .balance env root a id => ((fromRoot env db root).map (fun s => .balance (getBalance id a s)), db)

/-- A call on the byte-level model (`none` = the root cannot be opened). -/
def byteCall (T : TrieLib) (showCodec : DErr → String) (db : TrieStore) :
    ExecCall → Option (ExecAns BFault) × TrieStore
  | .genesis env o g => ((bRunGenesis T env o db g).1.map .genesis, (bRunGenesis T env o db g).2)
  | .block env o root txs =>
    ((bRunBlock T env showCodec o db root txs).1.map .block, (bRunBlock T env showCodec o db root txs).2)
  | .balance env root a id => ((bQueryBalance T env db root a id).map .balance, db)

/-- The same answer at the byte level: same value, same contract error, same panic. -/
def ExecAns.toB : ExecAns Fault → ExecAns BFault
  | .genesis r => .genesis (liftE r)
  | .block r => .block (liftE r)
  | .balance r => .balance (liftE r)

/-- The call ran out of memory: it needed a buffer of at least 2^64 bytes. -/
def ExecAns.outOfMemory : Option (ExecAns BFault) → Prop
  | some (.genesis (.error .memory)) => True
  | some (.block (.error .memory)) => True
  | some (.balance (.error .memory)) => True
  | _ => False

/-! ### Proofs -/

theorem accountBytes_rep {m : PMap Address Account} (hg : ∀ k v, m k = some v → GoodAccount v) :
    RepM accountSchema GoodAccount m (accountBytes m) := by
  have f : ∀ x : Address, Fits x.item := fun x => smallItem_fits _ (by rw [Address.toBytes_len]; omega)
  refine ⟨?_, ?_, hg⟩
  · intro k
    show accountBytes m k.item.enc = _
    simp only [accountBytes, address_rt k (f k), if_true]
    rfl
  · intro b v h
    simp only [accountBytes] at h
    split at h
    · split at h
      · rename_i a _ e; exact ⟨a, e.symm⟩
      · simp at h
    · simp at h

theorem assetBytes_rep {m : PMap AssetID Asset} (hg : ∀ k v, m k = some v → GoodAsset v) :
    RepM assetSchema GoodAsset m (assetBytes m) := by
  have f : ∀ x : Hash, Fits x.item := fun x => smallItem_fits _ (by rw [x.size]; omega)
  refine ⟨?_, ?_, hg⟩
  · intro k
    show assetBytes m k.item.enc = _
    simp only [assetBytes, hash_rt k (f k), if_true]
    rfl
  · intro b v h
    simp only [assetBytes] at h
    split at h
    · split at h
      · rename_i a _ e; exact ⟨a, e.symm⟩
      · simp at h
    · simp at h

/-- A world that can be stored. -/
structure GoodWorld (w : World) : Prop where
  acc : ∀ k v, w.accounts k = some v → GoodAccount v
  bank : ∀ k v, w.assets k = some v → GoodAsset v

/-- Every world the typed database knows is in the byte database. -/
def Mirrors (T : TrieLib) (db : StateDB) (bdb : TrieStore) : Prop :=
  ∀ root w, db root = some w → root = worldRoot T w ∧ GoodWorld w ∧ worldTop T w ∈ bdb ∧
    accountBytes w.accounts ∈ bdb ∧ assetBytes w.assets ∈ bdb

theorem Mirrors.mono {T : TrieLib} {db : StateDB} {b b' : TrieStore} (h : Mirrors T db b) (hs : ∀ m ∈ b, m ∈ b') :
    Mirrors T db b' := by
  intro root w e
  obtain ⟨h1, h2, h3, h4, h5⟩ := h root w e
  exact ⟨h1, h2, hs _ h3, hs _ h4, hs _ h5⟩

theorem open_of_mem {T : TrieLib} {db : TrieStore} (hc : ¬ Collides T db) {m : ByteMap} (hm : m ∈ db) :
    db.open T (T.root m) = some m := by
  unfold TrieStore.open
  cases e : db.find? (fun x => T.root x = T.root m) with
  | none =>
    have := List.find?_eq_none.1 e m hm
    simp at this
  | some x =>
    have h1 := List.mem_of_find?_eq_some e
    have h2 := List.find?_some e
    simp only [decide_eq_true_eq] at h2
    refine congrArg some (Classical.byContradiction fun hne => hc ⟨x, h1, m, hm, hne, h2⟩)

theorem contracts_ne : accountContract.toBytes ≠ bankContract.toBytes := by decide

theorem hash_fromBytes (h : Hash) : Hash.fromBytes h.bytes = some h := Hash.fromBytes_bytes h

/-- The top trie an executor works on. -/
def TopOf (T : TrieLib) (top : ByteMap) : Prop := top = PMap.empty ∨ ∃ w, top = worldTop T w

theorem set_worldTop {T : TrieLib} {top : ByteMap} (h : TopOf T top) (w : World) :
    PMap.set (PMap.set top accountContract.toBytes (T.root (accountBytes w.accounts)).bytes)
      bankContract.toBytes (T.root (assetBytes w.assets)).bytes = worldTop T w := by
  rcases h with h | ⟨w', h⟩
  · rw [h]; rfl
  · rw [h]
    funext k
    simp only [worldTop, PMap.set]
    split
    · rfl
    · split <;> rfl

theorem set_comm {m : ByteMap} {a b : Bytes} (h : a ≠ b) (x y : Bytes) :
    PMap.set (PMap.set m a x) b y = PMap.set (PMap.set m b y) a x := by
  funext k
  simp only [PMap.set]
  by_cases h1 : k = a
  · subst h1
    rw [if_neg h, if_pos rfl]
    simp
  · rw [if_neg h1]
    by_cases h2 : k = b
    · rw [if_pos h2, if_neg h1]
    · rw [if_neg h2, if_neg h1]

theorem SimR.committed_good {s : St} {b : BSt} (h : SimR s b) : GoodWorld s.commit.committed :=
  ⟨(h.acc.commit account_lawful).trie.good, (h.bank.commit asset_lawful).trie.good⟩

theorem commit_sim {T : TrieLib} {s : St} {b : BSt} (h : SimR s b) (ht : TopOf T b.top) (o : Bool) (db : TrieStore) :
    (b.commit T o db).1 = worldRoot T s.commit.committed ∧
    (∀ m ∈ db, m ∈ (b.commit T o db).2.2) ∧ worldTop T s.commit.committed ∈ (b.commit T o db).2.2 ∧
    accountBytes s.commit.committed.accounts ∈ (b.commit T o db).2.2 ∧
    assetBytes s.commit.committed.assets ∈ (b.commit T o db).2.2 := by
  have ha := h.acc.commit account_lawful
  have hb := h.bank.commit asset_lawful
  have g := h.committed_good
  have e1 : b.acc.commitTrie.trie = accountBytes s.commit.committed.accounts := ha.trie.unique (accountBytes_rep g.acc)
  have e2 : b.bank.commitTrie.trie = assetBytes s.commit.committed.assets := hb.trie.unique (assetBytes_rep g.bank)
  have et := set_worldTop ht s.commit.committed
  have et' := et
  rw [set_comm contracts_ne] at et'
  cases o with
  | true =>
    simp only [BSt.commit, e1, e2, if_true]
    rw [et]
    exact ⟨rfl, fun m hm => by simp [hm], by simp, by simp, by simp⟩
  | false =>
    simp only [BSt.commit, e1, e2, Bool.false_eq_true, if_false]
    rw [et']
    exact ⟨rfl, fun m hm => by simp [hm], by simp, by simp, by simp⟩

theorem openContract_empty (T : TrieLib) (db : TrieStore) (a : Address) :
    openContract T db PMap.empty a = some (Layers.ofTrie PMap.empty) := rfl

/-- What is opened at a root both levels know. -/
theorem fromRoot_sim {T : TrieLib} {env : Env} {db : StateDB} {bdb : TrieStore} (hm : Mirrors T db bdb)
    (hc : ¬ Collides T bdb) {root : MerkleRoot} {s : St} (h : fromRoot env db root = some s) :
    ∃ b, bFromRoot T env bdb root = some b ∧ SimR s b ∧ TopOf T b.top := by
  unfold fromRoot at h
  unfold bFromRoot
  by_cases e : root = env.emptyHash
  · rw [if_pos e] at h ⊢
    injection h with h
    subst h
    exact ⟨_, rfl, ⟨Rep.ofTrie RepM.empty, Rep.ofTrie RepM.empty, rfl⟩, Or.inl rfl⟩
  · rw [if_neg e] at h ⊢
    cases hw : db root with
    | none => rw [hw] at h; simp at h
    | some w =>
      rw [hw] at h
      simp only [Option.map_some, Option.some.injEq] at h
      subst h
      obtain ⟨h1, h2, h3, h4, h5⟩ := hm root w hw
      rw [h1, show worldRoot T w = T.root (worldTop T w) from rfl, open_of_mem hc h3]
      have ea : worldTop T w accountContract.toBytes = some (T.root (accountBytes w.accounts)).bytes := by
        simp only [worldTop, PMap.set]
        rw [if_neg contracts_ne]
        simp
      have eb : worldTop T w bankContract.toBytes = some (T.root (assetBytes w.assets)).bytes := by
        simp only [worldTop, PMap.set]
        simp
      simp only [openContract, ea, eb, hash_fromBytes, open_of_mem hc h4, open_of_mem hc h5, Option.map_some]
      exact ⟨_, rfl, ⟨Rep.ofTrie (accountBytes_rep h2.acc), Rep.ofTrie (assetBytes_rep h2.bank), rfl⟩, Or.inr ⟨w, rfl⟩⟩

theorem commit_grows (T : TrieLib) (b : BSt) (o : Bool) (db : TrieStore) : ∀ m ∈ db, m ∈ (b.commit T o db).2.2 := by
  intro m hm
  cases o <;> simp [BSt.commit, hm]

theorem bExec_grows (T : TrieLib) (env : Env) (sc : DErr → String) (o : Bool) (txs : List SignedTx) (s : BSt)
    (db : TrieStore) : ∀ m ∈ db, m ∈ (bExec T env sc o txs s db).2 := by
  intro m hm
  unfold bExec
  rcases bExecLoop env sc txs s with ⟨r, s1⟩
  cases r with
  | error f => exact hm
  | ok rs =>
    simp only
    rcases bRewardCoinbase env (allCyclesUsed rs) s1 with ⟨r, s2⟩
    cases r with
    | error f => exact hm
    | ok _ => exact commit_grows T s2 o db m hm

theorem bCreateGenesis_grows (T : TrieLib) (env : Env) (o : Bool) (g : Genesis) (s : BSt)
    (db : TrieStore) : ∀ m ∈ db, m ∈ (bCreateGenesis T env o g s db).2 := by
  intro m hm
  unfold bCreateGenesis
  cases hexDecode g.systemToken.code.toList with
  | none => exact hm
  | some code =>
    simp only
    rcases bBankRegister env (ContractAddress.fromCode env.digest code 0 .asset) g.systemToken.name
      g.systemToken.symbol g.systemToken.supply.toNat 999999999999 { s with used := 0 } with ⟨r, s1⟩
    cases r with
    | error f => exact hm
    | ok x =>
      simp only
      rcases bGenesisAllocs env g.stateAlloc s1 with ⟨r, s2⟩
      cases r with
      | error f => exact hm
      | ok _ => exact commit_grows T s2.stash o db m hm

theorem byteCall_grows (T : TrieLib) (sc : DErr → String) (db : TrieStore) (c : ExecCall) :
    ∀ m ∈ db, m ∈ (byteCall T sc db c).2 := by
  intro m hm
  cases c with
  | genesis env o g =>
    simp only [byteCall, bRunGenesis]
    cases bFromRoot T env db env.emptyHash with
    | none => exact hm
    | some s => exact bCreateGenesis_grows T env o g s db m hm
  | block env o root txs =>
    simp only [byteCall, bRunBlock]
    cases bFromRoot T env db root with
    | none => exact hm
    | some s => exact bExec_grows T env sc o txs s db m hm
  | balance env root a id => exact hm

theorem exec_sim {T : TrieLib} {env : Env} (he : env.rootOf = worldRoot T) (sc : DErr → String) (o : Bool)
    (txs : List SignedTx) {s : St} {b : BSt} (h : SimR s b) (ht : TopOf T b.top) (db : TrieStore) :
    (bExec T env sc o txs b db).1 = .error .memory ∨
    ((bExec T env sc o txs b db).1 = liftE (exec env txs s).1 ∧
      ∀ resp, (exec env txs s).1 = .ok resp → ∃ w, (exec env txs s).2.committed = w ∧ GoodWorld w ∧
        worldTop T w ∈ (bExec T env sc o txs b db).2 ∧ accountBytes w.accounts ∈ (bExec T env sc o txs b db).2 ∧
        assetBytes w.assets ∈ (bExec T env sc o txs b db).2) := by
  unfold bExec exec
  have hl := execLoop_sim env sc txs h
  rcases hb : bExecLoop env sc txs b with ⟨r, b1⟩
  rcases hs : execLoop env txs s with ⟨q, s1⟩
  rw [hb, hs] at hl
  rcases hl with hl | ⟨h1, h2, h3⟩
  · simp only at hl; subst hl; exact Or.inl rfl
  · simp only at h1 h2 h3
    subst h1
    cases q with
    | error f => exact Or.inr ⟨rfl, fun _ hc => by simp at hc⟩
    | ok rs =>
      simp only [liftE]
      have hr := rewardCoinbase_sim env (allCyclesUsed rs) h2
      rcases hb2 : bRewardCoinbase env (allCyclesUsed rs) b1 with ⟨r, b2⟩
      rw [hb2] at hr
      rcases hr with hr | ⟨h4, h5, h6⟩
      · simp only at hr; subst hr; exact Or.inl rfl
      · simp only at h4 h5 h6
        subst h4
        simp only [liftE]
        have ht2 : TopOf T b2.top := by rw [h6, h3]; exact ht
        obtain ⟨c1, _, c3, c4, c5⟩ := commit_sim h5 ht2 o db
        rw [c1, he]
        exact Or.inr ⟨rfl, fun resp _ => ⟨_, rfl, h5.committed_good, c3, c4, c5⟩⟩

theorem createGenesis_sim {T : TrieLib} {env : Env} (he : env.rootOf = worldRoot T) (o : Bool)
    (g : Genesis) {s : St} {b : BSt} (h : SimR s b) (ht : TopOf T b.top) (db : TrieStore) :
    (bCreateGenesis T env o g b db).1 = .error .memory ∨
    ((bCreateGenesis T env o g b db).1 = liftE (createGenesis env g s).1 ∧
      ∀ resp, (createGenesis env g s).1 = .ok resp → ∃ w, (createGenesis env g s).2.committed = w ∧ GoodWorld w ∧
        worldTop T w ∈ (bCreateGenesis T env o g b db).2 ∧ accountBytes w.accounts ∈ (bCreateGenesis T env o g b db).2 ∧
        assetBytes w.assets ∈ (bCreateGenesis T env o g b db).2) := by
  unfold bCreateGenesis createGenesis
  have h0 : SimR { s with used := 0 } { b with used := 0 } := ⟨h.acc, h.bank, rfl⟩
  cases hexDecode g.systemToken.code.toList with
  | none => exact Or.inr ⟨rfl, fun _ hc => by simp at hc⟩
  | some code =>
    simp only
    have hl := bankRegister_sim env h0 (ContractAddress.fromCode env.digest code 0 .asset) g.systemToken.name
      g.systemToken.symbol g.systemToken.supply.toNat 999999999999
    rcases hb : bBankRegister env (ContractAddress.fromCode env.digest code 0 .asset) g.systemToken.name
      g.systemToken.symbol g.systemToken.supply.toNat 999999999999 { b with used := 0 } with ⟨r, b1⟩
    rcases hs : bankRegister env (ContractAddress.fromCode env.digest code 0 .asset) g.systemToken.name
      g.systemToken.symbol g.systemToken.supply.toNat 999999999999 { s with used := 0 } with ⟨q, s1⟩
    rw [hb, hs] at hl
    rcases hl with hl | ⟨h1, h2, h3⟩
    · simp only at hl; subst hl; exact Or.inl rfl
    · simp only at h1 h2 h3
      subst h1
      cases q with
      | error f => exact Or.inr ⟨rfl, fun _ hc => by simp at hc⟩
      | ok rs =>
        simp only [liftE]
        have hr := genesisAllocs_sim env g.stateAlloc h2
        rcases hb2 : bGenesisAllocs env g.stateAlloc b1 with ⟨r, b2⟩
        rcases hs2 : genesisAllocs env g.stateAlloc s1 with ⟨q, s2⟩
        rw [hb2, hs2] at hr
        rcases hr with hr | ⟨h4, h5, h6⟩
        · simp only at hr; subst hr; exact Or.inl rfl
        · simp only at h4 h5 h6
          subst h4
          cases q with
          | error f => exact Or.inr ⟨rfl, fun _ hc => by simp at hc⟩
          | ok _ =>
            simp only [liftE]
            have ht2 : TopOf T b2.stash.top := by
              show TopOf T b2.top
              rw [h6, h3]; exact ht
            obtain ⟨c1, _, c3, c4, c5⟩ := commit_sim h5.stash ht2 o db
            rw [c1, he]
            exact Or.inr ⟨rfl, fun resp _ => ⟨_, rfl, h5.stash.committed_good, c3, c4, c5⟩⟩

/-- The answer of the byte level to a call the typed level answers. -/
theorem call_sim {T : TrieLib} {db : StateDB} {bdb : TrieStore} (hm : Mirrors T db bdb) (hc : ¬ Collides T bdb)
    (sc : DErr → String) (c : ExecCall) (he : c.env.rootOf = worldRoot T) :
    ExecAns.outOfMemory (byteCall T sc bdb c).1 ∨
    (((typedCall db c).1 = none ∨ (byteCall T sc bdb c).1 = (typedCall db c).1.map ExecAns.toB) ∧
      Mirrors T (typedCall db c).2 (byteCall T sc bdb c).2) := by
  have grow := byteCall_grows T sc bdb c
  cases c with
  | balance env root a id =>
    simp only [typedCall, byteCall, bQueryBalance]
    cases e : fromRoot env db root with
    | none => exact Or.inr ⟨Or.inl rfl, hm⟩
    | some s =>
      obtain ⟨b, e1, r, _⟩ := fromRoot_sim hm hc e
      rw [e1]
      simp only [Option.map_some, getBalance_sim r]
      exact Or.inr ⟨Or.inr rfl, hm⟩
  | block env o root txs =>
    have he : env.rootOf = worldRoot T := he
    simp only [typedCall, byteCall, runBlock, bRunBlock] at grow ⊢
    cases e : fromRoot env db root with
    | none => exact Or.inr ⟨Or.inl rfl, hm.mono grow⟩
    | some s =>
      obtain ⟨b, e1, r, ht⟩ := fromRoot_sim hm hc e
      rw [e1] at grow ⊢
      simp only at grow ⊢
      rcases exec_sim he sc o txs r ht bdb with h1 | ⟨h1, h2⟩
      · left
        rw [h1]
        trivial
      · right
        rcases hs : exec env txs s with ⟨q, s'⟩
        rw [hs] at h1 h2
        simp only at h1 h2
        cases q with
        | error f => exact ⟨Or.inr (by simp only [Option.map_some]; rw [h1]; rfl), hm.mono grow⟩
        | ok resp =>
          refine ⟨Or.inr (by simp only [Option.map_some]; rw [h1]; rfl), ?_⟩
          obtain ⟨w, hw, g, m1, m2, m3⟩ := h2 resp rfl
          intro root' w' hq
          simp only [StateDB.put, PMap.set, he] at hq
          split at hq
          · rename_i er
            injection hq with hq
            subst hq
            rw [hw] at er ⊢
            exact ⟨er, g, m1, m2, m3⟩
          · exact hm.mono grow root' w' hq
  | genesis env o g =>
    have he : env.rootOf = worldRoot T := he
    simp only [typedCall, byteCall, runGenesis, bRunGenesis] at grow ⊢
    cases e : fromRoot env db env.emptyHash with
    | none => exact Or.inr ⟨Or.inl rfl, hm.mono grow⟩
    | some s =>
      obtain ⟨b, e1, r, ht⟩ := fromRoot_sim hm hc e
      rw [e1] at grow ⊢
      simp only at grow ⊢
      rcases createGenesis_sim he o g r ht bdb with h1 | ⟨h1, h2⟩
      · left
        rw [h1]
        trivial
      · right
        rcases hs : createGenesis env g s with ⟨q, s'⟩
        rw [hs] at h1 h2
        simp only at h1 h2
        cases q with
        | error f => exact ⟨Or.inr (by simp only [Option.map_some]; rw [h1]; rfl), hm.mono grow⟩
        | ok resp =>
          refine ⟨Or.inr (by simp only [Option.map_some]; rw [h1]; rfl), ?_⟩
          obtain ⟨w, hw, g, m1, m2, m3⟩ := h2 resp rfl
          intro root' w' hq
          simp only [StateDB.put, PMap.set, he] at hq
          split at hq
          · rename_i er
            injection hq with hq
            subst hq
            rw [hw] at er ⊢
            exact ⟨er, g, m1, m2, m3⟩
          · exact hm.mono grow root' w' hq

theorem byteCalls_grow (T : TrieLib) (sc : DErr → String) (calls : List ExecCall) (db : TrieStore) :
    ∀ m ∈ db, m ∈ (callAll (byteCall T sc) db calls).2 := by
  induction calls generalizing db with
  | nil => exact fun m hm => hm
  | cons c cs ih => exact fun m hm => ih _ m (byteCall_grows T sc db c m hm)

theorem Collides.mono {T : TrieLib} {a b : TrieStore} (h : Collides T a) (hs : ∀ m ∈ a, m ∈ b) : Collides T b := by
  obtain ⟨m, hm, m', hm', h⟩ := h
  exact ⟨m, hs _ hm, m', hs _ hm', h⟩

theorem calls_sim {T : TrieLib} (sc : DErr → String) (calls : List ExecCall)
    (he : ∀ c ∈ calls, c.env.rootOf = worldRoot T) {db : StateDB} {bdb : TrieStore} (hm : Mirrors T db bdb)
    (hc : ¬ Collides T (callAll (byteCall T sc) bdb calls).2)
    (hmem : ∀ a ∈ (callAll (byteCall T sc) bdb calls).1, ¬ ExecAns.outOfMemory a) :
    List.Forall₂ (fun t b => t = none ∨ b = t.map ExecAns.toB)
      (callAll typedCall db calls).1 (callAll (byteCall T sc) bdb calls).1 ∧
    Mirrors T (callAll typedCall db calls).2 (callAll (byteCall T sc) bdb calls).2 := by
  induction calls generalizing db bdb with
  | nil => exact ⟨.nil, hm⟩
  | cons c cs ih =>
    have hc0 : ¬ Collides T bdb := fun h => hc (h.mono (byteCalls_grow T sc (c :: cs) bdb))
    rcases call_sim hm hc0 sc c (he c (by simp)) with h | ⟨h1, h2⟩
    · exact absurd h (hmem _ (by simp [callAll]))
    · obtain ⟨i1, i2⟩ := ih (fun c hc => he c (by simp [hc])) h2 hc (fun a ha => hmem a (by simp [callAll, ha]))
      exact ⟨.cons h1 i1, i2⟩

theorem Mirrors.start (T : TrieLib) : Mirrors T (fun _ => none) [] := fun _ _ h => by simp at h

/-- **C85.**  Take any sequence of calls - creating genesis, executing blocks on any roots, balance queries at any
roots - on executors over one database that starts empty.  Unless a buffer of 2^64 bytes is needed or two different
tries with the same root are committed, every answer is the one the executor with typed accounts and assets gives, for
every call whose root names a state: nothing is lost or altered by encoding accounts and assets to bytes, by the three
layers of byte maps, by the two contract tries under the top trie or by the order in which contracts are committed, and
no codec error ever occurs. -/
theorem C85_bytes_refine (T : TrieLib) (showCodec : DErr → String) (calls : List ExecCall)
    (hroot : ∀ c ∈ calls, c.env.rootOf = worldRoot T)
    (hmem : ∀ a ∈ (callAll (byteCall T showCodec) [] calls).1, ¬ ExecAns.outOfMemory a)
    (hcol : ¬ Collides T (callAll (byteCall T showCodec) [] calls).2) :
    List.Forall₂ (fun t b => t = none ∨ b = t.map ExecAns.toB)
      (callAll typedCall (fun _ => none) calls).1 (callAll (byteCall T showCodec) [] calls).1 :=
  (calls_sim showCodec calls hroot (Mirrors.start T) hcol hmem).1

theorem callAll_append {S O R : Type} (step : S → O → R × S) (s : S) (xs ys : List O) :
    (callAll step s (xs ++ ys)).2 = (callAll step (callAll step s xs).2 ys).2 := by
  induction xs generalizing s with
  | nil => rfl
  | cons x xs ih => simp only [List.cons_append, callAll]; exact ih _

theorem callAll_append_fst {S O R : Type} (step : S → O → R × S) (s : S) (xs ys : List O) :
    (callAll step s (xs ++ ys)).1 = (callAll step s xs).1 ++ (callAll step (callAll step s xs).2 ys).1 := by
  induction xs generalizing s with
  | nil => rfl
  | cons x xs ih => simp only [List.cons_append, callAll]; rw [ih]

/-- Two worlds stored under one root are the same world. -/
theorem worldRoot_inj {T : TrieLib} {bdb : TrieStore} (hc : ¬ Collides T bdb) {w w' : World} (g : GoodWorld w)
    (g' : GoodWorld w') (h1 : worldTop T w ∈ bdb) (h2 : accountBytes w.accounts ∈ bdb) (h3 : assetBytes w.assets ∈ bdb)
    (h1' : worldTop T w' ∈ bdb) (h2' : accountBytes w'.accounts ∈ bdb) (h3' : assetBytes w'.assets ∈ bdb)
    (h : worldRoot T w = worldRoot T w') : w = w' := by
  have same : ∀ {m m' : ByteMap}, m ∈ bdb → m' ∈ bdb → T.root m = T.root m' → m = m' := by
    intro m m' hm hm' hr
    exact Classical.byContradiction fun hne => hc ⟨m, hm, m', hm', hne, hr⟩
  have ht := same h1 h1' h
  have ea : T.root (accountBytes w.accounts) = T.root (accountBytes w'.accounts) := by
    have := congrFun ht accountContract.toBytes
    simp only [worldTop, PMap.set] at this
    rw [if_neg contracts_ne, if_neg contracts_ne] at this
    simp only [if_true, Option.some.injEq] at this
    exact Hash.bytes_inj this
  have eb : T.root (assetBytes w.assets) = T.root (assetBytes w'.assets) := by
    have := congrFun ht bankContract.toBytes
    simp only [worldTop, PMap.set, if_true, Option.some.injEq] at this
    exact Hash.bytes_inj this
  have e1 := same h2 h2' ea
  have e2 := same h3 h3' eb
  have r1 := accountBytes_rep g'.acc
  rw [← e1] at r1
  have r2 := assetBytes_rep g'.bank
  rw [← e2] at r2
  have a1 := (accountBytes_rep g.acc).unique_left account_lawful r1
  have a2 := (assetBytes_rep g.bank).unique_left asset_lawful r2
  cases w; cases w'
  simp only at a1 a2
  rw [a1, a2]

/-- A root the typed database knows keeps its world. -/
theorem calls_keep {T : TrieLib} (sc : DErr → String) (calls : List ExecCall)
    (he : ∀ c ∈ calls, c.env.rootOf = worldRoot T) {db : StateDB} {bdb : TrieStore} (hm : Mirrors T db bdb)
    (hc : ¬ Collides T (callAll (byteCall T sc) bdb calls).2)
    (hmem : ∀ a ∈ (callAll (byteCall T sc) bdb calls).1, ¬ ExecAns.outOfMemory a) {root : MerkleRoot} {w : World}
    (h : db root = some w) : (callAll typedCall db calls).2 root = some w := by
  induction calls generalizing db bdb with
  | nil => exact h
  | cons c cs ih =>
    have hc0 : ¬ Collides T bdb := fun h => hc (h.mono (byteCalls_grow T sc (c :: cs) bdb))
    have hc1 : ¬ Collides T (byteCall T sc bdb c).2 := fun h => hc (h.mono (byteCalls_grow T sc cs _))
    have grow := byteCall_grows T sc bdb c
    rcases call_sim hm hc0 sc c (he c (by simp)) with hh | ⟨_, h2⟩
    · exact absurd hh (hmem _ (by simp [callAll]))
    · refine ih (fun c hc => he c (by simp [hc])) h2 hc (fun a ha => hmem a (by simp [callAll, ha])) ?_
      have known : ∃ w', (typedCall db c).2 root = some w' := by
        have put : ∀ (env : Env) (x : World), ∃ w', StateDB.put env db x root = some w' := by
          intro env x
          simp only [StateDB.put, PMap.set]
          split
          · exact ⟨_, rfl⟩
          · exact ⟨_, h⟩
        cases c with
        | balance env r a id => exact ⟨w, h⟩
        | block env o r txs =>
          simp only [typedCall, runBlock]
          cases fromRoot env db r with
          | none => exact ⟨w, h⟩
          | some s =>
            simp only
            rcases exec env txs s with ⟨q, s'⟩
            cases q with
            | error f => exact ⟨w, h⟩
            | ok resp => exact put env _
        | genesis env o g =>
          simp only [typedCall, runGenesis]
          cases fromRoot env db env.emptyHash with
          | none => exact ⟨w, h⟩
          | some s =>
            simp only
            rcases createGenesis env g s with ⟨q, s'⟩
            cases q with
            | error f => exact ⟨w, h⟩
            | ok resp => exact put env _
      obtain ⟨w', hw'⟩ := known
      obtain ⟨a1, a2, a3, a4, a5⟩ := hm root w h
      obtain ⟨b1, b2, b3, b4, b5⟩ := h2 root w' hw'
      have : w = w' := worldRoot_inj hc1 a2 b2 (grow _ a3) (grow _ a4) (grow _ a5) b3 b4 b5 (a1.symm.trans b1)
      rw [this]; exact hw'

/-- **C85.**  A state root that a call returned can be opened at any later time, whatever was executed since, and shows
every balance of the world it was returned for. -/
theorem C85_roots_reopen (T : TrieLib) (showCodec : DErr → String) (before after : List ExecCall) (env : Env)
    (accFirst : Bool) (root : MerkleRoot) (txs : List SignedTx) (s s' : St) (resp : ExecResp)
    (hroot : ∀ c ∈ before ++ .block env accFirst root txs :: after, c.env.rootOf = worldRoot T)
    (hmem : ∀ a ∈ (callAll (byteCall T showCodec) [] (before ++ .block env accFirst root txs :: after)).1,
      ¬ ExecAns.outOfMemory a)
    (hcol : ¬ Collides T (callAll (byteCall T showCodec) [] (before ++ .block env accFirst root txs :: after)).2)
    (hopen : fromRoot env (callAll typedCall (fun _ => none) before).2 root = some s)
    (hexec : exec env txs s = (.ok resp, s')) (q : Env) (hq : q.emptyHash ≠ resp.stateRoot) (a : Address) (id : AssetID) :
    bQueryBalance T q (callAll (byteCall T showCodec) [] (before ++ .block env accFirst root txs :: after)).2
      resp.stateRoot a id = some (liftE (getBalance id a (St.open s'.committed))) := by
  have hm0 := Mirrors.start T
  rw [callAll_append] at hcol ⊢
  rw [callAll_append_fst] at hmem
  have hcol' : ¬ Collides T (callAll (byteCall T showCodec) [] before).2 := fun h =>
    hcol (h.mono (byteCalls_grow T showCodec _ _))
  obtain ⟨_, m1⟩ := calls_sim showCodec before (fun c hc => hroot c (by simp [hc])) hm0 hcol'
    (fun x hx => hmem x (List.mem_append_left _ hx))
  generalize hdb : (callAll typedCall (fun _ => none) before).2 = db at m1 hopen
  generalize hbdb : (callAll (byteCall T showCodec) [] before).2 = bdb at m1 hcol hcol' hmem ⊢
  have he : env.rootOf = worldRoot T := hroot (.block env accFirst root txs) (by simp)
  have hmem2 : ∀ x ∈ (callAll (byteCall T showCodec) bdb (.block env accFirst root txs :: after)).1,
      ¬ ExecAns.outOfMemory x := fun x hx => hmem x (List.mem_append_right _ hx)
  rcases call_sim m1 hcol' showCodec (.block env accFirst root txs) he with hh | ⟨_, h2⟩
  · exact absurd hh (hmem2 _ (by simp [callAll]))
  have hk : (typedCall db (.block env accFirst root txs)).2 resp.stateRoot = some s'.committed := by
    have hr : resp.stateRoot = env.rootOf s'.committed := by
      unfold exec at hexec
      split at hexec
      · simp at hexec
      · injection hexec with e1 e2
        injection e1 with e1
        subst e1; subst e2; rfl
    simp only [typedCall, runBlock, hopen, hexec, StateDB.put, PMap.set]
    rw [if_pos hr]
  have hcol2 : ¬ Collides T (callAll (byteCall T showCodec) (byteCall T showCodec bdb (.block env accFirst root txs)).2
      after).2 := hcol
  have hmem3 : ∀ x ∈ (callAll (byteCall T showCodec) (byteCall T showCodec bdb (.block env accFirst root txs)).2
      after).1, ¬ ExecAns.outOfMemory x := fun x hx => hmem2 x (by simp [callAll, hx])
  have hafter : ∀ c ∈ after, c.env.rootOf = worldRoot T := fun c hc => hroot c (by simp [hc])
  have hend := calls_keep showCodec after hafter h2 hcol2 hmem3 hk
  have m3 := (calls_sim showCodec after hafter h2 hcol2 hmem3).2
  have ho : fromRoot q (callAll typedCall (typedCall db (.block env accFirst root txs)).2 after).2 resp.stateRoot =
      some (St.open s'.committed) := by
    unfold fromRoot
    rw [if_neg (fun h => hq h.symm), hend]; rfl
  obtain ⟨b, e1, r, _⟩ := fromRoot_sim m3 hcol2 ho
  show bQueryBalance T q (callAll (byteCall T showCodec) (byteCall T showCodec bdb (.block env accFirst root txs)).2
      after).2 resp.stateRoot a id = _
  unfold bQueryBalance
  rw [e1]
  simp only [Option.map_some, getBalance_sim r]

/-! ### The hypotheses are met -/

theorem not_collides_of_nodup {T : TrieLib} {db : TrieStore} (h : (db.map T.root).Nodup) : ¬ Collides T db := by
  rintro ⟨m, hm, m', hm', hne, hr⟩
  obtain ⟨i, hi, rfl⟩ := List.getElem_of_mem hm
  obtain ⟨j, hj, rfl⟩ := List.getElem_of_mem hm'
  apply hne
  have := (List.getElem_inj (xs := db.map T.root) (i := i) (j := j) (h₀ := by simpa using hi) (h₁ := by simpa using hj) h).1
    (by simpa using hr)
  subst this
  rfl

namespace Demo

/-- What user 1 deploys. -/
def bdeploy : SignedTx :=
  let raw : RawTx := { chainId := hash 9, nonce := hash 0, timeout := 10, fee := ⟨token, 10000⟩, action := .deploy [5] .asset }
  { raw := raw, txHash := mix (encode raw), pubkey := [1], signature := [] }

/-- The asset that deployment registers. -/
def bdeployed : AssetID := mix ((hash 9).bytes ++ (ContractAddress.fromCode mix [5] 0 .asset).toBytes)

/-- A root function for examples: it mixes the values at the keys used below. -/
def btrie : TrieLib :=
  ⟨fun m => mix (([accountContract.toBytes, bankContract.toBytes] ++ [naddr 1, naddr 2, naddr 3].map (fun a => a.item.enc) ++
      [token, bdeployed].map (fun h => h.item.enc)).flatMap
    (fun k => match m k with | none => [0] | some v => 1 :: v))⟩

/-- The executor parameters of the examples. -/
def benv : Env :=
  { digest := mix, rootOf := worldRoot btrie, showErr := fun _ => "error", chainId := hash 9, epochId := 1, cyclesPrice := 0,
    coinbase := naddr 99 }

/-- The root after genesis. -/
def broot0 : MerkleRoot :=
  match (byteCall btrie (fun _ => "codec") [] (.genesis benv true ngenesis)).1 with
  | some (.genesis (.ok r)) => r
  | _ => default

/-- Genesis, a block in which user 1 deploys an asset and pays 30 to user 3, and queries at the genesis root. -/
def bcalls : List ExecCall :=
  [.genesis benv true ngenesis, .block benv false broot0 [bdeploy, npay 1 3 30], .balance benv broot0 (naddr 1) token,
    .balance benv (hash 77) (naddr 1) token]

/-- The root after the block. -/
def broot1 : MerkleRoot :=
  match (byteCall btrie (fun _ => "codec") (byteCall btrie (fun _ => "codec") [] (.genesis benv true ngenesis)).2
      (.block benv false broot0 [bdeploy, npay 1 3 30])).1 with
  | some (.block (.ok r)) => r.stateRoot
  | _ => default

/-- Whether an answer is free of memory exhaustion. -/
def noMemory : Option (ExecAns BFault) → Bool
  | some (.genesis (.error .memory)) => false
  | some (.block (.error .memory)) => false
  | some (.balance (.error .memory)) => false
  | _ => true

theorem noMemory_spec {a : Option (ExecAns BFault)} (h : noMemory a = true) : ¬ ExecAns.outOfMemory a := by
  intro hc
  cases a with
  | none => exact hc
  | some a =>
    cases a with
    | genesis r => cases r with
      | ok x => exact hc
      | error f => cases f <;> first | exact hc | simp [noMemory] at h
    | block r => cases r with
      | ok x => exact hc
      | error f => cases f <;> first | exact hc | simp [noMemory] at h
    | balance r => cases r with
      | ok x => exact hc
      | error f => cases f <;> first | exact hc | simp [noMemory] at h

/-- What can be seen of an answer. -/
def seen : Option (ExecAns BFault) → Option (Option Nat)
  | none => none
  | some (.balance (.ok n)) => some (some n)
  | some (.genesis (.ok _)) => some none
  | some (.block (.ok r)) => if r.receipts.all (fun x => !x.result.isFail) then some none else none
  | _ => none

example : (∀ c ∈ bcalls, c.env.rootOf = worldRoot btrie) ∧
    (∀ a ∈ (callAll (byteCall btrie (fun _ => "codec")) [] bcalls).1, ¬ ExecAns.outOfMemory a) ∧
    ¬ Collides btrie (callAll (byteCall btrie (fun _ => "codec")) [] bcalls).2 ∧
    (callAll (byteCall btrie (fun _ => "codec")) [] bcalls).1.map seen = [some none, some none, some (some 100), none] ∧
    (bQueryBalance btrie benv (callAll (byteCall btrie (fun _ => "codec")) [] bcalls).2 broot1 (naddr 3) token).bind
      (·.toOption) = some 30 ∧ benv.emptyHash ≠ broot1 := by
  refine ⟨?_, ?_, ?_, ?_, ?_, ?_⟩
  · intro c hc
    simp only [bcalls, List.mem_cons, List.not_mem_nil, or_false] at hc
    rcases hc with rfl | rfl | rfl | rfl <;> rfl
  · intro a ha
    apply noMemory_spec
    have : (callAll (byteCall btrie (fun _ => "codec")) [] bcalls).1.all noMemory = true := by decide +kernel
    exact List.all_eq_true.1 this a ha
  · apply not_collides_of_nodup
    decide +kernel
  · decide +kernel
  · decide +kernel
  · decide +kernel

end Demo
end Huobi
