import Verif.Props.Mpt
/-
The byte-level executor only ever commits tries with finitely many keys: they can be built by writes.
-/
namespace Huobi

/-- Finitely many keys. -/
def Listed {V : Type} (m : PMap Bytes V) : Prop := ∃ ks : List Bytes, ∀ k v, m k = some v → k ∈ ks

/-- The contents of a trie that some writes make. -/
def Built (m : ByteMap) : Prop := ∃ ws, afterWrites nothing ws = m

theorem Listed.empty {V : Type} : Listed (PMap.empty : PMap Bytes V) := ⟨[], fun k v h => by simp [PMap.empty] at h⟩

theorem Listed.set {V : Type} {m : PMap Bytes V} (h : Listed m) (k : Bytes) (v : V) : Listed (m.set k v) := by
  obtain ⟨ks, h⟩ := h
  refine ⟨k :: ks, fun k' v' e => ?_⟩
  simp only [PMap.set] at e
  split at e
  · rename_i e1; rw [e1]; exact .head _
  · exact .tail _ (h _ _ e)

theorem Listed.over {V : Type} {m m' : PMap Bytes V} (h : Listed m) (h' : Listed m') : Listed (m.over m') := by
  obtain ⟨ks, h⟩ := h
  obtain ⟨ks', h'⟩ := h'
  refine ⟨ks ++ ks', fun k v e => ?_⟩
  simp only [PMap.over] at e
  split at e
  · rename_i v e1; exact List.mem_append_left _ (h _ _ e1)
  · exact List.mem_append_right _ (h' _ _ e)

theorem afterWrites_list (m : ByteMap) (hv : ∀ k v, m k = some v → v ≠ []) (ks : List Bytes) (m0 : ByteMap) (k : Bytes) :
    afterWrites m0 (ks.filterMap (fun k => (m k).map (fun v => (k, v)))) k =
      if k ∈ ks ∧ (m k).isSome = true then m k else m0 k := by
  induction ks generalizing m0 with
  | nil => simp [afterWrites]
  | cons x ks ih =>
    cases hx : m x with
    | none =>
      rw [List.filterMap_cons]
      simp only [hx, Option.map_none]
      rw [ih]
      by_cases e : k = x
      · subst e; simp [hx]
      · simp [e]
    | some v =>
      rw [List.filterMap_cons]
      simp only [hx, Option.map_some]
      show afterWrites (setOrErase m0 (x, v)) _ k = _
      rw [ih]
      by_cases e : k = x
      · subst e; simp [hx, setOrErase, hv k v hx]
      · simp [e, setOrErase]

theorem built_of_listed {m : ByteMap} (h : Listed m) (hv : ∀ k v, m k = some v → v ≠ []) : Built m := by
  obtain ⟨ks, h⟩ := h
  refine ⟨ks.filterMap (fun k => (m k).map (fun v => (k, v))), funext fun k => ?_⟩
  rw [afterWrites_list m hv]
  split
  · rfl
  · rename_i hn
    cases e : m k with
    | none => rfl
    | some v => exact absurd ⟨h k v e, by rw [e]; rfl⟩ hn

theorem Built.spec {m : ByteMap} (h : Built m) : Listed m ∧ ∀ k v, m k = some v → v ≠ [] := by
  obtain ⟨ws, rfl⟩ := h
  have : ∀ (ws : List (Bytes × Bytes)) (m : ByteMap), (Listed m ∧ ∀ k v, m k = some v → v ≠ []) →
      Listed (afterWrites m ws) ∧ ∀ k v, afterWrites m ws k = some v → v ≠ [] := by
    intro ws
    induction ws with
    | nil => intro m h; exact h
    | cons w ws ih =>
      intro m ⟨⟨ks, h1⟩, h2⟩
      refine ih (setOrErase m w) ⟨⟨w.1 :: ks, fun k v e => ?_⟩, fun k v e => ?_⟩
      · simp only [setOrErase] at e
        split at e
        · rename_i e1; rw [e1]; exact .head _
        · exact .tail _ (h1 _ _ e)
      · simp only [setOrErase] at e
        split at e
        · split at e
          · cases e
          · rename_i hn; cases e; exact hn
        · exact h2 _ _ e
  exact this ws nothing ⟨⟨[], fun k v h => by simp [nothing] at h⟩, fun k v h => by simp [nothing] at h⟩

theorem Built.empty : Built PMap.empty := ⟨[], rfl⟩

theorem Built.set {m : ByteMap} (h : Built m) (k : Bytes) {v : Bytes} (hv : v ≠ []) : Built (m.set k v) := by
  obtain ⟨ws, rfl⟩ := h
  refine ⟨ws ++ [(k, v)], funext fun k' => ?_⟩
  simp only [afterWrites, List.foldl_append, List.foldl_cons, List.foldl_nil, setOrErase, PMap.set, if_neg hv]

/-- An adapter with finitely many entries. -/
structure Adapter.Fine (l : Adapter) : Prop where
  trie : Built l.trie
  stash : Listed l.stash
  cache : Listed l.cache

theorem Adapter.Fine.ofTrie {m : ByteMap} (h : Built m) : Adapter.Fine (Layers.ofTrie m) := ⟨h, .empty, .empty⟩

theorem Adapter.Fine.write {K V : Type} {S : Schema K V} {l l' : Adapter} (h : l.Fine) {k : K} {v : V}
    (e : l.write S k v = .ok l') : l'.Fine := by
  unfold Adapter.write at e
  split at e
  · injection e with e; subst e; exact ⟨h.trie, h.stash, h.cache.set _ _⟩
  · cases e

theorem Adapter.Fine.stashCache {l : Adapter} (h : l.Fine) : Adapter.Fine (Layers.stashCache l) :=
  ⟨h.trie, h.cache.over h.stash, .empty⟩
theorem Adapter.Fine.revertCache {l : Adapter} (h : l.Fine) : Adapter.Fine (Layers.revertCache l) := ⟨h.trie, h.stash, .empty⟩

theorem Adapter.Fine.commitTrie {l : Adapter} (h : l.Fine) : Built l.commitTrie.trie := by
  obtain ⟨⟨ks, h1⟩, h2⟩ := h.trie.spec
  obtain ⟨ks', h3⟩ := h.stash
  refine built_of_listed ⟨ks' ++ ks, fun k v e => ?_⟩ (fun k v e => ?_)
  · simp only [Adapter.commitTrie] at e
    split at e
    · rename_i x hx; exact List.mem_append_left _ (h3 _ _ hx)
    · exact List.mem_append_right _ (h1 _ _ e)
  · simp only [Adapter.commitTrie] at e
    split at e
    · split at e
      · cases e
      · rename_i hn; cases e; exact hn
    · exact h2 _ _ e

/-- An executor with finitely many entries. -/
structure BSt.Fine (s : BSt) : Prop where
  top : Built s.top
  acc : s.acc.Fine
  bank : s.bank.Fine

theorem BSt.Fine.used {s : BSt} (h : s.Fine) (u : UInt64) : BSt.Fine { s with used := u } := ⟨h.top, h.acc, h.bank⟩
theorem BSt.Fine.stash {s : BSt} (h : s.Fine) : s.stash.Fine := ⟨h.top, h.acc.stashCache, h.bank.stashCache⟩
theorem BSt.Fine.revert {s : BSt} (h : s.Fine) : s.revert.Fine := ⟨h.top, h.acc.revertCache, h.bank.revertCache⟩

theorem bPutAccount_fine (a : Address) (x : Account) {s : BSt} (h : s.Fine) : (bPutAccount a x s).2.Fine := by
  unfold bPutAccount
  cases e : s.acc.write accountSchema a x with
  | ok l => exact ⟨h.top, h.acc.write e, h.bank⟩
  | error f => exact h

theorem bAddBalance_fine (env : Env) (id : AssetID) (a : Address) (n : Nat) {s : BSt} (h : s.Fine) :
    (bAddBalance env id a n s).2.Fine := by
  unfold bAddBalance
  split
  · exact h
  · exact bPutAccount_fine _ _ h
  · exact bPutAccount_fine _ _ h

theorem bSubBalance_fine (env : Env) (id : AssetID) (a : Address) (n : Nat) {s : BSt} (h : s.Fine) :
    (bSubBalance env id a n s).2.Fine := by
  unfold bSubBalance
  split
  · exact h
  · split
    · exact bPutAccount_fine _ _ h
    · exact h
  · split
    · exact bPutAccount_fine _ _ h
    · exact h

theorem bIncNonce_fine (a : Address) {s : BSt} (h : s.Fine) : (bIncNonce a s).2.Fine := by
  unfold bIncNonce
  split
  · exact h
  · exact bPutAccount_fine _ _ h

theorem bAccTransfer_fine (env : Env) (a b : Address) (c : CarryingAsset) (l : UInt64) {s : BSt} (h : s.Fine) :
    (bAccTransfer env a b c l s).2.Fine := by
  unfold bAccTransfer
  have h1 := bSubBalance_fine env c.assetId a c.amount h
  revert h1
  rcases bSubBalance env c.assetId a c.amount s with ⟨r1, s1⟩
  intro h1
  cases r1 with
  | error f => exact h1
  | ok _ =>
    simp only
    have h2 := bAddBalance_fine env c.assetId b c.amount h1
    revert h2
    rcases bAddBalance env c.assetId b c.amount s1 with ⟨r2, s2⟩
    intro h2
    cases r2 with
    | error f => exact h2
    | ok _ =>
      simp only
      split
      · exact h2
      · exact BSt.Fine.used h2 _

theorem bBankRegister_fine (env : Env) (a : ContractAddress) (n y : String) (q : Nat) (l : UInt64) {s : BSt} (h : s.Fine) :
    (bBankRegister env a n y q l s).2.Fine := by
  unfold bBankRegister
  split
  · exact h
  · simp only
    split
    · exact h
    · split
      · exact h
      · rename_i l' e
        have hb : l'.Fine := h.bank.write e
        split
        · exact ⟨h.top, h.acc, hb⟩
        · exact ⟨h.top, h.acc, hb⟩

theorem bDispatch_fine (env : Env) (tx : SignedTx) {s : BSt} (h : s.Fine) : (bDispatch env tx s).2.Fine := by
  unfold bDispatch
  simp only
  split
  · rename_i receiver carrying _
    unfold bHandleTransfer
    split
    · exact h
    · split
      · exact h
      · have h1 := bAccTransfer_fine env (.user (senderOf env tx)) (.user receiver) carrying tx.raw.fee.cycle h
        revert h1
        rcases bAccTransfer env (.user (senderOf env tx)) (.user receiver) carrying tx.raw.fee.cycle s with ⟨r1, s1⟩
        intro h1
        cases r1 with
        | error f => exact h1
        | ok _ =>
          simp only
          split
          · exact h1
          · exact h1
  · rename_i code ty _
    unfold bHandleDeploy
    cases ty with
    | asset =>
      simp only
      split
      · exact h
      · rename_i acc _
        have h1 := bBankRegister_fine env (ContractAddress.fromCode env.digest code (accountNonce acc) .asset) "System token" "ST"
          21000000000000000 tx.raw.fee.cycle h
        revert h1
        rcases bBankRegister env (ContractAddress.fromCode env.digest code (accountNonce acc) .asset) "System token" "ST"
          21000000000000000 tx.raw.fee.cycle s with ⟨r1, s1⟩
        intro h1
        cases r1 <;> exact h1
    | _ => exact h
  · exact h
  · exact h

theorem bSettle_fine (env : Env) (sc : DErr → String) {x : Except BFault ReceiptResult × BSt} (h : x.2.Fine)
    {res : ReceiptResult} {s : BSt} (e : bSettle env sc x = .ok (res, s)) : s.Fine := by
  unfold bSettle at e
  split at e
  · cases e; exact BSt.Fine.stash h
  · cases e; exact BSt.Fine.revert h
  · cases e
  · cases e; exact BSt.Fine.revert h
  · cases e
  · cases e

theorem bExecTx_fine (env : Env) (sc : DErr → String) (tx : SignedTx) {s : BSt} (h : s.Fine) : (bExecTx env sc tx s).2.Fine := by
  unfold bExecTx
  simp only
  have h0 : BSt.Fine { s with used := 0 } := h.used 0
  split
  · exact h0
  · rename_i res s1 e
    have h1 := bSettle_fine env sc (bDispatch_fine env tx h0) e
    have h2 := bIncNonce_fine (.user (senderOf env tx)) h1
    revert h2
    rcases bIncNonce (.user (senderOf env tx)) s1 with ⟨r2, s2⟩
    intro h2
    cases r2 <;> exact h2

theorem bExecLoop_fine (env : Env) (sc : DErr → String) (txs : List SignedTx) {s : BSt} (h : s.Fine) :
    (bExecLoop env sc txs s).2.Fine := by
  induction txs generalizing s with
  | nil => exact h
  | cons tx txs ih =>
    unfold bExecLoop
    have h1 := bExecTx_fine env sc tx h
    revert h1
    rcases bExecTx env sc tx s with ⟨r1, s1⟩
    intro h1
    cases r1 with
    | error f => exact h1
    | ok _ =>
      simp only
      have h2 := ih h1
      revert h2
      rcases bExecLoop env sc txs (Except.ok _, s1).2 with ⟨r2, s2⟩
      intro h2
      cases r2 <;> exact h2

theorem bRewardCoinbase_fine (env : Env) (fs : List Fee) {s : BSt} (h : s.Fine) : (bRewardCoinbase env fs s).2.Fine := by
  induction fs generalizing s with
  | nil => exact h
  | cons f fs ih =>
    unfold bRewardCoinbase
    have h1 := bAddBalance_fine env f.assetId env.coinbase f.cycle.toNat h
    revert h1
    rcases bAddBalance env f.assetId env.coinbase f.cycle.toNat s with ⟨r1, s1⟩
    intro h1
    cases r1 with
    | error f => exact h1
    | ok _ => exact ih h1

theorem bGenesisAssets_fine (env : Env) (a : Address) (xs : List GenesisStateAsset) {s : BSt} (h : s.Fine) :
    (bGenesisAssets env a xs s).2.Fine := by
  induction xs generalizing s with
  | nil => exact h
  | cons x xs ih =>
    unfold bGenesisAssets
    split
    · rename_i id b _ _
      have h1 := bAddBalance_fine env id a (natOfBE b) h
      revert h1
      rcases bAddBalance env id a (natOfBE b) s with ⟨r1, s1⟩
      intro h1
      cases r1 with
      | error f => exact h1
      | ok _ => exact ih h1
    · exact h

theorem bGenesisAllocs_fine (env : Env) (xs : List GenesisStateAlloc) {s : BSt} (h : s.Fine) : (bGenesisAllocs env xs s).2.Fine := by
  induction xs generalizing s with
  | nil => exact h
  | cons x xs ih =>
    unfold bGenesisAllocs
    split
    · exact h
    · rename_i a _
      split
      · exact h
      · have h1 := bGenesisAssets_fine env a x.assets h
        revert h1
        rcases bGenesisAssets env a x.assets s with ⟨r1, s1⟩
        intro h1
        cases r1 with
        | error f => exact h1
        | ok _ => exact ih h1

theorem hash_bytes_ne (h : Hash) : h.bytes ≠ [] := fun e => by
  have := h.size
  rw [e] at this
  simp at this

theorem commit_built (T : TrieLib) (o : Bool) {s : BSt} (h : s.Fine) {db : TrieStore} (hd : ∀ m ∈ db, Built m) :
    ∀ m ∈ (s.commit T o db).2.2, Built m := by
  have a := h.acc.commitTrie
  have b := h.bank.commitTrie
  intro m hm
  cases o with
  | true =>
    simp only [BSt.commit, if_true, List.mem_cons] at hm
    rcases hm with rfl | rfl | rfl | hm
    · exact (h.top.set _ (hash_bytes_ne _)).set _ (hash_bytes_ne _)
    · exact b
    · exact a
    · exact hd m hm
  | false =>
    simp only [BSt.commit, Bool.false_eq_true, if_false, List.mem_cons] at hm
    rcases hm with rfl | rfl | rfl | hm
    · exact (h.top.set _ (hash_bytes_ne _)).set _ (hash_bytes_ne _)
    · exact a
    · exact b
    · exact hd m hm

theorem open_built {T : TrieLib} {db : TrieStore} (hd : ∀ m ∈ db, Built m) {r : MerkleRoot} {m : ByteMap} (h : db.open T r = some m) :
    Built m := hd m (List.mem_of_find?_eq_some h)

theorem bFromRoot_fine {T : TrieLib} {env : Env} {db : TrieStore} (hd : ∀ m ∈ db, Built m) {r : MerkleRoot} {s : BSt}
    (h : bFromRoot T env db r = some s) : s.Fine := by
  have contract : ∀ (top : ByteMap) (a : Address) (l : Adapter), openContract T db top a = some l → l.Fine := by
    intro top a l hl
    unfold openContract at hl
    split at hl
    · cases hl; exact .ofTrie .empty
    · split at hl
      · cases hl
      · obtain ⟨m, h1, rfl⟩ := Option.map_eq_some_iff.1 hl
        exact .ofTrie (open_built hd h1)
  unfold bFromRoot at h
  split at h
  · cases h
  · rename_i top ht
    have hb : Built top := by
      split at ht
      · cases ht; exact .empty
      · exact open_built hd ht
    split at h
    · rename_i a b ha hb'
      cases h
      exact ⟨hb, contract _ _ _ ha, contract _ _ _ hb'⟩
    · cases h

theorem byteCall_built (T : TrieLib) (sc : DErr → String) {db : TrieStore} (hd : ∀ m ∈ db, Built m) (c : ExecCall) :
    ∀ m ∈ (byteCall T sc db c).2, Built m := by
  cases c with
  | genesis env o g =>
    simp only [byteCall, bRunGenesis]
    cases e : bFromRoot T env db env.emptyHash with
    | none => exact hd
    | some s =>
      have h0 := (bFromRoot_fine hd e).used 0
      simp only
      unfold bCreateGenesis
      cases hexDecode g.systemToken.code.toList with
      | none => exact hd
      | some code =>
        simp only
        have h1 := bBankRegister_fine env (ContractAddress.fromCode env.digest code 0 .asset) g.systemToken.name
          g.systemToken.symbol g.systemToken.supply.toNat 999999999999 h0
        revert h1
        rcases bBankRegister env (ContractAddress.fromCode env.digest code 0 .asset) g.systemToken.name
          g.systemToken.symbol g.systemToken.supply.toNat 999999999999 { s with used := 0 } with ⟨r, s1⟩
        intro h1
        cases r with
        | error f => exact hd
        | ok x =>
          simp only
          have h2 := bGenesisAllocs_fine env g.stateAlloc h1
          revert h2
          rcases bGenesisAllocs env g.stateAlloc s1 with ⟨r, s2⟩
          intro h2
          cases r with
          | error f => exact hd
          | ok _ => exact commit_built T o (BSt.Fine.stash h2) hd
  | block env o root txs =>
    simp only [byteCall, bRunBlock]
    cases e : bFromRoot T env db root with
    | none => exact hd
    | some s =>
      simp only
      unfold bExec
      have h1 := bExecLoop_fine env sc txs (bFromRoot_fine hd e)
      revert h1
      rcases bExecLoop env sc txs s with ⟨r, s1⟩
      intro h1
      cases r with
      | error f => exact hd
      | ok rs =>
        simp only
        have h2 := bRewardCoinbase_fine env (allCyclesUsed rs) h1
        revert h2
        rcases bRewardCoinbase env (allCyclesUsed rs) s1 with ⟨r, s2⟩
        intro h2
        cases r with
        | error f => exact hd
        | ok _ => exact commit_built T o h2 hd
  | balance env root a id => exact hd

theorem byteCalls_built (T : TrieLib) (sc : DErr → String) (calls : List ExecCall) {db : TrieStore} (hd : ∀ m ∈ db, Built m) :
    ∀ m ∈ (callAll (byteCall T sc) db calls).2, Built m := by
  induction calls generalizing db with
  | nil => exact hd
  | cons c cs ih => exact ih (byteCall_built T sc hd c)

end Huobi
