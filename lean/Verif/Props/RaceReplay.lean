import Verif.Props.NodeConc
/-
C101: a transaction is executed at most once, with overlapping calls.
-/
namespace Huobi

/-! ### What the statement talks about -/

/-- After the events `evs`, task `t` is doing the call that event `e` started. -/
def Calling (cfg : NodeCfg) (n : Node) (evs : List Event) (t : Nat) (e : Event) : Prop :=
  ∃ pre post, evs = pre ++ e :: post ∧ (∃ p, e.prog cfg = some (t, p)) ∧ (Conf.after cfg n pre).tasks t = none ∧
    ∀ mid rest, post = mid ++ rest → ((Conf.after cfg n (pre ++ e :: mid)).tasks t).isSome

/-- The call may put a transaction with hash `h` into the pool: it was submitted or gossiped, or peers send it on request. -/
def Event.Gives (h : Hash) : Event → Prop
  | .callInsert _ _ _ tx => tx.txHash = h
  | .callCheck _ p1 p2 _ _ => ∃ q txs, (p1 q = some txs ∨ p2 q = some txs) ∧ ∃ t ∈ txs, t.txHash = h
  | _ => False

/-- A schedule without synchronisation, in which peers send, on request, only transactions that were not stored when the request's call
started, and in which no transaction is given to the node during a call that commits it. -/
structure RaceFree (cfg : NodeCfg) (n : Node) (evs : List Event) : Prop where
  noSync : ∀ t io msg, Event.callSync t io msg ∉ evs
  fresh : ∀ pre t p1 p2 ha pill post, evs = pre ++ Event.callCheck t p1 p2 ha pill :: post →
    ∀ h, (Event.callCheck t p1 p2 ha pill).Gives h → (Conf.after cfg n pre).node.store.txs h = none
  apart : ∀ pre post, evs = pre ++ post → ∀ t io id pill proof t' e h, Calling cfg n pre t (.callCommit t io id pill proof) →
    Calling cfg n pre t' e → e.Gives h → h ∉ pill.epoch.orderedTxHashes

/-- No transaction is in two of the recorded epochs. -/
def ExecutedOnce (ds : List Done) : Prop := ds.Pairwise (fun d2 d1 => ∀ t2 ∈ d2.txs, ∀ t1 ∈ d1.txs, t2.txHash ≠ t1.txHash)

/-! ### Calls in progress -/

theorem after_snoc (cfg : NodeCfg) (n : Node) (evs : List Event) (e : Event) : Conf.after cfg n (evs ++ [e]) = (Conf.after cfg n evs).step cfg e := by
  simp [Conf.after]

theorem Calling.snoc {cfg : NodeCfg} {n : Node} {evs : List Event} {t : Nat} {e : Event} (h : Calling cfg n evs t e) (x : Event)
    (hs : ((Conf.after cfg n (evs ++ [x])).tasks t).isSome) : Calling cfg n (evs ++ [x]) t e := by
  obtain ⟨pre, post, rfl, hp, hn, hr⟩ := h
  refine ⟨pre, post ++ [x], by simp, hp, hn, fun mid rest hm => ?_⟩
  rcases List.eq_nil_or_concat rest with rfl | ⟨rest', y, rfl⟩
  · rw [List.append_nil] at hm
    subst hm
    simpa using hs
  · rw [List.concat_eq_append, ← List.append_assoc] at hm
    exact hr mid rest' (List.append_inj' hm rfl).1

theorem Calling.start {cfg : NodeCfg} {n : Node} {evs : List Event} {t : Nat} {e : Event} {p : Prog} (he : e.prog cfg = some (t, p))
    (hn : (Conf.after cfg n evs).tasks t = none) : Calling cfg n (evs ++ [e]) t e := by
  refine ⟨evs, [], by simp, ⟨p, he⟩, hn, fun mid rest hm => ?_⟩
  obtain ⟨rfl, -⟩ := List.append_eq_nil_iff.1 hm.symm
  rw [after_snoc, step_prog he]
  unfold Conf.start
  rw [hn]
  simp [Conf.setTask]

theorem RaceFree.left {cfg : NodeCfg} {n : Node} {evs : List Event} {e : Event} (h : RaceFree cfg n (evs ++ [e])) : RaceFree cfg n evs where
  noSync t io msg hm := h.noSync t io msg (List.mem_append_left _ hm)
  fresh pre t p1 p2 ha pill post hp := h.fresh pre t p1 p2 ha pill (post ++ [e]) (by rw [hp]; simp)
  apart pre post hp := h.apart pre (post ++ [e]) (by rw [hp, List.append_assoc])

theorem RaceFree.now {cfg : NodeCfg} {n : Node} {evs : List Event} (h : RaceFree cfg n evs) {t t' : Nat} {io : CommitIo} {id : UInt64} {pill : Pill}
    {proof : OverlordProof} {e : Event} (h1 : Calling cfg n evs t (.callCommit t io id pill proof)) (h2 : Calling cfg n evs t' e) {k : Hash}
    (hk : e.Gives k) : k ∉ pill.epoch.orderedTxHashes := h.apart evs [] (by simp) t io id pill proof t' e k h1 h2 hk

/-! ### The invariant -/

/-- No transaction of the pool is stored; what was recorded is stored; nothing was recorded twice. -/
structure Base (older : List Done) (n : Node) : Prop where
  good : n.pool.cache.Good
  keys : ∀ k t, n.pool.callback.get k = some t → t.txHash = k
  cache : ∀ k t, n.pool.cache.get k = some t → n.store.txs k = none
  callback : ∀ k t, n.pool.callback.get k = some t → n.store.txs k = none
  stored : ∀ d ∈ n.log ++ older, ∀ t ∈ d.txs, (n.store.txs t.txHash).isSome
  once : ExecutedOnce (n.log ++ older)

/-- How far a commit is. -/
inductive Phase where
  | quiet | got | flushed | stored

/-- What holds while a commit of the transactions `L` is in this phase. -/
def Phase.Holds (older : List Done) (L : List Hash) : Phase → Node → Prop
  | .quiet, n => Base older n
  | .got, n => Base older n ∧ ∀ k ∈ L, n.store.txs k = none
  | .flushed, n => Base older n ∧ (∀ k ∈ L, n.store.txs k = none) ∧ ∀ k ∈ L, n.pool.cache.get k = none ∧ n.pool.callback.get k = none
  | .stored, n => Base older n ∧ (∀ k ∈ L, (n.store.txs k).isSome) ∧ (∀ k ∈ L, n.pool.cache.get k = none ∧ n.pool.callback.get k = none) ∧
      ∀ d ∈ n.log ++ older, ∀ t ∈ d.txs, t.txHash ∉ L

theorem Phase.Holds.base {older : List Done} {L : List Hash} {ph : Phase} {n : Node} (h : ph.Holds older L n) : Base older n := by
  cases ph with
  | quiet => exact h
  | _ => exact h.1

/-- The rest of a commit of `L`. -/
def Prog.Com (older : List Done) (L : List Hash) : Prog → Phase → Prop
  | .act f k, ph => ∀ n, ph.Holds older L n → (∀ h, h ∉ L → (f n).store.txs h = n.store.txs h) ∧
      (∀ h, (n.store.txs h).isSome → (f n).store.txs h = n.store.txs h ∧ (f n).store.receipts h = n.store.receipts h) ∧
      ∃ ph', Phase.Holds older L ph' (f n) ∧ (k n).Com older L ph'
  | .unlock l k, _ => l = .engine ∧ ∃ r, k = .ret r
  | _, _ => False

/-- Only the pool changes, and only transactions of `X` come into it. -/
structure PoolStep (X : Hash → Prop) (n n' : Node) : Prop where
  same : n.Same n'
  good : n'.pool.cache.Good
  cache : ∀ k t, n'.pool.cache.get k = some t → n.pool.cache.get k = some t ∨ X k
  callback : ∀ k t, n'.pool.callback.get k = some t → n.pool.callback.get k = some t ∨ (X k ∧ t.txHash = k)

/-- The rest of a task that puts only transactions of `X` into the pool, when it runs on nodes of `R`. -/
def Prog.Puts (R : Node → Prop) (X : Hash → Prop) : Prog → Prop
  | .ret _ => True
  | .act f k => ∀ n, R n → n.pool.cache.Good → PoolStep X n (f n) ∧ (k n).Puts R X
  | _ => False

theorem Base.poolStep {older : List Done} {X : Hash → Prop} {n n' : Node} (h : Base older n) (hs : PoolStep X n n')
    (hx : ∀ k, X k → n.store.txs k = none) : Base older n' where
  good := hs.good
  keys k t hg := (hs.callback k t hg).elim (h.keys k t) (·.2)
  cache k t hg := by rw [← hs.same.store]; exact (hs.cache k t hg).elim (h.cache k t) (hx k)
  callback k t hg := by rw [← hs.same.store]; exact (hs.callback k t hg).elim (h.callback k t) (fun h => hx k h.1)
  stored := by rw [← hs.same.store, ← hs.same.log]; exact h.stored
  once := by rw [← hs.same.log]; exact h.once

theorem Phase.Holds.poolStep {older : List Done} {L : List Hash} {X : Hash → Prop} {n n' : Node} {ph : Phase} (h : ph.Holds older L n)
    (hs : PoolStep X n n') (hx : ∀ k, X k → n.store.txs k = none) (hl : ∀ k, X k → k ∉ L) : ph.Holds older L n' := by
  have hb := h.base.poolStep hs hx
  have hpool (h3 : ∀ k ∈ L, n.pool.cache.get k = none ∧ n.pool.callback.get k = none) : ∀ k ∈ L, n'.pool.cache.get k = none ∧ n'.pool.callback.get k = none := by
    intro k hk
    constructor
    · cases hg : n'.pool.cache.get k with
      | none => rfl
      | some t =>
        rcases hs.cache k t hg with h | h
        · rw [(h3 k hk).1] at h; cases h
        · exact absurd hk (hl k h)
    · cases hg : n'.pool.callback.get k with
      | none => rfl
      | some t =>
        rcases hs.callback k t hg with h | h
        · rw [(h3 k hk).2] at h; cases h
        · exact absurd hk (hl k h.1)
  cases ph with
  | quiet => exact hb
  | got => exact ⟨hb, by rw [← hs.same.store]; exact h.2⟩
  | flushed => exact ⟨hb, by rw [← hs.same.store]; exact h.2.1, hpool h.2.2⟩
  | stored => exact ⟨hb, by rw [← hs.same.store]; exact h.2.1, hpool h.2.2.1, by rw [← hs.same.log]; exact h.2.2.2⟩

/-! ### Programs -/

theorem PoolStep.refl {X : Hash → Prop} {n : Node} (h : n.pool.cache.Good) : PoolStep X n n :=
  ⟨.refl n, h, fun _ _ h => .inl h, fun _ _ h => .inl h⟩

theorem puts_id {R : Node → Prop} {X : Hash → Prop} {k : Node → Prog} (h : ∀ n, R n → (k n).Puts R X) : (Prog.act id k).Puts R X :=
  fun n hr hg => ⟨.refl hg, h n hr⟩

theorem puts_test {R : Node → Prop} {X : Hash → Prop} {E : Type} {c : Node → Except E Unit} {fail : E → Prog} {next : Prog}
    (h1 : ∀ e, (fail e).Puts R X) (h2 : ∀ n, R n → c n = .ok () → next.Puts R X) : (Prog.test c fail next).Puts R X := by
  refine puts_id fun n hr => ?_
  split
  · exact h1 _
  · rename_i h; exact h2 n hr h

theorem PoolStep.insert {X : Hash → Prop} {n : Node} (h : n.pool.cache.Good) {tx : SignedTx} (hx : X tx.txHash) (b : Bool) :
    PoolStep X n { n with pool := { n.pool with cache := (n.pool.cache.insert tx b).2 } } where
  same := ⟨rfl, rfl, rfl, rfl⟩
  good := (h.call_refines (.insert tx b)).2.1
  cache k t hg := by
    rcases cache_insert_get h tx b hg with h | ⟨rfl, -⟩
    · exact .inl h
    · exact .inr hx
  callback _ _ h := .inl h

theorem puts_insert (cfg : NodeCfg) (o b : Bool) (tx : SignedTx) (s : Bool) :
    (Prog.insert cfg o b tx).Puts (fun n => (n.store.txs tx.txHash).isSome = s) (fun h => h = tx.txHash ∧ s = false) := by
  refine puts_test (fun _ => trivial) fun _ _ _ => puts_test (fun _ => trivial) fun _ _ _ => puts_test (fun _ => trivial) fun _ _ _ =>
    puts_test (fun _ => trivial) fun _ _ _ => puts_test (fun _ => trivial) fun n1 hr hs => fun n _ hg => ⟨?_, ?_⟩
  · refine PoolStep.insert hg ⟨rfl, ?_⟩ false
    cases hc : (n1.store.txs tx.txHash).isSome with
    | false => rw [← hr, hc]
    | true =>
      unfold MemPool.checkStorageExist at hs
      simp only [Node.view, hc, if_true] at hs
      cases hs
  · beta_reduce
    split <;> exact trivial

theorem puts_propose (cfg : NodeCfg) (now id : UInt64) : (Prog.propose cfg now id).Puts (fun _ => True) (fun _ => False) := by
  refine puts_id fun n0 _ => puts_id fun n1 _ => ?_
  split
  · exact trivial
  · rename_i e _
    refine fun n _ hn => ⟨?_, ?_⟩
    · obtain ⟨_, g', _⟩ := hn.package_refines n0.status.cyclesLimit e.header.epochId (e.header.epochId + n.pool.gap)
      refine ⟨⟨rfl, rfl, rfl, rfl⟩, g', fun k t hg => ?_, fun _ _ h => .inl h⟩
      let v : MemView := ⟨some (e.header.chainId, e.header.epochId), fun _ => .getNone, 0, fun _ => none, true⟩
      exact .inl ((package_cases v n0.status.cyclesLimit hn).1 k t hg)
    · beta_reduce
      split
      · exact trivial
      · split
        · exact trivial
        · exact fun m _ hm => ⟨⟨⟨rfl, rfl, rfl, rfl⟩, hm, fun _ _ h => .inl h, fun _ _ h => .inl h⟩, trivial⟩

theorem puts_each {R : Node → Prop} {X : Hash → Prop} {f : SignedTx → Node → Node} {next : Prog} (hn : next.Puts R X) (txs : List SignedTx)
    (h : ∀ t ∈ txs, ∀ n, n.pool.cache.Good → PoolStep X n (f t n)) : (Prog.each f next txs).Puts R X := by
  induction txs with
  | nil => exact hn
  | cons t txs ih => exact fun n _ hg => ⟨h t (.head _) n hg, ih (fun x hx => h x (.tail _ hx))⟩

theorem puts_check (t : Nat) (p1 p2 : List Hash → Option (List SignedTx)) (hash : Bytes) (pill : Pill) :
    (Prog.check p1 p2 hash pill).Puts (fun _ => True) (fun h => (Event.callCheck t p1 p2 hash pill).Gives h) := by
  generalize hX : (fun h => (Event.callCheck t p1 p2 hash pill).Gives h) = X
  have hx {q : List Hash} {txs : List SignedTx} (h : p1 q = some txs ∨ p2 q = some txs) {t} (ht : t ∈ txs) : X t.txHash := by
    rw [← hX]; exact ⟨q, txs, h, t, ht, rfl⟩
  have hf (o : List Hash) : (Prog.full o).Puts (fun _ => True) X := puts_id fun _ _ => trivial
  refine puts_id fun n _ => ?_
  split
  · exact hf _
  · have he : (Prog.ensure p2 pill.epoch.orderedTxHashes (.full pill.epoch.orderedTxHashes)).Puts (fun _ => True) X := by
      refine puts_id fun n _ => ?_
      simp only
      split
      · exact hf _
      · split
        · exact trivial
        · rename_i txs hq
          split
          · exact trivial
          · refine puts_each (hf _) txs (fun t ht n hn => ⟨⟨rfl, rfl, rfl, rfl⟩, hn, fun _ _ h => .inl h, fun k t' hg => ?_⟩)
            rcases callback_fold_get [t] (m := n.pool.callback) hg with h | ⟨h, h'⟩
            · exact .inl h
            · rw [List.mem_singleton.1 h] at h' ⊢
              exact .inr ⟨h' ▸ hx (.inr hq) ht, h'.symm⟩
    refine puts_id fun n _ => ?_
    simp only
    split
    · exact he
    · split
      · exact trivial
      · rename_i txs hq
        exact puts_each he txs (fun t ht n hn => PoolStep.insert hn (hx (.inl hq) ht) true)

/-! ### The commit -/

theorem Base.chain {older : List Done} {n n' : Node} (h : Base older n) (hp : n'.pool = n.pool) (hs : n'.store.txs = n.store.txs) (hl : n'.log = n.log) :
    Base older n' where
  good := by rw [hp]; exact h.good
  keys := by rw [hp]; exact h.keys
  cache := by rw [hp, hs]; exact h.cache
  callback := by rw [hp, hs]; exact h.callback
  stored := by rw [hs, hl]; exact h.stored
  once := by rw [hl]; exact h.once

theorem Phase.Holds.chain {older : List Done} {L : List Hash} {ph : Phase} {n n' : Node} (h : ph.Holds older L n) (hp : n'.pool = n.pool)
    (hs : n'.store.txs = n.store.txs) (hl : n'.log = n.log) : ph.Holds older L n' := by
  have hb := h.base.chain hp hs hl
  cases ph with
  | quiet => exact hb
  | got => exact ⟨hb, by rw [hs]; exact h.2⟩
  | flushed => exact ⟨hb, by rw [hs]; exact h.2.1, by rw [hp]; exact h.2.2⟩
  | stored => exact ⟨hb, by rw [hs]; exact h.2.1, by rw [hp]; exact h.2.2.1, by rw [hl]; exact h.2.2.2⟩

/-- Full transactions are known for unstored hashes only, and each has the hash it was asked for. -/
theorem Base.getFull {older : List Done} {n : Node} (h : Base older n) {hs : List Hash} {txs : List SignedTx} (hg : n.pool.getFullTxs hs = .ok txs) :
    (∀ k ∈ hs, n.store.txs k = none) ∧ txs.map SignedTx.txHash = hs := by
  unfold MemPool.getFullTxs at hg
  simp only at hg
  split at hg
  · cases hg
  · rename_i hlen0
    injection hg with hg
    subst hg
    have hlen : (hs.filterMap n.pool.lookup).length = hs.length := by omega
    clear hlen0
    have hk (k : Hash) (t : SignedTx) (ht : n.pool.lookup k = some t) : n.store.txs k = none ∧ t.txHash = k := by
      rcases (lookup_iff _ _ _).1 ht with ht | ⟨-, ht⟩
      · obtain ⟨e, -, -, hh⟩ := (get_eq_some h.good).1 ht
        exact ⟨h.cache k t ht, hh⟩
      · exact ⟨h.callback k t ht, h.keys k t ht⟩
    have hall := (filterMap_full n.pool.lookup hs).1 hlen
    refine ⟨fun k hk' => ?_, ?_⟩
    · obtain ⟨t, ht⟩ := Option.isSome_iff_exists.1 (hall k hk')
      exact (hk k t ht).1
    · clear hlen
      induction hs with
      | nil => rfl
      | cons k hs ih =>
        obtain ⟨t, ht⟩ := Option.isSome_iff_exists.1 (hall k (.head _))
        rw [List.filterMap_cons, ht]
        simp only [List.map_cons, (hk k t ht).2, ih (fun x hx => hall x (.tail _ hx))]

/-! The receipts of an execution carry the hashes of its transactions, on any state. -/

theorem execTx_hash {env : Env} {tx : SignedTx} {s s' : St} {r : Receipt} (h : execTx env tx s = (.ok r, s')) : r.txHash = tx.txHash := by
  unfold execTx at h
  simp only at h
  generalize settle env (dispatch env tx { s with used := 0 }) = a at h
  cases a with
  | none => simp at h
  | some x =>
    obtain ⟨res, s1⟩ := x
    simp only at h
    generalize incNonce (.user (senderOf env tx)) s1 = b at h
    obtain ⟨b, s2⟩ := b
    cases b with
    | error f => simp at h
    | ok u =>
      simp only [Prod.mk.injEq, Except.ok.injEq] at h
      rw [← h.1]

theorem execLoop_hashes {env : Env} : ∀ {txs : List SignedTx} {s s' : St} {rs : List Receipt}, execLoop env txs s = (.ok rs, s') →
    rs.map (·.txHash) = txs.map (·.txHash)
  | [], s, s', rs, h => by
    simp only [execLoop, Prod.mk.injEq, Except.ok.injEq] at h
    rw [← h.1]; rfl
  | tx :: txs, s, s', rs, h => by
    unfold execLoop at h
    split at h
    · simp at h
    · rename_i r s1 hr
      split at h
      · simp at h
      · rename_i rs' s2 hrs
        simp only [Prod.mk.injEq, Except.ok.injEq] at h
        rw [← h.1]
        simp only [List.map_cons]
        rw [execTx_hash hr, execLoop_hashes hrs]

theorem exec_hashes {env : Env} {txs : List SignedTx} {s s' : St} {resp : ExecResp} (h : exec env txs s = (.ok resp, s')) :
    resp.receipts.map (·.txHash) = txs.map (·.txHash) := by
  unfold exec at h
  split at h
  · simp at h
  · rename_i rs s1 hrs
    simp only [Prod.mk.injEq, Except.ok.injEq] at h
    rw [← h.1, ← execLoop_hashes hrs]
    simp [Function.comp_def]

theorem nodeExec_hashes {cfg : NodeCfg} {root : MerkleRoot} {id : UInt64} {cb : Address} {txs : List SignedTx} {n : Node} {resp : ExecResp}
    (h : (n.exec cfg root id cb txs).1 = .ok resp) : resp.receipts.map (·.txHash) = txs.map (·.txHash) := by
  unfold Node.exec runBlock at h
  cases hf : fromRoot (cfg.env id n.status.cyclesPrice cb) n.tries root with
  | none => rw [hf] at h; simp at h
  | some s =>
    rw [hf] at h
    simp only at h
    generalize hx : exec (cfg.env id n.status.cyclesPrice cb) txs s = x at h
    obtain ⟨a, s'⟩ := x
    cases a with
    | error f => cases f <;> simp at h
    | ok r =>
      simp only [Except.ok.injEq] at h
      rw [← h]
      exact exec_hashes hx
theorem com_end {older : List Done} {L : List Hash} {ph : Phase} {r : Except CErr UInt64} : (Prog.endCommit r).Com older L ph := ⟨rfl, _, rfl⟩

/-- A step that changes neither the pool, nor the stored transactions, nor the record. -/
theorem com_chain {older : List Done} {L : List Hash} {ph : Phase} {f : Node → Node} {k : Node → Prog} (hp : ∀ n, (f n).pool = n.pool)
    (hs : ∀ n, (f n).store.txs = n.store.txs ∧ (f n).store.receipts = n.store.receipts) (hl : ∀ n, (f n).log = n.log) (h : ∀ n, (k n).Com older L ph) :
    (Prog.act f k).Com older L ph :=
  fun n hn => ⟨fun _ _ => by rw [(hs n).1], fun _ _ => ⟨by rw [(hs n).1], by rw [(hs n).2]⟩, ph, hn.chain (hp n) (hs n).1 (hl n), h n⟩

theorem com_write {older : List Done} {L : List Hash} {ph : Phase} {ok : Bool} {w : Node → Node} {fail next : Prog} (hp : ∀ n, (w n).pool = n.pool)
    (hs : ∀ n, (w n).store.txs = n.store.txs ∧ (w n).store.receipts = n.store.receipts) (hl : ∀ n, (w n).log = n.log) (h1 : fail.Com older L ph) (h2 : next.Com older L ph) :
    (Prog.write ok w fail next).Com older L ph := by
  cases ok
  · exact com_chain (fun _ => rfl) (fun _ => ⟨rfl, rfl⟩) (fun _ => rfl) (fun _ => h1)
  · exact com_chain (fun n => hp n) (fun n => hs n) (fun n => hl n) (fun _ => h2)

theorem exec_keeps (cfg : NodeCfg) (root : MerkleRoot) (id : UInt64) (cb : Address) (txs : List SignedTx) (n : Node) :
    (n.exec cfg root id cb txs).2.pool = n.pool ∧ (n.exec cfg root id cb txs).2.store = n.store ∧ (n.exec cfg root id cb txs).2.log = n.log := by
  unfold Node.exec
  split <;> exact ⟨rfl, rfl, rfl⟩

theorem com_commit (cfg : NodeCfg) (older : List Done) (io : CommitIo) (id : UInt64) (pill : Pill) (proof : OverlordProof) {body busy : Prog}
    (hp : Prog.commit cfg io id pill proof = .lock .engine body busy) : body.Com older pill.epoch.orderedTxHashes .quiet := by
  unfold Prog.commit at hp
  injection hp with _ hp _
  subst hp
  generalize hL : pill.epoch.orderedTxHashes = L
  split
  · exact com_end
  · rename_i p _
    refine com_chain (fun n => ?_) (fun n => ?_) (fun n => ?_) (fun n => ?_)
    · unfold Node.saveProof; split <;> rfl
    · unfold Node.saveProof; split <;> exact ⟨rfl, rfl⟩
    · unfold Node.saveProof; split <;> rfl
    split
    · exact com_end
    · split
      · exact com_end
      · intro n hn
        have hn : Base older n := hn
        refine ⟨fun _ _ => rfl, fun _ _ => ⟨rfl, rfl⟩, ?_⟩
        beta_reduce
        cases hg : n.pool.getFullTxs L with
        | error e => exact ⟨.quiet, hn, com_end⟩
        | ok txs =>
          have hlook := hn.getFull hg
          obtain ⟨hnone, htx⟩ := hlook
          refine ⟨.got, ⟨hn, hnone⟩, ?_⟩
          unfold Prog.commitTail
          rw [hL]
          -- flush
          intro n hn
          obtain ⟨hb, hnone⟩ := hn
          refine ⟨fun _ _ => rfl, fun _ _ => ⟨rfl, rfl⟩, .flushed, ?_, ?_⟩
          · have hfl (k : Hash) : (n.pool.flush L).cache.get k = if k ∈ L then none else n.pool.cache.get k := flush_get hb.good L k
            have hcl (k : Hash) : (n.pool.flush L).callback.get k = none := rfl
            refine ⟨⟨(hb.good.flush_refines _).1, ?_, ?_, ?_, hb.stored, hb.once⟩, hnone, fun k hk => ⟨?_, hcl k⟩⟩
            · intro k t hg; have := hcl k; rw [this] at hg; cases hg
            · intro k t hg
              have hg : (n.pool.flush L).cache.get k = some t := hg
              rw [hfl] at hg
              split at hg
              · cases hg
              · exact hb.cache k t hg
            · intro k t hg; have := hcl k; rw [this] at hg; cases hg
            · show (n.pool.flush L).cache.get k = none
              rw [hfl, if_pos hk]
          -- read of the status
          refine com_chain (fun _ => rfl) (fun _ => ⟨rfl, rfl⟩) (fun _ => rfl) (fun n0 => ?_)
          -- exec
          refine com_chain (fun n => (exec_keeps ..).1) (fun n => ⟨by rw [(exec_keeps ..).2.1], by rw [(exec_keeps ..).2.1]⟩) (fun n => (exec_keeps ..).2.2) (fun n => ?_)
          split
          · exact com_end
          · rename_i resp hresp
            have hmem {t : SignedTx} (ht : t ∈ txs) : t.txHash ∈ L := htx ▸ List.mem_map_of_mem ht
            unfold Prog.updateStatus
            -- the receipts
            have hrest : ∀ q : Prog, q.Com older L .flushed → (Prog.write io.save.receipts (fun n => { n with
                store := n.store.writes (StoreOp.writes cfg.digest (.insertReceipts resp.receipts)) }) (.endCommit (.error .storage)) q).Com older L .flushed := by
              intro q hq n hn
              cases hio : io.save.receipts with
              | false => exact ⟨fun _ _ => rfl, fun _ _ => ⟨rfl, rfl⟩, .flushed, hn, com_end⟩
              | true =>
                refine ⟨fun _ _ => rfl, fun h hh => ⟨rfl, ?_⟩, .flushed, hn.chain rfl rfl rfl, hq⟩
                show insertAll Receipt.txHash resp.receipts n.store.receipts h = n.store.receipts h
                unfold insertAll
                cases hf : List.find? (fun v => decide (Receipt.txHash v = h)) resp.receipts.reverse with
                | none => rfl
                | some w =>
                  have h1 : w ∈ resp.receipts := by simpa using List.mem_of_find?_eq_some hf
                  have h2 : w.txHash = h := by simpa using List.find?_some hf
                  have h3 : w.txHash ∈ txs.map (·.txHash) := nodeExec_hashes hresp ▸ List.mem_map_of_mem h1
                  rw [htx, h2] at h3
                  rw [hn.2.1 h h3] at hh
                  cases hh
            refine hrest _ ?_
            clear hrest
            -- the transactions
            intro n hn
            cases hio : io.save.txs with
            | false => exact ⟨fun _ _ => rfl, fun _ _ => ⟨rfl, rfl⟩, .flushed, hn, com_end⟩
            | true =>
              obtain ⟨hb, hnone, hpool⟩ := hn
              have hw (k : Hash) : (({ n with store := n.store.writes (StoreOp.writes cfg.digest (.insertTransactions txs)) } : Node).store.txs k) =
                  insertAll SignedTx.txHash txs n.store.txs k := rfl
              have hout (k : Hash) (hk : k ∉ L) : insertAll SignedTx.txHash txs n.store.txs k = n.store.txs k := by
                unfold insertAll
                cases hf : List.find? (fun v => decide (SignedTx.txHash v = k)) txs.reverse with
                | none => rfl
                | some w =>
                  have h1 : w ∈ txs := by simpa using List.mem_of_find?_eq_some hf
                  have h2 : w.txHash = k := by simpa using List.find?_some hf
                  exact absurd (h2 ▸ hmem h1) hk
              have hin (k : Hash) (hk : (n.store.txs k).isSome ∨ k ∈ L) : (insertAll SignedTx.txHash txs n.store.txs k).isSome := by
                refine insertAll_isSome SignedTx.txHash txs n.store.txs k (hk.imp _root_.id fun hk => ?_)
                rw [← htx] at hk
                obtain ⟨t, ht, rfl⟩ := List.mem_map.1 hk
                exact ⟨t, ht, rfl⟩
              refine ⟨fun h hh => hout h hh, fun h hh => ⟨hout h (fun hm => by rw [hnone h hm] at hh; cases hh), rfl⟩, .stored, ⟨⟨hb.good, hb.keys, ?_, ?_, ?_, hb.once⟩, fun k hk => hin k (.inr hk), hpool, ?_⟩, ?_⟩
              · intro k t hg
                have hg : n.pool.cache.get k = some t := hg
                have hk : k ∉ L := fun hk => by rw [(hpool k hk).1] at hg; cases hg
                show insertAll SignedTx.txHash txs n.store.txs k = none
                rw [hout k hk]; exact hb.cache k t hg
              · intro k t hg
                have hg : n.pool.callback.get k = some t := hg
                have hk : k ∉ L := fun hk => by rw [(hpool k hk).2] at hg; cases hg
                show insertAll SignedTx.txHash txs n.store.txs k = none
                rw [hout k hk]; exact hb.callback k t hg
              · exact fun d hd t ht => hin _ (.inl (hb.stored d hd t ht))
              · intro d hd t ht hk
                have := hb.stored d hd t ht
                rw [hnone _ hk] at this
                cases this
              -- the epoch
              refine com_write (fun _ => rfl) (fun _ => ⟨rfl, rfl⟩) (fun _ => rfl) com_end <| com_write (fun _ => rfl) (fun _ => ⟨rfl, rfl⟩) (fun _ => rfl) com_end ?_
              -- the record
              rintro n ⟨hb, hsome, hpool, hlog⟩
              by_cases hw : 2 < io.save.epochWrites
              rotate_left
              · simp only [hw, decide_false, Bool.false_eq_true, if_false]
                exact ⟨fun _ _ => (by first | rfl | trivial), fun _ _ => (by first | exact ⟨rfl, rfl⟩ | trivial), .stored, ⟨hb, hsome, hpool, hlog⟩, com_end⟩
              simp only [hw, decide_true, if_true]
              refine ⟨fun _ _ => (by first | rfl | trivial), fun _ _ => (by first | exact ⟨rfl, rfl⟩ | trivial), .quiet, ⟨hb.good, hb.keys, hb.cache, hb.callback, ?_, ?_⟩,
                com_chain (fun _ => rfl) (fun _ => ⟨rfl, rfl⟩) (fun _ => rfl) (fun _ => ?_)⟩
              · intro d hd t ht
                rcases List.mem_cons.1 hd with rfl | hd
                · exact hsome _ (hmem ht)
                · exact hb.stored d hd t ht
              · refine .cons (fun d hd t2 ht2 t1 ht1 he => ?_) hb.once
                exact hlog d hd t1 ht1 (he ▸ hmem ht2)
              · exact com_end

/-! ### Schedules -/

/-- What a running task may be doing. -/
inductive Doing (cfg : NodeCfg) (n : Node) (older : List Done) (evs : List Event) (c : Conf) (t : Nat) : Prog → Prop
  | done (r : TaskResult) : Doing cfg n older evs c t (.ret r)
  | wait {io id pill proof} : Calling cfg n evs t (.callCommit t io id pill proof) → Doing cfg n older evs c t (.commit cfg io id pill proof)
  | work {io id pill proof p ph} : Calling cfg n evs t (.callCommit t io id pill proof) → c.held .engine = some t →
      Phase.Holds older pill.epoch.orderedTxHashes ph c.node → p.Com older pill.epoch.orderedTxHashes ph → Doing cfg n older evs c t p
  | pool {e : Event} {R : Node → Prop} {X : Hash → Prop} {p : Prog} : Calling cfg n evs t e → R c.node → p.Puts R X → (∀ k, X k → e.Gives k) →
      (∀ k, X k → c.node.store.txs k = none) → (∀ a b : Node, (∀ k, e.Gives k → b.store.txs k = a.store.txs k) → R a → R b) →
      Doing cfg n older evs c t p

/-- Everything running is accounted for. -/
structure Sched (cfg : NodeCfg) (n : Node) (older : List Done) (evs : List Event) (c : Conf) : Prop where
  base : Base older c.node
  tasks : ∀ t p, c.tasks t = some p → Doing cfg n older evs c t p

theorem Doing.move {cfg : NodeCfg} {n : Node} {older : List Done} {evs : List Event} {c c' : Conf} {t : Nat} {p : Prog}
    (h : Doing cfg n older evs c t p) (x : Event) (hc : Conf.after cfg n (evs ++ [x]) = c') (hs : (c'.tasks t).isSome)
    (hh : c.held .engine = some t → c'.held .engine = some t)
    (hw : ∀ io id pill proof ph, Calling cfg n evs t (.callCommit t io id pill proof) → c.held .engine = some t →
      Phase.Holds older pill.epoch.orderedTxHashes ph c.node → Phase.Holds older pill.epoch.orderedTxHashes ph c'.node)
    (hp : ∀ e, Calling cfg n evs t e → ∀ k, e.Gives k → c'.node.store.txs k = c.node.store.txs k) : Doing cfg n older (evs ++ [x]) c' t p := by
  have hx {e : Event} (he : Calling cfg n evs t e) : Calling cfg n (evs ++ [x]) t e := he.snoc x (by rw [hc]; exact hs)
  cases h with
  | done r => exact .done r
  | wait h => exact .wait (hx h)
  | work h1 h2 h3 h4 => exact .work (hx h1) (hh h2) (hw _ _ _ _ _ h1 h2 h3) h4
  | pool h1 h2 h3 h4 h5 h6 =>
    refine .pool (hx h1) (h6 _ _ (hp _ h1) h2) h3 h4 (fun k hk => ?_) h6
    rw [hp _ h1 k (h4 k hk)]
    exact h5 k hk

theorem Sched.start {cfg : NodeCfg} {n : Node} {older : List Done} {evs : List Event} {c : Conf} (h : Sched cfg n older evs c)
    (hc : Conf.after cfg n evs = c) {x : Event} {t : Nat} {p : Prog} (hp : x.prog cfg = some (t, p))
    (hn : Calling cfg n (evs ++ [x]) t x → Doing cfg n older (evs ++ [x]) (c.start t p) t p) : Sched cfg n older (evs ++ [x]) (c.start t p) := by
  have hc' : Conf.after cfg n (evs ++ [x]) = c.start t p := by rw [after_snoc, hc, step_prog hp]
  have hnode : (c.start t p).node = c.node := by unfold Conf.start; split <;> rfl
  have hheld : (c.start t p).held = c.held := by unfold Conf.start; split <;> rfl
  have hold {t' p'} (ht : c.tasks t' = some p') (ht' : (c.start t p).tasks t' = some p') : Doing cfg n older (evs ++ [x]) (c.start t p) t' p' :=
    (h.tasks t' p' ht).move x hc' (by rw [ht']; rfl) (by rw [hheld]; exact _root_.id) (by rw [hnode]; exact fun _ _ _ _ _ _ _ => _root_.id)
      (by rw [hnode]; exact fun _ _ _ _ => rfl)
  refine ⟨by rw [hnode]; exact h.base, fun t' p' ht => ?_⟩
  cases htt : c.tasks t with
  | none =>
    by_cases he : t' = t
    · subst he
      have : p' = p := by
        unfold Conf.start at ht
        rw [htt] at ht
        simp only [Option.isNone_none, if_true, Conf.setTask, Option.some.injEq] at ht
        exact ht.symm
      subst this
      exact hn (Calling.start hp (by rw [hc]; exact htt))
    · refine hold ?_ ht
      unfold Conf.start at ht
      rw [htt] at ht
      simpa [Conf.setTask, he] using ht
  | some q =>
    refine hold ?_ ht
    unfold Conf.start at ht
    rw [htt] at ht
    simpa using ht

theorem Sched.after {cfg : NodeCfg} {n : Node} {older : List Done} (hb : Base older n) (evs : List Event) (hr : RaceFree cfg n evs) :
    Sched cfg n older evs (Conf.after cfg n evs) := by
  suffices h : ∀ rev : List Event, RaceFree cfg n rev.reverse → Sched cfg n older rev.reverse (Conf.after cfg n rev.reverse) by
    have := h evs.reverse (by rwa [List.reverse_reverse])
    rwa [List.reverse_reverse] at this
  intro rev
  induction rev with
  | nil => exact fun _ => ⟨hb, fun t p h => by cases h⟩
  | cons x rev ih =>
    intro hr
    rw [List.reverse_cons] at hr ⊢
    have hl := hr.left
    have h := ih hl
    generalize hE : rev.reverse = E at hr hl h ⊢
    clear ih
    rw [after_snoc]
    cases x with
    | callSync t io msg => exact absurd (by simp) (hr.noSync t io msg)
    | callCommit t io id pill proof =>
      exact h.start rfl (x := .callCommit t io id pill proof) rfl (fun hc => .wait hc)
    | callInsert t o b tx =>
      refine h.start rfl (x := .callInsert t o b tx) rfl (fun hc =>
        .pool (R := fun n => (n.store.txs tx.txHash).isSome = _) hc rfl (puts_insert cfg o b tx _) ?_ ?_ ?_)
      · exact fun k hk => hk.1.symm
      · rintro k ⟨rfl, hk⟩
        exact Option.not_isSome_iff_eq_none.1 (by rw [hk]; exact Bool.false_ne_true)
      · intro a b hs ha
        rw [hs _ rfl]; exact ha
    | callPropose t now id =>
      exact h.start rfl (x := .callPropose t now id) rfl (fun hc => .pool hc trivial (puts_propose cfg now id) (fun _ h => h.elim) (fun _ h => h.elim)
        (fun _ _ _ _ => trivial))
    | callCheck t p1 p2 hash pill =>
      refine h.start rfl (x := .callCheck t p1 p2 hash pill) rfl (fun hc => .pool hc trivial (puts_check t p1 p2 hash pill) (fun _ h => h) ?_
        (fun _ _ _ _ => trivial))
      have hnode : ((Conf.after cfg n E).start t (.check p1 p2 hash pill)).node = (Conf.after cfg n E).node := by unfold Conf.start; split <;> rfl
      rw [hnode]
      exact fun k hk => hr.fresh E t p1 p2 hash pill [] rfl k hk
    | run t =>
      have hc := after_snoc cfg n E (.run t)
      generalize hC : (Conf.after cfg n E).step cfg (.run t) = C at hc ⊢
      simp only [Conf.step] at hC
      -- tasks other than `t`
      have hother (ht : ∀ t', t' ≠ t → C.tasks t' = (Conf.after cfg n E).tasks t')
          (hh : ∀ t', t' ≠ t → (Conf.after cfg n E).held .engine = some t' → C.held .engine = some t')
          (hw : ∀ t', t' ≠ t → ∀ io id pill proof ph, Calling cfg n E t' (.callCommit t' io id pill proof) →
            (Conf.after cfg n E).held .engine = some t' →
            Phase.Holds older pill.epoch.orderedTxHashes ph (Conf.after cfg n E).node → Phase.Holds older pill.epoch.orderedTxHashes ph C.node)
          (hp : ∀ t', t' ≠ t → ∀ e, Calling cfg n E t' e → ∀ k, e.Gives k → C.node.store.txs k = (Conf.after cfg n E).node.store.txs k)
          (t' : Nat) (ht' : t' ≠ t) (p : Prog) (hs : C.tasks t' = some p) : Doing cfg n older (E ++ [.run t]) C t' p :=
        (h.tasks t' p (by rw [← ht t' ht']; exact hs)).move _ hc (by rw [hs]; rfl) (hh t' ht') (hw t' ht') (hp t' ht')
      have hquiet {C' : Conf} (hC' : C = C') (hn : C'.node = (Conf.after cfg n E).node) (ht : ∀ t', t' ≠ t → C'.tasks t' = (Conf.after cfg n E).tasks t')
          (hh : ∀ t', t' ≠ t → (Conf.after cfg n E).held .engine = some t' → C'.held .engine = some t')
          (hme : ∀ p, C'.tasks t = some p → Doing cfg n older (E ++ [.run t]) C t p) : Sched cfg n older (E ++ [.run t]) C := by
        subst hC'
        refine ⟨by rw [hn]; exact h.base, fun t' p hs => ?_⟩
        by_cases he : t' = t
        · subst he; exact hme p hs
        · exact hother ht hh (fun _ _ _ _ _ _ _ _ _ h => by rw [hn]; exact h) (fun _ _ _ _ _ _ => by rw [hn]) t' he p hs
      cases htask : (Conf.after cfg n E).tasks t with
      | none =>
        rw [htask] at hC
        exact hquiet hC.symm rfl (fun _ _ => rfl) (fun _ _ h => h) (fun p hp => by rw [htask] at hp; cases hp)
      | some p =>
        rw [htask] at hC
        have hd := h.tasks t p htask
        cases hd with
        | done r =>
          refine hquiet hC.symm rfl (fun t' ht => ?_) (fun _ _ h => h) (fun p hp => ?_)
          · simp [Conf.setTask, ht]
          · simp [Conf.setTask] at hp
        | @wait io id pill proof hcall =>
          obtain ⟨body, busy, hcom, hbusy⟩ : ∃ body busy, Prog.commit cfg io id pill proof = .lock .engine body busy ∧ ∃ r, busy = .ret r :=
            ⟨_, _, rfl, _, rfl⟩
          rw [hcom] at hC htask
          simp only at hC
          have hst (q : Prog) (hq : C.tasks t = some q) : Calling cfg n (E ++ [.run t]) t (.callCommit t io id pill proof) :=
            hcall.snoc _ (by rw [hc, hq]; rfl)
          split at hC
          · rename_i hfree
            refine hquiet hC.symm rfl (fun t' ht => ?_) (fun t' ht hh => ?_) (fun q hq => ?_)
            · simp [Conf.setTask, Conf.setLock, ht]
            · rw [hh] at hfree; cases hfree
            · have hqb : body = q := by simpa [Conf.setTask] using hq
              subst hqb
              refine .work (hst body (by rw [← hC]; exact hq)) (by rw [← hC]; simp [Conf.setTask, Conf.setLock]) (ph := .quiet) ?_
                (com_commit cfg older io id pill proof hcom)
              rw [← hC]; exact h.base
          · refine hquiet hC.symm rfl (fun t' ht => ?_) (fun _ _ h => h) (fun q hq => ?_)
            · simp [Conf.setTask, ht]
            · obtain ⟨r, rfl⟩ := hbusy
              have hqb : Prog.ret r = q := by simpa [Conf.setTask] using hq
              subst hqb; exact .done r
        | @work io id pill proof p ph hcall hheld hph hcom =>
          cases p with
          | ret r => exact hcom.elim
          | lock l a b => exact hcom.elim
          | unlock l k =>
            obtain ⟨rfl, r, rfl⟩ := hcom
            refine hquiet hC.symm rfl (fun t' ht => ?_) (fun t' ht hh => ?_) (fun q hq => ?_)
            · simp [Conf.setTask, Conf.setLock, ht]
            · rw [hheld] at hh; cases hh; exact absurd rfl ht
            · have hqb : Prog.ret r = q := by simpa [Conf.setTask] using hq
              subst hqb; exact .done r
          | act f k =>
            obtain ⟨hout, -, ph', hph', hk⟩ := hcom _ hph
            have hn : C.node = f (Conf.after cfg n E).node := by rw [← hC]; rfl
            have hh : C.held = (Conf.after cfg n E).held := by rw [← hC]; rfl
            have hts : C.tasks t = some (k (Conf.after cfg n E).node) := by rw [← hC]; simp [Conf.setTask]
            refine ⟨by rw [hn]; exact hph'.base, fun t' q hs => ?_⟩
            by_cases he : t' = t
            · subst he
              rw [hts] at hs
              injection hs with hs
              subst hs
              exact .work (hcall.snoc _ (by rw [hc, hts]; rfl)) (by rw [hh]; exact hheld) (by rw [hn]; exact hph') hk
            · refine hother (fun t' ht => ?_) (fun t' _ => by rw [hh]; exact _root_.id) (fun t' ht io id pill proof ph _ hh2 _ => ?_)
                (fun t' _ e he k hk => ?_) t' he q hs
              · rw [← hC]; simp [Conf.setTask, ht]
              · rw [hheld] at hh2; cases hh2; exact absurd rfl ht
              · rw [hn]; exact hout k (hl.now hcall he hk)
        | @pool e R X p hcall hR hputs hgive hnone hstab =>
          cases p with
          | ret r =>
            refine hquiet hC.symm rfl (fun t' ht => ?_) (fun _ _ h => h) (fun p hp => ?_)
            · simp [Conf.setTask, ht]
            · simp [Conf.setTask] at hp
          | lock l a b => exact hputs.elim
          | unlock l k => exact hputs.elim
          | act f k =>
            obtain ⟨hps, hk⟩ := hputs _ hR h.base.good
            have hn : C.node = f (Conf.after cfg n E).node := by rw [← hC]; rfl
            have hh : C.held = (Conf.after cfg n E).held := by rw [← hC]; rfl
            have hts : C.tasks t = some (k (Conf.after cfg n E).node) := by rw [← hC]; simp [Conf.setTask]
            have hstore : C.node.store = (Conf.after cfg n E).node.store := by rw [hn, hps.same.store]
            refine ⟨by rw [hn]; exact h.base.poolStep hps hnone, fun t' q hs => ?_⟩
            by_cases he : t' = t
            · subst he
              rw [hts] at hs
              injection hs with hs
              subst hs
              exact .pool (hcall.snoc _ (by rw [hc, hts]; rfl)) (hstab _ _ (fun _ _ => by rw [hstore]) hR) hk hgive (by rw [hstore]; exact hnone) hstab
            · refine hother (fun t' ht => ?_) (fun t' _ => by rw [hh]; exact _root_.id) (fun t' ht io id pill proof ph hcm _ hph => ?_)
                (fun t' _ e he k hk => by rw [hstore]) t' he q hs
              · rw [← hC]; simp [Conf.setTask, ht]
              · rw [hn]; exact hph.poolStep hps hnone (fun k hk => hl.now hcm hcall (hgive k hk))

/-! ### The theorem -/

theorem handleInit_keeps_txs {cfg : NodeCfg} {g : Genesis} {s s' : Store} {t t' : StateDB} (hi : handleInit cfg g s t = some (s', t')) :
    s'.txs = s.txs := by
  unfold handleInit at hi
  split at hi
  · injection hi with hi; injection hi with hi _; subst hi; rfl
  · split at hi
    · injection hi with hi; injection hi with hi _; subst hi; rfl
    · cases hi

theorem Base.start {cfg : NodeCfg} {g : Genesis} {s s' : Store} {t t' : StateDB} {n : Node} {older : List Done}
    (hs : ∀ d ∈ older, ∀ x ∈ d.txs, (s.txs x.txHash).isSome) (ho : ExecutedOnce older) (hi : handleInit cfg g s t = some (s', t'))
    (hn : startNode cfg s' t' = some n) : Base older n := by
  obtain ⟨e, -, h1, -, -, hl, -, hp⟩ := startNode_some hn
  refine ⟨?_, ?_, ?_, ?_, ?_, ?_⟩
  · rw [hp]; exact after_good cfg.mem cfg.poolSize cfg.timeoutGap []
  · rw [hp]; exact fun _ _ h => (by cases h)
  · rw [hp]; exact fun _ _ h => (by cases h)
  · rw [hp]; exact fun _ _ h => (by cases h)
  · rw [hl, h1, handleInit_keeps_txs hi]; exact hs
  · rw [hl]; exact ho

theorem CHistory.base {cfg : NodeCfg} {g : Genesis} {n : Node} {older : List Done} (h : CHistory cfg g (RaceFree cfg) n older) : Base older n := by
  induction h with
  | init evs h1 h2 hr => exact (Sched.after (Base.start (fun d hd => by cases hd) .nil h1 h2) evs hr).base
  | restart evs _ h1 h2 hr ih => exact (Sched.after (Base.start ih.stored ih.once h1 h2) evs hr).base

/-- **C101 (partial: in the absence of the races, `RaceFree`; see `C101_refuted` for one of them).**  In every lifetime of a node, whatever
insertions, proposals, checks and commits overlap and however their accesses are interleaved, with crashes and restarts: if nothing is
synchronised, peers send on request only transactions that were not committed, and no transaction is given to the node while the node
commits it, then no transaction is executed in two epochs; and none that was executed can be proposed again, for the pool holds only
transactions that are not stored, and what was executed is stored. -/
theorem C101_partial {cfg : NodeCfg} {g : Genesis} {n : Node} {older : List Done} (h : CHistory cfg g (RaceFree cfg) n older) :
    ExecutedOnce (n.log ++ older) ∧
    (∀ d ∈ n.log ++ older, ∀ t ∈ d.txs, (n.store.txs t.txHash).isSome ∧ ∀ x, ¬ n.pool.Knows t.txHash x) := by
  have hb := h.base
  refine ⟨hb.once, fun d hd t ht => ?_⟩
  have hs := hb.stored d hd t ht
  refine ⟨hs, fun x hk => ?_⟩
  rcases hk with hk | ⟨-, hk⟩
  · rw [hb.cache _ _ hk] at hs; cases hs
  · rw [hb.callback _ _ hk] at hs; cases hs

/-! ### The race -/

/-- The pill a task has proposed. -/
def pillOf : Option Prog → Option Pill
  | some (.ret (.propose (.ok (p, _)))) => some p
  | _ => none

theorem pillOf_some {x : Option Prog} (h : (pillOf x).isSome = true) (d : Pill) : ∃ hash, x = some (.ret (.propose (.ok ((pillOf x).getD d, hash)))) := by
  revert h
  unfold pillOf
  split
  · rename_i p hash
    exact fun _ => ⟨hash, rfl⟩
  · intro h; cases h

/-- The accesses of tasks, insertions of `T` and proposals. -/
def Event.Ordinary (T : SignedTx) : Event → Prop
  | .run _ => True
  | .callInsert _ _ _ tx => tx = T
  | .callPropose _ _ _ => True
  | _ => False

theorem ordinary_runs {T : SignedTx} {t k : Nat} : ∀ e ∈ Demo.runs t k, e.Ordinary T := by
  intro e he
  rw [List.eq_of_mem_replicate he]
  trivial

theorem ordinary_insert {T : SignedTx} {t : Nat} : ∀ e ∈ Demo.insertEvents t T, e.Ordinary T := by
  intro e he
  rcases List.mem_cons.1 he with rfl | he
  · rfl
  · exact ordinary_runs e he

namespace Demo

def late : SignedTx := npay 1 2 10

/-- A payment arrives, and the node proposes it. -/
def race1 : List Event := insertEvents 9 late ++ .callPropose 2 7 1 :: runs 2 4
def racePill1 : Pill := (pillOf ((Conf.after ncfg n0 race1).tasks 2)).getD noPill

/-- The node begins to commit the epoch, up to the flush of the pool. -/
def race2 : List Event := race1 ++ .callCommit 0 .ok 1 racePill1 (oproof 1) :: runs 0 5

/-- The payment arrives a second time; the commit goes on, and ends; the node proposes again. -/
def race3 : List Event := race2 ++ insertEvents 9 late ++ runs 0 9 ++ .run 2 :: .callPropose 2 7 2 :: runs 2 4
def racePill2 : Pill := (pillOf ((Conf.after ncfg n0 race3).tasks 2)).getD noPill

/-- The second epoch is committed. -/
def race4 : List Event := race3 ++ .callCommit 0 .ok 2 racePill2 (oproof 2) :: runs 0 14

end Demo

open Demo in
/-- **C101 is false of the code as it stands.**  A node takes the transactions of an epoch out of its pool before it executes them, and
records them as committed only after the execution; an insertion looks for the transaction in the pool and in the record.  So a copy of a
transaction that arrives in between - gossip of a second peer - is taken for new: the node proposes the payment again, and the payer pays
twice.  Everybody is honest here: the payment is signed, the events are insertions of it, proposals, and the commits of exactly what the
node itself has proposed at its own heights, with all writes succeeding. -/
theorem C101_refuted : ∃ (cfg : NodeCfg) (g : Genesis) (n : Node) (T : SignedTx) (pill1 pill2 : Pill) (proof1 proof2 : OverlordProof)
    (a b c : List Event),
    (∃ s t, handleInit cfg g Store.empty PMap.empty = some (s, t) ∧ startNode cfg s t = some n) ∧ Authorised cfg T ∧
    (∀ e ∈ a ++ b ++ c, e.Ordinary T) ∧
    (∃ hash, (Conf.after cfg n a).tasks 2 = some (.ret (.propose (.ok (pill1, hash))))) ∧
    (∃ hash, (Conf.after cfg n (a ++ .callCommit 0 .ok 1 pill1 proof1 :: b)).tasks 2 = some (.ret (.propose (.ok (pill2, hash))))) ∧
    n.status.stateRoot.bytes.take 2 = [100, 50] ∧
    let m := (Conf.after cfg n (a ++ .callCommit 0 .ok 1 pill1 proof1 :: b ++ .callCommit 0 .ok 2 pill2 proof2 :: c)).node
    m.log.map Done.txs = [[T], [T]] ∧ m.status.stateRoot.bytes.take 2 = [80, 70] := by
  have e3 : race3 = race1 ++ .callCommit 0 .ok 1 racePill1 (oproof 1) ::
      (runs 0 5 ++ insertEvents 9 late ++ runs 0 9 ++ .run 2 :: .callPropose 2 7 2 :: runs 2 4) := by
    simp only [race3, race2, List.append_assoc, List.cons_append]
  have h1 : (pillOf ((Conf.after ncfg n0 race1).tasks 2)).isSome = true := by decide +kernel
  have h2 : (pillOf ((Conf.after ncfg n0 race3).tasks 2)).isSome = true := by decide +kernel
  have h3 : n0.status.stateRoot.bytes.take 2 = [100, 50] := by decide +kernel
  have h4 : (Conf.after ncfg n0 race4).node.log.map Done.txs = [[late], [late]] := by decide +kernel
  have h5 : (Conf.after ncfg n0 race4).node.status.stateRoot.bytes.take 2 = [80, 70] := by decide +kernel
  refine ⟨ncfg, ngenesis, n0, late, racePill1, racePill2, oproof 1, oproof 2, race1,
    runs 0 5 ++ insertEvents 9 late ++ runs 0 9 ++ .run 2 :: .callPropose 2 7 2 :: runs 2 4, runs 0 14, n0_start, ⟨rfl, rfl⟩, ?_, pillOf_some h1 _, ?_, h3, ?_⟩
  · have hp (x : UInt64) : ∀ e ∈ Event.callPropose 2 7 x :: runs 2 4, e.Ordinary late := by
      intro e he
      rcases List.mem_cons.1 he with rfl | he
      · trivial
      · exact ordinary_runs e he
    intro e he
    simp only [List.mem_append, race1] at he
    rcases he with ((he | he) | ((he | he) | he) | he) | he
    · exact ordinary_insert e he
    · exact hp 1 e he
    · exact ordinary_runs e he
    · exact ordinary_insert e he
    · exact ordinary_runs e he
    · rcases List.mem_cons.1 he with rfl | he
      · trivial
      · exact hp 2 e he
    · exact ordinary_runs e he
  · rw [← e3]; exact pillOf_some h2 _
  · have e4 : race4 = race3 ++ .callCommit 0 .ok 2 racePill2 (oproof 2) :: runs 0 14 := by unfold race4; rfl
    rw [← e3, ← e4]
    generalize (Conf.after ncfg n0 race4).node = m at h4 h5 ⊢
    exact ⟨h4, h5⟩

/-! ### The hypotheses are met -/

/-- A check of `RaceFree` for schedules of insertions, proposals and commits: between the starts of an insertion and of a commit that orders
the inserted transaction, the one that started first has ended. -/
def raceCheck (cfg : NodeCfg) (n : Node) (evs : List Event) : Bool :=
  evs.all (fun e => match e with | .callSync .. => false | .callCheck .. => false | _ => true) &&
  (List.range evs.length).all fun j => match evs[j]? with
    | some (.callCommit t _ _ pill _) => (List.range evs.length).all fun i => match evs[i]? with
      | some (.callInsert t' _ _ tx) => !pill.epoch.orderedTxHashes.contains tx.txHash ||
          (decide (i < j) && (List.range (j + 2)).any fun x => decide (i < x) && ((Conf.after cfg n (evs.take x)).tasks t').isNone) ||
          (decide (j < i) && (List.range (i + 2)).any fun x => decide (j < x) && ((Conf.after cfg n (evs.take x)).tasks t).isNone)
      | _ => true
    | _ => true

theorem Calling.index {cfg : NodeCfg} {n : Node} {evs pre post : List Event} {t : Nat} {e : Event} (he : evs = pre ++ post) (h : Calling cfg n pre t e) :
    ∃ j, evs[j]? = some e ∧ j < pre.length ∧ ∀ x, j < x → x ≤ pre.length → ((Conf.after cfg n (evs.take x)).tasks t).isSome := by
  obtain ⟨p, q, rfl, -, -, hr⟩ := h
  subst he
  refine ⟨p.length, by simp, by simp, fun x h1 h2 => ?_⟩
  have hx : x = p.length + 1 + (x - p.length - 1) := by omega
  have := hr (q.take (x - p.length - 1)) (q.drop (x - p.length - 1)) (List.take_append_drop _ _).symm
  have e1 : (p ++ e :: q ++ post).take x = p ++ e :: q.take (x - p.length - 1) := by
    simp only [List.length_append, List.length_cons] at h2
    rw [List.take_append_of_le_length (by simp; omega), List.take_append, List.take_of_length_le (by omega)]
    have : x - p.length = (x - p.length - 1) + 1 := by omega
    rw [this]
    simp
  rw [e1]
  exact this

theorem raceFree_of_check {cfg : NodeCfg} {n : Node} {evs : List Event} (h : raceCheck cfg n evs = true) : RaceFree cfg n evs := by
  simp only [raceCheck, Bool.and_eq_true, List.all_eq_true, List.mem_range] at h
  obtain ⟨h1, h2⟩ := h
  refine ⟨fun t io msg hm => ?_, fun pre t p1 p2 ha pill post he => ?_, fun pre post he t io id pill proof t' e k hc hc' hg hk => ?_⟩
  · have := h1 _ hm; cases this
  · have := h1 (.callCheck t p1 p2 ha pill) (by rw [he]; simp); cases this
  · obtain ⟨j, hj, hjl, hja⟩ := hc.index he
    obtain ⟨i, hi, hil, hia⟩ := hc'.index he
    have hle : pre.length ≤ evs.length := by rw [he]; simp
    have hh := h2 j (by omega)
    rw [hj] at hh
    simp only [List.all_eq_true, List.mem_range] at hh
    have hh := hh i (by omega)
    rw [hi] at hh
    cases e with
    | callInsert u o b tx =>
      have hu : u = t' := by
        obtain ⟨_, _, _, ⟨p, hp⟩, _⟩ := hc'
        cases hp; rfl
      subst hu
      have hg : tx.txHash = k := hg
      subst hg
      simp only [List.contains_iff_mem.2 hk, Bool.not_true, Bool.false_or, Bool.or_eq_true, Bool.and_eq_true, decide_eq_true_eq, List.any_eq_true,
        List.mem_range] at hh
      rcases hh with ⟨hlt, x, hx, hx1, hx2⟩ | ⟨hlt, x, hx, hx1, hx2⟩
      · have := hia x hx1 (by omega)
        rw [Option.isNone_iff_eq_none.1 hx2] at this; cases this
      · have := hja x hx1 (by omega)
        rw [Option.isNone_iff_eq_none.1 hx2] at this; cases this
    | callCheck u p1 p2 ha pl =>
      have := h1 _ (List.mem_of_getElem? hi)
      cases this
    | _ => exact hg.elim

namespace Demo

def other : SignedTx := npay 2 1 5 1

/-- Another payment arrives while the first one is committed, and a proposal is made in between; the commit of the second one is cut off by
a crash after the flush. -/
def calm1 : List Event := race2 ++ insertEvents 9 other ++ .run 2 :: .callPropose 2 7 1 :: runs 2 3 ++ runs 0 9 ++ .run 2 :: .run 2 ::
  .callPropose 2 7 2 :: runs 2 4
def calmPill : Pill := (pillOf ((Conf.after ncfg n0 calm1).tasks 2)).getD noPill
def calm2 : List Event := calm1 ++ .callCommit 0 .ok 2 calmPill (oproof 2) :: runs 0 6

def calmData : Option Node := (handleInit ncfg ngenesis (Conf.after ncfg n0 calm2).node.store (Conf.after ncfg n0 calm2).node.tries).bind
  (fun x => startNode ncfg x.1 x.2)
def calmNode : Node := calmData.getD noNode

/-- After the restart the second payment arrives again, and is committed. -/
def calm3 : List Event := insertEvents 9 other ++ .callCommit 0 .ok 2 calmPill (oproof 2) :: runs 0 14

end Demo

open Demo in
theorem calm_history {ok : Node → List Event → Prop} (h1 : ok n0 calm2) (h2 : ok calmNode calm3) :
    CHistory ncfg ngenesis ok (Conf.after ncfg calmNode calm3).node ((Conf.after ncfg n0 calm2).node.log ++ []) := by
  obtain ⟨s, t, hi, hs⟩ := n0_start
  have hd : calmData.isSome = true := by decide +kernel
  have h0 : CHistory ncfg ngenesis ok (Conf.after ncfg n0 calm2).node [] := .init calm2 hi hs h1
  unfold calmNode at h2 ⊢
  unfold calmData at h2 hd ⊢
  cases hx : handleInit ncfg ngenesis (Conf.after ncfg n0 calm2).node.store (Conf.after ncfg n0 calm2).node.tries with
  | none => rw [hx] at hd; cases hd
  | some x =>
    rw [hx] at hd h2
    simp only [Option.bind_some] at hd h2 ⊢
    cases hy : startNode ncfg x.1 x.2 with
    | none => rw [hy] at hd; cases hd
    | some m =>
      rw [hy] at h2
      exact .restart calm3 h0 hx hy h2

open Demo in
theorem calm_log : (Conf.after ncfg calmNode calm3).node.log.map Done.txs = [[other]] ∧
    ((Conf.after ncfg n0 calm2).node.log ++ []).map Done.txs = [[late]] ∧ other ≠ late := by
  refine ⟨?_, ?_, ?_⟩ <;> decide +kernel

open Demo in
/-- The hypothesis of `C101_partial` is met by a lifetime with overlapping calls, a crash in the middle of a commit and a restart, in which
two payments are executed. -/
example : CHistory ncfg ngenesis (RaceFree ncfg) (Conf.after ncfg calmNode calm3).node ((Conf.after ncfg n0 calm2).node.log ++ []) :=
  calm_history (raceFree_of_check (by decide +kernel)) (raceFree_of_check (by decide +kernel))

open Demo in
/-- The race is one: the schedule of `C101_refuted` does not meet it. -/
example : ¬ RaceFree ncfg n0 race4 := by
  intro h
  obtain ⟨s, t, hi, hs⟩ := n0_start
  have hc := (C101_partial (CHistory.init race4 hi hs h)).1
  have h4 : (Conf.after ncfg n0 race4).node.log.map Done.txs = [[late], [late]] := by decide +kernel
  generalize (Conf.after ncfg n0 race4).node.log = l at hc h4
  rcases l with _ | ⟨a, _ | ⟨b, l⟩⟩
  · cases h4
  · simp at h4
  · simp only [List.map_cons, List.cons.injEq] at h4
    have := List.pairwise_cons.1 hc
    exact this.1 b (by simp) late (by rw [h4.1]; simp) late (by rw [h4.2.1]; simp) rfl

open Demo in
theorem calm_events {P : Event → Prop} (h1 : ∀ t, P (.run t)) (h2 : ∀ t, P (.callInsert t true true late) ∧ P (.callInsert t true true other))
    (h3 : ∀ t now id, P (.callPropose t now id)) (h4 : ∀ t io id pill proof, P (.callCommit t io id pill proof)) : 
    (∀ e ∈ calm2, P e) ∧ ∀ e ∈ calm3, P e := by
  have hr (t k : Nat) : ∀ e ∈ runs t k, P e := fun e he => by rw [List.eq_of_mem_replicate he]; exact h1 t
  have hi (t : Nat) : (∀ e ∈ insertEvents t late, P e) ∧ ∀ e ∈ insertEvents t other, P e := by
    refine ⟨fun e he => ?_, fun e he => ?_⟩
    · rcases List.mem_cons.1 he with rfl | he
      · exact (h2 t).1
      · exact hr _ _ e he
    · rcases List.mem_cons.1 he with rfl | he
      · exact (h2 t).2
      · exact hr _ _ e he
  have ha {a b : List Event} (x : ∀ e ∈ a, P e) (y : ∀ e ∈ b, P e) : ∀ e ∈ a ++ b, P e := fun e he =>
    (List.mem_append.1 he).elim (x e) (y e)
  have hcons {a : Event} {b : List Event} (x : P a) (y : ∀ e ∈ b, P e) : ∀ e ∈ a :: b, P e := fun e he => by
    rcases List.mem_cons.1 he with rfl | he
    · exact x
    · exact y e he
  have hn : ∀ e ∈ ([] : List Event), P e := fun e he => by cases he
  have r1 : ∀ e ∈ race1, P e := ha (hi 9).1 (hcons (h3 _ _ _) (hr _ _))
  have r2 : ∀ e ∈ race2, P e := ha r1 (hcons (h4 _ _ _ _ _) (hr _ _))
  have c1 : ∀ e ∈ calm1, P e := by
    unfold calm1
    exact ha (ha (ha (ha r2 (hi 9).2) (hcons (h1 2) (hcons (h3 _ _ _) (hr 2 3)))) (hr 0 9)) (hcons (h1 2) (hcons (h1 2) (hcons (h3 _ _ _) (hr 2 4))))
  refine ⟨ha c1 (hcons (h4 _ _ _ _ _) (hr _ _)), ha (hi 9).2 (hcons (h4 _ _ _ _ _) (hr _ _))⟩

open Demo in
/-- So do the hypotheses of `C90_concurrent`, `C93_concurrent_partial` and `C100_concurrent`. -/
example : CHistory ncfg ngenesis (fun _ _ => True) (Conf.after ncfg calmNode calm3).node ((Conf.after ncfg n0 calm2).node.log ++ []) ∧
    CHistory ncfg ngenesis (fun _ evs => ∀ e ∈ evs, e.Brings ncfg (Authorised ncfg)) (Conf.after ncfg calmNode calm3).node
      ((Conf.after ncfg n0 calm2).node.log ++ []) ∧
    CHistory ncfg ngenesis (fun _ evs => ∀ e ∈ evs, e.Hands (fun t => t = late ∨ t = other)) (Conf.after ncfg calmNode calm3).node
      ((Conf.after ncfg n0 calm2).node.log ++ []) := by
  have h1 := calm_events (P := fun e => e.Brings ncfg (Authorised ncfg)) (fun _ => trivial) (fun _ => ⟨fun h => h, fun h => h⟩) (fun _ _ _ => trivial)
    (fun _ _ _ _ _ => trivial)
  have h2 := calm_events (P := fun e => e.Hands (fun t => t = late ∨ t = other)) (fun _ => trivial) (fun _ => ⟨.inl rfl, .inr rfl⟩) (fun _ _ _ => trivial)
    (fun _ _ _ _ _ => trivial)
  exact ⟨calm_history trivial trivial, calm_history h1.1 h1.2, calm_history h2.1 h2.2⟩

end Huobi
