import Verif.Model.Mempool
import Verif.Props.TxCacheConc
/-
C23 – C28: the memory pool, over every history of calls with arbitrary answers of storage, peers and broadcaster.
-/
namespace Huobi

theorem callAll_append {S O R : Type} (f : S → O → R × S) (s : S) (xs ys : List O) :
    (callAll f s (xs ++ ys)).2 = (callAll f (callAll f s xs).2 ys).2 := by
  induction xs generalizing s with
  | nil => rfl
  | cons x xs ih => simp only [List.cons_append, callAll]; exact ih _

theorem CacheAfter.call {n : Nat} {ops : List CacheOp} {c : TxCache} (h : CacheAfter n ops c) (op : CacheOp) :
    CacheAfter n (ops ++ [op]) (c.call op).2 := by
  unfold CacheAfter at *
  rw [callAll_append, h]; rfl

theorem insert_snd (c : TxCache) (tx : SignedTx) (b : Bool) : (c.call (.insert tx b)).2 = (c.insert tx b).2 := rfl

/-- The pool's own cache is a transaction cache after some history of cache calls. -/
theorem step_cacheAfter (cr : MemCrypto) {n : Nat} {ops : List CacheOp} {p : MemPool} (h : CacheAfter n ops p.cache)
    (op : MemOp) : ∃ ops', CacheAfter n ops' (p.step cr op).cache := by
  cases op with
  | insert v o tx =>
    have hi := h.call (.insert tx false)
    rw [insert_snd] at hi
    simp only [MemPool.step, MemPool.insert]
    split
    · exact ⟨_, h⟩
    · cases hx : p.cache.insert tx false with
      | mk r c =>
        rw [hx] at hi
        cases r with
        | error e => exact ⟨_, hi⟩
        | ok u =>
          simp only
          split <;> exact ⟨_, hi⟩
  | package v l =>
    simp only [MemPool.step, MemPool.package]
    cases v.latest with
    | none => exact ⟨_, h⟩
    | some x => exact ⟨_, h.call (.package l x.2 (x.2 + p.gap))⟩
  | flush hs => exact ⟨_, h.call (.flush hs)⟩
  | getFullTxs hs => exact ⟨_, h⟩
  | ensureOrderTxs v hs =>
    simp only [MemPool.step, MemPool.ensureOrderTxs]
    split
    · exact ⟨_, h⟩
    · split
      · exact ⟨_, h⟩
      · split <;> exact ⟨_, h⟩
  | syncProposeTxs v hs =>
    simp only [MemPool.step, MemPool.syncProposeTxs]
    split
    · exact ⟨_, h⟩
    · split
      · exact ⟨_, h⟩
      · rename_i txs _
        have key : ∀ (txs : List SignedTx) (c : TxCache) (ops : List CacheOp), CacheAfter n ops c →
            ∃ ops', CacheAfter n ops' (txs.foldl (fun c tx => (c.insert tx true).2) c) := by
          intro txs
          induction txs with
          | nil => intro c ops h; exact ⟨_, h⟩
          | cons tx txs ih => intro c ops h; exact ih _ _ (h.call (.insert tx true))
        exact key txs _ _ h

theorem after_append (cr : MemCrypto) (n : Nat) (gap : UInt64) (ops : List MemOp) (op : MemOp) :
    MemPool.after cr n gap (ops ++ [op]) = (MemPool.after cr n gap ops).step cr op := by
  simp [MemPool.after, List.foldl_append]

theorem after_induct {cr : MemCrypto} {n : Nat} {gap : UInt64} {P : MemPool → Prop} (h0 : P (MemPool.new n gap))
    (hs : ∀ p op, P p → P (p.step cr op)) (ops : List MemOp) : P (MemPool.after cr n gap ops) := by
  have : ∀ (ops : List MemOp) (p : MemPool), P p → P (ops.foldl (MemPool.step cr) p) := by
    intro ops
    induction ops with
    | nil => intro p h; exact h
    | cons o os ih => intro p h; exact ih _ (hs p o h)
  exact this ops _ h0

/-- In every reachable pool the cache is a reachable cache. -/
theorem after_cache (cr : MemCrypto) (n : Nat) (gap : UInt64) (ops : List MemOp) :
    ∃ ops', CacheAfter (n * 2) ops' (MemPool.after cr n gap ops).cache :=
  after_induct (P := fun p => ∃ ops', CacheAfter (n * 2) ops' p.cache) ⟨[], rfl⟩
    (fun p op h => h.elim fun _ h => step_cacheAfter cr h op) ops

theorem step_const (cr : MemCrypto) (p : MemPool) (op : MemOp) :
    (p.step cr op).poolSize = p.poolSize ∧ (p.step cr op).gap = p.gap := by
  cases op with
  | insert v o tx =>
    simp only [MemPool.step, MemPool.insert]
    split
    · exact ⟨rfl, rfl⟩
    · cases hx : p.cache.insert tx false with
      | mk r c => cases r with
        | error e => exact ⟨rfl, rfl⟩
        | ok u => simp only; split <;> exact ⟨rfl, rfl⟩
  | package v l =>
    simp only [MemPool.step, MemPool.package]; split <;> exact ⟨rfl, rfl⟩
  | flush hs => exact ⟨rfl, rfl⟩
  | getFullTxs hs => exact ⟨rfl, rfl⟩
  | ensureOrderTxs v hs =>
    simp only [MemPool.step, MemPool.ensureOrderTxs]
    split
    · exact ⟨rfl, rfl⟩
    · split
      · exact ⟨rfl, rfl⟩
      · split <;> exact ⟨rfl, rfl⟩
  | syncProposeTxs v hs =>
    simp only [MemPool.step, MemPool.syncProposeTxs]
    split
    · exact ⟨rfl, rfl⟩
    · split <;> exact ⟨rfl, rfl⟩

theorem after_const (cr : MemCrypto) (n : Nat) (gap : UInt64) (ops : List MemOp) :
    (MemPool.after cr n gap ops).poolSize = n ∧ (MemPool.after cr n gap ops).gap = gap :=
  after_induct (P := fun p => p.poolSize = n ∧ p.gap = gap) ⟨rfl, rfl⟩
    (fun p op h => by rw [(step_const cr p op).1, (step_const cr p op).2]; exact h) ops

/-- Queue slots in use: every transaction inserted keeps its slot until the next package, even when it is flushed. -/
def MemPool.slots (p : MemPool) : Nat := (p.cache.queue p.cache.isZero).length

/-! ## C23 -/

/-- The admission rules in the order in which they are checked, each with the error for its violation. -/
def admissionRules (cr : MemCrypto) (v : MemView) (p : MemPool) (tx : SignedTx) : List (Prop × MemErr) :=
  [ (p.cache.len < p.poolSize, .reachLimit p.poolSize),
    (p.cache.get tx.txHash = none, .dup tx.txHash),
    (cr.sigOk tx.txHash tx.signature tx.pubkey = true, .checkSig tx.txHash),
    (cr.rawHash tx.raw = tx.txHash, .checkHash tx.txHash (cr.rawHash tx.raw)),
    (v.latest.isSome = true, .other "get_latest_epoch"),
    (∀ c e, v.latest = some (c, e) → c = tx.raw.chainId, .wrongChain tx.txHash),
    (∀ c e, v.latest = some (c, e) → tx.raw.timeout ≤ e + v.gap, .invalidTimeout tx.txHash),
    (∀ c e, v.latest = some (c, e) → e ≤ tx.raw.timeout, .timeout tx.txHash tx.raw.timeout),
    (v.stored tx.txHash ≠ .found, .committedTx tx.txHash),
    (v.stored tx.txHash = .getNone, .other "get_transaction_by_hash") ]

/-- `e` is the error of the first violated rule. -/
def FirstViolated (rules : List (Prop × MemErr)) (e : MemErr) : Prop :=
  ∃ before P after, rules = before ++ (P, e) :: after ∧ (∀ r ∈ before, r.1) ∧ ¬ P

/-- Two pools that answer the same: same stored transactions, same callback transactions, same slots. -/
def MemPool.Same (p q : MemPool) : Prop :=
  (∀ h, p.cache.get h = q.cache.get h) ∧ p.cache.len = q.cache.len ∧ p.callback = q.callback ∧ p.slots = q.slots ∧
  p.poolSize = q.poolSize ∧ p.gap = q.gap

theorem contain_iff (c : TxCache) (h : Hash) : c.contain h = true ↔ c.get h ≠ none := by
  simp only [TxCache.contain, TxCache.get, TxMap.containsKey_eq]
  cases c.map.get h <;> simp

/-- What the five checks of `insert` decide. -/
def MemPool.checks (cr : MemCrypto) (v : MemView) (tx : SignedTx) (p : MemPool) : Except MemErr Unit := do
    p.checkReachLimit
    p.checkExist tx.txHash
    MemPool.checkSignature cr tx
    MemPool.checkTransaction cr v tx
    MemPool.checkStorageExist v tx.txHash

theorem checks_spec (cr : MemCrypto) (v : MemView) (p : MemPool) (tx : SignedTx) :
    (p.checks cr v tx = .ok () ∧ ∀ r ∈ admissionRules cr v p tx, r.1) ∨
    (∃ e, p.checks cr v tx = .error e ∧ FirstViolated (admissionRules cr v p tx) e) := by
  unfold MemPool.checks
  -- 1: pool size
  by_cases h1 : p.cache.len < p.poolSize
  swap
  · right
    refine ⟨_, ?_, [], _, _, rfl, by simp, h1⟩
    simp only [MemPool.checkReachLimit]; rw [if_pos (by omega)]; rfl
  have e1 : p.checkReachLimit = .ok () := by simp only [MemPool.checkReachLimit]; rw [if_neg (by omega)]
  rw [e1]
  -- 2: duplicate
  by_cases h2 : p.cache.get tx.txHash = none
  swap
  · right
    refine ⟨_, ?_, [_], _, _, rfl, by simpa using h1, h2⟩
    simp only [MemPool.checkExist]; rw [if_pos ((contain_iff _ _).2 h2)]; rfl
  have e2 : p.checkExist tx.txHash = .ok () := by
    simp only [MemPool.checkExist]; rw [if_neg (fun h => (contain_iff _ _).1 h h2)]
  rw [e2]
  -- 3: signature
  by_cases h3 : cr.sigOk tx.txHash tx.signature tx.pubkey = true
  swap
  · right
    refine ⟨_, ?_, [_, _], _, _, rfl, by simpa using ⟨h1, h2⟩, h3⟩
    simp only [MemPool.checkSignature]; rw [if_neg h3]; rfl
  have e3 : MemPool.checkSignature cr tx = .ok () := by simp only [MemPool.checkSignature]; rw [if_pos h3]
  rw [e3]
  -- 4: hash
  by_cases h4 : cr.rawHash tx.raw = tx.txHash
  swap
  · right
    refine ⟨_, ?_, [_, _, _], _, _, rfl, by simpa using ⟨h1, h2, h3⟩, h4⟩
    simp only [MemPool.checkTransaction]; rw [if_pos h4]; rfl
  -- 5: latest epoch readable
  cases h5 : v.latest with
  | none =>
    right
    refine ⟨_, ?_, [_, _, _, _], _, _, rfl, by simpa using ⟨h1, h2, h3, h4⟩, by simp [h5]⟩
    simp only [MemPool.checkTransaction]; rw [if_neg (by simpa using h4)]; simp only [h5]; rfl
  | some x =>
    obtain ⟨c, e⟩ := x
    -- 6: chain
    by_cases h6 : c = tx.raw.chainId
    swap
    · right
      refine ⟨_, ?_, [_, _, _, _, _], _, _, rfl, by simpa [h5] using ⟨h1, h2, h3, h4⟩, by simpa [h5] using h6⟩
      simp only [MemPool.checkTransaction]; rw [if_neg (by simpa using h4)]; simp only [h5]; rw [if_pos h6]; rfl
    -- 7: too far
    by_cases h7 : tx.raw.timeout ≤ e + v.gap
    swap
    · right
      refine ⟨_, ?_, [_, _, _, _, _, _], _, _, rfl, by simpa [h5] using ⟨h1, h2, h3, h4, h6⟩, by simpa [h5] using h7⟩
      simp only [MemPool.checkTransaction]; rw [if_neg (by simpa using h4)]; simp only [h5]
      rw [if_neg (by simpa using h6), if_pos (by simpa using h7)]; rfl
    -- 8: expired
    by_cases h8 : e ≤ tx.raw.timeout
    swap
    · right
      refine ⟨_, ?_, [_, _, _, _, _, _, _], _, _, rfl, by simpa [h5] using ⟨h1, h2, h3, h4, h6, h7⟩, by simpa [h5] using h8⟩
      simp only [MemPool.checkTransaction]; rw [if_neg (by simpa using h4)]; simp only [h5]
      rw [if_neg (by simpa using h6), if_neg (by simpa using h7), if_pos (by simpa using h8)]; rfl
    have e4 : MemPool.checkTransaction cr v tx = .ok () := by
      simp only [MemPool.checkTransaction]; rw [if_neg (by simpa using h4)]; simp only [h5]
      rw [if_neg (by simpa using h6), if_neg (by simpa using h7), if_neg (by simpa using h8)]
    rw [e4]
    -- 9, 10: storage
    cases h9 : v.stored tx.txHash with
    | found =>
      right
      refine ⟨_, ?_, [_, _, _, _, _, _, _, _], _, _, rfl, by simpa [h5] using ⟨h1, h2, h3, h4, h6, h7, h8⟩, by simp [h9]⟩
      simp only [MemPool.checkStorageExist, h9]; rfl
    | failed =>
      right
      refine ⟨_, ?_, [_, _, _, _, _, _, _, _, _], _, _, rfl, by simpa [h5, h9] using ⟨h1, h2, h3, h4, h6, h7, h8⟩, by simp [h9]⟩
      simp only [MemPool.checkStorageExist, h9]; rfl
    | getNone =>
      left
      refine ⟨?_, by simpa [admissionRules, h5, h9] using ⟨h1, h2, h3, h4, h6, h7, h8⟩⟩
      simp only [MemPool.checkStorageExist, h9]; rfl


theorem firstViolated_not_all {rules : List (Prop × MemErr)} {e : MemErr} (h : FirstViolated rules e) : ¬ ∀ r ∈ rules, r.1 := by
  obtain ⟨b, P, a, rfl, _, hP⟩ := h
  intro hall
  exact hP (hall (P, e) (by simp))

theorem firstViolated_unique {rules : List (Prop × MemErr)} {e e' : MemErr} (h : FirstViolated rules e)
    (h' : FirstViolated rules e') : e = e' := by
  obtain ⟨b, P, a, rfl, hb, hP⟩ := h
  obtain ⟨b', P', a', heq, hb', hP'⟩ := h'
  induction b generalizing b' with
  | nil =>
    cases b' with
    | nil =>
      simp only [List.nil_append, List.cons.injEq, Prod.mk.injEq] at heq
      exact heq.1.2
    | cons r b' =>
      simp only [List.nil_append, List.cons_append, List.cons.injEq] at heq
      have := hb' r (by simp)
      rw [← heq.1] at this
      exact absurd this hP
  | cons r b ih =>
    cases b' with
    | nil =>
      simp only [List.nil_append, List.cons_append, List.cons.injEq] at heq
      have := hb r (by simp)
      rw [heq.1] at this
      exact absurd this hP'
    | cons r' b' =>
      simp only [List.cons_append, List.cons.injEq] at heq
      exact ih (fun x hx => hb x (by simp [hx])) b' heq.2 (fun x hx => hb' x (by simp [hx]))

theorem insert_unfold (cr : MemCrypto) (v : MemView) (o : Bool) (tx : SignedTx) (p : MemPool) :
    p.insert cr v o tx =
      match p.checks cr v tx with
      | .error e => (.error e, p)
      | .ok () =>
        match p.cache.insert tx false with
        | (.error e, c) => (.error e, { p with cache := c })
        | (.ok (), c) =>
          if o || v.broadcastOk then (.ok (), { p with cache := c })
          else (.error (.other "broadcast_tx"), { p with cache := c }) := rfl

theorem abs_slots (c : TxCache) : c.abs.slots = (c.queue c.isZero).length := rfl

/-- What the cache does with a new transaction. -/
theorem cache_insert {c : TxCache} (g : c.Good) {tx : SignedTx} {b : Bool} (hn : c.get tx.txHash = none) :
    ((c.queue c.isZero).length < c.cap ∧ (c.insert tx b).1 = .ok () ∧ (c.insert tx b).2.Good ∧
      (c.insert tx b).2.abs = ⟨c.abs.entries ++ [⟨tx, b⟩], c.abs.slots + 1, c.abs.cap⟩) ∨
    (c.cap ≤ (c.queue c.isZero).length ∧ (c.insert tx b).1 = .error (.insert tx.txHash) ∧ (c.insert tx b).2.Good ∧
      (c.insert tx b).2.abs = c.abs) := by
  obtain ⟨h1, h2, h3⟩ := g.call_refines (.insert tx b)
  simp only [TxCache.call, RefPool.call] at h1 h2 h3
  have hmem : tx.txHash ∉ hashesOf c.abs.entries := by
    rw [g.mem_hashes]
    simp only [TxCache.get, Option.map_eq_none_iff] at hn
    simp [hn]
  rw [if_neg hmem] at h1 h3
  by_cases hs : (c.queue c.isZero).length < c.cap
  · left
    rw [if_pos (show c.abs.slots < c.abs.cap from hs)] at h1 h3
    simp only [CacheOut.inserted.injEq] at h1
    exact ⟨hs, h1, h2, h3⟩
  · right
    rw [if_neg (show ¬ c.abs.slots < c.abs.cap from hs)] at h1 h3
    simp only [CacheOut.inserted.injEq] at h1
    exact ⟨by omega, h1, h2, h3⟩

theorem get_of_abs {c d : TxCache} (gc : c.Good) (gd : d.Good) (h : c.abs.entries = d.abs.entries) (k : Hash) :
    c.get k = d.get k := by
  rw [← gc.abs_get, ← gd.abs_get]; simp only [RefPool.get, h]

theorem get_append {c d : TxCache} (gc : c.Good) (gd : d.Good) {tx : SignedTx} {b : Bool}
    (h : d.abs.entries = c.abs.entries ++ [⟨tx, b⟩]) (hn : c.get tx.txHash = none) (k : Hash) :
    d.get k = if k = tx.txHash then some tx else c.get k := by
  ext t
  rw [get_eq_some gd, h]
  split
  · rename_i hk
    subst hk
    constructor
    · rintro ⟨e, he, rfl, hh⟩
      rw [List.mem_append, List.mem_singleton] at he
      rcases he with he | rfl
      · have := (get_eq_some gc).2 ⟨e, he, rfl, hh⟩
        rw [hn] at this; cases this
      · rfl
    · intro h; simp only [Option.some.injEq] at h; subst h
      exact ⟨⟨tx, b⟩, by simp, rfl, rfl⟩
  · rename_i hk
    rw [get_eq_some gc]
    constructor
    · rintro ⟨e, he, rfl, hh⟩
      rw [List.mem_append, List.mem_singleton] at he
      rcases he with he | rfl
      · exact ⟨e, he, rfl, hh⟩
      · exact absurd hh.symm hk
    · rintro ⟨e, he, h1, h2⟩; exact ⟨e, by simp [he], h1, h2⟩

theorem after_good (cr : MemCrypto) (n : Nat) (gap : UInt64) (ops : List MemOp) :
    (MemPool.after cr n gap ops).cache.Good := by
  obtain ⟨_, h⟩ := after_cache cr n gap ops; exact h.good

theorem call_cap {c : TxCache} (g : c.Good) (op : CacheOp) : (c.call op).2.cap = c.cap := by
  have h := (g.call_refines op).2.2
  have h' : ((c.call op).2.abs).cap = c.abs.cap := by
    rw [h]; cases op with
    | insert tx b =>
      simp only [RefPool.call]
      split
      · rfl
      · split <;> rfl
    | _ => rfl
  exact h'

theorem CacheAfter.cap {n : Nat} {ops : List CacheOp} {c : TxCache} (h : CacheAfter n ops c) : c.cap = n * 2 := by
  have : ∀ (ops : List CacheOp) (c : TxCache), c.Good → (callAll TxCache.call c ops).2.cap = c.cap := by
    intro ops
    induction ops with
    | nil => intro c _; rfl
    | cons o os ih =>
      intro c g
      simp only [callAll]
      rw [ih _ (g.call_refines o).2.1, call_cap g o]
  rw [← h, this _ _ (TxCache.good_new n)]; rfl

theorem after_cap (cr : MemCrypto) (n : Nat) (gap : UInt64) (ops : List MemOp) :
    (MemPool.after cr n gap ops).cache.cap = 4 * n := by
  obtain ⟨_, h⟩ := after_cache cr n gap ops
  rw [h.cap]; omega

/-- **C23, violated rules.**  In every pool: if some admission rule is violated, `insert` returns the error of
the first violated one and leaves the pool as it is. -/
theorem C23_violation_rejected (cr : MemCrypto) (v : MemView) (o : Bool) (tx : SignedTx) (p : MemPool) {e : MemErr}
    (h : FirstViolated (admissionRules cr v p tx) e) : p.insert cr v o tx = (.error e, p) := by
  rw [insert_unfold]
  rcases checks_spec cr v p tx with ⟨_, h2⟩ | ⟨e', h1, h2⟩
  · exact absurd h2 (firstViolated_not_all h)
  · rw [h1, firstViolated_unique h h2]

/-- **C23, the true part.**  In every reachable pool with a free queue slot (there are `4 * pool_size` of them), if the
broadcaster accepts the transaction or it came from the network: `insert` returns `Ok` exactly when all admission
rules hold; then the pool holds the transaction in addition to what it held; otherwise it returns the error of
the first violated rule and the pool is unchanged.  (`C23_full_queue_refuted`, `C23_broadcast_refuted`: the two
conditions are needed.) -/
theorem C23_admission_partial (cr : MemCrypto) (n : Nat) (gap : UInt64) (ops : List MemOp) (v : MemView) (o : Bool)
    (tx : SignedTx) {p : MemPool} (hp : MemPool.after cr n gap ops = p) (hslot : p.slots < 4 * n)
    (hb : o = true ∨ v.broadcastOk = true) :
    ((p.insert cr v o tx).1 = .ok () ↔ ∀ r ∈ admissionRules cr v p tx, r.1) ∧
    (∀ e, (p.insert cr v o tx).1 = .error e ↔ FirstViolated (admissionRules cr v p tx) e) ∧
    ((p.insert cr v o tx).1 = .ok () → (∀ h, (p.insert cr v o tx).2.cache.get h = if h = tx.txHash then some tx else p.cache.get h) ∧
      (p.insert cr v o tx).2.cache.len = p.cache.len + 1) ∧
    ((p.insert cr v o tx).1 ≠ .ok () → (p.insert cr v o tx).2 = p) := by
  have g : p.cache.Good := by rw [← hp]; exact after_good cr n gap ops
  have hcap : p.cache.cap = 4 * n := by rw [← hp]; exact after_cap cr n gap ops
  rcases checks_spec cr v p tx with ⟨h1, h2⟩ | ⟨e, h1, h2⟩
  · have hn : p.cache.get tx.txHash = none := h2 (_, .dup tx.txHash) (by simp [admissionRules])
    rcases cache_insert (b := false) g hn with ⟨_, h3, h4, h5⟩ | ⟨hfull, _⟩
    swap
    · simp only [MemPool.slots] at hslot; omega
    have hres : p.insert cr v o tx = (.ok (), { p with cache := (p.cache.insert tx false).2 }) := by
      rw [insert_unfold, h1]
      cases hx : p.cache.insert tx false with
      | mk r c =>
        rw [hx] at h3
        simp only at h3
        subst h3
        simp only
        rw [if_pos (by rcases hb with h | h <;> simp [h])]
    rw [hres]
    refine ⟨⟨fun _ => h2, fun _ => rfl⟩, ?_, ?_, ?_⟩
    · intro e
      constructor
      · intro h; cases h
      · intro h; exact absurd h2 (firstViolated_not_all h)
    · intro _
      refine ⟨fun h => get_append g h4 (by rw [h5]) hn h, ?_⟩
      show (p.cache.insert tx false).2.len = _
      rw [← h4.abs_len, ← g.abs_len, h5]; simp
    · intro h; exact absurd rfl h
  · have hres : p.insert cr v o tx = (.error e, p) := C23_violation_rejected cr v o tx p h2
    rw [hres]
    refine ⟨⟨(fun h => by cases h), (fun h => absurd h (firstViolated_not_all h2))⟩, ?_, ?_, fun _ => rfl⟩
    · intro e'
      simp only [Except.error.injEq]
      constructor
      · rintro rfl; exact h2
      · intro h; exact firstViolated_unique h2 h
    · intro h; cases h

/-- **C23, all cases.**  Exactly what `insert` answers when all rules hold: a full queue is refused with the pool
unchanged; a broadcaster that fails makes `insert` return an error although the transaction is in the pool. -/
theorem C23_admission_rest (cr : MemCrypto) (n : Nat) (gap : UInt64) (ops : List MemOp) (v : MemView) (o : Bool)
    (tx : SignedTx) {p : MemPool} (hp : MemPool.after cr n gap ops = p)
    (hrules : ∀ r ∈ admissionRules cr v p tx, r.1) :
    (4 * n ≤ p.slots → (p.insert cr v o tx).1 = .error (.insert tx.txHash) ∧ (p.insert cr v o tx).2.Same p) ∧
    (p.slots < 4 * n → o = false → v.broadcastOk = false →
      (p.insert cr v o tx).1 = .error (.other "broadcast_tx") ∧
      (p.insert cr v o tx).2.cache.get tx.txHash = some tx) := by
  have g : p.cache.Good := by rw [← hp]; exact after_good cr n gap ops
  have hcap : p.cache.cap = 4 * n := by rw [← hp]; exact after_cap cr n gap ops
  have hc : p.checks cr v tx = .ok () := by
    rcases checks_spec cr v p tx with ⟨h1, _⟩ | ⟨e, _, h2⟩
    · exact h1
    · exact absurd hrules (firstViolated_not_all h2)
  have hn : p.cache.get tx.txHash = none := hrules (_, .dup tx.txHash) (by simp [admissionRules])
  rcases cache_insert (b := false) g hn with ⟨hs, h3, h4, h5⟩ | ⟨hs, h3, h4, h5⟩
  · refine ⟨fun h => by simp only [MemPool.slots] at h; omega, ?_⟩
    intro _ ho hb
    have hres : p.insert cr v o tx = (.error (.other "broadcast_tx"), { p with cache := (p.cache.insert tx false).2 }) := by
      rw [insert_unfold, hc]
      cases hx : p.cache.insert tx false with
      | mk r c =>
        rw [hx] at h3
        simp only at h3
        subst h3
        simp only
        rw [if_neg (by simp [ho, hb])]
    rw [hres]
    refine ⟨rfl, ?_⟩
    show (p.cache.insert tx false).2.get _ = _
    rw [get_append g h4 (by rw [h5]) hn, if_pos rfl]
  · refine ⟨fun _ => ?_, fun h => by simp only [MemPool.slots] at h; omega⟩
    have hres : p.insert cr v o tx = (.error (.insert tx.txHash), { p with cache := (p.cache.insert tx false).2 }) := by
      rw [insert_unfold, hc]
      cases hx : p.cache.insert tx false with
      | mk r c =>
        rw [hx] at h3
        simp only at h3
        subst h3
        rfl
    rw [hres]
    refine ⟨rfl, fun h => get_of_abs h4 g (by rw [h5]) h, ?_, rfl, ?_, rfl, rfl⟩
    · show (p.cache.insert tx false).2.len = _
      rw [← h4.abs_len, ← g.abs_len, h5]
    · show (p.cache.insert tx false).2.abs.slots = p.cache.abs.slots
      rw [h5]

/-! ## C25, C28 -/

/-- A call that does not take in transactions from a peer's proposal. -/
def MemOp.notSync : MemOp → Bool
  | .syncProposeTxs _ _ => false
  | _ => true

theorem insert_cases (cr : MemCrypto) (v : MemView) (o : Bool) (tx : SignedTx) {p : MemPool} (g : p.cache.Good) :
    (∀ h, (p.insert cr v o tx).2.cache.get h = p.cache.get h) ∧ (p.insert cr v o tx).2.cache.len = p.cache.len ∨
    (∀ r ∈ admissionRules cr v p tx, r.1) ∧
      (∀ h, (p.insert cr v o tx).2.cache.get h = if h = tx.txHash then some tx else p.cache.get h) ∧
      (p.insert cr v o tx).2.cache.len = p.cache.len + 1 := by
  rcases checks_spec cr v p tx with ⟨h1, h2⟩ | ⟨e, h1, h2⟩
  · have hn : p.cache.get tx.txHash = none := h2 (_, .dup tx.txHash) (by simp [admissionRules])
    have hres : (p.insert cr v o tx).2.cache = (p.cache.insert tx false).2 := by
      rw [insert_unfold, h1]
      cases hx : p.cache.insert tx false with
      | mk r c => cases r with
        | error e => rfl
        | ok u => simp only; split <;> rfl
    rw [hres]
    rcases cache_insert (b := false) g hn with ⟨_, h3, h4, h5⟩ | ⟨_, h3, h4, h5⟩
    · right
      refine ⟨h2, fun h => get_append g h4 (by rw [h5]) hn h, ?_⟩
      rw [← h4.abs_len, ← g.abs_len, h5]; simp
    · left
      refine ⟨fun h => get_of_abs h4 g (by rw [h5]) h, ?_⟩
      rw [← h4.abs_len, ← g.abs_len, h5]
  · left
    rw [C23_violation_rejected cr v o tx p h2]
    exact ⟨fun _ => rfl, rfl⟩

theorem package_cases (v : MemView) (l : UInt64) {p : MemPool} (g : p.cache.Good) :
    (∀ h tx, (p.package v l).2.cache.get h = some tx → p.cache.get h = some tx) ∧
    (p.package v l).2.cache.len ≤ p.cache.len := by
  unfold MemPool.package
  split
  · exact ⟨fun _ _ h => h, Nat.le_refl _⟩
  · rename_i c e _
    obtain ⟨_, g', h3⟩ := g.package_refines l e (e + p.gap)
    simp only [TxCache.call, RefPool.call] at g' h3
    refine ⟨?_, ?_⟩
    · intro h tx hg
      rw [get_eq_some g', h3] at hg
      obtain ⟨x, hx, h1⟩ := hg
      exact (get_eq_some g).2 ⟨x, List.mem_of_mem_filter hx, h1⟩
    · show (p.cache.package l e (e + p.gap)).2.len ≤ _
      rw [← g'.abs_len, ← g.abs_len, h3]
      exact List.length_filter_le _ _

theorem flush_len {c : TxCache} (g : c.Good) (hs : List Hash) : (c.flush hs).len ≤ c.len := by
  obtain ⟨g', e⟩ := g.flush_refines hs
  rw [← g'.abs_len, ← g.abs_len, e]
  exact List.length_filter_le _ _

theorem ensure_cache (v : MemView) (hs : List Hash) (p : MemPool) : (p.ensureOrderTxs v hs).2.cache = p.cache := by
  simp only [MemPool.ensureOrderTxs]
  split
  · rfl
  · split
    · rfl
    · split <;> rfl

/-- **C25, the true part.**  If calls do not overlap and no proposal is synchronised, the pool never holds more than
`pool_size` transactions. -/
theorem C25_pool_size_partial (cr : MemCrypto) (n : Nat) (gap : UInt64) (ops : List MemOp)
    (hs : ∀ op ∈ ops, op.notSync = true) : (MemPool.after cr n gap ops).cache.len ≤ n := by
  induction ops using List.reverseRecOn with
  | nil =>
    show (TxCache.new (n * 2)).len ≤ n
    rw [← (TxCache.good_new _).abs_len, TxCache.abs_new]; simp
  | append_singleton ops op ih =>
    have ih := ih (fun o ho => hs o (by simp [ho]))
    have hc := (after_const cr n gap ops).1
    have g := after_good cr n gap ops
    rw [after_append]
    generalize MemPool.after cr n gap ops = p at *
    cases op with
    | insert v o tx =>
      rcases insert_cases cr v o tx g with ⟨_, h⟩ | ⟨hr, _, h⟩
      · show (p.insert cr v o tx).2.cache.len ≤ n; omega
      · have := hr (p.cache.len < p.poolSize, .reachLimit p.poolSize) (by simp [admissionRules])
        show (p.insert cr v o tx).2.cache.len ≤ n
        simp only at this; omega
    | package v l => have := (package_cases v l g).2; show (p.package v l).2.cache.len ≤ n; omega
    | flush fs => have := flush_len g fs; show (p.cache.flush fs).len ≤ n; omega
    | getFullTxs _ => exact ih
    | ensureOrderTxs v fs => show (p.ensureOrderTxs v fs).2.cache.len ≤ n; rw [ensure_cache]; exact ih
    | syncProposeTxs v fs => have := hs _ (by simp : MemOp.syncProposeTxs v fs ∈ ops ++ [_]); cases this

/-- **C28, the true part.**  If no proposal is synchronised, every transaction in the pool was inserted by an `insert`
call of the history at which all admission rules held: in particular its signature verifies and its hash is
the digest of its content, its chain id was the chain's and its time-out in the window at that time. -/
theorem C28_pooled_checked_partial (cr : MemCrypto) (n : Nat) (gap : UInt64) (ops : List MemOp)
    (hs : ∀ op ∈ ops, op.notSync = true) {h : Hash} {tx : SignedTx}
    (hg : (MemPool.after cr n gap ops).cache.get h = some tx) :
    tx.txHash = h ∧ ∃ before v o after, ops = before ++ .insert v o tx :: after ∧
      (∀ r ∈ admissionRules cr v (MemPool.after cr n gap before) tx, r.1) ∧
      cr.sigOk tx.txHash tx.signature tx.pubkey = true ∧ cr.rawHash tx.raw = tx.txHash ∧
      ∃ c e, v.latest = some (c, e) ∧ c = tx.raw.chainId ∧ e ≤ tx.raw.timeout ∧ tx.raw.timeout ≤ e + v.gap := by
  refine ⟨by obtain ⟨e, _, _, h⟩ := (get_eq_some (after_good cr n gap ops)).1 hg; exact h, ?_⟩
  have key : ∃ before v o after, ops = before ++ .insert v o tx :: after ∧
      (∀ r ∈ admissionRules cr v (MemPool.after cr n gap before) tx, r.1) := by
    induction ops using List.reverseRecOn with
    | nil =>
      have h0 : (TxCache.new (n * 2)).get h = some tx := hg
      rw [get_eq_some (TxCache.good_new _), TxCache.abs_new] at h0
      obtain ⟨e, he, _⟩ := h0; cases he
    | append_singleton ops op ih =>
      have ih := ih (fun o ho => hs o (by simp [ho]))
      have g := after_good cr n gap ops
      rw [after_append] at hg
      have old : (MemPool.after cr n gap ops).cache.get h = some tx → ∃ before v o after,
          ops ++ [op] = before ++ .insert v o tx :: after ∧
          (∀ r ∈ admissionRules cr v (MemPool.after cr n gap before) tx, r.1) := by
        intro hg
        obtain ⟨b, v, o, a, e, hr⟩ := ih hg
        exact ⟨b, v, o, a ++ [op], by rw [e]; simp, hr⟩
      cases op with
      | insert v o tx' =>
        rcases insert_cases cr v o tx' g with ⟨h1, _⟩ | ⟨hr, h1, _⟩
        · exact old (by rw [← h1]; exact hg)
        · have hg' : (if h = tx'.txHash then some tx' else (MemPool.after cr n gap ops).cache.get h) = some tx := by
            rw [← h1]; exact hg
          split at hg'
          · simp only [Option.some.injEq] at hg'
            subst hg'
            exact ⟨ops, v, o, [], rfl, hr⟩
          · exact old hg'
      | package v l => exact old ((package_cases v l g).1 h tx hg)
      | flush fs =>
        refine old ?_
        have hg' : ((MemPool.after cr n gap ops).cache.flush fs).get h = some tx := hg
        rw [flush_get g] at hg'
        split at hg'
        · cases hg'
        · exact hg'
      | getFullTxs _ => exact old hg
      | ensureOrderTxs v fs =>
        refine old ?_
        have hg' : ((MemPool.after cr n gap ops).ensureOrderTxs v fs).2.cache.get h = some tx := hg
        rw [ensure_cache] at hg'; exact hg'
      | syncProposeTxs v fs => have := hs _ (by simp : MemOp.syncProposeTxs v fs ∈ ops ++ [_]); cases this
  obtain ⟨b, v, o, a, e, hr⟩ := key
  refine ⟨b, v, o, a, e, hr, ?_, ?_, ?_⟩
  · exact hr (_, .checkSig tx.txHash) (by simp [admissionRules])
  · exact hr (_, .checkHash tx.txHash (cr.rawHash tx.raw)) (by simp [admissionRules])
  · have h5 := hr (v.latest.isSome = true, .other "get_latest_epoch") (by simp [admissionRules])
    obtain ⟨⟨c, ep⟩, hl⟩ := Option.isSome_iff_exists.1 h5
    have h6 : ∀ c e, v.latest = some (c, e) → c = tx.raw.chainId := hr (_, .wrongChain tx.txHash) (by simp [admissionRules])
    have h7 : ∀ c e, v.latest = some (c, e) → e ≤ tx.raw.timeout :=
      hr (_, .timeout tx.txHash tx.raw.timeout) (by simp [admissionRules])
    have h8 : ∀ c e, v.latest = some (c, e) → tx.raw.timeout ≤ e + v.gap :=
      hr (_, .invalidTimeout tx.txHash) (by simp [admissionRules])
    exact ⟨c, ep, hl, h6 c ep hl, h7 c ep hl, h8 c ep hl⟩

end Huobi
