import Verif.Props.Frame
import Verif.Props.Spending
/-
C94: without the agreement of the validators no peer can extend or change a node's chain.
-/
namespace Huobi

/-- Received bytes are a message for the handler of announced heights. -/
def Announces (z : Compression) (raw : Bytes) : Prop :=
  ∃ m e, unframe z raw = some m ∧ Endpoint.parse m.url = .ok e ∧ e.root = Endpoint.root ⟨endRichEpochId⟩

/-- The node after it received messages: for each the answers of peers if a synchronisation starts, the session and the bytes. -/
def Node.receiveAll (z : Compression) (cfg : NodeCfg) (n : Node) (msgs : List (SyncIo × Nat × Bytes)) : Node :=
  msgs.foldl (fun n m => (n.receive z cfg m.1 m.2.1 m.2.2).2) n

/-- Everything a node could have accepted when the transaction was submitted to it by a user: signature, hash, chain and life time as
the latest epoch demands, and not executed before. -/
structure Admissible (cfg : NodeCfg) (n : Node) (t : SignedTx) : Prop where
  authorised : Authorised cfg t
  chain : ∃ e, n.store.latest = some e ∧ e.header.chainId = t.raw.chainId ∧ e.header.epochId ≤ t.raw.timeout ∧
    t.raw.timeout ≤ e.header.epochId + cfg.timeoutGap
  fresh : n.store.txs t.txHash = none

/-- What no message changes, and what messages can do to the pool. -/
structure Unmoved (cfg : NodeCfg) (n n' : Node) : Prop where
  store : n'.store = n.store
  tries : n'.tries = n.tries
  status : n'.status = n.status
  exempt : n'.exempt = n.exempt
  log : n'.log = n.log

/-- No pooled transaction is lost, and what is added is admissible. -/
structure PoolKept (cfg : NodeCfg) (n n' : Node) : Prop where
  kept : ∀ k t, n.pool.cache.get k = some t → n'.pool.cache.get k = some t
  callback : n'.pool.callback = n.pool.callback
  added : ∀ k t, n'.pool.cache.get k = some t → n.pool.cache.get k = some t ∨ (k = t.txHash ∧ Admissible cfg n t)

theorem insert_good (cr : MemCrypto) (v : MemView) (o : Bool) (tx : SignedTx) {p : MemPool} (g : p.cache.Good) :
    (p.insert cr v o tx).2.cache.Good := by
  rw [insert_unfold]
  split
  · exact g
  · have := (g.call_refines (.insert tx false)).2.1
    simp only [TxCache.call] at this
    generalize p.cache.insert tx false = x at this
    obtain ⟨r, c⟩ := x
    cases r with
    | error e => exact this
    | ok u => simp only; split <;> exact this

theorem insert_kept {cfg : NodeCfg} {n : Node} {p : MemPool} (g : p.cache.Good) (tx : SignedTx) (b o : Bool) :
    (∀ k t, p.cache.get k = some t → (p.insert cfg.mem (n.view cfg (fun _ => none) b) o tx).2.cache.get k = some t) ∧
    (∀ k t, (p.insert cfg.mem (n.view cfg (fun _ => none) b) o tx).2.cache.get k = some t →
      p.cache.get k = some t ∨ (k = t.txHash ∧ Admissible cfg n t)) := by
  rcases insert_cases cfg.mem (n.view cfg (fun _ => none) b) o tx g with ⟨h, -⟩ | ⟨h, h', -⟩
  · exact ⟨fun k t hk => by rw [h k]; exact hk, fun k t hk => .inl (by rw [← h k]; exact hk)⟩
  · have r1 := h (p.cache.get tx.txHash = none, .dup tx.txHash) (by simp [admissionRules])
    have r2 := h (cfg.mem.sigOk tx.txHash tx.signature tx.pubkey = true, .checkSig tx.txHash) (by simp [admissionRules])
    have r3 := h (cfg.mem.rawHash tx.raw = tx.txHash, .checkHash tx.txHash (cfg.mem.rawHash tx.raw)) (by simp [admissionRules])
    have r4 := h ((n.view cfg (fun _ => none) b).latest.isSome = true, .other "get_latest_epoch") (by simp [admissionRules])
    have r5 := h (∀ c e, (n.view cfg (fun _ => none) b).latest = some (c, e) → c = tx.raw.chainId, .wrongChain tx.txHash) (by simp [admissionRules])
    have r6 := h (∀ c e, (n.view cfg (fun _ => none) b).latest = some (c, e) → tx.raw.timeout ≤ e + (n.view cfg (fun _ => none) b).gap, .invalidTimeout tx.txHash)
      (by simp [admissionRules])
    have r7 := h (∀ c e, (n.view cfg (fun _ => none) b).latest = some (c, e) → e ≤ tx.raw.timeout, .timeout tx.txHash tx.raw.timeout)
      (by simp [admissionRules])
    have r8 := h ((n.view cfg (fun _ => none) b).stored tx.txHash ≠ .found, .committedTx tx.txHash) (by simp [admissionRules])
    constructor
    · intro k t hk
      rw [h' k, if_neg]
      · exact hk
      · rintro rfl; rw [r1] at hk; cases hk
    · intro k t hk
      rw [h' k] at hk
      split at hk
      · rename_i he
        injection hk with hk; subst hk
        refine .inr ⟨he, ⟨r2, r3.symm⟩, ?_, ?_⟩
        · simp only [Node.view] at r4 r5 r6 r7
          cases hl : n.store.latest with
          | none => rw [hl] at r4; cases r4
          | some e =>
            rw [hl] at r5 r6 r7
            exact ⟨e, rfl, r5 _ _ rfl, r7 _ _ rfl, r6 _ _ rfl⟩
        · simp only [Node.view] at r8
          cases hx : n.store.txs tx.txHash with
          | none => rfl
          | some y => rw [hx] at r8; simp at r8
      · exact .inl hk

theorem newTxs_kept (cfg : NodeCfg) (n : Node) (g : n.pool.cache.Good) (content : Bytes) :
    Unmoved cfg n (newTxsHandler cfg n content) ∧ PoolKept cfg n (newTxsHandler cfg n content) ∧ (newTxsHandler cfg n content).pool.cache.Good := by
  unfold newTxsHandler
  split
  · exact ⟨⟨rfl, rfl, rfl, rfl, rfl⟩, ⟨fun _ _ h => h, rfl, fun _ _ h => .inl h⟩, g⟩
  · rename_i txs _
    refine ⟨⟨rfl, rfl, rfl, rfl, rfl⟩, ?_⟩
    have key : ∀ (txs : List SignedTx) (p : MemPool), p.cache.Good →
        (∀ k t, p.cache.get k = some t → (txs.foldl (fun p tx => (p.insert cfg.mem (n.view cfg (fun _ => none) true) newTxsOrigin tx).2) p).cache.get k = some t) ∧
        (txs.foldl (fun p tx => (p.insert cfg.mem (n.view cfg (fun _ => none) true) newTxsOrigin tx).2) p).callback = p.callback ∧
        (∀ k t, (txs.foldl (fun p tx => (p.insert cfg.mem (n.view cfg (fun _ => none) true) newTxsOrigin tx).2) p).cache.get k = some t →
          p.cache.get k = some t ∨ (k = t.txHash ∧ Admissible cfg n t)) ∧
        (txs.foldl (fun p tx => (p.insert cfg.mem (n.view cfg (fun _ => none) true) newTxsOrigin tx).2) p).cache.Good := by
      intro txs
      induction txs with
      | nil => intro p gp; exact ⟨fun _ _ h => h, rfl, fun _ _ h => .inl h, gp⟩
      | cons tx txs ih =>
        intro p gp
        rw [List.foldl_cons]
        obtain ⟨a1, a2⟩ := insert_kept (cfg := cfg) (n := n) gp tx true newTxsOrigin
        obtain ⟨b1, b2, b3, b4⟩ := ih _ (insert_good cfg.mem (n.view cfg (fun _ => none) true) newTxsOrigin tx gp)
        exact ⟨fun k t h => b1 k t (a1 k t h), b2.trans (insert_callback _ _ _ _ _), fun k t h => (b3 k t h).elim (a2 k t) .inr, b4⟩
    obtain ⟨a, b, c, d⟩ := key txs n.pool g
    exact ⟨⟨a, b, c⟩, d⟩

theorem route_rich {url : Str} (hr : mainReactors.route url = .ok .richEpochId) :
    ∃ e, Endpoint.parse url = .ok e ∧ e.root = Endpoint.root ⟨endRichEpochId⟩ := by
  obtain ⟨e, e0, h1, h2, h3⟩ := route_mem hr
  rw [mainReactors_eq] at h2
  simp only [List.mem_cons, Prod.mk.injEq, reduceCtorEq, and_false, and_true, false_or, List.not_mem_nil, or_false] at h2
  subst h2
  exact ⟨e, h1, h3.symm⟩

/-- All a message can do. -/
theorem serve_cases (cfg : NodeCfg) (io : SyncIo) (n : Node) (sid : Nat) (url : Str) (content : Bytes) :
    (n.serve cfg io sid url content).2 = n ∨ (n.serve cfg io sid url content).2 = newTxsHandler cfg n content ∨
    (∃ e msg, Endpoint.parse url = .ok e ∧ e.root = Endpoint.root ⟨endRichEpochId⟩ ∧
      (n.serve cfg io sid url content).2 = (n.updateEpoch cfg io msg).2) := by
  unfold Node.serve
  split
  · rename_i h e hr he
    simp only
    split
    · exact .inl rfl
    · cases h <;> first | exact .inl rfl | exact .inr (.inl rfl) | skip
      obtain ⟨e', h1, h2⟩ := route_rich hr
      simp only
      split
      · exact .inr (.inr ⟨e', _, h1, h2, rfl⟩)
      · exact .inl rfl
  · exact .inl rfl

theorem receive_cases (z : Compression) (cfg : NodeCfg) (io : SyncIo) (n : Node) (sid : Nat) (raw : Bytes) :
    (n.receive z cfg io sid raw).2 = n ∨ (∃ content, (n.receive z cfg io sid raw).2 = newTxsHandler cfg n content) ∨
    (Announces z raw ∧ ∃ msg, (n.receive z cfg io sid raw).2 = (n.updateEpoch cfg io msg).2) := by
  unfold Node.receive
  split
  · exact .inl rfl
  · rename_i m hm
    simp only
    rcases serve_cases cfg io n sid m.url m.content with h | h | ⟨e, msg, h1, h2, h⟩
    · exact .inl h
    · exact .inr (.inl ⟨_, h⟩)
    · exact .inr (.inr ⟨⟨m, e, hm, h1, h2⟩, msg, h⟩)

theorem Unmoved.admissible {cfg : NodeCfg} {n n' : Node} (h : Unmoved cfg n n') {t : SignedTx} (ha : Admissible cfg n' t) : Admissible cfg n t := by
  obtain ⟨a, b, c⟩ := ha
  rw [h.store] at b c
  exact ⟨a, b, c⟩

/-- **C94 (partial).**  Whatever messages a node receives, from whomever and in whatever order: as long as none of them announces a height
they change neither the stored data, nor the states, nor the status of the node; they remove no transaction from the pool, and what they
add was signed by its owner, belongs to the chain, is within its life time and was not executed before. -/
theorem C94_messages_partial {z : Compression} {cfg : NodeCfg} {g : Genesis} {ok : Node → NodeOp → Prop} {n : Node} (h : Lives cfg g ok n)
    (msgs : List (SyncIo × Nat × Bytes)) (hm : ∀ m ∈ msgs, ¬ Announces z m.2.2) :
    Unmoved cfg n (n.receiveAll z cfg msgs) ∧ PoolKept cfg n (n.receiveAll z cfg msgs) := by
  have hg := h.good
  clear h
  suffices hs : Unmoved cfg n (n.receiveAll z cfg msgs) ∧ PoolKept cfg n (n.receiveAll z cfg msgs) ∧ (n.receiveAll z cfg msgs).pool.cache.Good from
    ⟨hs.1, hs.2.1⟩
  induction msgs generalizing n with
  | nil => exact ⟨⟨rfl, rfl, rfl, rfl, rfl⟩, ⟨fun _ _ h => h, rfl, fun _ _ h => .inl h⟩, hg⟩
  | cons m msgs ih =>
    have step : Unmoved cfg n (n.receive z cfg m.1 m.2.1 m.2.2).2 ∧ PoolKept cfg n (n.receive z cfg m.1 m.2.1 m.2.2).2 ∧
        (n.receive z cfg m.1 m.2.1 m.2.2).2.pool.cache.Good := by
      rcases receive_cases z cfg m.1 n m.2.1 m.2.2 with h | ⟨c, h⟩ | ⟨h, -⟩
      · rw [h]; exact ⟨⟨rfl, rfl, rfl, rfl, rfl⟩, ⟨fun _ _ h => h, rfl, fun _ _ h => .inl h⟩, hg⟩
      · rw [h]; exact newTxs_kept cfg n hg c
      · exact absurd h (hm m (by simp))
    obtain ⟨u, k, g1⟩ := step
    obtain ⟨u2, k2, g2⟩ := ih (fun x hx => hm x (List.mem_cons_of_mem _ hx)) g1
    refine ⟨⟨u2.store.trans u.store, u2.tries.trans u.tries, u2.status.trans u.status, u2.exempt.trans u.exempt, u2.log.trans u.log⟩,
      ⟨fun k' t hk => k2.kept k' t (k.kept k' t hk), k2.callback.trans k.callback, fun k' t hk => ?_⟩, g2⟩
    rcases k2.added k' t hk with h | ⟨h1, h2⟩
    · exact k.added k' t h
    · exact .inr ⟨h1, u.admissible h2⟩

/-- C94: no message of any kind, announcements included, removes a transaction from the pool. -/
theorem C94_nothing_evicted {z : Compression} {cfg : NodeCfg} {g : Genesis} {ok : Node → NodeOp → Prop} {n : Node} (h : Lives cfg g ok n)
    (msgs : List (SyncIo × Nat × Bytes)) {k : Hash} {t : SignedTx} (ht : n.pool.cache.get k = some t) :
    (n.receiveAll z cfg msgs).pool.cache.get k = some t := by
  have hg := h.good
  clear h
  induction msgs generalizing n with
  | nil => exact ht
  | cons m msgs ih =>
    have step : (n.receive z cfg m.1 m.2.1 m.2.2).2.pool.cache.get k = some t ∧ (n.receive z cfg m.1 m.2.1 m.2.2).2.pool.cache.Good := by
      rcases receive_cases z cfg m.1 n m.2.1 m.2.2 with h | ⟨c, h⟩ | ⟨-, msg, h⟩
      · rw [h]; exact ⟨ht, hg⟩
      · rw [h]; obtain ⟨-, h2, h3⟩ := newTxs_kept cfg n hg c; exact ⟨h2.kept k t ht, h3⟩
      · rw [h, updateEpoch_pool]; exact ⟨ht, hg⟩
    exact ih step.1 step.2

/-- C94: an announcement does nothing either, unless some peer answers with an epoch that names the latest epoch of the node as the one
before it (and the node has recorded an epoch after the genesis). -/
theorem C94_unlinked_ignored (z : Compression) (cfg : NodeCfg) (io : SyncIo) (n : Node) (sid : Nat) (raw : Bytes) {latest : Epoch}
    (hl : n.store.latest = some latest) (hs : n.store.epochs latest.header.epochId = some latest) (h0 : latest.header.epochId ≠ 0)
    (hio : ∀ k id e, io.pullEpoch k id = some e → e.header.preHash ≠ cfg.epochHash latest) :
    Unmoved cfg n (n.receive z cfg io sid raw).2 := by
  rcases receive_cases z cfg io n sid raw with h | ⟨c, h⟩ | ⟨-, msg, h⟩
  · rw [h]; exact ⟨rfl, rfl, rfl, rfl, rfl⟩
  · rw [h]; unfold newTxsHandler; split <;> exact ⟨rfl, rfl, rfl, rfl, rfl⟩
  · rw [h]
    have hc : n.currentId = latest.header.epochId := by unfold Node.currentId; rw [hl]
    have hst : ∃ e, n.syncStart cfg io n.currentId = .error e := by
      unfold Node.syncStart
      rw [hc, if_neg h0, hs]
      simp only
      cases hp : io.pullEpoch 0 (latest.header.epochId + 1) with
      | none => exact ⟨_, rfl⟩
      | some e => simp only; rw [if_pos (fun he => hio _ _ _ hp he.symm)]; exact ⟨_, rfl⟩
    obtain ⟨e, hst⟩ := hst
    have : (n.updateEpoch cfg io msg).2 = n := by
      unfold Node.updateEpoch
      split
      · rfl
      · simp only
        split
        · rfl
        · split
          · rfl
          · rw [hst]
    rw [this]; exact ⟨rfl, rfl, rfl, rfl, rfl⟩

/-! ### The refutation -/

theorem exec_empty (env : Env) (w : World) : ∃ resp w', Executes env w [] resp w' ∧ resp.stateRoot = env.rootOf w' :=
  ⟨_, _, ⟨rfl, rfl⟩, rfl⟩

/-- A state that can be opened. -/
def Opens (cfg : NodeCfg) (db : StateDB) (root : MerkleRoot) : Prop := root = cfg.emptyHash ∨ ∃ w, db root = some w

/-- Running an empty block on a state that can be opened succeeds and gives one that can be opened. -/
theorem runBlock_empty {cfg : NodeCfg} {db : StateDB} {root : MerkleRoot} (h : Opens cfg db root) (id price : UInt64) (cb : Address) :
    ∃ resp db', runBlock (cfg.env id price cb) db root [] = (some (.ok resp), db') ∧ Opens cfg db' resp.stateRoot := by
  have ho : ∃ w, fromRoot (cfg.env id price cb) db root = some (St.open w) := by
    unfold fromRoot
    by_cases he : root = (cfg.env id price cb).emptyHash
    · rw [if_pos he]; exact ⟨_, rfl⟩
    · rw [if_neg he]
      rcases h with h | ⟨w, hw⟩
      · exact absurd h he
      · rw [hw]; exact ⟨w, rfl⟩
  obtain ⟨w, hw⟩ := ho
  unfold runBlock
  rw [hw]
  simp only
  refine ⟨_, _, rfl, .inr ⟨(exec (cfg.env id price cb) [] (St.open w)).2.committed, ?_⟩⟩
  unfold StateDB.put PMap.set
  exact if_pos rfl

/-- A round of the synchronisation with an empty epoch that links. -/
theorem syncOne_empty {cfg : NodeCfg} {io : SyncIo} {k : Nat} {id : UInt64} {h r : Hash} {n : Node} {ep : Epoch}
    (hp : io.pullEpoch k id = some ep) (hl : ep.header.preHash = h) (ht : ep.orderedTxHashes = []) (hx : io.pullTxs k [] = some [])
    (hs : io.save k = .ok) (ho : Opens cfg n.tries r) :
    ∃ d n', n.syncOne cfg io k id h r = (.ok (cfg.epochHash ep, d.resp.stateRoot), n') ∧ d.epoch = ep ∧ d.proof = ep.header.proof ∧
      d.txs = [] ∧ n'.log = d :: n.log ∧ n'.store = n.store.writes (d.writes cfg) ∧ Opens cfg n'.tries d.resp.stateRoot := by
  rcases syncOne_effect cfg io k id h r n with ⟨e, n', he, -, -, -⟩ | ⟨d, n', he, hd, hr, h1, h2, h3⟩
  · exfalso
    unfold Node.syncOne at he
    rw [hp] at he
    simp only at he
    rw [if_neg (fun hc => hc.2 hl.symm)] at he
    have e1 : n.saveProof cfg (io.save k) ep.header.proof = (.ok (), { n with store := n.store.write (.latestProof ep.header.proof) }) := by
      rw [hs]; rfl
    rw [e1, ht, hx] at he
    simp only at he
    obtain ⟨resp, db', hrun, -⟩ := runBlock_empty ho ep.header.epochId n.status.cyclesPrice (.user ep.header.proposer)
    rcases exec_spec (cfg := cfg) (root := r) (id := ep.header.epochId) (cb := .user ep.header.proposer) (txs := [])
      (n := { n with store := n.store.write (.latestProof ep.header.proof) }) with ⟨e, hx⟩ | ⟨resp, db, hx, -⟩
    · unfold Node.exec at hx
      have hrun : runBlock (cfg.env ep.header.epochId ({ n with store := n.store.write (.latestProof ep.header.proof) } : Node).status.cyclesPrice (.user ep.header.proposer))
        ({ n with store := n.store.write (.latestProof ep.header.proof) } : Node).tries r [] = (some (.ok resp), db') := hrun
      rw [hrun] at hx
      cases hx
    · rw [hx] at he
      simp only [hs] at he
      cases he
  · have hde : d.epoch = ep := by have := hd.pulled; rw [hp] at this; injection this with this; exact this.symm
    have hdt : d.txs = [] := by
      have := hd.txs
      rw [hde, ht, hx] at this; injection this with this; exact this.symm
    refine ⟨d, n', by rw [he, hde], hde, by rw [hd.proof, hde], hdt, h3, h1, ?_⟩
    obtain ⟨resp, db', hrun, ho'⟩ := runBlock_empty ho d.height n.status.cyclesPrice (.user d.epoch.header.proposer)
    unfold Done.Ran at hr
    rw [hdt, hd.root, hrun] at hr
    injection hr with a b
    injection a with a; injection a with a
    rw [← a, ← b]; exact ho'

theorem u64_add_toNat {c k : UInt64} (h : c.toNat + k.toNat < 2 ^ 64) : (c + k).toNat = c.toNat + k.toNat := by
  rw [UInt64.toNat_add]; exact Nat.mod_eq_of_lt h

/-- **C94 is false of the code as it stands: one peer can extend and rewrite the chain of every node.**  Neither the proof nor the height
of an epoch that a peer sends is checked.  Take any node that has recorded an epoch after the genesis and whose state it can open, and any
two headers whatsoever - any proofs, heights, proposers, times and roots.  There are answers of a single peer and bytes of a message such that the
node, when it receives the message, records two epochs with exactly these headers (but for the hash of the epoch before, which anyone can
compute): its latest epoch is the second of them, and so is what it shows from now on at whatever height the peer wrote into that header,
even if the validators agreed on another epoch there. -/
theorem C94_refuted {z : Compression} (hz : z.Lossless) {cfg : NodeCfg} {n : Node} {latest : Epoch} (hl : n.store.latest = some latest)
    (hs : n.store.epochs latest.header.epochId = some latest) (h0 : latest.header.epochId ≠ 0) (hlt : latest.header.epochId.toNat + 3 < 2 ^ 64)
    (ho : Opens cfg n.tries latest.header.stateRoot) (sid : Nat) (a b : EpochHeader) :
    ∃ (io : SyncIo) (raw : Bytes) (d1 d2 : Done), (n.receive z cfg io sid raw).2.log = d2 :: d1 :: n.log ∧
      d1.epoch.header = { a with preHash := cfg.epochHash latest } ∧ d1.proof = a.proof ∧
      d2.epoch.header = { b with preHash := cfg.epochHash d1.epoch } ∧ d2.proof = b.proof ∧
      (n.receive z cfg io sid raw).2.queryEpoch none = some d2.epoch ∧
      (n.receive z cfg io sid raw).2.queryEpoch (some b.epochId) = some d2.epoch := by
  have hcur : n.currentId = latest.header.epochId := by unfold Node.currentId; rw [hl]
  generalize hc : latest.header.epochId = c at *
  let e1 : Epoch := ⟨{ a with preHash := cfg.epochHash latest }, []⟩
  let e2 : Epoch := ⟨{ b with preHash := cfg.epochHash e1 }, []⟩
  let io : SyncIo := { lock := true, pullEpoch := fun _ id => if id = c + 1 then some e1 else some e2
                       pullTxs := fun _ _ => some [], save := fun _ => .ok, send := true }
  have n1 : (1 : UInt64).toNat = 1 := rfl
  have n2 : (2 : UInt64).toNat = 2 := rfl
  have n0 : (0 : UInt64).toNat = 0 := rfl
  have hc2 : (c + 2).toNat = c.toNat + 2 := by
    have := u64_add_toNat (c := c) (k := 2) (by rw [n2]; omega)
    rw [this, n2]
  have hne : c + 2 ≠ 0 := by
    intro h
    have := congrArg UInt64.toNat h
    rw [hc2, n0] at this
    omega
  obtain ⟨raw, -, hraw⟩ := C82_announcement hz cfg io n sid (c + 2) hne (by rw [hc2]; omega)
  have hn' : (n.receive z cfg io sid raw).2 = (n.updateEpoch cfg io (u64LE (c.toNat + 3))).2 := by
    rw [hraw, hc2, Nat.add_assoc]
    simp only [Node.step]
  have hread : readU64LE (u64LE (c.toNat + 3)) = some (c.toNat + 3, []) := by
    have := readU64LE_u64LE (c.toNat + 3) hlt []
    rwa [List.append_nil] at this
  have hrich : UInt64.ofNat (c.toNat + 3) - 1 = c + 2 := by
    apply UInt64.toNat_inj.1
    have h3 : (UInt64.ofNat (c.toNat + 3)).toNat = c.toNat + 3 := by rw [UInt64.toNat_ofNat']; exact Nat.mod_eq_of_lt hlt
    rw [hc2, UInt64.toNat_sub_of_le _ _ (by rw [UInt64.le_iff_toNat_le, h3, n1]; omega), h3, n1]
    omega
  have hbehind : ¬ (c + 2 - 1 ≤ c) := by
    rw [UInt64.le_iff_toNat_le, UInt64.toNat_sub_of_le _ _ (by rw [UInt64.le_iff_toNat_le, hc2, n1]; omega), hc2, n1]
    omega
  have hids : syncIds c (c + 2) = [c + 1, c + 2] := by
    unfold syncIds
    rw [hc2, show c.toNat + 2 - c.toNat = 2 by omega]
    have h1 : c + 1 + UInt64.ofNat 0 = c + 1 := UInt64.add_zero _
    have h2 : c + 1 + UInt64.ofNat 1 = c + 2 := by rw [UInt64.add_assoc]; rfl
    have h3 : List.range 2 = [0, 1] := rfl
    rw [h3, List.map_cons, List.map_cons, List.map_nil, h1, h2]
  have hne12 : ¬ (c + 2 = c + 1) := by
    intro h
    have h1 : (c + 1).toNat = c.toNat + 1 := by
      have := u64_add_toNat (c := c) (k := 1) (by rw [n1]; omega)
      rw [this, n1]
    have := congrArg UInt64.toNat h
    rw [hc2, h1] at this
    omega
  have hstart : n.syncStart cfg io c = .ok (cfg.epochHash latest, latest.header.stateRoot) := by
    unfold Node.syncStart
    rw [if_neg h0, hs]
    have : io.pullEpoch 0 (c + 1) = some e1 := if_pos rfl
    simp only [this]
    rw [if_neg (fun hx => hx rfl)]
  obtain ⟨d1, m1, s1, s2, s3, -, s4, s5, s6⟩ := syncOne_empty (cfg := cfg) (io := io) (k := 1) (id := c + 1) (h := cfg.epochHash latest)
    (r := latest.header.stateRoot) (n := n) (ep := e1) (if_pos rfl) rfl rfl rfl rfl ho
  obtain ⟨d2, m2, t1, t2, t3, -, t4, t5, t6⟩ := syncOne_empty (cfg := cfg) (io := io) (k := 2) (id := c + 2) (h := cfg.epochHash e1)
    (r := d1.resp.stateRoot) (n := m1) (ep := e2) (if_neg hne12) rfl rfl rfl rfl s6
  have hloop : (n.updateEpoch cfg io (u64LE (c.toNat + 3))).2 = m2 := by
    unfold Node.updateEpoch
    rw [hread]
    simp only
    rw [hrich, hcur, if_neg hbehind, if_neg (by show ¬ (true = false); simp), hstart]
    simp only
    rw [hids]
    simp only [Node.syncLoop]
    rw [s1]
    simp only
    rw [t1]
    rfl
  have hst : m2.store.latest = some e2 ∧ m2.store.epochs b.epochId = some e2 := by
    rw [t5, latest_all, epochs_all, t2]
    exact ⟨rfl, if_pos rfl⟩
  refine ⟨io, raw, d1, d2, ?_, ?_, ?_, ?_, ?_, ?_, ?_⟩
  · rw [hn', hloop, t4, s4]
  · rw [s2]
  · rw [s3]
  · rw [t2, s2]
  · rw [t3]
  · rw [hn', hloop, t2]; exact hst.1
  · rw [hn', hloop, t2]; exact hst.2

open Demo in
/-- The node of the examples after its first epoch, which the validators agreed on, meets the hypotheses of the refutation. -/
example : demoZip.Lossless ∧ ∃ latest, n1.store.latest = some latest ∧ n1.store.epochs latest.header.epochId = some latest ∧
    latest.header.epochId ≠ 0 ∧ latest.header.epochId.toNat + 3 < 2 ^ 64 ∧ Opens ncfg n1.tries latest.header.stateRoot := by
  refine ⟨demoZip_lossless, ?_⟩
  have h1 : n1.store.latest.isSome = true := by decide +kernel
  have h2 : (n1.store.latest.map fun e => (decide (n1.store.epochs e.header.epochId = some e), e.header.epochId.toNat,
    (n1.tries e.header.stateRoot).isSome)) = some (true, 1, true) := by decide +kernel
  obtain ⟨e, he⟩ := Option.isSome_iff_exists.1 h1
  rw [he] at h2
  simp only [Option.map_some, Option.some.injEq, Prod.mk.injEq, decide_eq_true_eq] at h2
  obtain ⟨a, b, c⟩ := h2
  refine ⟨e, he, a, fun h0 => ?_, by rw [b]; decide, .inr (Option.isSome_iff_exists.1 c)⟩
  rw [h0] at b; cases b

open Demo in
/-- The hypotheses of `C94_messages_partial` are met by a gossiped transaction followed by garbage; the transaction is in the pool
afterwards. -/
example : ∃ raw, packageGossip demoZip endNewTxs (encMulti [npay 1 2 10]) = .ok raw ∧ (∀ m ∈ [(peer n3, 3, raw), (peer n3, 4, [1, 2])], ¬ Announces demoZip m.2.2) ∧
    Lives ncfg ngenesis (fun _ _ => True) n0 ∧
    (n0.receiveAll demoZip ncfg [(peer n3, 3, raw), (peer n3, 4, [1, 2])]).pool.cache.get (npay 1 2 10).txHash = some (npay 1 2 10) := by
  let raw := demoZip.compress (pbEncode (NetMsg.mk endNewTxs (encMulti [npay 1 2 10])))
  have h1 : (packageGossip demoZip endNewTxs (encMulti [npay 1 2 10])).toOption = some raw := by decide +kernel
  have h2 : (unframe demoZip raw).map NetMsg.url = some endNewTxs := by decide +kernel
  have h3 : (unframe demoZip [1, 2]).isNone = true := by decide +kernel
  have h4 : Endpoint.root ⟨endNewTxs⟩ ≠ Endpoint.root ⟨endRichEpochId⟩ := by decide +kernel
  have h5 : Endpoint.parse endNewTxs = .ok ⟨endNewTxs⟩ := (Extensible.mk' (by decide +kernel) (by decide +kernel) (by decide +kernel)).ok
  have h6 : (n0.receiveAll demoZip ncfg [(peer n3, 3, raw), (peer n3, 4, [1, 2])]).pool.cache.get (npay 1 2 10).txHash = some (npay 1 2 10) := by
    decide +kernel
  refine ⟨raw, ok_of_toOption h1, ?_, n0_lives _, h6⟩
  intro m hm
  rintro ⟨x, e, a, b, c⟩
  rcases List.mem_cons.1 hm with rfl | hm
  · rw [a] at h2
    simp only [Option.map_some, Option.some.injEq] at h2
    rw [h2, h5] at b
    injection b with b
    rw [← b] at c
    exact h4 c
  · rw [List.mem_singleton.1 hm] at a
    rw [a] at h3; cases h3

end Huobi
