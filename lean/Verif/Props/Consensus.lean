import Verif.Proof.Consensus
import Verif.Spec.Chain
/-
C35, C36: the chain a node commits.
-/
namespace Huobi

/-! ### Facts about the writes of an epoch -/

theorem latest_take (cfg : NodeCfg) (d : Done) (s : Store) (j : Nat) (hj : j < 6) :
    (s.writes ((d.writes cfg).take j)).latest = s.latest := by
  rw [Done.writes_eq]
  match j, hj with
  | 0, _ | 1, _ | 2, _ | 3, _ | 4, _ | 5, _ => rfl

theorem latest_all (cfg : NodeCfg) (d : Done) (s : Store) : (s.writes (d.writes cfg)).latest = some d.epoch := rfl

theorem epochs_take (cfg : NodeCfg) (d : Done) (s : Store) (j : Nat) (i : UInt64) :
    (s.writes ((d.writes cfg).take j)).epochs i = s.epochs i ∨
    (i = d.epoch.header.epochId ∧ (s.writes ((d.writes cfg).take j)).epochs i = some d.epoch) := by
  rw [Done.writes_eq]
  by_cases hi : i = d.epoch.header.epochId
  · match j with
    | 0 | 1 | 2 | 3 => exact .inl rfl
    | m + 4 =>
      right
      refine ⟨hi, ?_⟩
      match m with
      | 0 => exact if_pos hi
      | 1 => exact if_pos hi
      | _ + 2 => rw [List.take_of_length_le (by simp)]; exact if_pos hi
  · left
    match j with
    | 0 | 1 | 2 | 3 => rfl
    | 4 => exact if_neg hi
    | 5 => exact if_neg hi
    | _ + 6 => rw [List.take_of_length_le (by simp)]; exact if_neg hi

theorem epochs_all (cfg : NodeCfg) (d : Done) (s : Store) (i : UInt64) :
    (s.writes (d.writes cfg)).epochs i = if i = d.epoch.header.epochId then some d.epoch else s.epochs i := rfl

theorem handleInit_some {cfg : NodeCfg} {g : Genesis} {s s' : Store} {t t' : StateDB} (hs : s.latest.isSome)
    (h : handleInit cfg g s t = some (s', t')) : s' = s ∧ t' = t := by
  obtain ⟨e, he⟩ := Option.isSome_iff_exists.1 hs
  simp only [handleInit, he, Option.some.injEq, Prod.mk.injEq] at h
  exact ⟨h.1.symm, h.2.symm⟩

theorem handleInit_empty {cfg : NodeCfg} {g : Genesis} {s' : Store} {t t' : StateDB}
    (h : handleInit cfg g Store.empty t = some (s', t')) :
    ∃ root, runGenesis (cfg.env 0 cfg.cyclesPrice (.user cfg.selfAddress)) t g = (some (.ok root), t') ∧
      s' = Store.empty.writes (StoreOp.writes cfg.digest (.insertEpoch (cfg.genesisEpoch g.timestamp root)) ++
        StoreOp.writes cfg.digest (.updateLatestProof (cfg.genesisEpoch g.timestamp root).header.proof)) := by
  unfold handleInit at h
  simp only [Store.empty] at h
  split at h
  · rename_i root tr hr
    simp only [Option.some.injEq, Prod.mk.injEq] at h
    refine ⟨root, ?_, h.1.symm⟩
    rw [hr, h.2]
  · cases h

theorem startNode_some {cfg : NodeCfg} {s : Store} {t : StateDB} {n : Node} (h : startNode cfg s t = some n) :
    ∃ e, s.latest = some e ∧ n.store = s ∧ n.tries = t ∧ n.status = startStatus cfg e ∧ n.log = [] ∧ n.exempt = [] ∧
      n.pool = MemPool.new cfg.poolSize cfg.timeoutGap := by
  unfold startNode at h
  split at h
  · cases h
  · rename_i e he
    cases h
    exact ⟨e, he, rfl, rfl, rfl, rfl, rfl, rfl⟩

/-! ### The relation between the status and the stored data -/

/-- The status of a node refers to the latest stored epoch. -/
structure Node.Coherent (cfg : NodeCfg) (n : Node) : Prop where
  price : n.status.cyclesPrice = cfg.cyclesPrice
  latest : ∃ e, n.store.latest = some e ∧ n.status.prevHash = cfg.epochHash e ∧
    ((n.log = [] ∧ n.status.epochId = e.header.epochId + 1 ∧ n.status.stateRoot = e.header.stateRoot ∧ n.status.proof = e.header.proof) ∨
     (∃ d rest, n.log = d :: rest ∧ d.epoch = e ∧ n.status.epochId = d.height + 1 ∧ n.status.stateRoot = d.resp.stateRoot ∧
       n.status.proof = d.proof))

theorem Node.Coherent.effect {cfg : NodeCfg} {P : Done → Prop} {n n' : Node} (h : n.Coherent cfg) (he : Effect cfg P n n') :
    n'.Coherent cfg := by
  cases he with
  | quiet h1 h2 h3 h4 => exact ⟨by rw [h3]; exact h.price, by rw [h1, h3, h4]; exact h.latest⟩
  | proof p h1 h2 h3 h4 => exact ⟨by rw [h3]; exact h.price, by rw [h1, h3, h4]; exact h.latest⟩
  | failed d j hp hr hj h1 h3 h4 =>
    exact ⟨by rw [h3]; exact h.price, by rw [h1, h3, h4, latest_take cfg d _ j hj]; exact h.latest⟩
  | done d hp hr h1 h3 h4 =>
    refine ⟨by rw [h3]; exact h.price, d.epoch, by rw [h1]; rfl, by rw [h3]; rfl, .inr ⟨d, n.log, h4, rfl, ?_, ?_, ?_⟩⟩ <;> rw [h3] <;> rfl

theorem SyncSteps.induct {cfg : NodeCfg} {io : SyncIo} {I : Node → Prop}
    (hI : ∀ n n' (P : Done → Prop), I n → Effect cfg P n n' → I n') {k ids h r n n'} (hs : SyncSteps cfg io k ids h r n n') (hn : I n) :
    I n' := by
  induction hs with
  | stop => exact hn
  | fail he _ _ => exact hI _ _ _ hn he
  | round d hd hr h1 h2 h3 _ ih => exact ih (hI _ _ _ hn (.done d hd hr h1 h2 h3))

/-- Calls that change neither the stored data nor the status. -/
def NodeOp.Passive : NodeOp → Prop
  | .commit .. => False
  | .sync .. => False
  | _ => True

theorem passive_step (cfg : NodeCfg) (n : Node) (op : NodeOp) (h : op.Passive) : (n.step cfg op).store = n.store ∧
    (n.step cfg op).tries = n.tries ∧ (n.step cfg op).status = n.status ∧ (n.step cfg op).log = n.log := by
  cases op with
  | insertTx o b tx => exact ⟨rfl, rfl, rfl, rfl⟩
  | propose now id =>
    show (n.getEpoch cfg now id).2.store = n.store ∧ (n.getEpoch cfg now id).2.tries = n.tries ∧
      (n.getEpoch cfg now id).2.status = n.status ∧ (n.getEpoch cfg now id).2.log = n.log
    unfold Node.getEpoch
    split
    · exact ⟨rfl, rfl, rfl, rfl⟩
    · split <;> exact ⟨rfl, rfl, rfl, rfl⟩
  | check p1 p2 ha pill =>
    show (n.checkEpoch cfg p1 p2 ha pill).2.store = n.store ∧ (n.checkEpoch cfg p1 p2 ha pill).2.tries = n.tries ∧
      (n.checkEpoch cfg p1 p2 ha pill).2.status = n.status ∧ (n.checkEpoch cfg p1 p2 ha pill).2.log = n.log
    unfold Node.checkEpoch
    simp only
    split
    · split <;> exact ⟨rfl, rfl, rfl, rfl⟩
    · split
      · exact ⟨rfl, rfl, rfl, rfl⟩
      · split
        · exact ⟨rfl, rfl, rfl, rfl⟩
        · split <;> exact ⟨rfl, rfl, rfl, rfl⟩
  | commit io id pill proof => exact h.elim
  | sync io msg => exact h.elim

theorem passive_effect (cfg : NodeCfg) (P : Done → Prop) (n : Node) (op : NodeOp) (h : op.Passive) : Effect cfg P n (n.step cfg op) := by
  obtain ⟨a, b, c, d⟩ := passive_step cfg n op h
  exact .quiet a b c d

/-- A property that no effect of a part of a call destroys is kept by every call. -/
theorem step_induct {cfg : NodeCfg} {I : Node → Prop} (hI : ∀ n n' (P : Done → Prop), I n → Effect cfg P n n' → I n') {n : Node} (hn : I n)
    (op : NodeOp) : I (n.step cfg op) := by
  cases op with
  | commit io id pill proof => exact hI _ _ _ hn (commit_effect cfg io id pill proof n)
  | sync io msg =>
    rcases updateEpoch_steps cfg io msg n with h | ⟨v, rest, h, r, -, -, hs⟩
    · show I (n.updateEpoch cfg io msg).2
      rw [h]; exact hn
    · exact hs.induct hI hn
  | insertTx o b tx => exact hI _ _ (fun _ => True) hn (passive_effect cfg _ n _ trivial)
  | propose now id => exact hI _ _ (fun _ => True) hn (passive_effect cfg _ n _ trivial)
  | check p1 p2 h pill => exact hI _ _ (fun _ => True) hn (passive_effect cfg _ n _ trivial)

theorem coherent_start {cfg : NodeCfg} {s : Store} {t : StateDB} {n : Node} (h : startNode cfg s t = some n) : n.Coherent cfg := by
  obtain ⟨e, he, h1, h2, h3, h4, -⟩ := startNode_some h
  refine ⟨by rw [h3]; rfl, e, by rw [h1]; exact he, by rw [h3]; rfl, .inl ⟨h4, ?_, ?_, ?_⟩⟩ <;> rw [h3] <;> rfl

theorem Lives.coherent {cfg : NodeCfg} {g : Genesis} {ok : Node → NodeOp → Prop} {n : Node} (h : Lives cfg g ok n) : n.Coherent cfg := by
  induction h with
  | init h1 h2 => exact coherent_start h2
  | step op _ _ ih => exact step_induct (fun n n' P hn he => Node.Coherent.effect hn he) ih op
  | restart _ _ h2 _ => exact coherent_start h2

/-! ### C35 -/

/-- **C35, proposals.**  In every lifetime of a node (any calls, failures, crashes and restarts), an epoch it proposes has the
height asked for, which is the height the node is at, and carries the hash of the latest stored epoch. -/
theorem C35_pre_hash {cfg : NodeCfg} {g : Genesis} {ok : Node → NodeOp → Prop} {n n' : Node} {now id : UInt64} {pill : Pill} {hash : Bytes}
    (h : Lives cfg g ok n) (hp : n.getEpoch cfg now id = (.ok (pill, hash), n')) :
    ∃ last, n.store.latest = some last ∧ pill.epoch.header.preHash = cfg.digest (encode last) ∧
      pill.epoch.header.epochId = id ∧ id = n.status.epochId ∧ pill.epoch.header.stateRoot = n.status.stateRoot ∧
      pill.epoch.header.chainId = cfg.chainId := by
  obtain ⟨-, last, hl, hprev, -⟩ := h.coherent
  refine ⟨last, hl, ?_⟩
  unfold Node.getEpoch at hp
  split at hp
  · cases hp
  · split at hp
    · cases hp
    · rename_i hid
      simp only [Prod.mk.injEq, Except.ok.injEq] at hp
      obtain ⟨⟨rfl, -⟩, -⟩ := hp
      exact ⟨hprev, rfl, by simpa using Eq.symm (Classical.not_not.1 hid), rfl, rfl⟩

/-- A call that continues the node's chain.  A committed epoch has the height the node is at and the hash of the node's latest
epoch as previous hash (so does what the node itself proposes, `C35_pre_hash`); a peer asked for an epoch answers with an epoch
of that height, and the first epoch it hands out refers to the genesis epoch.  The height does not overflow. -/
def Continues (cfg : NodeCfg) (n : Node) : NodeOp → Prop
  | .commit _ id pill _ => id ≠ 0 ∧ id = n.status.epochId ∧ pill.epoch.header.epochId = id ∧ pill.epoch.header.preHash = n.status.prevHash
  | .sync io _ => ∀ k id e, io.pullEpoch k id = some e → e.header.epochId = id ∧
      (id = 1 → ∀ gen, n.store.epochs 0 = some gen → e.header.preHash = cfg.digest (encode gen))
  | _ => True

/-- The chain is linked and the status is that of its end. -/
structure Node.Chained (cfg : NodeCfg) (n : Node) : Prop where
  linked : n.store.Linked cfg.digest
  next : ∀ last, n.store.latest = some last → n.status.epochId = last.header.epochId + 1 ∧ n.status.prevHash = cfg.epochHash last

theorem u64_le_or {i a : UInt64} (ha : a + 1 ≠ 0) (h : i ≤ a + 1) : i ≤ a ∨ i = a + 1 := by
  rw [UInt64.le_iff_toNat_le] at h ⊢
  have h1 : (a + 1).toNat = a.toNat + 1 := by
    rw [UInt64.toNat_add]
    have h2 : (a + 1).toNat ≠ 0 := fun hc => ha (UInt64.toNat.inj hc)
    rw [UInt64.toNat_add] at h2
    have := a.toNat_lt
    simp at h2 ⊢
    omega
  rw [h1] at h
  by_cases hc : i.toNat ≤ a.toNat
  · exact .inl hc
  · right; apply UInt64.toNat.inj; rw [h1]; omega

theorem u64_add_one_sub (a : UInt64) : a + 1 - 1 = a := by simp

theorem u64_lt_succ {a : UInt64} (ha : a + 1 ≠ 0) : a < a + 1 := by
  rw [UInt64.lt_iff_toNat_lt]
  have h2 : (a + 1).toNat ≠ 0 := fun hc => ha (UInt64.toNat.inj hc)
  rw [UInt64.toNat_add] at h2 ⊢
  have := a.toNat_lt
  simp at h2 ⊢
  omega

/-- Adding the epoch that follows the latest one keeps the chain linked, also when its recording fails half way. -/
theorem linked_take {cfg : NodeCfg} {s : Store} {last : Epoch} {d : Done} (h : s.Linked cfg.digest) (hl : s.latest = some last)
    (h0 : last.header.epochId + 1 ≠ 0) (hid : d.epoch.header.epochId = last.header.epochId + 1) (j : Nat) (hj : j < 6) :
    (s.writes ((d.writes cfg).take j)).Linked cfg.digest := by
  obtain ⟨last', hl', hs, hall⟩ := h
  rw [hl] at hl'; cases hl'
  have keep : ∀ i, i ≤ last.header.epochId → (s.writes ((d.writes cfg).take j)).epochs i = s.epochs i := by
    intro i hi
    rcases epochs_take cfg d s j i with h | ⟨h, -⟩
    · exact h
    · exfalso
      rw [h, hid] at hi
      exact absurd (u64_lt_succ h0) (UInt64.not_lt.2 hi)
  have hpred : ∀ i, i ≤ last.header.epochId → i ≠ 0 → i - 1 ≤ last.header.epochId := by
    intro i hi hi0
    rw [UInt64.le_iff_toNat_le] at hi ⊢
    have : i.toNat ≠ 0 := fun hc => hi0 (UInt64.toNat.inj hc)
    have h1 : (1 : UInt64) ≤ i := by rw [UInt64.le_iff_toNat_le]; simp; omega
    rw [UInt64.toNat_sub_of_le _ _ h1]; simp; omega
  refine ⟨last, by rw [latest_take cfg d s j hj]; exact hl, by rw [keep _ (UInt64.le_refl _)]; exact hs, fun i hi => ?_⟩
  obtain ⟨e, he, hei, hlink⟩ := hall i hi
  refine ⟨e, by rw [keep i hi]; exact he, hei, fun hi0 => ?_⟩
  obtain ⟨p, hp, hh⟩ := hlink hi0
  exact ⟨p, by rw [keep _ (hpred i hi hi0)]; exact hp, hh⟩

theorem linked_all {cfg : NodeCfg} {s : Store} {last : Epoch} {d : Done} (h : s.Linked cfg.digest) (hl : s.latest = some last)
    (h0 : last.header.epochId + 1 ≠ 0) (hid : d.epoch.header.epochId = last.header.epochId + 1)
    (hpre : d.epoch.header.preHash = cfg.epochHash last) :
    (s.writes (d.writes cfg)).Linked cfg.digest := by
  obtain ⟨last', hl', hs, hall⟩ := h
  rw [hl] at hl'; cases hl'
  have keep : ∀ i, i ≤ last.header.epochId → (s.writes (d.writes cfg)).epochs i = s.epochs i := by
    intro i hi
    rw [epochs_all, if_neg]
    intro h
    rw [h, hid] at hi
    exact absurd (u64_lt_succ h0) (UInt64.not_lt.2 hi)
  have hpred : ∀ i, i ≤ last.header.epochId → i ≠ 0 → i - 1 ≤ last.header.epochId := by
    intro i hi hi0
    rw [UInt64.le_iff_toNat_le] at hi ⊢
    have : i.toNat ≠ 0 := fun hc => hi0 (UInt64.toNat.inj hc)
    have h1 : (1 : UInt64) ≤ i := by rw [UInt64.le_iff_toNat_le]; simp; omega
    rw [UInt64.toNat_sub_of_le _ _ h1]; simp; omega
  refine ⟨d.epoch, rfl, by rw [epochs_all, if_pos rfl], fun i hi => ?_⟩
  rw [hid] at hi
  rcases u64_le_or h0 hi with hi | hi
  · obtain ⟨e, he, hei, hlink⟩ := hall i hi
    refine ⟨e, by rw [keep i hi]; exact he, hei, fun hi0 => ?_⟩
    obtain ⟨p, hp, hh⟩ := hlink hi0
    exact ⟨p, by rw [keep _ (hpred i hi hi0)]; exact hp, hh⟩
  · refine ⟨d.epoch, by rw [epochs_all, hid, if_pos hi], by rw [hid, hi], fun _ => ⟨last, ?_, hpre⟩⟩
    rw [hi, u64_add_one_sub, keep _ (UInt64.le_refl _)]
    exact hs

/-- The effect of recording an epoch that continues the chain. -/
theorem Node.Chained.effect {cfg : NodeCfg} {P : Done → Prop} {n n' : Node} (h : n.Chained cfg) (he : Effect cfg P n n')
    (hP : ∀ d last, P d → n.store.latest = some last → last.header.epochId + 1 ≠ 0 ∧ d.height = d.epoch.header.epochId ∧
      d.epoch.header.epochId = last.header.epochId + 1 ∧ d.epoch.header.preHash = cfg.epochHash last) : n'.Chained cfg := by
  obtain ⟨last, hl, -, -⟩ := h.linked
  cases he with
  | quiet h1 h2 h3 h4 => exact ⟨by rw [h1]; exact h.linked, by rw [h1, h3]; exact h.next⟩
  | proof p h1 h2 h3 h4 =>
    refine ⟨?_, by rw [h1, h3]; exact h.next⟩
    rw [h1]; exact h.linked
  | failed d j hp hr hj h1 h3 h4 =>
    obtain ⟨a, -, b, -⟩ := hP d last hp hl
    refine ⟨by rw [h1]; exact linked_take h.linked hl a b j hj, ?_⟩
    rw [h1, h3, latest_take cfg d _ j hj]; exact h.next
  | done d hp hr h1 h3 h4 =>
    obtain ⟨a, b, c, e⟩ := hP d last hp hl
    refine ⟨by rw [h1]; exact linked_all h.linked hl a c e, ?_⟩
    intro l' hl'
    rw [h1, latest_all] at hl'; cases hl'
    rw [h3]
    exact ⟨by rw [← b]; rfl, rfl⟩

/-- The heights after `c`, in order. -/
def Consecutive : UInt64 → List UInt64 → Prop
  | _, [] => True
  | c, id :: ids => id = c + 1 ∧ c + 1 ≠ 0 ∧ Consecutive id ids

theorem consecutive_range (m : Nat) : ∀ c : UInt64, c.toNat + m < 2 ^ 64 →
    Consecutive c ((List.range m).map (fun k => c + 1 + UInt64.ofNat k)) := by
  induction m with
  | zero => intro c _; trivial
  | succ m ih =>
    intro c hc
    rw [List.range_succ_eq_map]
    have h1 : (c + 1).toNat = c.toNat + 1 := by rw [UInt64.toNat_add]; simp; omega
    refine ⟨by simp, fun h0 => ?_, ?_⟩
    · rw [h0] at h1; simp at h1
    · have := ih (c + 1) (by omega)
      have e : (fun k : Nat => c + 1 + 1 + UInt64.ofNat k) = (fun k => c + 1 + UInt64.ofNat k) ∘ Nat.succ := by
        funext k
        simp only [Function.comp, Nat.succ_eq_add_one]
        rw [UInt64.ofNat_add, UInt64.add_assoc (c + 1), UInt64.add_comm 1]; rfl
      rw [e] at this
      simpa using this

theorem consecutive_syncIds (c r : UInt64) : Consecutive c (syncIds c r) := by
  refine consecutive_range _ c ?_
  have := r.toNat_lt
  have := c.toNat_lt
  omega

theorem SyncSteps.chained {cfg : NodeCfg} {io : SyncIo} (hio : ∀ k id e, io.pullEpoch k id = some e → e.header.epochId = id)
    {k ids h r n n'} (hs : SyncSteps cfg io k ids h r n n') (hn : n.Chained cfg) (last : Epoch) (hl : n.store.latest = some last)
    (hc : Consecutive last.header.epochId ids)
    (hh : last.header.epochId ≠ 0 → h = cfg.epochHash last)
    (h1 : last.header.epochId = 0 → ∀ k e, io.pullEpoch k 1 = some e → e.header.preHash = cfg.epochHash last) :
    n'.Chained cfg := by
  induction hs generalizing last with
  | stop => exact hn
  | @fail k id ids h r n n' he _ _ =>
    refine hn.effect he fun d l hd hl' => ?_
    rw [hl] at hl'; cases hl'
    have hid := hio _ _ _ hd.pulled
    obtain ⟨rfl, h0, -⟩ := hc
    refine ⟨h0, hd.height, hid, ?_⟩
    by_cases hz : last.header.epochId = 0
    · exact h1 hz k d.epoch (by have := hd.pulled; rwa [hz] at this)
    · rw [hd.link, hh hz]
      intro h1'
      apply hz
      have := congrArg (· - 1) h1'
      simpa using this
  | @round k id ids h r n n1 n' d hd hr hst hstat hlog _ ih =>
    have hid := hio _ _ _ hd.pulled
    obtain ⟨rfl, h0, hc⟩ := hc
    have hpre : d.epoch.header.preHash = cfg.epochHash last := by
      by_cases hz : last.header.epochId = 0
      · exact h1 hz k d.epoch (by have := hd.pulled; rwa [hz] at this)
      · rw [hd.link, hh hz]
        intro h1'
        apply hz
        have := congrArg (· - 1) h1'
        simpa using this
    have hch : n1.Chained cfg := by
      refine hn.effect (.done d hd hr hst hstat hlog) fun d' l hd' hl' => ?_
      rw [hl] at hl'; cases hl'
      have : d'.epoch = d.epoch := by have a := hd'.pulled; rw [hd.pulled] at a; injection a with a; exact a.symm
      rw [this]
      exact ⟨h0, by rw [hd'.height, this], hid, hpre⟩
    refine ih hch d.epoch (by rw [hst]; rfl) (by rw [hid]; exact hc) (fun _ => rfl) fun hz => ?_
    exact absurd (hid.symm.trans hz) h0

theorem chained_start {cfg : NodeCfg} {s : Store} {t : StateDB} {n : Node} (hs : s.Linked cfg.digest) (h : startNode cfg s t = some n) :
    n.Chained cfg := by
  obtain ⟨e, he, h1, h2, h3, h4, -⟩ := startNode_some h
  refine ⟨by rw [h1]; exact hs, fun last hl => ?_⟩
  rw [h1, he] at hl; cases hl
  rw [h3]; exact ⟨rfl, rfl⟩

theorem genesis_linked (cfg : NodeCfg) (ts : UInt64) (root : MerkleRoot) :
    (Store.empty.writes (StoreOp.writes cfg.digest (.insertEpoch (cfg.genesisEpoch ts root)) ++
        StoreOp.writes cfg.digest (.updateLatestProof (cfg.genesisEpoch ts root).header.proof))).Linked cfg.digest := by
  refine ⟨cfg.genesisEpoch ts root, rfl, rfl, fun id hid => ?_⟩
  have : id = 0 := UInt64.le_zero_iff.1 hid
  subst this
  exact ⟨cfg.genesisEpoch ts root, rfl, rfl, fun h => absurd rfl h⟩

theorem Lives.chained {cfg : NodeCfg} {g : Genesis} {n : Node} (h : Lives cfg g (Continues cfg) n) : n.Chained cfg := by
  induction h with
  | init h1 h2 =>
    obtain ⟨root, -, rfl⟩ := handleInit_empty h1
    exact chained_start (genesis_linked _ _ _) h2
  | @step n op hlives hok ih =>
    cases op with
    | commit io id pill proof =>
      refine ih.effect (commit_effect cfg io id pill proof n) fun d last hd hl => ?_
      obtain ⟨h0, hid, hh, hpre⟩ := hok
      obtain ⟨hn1, hn2⟩ := ih.next last hl
      rw [hd.epoch, hd.height]
      exact ⟨by rw [← hn1, ← hid]; exact h0, hh.symm, by rw [hh, hid, hn1], by rw [hpre, hn2]⟩
    | sync io msg =>
      show Node.Chained cfg (n.updateEpoch cfg io msg).2
      rcases updateEpoch_steps cfg io msg n with h | ⟨v, rest, h, r, -, hst, hs⟩
      · rw [h]; exact ih
      · obtain ⟨last, hl, hls, -⟩ := ih.linked
        have hcur : n.currentId = last.header.epochId := by simp [Node.currentId, hl]
        rw [hcur] at hs hst
        refine hs.chained (fun k id e he => (hok k id e he).1) ih last hl (consecutive_syncIds _ _) ?_ ?_
        · intro hz
          unfold Node.syncStart at hst
          rw [if_neg hz, hls] at hst
          simp only at hst
          split at hst
          · cases hst
          · split at hst
            · cases hst
            · injection hst with hst; injection hst with a _; exact a.symm
        · intro hz k e he
          exact (hok k 1 e he).2 rfl last (by rw [← hz]; exact hls)
    | insertTx o b tx => exact ih.effect (passive_effect cfg (fun _ => False) n _ trivial) (fun _ _ h => h.elim)
    | propose now id => exact ih.effect (passive_effect cfg (fun _ => False) n _ trivial) (fun _ _ h => h.elim)
    | check p1 p2 hh pill => exact ih.effect (passive_effect cfg (fun _ => False) n _ trivial) (fun _ _ h => h.elim)
  | restart hl h1 h2 ih =>
    obtain ⟨last, hla, -, -⟩ := ih.linked
    obtain ⟨rfl, rfl⟩ := handleInit_some (by rw [hla]; rfl) h1
    exact chained_start ih.linked h2

/-- **C35 (partial).**  In every lifetime of a node in which each commit and each answer of a peer continues the chain, including
failed calls, crashes and restarts, the stored epochs are a hash-linked chain of consecutive heights, and the node is at the height
after it.  Without the hypothesis the claim is false, see `C35_refuted`: neither `check_epoch` nor `commit` looks at the header. -/
theorem C35_chain_partial {cfg : NodeCfg} {g : Genesis} {n : Node} (h : Lives cfg g (Continues cfg) n) :
    n.store.Linked cfg.digest ∧
    ∀ last, n.store.latest = some last → n.status.epochId = last.header.epochId + 1 ∧ n.status.prevHash = cfg.digest (encode last) :=
  ⟨h.chained.linked, h.chained.next⟩

/-! ### C36 -/

/-- The call is not a synchronisation. -/
def NodeOp.NotSync : NodeOp → Prop
  | .sync .. => False
  | _ => True

/-- **C36 (partial: without synchronisation, see `C36_refuted`).**  In every lifetime without synchronisation, each epoch recorded
since the process was started was executed on the state root produced by the one recorded before it; the header the node proposes
next carries the root of the last execution. -/
theorem C36_roots_partial {cfg : NodeCfg} {g : Genesis} {n : Node} (h : Lives cfg g (fun _ op => op.NotSync) n) :
    RootsChain n.log ∧
    ∀ now id pill hash n' d rest, n.getEpoch cfg now id = (.ok (pill, hash), n') → n.log = d :: rest →
      pill.epoch.header.stateRoot = d.resp.stateRoot := by
  constructor
  · induction h with
    | init h1 h2 => obtain ⟨e, -, -, -, -, h4, -⟩ := startNode_some h2; rw [h4]; trivial
    | restart _ _ h2 _ => obtain ⟨e, -, -, -, -, h4, -⟩ := startNode_some h2; rw [h4]; trivial
    | @step n op hl hok ih =>
      cases op with
      | sync io msg => exact hok.elim
      | insertTx o b tx => rw [(passive_step cfg n (.insertTx o b tx) trivial).2.2.2]; exact ih
      | propose now id => rw [(passive_step cfg n (.propose now id) trivial).2.2.2]; exact ih
      | check p1 p2 ha pill => rw [(passive_step cfg n (.check p1 p2 ha pill) trivial).2.2.2]; exact ih
      | commit io id pill proof =>
        show RootsChain (n.commit cfg io id pill proof).2.log
        cases commit_effect cfg io id pill proof n with
        | quiet _ _ _ h4 => rw [h4]; exact ih
        | proof _ _ _ _ h4 => rw [h4]; exact ih
        | failed _ _ _ _ _ _ _ h4 => rw [h4]; exact ih
        | done d hd _ _ _ h4 =>
          rw [h4]
          obtain ⟨-, last, -, -, hlog⟩ := hl.coherent
          rcases hlog with ⟨hlog, -⟩ | ⟨d1, rest, hlog, -, -, hroot, -⟩
          · rw [hlog]; trivial
          · rw [hlog] at ih ⊢
            exact ⟨by rw [hd.root, hroot], ih⟩
  · intro now id pill hash n' d rest hp hlog
    obtain ⟨last, -, -, -, -, hr, -⟩ := C35_pre_hash h hp
    obtain ⟨-, l, -, -, hc⟩ := h.coherent
    rcases hc with ⟨hc, -⟩ | ⟨d1, r1, hc, -, -, hroot, -⟩
    · rw [hlog] at hc; cases hc
    · rw [hlog] at hc; cases hc; rw [hr, hroot]

/-- A process: any sequence of allowed calls. -/
inductive Runs (cfg : NodeCfg) (ok : Node → NodeOp → Prop) (n0 : Node) : Node → Prop
  | refl : Runs cfg ok n0 n0
  | step {n} (op : NodeOp) : Runs cfg ok n0 n → ok n op → Runs cfg ok n0 (n.step cfg op)

/-- During the call no world is written under a root that belongs to another world. -/
def KeepsRoots (cfg : NodeCfg) (n : Node) (op : NodeOp) : Prop := ∀ r w, n.tries r = some w → (n.step cfg op).tries r = some w

/-- The root of the empty trie is not the root of another state: if the node has stored a state under it, that state is empty.  (It
would take a state whose root node, encoded, has the same hash as the single byte `0x80`.) -/
def EmptyRoot (cfg : NodeCfg) (n : Node) : Prop := ∀ w, n.tries cfg.emptyHash = some w → w = World.empty

/-- The same for one state. -/
def EmptyRootOf (cfg : NodeCfg) (w : World) : Prop := cfg.rootOf w = cfg.emptyHash → w = World.empty

theorem exec_root {env : Env} {txs : List SignedTx} {s s' : St} {resp : ExecResp} (h : exec env txs s = (.ok resp, s')) :
    resp.stateRoot = env.rootOf s'.committed := by
  unfold exec at h
  split at h
  · cases h
  · injection h with h1 h2
    injection h1 with h1
    subst h1; subst h2; rfl

theorem resolves_fromRoot {cfg : NodeCfg} {id price : UInt64} {cb : Address} {db : StateDB} {root : MerkleRoot} {w : World}
    (h : Resolves cfg db root w) : fromRoot (cfg.env id price cb) db root = some (St.open w) := by
  unfold Resolves at h
  unfold fromRoot
  show (if root = cfg.emptyHash then _ else _) = _
  split at h
  · rename_i he; rw [if_pos he, h]
  · rename_i he; rw [if_neg he, h]; rfl

/-- Running a block on a root that resolves is executing it on that world. -/
theorem ran_spec {cfg : NodeCfg} {d : Done} {n : Node} {db : StateDB} {w : World} (h : d.Ran cfg n db) (hw : Resolves cfg n.tries d.root w)
    (hp : n.status.cyclesPrice = cfg.cyclesPrice) :
    ∃ w', Executes (cfg.env d.height cfg.cyclesPrice (.user d.epoch.header.proposer)) w d.txs d.resp w' ∧
      d.resp.stateRoot = cfg.rootOf w' ∧ db = PMap.set n.tries (cfg.rootOf w') w' := by
  unfold Done.Ran runBlock at h
  rw [resolves_fromRoot hw, hp] at h
  simp only at h
  generalize hx : exec (cfg.env d.height cfg.cyclesPrice (.user d.epoch.header.proposer)) d.txs (St.open w) = x at h
  obtain ⟨a, s'⟩ := x
  cases a with
  | error f => simp at h
  | ok resp =>
    simp only [Prod.mk.injEq, Option.some.injEq, Except.ok.injEq] at h
    obtain ⟨rfl, rfl⟩ := h
    exact ⟨s'.committed, ⟨by rw [hx], by rw [hx]⟩, exec_root hx, rfl⟩

theorem resolves_put {cfg : NodeCfg} {w : World} (he : EmptyRootOf cfg w) (db : StateDB) :
    Resolves cfg (PMap.set db (cfg.rootOf w) w) (cfg.rootOf w) w := by
  unfold Resolves
  split
  · rename_i h; exact he h
  · simp [PMap.set]

theorem EmptyRoot.of_put {cfg : NodeCfg} {n : Node} (h : EmptyRoot cfg n) {db : StateDB} {w : World}
    (ht : n.tries = PMap.set db (cfg.rootOf w) w) : EmptyRootOf cfg w := by
  intro hw
  refine h w ?_
  rw [ht, hw]; simp [PMap.set]

theorem EmptyRoot.back {cfg : NodeCfg} {n : Node} {op : NodeOp} (h : EmptyRoot cfg (n.step cfg op)) (hk : KeepsRoots cfg n op) :
    EmptyRoot cfg n := fun w hw => h w (hk _ w hw)

theorem Runs.emptyRoot {cfg : NodeCfg} {ok : Node → NodeOp → Prop} {n0 n : Node} (h : Runs cfg ok n0 n)
    (hk : ∀ n op, ok n op → KeepsRoots cfg n op) (he : EmptyRoot cfg n) : EmptyRoot cfg n0 := by
  induction h with
  | refl => exact he
  | step op _ hok ih => exact ih (he.back (hk _ op hok))

theorem Replays.snoc {cfg : NodeCfg} {w w1 w2 : World} {ds : List Done} {d : Done} (h : Replays cfg w ds w1)
    (hd : Executes (cfg.env d.height cfg.cyclesPrice (.user d.epoch.header.proposer)) w1 d.txs d.resp w2) : Replays cfg w (ds ++ [d]) w2 := by
  induction h with
  | nil w => exact .cons hd (.nil _)
  | cons h1 _ ih => exact .cons h1 (ih hd)

theorem resolves_keep {cfg : NodeCfg} {db db' : StateDB} {r : MerkleRoot} {w : World} (h : Resolves cfg db r w)
    (hk : ∀ r w, db r = some w → db' r = some w) : Resolves cfg db' r w := by
  unfold Resolves at h ⊢
  split at h
  · rename_i he; rw [if_pos he]; exact h
  · rename_i he; rw [if_neg he]; exact hk _ _ h

/-- **C36, the worlds.**  A process without synchronisation that starts on the root of world `w0` is, after any calls, at the
root of the world obtained by executing the epochs it recorded one after the other from `w0`. -/
theorem C36_replay_partial {cfg : NodeCfg} {n0 n : Node} (hempty : EmptyRoot cfg n) {w0 : World} (hlog : n0.log = [])
    (hprice : n0.status.cyclesPrice = cfg.cyclesPrice) (h0 : Resolves cfg n0.tries n0.status.stateRoot w0)
    (h : Runs cfg (fun n op => op.NotSync ∧ KeepsRoots cfg n op) n0 n) :
    ∃ w, Replays cfg w0 n.log.reverse w ∧ Resolves cfg n.tries n.status.stateRoot w := by
  suffices hs : n.status.cyclesPrice = cfg.cyclesPrice ∧ ∃ w, Replays cfg w0 n.log.reverse w ∧ Resolves cfg n.tries n.status.stateRoot w from hs.2
  induction h with
  | refl => exact ⟨hprice, w0, by rw [hlog]; exact .nil _, h0⟩
  | @step n op _ hok ih =>
    obtain ⟨hns, hkeep⟩ := hok
    obtain ⟨hp, w, hrep, hres⟩ := ih (hempty.back hkeep)
    cases op with
    | sync io msg => exact hns.elim
    | insertTx o b tx =>
      obtain ⟨-, b, c, d⟩ := passive_step cfg n (.insertTx o b tx) trivial
      rw [b, c, d]; exact ⟨hp, w, hrep, hres⟩
    | propose now id =>
      obtain ⟨-, b, c, d⟩ := passive_step cfg n (.propose now id) trivial
      rw [b, c, d]; exact ⟨hp, w, hrep, hres⟩
    | check p1 p2 ha pill =>
      obtain ⟨-, b, c, d⟩ := passive_step cfg n (.check p1 p2 ha pill) trivial
      rw [b, c, d]; exact ⟨hp, w, hrep, hres⟩
    | commit io id pill proof =>
      unfold KeepsRoots at hkeep
      simp only [Node.step] at hkeep ⊢
      cases commit_effect cfg io id pill proof n with
      | quiet _ h2 h3 h4 => rw [h2, h3, h4]; exact ⟨hp, w, hrep, hres⟩
      | proof _ _ h2 h3 h4 => rw [h2, h3, h4]; exact ⟨hp, w, hrep, hres⟩
      | failed d j _ _ _ _ h3 h4 => rw [h3, h4]; exact ⟨hp, w, hrep, resolves_keep hres hkeep⟩
      | done d hd hr _ h3 h4 =>
        obtain ⟨w', hex, hroot, hdb⟩ := ran_spec hr (by rw [hd.root]; exact hres) hp
        have hew : EmptyRootOf cfg w' := hempty.of_put hdb
        rw [h3, h4, hdb]
        refine ⟨hp, w', ?_, ?_⟩
        · rw [List.reverse_cons]; exact hrep.snoc hex
        · show Resolves cfg _ d.resp.stateRoot w'
          rw [hroot]; exact resolves_put hew _

end Huobi
