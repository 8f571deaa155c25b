import Verif.Props.Complete
import Verif.Props.Linear3
/-
C111: a network whose validators decide on one epoch for each height does not fork.
-/
namespace Huobi

/-! ### Specification -/

/-- The epochs that the calls of a schedule bring are those the validators decided on: `chain` has one epoch, with its height in the header, for
each height.  (What a peer would answer if it were asked for the genesis epoch does not matter; a node asks for heights from 1 on.) -/
structure Decided (chain : UInt64 → Epoch) (evs : List Event) : Prop where
  commit : ∀ t io id pill proof, Event.callCommit t io id pill proof ∈ evs → id ≠ 0 ∧ pill.epoch = chain id ∧ pill.epoch.header.epochId = id
  sync : ∀ t io msg, Event.callSync t io msg ∈ evs → ∀ k id e, id ≠ 0 → io.pullEpoch k id = some e → e.header.epochId ≠ 0 ∧ e = chain e.header.epochId

/-- The epoch of the genesis file, as the first start stores it. -/
def GenesisEpoch (cfg : NodeCfg) (g : Genesis) (e : Epoch) : Prop :=
  ∃ s t, handleInit cfg g Store.empty PMap.empty = some (s, t) ∧ s.latest = some e

/-- Whatever epoch is found by height or as the latest, it is that of the chain, on top of the genesis epoch. -/
structure Store.Follows (gen : Epoch) (chain : UInt64 → Epoch) (s : Store) : Prop where
  byHeight : ∀ i e, s.epochs i = some e → e.header.epochId = i ∧ e = if i = 0 then gen else chain i
  latest : ∀ e, s.latest = some e → e = if e.header.epochId = 0 then gen else chain e.header.epochId

/-! ### Epochs -/

section
variable {cfg : NodeCfg} {gen : Epoch} {chain : UInt64 → Epoch}

theorem Store.Follows.of {s s' : Store} (h : s.Follows gen chain) (h1 : s'.epochs = s.epochs) (h2 : s'.latest = s.latest) : s'.Follows gen chain :=
  ⟨fun i e he => h.byHeight i e (h1 ▸ he), fun e he => h.latest e (h2 ▸ he)⟩

theorem Prog.Pooly.keeps {I : Node → Prop} (hI : ∀ n m : Node, n.Same m → I n → I m) {p : Prog} (h : p.Pooly) : p.Keeps I := by
  induction h with
  | ret => exact trivial
  | act h1 _ ih => exact fun n hn => ⟨hI n _ (h1 n) hn, ih n⟩

/-- The invariant on a node. -/
structure InvFollows (gen : Epoch) (chain : UInt64 → Epoch) (n : Node) : Prop where
  store : n.store.Follows gen chain
  started : n.store.latest.isSome
  log : ∀ d ∈ n.log, d.height ≠ 0 ∧ d.epoch = chain d.height
  keyed : ∀ k t, n.store.txs k = some t → t.txHash = k

theorem InvFollows.of {n m : Node} (h : InvFollows gen chain n) (h1 : m.store.epochs = n.store.epochs) (h2 : m.store.latest = n.store.latest)
    (h3 : m.log = n.log) (h4 : m.store.txs = n.store.txs) : InvFollows gen chain m :=
  ⟨h.store.of h1 h2, h2 ▸ h.started, h3 ▸ h.log, h4 ▸ h.keyed⟩

/-- A node that lags behind asks for heights from 1 on. -/
theorem syncIds_ne_zero {current rich id : UInt64} (h : id ∈ syncIds current rich) : id ≠ 0 := by
  simp only [syncIds, List.mem_map, List.mem_range] at h
  obtain ⟨k, hk, rfl⟩ := h
  intro h0
  have := congrArg UInt64.toNat h0
  have h1 := rich.toNat_lt
  have h2 := current.toNat_lt
  simp only [UInt64.toNat_add, UInt64.toNat_ofNat', UInt64.toNat_one, UInt64.toNat_zero] at this
  omega

theorem exec_keepsLog (cfg : NodeCfg) (root : MerkleRoot) (id : UInt64) (cb : Address) (txs : List SignedTx) (n : Node) :
    (n.exec cfg root id cb txs).2.log = n.log := by
  unfold Node.exec
  generalize runBlock (cfg.env id n.status.cyclesPrice cb) n.tries root txs = x
  obtain ⟨a, db⟩ := x
  cases a with
  | none => rfl
  | some a =>
    cases a with
    | error f => cases f <;> rfl
    | ok resp => rfl

theorem follows_updateStatus {io : SaveIo} {root : MerkleRoot} {epochId : UInt64} {epoch : Epoch} {proof : Proof} {resp : ExecResp}
    {txs : List SignedTx} {fail next : Prog} (hf : fail.Keeps (InvFollows gen chain)) (hn : next.Keeps (InvFollows gen chain))
    (h0 : epochId ≠ 0) (he : epoch = chain epochId) (hh : epoch.header.epochId = epochId) :
    (Prog.updateStatus cfg io root epochId epoch proof resp txs fail next).Keeps (InvFollows gen chain) := by
  refine keeps_write (fun n h => h.of rfl rfl rfl rfl) hf ?_
  refine keeps_write (fun n h => ⟨h.store.of rfl rfl, h.started, h.log, fun k t hk => (insertAll_key SignedTx.txHash txs _ h.keyed k t hk).1⟩) hf ?_
  refine keeps_write (fun n h => ⟨⟨fun i e hi => ?_, h.store.latest⟩, h.started, h.log, h.keyed⟩) hf ?_
  · simp only [StoreOp.writes, List.drop, List.take, Store.writes, List.foldl, Store.write] at hi
    split at hi
    · rename_i hid
      injection hi with hi
      subst hi
      rw [hid, hh, if_neg h0]
      exact ⟨rfl, he⟩
    · exact h.store.byHeight i e hi
  refine keeps_write (fun n h => h.of rfl rfl rfl rfl) hf ?_
  refine keeps_write (fun n h => ⟨⟨h.store.byHeight, fun e hl => ?_⟩, rfl, fun d hd => ?_, h.keyed⟩) hf ?_
  · simp only [StoreOp.writes, List.drop, List.take, Store.writes, List.foldl, Store.write] at hl
    injection hl with hl
    subst hl
    rw [hh, if_neg h0]
    exact he
  · rcases List.mem_cons.1 hd with rfl | hd
    · exact ⟨h0, he⟩
    · exact h.log d hd
  exact fun n h => ⟨h.of rfl rfl rfl rfl, hn⟩

theorem saveProof_follows {io : SaveIo} {p : Proof} {n : Node} (h : InvFollows gen chain n) : InvFollows gen chain (n.saveProof cfg io p).2 := by
  unfold Node.saveProof
  split
  · exact h.of rfl rfl rfl rfl
  · exact h

theorem follows_commit (cfg : NodeCfg) {io : CommitIo} {id : UInt64} {pill : Pill} {proof : OverlordProof}
    (h0 : id ≠ 0) (he : pill.epoch = chain id) (hh : pill.epoch.header.epochId = id) :
    (Prog.commit cfg io id pill proof).Keeps (InvFollows gen chain) := by
  refine ⟨?_, trivial⟩
  split
  · trivial
  intro n h
  refine ⟨saveProof_follows h, ?_⟩
  beta_reduce
  split
  · trivial
  split
  · trivial
  refine keeps_id fun n _ => ?_
  split
  · trivial
  refine fun n h => ⟨h.of rfl rfl rfl rfl, keeps_id fun n0 _ => fun n h => ⟨?_, ?_⟩⟩
  · exact h.of (by rw [exec_store']) (by rw [exec_store']) (exec_keepsLog ..) (by rw [exec_store'])
  · beta_reduce
    split
    · trivial
    · exact follows_updateStatus (by trivial) (by trivial) h0 he hh

theorem follows_sync (cfg : NodeCfg) {io : SyncIo} {msg : Bytes}
    (hp : ∀ k id e, id ≠ 0 → io.pullEpoch k id = some e → e.header.epochId ≠ 0 ∧ e = chain e.header.epochId) :
    (Prog.sync cfg io msg).Keeps (InvFollows gen chain) := by
  have loop (next : Prog) (hn : next.Keeps (InvFollows gen chain)) (ids : List UInt64) (hids : ∀ id ∈ ids, id ≠ 0) :
      ∀ k h r, (Prog.syncLoop cfg io next k ids h r).Keeps (InvFollows gen chain) := by
    induction ids with
    | nil => exact fun _ _ _ => hn
    | cons id ids ih =>
      intro k h r
      have hi : id ≠ 0 := hids id (.head _)
      unfold Prog.syncLoop Prog.syncOne
      split
      · trivial
      rename_i e he
      split
      · trivial
      intro n h
      refine ⟨saveProof_follows h, ?_⟩
      beta_reduce
      split
      · trivial
      split
      · trivial
      intro n h
      refine ⟨h.of (by rw [exec_store']) (by rw [exec_store']) (exec_keepsLog ..) (by rw [exec_store']), ?_⟩
      beta_reduce
      split
      · trivial
      · exact follows_updateStatus (by trivial) (ih (fun i hi => hids i (.tail _ hi)) _ _ _) (hp k id e hi he).1 (hp k id e hi he).2 rfl
  refine ⟨?_, trivial⟩
  split
  · trivial
  refine keeps_id fun n _ => ?_
  split
  · trivial
  refine ⟨keeps_id fun n _ => ?_, trivial⟩
  split
  · trivial
  · exact loop _ (by trivial) _ (fun id hi => syncIds_ne_zero hi) _ _ _

theorem follows_after {n : Node} (h : InvFollows gen chain n) {evs : List Event} (hd : Decided chain evs) :
    InvFollows gen chain (Conf.after cfg n evs).node := by
  have pool {p : Prog} (hp : p.Pooly) : p.Keeps (InvFollows gen chain) := hp.keeps (fun n m e hn => hn.of (by rw [e.store]) (by rw [e.store]) e.log.symm (by rw [e.store]))
  refine keeps_after (I := InvFollows gen chain) evs h fun e he t p hp => ?_
  cases e with
  | callCommit t' io id pill proof =>
    obtain ⟨h1, h2, h3⟩ := hd.commit t' io id pill proof he
    cases hp
    exact follows_commit cfg h1 h2 h3
  | callSync t' io msg =>
    have := hd.sync t' io msg he
    cases hp; exact follows_sync cfg this
  | callInsert t' o b tx => cases hp; exact pool (pooly_insert ..)
  | callPropose t' now id => cases hp; exact pool (pooly_propose ..)
  | callCheck t' p1 p2 hash pill => cases hp; exact pool (pooly_check ..)
  | run t' => cases hp

end

theorem GenesisEpoch.unique {a b : NodeCfg} (hc : OneChain a b) {g : Genesis} {e e' : Epoch} (h : GenesisEpoch a g e) (h' : GenesisEpoch b g e') : e = e' := by
  obtain ⟨s, t, h1, h2⟩ := h
  obtain ⟨s', t', h1', h2'⟩ := h'
  have start {c : NodeCfg} {s : Store} {t : StateDB} {e : Epoch} (hl : s.latest = some e) : ∃ n, startNode c s t = some n ∧ n.store = s := by
    unfold startNode
    rw [hl]
    exact ⟨_, rfl, rfl⟩
  obtain ⟨n, n1, n2⟩ := start (c := a) (t := t) h2
  obtain ⟨m, m1, m2⟩ := start (c := b) (t := t') h2'
  have := (firstStart_agree hc ⟨s, t, h1, n1⟩ ⟨s', t', h1', m1⟩).2.1
  rw [n2, m2, h2, h2'] at this
  injection this with this
  exact this.symm

theorem init_follows {cfg : NodeCfg} {g : Genesis} {s : Store} {t : StateDB} (h : handleInit cfg g Store.empty PMap.empty = some (s, t))
    (chain : UInt64 → Epoch) : ∃ gen, GenesisEpoch cfg g gen ∧ s.Follows gen chain ∧ s.latest.isSome ∧ ∀ k, s.txs k = none := by
  obtain ⟨root, -, hs⟩ := handleInit_empty h
  have hid : (cfg.genesisEpoch g.timestamp root).header.epochId = 0 := rfl
  generalize cfg.genesisEpoch g.timestamp root = e at hs hid
  have hl : s.latest = some e := by rw [hs]; rfl
  refine ⟨e, ⟨s, t, h, hl⟩, ⟨fun i x hx => ?_, fun x hx => ?_⟩, by rw [hl]; rfl, fun k => by rw [hs]; rfl⟩
  · rw [hs] at hx
    simp only [StoreOp.writes, Store.writes, List.foldl, List.cons_append, List.nil_append, Store.write, Store.empty, hid] at hx
    split at hx
    · rename_i h0; injection hx with hx; subst hx; rw [if_pos h0]; exact ⟨hid.trans h0.symm, rfl⟩
    · cases hx
  · rw [hl] at hx
    injection hx with hx
    subst hx
    rw [if_pos hid]

theorem CHistory.follows {cfg : NodeCfg} {g : Genesis} {chain : UInt64 → Epoch} {n : Node} {older : List Done}
    (h : CHistory cfg g (fun _ evs => Decided chain evs) n older) :
    ∃ gen, GenesisEpoch cfg g gen ∧ InvFollows gen chain n ∧ ∀ d ∈ older, d.height ≠ 0 ∧ d.epoch = chain d.height := by
  induction h with
  | init evs h1 h2 hd =>
    obtain ⟨gen, hg, hf, hl, ht⟩ := init_follows h1 chain
    obtain ⟨e, -, hs, -, -, hlog, -⟩ := startNode_some h2
    exact ⟨gen, hg, follows_after ⟨hs ▸ hf, hs ▸ hl, by rw [hlog]; exact (fun _ h => by cases h), (fun k t hk => by rw [hs, ht] at hk; cases hk)⟩ hd, fun _ h => by cases h⟩
  | restart evs _ h1 h2 hd ih =>
    obtain ⟨gen, hg, hf, ho⟩ := ih
    obtain ⟨e, -, hs, -, -, hlog, -⟩ := startNode_some h2
    obtain ⟨rfl, rfl⟩ := handleInit_some hf.started h1
    refine ⟨gen, hg, follows_after ⟨hs ▸ hf.store, hs ▸ hf.started, by rw [hlog]; exact (fun _ h => by cases h), hs ▸ hf.keyed⟩ hd, fun d hd => ?_⟩
    rcases List.mem_append.1 hd with hd | hd
    · exact hf.log d hd
    · exact ho d hd

/-- **C111, epochs.**  Any two nodes of one chain, each with its own lifetime: any calls in any overlap, failures at any point, processes killed at any
moment and started again.  If the validators decide on one epoch for each height - what the nodes are told to commit and what peers hand them are
those epochs - then whatever the two nodes show for one height is the same epoch, whenever they are asked; so are the epochs they have as the latest, if
they have one height, and those they recorded. -/
theorem C111_epochs {a b : NodeCfg} (hc : OneChain a b) {g : Genesis} {chain : UInt64 → Epoch} {n m : Node} {older older' : List Done}
    (hn : CHistory a g (fun _ evs => Decided chain evs) n older) (hm : CHistory b g (fun _ evs => Decided chain evs) m older') :
    (∀ i e e', n.queryEpoch (some i) = some e → m.queryEpoch (some i) = some e' → e = e') ∧
    (∀ e e', n.queryEpoch none = some e → m.queryEpoch none = some e' → e.header.epochId = e'.header.epochId → e = e') ∧
    ∀ d ∈ n.log ++ older, ∀ d' ∈ m.log ++ older', d.height = d'.height → d.epoch = d'.epoch := by
  obtain ⟨gen, hg, hf, ho⟩ := hn.follows
  obtain ⟨gen', hg', hf', ho'⟩ := hm.follows
  obtain rfl := hg.unique hc hg'
  refine ⟨fun i e e' h h' => ?_, fun e e' h h' hh => ?_, fun d hd d' hd' hh => ?_⟩
  · rw [(hf.store.byHeight i e h).2, (hf'.store.byHeight i e' h').2]
  · have h1 := hf.store.latest e h
    have h2 := hf'.store.latest e' h'
    rw [h1, h2, hh]
  · have h1 : d.epoch = chain d.height := by
      rcases List.mem_append.1 hd with hd | hd
      · exact (hf.log d hd).2
      · exact (ho d hd).2
    have h2 : d'.epoch = chain d'.height := by
      rcases List.mem_append.1 hd' with hd' | hd'
      · exact (hf'.log d' hd').2
      · exact (ho' d' hd').2
    rw [h1, h2, hh]

/-! ### Results -/

/-- What a node has of an epoch it recorded: the height, the epoch, and what its execution gave (receipts, cycles, state root, logs). -/
def Done.outcome (d : Done) : UInt64 × Epoch × ExecResp := (d.height, d.epoch, d.resp)

/-- A call in a node's first process that follows the decisions in their order. -/
structure FollowsChain (cfg : NodeCfg) (chain : UInt64 → Epoch) (n : Node) (op : NodeOp) : Prop where
  notSync : op.NotSync
  keeps : KeepsRoots cfg n op
  next : ∀ io id pill proof, op = .commit io id pill proof → id = n.status.epochId ∧ pill.epoch = chain id

/-- The first `k` decisions, latest first. -/
def countdown (chain : UInt64 → Epoch) : Nat → List (UInt64 × Epoch)
  | 0 => []
  | k + 1 => (UInt64.ofNat (k + 1), chain (UInt64.ofNat (k + 1))) :: countdown chain k

theorem countdown_length (chain : UInt64 → Epoch) : ∀ k, (countdown chain k).length = k
  | 0 => rfl
  | k + 1 => by rw [countdown, List.length_cons, countdown_length chain k]

/-- A call records one epoch or none. -/
theorem log_step {cfg : NodeCfg} {n : Node} {op : NodeOp} (ho : op.NotSync) : (n.step cfg op).log = n.log ∧ (n.step cfg op).status = n.status ∨
    ∃ io id pill proof d, op = .commit io id pill proof ∧ d.height = id ∧ d.epoch = pill.epoch ∧ (n.step cfg op).log = d :: n.log ∧
      (n.step cfg op).status = n.status.updated cfg d.height d.epoch d.proof d.resp := by
  cases op with
  | sync io msg => exact ho.elim
  | insertTx o b tx => obtain ⟨-, -, c, d⟩ := passive_step cfg n (.insertTx o b tx) trivial; exact .inl ⟨d, c⟩
  | propose now id => obtain ⟨-, -, c, d⟩ := passive_step cfg n (.propose now id) trivial; exact .inl ⟨d, c⟩
  | check p1 p2 ha pill => obtain ⟨-, -, c, d⟩ := passive_step cfg n (.check p1 p2 ha pill) trivial; exact .inl ⟨d, c⟩
  | commit io id pill proof =>
    simp only [Node.step]
    cases commit_effect cfg io id pill proof n with
    | quiet _ _ h3 h4 => exact .inl ⟨h4, h3⟩
    | proof _ _ _ h3 h4 => exact .inl ⟨h4, h3⟩
    | failed d j _ _ _ _ h3 h4 => exact .inl ⟨h4, h3⟩
    | done d hd _ _ h3 h4 => exact .inr ⟨io, id, pill, proof, d, rfl, hd.height, hd.epoch, h4, h3⟩

theorem Runs.countdown {cfg : NodeCfg} {chain : UInt64 → Epoch} {n0 n : Node} (h : Runs cfg (FollowsChain cfg chain) n0 n) (h0 : n0.log = [])
    (h1 : n0.status.epochId = 1) : n.log.map (fun d => (d.height, d.epoch)) = Huobi.countdown chain n.log.length ∧
      n.status.epochId = UInt64.ofNat (n.log.length + 1) := by
  induction h with
  | refl => rw [h0, h1]; exact ⟨rfl, rfl⟩
  | @step n op _ ho ih =>
    obtain ⟨i1, i2⟩ := ih
    rcases log_step (cfg := cfg) (n := n) ho.notSync with ⟨e1, e2⟩ | ⟨io, id, pill, proof, d, rfl, hh, he, e1, e2⟩
    · rw [e1, e2]; exact ⟨i1, i2⟩
    · obtain ⟨f1, f2⟩ := ho.next io id pill proof rfl
      rw [e1, e2]
      have hd : d.height = UInt64.ofNat (n.log.length + 1) := by rw [hh, f1, i2]
      refine ⟨?_, ?_⟩
      · rw [List.map_cons, i1, List.length_cons, Huobi.countdown, he, f2, ← hh, hd]
      · simp only [Status.updated, hd, List.length_cons]
        rw [UInt64.ofNat_add (n.log.length + 1) 1]
        rfl

/-- The run passed through every length of the record. -/
theorem Runs.earlier {cfg : NodeCfg} {ok : Node → NodeOp → Prop} (ho : ∀ n op, ok n op → op.NotSync) {n0 n : Node} (h : Runs cfg ok n0 n) (h0 : n0.log = [])
    (k : Nat) (hk : k ≤ n.log.length) : ∃ m, Runs cfg ok n0 m ∧ Runs cfg ok m n ∧ m.log.length = k ∧ ∃ extra, n.log = extra ++ m.log := by
  induction h with
  | refl =>
    rw [h0] at hk
    exact ⟨n0, .refl, .refl, by rw [h0]; exact (Nat.le_zero.1 hk).symm, [], rfl⟩
  | @step n op hr hop ih =>
    by_cases hlt : k ≤ n.log.length
    · obtain ⟨m, h1, h2, h3, x, h4⟩ := ih hlt
      rcases log_step (cfg := cfg) (n := n) (ho _ _ hop) with ⟨e1, -⟩ | ⟨io, id, pill, proof, d, rfl, -, -, e1, -⟩
      · exact ⟨m, h1, .step op h2 hop, h3, x, by rw [e1]; exact h4⟩
      · exact ⟨m, h1, .step _ h2 hop, h3, d :: x, by rw [e1, h4]; rfl⟩
    · refine ⟨_, .step op hr hop, .refl, ?_, [], rfl⟩
      rcases log_step (cfg := cfg) (n := n) (ho _ _ hop) with ⟨e1, -⟩ | ⟨io, id, pill, proof, d, -, -, -, e1, -⟩
      · rw [e1] at hk; omega
      · rw [e1, List.length_cons] at hk ⊢; omega

theorem firstStart_next {cfg : NodeCfg} {g : Genesis} {n : Node} (h : FirstStart cfg g n) : n.log = [] ∧ n.status.epochId = 1 := by
  obtain ⟨s, t, h1, h2⟩ := h
  obtain ⟨root, -, hs⟩ := handleInit_empty h1
  obtain ⟨e, he, -, -, h3, h4, -⟩ := startNode_some h2
  refine ⟨h4, ?_⟩
  rw [hs] at he
  injection he with he
  rw [h3, ← he]
  rfl

theorem outcomes_eq {l l' : List Done} (h1 : l.map (fun d => (d.height, d.epoch)) = l'.map (fun d => (d.height, d.epoch)))
    (h2 : l.map Done.resp = l'.map Done.resp) : l.map Done.outcome = l'.map Done.outcome := by
  induction l generalizing l' with
  | nil => cases l' with
    | nil => rfl
    | cons y l' => cases h1
  | cons x l ih =>
    cases l' with
    | nil => cases h1
    | cons y l' =>
      simp only [List.map_cons, List.cons.injEq, Prod.mk.injEq] at h1 h2 ⊢
      refine ⟨?_, ih h1.2 h2.2⟩
      unfold Done.outcome
      rw [h1.1.1, h1.1.2, h2.1]

/-- Nodes that follow one chain: the outcomes of the one that is behind are the first outcomes of the other. -/
theorem behind {a b : NodeCfg} (hc : OneChain a b) {g : Genesis} {chain : UInt64 → Epoch} {n0 m0 n m : Node} (hempty : EmptyRoot a n) (hemptyb : EmptyRoot b m)
    (hn0 : FirstStart a g n0) (hm0 : FirstStart b g m0) (hn : Runs a (FollowsChain a chain) n0 n) (hm : Runs b (FollowsChain b chain) m0 m)
    (hid : ∀ d ∈ n.log, ∀ e ∈ m.log, ∀ t ∈ d.txs, ∀ u ∈ e.txs, t.txHash = u.txHash → t.raw = u.raw ∧ t.pubkey = u.pubkey)
    (hl : n.log.length ≤ m.log.length) : ∃ extra base, m.log = extra ++ base ∧ base.map Done.outcome = n.log.map Done.outcome ∧
      (n.log.length = m.log.length → n.status.Agrees m.status ∧ n.store.latest = m.store.latest ∧
        ∃ w, Resolves a n.tries n.status.stateRoot w ∧ Resolves b m.tries m.status.stateRoot w) := by
  have imp {c : NodeCfg} {k k' : Node} (h : Runs c (FollowsChain c chain) k k') : Runs c (fun n op => op.NotSync ∧ KeepsRoots c n op) k k' :=
    h.imp fun _ _ h => ⟨h.notSync, h.keeps⟩
  have same {k : Node} (hk : Runs b (FollowsChain b chain) m0 k) (he : k.log.length = n.log.length) :
      n.log.map (fun d => (d.height, d.epoch)) = k.log.map (fun d => (d.height, d.epoch)) := by
    rw [(hn.countdown (firstStart_next hn0).1 (firstStart_next hn0).2).1, (hk.countdown (firstStart_next hm0).1 (firstStart_next hm0).2).1, he]
  obtain ⟨k, h1, h2, h3, extra, h4⟩ := hm.earlier (fun _ _ h => h.notSync) (firstStart_next hm0).1 n.log.length hl
  refine ⟨extra, k.log, h4, ?_, fun he => ?_⟩
  · have hs := same h1 h3
    obtain ⟨hr, -⟩ := C88_agreement_partial hc hempty (h2.emptyRoot (fun _ _ h => h.keeps) hemptyb) hn0 hm0 (imp hn) (imp h1) hs
      (fun d hd e hee => hid d hd e (by rw [h4]; exact List.mem_append_right _ hee))
    exact (outcomes_eq hs hr).symm
  · exact (C88_agreement_partial hc hempty hemptyb hn0 hm0 (imp hn) (imp hm) (same hm he.symm) hid).2

/-- Schedules of a first process that follow the decisions in their order: nothing is synchronised, no state is overwritten by another one, and a commit
that takes the lock is of the epoch decided for the node's next height. -/
structure CFollows (cfg : NodeCfg) (chain : UInt64 → Epoch) (n : Node) (evs : List Event) : Prop where
  keeps : CKeeps cfg n evs
  next : ∀ pre t post io id pill proof, evs = pre ++ .run t :: post → TakesLock cfg n pre t io id pill proof →
    id = (Conf.after cfg n pre).node.status.epochId ∧ pill.epoch = chain id

theorem CFollows.sequential {cfg : NodeCfg} {chain : UInt64 → Epoch} {n : Node} {evs : List Event} (h : CFollows cfg chain n evs) {m : Node} {op : NodeOp}
    (hj : Justified cfg n evs m op) : FollowsChain cfg chain m op := by
  refine ⟨(h.keeps.sequential hj).1, (h.keeps.sequential hj).2, fun io' id pill proof he => ?_⟩
  subst he
  obtain ⟨pre, mid, rest, t, io, he, ht, hs, -⟩ := hj
  rw [hs.status]
  exact h.next pre t (mid ++ rest) io id pill proof (by rw [he]; simp) ht

/-- **C111, results (partial: without synchronisation and restart, and for transactions that their hash identifies; see `C88_refuted`, `C38_refuted`).**
Any two nodes of one chain, each with its own schedule of overlapping calls, at any two moments: of what they have recorded (heights, epochs, receipts,
state roots, oldest first), one is the beginning of the other.  If they have recorded equally many epochs and no commit is running on either, they agree on
everything their next proposals say about the chain and are at the same world. -/
theorem C111_results_partial {a b : NodeCfg} (hc : OneChain a b) {g : Genesis} {chain : UInt64 → Epoch} {n0 m0 : Node} (hn0 : FirstStart a g n0)
    (hm0 : FirstStart b g m0) {evs evs' : List Event} (hn : CFollows a chain n0 evs) (hm : CFollows b chain m0 evs')
    (hempty : EmptyRoot a (Conf.after a n0 evs).node) (hemptyb : EmptyRoot b (Conf.after b m0 evs').node)
    (hid : ∀ d ∈ (Conf.after a n0 evs).node.log, ∀ e ∈ (Conf.after b m0 evs').node.log, ∀ t ∈ d.txs, ∀ u ∈ e.txs,
      t.txHash = u.txHash → t.raw = u.raw ∧ t.pubkey = u.pubkey) :
    ((Conf.after a n0 evs).node.log.reverse.map Done.outcome <+: (Conf.after b m0 evs').node.log.reverse.map Done.outcome ∨
      (Conf.after b m0 evs').node.log.reverse.map Done.outcome <+: (Conf.after a n0 evs).node.log.reverse.map Done.outcome) ∧
    ((Conf.after a n0 evs).node.log.length = (Conf.after b m0 evs').node.log.length →
      (Conf.after a n0 evs).node.store.latest = (Conf.after b m0 evs').node.store.latest ∧
      ((Conf.after a n0 evs).held .engine = none → (Conf.after b m0 evs').held .engine = none →
        (Conf.after a n0 evs).node.status.Agrees (Conf.after b m0 evs').node.status ∧
        ∃ w, Resolves a (Conf.after a n0 evs).node.tries (Conf.after a n0 evs).node.status.stateRoot w ∧
          Resolves b (Conf.after b m0 evs').node.tries (Conf.after b m0 evs').node.status.stateRoot w)) := by
  obtain ⟨n, hrn, hdn, hsn⟩ := linear_first hn0 evs hn.keeps.apart
  obtain ⟨m, hrm, hdm, hsm⟩ := linear_first hm0 evs' hm.keeps.apart
  rw [← hdn.log, ← hdm.log] at hid
  have hrn := hrn.imp fun _ _ hj => hn.sequential hj
  have hrm := hrm.imp fun _ _ hj => hm.sequential hj
  have e1 : EmptyRoot a n := by unfold EmptyRoot; rw [hdn.tries]; exact hempty
  have e2 : EmptyRoot b m := by unfold EmptyRoot; rw [hdm.tries]; exact hemptyb
  rw [← hdn.log, ← hdm.log, ← hdn.store, ← hdm.store]
  have pre {l l' extra base : List Done} (h1 : l' = extra ++ base) (h2 : base.map Done.outcome = l.map Done.outcome) :
      l.reverse.map Done.outcome <+: l'.reverse.map Done.outcome := by
    rw [h1, List.map_reverse, List.map_reverse, List.map_append, h2, List.reverse_append]
    exact List.prefix_append ..
  rcases Nat.le_total n.log.length m.log.length with hl | hl
  · obtain ⟨extra, base, h1, h2, h3⟩ := behind hc e1 e2 hn0 hm0 hrn hrm hid hl
    refine ⟨.inl (pre h1 h2), fun he => ?_⟩
    obtain ⟨r1, r2, r3⟩ := h3 he
    refine ⟨r2, fun f1 f2 => ?_⟩
    rw [← hsn f1, ← hsm f2, ← hdn.tries, ← hdm.tries]
    exact ⟨r1, r3⟩
  · have hc' : OneChain b a := ⟨hc.digest.symm, hc.rootOf.symm, hc.showErr.symm, hc.layout.symm, hc.chainId.symm, hc.price.symm⟩
    obtain ⟨extra, base, h1, h2, h3⟩ := behind hc' e2 e1 hm0 hn0 hrm hrn
      (fun d hd e he t ht u hu hh => ⟨((hid e he d hd u hu t ht hh.symm).1).symm, ((hid e he d hd u hu t ht hh.symm).2).symm⟩) hl
    refine ⟨.inr (pre h1 h2), fun he => ?_⟩
    obtain ⟨r1, r2, w, r3, r4⟩ := h3 he.symm
    refine ⟨r2.symm, fun f1 f2 => ?_⟩
    rw [← hsn f1, ← hsm f2, ← hdn.tries, ← hdm.tries]
    exact ⟨⟨r1.epochId.symm, r1.prevHash.symm, r1.stateRoot.symm, r1.orderRoot.symm, r1.confirmRoot.symm, r1.receiptRoot.symm⟩, w, r4, r3⟩

/-! ### What users see -/

theorem createGenesis_coinbase (env : Env) (c : Address) (g : Genesis) : createGenesis { env with coinbase := c } g = createGenesis env g := by
  funext s
  have hb : bankRegister { env with coinbase := c } = bankRegister env := by
    have h1 : assetIdOf { env with coinbase := c } = assetIdOf env := rfl
    have h2 : Env.emptyHash { env with coinbase := c } = Env.emptyHash env := rfl
    funext a1 a2 a3 a4 a5 s
    simp only [bankRegister, h1, h2]
  simp only [createGenesis, genesisAllocs_coinbase, hb]

theorem CreatesGenesis.agree {a b : NodeCfg} (hc : OneChain a b) {g : Genesis} {w w' : World}
    (h : CreatesGenesis (a.env 0 a.cyclesPrice (.user a.selfAddress)) g w) (h' : CreatesGenesis (b.env 0 b.cyclesPrice (.user b.selfAddress)) g w') : w = w' := by
  unfold CreatesGenesis at h h'
  rw [hc.env, hc.price] at h'
  have := createGenesis_coinbase (a.env 0 a.cyclesPrice (.user a.selfAddress)) (.user b.selfAddress) g
  rw [show ({ a.env 0 a.cyclesPrice (.user a.selfAddress) with coinbase := .user b.selfAddress } : Env) = a.env 0 a.cyclesPrice (.user b.selfAddress) from rfl] at this
  rw [this] at h'
  exact h.2.symm.trans h'.2

theorem outcomes_take {l l' : List Done} (h : l.map Done.outcome <+: l'.map Done.outcome) (j : Nat) (hj : j ≤ l.length) :
    (l.take j).map Done.outcome = (l'.take j).map Done.outcome := by
  obtain ⟨t, ht⟩ := h
  rw [List.map_take, List.map_take, ← ht, List.take_append_of_le_length (by rw [List.length_map]; exact hj)]

theorem outcomes_at {l l' : List Done} (h : l.map Done.outcome <+: l'.map Done.outcome ∨ l'.map Done.outcome <+: l.map Done.outcome) {k : Nat} {d d' : Done}
    (hd : l[k]? = some d) (hd' : l'[k]? = some d') : d.outcome = d'.outcome ∧ (l.take k).map Done.outcome = (l'.take k).map Done.outcome ∧
      l = l.take k ++ d :: l.drop (k + 1) ∧ l' = l'.take k ++ d' :: l'.drop (k + 1) := by
  obtain ⟨hk, hkd⟩ := List.getElem?_eq_some_iff.1 hd
  obtain ⟨hk', hkd'⟩ := List.getElem?_eq_some_iff.1 hd'
  have hout (j : Nat) (hj : j ≤ l.length) (hj' : j ≤ l'.length) : (l.take j).map Done.outcome = (l'.take j).map Done.outcome := by
    rcases h with h | h
    · exact outcomes_take h j hj
    · exact (outcomes_take h j hj').symm
  refine ⟨?_, hout k (Nat.le_of_lt hk) (Nat.le_of_lt hk'), ?_, ?_⟩
  · have := hout (k + 1) hk hk'
    rw [List.take_succ_eq_append_getElem hk, List.take_succ_eq_append_getElem hk', List.map_append, List.map_append] at this
    have := (List.append_inj' this rfl).2
    rw [hkd, hkd'] at this
    exact (List.cons.inj this).1
  · rw [← hkd, List.getElem_cons_drop, List.take_append_drop]
  · rw [← hkd', List.getElem_cons_drop, List.take_append_drop]

theorem heights_eq {l l' : List Done} (h : l.map Done.outcome = l'.map Done.outcome) :
    l.map (fun d => (d.height, d.epoch)) = l'.map (fun d => (d.height, d.epoch)) := by
  have h2 := congrArg (List.map (fun o : UInt64 × Epoch × ExecResp => (o.1, o.2.1))) h
  simpa only [List.map_map, Function.comp_def, Done.outcome] using h2

theorem inputs_at {l l' : List Done} (k : Nat) (h : (l.take k).map Done.outcome = (l'.take k).map Done.outcome)
    (h1 : ∀ d ∈ l, d.txs.map SignedTx.txHash = d.epoch.orderedTxHashes) (h2 : ∀ d ∈ l', d.txs.map SignedTx.txHash = d.epoch.orderedTxHashes)
    (hid : ∀ d ∈ l, ∀ e ∈ l', ∀ t ∈ d.txs, ∀ u ∈ e.txs, t.txHash = u.txHash → t.raw = u.raw ∧ t.pubkey = u.pubkey) :
    (l.take k).map Done.input = (l'.take k).map Done.input :=
  inputs_eq (heights_eq h) (fun _ hy => h1 _ (List.mem_of_mem_take hy)) (fun _ hy => h2 _ (List.mem_of_mem_take hy))
    (fun _ hy _ hz => hid _ (List.mem_of_mem_take hy) _ (List.mem_of_mem_take hz))

/-- **C111, balances (partial, as `C111_results_partial`; and the decided epochs name the state they were proposed on).**  The first processes of two nodes,
at any two moments: for each epoch that both have recorded, both answer every question for a balance at that epoch alike. -/
theorem C111_balances_partial {a b : NodeCfg} (hc : OneChain a b) {g : Genesis} {chain : UInt64 → Epoch} {n0 m0 : Node} (hn0 : FirstStart a g n0)
    (hm0 : FirstStart b g m0) {evs evs' : List Event} (hn : CFollows a chain n0 evs) (hm : CFollows b chain m0 evs') (hrn : CRegular a n0 evs)
    (hrm : CRegular b m0 evs') (hempty : EmptyRoot a (Conf.after a n0 evs).node) (hemptyb : EmptyRoot b (Conf.after b m0 evs').node)
    (hid : ∀ d ∈ (Conf.after a n0 evs).node.log, ∀ e ∈ (Conf.after b m0 evs').node.log, ∀ t ∈ d.txs, ∀ u ∈ e.txs,
      t.txHash = u.txHash → t.raw = u.raw ∧ t.pubkey = u.pubkey)
    (k : Nat) (d d' : Done) (hd : (Conf.after a n0 evs).node.log.reverse[k]? = some d) (hd' : (Conf.after b m0 evs').node.log.reverse[k]? = some d') :
    d.epoch = d'.epoch ∧ ∀ (x : Address) (id : AssetID),
      (Conf.after a n0 evs).node.apiBalance a x id (some d.epoch.header.epochId) =
        (Conf.after b m0 evs').node.apiBalance b x id (some d.epoch.header.epochId) := by
  obtain ⟨w0, g1, q1⟩ := C16_concurrent_partial hn0 hrn hempty
  obtain ⟨w0', g2, q2⟩ := C16_concurrent_partial hm0 hrm hemptyb
  obtain rfl := g1.agree hc g2
  have hpre := (C111_results_partial hc hn0 hm0 hn hm hempty hemptyb hid).1
  obtain ⟨n, rn, dn, -⟩ := linear_first hn0 evs hn.keeps.apart
  obtain ⟨m, rm, dm, -⟩ := linear_first hm0 evs' hm.keeps.apart
  have named1 := ((rn.imp fun _ _ hj => (hn.sequential hj).notSync).lives (hn0.lives _) (fun _ _ h => h)).named
  have named2 := ((rm.imp fun _ _ hj => (hm.sequential hj).notSync).lives (hm0.lives _) (fun _ _ h => h)).named
  rw [dn.log] at named1
  rw [dm.log] at named2
  obtain ⟨ho, ht, s1, s2⟩ := outcomes_at hpre hd hd'
  have hsame : d.epoch = d'.epoch := congrArg (fun o : UInt64 × Epoch × ExecResp => o.2.1) ho
  refine ⟨hsame, fun x id => ?_⟩
  obtain ⟨w, -, r1, -, b1, -⟩ := (q1 x id).1 _ d _ s1
  obtain ⟨w', -, r2, -, b2, -⟩ := (q2 x id).1 _ d' _ s2
  obtain ⟨e, -⟩ := replays_agree hc (inputs_at k ht (fun y hy => named1 y (List.mem_reverse.1 hy)) (fun y hy => named2 y (List.mem_reverse.1 hy))
    (fun y hy z hz => hid y (List.mem_reverse.1 hy) z (List.mem_reverse.1 hz))) r1 r2
  rw [b1, hsame, b2, e]

theorem Runs.history {cfg : NodeCfg} {g : Genesis} {ok : Node → NodeOp → Prop} {n0 n : Node} (h0 : FirstStart cfg g n0) (h : Runs cfg ok n0 n) :
    History cfg g ok n [] := by
  induction h with
  | refl => obtain ⟨s, t, h1, h2⟩ := h0; exact .init h1 h2
  | step op _ ho ih => exact .step op ih ho

theorem lastReceipt_congr {l l' : List Done} (h : l.map Done.outcome = l'.map Done.outcome) (k : Hash) : lastReceipt l k = lastReceipt l' k := by
  induction l generalizing l' with
  | nil => cases l' with
    | nil => rfl
    | cons y l' => cases h
  | cons x l ih =>
    cases l' with
    | nil => cases h
    | cons y l' =>
      simp only [List.map_cons, List.cons.injEq, Done.outcome, Prod.mk.injEq] at h
      simp only [lastReceipt, h.1.2.2, ih h.2]

theorem lastReceipt_mem {l : List Done} {k : Hash} {r : Receipt} (h : lastReceipt l k = some r) : ∃ d ∈ l, r ∈ d.resp.receipts ∧ r.txHash = k := by
  induction l with
  | nil => cases h
  | cons x l ih =>
    simp only [lastReceipt] at h
    split at h
    · rename_i r' hf
      injection h with h
      subst h
      exact ⟨x, List.mem_cons_self .., by simpa using List.mem_of_find?_eq_some hf, by simpa using List.find?_some hf⟩
    · obtain ⟨d, h1, h2⟩ := ih h
      exact ⟨d, List.mem_cons_of_mem _ h1, h2⟩

theorem lastReceipt_skip {extra base : List Done} {k : Hash} (h : ∀ d ∈ extra, ∀ r ∈ d.resp.receipts, r.txHash ≠ k) :
    lastReceipt (extra ++ base) k = lastReceipt base k := by
  induction extra with
  | nil => rfl
  | cons x l ih =>
    simp only [List.cons_append, lastReceipt]
    rw [List.find?_eq_none.2 (fun r hr => by simpa using h x (List.mem_cons_self ..) r (List.mem_reverse.1 hr))]
    exact ih fun d hd => h d (List.mem_cons_of_mem _ hd)

/-- The receipt the node that is behind shows is the one the other shows. -/
theorem behind_receipts {a b : NodeCfg} (hc : OneChain a b) {g : Genesis} {chain : UInt64 → Epoch} {n0 m0 n m : Node} (hempty : EmptyRoot a n)
    (hemptyb : EmptyRoot b m) (hn0 : FirstStart a g n0) (hm0 : FirstStart b g m0) (hn : Runs a (fun n op => FollowsChain a chain n op ∧ op.Saves) n0 n)
    (hm : Runs b (fun n op => FollowsChain b chain n op ∧ op.Saves) m0 m)
    (hid : ∀ d ∈ n.log, ∀ e ∈ m.log, ∀ t ∈ d.txs, ∀ u ∈ e.txs, t.txHash = u.txHash → t.raw = u.raw ∧ t.pubkey = u.pubkey)
    (hm1 : ExecutedOnce m.log) (hl : n.log.length ≤ m.log.length) (k : Hash) (r : Receipt) (hr : n.apiReceipt k = some r) : m.apiReceipt k = some r := by
  have hmh := (hm.imp fun _ _ h => h.2).history (g := g) hm0
  rw [C89_receipts_partial ((hn.imp fun _ _ h => h.2).history (g := g) hn0), List.append_nil] at hr
  rw [C89_receipts_partial hmh, List.append_nil]
  obtain ⟨extra, base, h1, h2, -⟩ := behind hc hempty hemptyb hn0 hm0 (hn.imp fun _ _ h => h.1) (hm.imp fun _ _ h => h.1) hid hl
  rw [← lastReceipt_congr h2] at hr
  rw [h1, lastReceipt_skip, hr]
  intro d hd x hx hxk
  have named := hmh.receiptInv.named
  rw [List.append_nil] at named
  have tx {y : Done} (hy : y ∈ m.log) {x : Receipt} (hx : x ∈ y.resp.receipts) : ∃ t ∈ y.txs, t.txHash = x.txHash := by
    have : x.txHash ∈ y.txs.map (·.txHash) := named y hy ▸ List.mem_map_of_mem hx
    obtain ⟨t, h3, h4⟩ := List.mem_map.1 this
    exact ⟨t, h3, h4⟩
  obtain ⟨e, he, hre, hrk⟩ := lastReceipt_mem hr
  obtain ⟨t, ht, htk⟩ := tx (h1 ▸ List.mem_append_left _ hd) hx
  obtain ⟨u, hu, huk⟩ := tx (h1 ▸ List.mem_append_right _ he) hre
  rw [h1] at hm1
  exact (List.pairwise_append.1 hm1).2.2 d hd e he t ht u hu (by rw [htk, huk, hxk, hrk])

/-- **C111, receipts (partial, as `C111_results_partial`, for calls in sequence and without failures of the database, see `C89_refuted`; no transaction is
executed twice, C65).**  Two nodes never show different receipts for one transaction. -/
theorem C111_receipts_partial {a b : NodeCfg} (hc : OneChain a b) {g : Genesis} {chain : UInt64 → Epoch} {n0 m0 n m : Node} (hempty : EmptyRoot a n)
    (hemptyb : EmptyRoot b m) (hn0 : FirstStart a g n0) (hm0 : FirstStart b g m0) (hn : Runs a (fun n op => FollowsChain a chain n op ∧ op.Saves) n0 n)
    (hm : Runs b (fun n op => FollowsChain b chain n op ∧ op.Saves) m0 m)
    (hid : ∀ d ∈ n.log, ∀ e ∈ m.log, ∀ t ∈ d.txs, ∀ u ∈ e.txs, t.txHash = u.txHash → t.raw = u.raw ∧ t.pubkey = u.pubkey)
    (hn1 : ExecutedOnce n.log) (hm1 : ExecutedOnce m.log) (k : Hash) (r r' : Receipt) (hr : n.apiReceipt k = some r) (hr' : m.apiReceipt k = some r') : r = r' := by
  rcases Nat.le_total n.log.length m.log.length with hl | hl
  · have := behind_receipts hc hempty hemptyb hn0 hm0 hn hm hid hm1 hl k r hr
    rw [this] at hr'
    injection hr'
  · have hc' : OneChain b a := ⟨hc.digest.symm, hc.rootOf.symm, hc.showErr.symm, hc.layout.symm, hc.chainId.symm, hc.price.symm⟩
    have := behind_receipts hc' hemptyb hempty hm0 hn0 hm hn
      (fun d hd e he t ht u hu hh => ⟨((hid e he d hd u hu t ht hh.symm).1).symm, ((hid e he d hd u hu t ht hh.symm).2).symm⟩) hn1 hl k r' hr'
    rw [this] at hr
    injection hr with hr
    exact hr.symm

/-! ### The hypotheses are met -/

namespace Demo

/-- The two epochs of the schedules `calm1`, `calm2`. -/
def nfChain : UInt64 → Epoch := fun id => if id = 1 then racePill1.epoch else calmPill.epoch

/-- The commits of the schedule are of these epochs. -/
def nfCheck (evs : List Event) : Bool := evs.all fun e => match e with
  | .callCommit _ _ id pill _ => decide (id ≠ 0) && decide (pill.epoch = nfChain id) && decide (pill.epoch.header.epochId = id)
  | .callSync .. => false
  | _ => true

theorem nfCheck_decided {evs : List Event} (h : nfCheck evs = true) : Decided nfChain evs := by
  simp only [nfCheck, List.all_eq_true] at h
  refine ⟨fun t io id pill proof hm => ?_, fun t io msg hm => ?_⟩
  · have := h _ hm
    simp only [Bool.and_eq_true, decide_eq_true_eq] at this
    exact ⟨this.1.1, this.1.2, this.2⟩
  · have := h _ hm; cases this

def nfNext : UInt64 → Pill → Node → Bool := fun id pill n => decide (id = n.status.epochId) && decide (pill.epoch = nfChain id)

theorem nf_follows {cfg : NodeCfg} {n : Node} {evs : List Event} (hp : plain evs = true) {roots : List MerkleRoot} (hk : keepCheck cfg n roots evs = true)
    (hg : lockCheck cfg n nfNext evs = true) : CFollows cfg nfChain n evs := by
  refine ⟨plain_keeps hp hk, fun pre t post io id pill proof h1 h2 => ?_⟩
  have := lockCheck_good hg h1 h2
  simp only [nfNext, Bool.and_eq_true, decide_eq_true_eq] at this
  exact this

/-- The second commit, to its end. -/
def nfAhead : List Event := calm2 ++ runs 0 8

end Demo

open Demo in
/-- The hypotheses of `C111_epochs` are met by a node that was killed while it committed its second epoch and committed it after the restart, and by a node
that committed the first epoch only; both show the first. -/
example : OneChain ncfg bcfg ∧ CHistory ncfg ngenesis (fun _ evs => Decided nfChain evs) (Conf.after ncfg calmNode calm3).node ((Conf.after ncfg n0 calm2).node.log ++ []) ∧
    CHistory bcfg ngenesis (fun _ evs => Decided nfChain evs) (Conf.after bcfg n0 agree1).node [] ∧
    (Conf.after ncfg calmNode calm3).node.queryEpoch (some 1) = some racePill1.epoch ∧ (Conf.after bcfg n0 agree1).node.queryEpoch (some 1) = some racePill1.epoch ∧
    (Conf.after ncfg calmNode calm3).node.queryEpoch (some 2) = some calmPill.epoch ∧ (Conf.after bcfg n0 agree1).node.queryEpoch (some 2) = none := by
  refine ⟨⟨rfl, rfl, rfl, rfl, rfl, rfl⟩, calm_restart calm3 (nfCheck_decided (by decide +kernel)) (nfCheck_decided (by decide +kernel)), ?_,
    by decide +kernel, by decide +kernel, by decide +kernel, by decide +kernel⟩
  obtain ⟨s, t, h1, h2⟩ := n0_first_other
  exact .init agree1 h1 h2 (nfCheck_decided (by decide +kernel))

open Demo in
/-- The hypotheses of `C111_results_partial` are met by a node that committed both epochs and a node that committed the first, with the payment in another
signature; and those of `C111_balances_partial`, for the first epoch. -/
example : FirstStart ncfg ngenesis n0 ∧ FirstStart bcfg ngenesis n0 ∧ CFollows ncfg nfChain n0 nfAhead ∧ CFollows bcfg nfChain n0 agree1 ∧
    EmptyRoot ncfg (Conf.after ncfg n0 nfAhead).node ∧ EmptyRoot bcfg (Conf.after bcfg n0 agree1).node ∧
    (Conf.after ncfg n0 nfAhead).node.log.map Done.txs = [[other], [late]] ∧ (Conf.after bcfg n0 agree1).node.log.map Done.txs = [[resigned]] ∧
    CFollows ncfg nfChain n0 agree1 ∧ CRegular ncfg n0 nfAhead ∧ CRegular ncfg n0 agree1 ∧ (Conf.after ncfg n0 agree1).node.log.map Done.txs = [[resigned]] :=
  ⟨n0_start, n0_first_other, nf_follows (by decide +kernel) (roots := calmRoots) (by decide +kernel) (by decide +kernel),
    nf_follows (by decide +kernel) (roots := calmRoots) (by decide +kernel) (by decide +kernel), ncfg_emptyRoot (by decide +kernel), ncfg_emptyRoot (by decide +kernel),
    by decide +kernel, by decide +kernel, nf_follows (by decide +kernel) (roots := calmRoots) (by decide +kernel) (by decide +kernel),
    plain_regular (by decide +kernel) (by decide +kernel) (by decide +kernel) (roots := calmRoots) (by decide +kernel) (by decide +kernel),
    plain_regular (by decide +kernel) (by decide +kernel) (by decide +kernel) (roots := calmRoots) (by decide +kernel) (by decide +kernel), by decide +kernel⟩

namespace Demo

def seqPill : Pill := proposal (inserted n0 [npay 1 2 10])
def seqReady : Node := (n0.step ncfg (.insertTx true true (npay 1 2 10))).step ncfg (.propose 7 1)
def seqDone : Node := seqReady.step ncfg (.commit .ok n0.status.epochId seqPill (oproof n0.status.epochId))

theorem seqReady_passive : Passively n0 seqReady :=
  (Passively.step ncfg ⟨rfl, rfl, rfl⟩ (.insertTx true true (npay 1 2 10)) trivial).step ncfg (.propose 7 1) trivial

theorem passive_follows (cfg : NodeCfg) (chain : UInt64 → Epoch) (n : Node) (op : NodeOp) (h : op.Passive) : FollowsChain cfg chain n op ∧ op.Saves := by
  refine ⟨⟨(passive_keeps cfg n op h).1, (passive_keeps cfg n op h).2, fun io id pill proof e => ?_⟩, ?_⟩
  · subst e; cases h
  · cases op <;> trivial

theorem commit_follows {cfg : NodeCfg} {n k : Node} (hp : Passively n k) {pill : Pill} {pr : OverlordProof}
    (h : NodeOp.NotSync (.commit .ok n.status.epochId pill pr) ∧ KeepsRoots cfg k (.commit .ok n.status.epochId pill pr)) :
    FollowsChain cfg (fun _ => pill.epoch) k (.commit .ok n.status.epochId pill pr) ∧ NodeOp.Saves (.commit .ok n.status.epochId pill pr) := by
  refine ⟨⟨h.1, h.2, fun io id pill' proof e => ?_⟩, rfl⟩
  injection e with _ e1 e2 _
  rw [← e1, ← e2, hp.2.1]
  exact ⟨rfl, rfl⟩

end Demo

open Demo in
/-- The hypotheses of `C111_receipts_partial` are met by a node that proposed the epoch and one that pulled its transaction from a peer; both show a receipt. -/
example : Runs ncfg (fun n op => FollowsChain ncfg (fun _ => seqPill.epoch) n op ∧ op.Saves) n0 seqDone ∧
    Runs bcfg (fun n op => FollowsChain bcfg (fun _ => seqPill.epoch) n op ∧ op.Saves) n0 otherDone ∧
    EmptyRoot ncfg seqDone ∧ EmptyRoot bcfg otherDone ∧ seqDone.log.map Done.txs = [[npay 1 2 10]] ∧ otherDone.log.map Done.txs = [[resigned]] ∧
    (seqDone.apiReceipt (npay 1 2 10).txHash).isSome ∧ (otherDone.apiReceipt (npay 1 2 10).txHash).isSome := by
  refine ⟨?_, ?_, ncfg_emptyRoot (by decide +kernel), ncfg_emptyRoot (by decide +kernel), by decide +kernel, by decide +kernel, by decide +kernel, by decide +kernel⟩
  · exact .step _ (.step _ (.step _ .refl (passive_follows ncfg _ _ _ trivial)) (passive_follows ncfg _ _ _ trivial))
      (commit_follows seqReady_passive (commit_keeps ncfg seqReady_passive n0_price (by decide +kernel) _ _ _ (by decide +kernel) (by decide +kernel)))
  · exact .step _ (.step _ (.step _ .refl (passive_follows bcfg _ _ _ trivial)) (passive_follows bcfg _ _ _ trivial))
      (commit_follows otherPulled_passive (commit_keeps bcfg otherPulled_passive n0_price (by decide +kernel) _ _ _ (by decide +kernel) (by decide +kernel)))

end Huobi
