import Verif.Props.NoFork
import Verif.Props.Network
/-
C113: a network of nodes that run this code does not fork, and no node of it has holes.
-/
namespace Huobi

/-! ### Specification -/

/-- A network: the places at which nodes run; the answers that nodes gave so far to requests of synchronising nodes: epochs, with the height that was asked
for, and transactions, with the hashes that were asked for. -/
structure HNet where
  sites : Nat → Option Site
  epochs : List (UInt64 × Epoch)
  bodies : List (List Hash × List SignedTx)

def HNet.set (N : HNet) (i : Nat) (s : Site) : HNet := { N with sites := fun j => if j = i then some s else N.sites j }

/-- The consensus commits only what the validators decided on: one epoch for each height (`chain`), with the height in its header.  A synchronisation is
answered by nodes of the network. -/
def Event.Told (chain : UInt64 → Epoch) (N : HNet) : Event → Prop
  | .callCommit _ _ id pill _ => id ≠ 0 ∧ pill.epoch = chain id ∧ pill.epoch.header.epochId = id
  | .callSync _ io _ => (∀ k id e, io.pullEpoch k id = some e → (id, e) ∈ N.epochs) ∧ ∀ k hs txs, io.pullTxs k hs = some txs → (hs, txs) ∈ N.bodies
  | _ => True

/-- Two descriptions of one call that differ in the answers of peers only; those of the second were given by nodes. -/
inductive Event.Replied (N : HNet) : Event → Event → Prop
  | same (e) : Replied N e e
  | check {t p1 p2 h pill} (q1 q2 : List Hash → Option (List SignedTx)) : Replied N (.callCheck t p1 p2 h pill) (.callCheck t q1 q2 h pill)
  | sync {t io msg} (pe : Nat → UInt64 → Option Epoch) (pt : Nat → List Hash → Option (List SignedTx)) :
      (∀ k id e, pe k id = some e → (id, e) ∈ N.epochs) → (∀ k hs txs, pt k hs = some txs → (hs, txs) ∈ N.bodies) →
      Replied N (.callSync t io msg) (.callSync t { io with pullEpoch := pe, pullTxs := pt } msg)

/-- What can happen in a network in which every node runs this code with its own configuration: nodes start, stop at any moment and are started again; the
accesses of overlapping calls interleave in any way; clients and peers submit any transactions, any proposals are made and checked; nodes synchronise with
each other at any time, also with nodes that synchronise themselves; epochs are committed in any order, again, or not at all; any access to a database may
fail.  Answers arrive at any time, many times or never. -/
inductive HNet.Reach (cfg : Nat → NodeCfg) (g : Genesis) (chain : UInt64 → Epoch) : HNet → Prop
  | init : Reach cfg g chain ⟨fun _ => none, [], []⟩
  /-- the first start at a place -/
  | first {N s t n} (i : Nat) : Reach cfg g chain N → N.sites i = none → handleInit (cfg i) g Store.empty PMap.empty = some (s, t) →
      startNode (cfg i) s t = some n → Reach cfg g chain (N.set i ⟨n, [], []⟩)
  /-- the process is killed and started again -/
  | restart {N s t n p} (i : Nat) : Reach cfg g chain N → N.sites i = some p →
      handleInit (cfg i) g (p.node (cfg i)).store (p.node (cfg i)).tries = some (s, t) → startNode (cfg i) s t = some n →
      Reach cfg g chain (N.set i ⟨n, [], (p.node (cfg i)).log ++ p.older⟩)
  /-- a node gives an epoch that it is asked for -/
  | giveEpoch {N p id e} (i : Nat) : Reach cfg g chain N → N.sites i = some p → (p.node (cfg i)).store.epochs id = some e →
      Reach cfg g chain { N with epochs := (id, e) :: N.epochs }
  /-- a node gives transactions that it is asked for -/
  | giveTxs {N p hs txs} (i : Nat) : Reach cfg g chain N → N.sites i = some p → hs.mapM (p.node (cfg i)).store.txs = some txs →
      Reach cfg g chain { N with bodies := (hs, txs) :: N.bodies }
  /-- anything else that happens at a node -/
  | event {N p} (i : Nat) (e : Event) : Reach cfg g chain N → N.sites i = some p → e.Told chain N →
      Reach cfg g chain (N.set i { p with evs := p.evs ++ [e] })
  /-- an answer to a request arrives after the call that asks for it began: answers that made no difference so far may still be others -/
  | answer {N p} (i : Nat) (evs : List Event) : Reach cfg g chain N → N.sites i = some p → evs.length = p.evs.length →
      (∀ (k : Nat) (e e' : Event), p.evs[k]? = some e → evs[k]? = some e' → e.Replied N e') →
      (∀ k, (Conf.after (cfg i) p.start (evs.take k)).node = (Conf.after (cfg i) p.start (p.evs.take k)).node) →
      Reach cfg g chain (N.set i { p with evs := evs })

/-- No two different worlds, one of each node, have one state root. -/
def NoClash (cfg : NodeCfg) (n m : Node) : Prop :=
  ∀ r r' w w', n.tries r = some w → m.tries r' = some w' → cfg.rootOf w = cfg.rootOf w' → w = w'

/-! ### Worlds are found under their roots -/

def Node.Rooted (cfg : NodeCfg) (n : Node) : Prop := ∀ r w, n.tries r = some w → cfg.rootOf w = r

section
variable {cfg : NodeCfg}

theorem Node.Rooted.of {n m : Node} (h : n.Rooted cfg) (e : m.tries = n.tries) : m.Rooted cfg := fun r w hw => h r w (e ▸ hw)

theorem exec_rooted {root : MerkleRoot} {id : UInt64} {cb : Address} {txs : List SignedTx} {n : Node} (h : n.Rooted cfg) :
    (n.exec cfg root id cb txs).2.Rooted cfg := by
  unfold Node.exec
  cases hr : runBlock (cfg.env id n.status.cyclesPrice cb) n.tries root txs with
  | mk x db =>
    cases x with
    | none =>
      rw [runBlock_error hr (fun r hh => by cases hh)]
      exact h
    | some x =>
      cases x with
      | error f =>
        rw [runBlock_error hr (fun r hh => by cases hh)]
        cases f <;> exact h
      | ok resp =>
        obtain ⟨w, w', -, -, hdb⟩ := runBlock_db hr
        intro r v hv
        have hv : db r = some v := hv
        rw [hdb] at hv
        unfold PMap.set at hv
        split at hv
        · rename_i e
          injection hv with hv
          rw [← hv, e]
          rfl
        · exact h r v hv

theorem saveProof_rooted {io : SaveIo} {p : Proof} {n : Node} (h : n.Rooted cfg) : (n.saveProof cfg io p).2.Rooted cfg := by
  unfold Node.saveProof
  split
  · exact h.of rfl
  · exact h

theorem rooted_updateStatus {io : SaveIo} {root : MerkleRoot} {epochId : UInt64} {epoch : Epoch} {proof : Proof} {resp : ExecResp}
    {txs : List SignedTx} {fail next : Prog} (hf : fail.Keeps (Node.Rooted cfg)) (hn : next.Keeps (Node.Rooted cfg)) :
    (Prog.updateStatus cfg io root epochId epoch proof resp txs fail next).Keeps (Node.Rooted cfg) := by
  refine keeps_write (fun n h => h.of rfl) hf ?_
  refine keeps_write (fun n h => h.of rfl) hf ?_
  refine keeps_write (fun n h => h.of rfl) hf ?_
  refine keeps_write (fun n h => h.of rfl) hf ?_
  refine keeps_write (fun n h => h.of rfl) hf ?_
  exact fun n h => ⟨h.of rfl, hn⟩

theorem rooted_commit {io : CommitIo} {id : UInt64} {pill : Pill} {proof : OverlordProof} :
    (Prog.commit cfg io id pill proof).Keeps (Node.Rooted cfg) := by
  refine ⟨?_, trivial⟩
  split
  · trivial
  intro n h
  refine ⟨saveProof_rooted h, ?_⟩
  beta_reduce
  split
  · trivial
  split
  · trivial
  refine keeps_id fun n _ => ?_
  split
  · trivial
  refine fun n h => ⟨h.of rfl, keeps_id fun n0 _ => fun n h => ⟨exec_rooted h, ?_⟩⟩
  beta_reduce
  split
  · trivial
  · exact rooted_updateStatus (by trivial) (by trivial)

theorem rooted_sync {io : SyncIo} {msg : Bytes} : (Prog.sync cfg io msg).Keeps (Node.Rooted cfg) := by
  have loop (next : Prog) (hn : next.Keeps (Node.Rooted cfg)) (ids : List UInt64) :
      ∀ k h r, (Prog.syncLoop cfg io next k ids h r).Keeps (Node.Rooted cfg) := by
    induction ids with
    | nil => exact fun _ _ _ => hn
    | cons id ids ih =>
      intro k h r
      unfold Prog.syncLoop Prog.syncOne
      split
      · trivial
      split
      · trivial
      intro n h
      refine ⟨saveProof_rooted h, ?_⟩
      beta_reduce
      split
      · trivial
      split
      · trivial
      intro n h
      refine ⟨exec_rooted h, ?_⟩
      beta_reduce
      split
      · trivial
      · exact rooted_updateStatus (by trivial) (ih _ _ _)
  refine ⟨?_, trivial⟩
  split
  · trivial
  refine keeps_id fun n _ => ?_
  split
  · trivial
  refine ⟨keeps_id fun n _ => ?_, trivial⟩
  split
  · trivial
  · exact loop _ (by trivial) _ _ _ _

theorem rooted_after {n : Node} (h : n.Rooted cfg) (evs : List Event) : (Conf.after cfg n evs).node.Rooted cfg := by
  have pool {p : Prog} (hp : p.Pooly) : p.Keeps (Node.Rooted cfg) := hp.keeps (fun n m e hn => hn.of e.tries.symm)
  refine keeps_after (I := Node.Rooted cfg) evs h fun e he t p hp => ?_
  cases e with
  | callCommit t' io id pill proof => cases hp; exact rooted_commit
  | callSync t' io msg => cases hp; exact rooted_sync
  | callInsert t' o b tx => cases hp; exact pool (pooly_insert ..)
  | callPropose t' now id => cases hp; exact pool (pooly_propose ..)
  | callCheck t' p1 p2 hash pill => cases hp; exact pool (pooly_check ..)
  | run t' => cases hp

theorem init_rooted {g : Genesis} {s s' : Store} {t t' : StateDB} (h : handleInit cfg g s t = some (s', t')) (ht : ∀ r w, t r = some w → cfg.rootOf w = r) :
    ∀ r w, t' r = some w → cfg.rootOf w = r := by
  unfold handleInit at h
  split at h
  · injection h with h; injection h with _ h; exact h ▸ ht
  · split at h
    · rename_i root tr hr
      injection h with h
      injection h with _ h
      subst h
      unfold runGenesis at hr
      split at hr
      · cases hr
      · split at hr
        · injection hr with _ hr
          subst hr
          intro r w hw
          unfold StateDB.put PMap.set at hw
          split at hw
          · rename_i e
            injection hw with hw
            rw [← hw, e]
            rfl
          · exact ht r w hw
        · injection hr with hr _; cases hr
    · cases h

theorem CHistory.rooted {g : Genesis} {ok : Node → List Event → Prop} {n : Node} {older : List Done} (h : CHistory cfg g ok n older) : n.Rooted cfg := by
  induction h with
  | init evs h1 h2 hd =>
    obtain ⟨e, -, -, ht, -⟩ := startNode_some h2
    exact rooted_after (fun r w hw => init_rooted h1 (fun r w hw => by cases hw) r w (ht ▸ hw)) evs
  | restart evs _ h1 h2 hd ih =>
    obtain ⟨e, -, -, ht, -⟩ := startNode_some h2
    exact rooted_after (fun r w hw => init_rooted h1 ih r w (ht ▸ hw)) evs

end

/-! ### Places -/

/-- How a place came to where it is. -/
inductive Site.Lived (cfg : NodeCfg) (g : Genesis) (P : Event → Prop) : Site → Prop
  | init {s t n} (evs : List Event) : handleInit cfg g Store.empty PMap.empty = some (s, t) → startNode cfg s t = some n →
      (∀ e ∈ evs, P e) → Lived cfg g P ⟨n, evs, []⟩
  | restart {p s t n} (evs : List Event) : Lived cfg g P p → handleInit cfg g (p.node cfg).store (p.node cfg).tries = some (s, t) →
      startNode cfg s t = some n → (∀ e ∈ evs, P e) → Lived cfg g P ⟨n, evs, (p.node cfg).log ++ p.older⟩

theorem Site.Lived.now {cfg : NodeCfg} {g : Genesis} {P : Event → Prop} {p : Site} (h : p.Lived cfg g P) : ∀ e ∈ p.evs, P e := by
  cases h with
  | init evs _ _ he => exact he
  | restart evs _ _ _ he => exact he

theorem Site.Lived.with {cfg : NodeCfg} {g : Genesis} {P : Event → Prop} {p : Site} (h : p.Lived cfg g P) (evs : List Event) (he : ∀ e ∈ evs, P e) :
    ({ p with evs := evs } : Site).Lived cfg g P := by
  cases h with
  | init _ h1 h2 _ => exact .init evs h1 h2 he
  | restart _ h h1 h2 _ => exact .restart evs h h1 h2 he

theorem Site.Lived.history {cfg : NodeCfg} {g : Genesis} {P : Event → Prop} {p : Site} (h : p.Lived cfg g P) :
    CHistory cfg g (fun _ evs => ∀ e ∈ evs, P e) (p.node cfg) p.older := by
  induction h with
  | init evs h1 h2 he => exact .init evs h1 h2 he
  | restart evs _ h1 h2 he ih => exact .restart evs ih h1 h2 he

/-- What an answer is known to be. -/
def Event.Fine (chain : UInt64 → Epoch) : Event → Prop
  | .callCommit _ _ id pill _ => id ≠ 0 ∧ pill.epoch = chain id ∧ pill.epoch.header.epochId = id
  | .callSync _ io _ => (∀ k id e, io.pullEpoch k id = some e → e.header.epochId = id ∧ (id ≠ 0 → e = chain id)) ∧
      ∀ k hs txs, io.pullTxs k hs = some txs → txs.map SignedTx.txHash = hs
  | _ => True

theorem fine_decided {chain : UInt64 → Epoch} {evs : List Event} (h : ∀ e ∈ evs, e.Fine chain) : Decided chain evs := by
  refine ⟨fun t io id pill proof hm => h _ hm, fun t io msg hm k id e h0 he => ?_⟩
  obtain ⟨h1, h2⟩ := (h _ hm).1 k id e he
  rw [h1]
  exact ⟨h0, h2 h0⟩

theorem fine_bodies {chain : UInt64 → Epoch} {evs : List Event} (h : ∀ e ∈ evs, e.Fine chain) : BodiesMatch evs := by
  intro t io msg hm k id e txs _ ht x hx
  rw [← (h _ hm).2 k _ txs ht] at hx
  obtain ⟨y, hy, rfl⟩ := List.mem_map.1 hx
  exact ⟨y, hy, rfl⟩

theorem CHistory.imp {cfg : NodeCfg} {g : Genesis} {ok ok' : Node → List Event → Prop} (hi : ∀ n evs, ok n evs → ok' n evs) {n : Node} {older : List Done}
    (h : CHistory cfg g ok n older) : CHistory cfg g ok' n older := by
  induction h with
  | init evs h1 h2 hd => exact .init evs h1 h2 (hi _ _ hd)
  | restart evs _ h1 h2 hd ih => exact .restart evs ih h1 h2 (hi _ _ hd)

theorem mapM_keyed {f : Hash → Option SignedTx} (hf : ∀ k t, f k = some t → t.txHash = k) :
    ∀ {hs : List Hash} {txs : List SignedTx}, hs.mapM f = some txs → txs.map SignedTx.txHash = hs
  | [], txs, h => by rw [List.mapM_nil] at h; cases h; rfl
  | k :: hs, txs, h => by
    rw [List.mapM_cons] at h
    cases hk : f k with
    | none => rw [hk] at h; cases h
    | some x =>
      cases hr : hs.mapM f with
      | none => rw [hk, hr] at h; cases h
      | some xs =>
        rw [hk, hr] at h
        cases h
        rw [List.map_cons, hf k x hk, mapM_keyed hf hr]

/-- The answers given so far are of the chain and have what was asked for; so every node knows only the chain. -/
theorem HNet.Reach.inv {cfg : Nat → NodeCfg} {g : Genesis} {chain : UInt64 → Epoch} {N : HNet} (h : HNet.Reach cfg g chain N) :
    (∀ x ∈ N.epochs, x.2.header.epochId = x.1 ∧ (x.1 ≠ 0 → x.2 = chain x.1)) ∧ (∀ x ∈ N.bodies, x.2.map SignedTx.txHash = x.1) ∧
    ∀ i p, N.sites i = some p → p.Lived (cfg i) g (Event.Fine chain) := by
  induction h with
  | init => exact ⟨fun t ht => (by cases ht), fun t ht => (by cases ht), fun i p hp => (by cases hp)⟩
  | first i _ _ h1 h2 ih =>
    refine ⟨ih.1, ih.2.1, fun j p hp => ?_⟩
    simp only [HNet.set] at hp
    split at hp
    · rename_i hj
      subst hj
      injection hp with hp
      subst hp
      exact .init [] h1 h2 fun e he => by cases he
    · exact ih.2.2 j p hp
  | restart i _ h0 h1 h2 ih =>
    refine ⟨ih.1, ih.2.1, fun j p hp => ?_⟩
    simp only [HNet.set] at hp
    split at hp
    · rename_i hj
      subst hj
      injection hp with hp
      subst hp
      exact .restart [] (ih.2.2 _ _ h0) h1 h2 fun e he => by cases he
    · exact ih.2.2 j p hp
  | giveEpoch i _ h0 he ih =>
    refine ⟨fun x hx => ?_, ih.2⟩
    rcases List.mem_cons.1 hx with rfl | hx
    · obtain ⟨gen, -, hf, -⟩ := ((ih.2.2 _ _ h0).history.imp fun _ _ h => fine_decided h).follows
      obtain ⟨h1, h2⟩ := hf.store.byHeight _ _ he
      exact ⟨h1, fun h => by rw [if_neg h] at h2; exact h2⟩
    · exact ih.1 x hx
  | giveTxs i _ h0 ht ih =>
    refine ⟨ih.1, fun x hx => ?_, ih.2.2⟩
    rcases List.mem_cons.1 hx with rfl | hx
    · obtain ⟨gen, -, hf, -⟩ := ((ih.2.2 _ _ h0).history.imp fun _ _ h => fine_decided h).follows
      exact mapM_keyed hf.keyed ht
    · exact ih.2.1 x hx
  | event i e _ h0 he ih =>
    refine ⟨ih.1, ih.2.1, fun j q hq => ?_⟩
    simp only [HNet.set] at hq
    split at hq
    · rename_i hj
      subst hj
      injection hq with hq
      subst hq
      refine (ih.2.2 _ _ h0).with _ fun x hx => ?_
      rcases List.mem_append.1 hx with hx | hx
      · exact (ih.2.2 _ _ h0).now x hx
      · rw [List.mem_singleton.1 hx]
        cases e with
        | callSync t io msg => exact ⟨fun k id e hk => ih.1 _ (he.1 k id e hk), fun k hs txs hk => ih.2.1 _ (he.2 k hs txs hk)⟩
        | callCommit t io id pill proof => exact he
        | _ => trivial
    · exact ih.2.2 j q hq
  | @answer N p i evs _ h0 hl ha _ ih =>
    refine ⟨ih.1, ih.2.1, fun j q hq => ?_⟩
    simp only [HNet.set] at hq
    split at hq
    · rename_i hj
      subst hj
      injection hq with hq
      subst hq
      refine (ih.2.2 _ _ h0).with _ fun x hx => ?_
      obtain ⟨k, hk, rfl⟩ := List.mem_iff_getElem.1 hx
      have hk' : k < p.evs.length := hl ▸ hk
      have hb := (ih.2.2 _ _ h0).now _ (List.getElem_mem hk')
      have := ha k p.evs[k] evs[k] (List.getElem?_eq_getElem hk') (List.getElem?_eq_getElem hk)
      generalize evs[k] = y at this ⊢
      generalize p.evs[k] = z at this hb
      cases this with
      | same => exact hb
      | check q1 q2 => trivial
      | sync pe pt h1 h2 => exact ⟨fun k id e hk => ih.1 _ (h1 k id e hk), fun k hs txs hk => ih.2.1 _ (h2 k hs txs hk)⟩
    · exact ih.2.2 j q hq

/-- Two nodes that have one epoch, and its state, show the same balances. -/
theorem same_balance {a b : NodeCfg} (hc : OneChain a b) {n m : Node} (hn : n.Rooted a) (hm : m.Rooted b) (hnc : NoClash a n m) {q q' : Option UInt64} {e : Epoch}
    (hq : n.queryEpoch q = some e) (hq' : m.queryEpoch q' = some e) {x : Address} {id : AssetID} {v v' : Nat}
    (hv : n.queryBalance a x id q = some v) (hv' : m.queryBalance b x id q' = some v') : v = v' := by
  unfold Node.queryBalance at hv hv'
  rw [hq] at hv
  rw [hq'] at hv'
  simp only at hv hv'
  rw [hc.env] at hv'
  have : fromRoot (a.env e.header.epochId 0 (.user e.header.proposer)) n.tries e.header.stateRoot =
      fromRoot (a.env e.header.epochId 0 (.user e.header.proposer)) m.tries e.header.stateRoot := by
    unfold fromRoot at *
    split at hv
    · cases hv
    · rename_i s hs
      split at hv'
      · cases hv'
      · rename_i s' hs'
        by_cases h0 : e.header.stateRoot = (a.env e.header.epochId 0 (.user e.header.proposer)).emptyHash
        · rw [if_pos h0, if_pos h0]
        · rw [if_neg h0] at hs hs'
          rw [if_neg h0, if_neg h0]
          cases hw : n.tries e.header.stateRoot with
          | none => rw [hw] at hs; cases hs
          | some w =>
            cases hw' : m.tries e.header.stateRoot with
            | none => rw [hw'] at hs'; cases hs'
            | some w' =>
              have := hm _ _ hw'
              rw [hc.rootOf] at this
              rw [hnc _ _ w w' hw hw' ((hn _ _ hw).trans this.symm)]
  rw [this] at hv
  rw [hv] at hv'
  injection hv'

/-- **C113.**  In every network of nodes that run this code - however many, with any calls in any overlap, processes killed at any moment and started again,
failures at any point, and nodes that synchronise with each other at any time, also before they have all there is - in which the consensus commits one epoch
for each height: at any two moments any two nodes show the same epoch for one height (also if they are asked for the latest, and among those they recorded),
and if both can tell a balance at it, the same balance; and whatever epoch a node shows at any moment, it has all its transactions and their receipts.  Nothing
is assumed of what synchronising nodes are answered but that nodes of the network answer. -/
theorem C113_network {cfg : Nat → NodeCfg} (hc : ∀ i j, OneChain (cfg i) (cfg j)) {g : Genesis} {chain : UInt64 → Epoch} {N M : HNet}
    (hN : HNet.Reach cfg g chain N) (hM : HNet.Reach cfg g chain M) (i j : Nat) (p q : Site) (hp : N.sites i = some p) (hq : M.sites j = some q) :
    (∀ h e e', (p.node (cfg i)).queryEpoch (some h) = some e → (q.node (cfg j)).queryEpoch (some h) = some e' → e = e') ∧
    (∀ e e', (p.node (cfg i)).queryEpoch none = some e → (q.node (cfg j)).queryEpoch none = some e' → e.header.epochId = e'.header.epochId → e = e') ∧
    (∀ d ∈ (p.node (cfg i)).log ++ p.older, ∀ d' ∈ (q.node (cfg j)).log ++ q.older, d.height = d'.height → d.epoch = d'.epoch) ∧
    (NoClash (cfg i) (p.node (cfg i)) (q.node (cfg j)) → ∀ h x id v v', (p.node (cfg i)).queryBalance (cfg i) x id (some h) = some v →
      (q.node (cfg j)).queryBalance (cfg j) x id (some h) = some v' → v = v') ∧
    (p.node (cfg i)).store.Whole := by
  have lp := (hN.inv).2.2 i p hp
  have lq := (hM.inv).2.2 j q hq
  obtain ⟨h1, h2, h3⟩ := C111_epochs (hc i j) (lp.history.imp fun _ _ h => fine_decided h) (lq.history.imp fun _ _ h => fine_decided h)
  refine ⟨h1, h2, h3, fun hnc h x id v v' hv hv' => ?_, C110_partial (lp.history.imp fun _ _ h => fine_bodies h)⟩
  have known {c : NodeCfg} {n : Node} {y : Nat} (hy : n.queryBalance c x id (some h) = some y) : ∃ e, n.queryEpoch (some h) = some e := by
    unfold Node.queryBalance at hy
    cases he : n.queryEpoch (some h) with
    | none => rw [he] at hy; cases hy
    | some e => exact ⟨e, rfl⟩
  obtain ⟨e, he⟩ := known hv
  obtain ⟨e', he'⟩ := known hv'
  obtain rfl := h1 h e e' he he'
  exact same_balance (hc i j) lp.history.rooted lq.history.rooted hnc he he' hv hv'

/-- The answers in `HNet.Reach` are what the code answers: a reply of the handler for requests of synchronising nodes carries, for a request for an epoch, the
epoch that the node has stored for this height, and for a request for transactions, those it has stored for these hashes. -/
theorem C113_answers (n : Node) (sid : Nat) (rid : Option UInt64) (content : Bytes) (m : OutMsg) (hm : m ∈ rpcHandler n sid rid content) :
    (∃ id e, RpcRequest.dec content = some (.pullEpochs id) ∧ n.store.epochs id = some e ∧ m.content = (RpcResponse.pullEpochs e).enc) ∨
    ∃ hs txs, RpcRequest.dec content = some (.pullTxs hs) ∧ hs.mapM n.store.txs = some txs ∧ m.content = (RpcResponse.pullTxs txs).enc := by
  unfold rpcHandler at hm
  split at hm
  · cases hm
  · rename_i id hd
    split at hm
    · cases hm
    · rename_i e he; exact .inl ⟨id, e, hd, he, respond_content hm⟩
  · rename_i hs hd
    split at hm
    · cases hm
    · rename_i txs hx
      exact .inr ⟨hs, txs, hd, hx, respond_content hm⟩

/-! ### A network -/

theorem HNet.set_self (N : HNet) (i : Nat) (a : Site) : (N.set i a).sites i = some a := by
  unfold HNet.set
  exact if_pos rfl

/-- Several things happen at one node. -/
theorem HNet.Reach.events {cfg : Nat → NodeCfg} {g : Genesis} {chain : UInt64 → Epoch} {N : HNet} {i : Nat} {p : Site} (h : HNet.Reach cfg g chain N)
    (hp : N.sites i = some p) (evs : List Event) (he : ∀ e ∈ evs, ∀ M : HNet, M.epochs = N.epochs → M.bodies = N.bodies → e.Told chain M) :
    ∃ M, HNet.Reach cfg g chain M ∧ M.sites i = some { p with evs := p.evs ++ evs } ∧
      (∀ j, j ≠ i → M.sites j = N.sites j) ∧ M.epochs = N.epochs ∧ M.bodies = N.bodies := by
  induction evs generalizing N p with
  | nil => exact ⟨N, h, by rw [List.append_nil]; exact hp, fun _ _ => rfl, rfl, rfl⟩
  | cons e evs ih =>
    have h1 := HNet.Reach.event i e h hp (he e (.head _) N rfl rfl)
    obtain ⟨M, m1, m2, m3, m4, m5⟩ := ih h1 (HNet.set_self ..) fun x hx => he x (.tail _ hx)
    refine ⟨M, m1, ?_, fun j hj => ?_, m4, m5⟩
    · rw [m2, List.append_assoc]; rfl
    · rw [m3 j hj]; exact if_neg hj

namespace Demo

def netCfg : Nat → NodeCfg := fun i => if i = 0 then ncfg else bcfg

/-- The first node proposes and commits a third epoch, without transactions. -/
def net3 : List Event := nfAhead ++ .run 2 :: .callPropose 2 7 3 :: runs 2 4
def netPill : Pill := (pillOf ((Conf.after ncfg n0 net3).tasks 2)).getD noPill
def netLead : List Event := net3 ++ .callCommit 0 .ok 3 netPill (oproof 3) :: runs 0 14

def netChain : UInt64 → Epoch := fun id => if id = 1 then racePill1.epoch else if id = 2 then calmPill.epoch else netPill.epoch

/-- What the first node answers. -/
def netIo : SyncIo :=
  { lock := true
    pullEpoch := fun _ id => if id = 2 then some calmPill.epoch else if id = 3 then some netPill.epoch else none
    pullTxs := fun _ hs => if hs = calmPill.epoch.orderedTxHashes then some [other] else if hs = netPill.epoch.orderedTxHashes then some [] else none
    save := fun _ => .ok
    send := true }

/-- The second node commits the first epoch, and then synchronises with the first node. -/
def netSync : List Event := .callSync 1 netIo (u64LE 4) :: runs 1 24

def netGives : Bool := decide ((Conf.after ncfg n0 netLead).node.store.epochs 2 = some calmPill.epoch) &&
  decide ((Conf.after ncfg n0 netLead).node.store.epochs 3 = some netPill.epoch) &&
  decide (calmPill.epoch.orderedTxHashes.mapM (Conf.after ncfg n0 netLead).node.store.txs = some [other]) &&
  decide (netPill.epoch.orderedTxHashes.mapM (Conf.after ncfg n0 netLead).node.store.txs = some [])

theorem netIo_told (N : HNet) (h1 : N.epochs = [(3, netPill.epoch), (2, calmPill.epoch)])
    (h2 : N.bodies = [(netPill.epoch.orderedTxHashes, []), (calmPill.epoch.orderedTxHashes, [other])]) (t : Nat) (msg : Bytes) :
    (Event.callSync t netIo msg).Told netChain N := by
  generalize he : calmPill.epoch = a at *
  generalize hf : netPill.epoch = b at *
  refine ⟨fun k id e h => ?_, fun k hs txs h => ?_⟩
  · unfold netIo at h
    simp only [he, hf] at h
    rw [h1]
    split at h
    · rename_i hi; subst hi; injection h with h; subst h; exact .tail _ (.head _)
    · split at h
      · rename_i hi; subst hi; injection h with h; subst h; exact .head _
      · cases h
  · unfold netIo at h
    simp only [he, hf] at h
    rw [h2]
    split at h
    · rename_i hi; subst hi; injection h with h; subst h; exact .tail _ (.head _)
    · split at h
      · rename_i hi; subst hi; injection h with h; subst h; exact .head _
      · cases h

/-- The commits of the schedule are of these epochs. -/
def netCheck (evs : List Event) : Bool := evs.all fun e => match e with
  | .callCommit _ _ id pill _ => decide (id ≠ 0) && decide (pill.epoch = netChain id) && decide (pill.epoch.header.epochId = id)
  | .callSync .. => false
  | _ => true

theorem netCheck_told {evs : List Event} (h : netCheck evs = true) (N : HNet) : ∀ e ∈ evs, e.Told netChain N := by
  simp only [netCheck, List.all_eq_true] at h
  intro e hm
  have := h _ hm
  cases e with
  | callCommit t io id pill proof =>
    simp only [Bool.and_eq_true, decide_eq_true_eq] at this
    exact ⟨this.1.1, this.1.2, this.2⟩
  | callSync t io msg => cases this
  | _ => trivial

theorem site_epoch {cfg : NodeCfg} {n : Node} {evs : List Event} {i : UInt64} {e : Epoch} (h : (Conf.after cfg n evs).node.store.epochs i = some e) :
    ((⟨n, evs, []⟩ : Site).node cfg).store.epochs i = some e := h

theorem site_tx {cfg : NodeCfg} {n : Node} {evs : List Event} {k : Hash} {t : SignedTx} (h : (Conf.after cfg n evs).node.store.txs k = some t) :
    ((⟨n, evs, []⟩ : Site).node cfg).store.txs k = some t := h

theorem site_txs {cfg : NodeCfg} {n : Node} {evs : List Event} {hs : List Hash} {txs : List SignedTx}
    (h : hs.mapM (Conf.after cfg n evs).node.store.txs = some txs) : hs.mapM ((⟨n, evs, []⟩ : Site).node cfg).store.txs = some txs := h

theorem netStart_lead : HNet.Reach netCfg ngenesis netChain ((⟨fun _ => none, [], []⟩ : HNet).set 0 ⟨n0, [], []⟩) := by
  obtain ⟨s, t, i1, i2⟩ := n0_start
  exact .first (cfg := netCfg) 0 .init rfl i1 i2

theorem netStart_other {N : HNet} (h : HNet.Reach netCfg ngenesis netChain N) (hn : N.sites 1 = none) :
    HNet.Reach netCfg ngenesis netChain (N.set 1 ⟨n0, [], []⟩) := by
  obtain ⟨s, t, i1, i2⟩ := n0_first_other
  exact .first (cfg := netCfg) 1 h hn i1 i2

/-- What the first node did, and answers. -/
theorem netLead_reach : ∃ N, HNet.Reach netCfg ngenesis netChain N ∧ N.sites 0 = some ⟨n0, netLead, []⟩ ∧ N.sites 1 = none ∧
    N.epochs = [(3, netPill.epoch), (2, calmPill.epoch)] ∧
    N.bodies = [(netPill.epoch.orderedTxHashes, []), (calmPill.epoch.orderedTxHashes, [other])] := by
  have hA : netGives = true := by decide +kernel
  have hC : netCheck netLead = true := by decide +kernel
  have htold := netCheck_told hC
  simp only [netGives, Bool.and_eq_true, decide_eq_true_eq] at hA
  generalize netLead = evs at *
  generalize netPill.epoch = b at *
  obtain ⟨⟨⟨a1, a2⟩, a3⟩, a4⟩ := hA
  obtain ⟨M, m1, m2, m3, m4, m5⟩ := netStart_lead.events (HNet.set_self ..) evs (fun e he M _ _ => htold M e he)
  have m2 : M.sites 0 = some ⟨n0, evs, []⟩ := m2
  have m3 : M.sites 1 = none := m3 1 (by decide)
  have h2 := HNet.Reach.giveEpoch (cfg := netCfg) 0 m1 m2 (site_epoch a1)
  have h3 := HNet.Reach.giveEpoch (cfg := netCfg) 0 h2 m2 (site_epoch a2)
  have h4 := HNet.Reach.giveTxs (cfg := netCfg) 0 h3 m2 (site_txs a3)
  have h5 := HNet.Reach.giveTxs (cfg := netCfg) 0 h4 m2 (site_txs a4)
  refine ⟨_, h5, m2, m3, ?_, ?_⟩
  · show _ :: _ :: M.epochs = _
    rw [m4]; rfl
  · show _ :: _ :: M.bodies = _
    rw [m5]; rfl

end Demo

open Demo in
/-- A network as in `C113_network`: one node commits three epochs; another one, that committed the first only, synchronises with it; both show the third, and
the second with its payment. -/
example : (∀ i j, OneChain (netCfg i) (netCfg j)) ∧ ∃ N p q, HNet.Reach netCfg ngenesis netChain N ∧ N.sites 0 = some p ∧ N.sites 1 = some q ∧
    (p.node ncfg).store.epochs 3 = some netPill.epoch ∧ (q.node bcfg).store.epochs 3 = some netPill.epoch ∧
    (p.node ncfg).store.epochs 2 = some calmPill.epoch ∧ (q.node bcfg).store.epochs 2 = some calmPill.epoch ∧
    calmPill.epoch.orderedTxHashes = [other.txHash] ∧ (q.node bcfg).store.txs other.txHash = some other := by
  refine ⟨fun i j => ?_, ?_⟩
  · unfold netCfg
    split <;> split <;> exact ⟨rfl, rfl, rfl, rfl, rfl, rfl⟩
  have hB : (decide ((Conf.after bcfg n0 (agree1 ++ netSync)).node.store.epochs 3 = some netPill.epoch) &&
    decide ((Conf.after bcfg n0 (agree1 ++ netSync)).node.store.epochs 2 = some calmPill.epoch) &&
    decide (calmPill.epoch.orderedTxHashes = [other.txHash]) &&
    decide ((Conf.after bcfg n0 (agree1 ++ netSync)).node.store.txs other.txHash = some other) &&
    decide ((Conf.after ncfg n0 netLead).node.store.epochs 3 = some netPill.epoch) &&
    decide ((Conf.after ncfg n0 netLead).node.store.epochs 2 = some calmPill.epoch)) = true := by decide +kernel
  have hC : netCheck agree1 = true := by decide +kernel
  simp only [Bool.and_eq_true, decide_eq_true_eq] at hB
  obtain ⟨N, h1, h2, h3, h4, h5⟩ := netLead_reach
  have h6 := netStart_other h1 h3
  have told := netIo_told
  have htold := netCheck_told hC
  obtain ⟨K, k1, k2, k3, k4, k5⟩ := h6.events (HNet.set_self ..) (agree1 ++ netSync) (fun e he L l1 l2 => by
    rcases List.mem_append.1 he with he | he
    · exact htold L e he
    rcases List.mem_cons.1 he with rfl | he
    · exact told L (l1.trans h4) (l2.trans h5) 1 _
    · rw [List.eq_of_mem_replicate he]; trivial)
  obtain ⟨⟨⟨⟨⟨b1, b2⟩, b3⟩, b4⟩, b5⟩, b6⟩ := hB
  have h0 : K.sites 0 = some ⟨n0, netLead, []⟩ := (k3 0 (by decide)).trans h2
  exact ⟨K, ⟨n0, netLead, []⟩, ⟨n0, agree1 ++ netSync, []⟩, k1, h0, k2, site_epoch b5, site_epoch b1, site_epoch b6, site_epoch b2, b3, site_tx b4⟩

/-- A node has no two worlds with one root. -/
theorem noClash_self {cfg : NodeCfg} {n : Node} (h : n.Rooted cfg) : NoClash cfg n n := fun r r' w w' hw hw' e => by
  rw [h r w hw, h r' w' hw'] at e
  subst e
  rw [hw] at hw'
  injection hw'

open Demo in
/-- The hypotheses on balances are met: two nodes that were just started have the worlds of the same genesis file.  The two nodes of the network above can tell a
balance at the second epoch, the one that synchronised too. -/
example : NoClash ncfg n0 n0 ∧ n0.queryBalance ncfg (naddr 1) token (some 0) = some 100 ∧
    (Conf.after ncfg n0 netLead).node.queryBalance ncfg (naddr 1) token (some 2) = some 90 ∧
    (Conf.after bcfg n0 (agree1 ++ netSync)).node.queryBalance bcfg (naddr 1) token (some 2) = some 90 := by
  refine ⟨noClash_self ?_, by decide +kernel, by decide +kernel, by decide +kernel⟩
  obtain ⟨s, t, h1, h2⟩ := n0_start
  exact (CHistory.init (ok := fun _ _ => True) [] h1 h2 trivial).rooted

end Huobi
