import Verif.Props.NodeNet4
/-
C118: a node that starts later than the others.
-/
namespace Huobi

/-! ### Specification -/

/-- What peers answer to the requests of a synchronisation when the epoch of height 1 has transactions: whatever is given as epoch 1 orders some, and
transactions are given for the hashes that were asked for.  Peers may also not answer; about the other epochs nothing is said. -/
structure SyncIo.FirstFull (io : SyncIo) : Prop where
  epoch : ∀ k e, io.pullEpoch k 1 = some e → e.orderedTxHashes ≠ []
  txs : ∀ k hs ts, io.pullTxs k hs = some ts → ts.length = hs.length

/-- Calls of a node that does not take part in the consensus: it never commits by itself. -/
def Event.Late : Event → Prop
  | .callCommit .. => False
  | .callSync _ io _ => io.FirstFull
  | _ => True

/-- The node has the genesis epoch and nothing else. -/
structure AtGenesis (cfg : NodeCfg) (g : Genesis) (n : Node) : Prop where
  latest : ∃ root, n.store.latest = some (cfg.genesisEpoch g.timestamp root)
  epochs : ∀ i e, n.store.epochs i = some e → i = 0
  log : n.log = []

/-! ### Proofs -/

section
variable {cfg : NodeCfg} {g : Genesis}

/-- Without any account nothing with a transaction can be executed. -/
theorem empty_executes_nothing (env : Env) (txs : List SignedTx) (h : txs ≠ []) : ¬ ∃ resp w', Executes env World.empty txs resp w' := by
  cases txs with
  | nil => exact absurd rfl h
  | cons tx txs =>
    obtain ⟨resp, w, h0⟩ : ∃ resp w, Executes env World.empty [] resp w := ⟨_, _, rfl, rfl⟩
    have hw := (executes_nil h0).1
    exact C10_unknown_sender_refuted (pre := []) empty_wellTyped h0 (by rw [hw]; intro hh; cases hh)

theorem AtGenesis.of {n k : Node} (h : AtGenesis cfg g n) (h1 : k.store.latest = n.store.latest) (h2 : k.store.epochs = n.store.epochs) (h3 : k.log = n.log) :
    AtGenesis cfg g k := ⟨h1 ▸ h.latest, h2 ▸ h.epochs, h3 ▸ h.log⟩

theorem AtGenesis.id {n : Node} (h : AtGenesis cfg g n) : n.currentId = 0 := by
  obtain ⟨root, hl⟩ := h.latest
  unfold Node.currentId
  rw [hl]
  rfl

/-- No access of the program makes a node that is at genesis leave it. -/
def Prog.StaysAtGenesis (cfg : NodeCfg) (g : Genesis) : Prog → Prop
  | .ret _ => True
  | .act f k => ∀ n, AtGenesis cfg g n → AtGenesis cfg g (f n) ∧ (k n).StaysAtGenesis cfg g
  | .lock _ a b => a.StaysAtGenesis cfg g ∧ b.StaysAtGenesis cfg g
  | .unlock _ k => k.StaysAtGenesis cfg g

theorem Prog.Pooly.stays {p : Prog} (h : p.Pooly) : p.StaysAtGenesis cfg g := by
  induction h with
  | ret => exact trivial
  | act h1 _ ih => exact fun n hn => ⟨hn.of (by rw [← (h1 n).store]) (by rw [← (h1 n).store]) (h1 n).log.symm, ih n⟩

theorem exec_empty_fails {id : UInt64} {cb : Address} {txs : List SignedTx} {n : Node} (h : txs ≠ []) :
    (∃ e, (n.exec cfg cfg.emptyHash id cb txs).1 = .error e) ∧ (n.exec cfg cfg.emptyHash id cb txs).2 = n := by
  unfold Node.exec runBlock fromRoot
  have e : (cfg.env id n.status.cyclesPrice cb).emptyHash = cfg.emptyHash := rfl
  rw [e, if_pos rfl]
  have hno := empty_executes_nothing (cfg.env id n.status.cyclesPrice cb) txs h
  unfold Executes at hno
  cases hx : exec (cfg.env id n.status.cyclesPrice cb) txs (St.open World.empty) with
  | mk r s =>
    rw [hx] at hno
    cases r with
    | ok resp => exact absurd ⟨resp, _, rfl, rfl⟩ hno
    | error f =>
      simp only [hx]
      cases f with
      | panic => exact ⟨⟨_, rfl⟩, rfl⟩
      | err e => exact ⟨⟨_, rfl⟩, rfl⟩

theorem saveProof_stays (io : SaveIo) (p : Proof) {n : Node} (h : AtGenesis cfg g n) : AtGenesis cfg g (n.saveProof cfg io p).2 := by
  unfold Node.saveProof
  split
  · exact h.of rfl rfl rfl
  · exact h

theorem stays_sync {io : SyncIo} {msg : Bytes} (hio : io.FirstFull) : (Prog.sync cfg io msg).StaysAtGenesis cfg g := by
  refine ⟨?_, trivial⟩
  split
  · trivial
  intro n hn
  refine ⟨hn, ?_⟩
  beta_reduce
  split
  · trivial
  refine ⟨fun m hm => ⟨hm, ?_⟩, trivial⟩
  rw [hn.id]
  unfold Node.syncStart
  simp only [↓reduceIte]
  unfold syncIds
  rename_i v _ _ _
  cases (UInt64.ofNat v - 1).toNat - (0 : UInt64).toNat with
  | zero => trivial
  | succ l =>
    rw [List.range_succ_eq_map, List.map_cons]
    unfold Prog.syncLoop Prog.syncOne
    have e1 : (0 : UInt64) + 1 + UInt64.ofNat 0 = 1 := rfl
    rw [e1]
    cases he : io.pullEpoch 1 1 with
    | none => trivial
    | some epoch =>
      dsimp only
      split
      · trivial
      intro m hm
      refine ⟨saveProof_stays _ _ hm, ?_⟩
      beta_reduce
      split
      · trivial
      split
      · trivial
      · rename_i txs htx
        have hne : txs ≠ [] := by
          intro hh
          have := hio.txs _ _ _ htx
          rw [hh] at this
          exact hio.epoch _ _ he (List.length_eq_zero_iff.1 this.symm)
        intro k hk
        obtain ⟨⟨e, h1⟩, h2⟩ := exec_empty_fails (cfg := cfg) (id := epoch.header.epochId) (cb := .user epoch.header.proposer) (n := k) hne
        beta_reduce
        rw [h2, h1]
        exact ⟨hk, trivial⟩

theorem stays_prog {e : Event} {t : Nat} {p : Prog} (he : e.Late) (hp : e.prog cfg = some (t, p)) : p.StaysAtGenesis cfg g := by
  cases e with
  | callCommit t' io id pill proof => exact he.elim
  | callSync t' io msg => cases hp; exact stays_sync he
  | callInsert t' o b tx => cases hp; exact (pooly_insert ..).stays
  | callPropose t' now id => cases hp; exact (pooly_propose ..).stays
  | callCheck t' p1 p2 hash pill => cases hp; exact (pooly_check ..).stays
  | run t' => cases hp

/-- Nothing that is under way takes the node away from genesis. -/
def Conf.Stays (cfg : NodeCfg) (g : Genesis) (c : Conf) : Prop := AtGenesis cfg g c.node ∧ ∀ t p, c.tasks t = some p → p.StaysAtGenesis cfg g

theorem stays_set {c : Conf} (h : c.Stays cfg g) (t : Nat) (q : Option Prog) (hq : ∀ p, q = some p → p.StaysAtGenesis cfg g) : (c.setTask t q).Stays cfg g := by
  refine ⟨h.1, fun t' p hp => ?_⟩
  simp only [Conf.setTask] at hp
  split at hp
  · exact hq p hp
  · exact h.2 t' p hp

theorem stays_step {c : Conf} (h : c.Stays cfg g) {e : Event} (he : e.Late) : (c.step cfg e).Stays cfg g := by
  cases hp : e.prog cfg with
  | some x =>
    obtain ⟨t, p⟩ := x
    rw [step_prog hp]
    unfold Conf.start
    split
    · exact stays_set h _ _ fun q hq => by cases hq; exact stays_prog he hp
    · exact h
  | none =>
    cases e with
    | run t =>
      simp only [Conf.step]
      cases hq : c.tasks t with
      | none => exact h
      | some p =>
        have hk := h.2 t p hq
        cases p with
        | ret r => exact stays_set h t _ (fun q hq => by cases hq)
        | act f k =>
          obtain ⟨h1, h2⟩ := hk c.node h.1
          exact stays_set (c := { c with node := f c.node }) ⟨h1, h.2⟩ t _ (fun q hq => by cases hq; exact h2)
        | lock l a b =>
          simp only
          split
          · exact stays_set (c := c.setLock l (some t)) h t _ (fun q hq => by cases hq; exact hk.1)
          · exact stays_set h t _ (fun q hq => by cases hq; exact hk.2)
        | unlock l k => exact stays_set (c := c.setLock l none) h t _ (fun q hq => by cases hq; exact hk)
    | _ => cases hp

theorem stays_after {n : Node} (h : AtGenesis cfg g n) (evs : List Event) (he : ∀ e ∈ evs, e.Late) : AtGenesis cfg g (Conf.after cfg n evs).node := by
  suffices hs : ∀ (evs : List Event) (c : Conf), c.Stays cfg g → (∀ e ∈ evs, e.Late) → (evs.foldl (Conf.step cfg) c).Stays cfg g from
    (hs evs _ ⟨h, fun t p hp => by cases hp⟩ he).1
  intro evs
  induction evs with
  | nil => exact fun c h _ => h
  | cons e evs ih => exact fun c h he => ih _ (stays_step h (he e (.head _))) fun e' h' => he e' (.tail _ h')

/-- **C118 is false: nobody can join.**  If the first epoch of the chain has transactions, a node that starts from genesis and does not commit by itself stays
at genesis for ever: in every lifetime, through restarts and overlapping calls, however often it synchronises with whichever peers, also honest ones only,
it never records any epoch.  (The synchronisation executes epoch 1 on the empty state in place of the state of genesis, and there no sender has an account.) -/
theorem C118_stuck {n : Node} {older : List Done} (h : CHistory cfg g (fun _ evs => ∀ e ∈ evs, e.Late) n older) : AtGenesis cfg g n ∧ older = [] := by
  induction h with
  | @init s t n evs h1 h2 he =>
    refine ⟨stays_after ?_ evs he, rfl⟩
    obtain ⟨e, hl, hs, -, -, hlog, -⟩ := startNode_some h2
    unfold handleInit at h1
    dsimp only [Store.empty] at h1
    split at h1
    · rename_i root tries' hr
      injection h1 with h1
      injection h1 with h1 _
      subst h1
      have hf := congrArg Store.epochs hs
      have hl' := congrArg Store.latest hs
      refine ⟨⟨root, hl'⟩, fun i e hi => ?_, hlog⟩
      rw [hf] at hi
      by_cases h0 : i = 0
      · exact h0
      · have : (if i = 0 then some (cfg.genesisEpoch g.timestamp root) else none) = some e := hi
        rw [if_neg h0] at this
        cases this
    · cases h1
  | @restart n older s t n' evs _ h1 h2 he ih =>
    obtain ⟨ha, rfl⟩ := ih
    obtain ⟨root, hl⟩ := ha.latest
    obtain ⟨rfl, rfl⟩ := handleInit_some (by rw [hl]; rfl) h1
    obtain ⟨e, -, hs, -, -, hlog, -⟩ := startNode_some h2
    exact ⟨stays_after (ha.of (by rw [hs]) (by rw [hs]) (hlog.trans ha.log.symm)) evs he, by rw [ha.log]; rfl⟩

/-- **C118 of a whole process**: also a process to which anybody sends any bytes. -/
theorem C118_process {z : Compression} {n : Node} {older : List Done}
    (h : NHistory z cfg g (fun l => (∀ e ∈ ownEvents l, e.Late) ∧ ∀ io, NodeNetEvent.answers io l → io.FirstFull) n older) : AtGenesis cfg g n ∧ older = [] :=
  C118_stuck (h.calls (Q := Event.Late) (fun _ hl e he => hl.1 e he) (fun _ _ _ _ _ _ _ => trivial) (fun _ hl io hi _ _ => hl.2 io hi))

theorem mapM_length {α β : Type} {f : α → Option β} {l : List α} {r : List β} (h : l.mapM f = some r) : r.length = l.length := by
  induction l generalizing r with
  | nil => cases h; rfl
  | cons a l ih =>
    rw [List.mapM_cons] at h
    cases ha : f a with
    | none => rw [ha] at h; cases h
    | some b =>
      rw [ha] at h
      cases hr : l.mapM f with
      | none => rw [hr] at h; cases h
      | some r' =>
        rw [hr] at h
        cases h
        rw [List.length_cons, List.length_cons, ih hr]

/-- Everything that peers answer is what the node `m` would answer. -/
structure SyncIo.AnsweredByNode (m : Node) (io : SyncIo) : Prop where
  epochs : ∀ k id e, io.pullEpoch k id = some e → m.store.epochs id = some e
  txs : ∀ k hs ts, io.pullTxs k hs = some ts → hs.mapM m.store.txs = some ts

/-- Answers of a node whose first epoch has transactions. -/
theorem SyncIo.AnsweredByNode.first {m : Node} {io : SyncIo} (h : io.AnsweredByNode m) (hm : ∀ e, m.store.epochs 1 = some e → e.orderedTxHashes ≠ []) : io.FirstFull :=
  ⟨fun k e he => hm e (h.epochs k 1 e he), fun k hs ts ht => mapM_length (h.txs k hs ts ht)⟩

end

/-- Calls of a node that does not commit by itself and whose synchronisations are answered by `m`. -/
def Event.Follows (m : Node) : Event → Prop
  | .callCommit .. => False
  | .callSync _ io _ => io.AnsweredByNode m
  | _ => True

open Demo in
/-- **C118 is false of the code as it stands.**  There is a chain of three epochs that a node committed without any fault, and no process that starts from the same
genesis with the same configuration ever records an epoch of it by synchronising with that node, however often and whenever it tries. -/
theorem C118_refuted : ∃ (cfg : NodeCfg) (g : Genesis) (m : Node), Lives cfg g (fun _ _ => True) m ∧ m.log.length = 3 ∧ m.status.epochId = 4 ∧
    (∀ z n older, NHistory z cfg g (fun l => (∀ e ∈ ownEvents l, e.Follows m) ∧ ∀ io, NodeNetEvent.answers io l → io.AnsweredByNode m) n older →
      n.log ++ older = [] ∧ ∀ i, i ≠ 0 → n.queryEpoch (some i) = none) := by
  have l1 : Lives ncfg ngenesis (fun _ _ => True) n1 := blockOps_lives (n0_lives _) _ (fun _ _ => trivial)
  have l2 : Lives ncfg ngenesis (fun _ _ => True) n2 := blockOps_lives l1 _ (fun _ _ => trivial)
  have l3 : Lives ncfg ngenesis (fun _ _ => True) n3 := blockOps_lives l2 _ (fun _ _ => trivial)
  have h1 : n3.log.length = 3 := by decide +kernel
  have h2 : n3.status.epochId = 4 := by decide +kernel
  have h3 : (n3.store.epochs 1).map (fun e => decide (e.orderedTxHashes ≠ [])) = some true := by decide +kernel
  refine ⟨ncfg, ngenesis, n3, l3, h1, h2, fun z n older h => ?_⟩
  have hm : ∀ e, n3.store.epochs 1 = some e → e.orderedTxHashes ≠ [] := by
    intro e he
    rw [he] at h3
    simp only [Option.map_some, Option.some.injEq, decide_eq_true_eq] at h3
    exact h3
  generalize n3 = m at *
  have ho : AtGenesis ncfg ngenesis n ∧ older = [] := C118_stuck (h.calls (Q := Event.Late) (fun l hl e he => ?_) (fun _ _ _ _ _ _ _ => trivial)
    (fun l hl io hi _ _ => (hl.2 io hi).first hm))
  · obtain ⟨ha, rfl⟩ := ho
    refine ⟨by rw [ha.log]; rfl, fun i hi => ?_⟩
    cases he : n.queryEpoch (some i) with
    | none => rfl
    | some e => exact absurd (ha.epochs i e he) hi
  · have := hl.1 e he
    cases e with
    | callCommit => exact this
    | callSync t io msg => exact SyncIo.AnsweredByNode.first this hm
    | _ => trivial

namespace Demo

theorem peer_first {m : Node} (hm : (m.store.epochs 1).map (fun e => decide (e.orderedTxHashes ≠ [])) = some true) : (peer m).FirstFull := by
  refine ⟨fun k e he => ?_, fun k hs ts ht => mapM_length ht⟩
  have he : m.store.epochs 1 = some e := he
  rw [he] at hm
  simp only [Option.map_some, Option.some.injEq, decide_eq_true_eq] at hm
  exact hm

/-- A node that has just been started synchronises with the node that committed three epochs. -/
def joining : List Event := Event.callSync 0 (peer n3) (u64LE 4) :: List.replicate 8 (Event.run 0)

theorem joining_late : ∀ e ∈ joining, e.Late := by
  have h3 : (n3.store.epochs 1).map (fun e => decide (e.orderedTxHashes ≠ [])) = some true := by decide +kernel
  have hp := peer_first h3
  intro e he
  unfold joining at he
  generalize n3 = m at *
  rcases List.mem_cons.1 he with rfl | he
  · exact hp
  · rw [List.eq_of_mem_replicate he]; trivial

/-- The task ended because the sender of a transaction has no account. -/
def noAccount : Option Prog → Bool
  | some (.ret (.sync (.error (.exec (.accountNotFound _))))) => true
  | _ => false

end Demo

open Demo in
/-- A lifetime as in `C118_stuck`: a synchronisation gets epoch 1, fails because no sender has an account, and is repeated after a restart. -/
example : noAccount ((Conf.after ncfg n0 joining).tasks 0) = true ∧
    ∃ n n', CHistory ncfg ngenesis (fun _ evs => ∀ e ∈ evs, e.Late) (Conf.after ncfg n0 joining).node [] ∧
      CHistory ncfg ngenesis (fun _ evs => ∀ e ∈ evs, e.Late) n [] ∧
      startNode ncfg (Conf.after ncfg n0 joining).node.store (Conf.after ncfg n0 joining).node.tries = some n' ∧ n = (Conf.after ncfg n' joining).node := by
  have hc : noAccount ((Conf.after ncfg n0 joining).tasks 0) = true := by decide +kernel
  obtain ⟨s, t, h1, h2⟩ := n0_start
  have hl := joining_late
  refine ⟨hc, ?_⟩
  clear hc
  generalize joining = evs at *
  have c := CHistory.init (ok := fun _ evs => ∀ e ∈ evs, e.Late) evs h1 h2 hl
  have hg := (C118_stuck c).1
  obtain ⟨root, hr⟩ := hg.latest
  obtain ⟨n', hn'⟩ := Option.isSome_iff_exists.1
    (show (startNode ncfg (Conf.after ncfg n0 evs).node.store (Conf.after ncfg n0 evs).node.tries).isSome from by simp [startNode, hr])
  have c' := CHistory.restart (ok := fun _ evs => ∀ e ∈ evs, e.Late) evs c (by simp [handleInit, hr]) hn' hl
  rw [hg.log] at c'
  exact ⟨_, n', c, c', hn', rfl⟩

end Huobi
