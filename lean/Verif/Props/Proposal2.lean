import Verif.Props.Timeout2
import Verif.Props.Proposal
/-
C78, proposals, with overlapping calls: what a proposal says about the epoch before it, whatever the node does while it makes it.
-/
namespace Huobi

/-! ### The status and the record -/

/-- The status says this of the recorded epoch. -/
def Status.Of (cfg : NodeCfg) (st : Status) (d : Done) : Prop :=
  st.epochId = d.height + 1 ∧ st.prevHash = cfg.digest (encode d.epoch) ∧ st.orderRoot = cfg.merkle d.epoch.orderedTxHashes ∧
  st.receiptRoot = [cfg.merkle (d.resp.receipts.map (fun r => cfg.digest (encode r)))] ∧ st.stateRoot = d.resp.stateRoot ∧ st.proof = d.proof

/-- Where a task is: without the engine lock; with it, the status in step with the record; with it, one epoch recorded and the status not yet
updated. -/
inductive Pace where
  | out | level | behind (d : Done)

/-- How a program may change status and record. -/
def Prog.Neat (cfg : NodeCfg) : Prog → Pace → Prop
  | .ret _, .out => True
  | .ret _, _ => False
  | .act f k, .out => ∀ n : Node, n.Same (f n) ∧ (k n).Neat cfg .out
  | .act f k, .level => ∀ n : Node, (f n).status = n.status ∧
      (((f n).log = n.log ∧ (k n).Neat cfg .level) ∨ ∃ d, (f n).log = d :: n.log ∧ (k n).Neat cfg (.behind d))
  | .act f k, .behind d => ∀ n : Node, (f n).log = n.log ∧ (f n).status.Of cfg d ∧ (k n).Neat cfg .level
  | .lock .engine a b, .out => a.Neat cfg .level ∧ b.Neat cfg .out
  | .lock .engine _ _, _ => False
  | .lock .sync a b, p => a.Neat cfg p ∧ b.Neat cfg p
  | .unlock .engine k, .level => k.Neat cfg .out
  | .unlock .engine _, _ => False
  | .unlock .sync k, p => k.Neat cfg p

theorem neat_endCommit {cfg : NodeCfg} (r : Except CErr UInt64) : (Prog.endCommit r).Neat cfg .level := trivial
theorem neat_endSync {cfg : NodeCfg} (r : Except CErr (Option UInt64)) : (Prog.endSync r).Neat cfg .level := trivial

theorem neat_write {cfg : NodeCfg} {ok : Bool} {w : Node → Node} {fail next : Prog} (hw : ∀ n, (w n).status = n.status ∧ (w n).log = n.log)
    (hf : fail.Neat cfg .level) (hn : next.Neat cfg .level) : (Prog.write ok w fail next).Neat cfg .level := by
  intro n
  cases ok
  · exact ⟨rfl, .inl ⟨rfl, hf⟩⟩
  · exact ⟨(hw n).1, .inl ⟨(hw n).2, hn⟩⟩

theorem neat_updateStatus {cfg : NodeCfg} {io : SaveIo} {root : MerkleRoot} {epochId : UInt64} {epoch : Epoch} {proof : Proof} {resp : ExecResp}
    {txs : List SignedTx} {fail next : Prog} (hf : fail.Neat cfg .level) (hn : next.Neat cfg .level) :
    (Prog.updateStatus cfg io root epochId epoch proof resp txs fail next).Neat cfg .level := by
  refine neat_write (fun _ => ⟨rfl, rfl⟩) hf <| neat_write (fun _ => ⟨rfl, rfl⟩) hf <| neat_write (fun _ => ⟨rfl, rfl⟩) hf <|
    neat_write (fun _ => ⟨rfl, rfl⟩) hf fun n => ?_
  cases hw : decide (2 < io.epochWrites)
  · exact ⟨rfl, .inl ⟨rfl, hf⟩⟩
  · exact ⟨rfl, .inr ⟨_, rfl, fun n => ⟨rfl, ⟨rfl, rfl, rfl, rfl, rfl, rfl⟩, hn⟩⟩⟩

theorem exec_keeps_status (cfg : NodeCfg) (root : MerkleRoot) (id : UInt64) (cb : Address) (txs : List SignedTx) (n : Node) :
    (n.exec cfg root id cb txs).2.status = n.status ∧ (n.exec cfg root id cb txs).2.log = n.log := by
  unfold Node.exec
  generalize runBlock (cfg.env id n.status.cyclesPrice cb) n.tries root txs = x
  obtain ⟨a, db⟩ := x
  cases a with
  | none => exact ⟨rfl, rfl⟩
  | some a =>
    cases a with
    | error f => cases f <;> exact ⟨rfl, rfl⟩
    | ok resp => exact ⟨rfl, rfl⟩

theorem saveProof_status (cfg : NodeCfg) (io : SaveIo) (p : Proof) (n : Node) :
    (n.saveProof cfg io p).2.status = n.status ∧ (n.saveProof cfg io p).2.log = n.log := by
  unfold Node.saveProof; split <;> exact ⟨rfl, rfl⟩

theorem neat_commit (cfg : NodeCfg) (io : CommitIo) (id : UInt64) (pill : Pill) (proof : OverlordProof) :
    (Prog.commit cfg io id pill proof).Neat cfg .out := by
  refine ⟨?_, trivial⟩
  split
  · exact neat_endCommit _
  intro n
  refine ⟨(saveProof_status ..).1, .inl ⟨(saveProof_status ..).2, ?_⟩⟩
  beta_reduce
  split
  · exact neat_endCommit _
  split
  · exact neat_endCommit _
  intro n
  refine ⟨rfl, .inl ⟨rfl, ?_⟩⟩
  beta_reduce
  split
  · exact neat_endCommit _
  intro n
  refine ⟨rfl, .inl ⟨rfl, fun n0 => ⟨rfl, .inl ⟨rfl, fun n2 => ⟨(exec_keeps_status ..).1, .inl ⟨(exec_keeps_status ..).2, ?_⟩⟩⟩⟩⟩⟩
  beta_reduce
  split
  · exact neat_endCommit _
  · exact neat_updateStatus (neat_endCommit _) (neat_endCommit _)

theorem neat_syncLoop {cfg : NodeCfg} {io : SyncIo} {next : Prog} (hn : next.Neat cfg .level) (ids : List UInt64) :
    ∀ k h r, (Prog.syncLoop cfg io next k ids h r).Neat cfg .level := by
  induction ids with
  | nil => exact fun _ _ _ => hn
  | cons id ids ih =>
    intro k h r
    unfold Prog.syncLoop Prog.syncOne
    split
    · exact neat_endSync _
    split
    · exact neat_endSync _
    intro n
    refine ⟨(saveProof_status ..).1, .inl ⟨(saveProof_status ..).2, ?_⟩⟩
    beta_reduce
    split
    · exact neat_endSync _
    split
    · exact neat_endSync _
    intro n
    refine ⟨(exec_keeps_status ..).1, .inl ⟨(exec_keeps_status ..).2, ?_⟩⟩
    beta_reduce
    split
    · exact neat_endSync _
    · exact neat_updateStatus (neat_endSync _) (ih _ _ _)

theorem neat_sync (cfg : NodeCfg) (io : SyncIo) (msg : Bytes) : (Prog.sync cfg io msg).Neat cfg .out := by
  refine ⟨?_, trivial⟩
  split
  · trivial
  intro n
  refine ⟨.refl _, ?_⟩
  beta_reduce
  split
  · trivial
  refine ⟨fun n => ⟨rfl, .inl ⟨rfl, ?_⟩⟩, trivial⟩
  beta_reduce
  split
  · exact neat_endSync _
  · exact neat_syncLoop (neat_endSync _) _ _ _ _

theorem Prog.Pooly.neat {cfg : NodeCfg} {p : Prog} (h : p.Pooly) : p.Neat cfg .out := by
  induction h with
  | ret => trivial
  | act h1 _ ih => exact fun n => ⟨h1 n, ih n⟩

/-- The status says what it should of the record, apart from an epoch recorded last if the status is one behind. -/
def Pace.At (cfg : NodeCfg) : Pace → Node → Prop
  | .behind d, n => ∃ l, n.log = d :: l ∧ ∀ d' rest, l = d' :: rest → n.status.Of cfg d'
  | _, n => ∀ d rest, n.log = d :: rest → n.status.Of cfg d

theorem Pace.At.same {cfg : NodeCfg} {p : Pace} {n m : Node} (h : p.At cfg n) (hs : n.Same m) : p.At cfg m := by
  cases p with
  | behind d => obtain ⟨l, h1, h2⟩ := h; exact ⟨l, by rw [← hs.log]; exact h1, by rw [← hs.status]; exact h2⟩
  | out => intro d rest h'; rw [← hs.status]; exact h d rest (by rw [hs.log]; exact h')
  | level => intro d rest h'; rw [← hs.status]; exact h d rest (by rw [hs.log]; exact h')

structure NeatConf (cfg : NodeCfg) (c : Conf) (p : Pace) : Prop where
  at_ : p.At cfg c.node
  free : c.held .engine = none → p = .level
  busy : ∀ t, c.held .engine = some t → (c.tasks t).isSome = true ∧ p ≠ .out
  task : ∀ t q, c.tasks t = some q → q.Neat cfg (if c.held .engine = some t then p else .out)

theorem NeatConf.start {cfg : NodeCfg} {c : Conf} {p : Pace} (h : NeatConf cfg c p) (t : Nat) {q : Prog} (hq : q.Neat cfg .out) : NeatConf cfg (c.start t q) p := by
  unfold Conf.start
  split
  · rename_i hn
    refine ⟨h.at_, h.free, fun t' ht' => ?_, fun t' q' hq' => ?_⟩
    · obtain ⟨h1, h2⟩ := h.busy t' ht'
      refine ⟨?_, h2⟩
      simp only [Conf.setTask]
      split
      · rfl
      · exact h1
    · have hh : ∀ x, (c.setTask t x).held = c.held := fun _ => rfl
      rw [hh]
      simp only [Conf.setTask] at hq'
      split at hq'
      · rename_i he
        cases hq'
        subst he
        have : c.held .engine ≠ some t' := fun he => by
          have := (h.busy t' he).1
          rw [Option.isNone_iff_eq_none.1 hn] at this
          cases this
        rw [if_neg this]
        exact hq
      · exact h.task t' q' hq'
  · exact h

theorem NeatConf.event {cfg : NodeCfg} {c : Conf} {p : Pace} (h : NeatConf cfg c p) (e : Event) : ∃ p', NeatConf cfg (c.step cfg e) p' := by
  cases e with
  | callCommit t io id pill proof => exact ⟨p, h.start t (neat_commit cfg io id pill proof)⟩
  | callSync t io msg => exact ⟨p, h.start t (neat_sync cfg io msg)⟩
  | callInsert t o b tx => exact ⟨p, h.start t (pooly_insert cfg o b tx).neat⟩
  | callPropose t now id => exact ⟨p, h.start t (pooly_propose cfg now id).neat⟩
  | callCheck t p1 p2 hash pill => exact ⟨p, h.start t (pooly_check p1 p2 hash pill).neat⟩
  | run t =>
    simp only [Conf.step]
    -- the tasks other than `t`
    have rest : ∀ (c' : Conf) (p' : Pace) (q : Option Prog), c'.tasks = (c.setTask t q).tasks → (∀ t', t' ≠ t → (c'.held .engine = some t' ↔ c.held .engine = some t')) →
        (∀ t', t' ≠ t → c.held .engine = some t' → p' = p) → p'.At cfg c'.node → (c'.held .engine = none → p' = .level) →
        (c'.held .engine = some t → q.isSome = true ∧ p' ≠ .out) → (∀ x, q = some x → x.Neat cfg (if c'.held .engine = some t then p' else .out)) →
        NeatConf cfg c' p' := by
      intro c' p' q ht hh hp hat hfree hb hq
      refine ⟨hat, hfree, fun t' ht' => ?_, fun t' q' hq' => ?_⟩
      · by_cases e : t' = t
        · subst e
          rw [ht]
          simp only [Conf.setTask, if_true]
          exact hb ht'
        · have ht'' := (hh t' e).1 ht'
          rw [ht, hp t' e ht'']
          simp only [Conf.setTask, if_neg e]
          exact h.busy t' ht''
      · rw [ht] at hq'
        simp only [Conf.setTask] at hq'
        split at hq'
        · rename_i e
          subst e
          exact hq q' hq'
        · rename_i e
          have := h.task t' q' hq'
          by_cases he : c.held .engine = some t'
          · rw [if_pos he] at this
            rw [if_pos ((hh t' e).2 he), hp t' e he]
            exact this
          · rw [if_neg he] at this
            rw [if_neg (fun x => he ((hh t' e).1 x))]
            exact this
    have same (t' : Nat) (_ : t' ≠ t) : c.held .engine = some t' ↔ c.held .engine = some t' := Iff.rfl
    split
    · exact ⟨p, h⟩
    · rename_i r hr
      have hneat := h.task t _ hr
      have hno : c.held .engine ≠ some t := by
        intro he
        rw [if_pos he] at hneat
        have := (h.busy t he).2
        cases p with
        | out => exact this rfl
        | level => exact hneat
        | behind d => exact hneat
      exact ⟨p, rest (c.setTask t none) p none rfl same (fun _ _ _ => rfl) h.at_ h.free (fun he => absurd he hno) (fun x hx => by cases hx)⟩
    · rename_i f k hk
      have hneat := h.task t _ hk
      by_cases he : c.held .engine = some t
      · rw [if_pos he] at hneat
        have hne := (h.busy t he).2
        have none' : ∀ t', t' ≠ t → c.held .engine = some t' → ∀ p' : Pace, p' = p := fun t' hn he' => by rw [he] at he'; cases he'; exact absurd rfl hn
        have fin : ∀ p' : Pace, p' ≠ .out → p'.At cfg (f c.node) → (k c.node).Neat cfg p' → ∃ p', NeatConf cfg (({ c with node := f c.node } : Conf).setTask t (some (k c.node))) p' :=
          fun p' h1 h2 h3 => ⟨p', rest _ p' (some (k c.node)) rfl same (fun t' hn he' => none' t' hn he' p') h2 (fun x => by
            have x : c.held .engine = none := x
            rw [he] at x; cases x) (fun _ => ⟨rfl, h1⟩) (fun x hx => by
              cases hx
              have : (({ c with node := f c.node } : Conf).setTask t (some (k c.node))).held .engine = some t := he
              rw [if_pos this]; exact h3)⟩
        cases p with
        | out => exact absurd rfl hne
        | level =>
          obtain ⟨h1, h2⟩ := hneat c.node
          rcases h2 with ⟨h2, h3⟩ | ⟨d, h2, h3⟩
          · exact fin .level (by simp) (by intro d r hd; rw [h1]; exact h.at_ d r (by rw [← h2]; exact hd)) h3
          · exact fin (.behind d) (by simp) ⟨_, h2, fun d' r hd => by rw [h1]; exact h.at_ d' r hd⟩ h3
        | behind d =>
          obtain ⟨h1, h2, h3⟩ := hneat c.node
          obtain ⟨l, hl, -⟩ := h.at_
          exact fin .level (by simp) (by intro d' r hd; rw [h1, hl] at hd; cases hd; exact h2) h3
      · rw [if_neg he] at hneat
        obtain ⟨h1, h2⟩ := hneat c.node
        refine ⟨p, rest _ p (some (k c.node)) rfl same (fun _ _ _ => rfl) (h.at_.same h1) h.free (fun x => absurd x he) (fun x hx => ?_)⟩
        cases hx
        have : (({ c with node := f c.node } : Conf).setTask t (some (k c.node))).held .engine ≠ some t := he
        rw [if_neg this]; exact h2
    · rename_i l a b hk
      have hneat := h.task t _ hk
      cases l with
      | engine =>
        by_cases he : c.held .engine = some t
        · rw [if_pos he] at hneat
          have := (h.busy t he).2
          cases p with
          | out => exact absurd rfl this
          | level => exact hneat.elim
          | behind d => exact hneat.elim
        · rw [if_neg he] at hneat
          split
          · rename_i hf
            have hf : c.held .engine = none := Option.isNone_iff_eq_none.1 hf
            have hp := h.free hf
            subst hp
            refine ⟨.level, rest _ .level (some a) rfl (fun t' hn => ?_) (fun _ _ _ => rfl) h.at_ (fun _ => rfl) (fun _ => ⟨rfl, by simp⟩) (fun x hx => ?_)⟩
            · have : ((c.setLock .engine (some t)).setTask t (some a)).held .engine = some t := by simp [Conf.setLock, Conf.setTask]
              rw [this, hf]
              constructor
              · intro x; cases x; exact absurd rfl hn
              · intro x; cases x
            · cases hx
              have : ((c.setLock .engine (some t)).setTask t (some a)).held .engine = some t := by simp [Conf.setLock, Conf.setTask]
              rw [if_pos this]
              exact hneat.1
          · refine ⟨p, rest _ p (some b) rfl same (fun _ _ _ => rfl) h.at_ h.free (fun x => absurd x he) (fun x hx => ?_)⟩
            cases hx
            have : (c.setTask t (some b)).held .engine ≠ some t := he
            rw [if_neg this]
            exact hneat.2
      | sync =>
        have hb : ∀ {x : Prog} {c' : Conf} (hx : x.Neat cfg (if c.held .engine = some t then p else .out)), c'.tasks = (c.setTask t (some x)).tasks →
            c'.held .engine = c.held .engine → c'.node = c.node → ∃ p', NeatConf cfg c' p' := by
          intro x c' hx h1 h2 h3
          refine ⟨p, rest c' p (some x) h1 (fun _ _ => by rw [h2]) (fun _ _ _ => rfl) (by rw [h3]; exact h.at_) (by rw [h2]; exact h.free)
            (fun he => ⟨rfl, (h.busy t (by rw [← h2]; exact he)).2⟩) (fun y hy => ?_)⟩
          cases hy
          rw [h2]
          exact hx
        have hn : a.Neat cfg (if c.held .engine = some t then p else .out) ∧ b.Neat cfg (if c.held .engine = some t then p else .out) := by
          generalize (if c.held .engine = some t then p else Pace.out) = z at hneat
          cases z <;> exact hneat
        split
        · exact hb hn.1 rfl (by simp [Conf.setLock, Conf.setTask]) rfl
        · exact hb hn.2 rfl rfl rfl
    · rename_i l k hk
      have hneat := h.task t _ hk
      cases l with
      | engine =>
        by_cases he : c.held .engine = some t
        · rw [if_pos he] at hneat
          have hne := (h.busy t he).2
          cases p with
          | out => exact absurd rfl hne
          | behind d => exact hneat.elim
          | level =>
            have hh : ((c.setLock .engine none).setTask t (some k)).held .engine = none := by simp [Conf.setLock, Conf.setTask]
            refine ⟨.level, rest _ .level (some k) rfl (fun t' hn => ?_) (fun _ _ _ => rfl) h.at_ (fun _ => rfl) (fun x => by rw [hh] at x; cases x) (fun x hx => ?_)⟩
            · rw [hh, he]
              constructor
              · intro x; cases x
              · intro x; cases x; exact absurd rfl hn
            · cases hx
              rw [hh]
              exact hneat
        · rw [if_neg he] at hneat
          exact hneat.elim
      | sync =>
        have hn : k.Neat cfg (if c.held .engine = some t then p else .out) := by
          generalize (if c.held .engine = some t then p else Pace.out) = z at hneat
          cases z <;> exact hneat
        have hh : ((c.setLock .sync none).setTask t (some k)).held .engine = c.held .engine := by simp [Conf.setLock, Conf.setTask]
        refine ⟨p, rest _ p (some k) rfl (fun _ _ => by rw [hh]) (fun _ _ _ => rfl) h.at_ (by rw [hh]; exact h.free)
          (fun x => ⟨rfl, (h.busy t (by rw [← hh]; exact x)).2⟩) (fun y hy => ?_)⟩
        cases hy
        rw [hh]
        exact hn

theorem neat_after {cfg : NodeCfg} {s : Store} {d : StateDB} {n0 : Node} (hs : startNode cfg s d = some n0) (evs : List Event) :
    ∃ p, NeatConf cfg (Conf.after cfg n0 evs) p := by
  have snoc : ∀ l : List Event, ∃ p, NeatConf cfg (Conf.after cfg n0 l.reverse) p := by
    intro l
    induction l with
    | nil =>
      obtain ⟨e, -, -, -, -, h4, -⟩ := startNode_some hs
      refine ⟨.level, ?_, fun _ => rfl, fun t h => (by cases h), fun t q h => (by cases h)⟩
      intro d rest h
      have h : n0.log = d :: rest := h
      rw [h4] at h; cases h
    | cons e l ih =>
      obtain ⟨p, hp⟩ := ih
      rw [List.reverse_cons, after_snoc]
      exact hp.event e
  simpa using snoc evs.reverse

/-! ### C78 -/

/-- **C78 with overlapping calls (partial).**  A process is started on any stored data, and any calls overlap in any way.  If a proposal is
returned by a call that asked for height `id` at time `now`, then it is of the chain and this height and time, names the node as proposer and has the
Merkle root of its own transactions; and at some moment during this call, if an epoch had been recorded by the process by then, the proposal
describes in all fields the last one, or the one before it in case the last one was just being recorded: it is one higher and carries its
hash, the Merkle root of its transactions, the Merkle root of its receipts, the state root after it, and its proof. -/
theorem C78_concurrent_partial {cfg : NodeCfg} {s : Store} {db : StateDB} {n0 : Node} (hs : startNode cfg s db = some n0) (evs : List Event)
    {t : Nat} {pill : Pill} {hash : Bytes} (hp : (Conf.after cfg n0 evs).tasks t = some (.ret (.propose (.ok (pill, hash))))) :
    ∃ before mid after now id, evs = before ++ .callPropose t now id :: (mid ++ after) ∧
      pill.epoch.header.chainId = cfg.chainId ∧ pill.epoch.header.epochId = id ∧ pill.epoch.header.proposer = cfg.selfAddress ∧
      pill.epoch.header.timestamp = now ∧ pill.epoch.header.orderRoot = cfg.merkle pill.epoch.orderedTxHashes ∧
      ∃ recorded, ((Conf.after cfg n0 (before ++ .callPropose t now id :: mid)).node.log = recorded ∨
          ∃ last, (Conf.after cfg n0 (before ++ .callPropose t now id :: mid)).node.log = last :: recorded) ∧
        ∀ d rest, recorded = d :: rest →
          id = d.height + 1 ∧ pill.epoch.header.preHash = cfg.digest (encode d.epoch) ∧
          pill.epoch.header.confirmRoot = [cfg.merkle d.epoch.orderedTxHashes] ∧
          pill.epoch.header.receiptRoot = [cfg.merkle (d.resp.receipts.map (fun r => cfg.digest (encode r)))] ∧
          pill.epoch.header.stateRoot = d.resp.stateRoot ∧ pill.epoch.header.proof = d.proof := by
  let N : Nat → Node := fun i => (Conf.after cfg n0 (evs.take i)).node
  have hfine := fine_after (cfg := cfg) (n := n0) (evs := evs) (N := N)
    (Q := fun t pill => ∃ j i now id, j < i ∧ i ≤ evs.length ∧ evs[j]? = some (.callPropose t now id) ∧ (N i).status.epochId = id ∧
      ∃ order, pill.epoch = ⟨{ chainId := cfg.chainId, epochId := id, preHash := (N i).status.prevHash, timestamp := now
                               logsBloom := (N i).status.logsBloom, orderRoot := cfg.merkle order, confirmRoot := [(N i).status.orderRoot]
                               stateRoot := (N i).status.stateRoot, receiptRoot := (N i).status.receiptRoot, cyclesUsed := (N i).status.cyclesUsed
                               proposer := cfg.selfAddress, proof := (N i).status.proof, validatorVersion := 0
                               validators := (N i).status.validators }, order⟩) (fun _ => rfl)
    (by
      intro t now id j hj i0 h0 l0 i1 h1 l1
      beta_reduce
      split
      · trivial
      intro i2 h2 l2
      beta_reduce
      split
      · trivial
      · rename_i order propose hpk
        split
        · trivial
        · rename_i hid
          have hid : (N i0).status.epochId = id := Classical.not_not.1 hid
          intro i3 h3 l3
          exact ⟨j, i0, now, id, h0, l0, hj, hid, order, rfl⟩)
    evs.length (Nat.le_refl _) t _ (by rw [List.take_length]; exact hp)
  obtain ⟨j, i, now, id, hji, hi, hj, hid, order, he⟩ := hfine
  have hjl : j < evs.length := by omega
  have hevj : evs[j] = .callPropose t now id := by
    rw [List.getElem?_eq_getElem hjl] at hj
    exact Option.some.inj hj
  have e1 : evs.take i = evs.take j ++ .callPropose t now id :: (evs.take i).drop (j + 1) := by
    have h1 := (List.take_append_drop j (evs.take i)).symm
    rw [List.take_take, Nat.min_eq_left (by omega)] at h1
    have hl : j < (evs.take i).length := by rw [List.length_take]; omega
    rw [List.drop_eq_getElem_cons hl, List.getElem_take, hevj] at h1
    exact h1
  have e2 : evs = evs.take j ++ .callPropose t now id :: ((evs.take i).drop (j + 1) ++ evs.drop i) := by
    conv => lhs; rw [← List.take_append_drop i evs]
    conv => lhs; rw [e1]
    simp
  refine ⟨evs.take j, (evs.take i).drop (j + 1), evs.drop i, now, id, e2, ?_, ?_, ?_, ?_, ?_, ?_⟩
  · rw [he]
  · rw [he]
  · rw [he]
  · rw [he]
  · rw [he]
  · rw [← e1]
    obtain ⟨p, hneat⟩ := neat_after hs (evs.take i)
    have hat := hneat.at_
    have fin : ∀ d : Done, (N i).status.Of cfg d → id = d.height + 1 ∧ pill.epoch.header.preHash = cfg.digest (encode d.epoch) ∧
          pill.epoch.header.confirmRoot = [cfg.merkle d.epoch.orderedTxHashes] ∧
          pill.epoch.header.receiptRoot = [cfg.merkle (d.resp.receipts.map (fun r => cfg.digest (encode r)))] ∧
          pill.epoch.header.stateRoot = d.resp.stateRoot ∧ pill.epoch.header.proof = d.proof := by
      rintro d ⟨h1, h2, h3, h4, h5, h6⟩
      rw [he]
      exact ⟨by rw [← hid, h1], h2, by rw [h3], h4, h5, h6⟩
    cases p with
    | behind d =>
      obtain ⟨l, h1, h2⟩ := hat
      exact ⟨l, .inr ⟨d, h1⟩, fun d' rest hd => fin d' (h2 d' rest hd)⟩
    | out => exact ⟨_, .inl rfl, fun d rest hd => fin d (hat d rest hd)⟩
    | level => exact ⟨_, .inl rfl, fun d rest hd => fin d (hat d rest hd)⟩

open Demo in
/-- The hypotheses are met: a proposal for the epoch after one that the process has recorded, with other calls overlapping. -/
example : (∃ s db, startNode ncfg s db = some n0) ∧
    (∃ hash, (Conf.after ncfg n0 calm1).tasks 2 = some (.ret (.propose (.ok (calmPill, hash))))) ∧
    (Conf.after ncfg n0 calm1).node.log.length = 1 ∧ calmPill.epoch.header.epochId = 2 := by
  obtain ⟨s, t, -, hs⟩ := n0_start
  exact ⟨⟨s, t, hs⟩, pillOf_some (by decide +kernel) noPill, by decide +kernel, by decide +kernel⟩

end Huobi
