import Verif.Props.Timeout2
/-
C108: a node records only epochs it was given; and C104, executions, with overlapping calls.
-/
namespace Huobi

/-! ### Specification -/

/-- The recorded epoch `d` was given to the process that was started with `n0` by a call of the schedule `evs`: by a commit of this epoch at this
height with this proof, its transactions being those the pool had, at some moment, for the hashes the epoch orders; or by a peer in a synchronisation,
its transactions being those the peer gave for these hashes. -/
inductive Done.GivenBy (cfg : NodeCfg) (n0 : Node) (evs : List Event) (d : Done) : Prop
  | commit (t : Nat) (io : CommitIo) (pill : Pill) (proof : OverlordProof) (pre post : List Event) : Event.callCommit t io d.height pill proof ∈ evs →
      pill.epoch = d.epoch → proof.toProof = some d.proof → evs = pre ++ post →
      (Conf.after cfg n0 pre).node.pool.getFullTxs d.epoch.orderedTxHashes = .ok d.txs → Done.GivenBy cfg n0 evs d
  | sync (t : Nat) (io : SyncIo) (msg : Bytes) (k : Nat) (asked : UInt64) : Event.callSync t io msg ∈ evs → io.pullEpoch k asked = some d.epoch →
      io.pullTxs k d.epoch.orderedTxHashes = some d.txs → d.height = d.epoch.header.epochId → d.proof = d.epoch.header.proof → Done.GivenBy cfg n0 evs d

/-! ### Proofs -/

/-- Run on nodes in `S`, the program records only what is in `R`. -/
def Prog.Recs (S : Node → Prop) (R : Done → Prop) : Prog → Prop
  | .ret _ => True
  | .act f k => ∀ n, S n → ((f n).log = n.log ∨ ∃ d, (f n).log = d :: n.log ∧ R d) ∧ (k n).Recs S R
  | .lock _ a b => a.Recs S R ∧ b.Recs S R
  | .unlock _ k => k.Recs S R

theorem Prog.Pooly.recs {S : Node → Prop} {R : Done → Prop} {p : Prog} (h : p.Pooly) : p.Recs S R := by
  induction h with
  | ret => trivial
  | act h1 _ ih => exact fun n _ => ⟨.inl (h1 n).log.symm, ih n⟩

section
variable {S : Node → Prop} {R : Done → Prop}

theorem recs_endCommit (r : Except CErr UInt64) : (Prog.endCommit r).Recs S R := trivial
theorem recs_endSync (r : Except CErr (Option UInt64)) : (Prog.endSync r).Recs S R := trivial

theorem recs_write {ok : Bool} {w : Node → Node} {fail next : Prog} (hw : ∀ n, (w n).log = n.log) (hf : fail.Recs S R) (hn : next.Recs S R) :
    (Prog.write ok w fail next).Recs S R := by
  intro n _
  cases ok
  · exact ⟨.inl rfl, hf⟩
  · exact ⟨.inl (hw n), hn⟩

theorem recs_updateStatus {cfg : NodeCfg} {io : SaveIo} {root : MerkleRoot} {epochId : UInt64} {epoch : Epoch} {proof : Proof} {resp : ExecResp}
    {txs : List SignedTx} {fail next : Prog} (hd : R ⟨epochId, epoch, proof, txs, root, resp⟩) (hf : fail.Recs S R) (hn : next.Recs S R) :
    (Prog.updateStatus cfg io root epochId epoch proof resp txs fail next).Recs S R := by
  refine recs_write (fun _ => rfl) hf <| recs_write (fun _ => rfl) hf <| recs_write (fun _ => rfl) hf <| recs_write (fun _ => rfl) hf fun n _ => ?_
  cases hw : decide (2 < io.epochWrites)
  · exact ⟨.inl rfl, hf⟩
  · exact ⟨.inr ⟨_, rfl, hd⟩, fun n _ => ⟨.inl rfl, hn⟩⟩

theorem exec_log' (cfg : NodeCfg) (root : MerkleRoot) (id : UInt64) (cb : Address) (txs : List SignedTx) (n : Node) :
    (n.exec cfg root id cb txs).2.log = n.log := by
  unfold Node.exec
  generalize runBlock (cfg.env id n.status.cyclesPrice cb) n.tries root txs = x
  obtain ⟨a, db⟩ := x
  cases a with
  | none => rfl
  | some a =>
    cases a with
    | error f => cases f <;> rfl
    | ok resp => rfl

theorem saveProof_log' (cfg : NodeCfg) (io : SaveIo) (p : Proof) (n : Node) : (n.saveProof cfg io p).2.log = n.log := by
  unfold Node.saveProof; split <;> rfl

theorem recs_commit (cfg : NodeCfg) (io : CommitIo) (id : UInt64) (pill : Pill) (proof : OverlordProof)
    (hR : ∀ n d, S n → d.height = id → d.epoch = pill.epoch → proof.toProof = some d.proof → n.pool.getFullTxs pill.epoch.orderedTxHashes = .ok d.txs → R d) :
    (Prog.commit cfg io id pill proof).Recs S R := by
  refine ⟨?_, trivial⟩
  split
  · exact recs_endCommit _
  rename_i p hp
  intro n _
  refine ⟨.inl (saveProof_log' ..), ?_⟩
  beta_reduce
  split
  · exact recs_endCommit _
  split
  · exact recs_endCommit _
  intro n hn
  refine ⟨.inl rfl, ?_⟩
  beta_reduce
  split
  · exact recs_endCommit _
  rename_i txs htx
  intro n1 _
  refine ⟨.inl rfl, fun n0 _ => ⟨.inl rfl, fun n2 _ => ⟨.inl (exec_log' ..), ?_⟩⟩⟩
  beta_reduce
  split
  · exact recs_endCommit _
  · exact recs_updateStatus (hR n _ hn rfl rfl hp htx) (recs_endCommit _) (recs_endCommit _)

theorem recs_syncLoop {cfg : NodeCfg} {io : SyncIo} {next : Prog} (hn : next.Recs S R)
    (hR : ∀ k id d, io.pullEpoch k id = some d.epoch → io.pullTxs k d.epoch.orderedTxHashes = some d.txs → d.height = d.epoch.header.epochId →
      d.proof = d.epoch.header.proof → R d) (ids : List UInt64) : ∀ k h r, (Prog.syncLoop cfg io next k ids h r).Recs S R := by
  induction ids with
  | nil => exact fun _ _ _ => hn
  | cons id ids ih =>
    intro k h r
    unfold Prog.syncLoop Prog.syncOne
    split
    · exact recs_endSync _
    rename_i e he
    split
    · exact recs_endSync _
    intro n _
    refine ⟨.inl (saveProof_log' ..), ?_⟩
    beta_reduce
    split
    · exact recs_endSync _
    split
    · exact recs_endSync _
    rename_i txs htx
    intro n _
    refine ⟨.inl (exec_log' ..), ?_⟩
    beta_reduce
    split
    · exact recs_endSync _
    · exact recs_updateStatus (hR k id _ he htx rfl rfl) (recs_endSync _) (ih _ _ _)

theorem recs_sync (cfg : NodeCfg) (io : SyncIo) (msg : Bytes)
    (hR : ∀ k id d, io.pullEpoch k id = some d.epoch → io.pullTxs k d.epoch.orderedTxHashes = some d.txs → d.height = d.epoch.header.epochId →
      d.proof = d.epoch.header.proof → R d) : (Prog.sync cfg io msg).Recs S R := by
  refine ⟨?_, trivial⟩
  split
  · trivial
  intro n _
  refine ⟨.inl rfl, ?_⟩
  beta_reduce
  split
  · trivial
  refine ⟨fun n _ => ⟨.inl rfl, ?_⟩, trivial⟩
  beta_reduce
  split
  · exact recs_endSync _
  · exact recs_syncLoop (recs_endSync _) hR _ _ _ _

theorem recs_event {cfg : NodeCfg} {c : Conf} {e : Event} (hS : S c.node) (ht : ∀ t q, c.tasks t = some q → q.Recs S R)
    (hC : ∀ t io id pill proof, e = .callCommit t io id pill proof → (Prog.commit cfg io id pill proof).Recs S R)
    (hY : ∀ t io msg, e = .callSync t io msg → (Prog.sync cfg io msg).Recs S R) :
    ((c.step cfg e).node.log = c.node.log ∨ ∃ d, (c.step cfg e).node.log = d :: c.node.log ∧ R d) ∧
      ∀ t q, (c.step cfg e).tasks t = some q → q.Recs S R := by
  have start : ∀ t (q : Prog), q.Recs S R → ((c.start t q).node.log = c.node.log ∨ ∃ d, (c.start t q).node.log = d :: c.node.log ∧ R d) ∧
      ∀ t' q', (c.start t q).tasks t' = some q' → q'.Recs S R := by
    intro t q hq
    unfold Conf.start
    split
    · refine ⟨.inl rfl, fun t' q' h => ?_⟩
      simp only [Conf.setTask] at h
      split at h
      · cases h; exact hq
      · exact ht t' q' h
    · exact ⟨.inl rfl, ht⟩
  have other : ∀ t (x : Option Prog), (∀ q, x = some q → q.Recs S R) → ∀ t' q', (c.setTask t x).tasks t' = some q' → q'.Recs S R := by
    intro t x hx t' q' h
    simp only [Conf.setTask] at h
    split at h
    · exact hx q' h
    · exact ht t' q' h
  cases e with
  | callCommit t io id pill proof => exact start t _ (hC t io id pill proof rfl)
  | callSync t io msg => exact start t _ (hY t io msg rfl)
  | callInsert t o b tx => exact start t _ (pooly_insert cfg o b tx).recs
  | callPropose t now id => exact start t _ (pooly_propose cfg now id).recs
  | callCheck t p1 p2 hash pill => exact start t _ (pooly_check p1 p2 hash pill).recs
  | run t =>
    simp only [Conf.step]
    split
    · exact ⟨.inl rfl, ht⟩
    · exact ⟨.inl rfl, other t none (fun q h => by cases h)⟩
    · rename_i f k hk
      obtain ⟨h1, h2⟩ := ht t _ hk c.node hS
      exact ⟨h1, other t _ (fun q h => by cases h; exact h2)⟩
    · rename_i l a b hk
      have h := ht t _ hk
      split
      · exact ⟨.inl rfl, other t _ (fun q hq => by cases hq; exact h.1)⟩
      · exact ⟨.inl rfl, other t _ (fun q hq => by cases hq; exact h.2)⟩
    · rename_i l k hk
      have h := ht t _ hk
      exact ⟨.inl rfl, other t _ (fun q hq => by cases hq; exact h)⟩

end

theorem given_after (cfg : NodeCfg) (n0 : Node) (evs : List Event) : ∀ d ∈ (Conf.after cfg n0 evs).node.log, d ∈ n0.log ∨ d.GivenBy cfg n0 evs := by
  have key : ∀ l : List Event, (∃ r, evs = l.reverse ++ r) →
      (∀ d ∈ (Conf.after cfg n0 l.reverse).node.log, d ∈ n0.log ∨ d.GivenBy cfg n0 evs) ∧
      ∀ t q, (Conf.after cfg n0 l.reverse).tasks t = some q → q.Recs (fun n => ∃ pre post, evs = pre ++ post ∧ n = (Conf.after cfg n0 pre).node) (Done.GivenBy cfg n0 evs) := by
    intro l
    induction l with
    | nil => exact fun _ => ⟨fun d hd => .inl hd, fun t q h => by cases h⟩
    | cons e l ih =>
      rintro ⟨r, hr⟩
      have hr' : evs = l.reverse ++ (e :: r) := by rw [hr]; simp
      obtain ⟨h1, h2⟩ := ih ⟨e :: r, hr'⟩
      have he : e ∈ evs := by rw [hr']; simp
      rw [List.reverse_cons, after_snoc]
      obtain ⟨h3, h4⟩ := recs_event (cfg := cfg) (e := e) ⟨l.reverse, e :: r, hr', rfl⟩ h2
        (fun t io id pill proof hx => recs_commit cfg io id pill proof (by
          rintro n d ⟨pre, post, hp, rfl⟩ rfl hep hpr htx
          subst hx
          exact .commit t io pill proof pre post he hep.symm hpr hp (by rw [hep]; exact htx)))
        (fun t io msg hx => recs_sync cfg io msg (by
          intro k id d hpe hpt hh hpr
          subst hx
          exact .sync t io msg k id he hpe hpt hh hpr))
      refine ⟨fun d hd => ?_, h4⟩
      rcases h3 with h3 | ⟨d', h3, hd'⟩
      · exact h1 d (by rw [← h3]; exact hd)
      · rw [h3] at hd
        rcases List.mem_cons.1 hd with rfl | hd
        · exact .inr hd'
        · exact h1 d hd
  have := (key evs.reverse ⟨[], by simp⟩).1
  simpa using this

/-! ### C108 -/

/-- **C108.**  In every lifetime of a node, with any calls overlapping in any way and the processes killed at any moment: every epoch that was ever
recorded was given to the process that recorded it, by a commit or by a peer in a synchronisation. -/
theorem C108_given {cfg : NodeCfg} {g : Genesis} {ok : Node → List Event → Prop} {n : Node} {older : List Done} (h : CHistory cfg g ok n older) :
    ∀ d ∈ n.log ++ older, ∃ n0 before evs, CStart cfg g ok n0 before ∧ ok n0 evs ∧ d.GivenBy cfg n0 evs := by
  induction h with
  | init evs h1 h2 hev =>
    intro d hd
    rw [List.append_nil] at hd
    obtain ⟨e, -, -, -, -, h4, -⟩ := startNode_some h2
    rcases given_after _ _ _ d hd with hx | hx
    · rw [h4] at hx; cases hx
    · exact ⟨_, _, evs, .init h1 h2, hev, hx⟩
  | restart evs hc h1 h2 hev ih =>
    intro d hd
    rcases List.mem_append.1 hd with hd | hd
    · obtain ⟨e, -, -, -, -, h4, -⟩ := startNode_some h2
      rcases given_after _ _ _ d hd with hx | hx
      · rw [h4] at hx; cases hx
      · exact ⟨_, _, evs, .restart hc h1 h2, hev, hx⟩
    · exact ih d hd

open Demo in
/-- A case: the node of the demo has recorded an epoch with a payment while another payment arrived; a commit gave it. -/
example : CHistory ncfg ngenesis (fun _ _ => True) (Conf.after ncfg n0 calm1).node [] ∧ (Conf.after ncfg n0 calm1).node.log.length = 1 ∧
    ∀ d ∈ (Conf.after ncfg n0 calm1).node.log, d.txs = [late] := by
  obtain ⟨s, t, hi, hs⟩ := n0_start
  exact ⟨.init calm1 hi hs trivial, by decide +kernel, by decide +kernel⟩

/-! ### C104, executions -/

/-- A process of a node of the chain, started with `p`, whose chain is continued by what is committed and synchronised in its schedule `evs`, returned a
proposal of the epoch `e`. -/
def CProposes (a : NodeCfg) (g : Genesis) (p : Node) (evs : List Event) (e : Epoch) : Prop :=
  (∃ older, CStart a g (CContinues a) p older) ∧ CContinues a p evs ∧
    ∃ t pill hash, (Conf.after a p evs).tasks t = some (.ret (.propose (.ok (pill, hash)))) ∧ pill.epoch = e

/-- Schedules with epochs that nodes of the chain proposed, cf. `Honest`: an epoch committed was proposed for that height, and what this node ever has in
its pool under a hash the epoch orders is what the proposer ever had under it; an epoch a peer hands over was proposed, and the peer hands over the
transactions of the proposer. -/
structure CHonest (cfg : NodeCfg) (g : Genesis) (n : Node) (evs : List Event) : Prop where
  commit : ∀ t io id pill proof, Event.callCommit t io id pill proof ∈ evs → pill.epoch.header.epochId = id ∧
    ∃ a p pevs, CProposes a g p pevs pill.epoch ∧
      ∀ k ∈ pill.epoch.orderedTxHashes, ∀ pre post pre' post' x u, evs = pre ++ post → pevs = pre' ++ post' →
        (Conf.after cfg n pre).node.pool.lookup k = some x → (Conf.after a p pre').node.pool.cache.get k = some u → x.raw = u.raw
  sync : ∀ t io msg, Event.callSync t io msg ∈ evs → ∀ k id e, io.pullEpoch k id = some e → ∃ a p pevs, CProposes a g p pevs e ∧
    ∀ txs, io.pullTxs k e.orderedTxHashes = some txs → ∀ x ∈ txs, x.txHash ∈ e.orderedTxHashes ∧
      ∀ pre' post' u, pevs = pre' ++ post' → (Conf.after a p pre').node.pool.cache.get x.txHash = some u → x.raw = u.raw

theorem CProposes.inTime {a : NodeCfg} {g : Genesis} {p : Node} {evs : List Event} {e : Epoch} (h : CProposes a g p evs e) :
    ∀ k ∈ e.orderedTxHashes, ∃ pre post u, evs = pre ++ post ∧ (Conf.after a p pre).node.pool.cache.get k = some u ∧ e.header.epochId ≤ u.raw.timeout := by
  obtain ⟨⟨older, hs⟩, hev, t, pill, hash, hp, rfl⟩ := h
  intro k hk
  obtain ⟨pre, post, u, h1, h2, -, h3⟩ := C104_concurrent_partial hs evs hev hp k (List.mem_append_left _ hk)
  exact ⟨pre, post, u, h1, h2, h3⟩

theorem getFullTxs_lookup {p : MemPool} {L : List Hash} {txs : List SignedTx} (h : p.getFullTxs L = .ok txs) {x : SignedTx} (hx : x ∈ txs) :
    ∃ k ∈ L, p.lookup k = some x := by
  unfold MemPool.getFullTxs at h
  simp only at h
  split at h
  · cases h
  · injection h with h
    rw [← h] at hx
    obtain ⟨k, h1, h2⟩ := List.mem_filterMap.1 hx
    exact ⟨k, h1, h2⟩

/-- **C104 with overlapping calls (partial: every epoch was proposed by a node that follows the code, see `C104_refuted`).**  In every lifetime in which
the epochs were proposed by nodes of the chain, with any calls overlapping in any way - also while they were proposed - and the processes killed at any
moment, no transaction is executed after its time-out. -/
theorem C104_executed_concurrent_partial {cfg : NodeCfg} {g : Genesis} {n : Node} {older : List Done} (h : CHistory cfg g (CHonest cfg g) n older) :
    ∀ d ∈ n.log ++ older, ∀ x ∈ d.txs, d.height ≤ x.raw.timeout := by
  intro d hd x hx
  obtain ⟨n0, before, evs, -, hev, hg⟩ := C108_given h d hd
  cases hg with
  | commit t io pill proof pre post hm hep _ hpp htx =>
    obtain ⟨hid, a, p, pevs, hp, hsame⟩ := hev.commit t io d.height pill proof hm
    rw [← hep] at htx
    obtain ⟨k, hk, hlk⟩ := getFullTxs_lookup htx hx
    obtain ⟨pre', post', u, h1, h2, h3⟩ := hp.inTime k hk
    rw [hsame k hk pre post pre' post' x u hpp h1 hlk h2, ← hid]
    exact h3
  | sync t io msg k asked hm hpe hpt hh _ =>
    obtain ⟨a, p, pevs, hp, hsame⟩ := hev.sync t io msg hm k asked d.epoch hpe
    obtain ⟨hin, hsame⟩ := hsame d.txs hpt x hx
    obtain ⟨pre', post', u, h1, h2, h3⟩ := hp.inTime _ hin
    rw [hsame pre' post' u h1 h2, hh]
    exact h3

namespace Demo

/-- Another payment arrives while the first one is committed. -/
def busyCommit : List Event := race2 ++ insertEvents 9 other ++ runs 0 9

/-- At every moment, what is in the pool under this hash has this content. -/
def rawCheck (n : Node) (evs : List Event) (k : Hash) (r : RawTx) : Bool :=
  (List.range (evs.length + 1)).all fun i => match (Conf.after ncfg n (evs.take i)).node.pool.lookup k with
    | none => true
    | some x => decide (x.raw = r)

theorem rawCheck_raw {n : Node} {evs : List Event} {k : Hash} {r : RawTx} (h : rawCheck n evs k r = true) {pre post : List Event} (he : evs = pre ++ post)
    {x : SignedTx} (hx : (Conf.after ncfg n pre).node.pool.lookup k = some x) : x.raw = r := by
  have := List.all_eq_true.1 h pre.length (List.mem_range.2 (by rw [he, List.length_append]; omega))
  rw [he, List.take_left] at this
  rw [hx] at this
  simpa using this

end Demo

open Demo in
/-- The hypothesis is met by the node of the demo, which proposes an epoch with a payment and commits it while another payment arrives. -/
example : CHistory ncfg ngenesis (CHonest ncfg ngenesis) (Conf.after ncfg n0 busyCommit).node [] ∧
    (Conf.after ncfg n0 busyCommit).node.log.map (fun d => (d.height, d.txs)) = [(1, [late])] := by
  obtain ⟨s, t, hi, hs⟩ := n0_start
  refine ⟨.init busyCommit hi hs ⟨fun t io id pill proof hm => ?_, fun t io msg hm => ?_⟩, by decide +kernel⟩
  · have hpill : id = 1 ∧ pill = racePill1 := by
      unfold busyCommit race2 at hm
      have no : ∀ l : List Event, (l.all fun e => match e with | .callCommit .. => false | _ => true) = true → Event.callCommit t io id pill proof ∉ l := by
        intro l hl hx
        have := List.all_eq_true.1 hl _ hx
        cases this
      have h1 := no race1 (by decide +kernel)
      have h2 := no (insertEvents 9 other) (by decide +kernel)
      have h3 := no (runs 0 9) (by decide +kernel)
      have h4 := no (runs 0 5) (by decide +kernel)
      simp only [List.mem_append, List.mem_cons, h1, h2, h3, h4, or_false, false_or] at hm
      injection hm with _ _ h5 h6 _
      exact ⟨h5, h6⟩
    obtain ⟨h5, h6⟩ := hpill
    rw [h5, h6]
    clear h5 h6 hm
    refine ⟨by decide +kernel, ncfg, n0, race1, ⟨⟨[], .init hi hs⟩, plain_continues (by decide +kernel) (by decide +kernel), 2, racePill1, ?_⟩, ?_⟩
    · obtain ⟨hash, h⟩ := pillOf_some (x := (Conf.after ncfg n0 race1).tasks 2) (by decide +kernel) noPill
      exact ⟨hash, h, rfl⟩
    · intro k hk pre post pre' post' x u h1 h2 hx hu
      have ho : racePill1.epoch.orderedTxHashes = [late.txHash] := by decide +kernel
      rw [ho, List.mem_singleton] at hk
      subst hk
      rw [rawCheck_raw (r := late.raw) (by decide +kernel) h1 hx]
      refine (rawCheck_raw (n := n0) (evs := race1) (k := late.txHash) (r := late.raw) (by decide +kernel) h2 (x := u) ?_).symm
      unfold MemPool.lookup
      rw [hu]
  · have : (busyCommit.all fun e => match e with | .callSync .. => false | _ => true) = true := by decide +kernel
    have := List.all_eq_true.1 this _ hm
    cases this

end Huobi
