import Verif.Props.NodeNet4
import Verif.Props.Poison
/-
C119: one transaction stops a network.
-/
namespace Huobi

/-! ### Specification -/

/-- What the executor can handle: transfers and deployments of assets. -/
def SignedTx.Supported (t : SignedTx) : Prop :=
  (∃ r c, t.raw.action = .transfer r c) ∨ ∃ code, t.raw.action = .deploy code .asset

/-! ### Proofs -/

theorem executes_supported {env : Env} {w w' : World} {txs : List SignedTx} {resp : ExecResp} (h : Executes env w txs resp w') : ∀ t ∈ txs, t.Supported := by
  intro t ht
  refine Classical.byContradiction fun hn => ?_
  obtain ⟨pre, post, rfl⟩ := List.append_of_mem ht
  obtain ⟨resp0, w0, h0, -⟩ := executes_prefix h
  have hp := C10_unsupported_panics_refuted (post := post) h0 (tx := t) ?_
  · have := h.1
    rw [hp] at this
    cases this
  · cases ha : t.raw.action with
    | transfer r c => exact absurd (.inl ⟨r, c, ha⟩) hn
    | deploy code ty =>
      refine .inr (.inr ⟨code, ty, fun e => hn (.inr ⟨code, by rw [ha, e]⟩), rfl⟩)
    | approve s i m => exact .inl ⟨s, i, m, rfl⟩
    | call c m as k => exact .inr (.inl ⟨c, m, as, k, rfl⟩)

/-- The transactions that the node has stored and executed are among those of `Q`. -/
structure Node.Recorded (Q : SignedTx → Prop) (n : Node) : Prop where
  stored : ∀ k t, n.store.txs k = some t → Q t
  log : ∀ d ∈ n.log, ∀ t ∈ d.txs, Q t

/-- Blocks of transactions of `P` that execute on worlds of `W` have transactions of `Q` only. -/
def Forces (cfg : NodeCfg) (P : SignedTx → Prop) (W : World → Prop) (Q : SignedTx → Prop) : Prop :=
  ∀ {h price cb w txs resp w'}, W w → Executes (cfg.env h price cb) w txs resp w' → (∀ t ∈ txs, P t) → ∀ t ∈ txs, Q t

theorem Prog.Keeps.and {A B : Node → Prop} {p : Prog} : p.Keeps A → p.Keeps B → p.Keeps fun n => A n ∧ B n := by
  induction p with
  | ret => exact fun _ _ => trivial
  | act f k ih => exact fun h1 h2 n hn => ⟨⟨(h1 n hn.1).1, (h2 n hn.2).1⟩, ih n (h1 n hn.1).2 (h2 n hn.2).2⟩
  | lock _ a b ha hb => exact fun h1 h2 => ⟨ha h1.1 h2.1, hb h1.2 h2.2⟩
  | unlock _ k ih => exact fun h1 h2 => ih h1 h2

section
variable {cfg : NodeCfg} {P Q : SignedTx → Prop} {W : World → Prop}

theorem Node.Recorded.of {n k : Node} (h : n.Recorded Q) (h1 : k.store.txs = n.store.txs) (h2 : k.log = n.log) : k.Recorded Q := ⟨h1 ▸ h.stored, h2 ▸ h.log⟩

theorem exec_recorded (hf : Forces cfg P W Q) {root : MerkleRoot} {id : UInt64} {cb : Address} {txs : List SignedTx} {n : Node} (hn : CInv P W n)
    (he : W World.empty) (hp : ∀ t ∈ txs, P t) :
    (n.Recorded Q → (n.exec cfg root id cb txs).2.Recorded Q) ∧ ∀ resp, (n.exec cfg root id cb txs).1 = .ok resp → ∀ t ∈ txs, Q t := by
  unfold Node.exec
  cases hr : runBlock (cfg.env id n.status.cyclesPrice cb) n.tries root txs with
  | mk x db =>
    cases x with
    | none => exact ⟨fun h => h.of rfl rfl, fun _ hh => by cases hh⟩
    | some x =>
      cases x with
      | error f => cases f <;> exact ⟨fun h => h.of rfl rfl, fun _ hh => by cases hh⟩
      | ok resp =>
        obtain ⟨w, w', hw, hx, -⟩ := runBlock_db hr
        refine ⟨fun h => h.of rfl rfl, fun _ _ => hf ?_ hx hp⟩
        rcases hw with rfl | hw
        · exact he
        · exact hn.tries _ _ hw

theorem recorded_saveProof {io : SaveIo} {p : Proof} {n : Node} (h : n.Recorded Q) : (n.saveProof cfg io p).2.Recorded Q := by
  unfold Node.saveProof
  split
  · exact h.of rfl rfl
  · exact h

theorem recorded_updateStatus {io : SaveIo} {root : MerkleRoot} {id : UInt64} {ep : Epoch} {p : Proof} {resp : ExecResp} {txs : List SignedTx}
    {fail next : Prog} (hp : ∀ t ∈ txs, P t) (hq : ∀ t ∈ txs, Q t) (h1 : fail.Keeps fun n => CInv P W n ∧ n.Recorded Q)
    (h2 : next.Keeps fun n => CInv P W n ∧ n.Recorded Q) :
    (Prog.updateStatus cfg io root id ep p resp txs fail next).Keeps fun n => CInv P W n ∧ n.Recorded Q := by
  refine keeps_write (fun n hn => ⟨hn.1.store hn.1.stored, hn.2.of rfl rfl⟩) h1 <| keeps_write (fun n hn => ⟨hn.1.store ?_, ?_, hn.2.log⟩) h1 <|
    keeps_write (fun n hn => ⟨hn.1.store hn.1.stored, hn.2.of rfl rfl⟩) h1 <| keeps_write (fun n hn => ⟨hn.1.store hn.1.stored, hn.2.of rfl rfl⟩) h1 <|
    keeps_write (fun n hn => ⟨⟨hn.1.good, hn.1.pool, hn.1.keys, hn.1.stored, fun d hd => ?_, hn.1.tries⟩, hn.2.stored, fun d hd => ?_⟩) h1 <|
    fun n hn => ⟨⟨⟨hn.1.good, hn.1.pool, hn.1.keys, hn.1.stored, hn.1.log, hn.1.tries⟩, hn.2.of rfl rfl⟩, h2⟩
  · intro k t ht
    have ht : insertAll SignedTx.txHash txs n.store.txs k = some t := ht
    unfold insertAll at ht
    cases hf : List.find? (fun v => decide (SignedTx.txHash v = k)) txs.reverse with
    | some w => rw [hf] at ht; injection ht with ht; subst ht; exact hp _ (by simpa using List.mem_of_find?_eq_some hf)
    | none => rw [hf] at ht; exact hn.1.stored k t ht
  · intro k t ht
    have ht : insertAll SignedTx.txHash txs n.store.txs k = some t := ht
    unfold insertAll at ht
    cases hf : List.find? (fun v => decide (SignedTx.txHash v = k)) txs.reverse with
    | some w => rw [hf] at ht; injection ht with ht; subst ht; exact hq _ (by simpa using List.mem_of_find?_eq_some hf)
    | none => rw [hf] at ht; exact hn.2.stored k t ht
  · rcases List.mem_cons.1 hd with rfl | hd
    · exact hp
    · exact hn.1.log d hd
  · rcases List.mem_cons.1 hd with rfl | hd
    · exact hq
    · exact hn.2.log d hd

theorem Prog.Pooly.recorded {p : Prog} (h : p.Pooly) : p.Keeps (Node.Recorded Q) := by
  induction h with
  | ret => exact trivial
  | act h1 _ ih => exact fun n hn => ⟨hn.of (by rw [← (h1 n).store]) (h1 n).log.symm, ih n⟩

theorem recorded_commit (hc : Closed cfg P W) (hf : Forces cfg P W Q) {io : CommitIo} {id : UInt64} {pill : Pill} {proof : OverlordProof} :
    (Prog.commit cfg io id pill proof).Keeps fun n => CInv P W n ∧ n.Recorded Q := by
  refine ⟨?_, trivial⟩
  split
  · trivial
  refine fun n hn => ⟨⟨hn.1.saveProof, recorded_saveProof hn.2⟩, ?_⟩
  beta_reduce
  split
  · trivial
  split
  · trivial
  refine keeps_id fun n hn => ?_
  split
  · trivial
  rename_i txs hg
  have hp := hn.1.pool.getFull hg
  refine fun n hn => ⟨⟨⟨(hn.1.good.flush_refines _).1, hn.1.pool.flush hn.1.good _, (fun _ _ h => by cases h), hn.1.stored, hn.1.log, hn.1.tries⟩, hn.2.of rfl rfl⟩,
    keeps_id fun n0 _ => fun n hn => ⟨⟨hn.1.exec hc hp, (exec_recorded hf hn.1 hc.empty hp).1 hn.2⟩, ?_⟩⟩
  beta_reduce
  split
  · trivial
  · rename_i resp he
    exact recorded_updateStatus hp ((exec_recorded hf hn.1 hc.empty hp).2 _ he) trivial (by split <;> trivial)

theorem recorded_sync (hc : Closed cfg P W) (hf : Forces cfg P W Q) {io : SyncIo} (hp : ∀ k q txs, io.pullTxs k q = some txs → ∀ t ∈ txs, P t) {msg : Bytes} :
    (Prog.sync cfg io msg).Keeps fun n => CInv P W n ∧ n.Recorded Q := by
  have loop (next : Prog) (hn : next.Keeps fun n => CInv P W n ∧ n.Recorded Q) (ids : List UInt64) :
      ∀ k h r, (Prog.syncLoop cfg io next k ids h r).Keeps fun n => CInv P W n ∧ n.Recorded Q := by
    induction ids with
    | nil => exact fun _ _ _ => hn
    | cons id ids ih =>
      intro k h r
      unfold Prog.syncLoop Prog.syncOne
      split
      · trivial
      split
      · trivial
      refine fun n hn => ⟨⟨hn.1.saveProof, recorded_saveProof hn.2⟩, ?_⟩
      beta_reduce
      split
      · trivial
      split
      · trivial
      rename_i txs hq
      have hp := hp _ _ _ hq
      refine fun n hn => ⟨⟨hn.1.exec hc hp, (exec_recorded hf hn.1 hc.empty hp).1 hn.2⟩, ?_⟩
      beta_reduce
      split
      · trivial
      · rename_i resp he
        exact recorded_updateStatus hp ((exec_recorded hf hn.1 hc.empty hp).2 _ he) trivial (ih _ _ _)
  refine ⟨?_, trivial⟩
  split
  · trivial
  refine keeps_id fun n _ => ?_
  split
  · trivial
  refine ⟨keeps_id fun n _ => ?_, trivial⟩
  split
  · trivial
  · exact loop _ (by trivial) _ _ _ _

theorem recorded_after (hc : Closed cfg P W) (hf : Forces cfg P W Q) {n : Node} (h : CInv P W n ∧ n.Recorded Q) {evs : List Event}
    (he : ∀ e ∈ evs, e.Brings cfg P) : CInv P W (Conf.after cfg n evs).node ∧ (Conf.after cfg n evs).node.Recorded Q := by
  refine keeps_after (I := fun n => CInv P W n ∧ n.Recorded Q) evs h fun e hm t p hp => ?_
  have hb := he e hm
  cases e with
  | callCommit t io id pill proof => cases hp; exact recorded_commit hc hf
  | callSync t io msg => cases hp; exact recorded_sync hc hf hb
  | callInsert t o b tx => cases hp; exact (keeps_insert hb).and (pooly_insert ..).recorded
  | callPropose t now id => cases hp; exact keeps_propose.and (pooly_propose ..).recorded
  | callCheck t p1 p2 hash pill => cases hp; exact (keeps_check hb).and (pooly_check ..).recorded
  | run t => cases hp

/-- What in every lifetime a node has stored and executed. -/
theorem CHistory.recorded (hc : Closed cfg P W) (hf : Forces cfg P W Q) {g : Genesis}
    (hg : ∀ w, CreatesGenesis (cfg.env 0 cfg.cyclesPrice (.user cfg.selfAddress)) g w → W w) {n : Node} {older : List Done}
    (h : CHistory cfg g (fun _ evs => ∀ e ∈ evs, e.Brings cfg P) n older) : n.Recorded Q ∧ ∀ d ∈ older, ∀ t ∈ d.txs, Q t := by
  suffices h : (CInv P W n ∧ n.Recorded Q) ∧ ∀ d ∈ older, ∀ t ∈ d.txs, Q t from ⟨h.1.2, h.2⟩
  induction h with
  | init evs h1 h2 he =>
    obtain ⟨e, -, hs, -, -, hlog, -⟩ := startNode_some h2
    refine ⟨recorded_after hc hf ⟨CInv.start hg (fun _ _ h => by cases h) (fun _ _ h => by cases h) h1 h2, fun k t ht => ?_, fun d hd => ?_⟩ he,
      fun d hd => by cases hd⟩
    · rw [hs, handleInit_keeps_txs h1] at ht
      cases ht
    · rw [hlog] at hd; cases hd
  | restart evs _ h1 h2 he ih =>
    obtain ⟨e, -, hs, -, -, hlog, -⟩ := startNode_some h2
    refine ⟨recorded_after hc hf ⟨CInv.start hg ih.1.1.stored ih.1.1.tries h1 h2, fun k t ht => ?_, fun d hd => ?_⟩ he, fun d hd => ?_⟩
    · rw [hs, handleInit_keeps_txs h1] at ht
      exact ih.1.2.stored k t ht
    · rw [hlog] at hd; cases hd
    · rcases List.mem_append.1 hd with hd | hd
      · exact ih.1.2.log d hd
      · exact ih.2 d hd

end

/-- No node shows an epoch that orders a transaction that no block that executes has. -/
theorem never_shown {z : Compression} {cfg : Nat → NodeCfg} (hs : OneScheme cfg) {g : Genesis} {chain : UInt64 → Epoch} {N : PNet}
    (hN : PNet.Reach z cfg g chain N) {h : UInt64} (h0 : h ≠ 0) {x : Hash} (hx : x ∈ (chain h).orderedTxHashes) (i : Nat) (p : PSite)
    (hp : N.sites i = some p) {W : World → Prop} {Q : SignedTx → Prop} (hc : Closed (cfg i) N.came W) (hf : Forces (cfg i) N.came W Q)
    (hg : ∀ w, CreatesGenesis ((cfg i).env 0 (cfg i).cyclesPrice (.user (cfg i).selfAddress)) g w → W w)
    (hbad : ∀ t, N.came t → t.txHash = x → ¬ Q t) :
    (p.node z (cfg i)).queryEpoch (some h) = none ∧ ∀ e, (p.node z (cfg i)).queryEpoch none = some e → e.header.epochId ≠ h := by
  have lp := ((hN.inv hs).sites i p hp).fine
  have hw : (p.node z (cfg i)).store.Whole := C110_partial (lp.imp fun _ _ h => fine_bodies h)
  have hb := ((hN.inv hs).sites i p hp).mono (Q := NodeNetEvent.Fine z chain N.came N.came) fun e h => h.mono (fun _ => _root_.id) fun t ht => ht.1
  obtain ⟨hrec, -⟩ := (hb.brings fun t ht _ => ht).recorded hc hf hg
  obtain ⟨gen, -, hf, -⟩ := (lp.imp fun _ _ h => fine_decided h).follows
  have key : ∀ e, (p.node z (cfg i)).store.epochs h = some e → False := by
    intro e he
    have hb := hw.byHeight h e he
    have hce : e = chain h := by
      have := (hf.store.byHeight h e he).2
      rwa [if_neg h0] at this
    subst hce
    obtain ⟨⟨t, ht, hk⟩, -⟩ := hb x hx
    exact hbad t ((C116_authorised hs hN i p hp).1 t (.inl ⟨x, ht⟩)).1 hk (hrec.stored x t ht)
  refine ⟨?_, fun e he hh => ?_⟩
  · cases he : (p.node z (cfg i)).queryEpoch (some h) with
    | none => rfl
    | some e => exact (key e he).elim
  · obtain ⟨-, e', he'⟩ := hw.latest e he
    rw [hh] at he'
    exact key e' he'

/-- **C119 is false: one transaction stops a network.**  If the validators of a network as in C116 decide for a height on an epoch that orders a transaction that
calls a contract, approves, or deploys something else than an asset - anybody can submit one, every pool admits it and every proposer proposes it - then no
node of the network ever shows an epoch of that height, however often and whenever processes are restarted, commit again or synchronise with whom. -/
theorem C119_halted {z : Compression} {cfg : Nat → NodeCfg} (hs : OneScheme cfg) {g : Genesis} {chain : UInt64 → Epoch} {N : PNet}
    (hN : PNet.Reach z cfg g chain N) {h : UInt64} (h0 : h ≠ 0) {x : Hash} (hx : x ∈ (chain h).orderedTxHashes)
    (hbad : ∀ t, N.came t → t.txHash = x → ¬ t.Supported) (i : Nat) (p : PSite) (hp : N.sites i = some p) :
    (p.node z (cfg i)).queryEpoch (some h) = none ∧ ∀ e, (p.node z (cfg i)).queryEpoch none = some e → e.header.epochId ≠ h :=
  never_shown hs hN h0 hx i p hp (W := fun _ => True) (Q := SignedTx.Supported) ⟨trivial, fun _ _ _ => trivial⟩
    (fun _ he _ => executes_supported he) (fun _ _ => trivial) hbad

/-! ### Senders without an account -/

/-- A block that pays nothing to an address that has no account has no transactions of it and leaves it without. -/
theorem executes_stranger {env : Env} {u : UserAddress} {w : World} (hw : w.WellTyped) (hno : ¬ w.HasAccount (.user u)) (txs : List SignedTx) :
    ∀ {resp w'}, Executes env w txs resp w' → (∀ t ∈ txs, ∀ c, t.raw.action ≠ .transfer u c) →
      w'.WellTyped ∧ ¬ w'.HasAccount (.user u) ∧ ∀ t ∈ txs, senderOf env t ≠ u := by
  suffices H : ∀ l : List SignedTx, ∀ {resp w'}, Executes env w l.reverse resp w' → (∀ t ∈ l, ∀ c, t.raw.action ≠ .transfer u c) →
      w'.WellTyped ∧ ¬ w'.HasAccount (.user u) ∧ ∀ t ∈ l, senderOf env t ≠ u by
    intro resp w' h hp
    have := H txs.reverse (by rwa [List.reverse_reverse]) fun t ht => hp t (List.mem_reverse.1 ht)
    exact ⟨this.1, this.2.1, fun t ht => this.2.2 t (List.mem_reverse.2 ht)⟩
  intro l
  induction l with
  | nil =>
    intro resp w' h _
    have := (executes_nil h).1
    subst this
    exact ⟨hw, hno, fun t ht => by cases ht⟩
  | cons tx l ih =>
    intro resp w' h hp
    rw [List.reverse_cons] at h
    have htyped : w'.WellTyped := by
      obtain ⟨rs, hf, -⟩ := executes_iff.1 h
      exact (flatLoop_run hf).2.typed hw
    obtain ⟨resp0, w0, r, hex, hw0, -, -, -, -, hacc, heff⟩ := executes_snoc hw h
    obtain ⟨-, h1, h2⟩ := ih hex fun t ht => hp t (.tail _ ht)
    have hsender : senderOf env tx ≠ u := by
      rintro rfl
      exact C10_unknown_sender_refuted (post := []) hw hex h1 ⟨_, _, h⟩
    refine ⟨htyped, ?_, fun t ht => ?_⟩
    · cases heff with
      | fail e hr hc hw' => rw [hw']; exact h1
      | transfer recv c ha hl hc hr hreg hm =>
        rw [hm.has, hasAccount_bumpAt]
        rintro (he | he | he)
        · exact hsender (by injection he with he; exact he.symm)
        · injection he with he; subst he; exact hp tx (.head _) c ha
        · exact h1 he
      | deploy code ha ad haddr hl hc hr hnew hw' =>
        rw [hw']
        intro hh
        exact h1 ((hasAccount_bumpAt _ _ _).1 hh)
    · rcases List.mem_cons.1 ht with rfl | ht
      · exact hsender
      · exact h2 t ht

/-- **C119 is false: a payment by a stranger stops a network.**  The same for a transaction - a payment, say - of a sender whom nobody has paid and to whom the
genesis file allocates nothing. -/
theorem C119_stranger {z : Compression} {cfg : Nat → NodeCfg} (hs : OneScheme cfg) {g : Genesis} {chain : UInt64 → Epoch} {N : PNet}
    (hN : PNet.Reach z cfg g chain N) {u : UserAddress} (hgen : ∀ al ∈ g.stateAlloc, al.assets ≠ [] → Address.fromHex al.address.toList ≠ some (.user u))
    (hpay : ∀ t, N.came t → ∀ c, t.raw.action ≠ .transfer u c) {h : UInt64} (h0 : h ≠ 0) {x : Hash} (hx : x ∈ (chain h).orderedTxHashes) (i : Nat)
    (hbad : ∀ t, N.came t → t.txHash = x → UserAddress.fromPubkey (cfg i).digest t.pubkey = u) (p : PSite) (hp : N.sites i = some p) :
    (p.node z (cfg i)).queryEpoch (some h) = none ∧ ∀ e, (p.node z (cfg i)).queryEpoch none = some e → e.header.epochId ≠ h := by
  refine never_shown hs hN h0 hx i p hp (W := fun w => w.WellTyped ∧ ¬ w.HasAccount (.user u)) (Q := fun t => UserAddress.fromPubkey (cfg i).digest t.pubkey ≠ u)
    ⟨⟨empty_wellTyped, fun hh => by cases hh⟩, fun hw he ht => ?_⟩ (fun hw he ht => ?_) (fun w hw => ?_) (fun t ht hk hh => hh (hbad t ht hk))
  · have := executes_stranger hw.1 hw.2 _ he fun t hm => hpay t (ht t hm)
    exact ⟨this.1, this.2.1⟩
  · exact (executes_stranger hw.1 hw.2 _ he fun t hm => hpay t (ht t hm)).2.2
  · refine ⟨(Descends.wellTyped (cfg := cfg i) (g := g) (.inl ⟨w, hw, .refl _⟩)), fun hh => ?_⟩
    obtain ⟨al, h1, h2, h3⟩ := ((C13_genesis_accounts hw).2 _).1 hh
    exact hgen al h1 h3 h2

/-- A process does one thing after another: what came in. -/
theorem PNet.Reach.own_events {z : Compression} {cfg : Nat → NodeCfg} {g : Genesis} {chain : UInt64 → Epoch} {N : PNet} {i : Nat} {p : PSite}
    (h : PNet.Reach z cfg g chain N) (hp : N.sites i = some p) (evs : List NodeNetEvent) (he : ∀ e ∈ evs, ∀ M, e.Told chain M) :
    ∃ M, PNet.Reach z cfg g chain M ∧ M.sites i = some { p with sched := p.sched ++ evs } ∧
      ∀ t, M.came t ↔ N.came t ∨ ∃ e ∈ evs, e.Brought z t := by
  induction evs generalizing N p with
  | nil => exact ⟨N, h, by rw [List.append_nil]; exact hp, by simp⟩
  | cons e evs ih =>
    obtain ⟨M, m1, m2, m3⟩ := ih (PNet.Reach.step h (.event i e hp (he e (.head _) N))) (PNet.set_self ..) fun x hx => he x (.tail _ hx)
    refine ⟨M, m1, ?_, fun t => ?_⟩
    · rw [m2, List.append_assoc]; rfl
    · rw [m3 t]
      show (N.came t ∨ e.Brought z t) ∨ _ ↔ _
      simp only [List.mem_cons, exists_eq_or_imp, or_assoc]

namespace Demo

/-- A client submits a payment and a call of a contract. -/
def haltEvents : List NodeNetEvent :=
  .own (.callInsert 0 true true (npay 1 2 10)) :: List.replicate 12 (.own (.run 0)) ++
  .own (.callInsert 2 true true ncall) :: List.replicate 12 (.own (.run 2))

def haltChecks : Bool :=
  let n := (nodeNet demoZip ncfg n0 haltEvents).node.conf.node
  decide ((n.getEpoch ncfg 7 1).1.toOption.map (fun x => x.1.epoch) = some poisonPill.epoch)

end Demo

open Demo in
/-- The case is met, and nothing unusual is needed: to a network that has just been started a client submits a payment and a call of a contract, the node
proposes an epoch of both, and if the validators decide for it, no node ever shows an epoch of height 1 (unless somebody finds another transaction with the
hash of the call). -/
theorem C119_refuted : ∃ N p, PNet.Reach demoZip (fun _ => ncfg) ngenesis (fun _ => poisonPill.epoch) N ∧ N.sites 0 = some p ∧
    ((p.node demoZip ncfg).getEpoch ncfg 7 1).1.toOption.map (fun x => x.1.epoch) = some poisonPill.epoch ∧
    N.came ncall ∧ (∀ t, N.came t → t.txHash = ncall.txHash → t = ncall) ∧
    ∀ M, PNet.Later demoZip (fun _ => ncfg) ngenesis (fun _ => poisonPill.epoch) N M → (∀ t, M.came t → t.txHash = ncall.txHash → t = ncall) →
      ∀ i q, M.sites i = some q → (q.node demoZip ncfg).queryEpoch (some 1) = none := by
  have hA : haltChecks = true := by decide +kernel
  have hB : ncall.txHash ∈ poisonPill.epoch.orderedTxHashes := by decide +kernel
  have hC : (npay 1 2 10).txHash ≠ ncall.txHash := by decide +kernel
  have hD : ¬ ncall.Supported := by
    rintro (⟨r, c, h⟩ | ⟨c, h⟩) <;> cases h
  have hE : ∀ e ∈ haltEvents, ∀ M, e.Told (fun _ => poisonPill.epoch) M := by
    intro e he M
    unfold haltEvents at he
    simp only [List.cons_append, List.mem_cons, List.mem_append, List.mem_replicate] at he
    rcases he with rfl | ⟨-, rfl⟩ | rfl | ⟨-, rfl⟩ <;> trivial
  have hF : ∀ t, (∃ e ∈ haltEvents, e.Brought demoZip t) ↔ t = npay 1 2 10 ∨ t = ncall := by
    intro t
    unfold haltEvents
    simp only [List.cons_append, List.mem_cons, List.mem_append, List.mem_replicate]
    constructor
    · rintro ⟨e, rfl | ⟨-, rfl⟩ | rfl | ⟨-, rfl⟩, h⟩
      · exact .inl h
      · exact h.elim
      · exact .inr h
      · exact h.elim
    · rintro (h | h)
      · exact ⟨_, .inl rfl, h⟩
      · exact ⟨_, .inr (.inr (.inl rfl)), h⟩
  simp only [haltChecks, decide_eq_true_eq] at hA
  obtain ⟨s, t, i1, i2⟩ := n0_start
  generalize haltEvents = evs at *
  generalize poisonPill.epoch = b at *
  generalize npay 1 2 10 = pay at *
  generalize ncall = c at *
  have r : PNet.Reach demoZip (fun _ => ncfg) ngenesis (fun _ => b) _ := .step .init (.first (cfg := fun _ => ncfg) 0 rfl i1 i2)
  obtain ⟨N, n1, n2, n3⟩ := r.own_events (PNet.set_self ..) evs hE
  have came : ∀ t, N.came t ↔ t = pay ∨ t = c := fun t => by
    rw [n3 t, hF t]
    show False ∨ _ ↔ _
    simp
  refine ⟨N, _, n1, n2, hA, (came c).2 (.inr rfl), fun t ht hh => ?_, fun M hM hc i q hq => ?_⟩
  · rcases (came t).1 ht with rfl | rfl
    · exact absurd hh hC
    · rfl
  · exact (C119_halted (fun _ _ => ⟨rfl, rfl⟩) (hM.reach n1) (by decide) hB (fun t ht hh => by rw [hc t ht hh]; exact hD) i q hq).1

namespace Demo

/-- A client submits a payment of a user that nobody knows. -/
def strangerEvents : List NodeNetEvent := .own (.callInsert 0 true true (npay 7 2 0)) :: List.replicate 12 (.own (.run 0))

def strangerPill : Pill := proposal (inserted n0 [npay 7 2 0])

def strangerChecks : Bool :=
  let n := (nodeNet demoZip ncfg n0 strangerEvents).node.conf.node
  decide ((n.getEpoch ncfg 7 1).1.toOption.map (fun x => x.1.epoch) = some strangerPill.epoch)

def noAlloc : Bool := ngenesis.stateAlloc.all fun al => decide (Address.fromHex al.address.toList ≠ some (.user (nuser 7)))

end Demo

open Demo in
/-- The case is met: somebody of whom nobody has heard submits a payment of nothing to a network that has just been started; the node proposes it. -/
theorem C119_stranger_refuted : ∃ N p, PNet.Reach demoZip (fun _ => ncfg) ngenesis (fun _ => strangerPill.epoch) N ∧ N.sites 0 = some p ∧
    ((p.node demoZip ncfg).getEpoch ncfg 7 1).1.toOption.map (fun x => x.1.epoch) = some strangerPill.epoch ∧
    (∀ t, N.came t ↔ t = npay 7 2 0) ∧
    ∀ M, PNet.Later demoZip (fun _ => ncfg) ngenesis (fun _ => strangerPill.epoch) N M →
      (∀ t, M.came t → (t.txHash = (npay 7 2 0).txHash → t = npay 7 2 0) ∧ ∀ c, t.raw.action ≠ .transfer (nuser 7) c) →
      ∀ i q, M.sites i = some q → (q.node demoZip ncfg).queryEpoch (some 1) = none := by
  have hA : strangerChecks = true := by decide +kernel
  have hB : (npay 7 2 0).txHash ∈ strangerPill.epoch.orderedTxHashes := by decide +kernel
  have hD : UserAddress.fromPubkey ncfg.digest (npay 7 2 0).pubkey = nuser 7 := rfl
  have hE : ∀ e ∈ strangerEvents, ∀ M, e.Told (fun _ => strangerPill.epoch) M := by
    intro e he M
    unfold strangerEvents at he
    simp only [List.mem_cons, List.mem_replicate] at he
    rcases he with rfl | ⟨-, rfl⟩ <;> trivial
  have hF : ∀ t, (∃ e ∈ strangerEvents, e.Brought demoZip t) ↔ t = npay 7 2 0 := by
    intro t
    unfold strangerEvents
    simp only [List.mem_cons, List.mem_replicate]
    constructor
    · rintro ⟨e, rfl | ⟨-, rfl⟩, h⟩
      · exact h
      · exact h.elim
    · exact fun h => ⟨_, .inl rfl, h⟩
  have hG : noAlloc = true := by decide +kernel
  simp only [strangerChecks, decide_eq_true_eq] at hA
  simp only [noAlloc, List.all_eq_true, decide_eq_true_eq] at hG
  obtain ⟨s, t, i1, i2⟩ := n0_start
  generalize strangerEvents = evs at *
  generalize strangerPill.epoch = b at *
  generalize npay 7 2 0 = pay at *
  have r : PNet.Reach demoZip (fun _ => ncfg) ngenesis (fun _ => b) _ := .step .init (.first (cfg := fun _ => ncfg) 0 rfl i1 i2)
  obtain ⟨N, n1, n2, n3⟩ := r.own_events (PNet.set_self ..) evs hE
  have came : ∀ t, N.came t ↔ t = pay := fun t => by
    rw [n3 t, hF t]
    show False ∨ _ ↔ _
    simp
  refine ⟨N, _, n1, n2, hA, came, fun M hM hc i q hq => ?_⟩
  exact (C119_stranger (fun _ _ => ⟨rfl, rfl⟩) (hM.reach n1) (u := nuser 7) (fun al ha _ => hG al ha) (fun t ht => (hc t ht).2) (by decide) hB i
    (fun t ht hh => by rw [(hc t ht).1 hh]; exact hD) q hq).1

end Huobi
