import Verif.Props.NodeNet3
/-
C117: in a network of whole processes what was shown once stays shown, and no money is made.
-/
namespace Huobi

/-! ### Specification -/

/-- What a network can become from `N` on. -/
inductive PNet.Later (z : Compression) (cfg : Nat → NodeCfg) (g : Genesis) (chain : UInt64 → Epoch) (N : PNet) : PNet → Prop
  | now : Later z cfg g chain N N
  | step {M M'} : Later z cfg g chain N M → PNet.Step z cfg g chain M M' → Later z cfg g chain N M'

/-! ### Nothing is taken out of a database -/

/-- A store that has whatever `s` has. -/
structure Store.Within (s s' : Store) : Prop where
  epochs : ∀ i, (s.epochs i).isSome → (s'.epochs i).isSome
  txs : ∀ k, (s.txs k).isSome → (s'.txs k).isSome
  receipts : ∀ k, (s.receipts k).isSome → (s'.receipts k).isSome
  latest : s.latest.isSome → s'.latest.isSome

/-- Whatever is found in `n` is found in `m`. -/
structure Contained (n m : Node) : Prop where
  store : n.store.Within m.store
  tries : ∀ r, (n.tries r).isSome → (m.tries r).isSome
  log : ∀ d ∈ n.log, d ∈ m.log

theorem Store.Within.refl (s : Store) : s.Within s := ⟨fun _ => _root_.id, fun _ => _root_.id, fun _ => _root_.id, _root_.id⟩

theorem Store.Within.trans {s s' s'' : Store} (h : s.Within s') (h' : s'.Within s'') : s.Within s'' :=
  ⟨fun i x => h'.epochs i (h.epochs i x), fun i x => h'.txs i (h.txs i x), fun i x => h'.receipts i (h.receipts i x), fun x => h'.latest (h.latest x)⟩

theorem Contained.refl (n : Node) : Contained n n := ⟨.refl _, fun _ => _root_.id, fun _ => _root_.id⟩

theorem Contained.trans {n m k : Node} (h : Contained n m) (h' : Contained m k) : Contained n k :=
  ⟨h.store.trans h'.store, fun i x => h'.tries i (h.tries i x), fun d x => h'.log d (h.log d x)⟩

theorem Contained.of {n m k : Node} (h : Contained n m) (h1 : k.store = m.store) (h2 : k.tries = m.tries) (h3 : k.log = m.log) : Contained n k :=
  ⟨h1 ▸ h.store, h2 ▸ h.tries, h3 ▸ h.log⟩

theorem insertAll_within {K V : Type} [DecidableEq K] (key : V → K) (l : List V) (m : K → Option V) (k : K) (h : (m k).isSome) : (insertAll key l m k).isSome := by
  unfold insertAll
  cases l.reverse.find? fun v => key v = k with
  | none => exact h
  | some v => rfl

theorem Store.write_within (s : Store) (w : Write) : s.Within (s.write w) := by
  cases w with
  | txs l => exact ⟨fun _ => _root_.id, fun k h => insertAll_within _ _ _ k h, fun _ => _root_.id, _root_.id⟩
  | receipts l => exact ⟨fun _ => _root_.id, fun _ => _root_.id, fun k h => insertAll_within _ _ _ k h, _root_.id⟩
  | epoch id e =>
    refine ⟨fun i h => ?_, fun _ => _root_.id, fun _ => _root_.id, _root_.id⟩
    simp only [Store.write]
    split
    · rfl
    · exact h
  | hashEpoch h id => exact ⟨fun _ => _root_.id, fun _ => _root_.id, fun _ => _root_.id, _root_.id⟩
  | latestEpoch e => exact ⟨fun _ => _root_.id, fun _ => _root_.id, fun _ => _root_.id, fun _ => rfl⟩
  | latestProof p => exact ⟨fun _ => _root_.id, fun _ => _root_.id, fun _ => _root_.id, _root_.id⟩

theorem Store.writes_within (ws : List Write) (s : Store) : s.Within (s.writes ws) := by
  induction ws generalizing s with
  | nil => exact .refl _
  | cons w ws ih =>
    exact (s.write_within w).trans (ih (s.write w))

theorem Contained.write {n k : Node} (ws : List Write) (h1 : k.store = n.store.writes ws) (h2 : k.tries = n.tries) (h3 : ∀ d ∈ n.log, d ∈ k.log) : Contained n k :=
  ⟨h1 ▸ n.store.writes_within ws, h2 ▸ fun _ => _root_.id, h3⟩

/-- No access of the program takes anything out of a database. -/
def Prog.Grows : Prog → Prop
  | .ret _ => True
  | .act f k => ∀ n, Contained n (f n) ∧ (k n).Grows
  | .lock _ a b => a.Grows ∧ b.Grows
  | .unlock _ k => k.Grows

section
variable {cfg : NodeCfg}

theorem grows_id {k : Node → Prog} (h : ∀ n, (k n).Grows) : (Prog.act id k).Grows := fun n => ⟨.refl n, h n⟩

theorem grows_write {ok : Bool} {w : Node → Node} {fail next : Prog} (hw : ∀ n, Contained n (w n)) (h1 : fail.Grows) (h2 : next.Grows) :
    (Prog.write ok w fail next).Grows := by
  intro n
  cases ok
  · exact ⟨.refl n, h1⟩
  · exact ⟨hw n, h2⟩

theorem Prog.Pooly.grows {p : Prog} (h : p.Pooly) : p.Grows := by
  induction h with
  | ret => exact trivial
  | act h1 _ ih => exact fun n => ⟨(Contained.refl n).of (h1 n).store.symm (h1 n).tries.symm (h1 n).log.symm, ih n⟩

theorem exec_within (cfg : NodeCfg) (root : MerkleRoot) (id : UInt64) (cb : Address) (txs : List SignedTx) (n : Node) : Contained n (n.exec cfg root id cb txs).2 := by
  unfold Node.exec
  cases hr : runBlock (cfg.env id n.status.cyclesPrice cb) n.tries root txs with
  | mk x db =>
    cases x with
    | none =>
      rw [runBlock_error hr (fun r hh => by cases hh)]
      exact .refl _
    | some x =>
      cases x with
      | error f =>
        rw [runBlock_error hr (fun r hh => by cases hh)]
        cases f <;> exact .refl _
      | ok resp =>
        obtain ⟨w, w', -, -, hdb⟩ := runBlock_db hr
        refine ⟨.refl _, fun r hx => ?_, fun _ => _root_.id⟩
        show (db r).isSome
        rw [hdb]
        unfold PMap.set
        split
        · rfl
        · exact hx

theorem saveProof_within (cfg : NodeCfg) (io : SaveIo) (p : Proof) (n : Node) : Contained n (n.saveProof cfg io p).2 := by
  unfold Node.saveProof
  split
  · exact .write _ rfl rfl fun _ => _root_.id
  · exact .refl _

theorem grows_updateStatus {io : SaveIo} {root : MerkleRoot} {epochId : UInt64} {epoch : Epoch} {proof : Proof} {resp : ExecResp}
    {txs : List SignedTx} {fail next : Prog} (hf : fail.Grows) (hn : next.Grows) :
    (Prog.updateStatus cfg io root epochId epoch proof resp txs fail next).Grows := by
  refine grows_write (fun n => Contained.write _ rfl rfl fun _ => _root_.id) hf ?_
  refine grows_write (fun n => Contained.write _ rfl rfl fun _ => _root_.id) hf ?_
  refine grows_write (fun n => Contained.write _ rfl rfl fun _ => _root_.id) hf ?_
  refine grows_write (fun n => Contained.write _ rfl rfl fun _ => _root_.id) hf ?_
  refine grows_write (fun n => Contained.write _ rfl rfl fun d hd => .tail _ hd) hf ?_
  exact fun n => ⟨(Contained.refl n).of rfl rfl rfl, hn⟩

theorem grows_commit {io : CommitIo} {id : UInt64} {pill : Pill} {proof : OverlordProof} : (Prog.commit cfg io id pill proof).Grows := by
  refine ⟨?_, trivial⟩
  split
  · trivial
  intro n
  refine ⟨saveProof_within .., ?_⟩
  beta_reduce
  split
  · trivial
  split
  · trivial
  refine grows_id fun n => ?_
  split
  · trivial
  refine fun n => ⟨(Contained.refl n).of rfl rfl rfl, grows_id fun n0 => fun n => ⟨exec_within .., ?_⟩⟩
  beta_reduce
  split
  · trivial
  · exact grows_updateStatus (by trivial) (by trivial)

theorem grows_sync {io : SyncIo} {msg : Bytes} : (Prog.sync cfg io msg).Grows := by
  have loop (next : Prog) (hn : next.Grows) (ids : List UInt64) : ∀ k h r, (Prog.syncLoop cfg io next k ids h r).Grows := by
    induction ids with
    | nil => exact fun _ _ _ => hn
    | cons id ids ih =>
      intro k h r
      unfold Prog.syncLoop Prog.syncOne
      split
      · trivial
      split
      · trivial
      intro n
      refine ⟨saveProof_within .., ?_⟩
      beta_reduce
      split
      · trivial
      split
      · trivial
      intro n
      refine ⟨exec_within .., ?_⟩
      beta_reduce
      split
      · trivial
      · exact grows_updateStatus (by trivial) (ih _ _ _)
  refine ⟨?_, trivial⟩
  split
  · trivial
  refine grows_id fun n => ?_
  split
  · trivial
  refine ⟨grows_id fun n => ?_, trivial⟩
  split
  · trivial
  · exact loop _ (by trivial) _ _ _ _

theorem grows_prog {e : Event} {t : Nat} {p : Prog} (hp : e.prog cfg = some (t, p)) : p.Grows := by
  cases e with
  | callCommit t' io id pill proof => cases hp; exact grows_commit
  | callSync t' io msg => cases hp; exact grows_sync
  | callInsert t' o b tx => cases hp; exact (pooly_insert ..).grows
  | callPropose t' now id => cases hp; exact (pooly_propose ..).grows
  | callCheck t' p1 p2 hash pill => cases hp; exact (pooly_check ..).grows
  | run t' => cases hp

/-- No task takes anything out of a database. -/
def Conf.Growing (c : Conf) : Prop := ∀ t p, c.tasks t = some p → p.Grows

theorem growing_set {c : Conf} (h : c.Growing) (t : Nat) (q : Option Prog) (hq : ∀ p, q = some p → p.Grows) : (c.setTask t q).Growing := by
  intro t' p hp
  simp only [Conf.setTask] at hp
  split at hp
  · exact hq p hp
  · exact h t' p hp

theorem growing_step {c : Conf} (h : c.Growing) (e : Event) : (c.step cfg e).Growing ∧ Contained c.node (c.step cfg e).node := by
  cases hp : e.prog cfg with
  | some x =>
    obtain ⟨t, p⟩ := x
    rw [step_prog hp]
    unfold Conf.start
    split
    · exact ⟨growing_set h _ _ fun q hq => by cases hq; exact grows_prog hp, .refl _⟩
    · exact ⟨h, .refl _⟩
  | none =>
    cases e with
    | run t =>
      simp only [Conf.step]
      cases hq : c.tasks t with
      | none => exact ⟨h, .refl _⟩
      | some p =>
        have hk := h t p hq
        cases p with
        | ret r => exact ⟨growing_set h t _ (fun q hq => by cases hq), .refl _⟩
        | act f k => exact ⟨growing_set (c := { c with node := f c.node }) h t _ (fun q hq => by cases hq; exact (hk c.node).2), (hk c.node).1⟩
        | lock l a b =>
          simp only
          split
          · exact ⟨growing_set (c := c.setLock l (some t)) h t _ (fun q hq => by cases hq; exact hk.1), .refl _⟩
          · exact ⟨growing_set h t _ (fun q hq => by cases hq; exact hk.2), .refl _⟩
        | unlock l k => exact ⟨growing_set (c := c.setLock l none) h t _ (fun q hq => by cases hq; exact hk), .refl _⟩
    | _ => cases hp

theorem growing_steps (evs : List Event) {c : Conf} (h : c.Growing) : (evs.foldl (Conf.step cfg) c).Growing ∧ Contained c.node (evs.foldl (Conf.step cfg) c).node := by
  induction evs generalizing c with
  | nil => exact ⟨h, .refl _⟩
  | cons e evs ih =>
    obtain ⟨h1, h2⟩ := growing_step (cfg := cfg) h e
    obtain ⟨h3, h4⟩ := ih h1
    exact ⟨h3, h2.trans h4⟩

theorem growing_net {z : Compression} {s : Mail Handler NodeTasks} (h : s.node.conf.Growing) (e : NodeNetEvent) :
    (nodeNetStep z cfg s e).node.conf.Growing ∧ Contained s.node.conf.node (nodeNetStep z cfg s e).node.conf.node := by
  cases e with
  | own e =>
    simp only [nodeNetStep]
    split
    · exact growing_step h e
    · exact ⟨h, .refl _⟩
  | net e =>
    cases e with
    | arrive sid raw => exact ⟨h, .refl _⟩
    | routerTake =>
      simp only [nodeNetStep, Mail.step]
      split <;> exact ⟨h, .refl _⟩
    | route i =>
      simp only [nodeNetStep, Mail.step]
      split
      · exact ⟨h, .refl _⟩
      · split <;> exact ⟨h, .refl _⟩
    | reactorTake r =>
      simp only [nodeNetStep, Mail.step]
      split <;> exact ⟨h, .refl _⟩
    | react i io =>
      simp only [nodeNetStep, Mail.step]
      split
      · exact ⟨h, .refl _⟩
      · exact growing_steps _ h

theorem growing_run (z : Compression) (n : Node) (l : List NodeNetEvent) : (nodeNet z cfg n l).node.conf.Growing := by
  unfold nodeNet
  suffices h : ∀ (l : List NodeNetEvent) (s : Mail Handler NodeTasks), s.node.conf.Growing → (l.foldl (nodeNetStep z cfg) s).node.conf.Growing from
    h l _ fun t p hp => by cases hp
  intro l
  induction l with
  | nil => exact fun s h => h
  | cons e l ih => exact fun s h => ih _ (growing_net h e).1

theorem within_run (z : Compression) (n : Node) (l : List NodeNetEvent) (e : NodeNetEvent) :
    Contained (nodeNet z cfg n l).node.conf.node (nodeNet z cfg n (l ++ [e])).node.conf.node := by
  have := (growing_net (cfg := cfg) (z := z) (growing_run (cfg := cfg) z n l) e).2
  unfold nodeNet at this ⊢
  rw [List.foldl_append]
  exact this

/-- A start takes nothing out of a database. -/
theorem within_start {g : Genesis} {m n : Node} {s : Store} {t : StateDB} (h1 : handleInit cfg g m.store m.tries = some (s, t)) (h2 : startNode cfg s t = some n)
    (hl : m.store.latest.isSome) : n.store = m.store ∧ n.tries = m.tries := by
  unfold handleInit at h1
  split at h1
  · injection h1 with h1
    injection h1 with e1 e2
    obtain ⟨e, -, hs, ht, -⟩ := startNode_some h2
    exact ⟨hs.trans e1.symm, ht.trans e2.symm⟩
  · rename_i hn
    rw [hn] at hl
    cases hl

end

section
variable {z : Compression} {cfg : Nat → NodeCfg} {g : Genesis} {chain : UInt64 → Epoch}

theorem PNet.Later.reach {N M : PNet} (h : PNet.Later z cfg g chain N M) (hN : PNet.Reach z cfg g chain N) : PNet.Reach z cfg g chain M := by
  induction h with
  | now => exact hN
  | step _ hs ih => exact .step ih hs

/-- Whatever was at a place is there still. -/
structure PSite.Within (z : Compression) (cfg : NodeCfg) (p q : PSite) : Prop where
  store : (p.node z cfg).store.Within (q.node z cfg).store
  tries : ∀ r, ((p.node z cfg).tries r).isSome → ((q.node z cfg).tries r).isSome
  log : ∀ d ∈ (p.node z cfg).log ++ p.older, d ∈ (q.node z cfg).log ++ q.older

theorem PSite.Within.refl (z : Compression) (cfg : NodeCfg) (p : PSite) : p.Within z cfg p := ⟨.refl _, fun _ => _root_.id, fun _ => _root_.id⟩

theorem PSite.Within.trans {cfg : NodeCfg} {p q r : PSite} (h : p.Within z cfg q) (h' : q.Within z cfg r) : p.Within z cfg r :=
  ⟨h.store.trans h'.store, fun i x => h'.tries i (h.tries i x), fun d x => h'.log d (h.log d x)⟩

/-- A place that is set to something with all that was there. -/
theorem PNet.set_within {N : PNet} {i j : Nat} {s p q : PSite} (hp : N.sites i = some p) (hs : p.Within z (cfg i) s) (hq : N.sites j = some q) :
    ∃ r, (N.set i s).sites j = some r ∧ q.Within z (cfg j) r := by
  by_cases hj : j = i
  · subst hj
    rw [hp] at hq
    injection hq with hq
    subst hq
    exact ⟨s, if_pos rfl, hs⟩
  · exact ⟨q, (if_neg hj).trans hq, .refl _ _ _⟩

theorem PNet.Step.within {N M : PNet} (hc : OneScheme cfg) (hN : PNet.Reach z cfg g chain N) (h : PNet.Step z cfg g chain N M) (j : Nat) (q : PSite)
    (hq : N.sites j = some q) : ∃ r, M.sites j = some r ∧ q.Within z (cfg j) r := by
  cases h with
  | first i h0 =>
    refine ⟨q, ?_, .refl _ _ _⟩
    have : j ≠ i := fun e => by subst e; rw [h0] at hq; cases hq
    exact (if_neg this).trans hq
  | @restart s t n p i h0 h1 h2 =>
    refine PNet.set_within h0 ?_ hq
    obtain ⟨gen, -, hf, -⟩ := (((hN.inv hc).sites _ _ h0).fine.imp fun _ _ h => fine_decided h).follows
    obtain ⟨e1, e2⟩ := within_start h1 h2 hf.started
    refine ⟨?_, ?_, fun d hd => List.mem_append_right _ hd⟩
    · show (p.node z (cfg i)).store.Within n.store
      rw [e1]; exact .refl _
    · intro r hr
      show (n.tries r).isSome
      rw [e2]; exact hr
  | giveEpoch i h0 he => exact ⟨q, hq, .refl _ _ _⟩
  | giveTxs i h0 ht => exact ⟨q, hq, .refl _ _ _⟩
  | giveTx i h0 hg => exact ⟨q, hq, .refl _ _ _⟩
  | @event p i e h0 he =>
    have h := within_run (cfg := cfg i) z p.start p.sched e
    refine PNet.set_within h0 (s := { p with sched := p.sched ++ [e] }) ⟨h.store, h.tries, fun d hd => ?_⟩ hq
    rcases List.mem_append.1 hd with hd | hd
    · exact List.mem_append_left _ (h.log d hd)
    · exact List.mem_append_right _ hd
  | @answer p i l h0 hl ha hn =>
    have h := hn p.sched.length
    rw [List.take_length, ← hl, List.take_length] at h
    have e : ({ p with sched := l } : PSite).node z (cfg i) = p.node z (cfg i) := h
    refine PNet.set_within h0 ⟨?_, ?_, ?_⟩ hq
    · rw [e]; exact .refl _
    · rw [e]; exact fun _ => _root_.id
    · rw [e]; exact fun _ => _root_.id

theorem PNet.Later.within {N M : PNet} (hc : OneScheme cfg) (hN : PNet.Reach z cfg g chain N) (h : PNet.Later z cfg g chain N M) (j : Nat) (q : PSite)
    (hq : N.sites j = some q) : ∃ r, M.sites j = some r ∧ q.Within z (cfg j) r := by
  induction h with
  | now => exact ⟨q, hq, .refl _ _ _⟩
  | step hl hs ih =>
    obtain ⟨r, h1, h2⟩ := ih
    obtain ⟨r', h3, h4⟩ := hs.within hc (hl.reach hN) j r h1
    exact ⟨r', h3, h2.trans h4⟩

/-- **C117, what was shown stays.**  In every network as in C116: whatever a node shows once it shows at every later moment, through crashes and restarts,
overlapping calls and synchronisations, whatever bytes anybody sends to it: the epoch of a height, that there is a transaction and a receipt with a hash, the
balances at an epoch (of worlds with different state roots), and the epochs it recorded. -/
theorem C117_kept (hs : OneScheme cfg) (hc : ∀ i j, OneChain (cfg i) (cfg j)) {N M : PNet} (hN : PNet.Reach z cfg g chain N)
    (hM : PNet.Later z cfg g chain N M) (i : Nat) (p : PSite) (hp : N.sites i = some p) :
    ∃ q, M.sites i = some q ∧
      (∀ h e, (p.node z (cfg i)).queryEpoch (some h) = some e → (q.node z (cfg i)).queryEpoch (some h) = some e) ∧
      (∀ k t, (p.node z (cfg i)).store.txs k = some t → ∃ t', (q.node z (cfg i)).store.txs k = some t' ∧ t'.txHash = t.txHash) ∧
      (∀ k, ((p.node z (cfg i)).apiReceipt k).isSome → ((q.node z (cfg i)).apiReceipt k).isSome) ∧
      (∀ d ∈ (p.node z (cfg i)).log ++ p.older, d ∈ (q.node z (cfg i)).log ++ q.older) ∧
      (NoClash (cfg i) (p.node z (cfg i)) (q.node z (cfg i)) → ∀ h x id v, (p.node z (cfg i)).queryBalance (cfg i) x id (some h) = some v →
        (q.node z (cfg i)).queryBalance (cfg i) x id (some h) = some v) := by
  obtain ⟨q, hq, hw⟩ := hM.within hs hN i p hp
  have lp := ((hN.inv hs).sites i p hp).fine
  have lq := (((hM.reach hN).inv hs).sites i q hq).fine
  obtain ⟨h1, -, -⟩ := C111_epochs (hc i i) (lp.imp fun _ _ h => fine_decided h) (lq.imp fun _ _ h => fine_decided h)
  obtain ⟨gen, -, hf, -⟩ := (lp.imp fun _ _ h => fine_decided h).follows
  obtain ⟨gen', -, hf', -⟩ := (lq.imp fun _ _ h => fine_decided h).follows
  have epochs : ∀ h e, (p.node z (cfg i)).queryEpoch (some h) = some e → (q.node z (cfg i)).queryEpoch (some h) = some e := by
    intro h e he
    have := hw.store.epochs h (by show ((p.node z (cfg i)).queryEpoch (some h)).isSome; rw [he]; rfl)
    obtain ⟨e', he'⟩ := Option.isSome_iff_exists.1 this
    rw [h1 h e e' he he']
    exact he'
  refine ⟨q, hq, epochs, fun k t ht => ?_, fun k hk => hw.store.receipts k hk, hw.log, fun hnc h x id v hv => ?_⟩
  · obtain ⟨t', ht'⟩ := Option.isSome_iff_exists.1 (hw.store.txs k (by rw [ht]; rfl))
    exact ⟨t', ht', (hf'.keyed k t' ht').trans (hf.keyed k t ht).symm⟩
  · refine balance_kept ?_ (fun r w hr => ?_) x id v hv
    · cases he : (p.node z (cfg i)).queryEpoch (some h) with
      | none => unfold Node.queryBalance at hv; rw [he] at hv; cases hv
      | some e => exact epochs h e he
    · obtain ⟨w', hw'⟩ := Option.isSome_iff_exists.1 (hw.tries r (by rw [hr]; rfl))
      have := hnc r r w w' hr hw' ((lp.rooted r w hr).trans (lq.rooted r w' hw').symm)
      rw [hw', this]

end

/-- **C117, no money from nothing.**  In every lifetime of a whole process - any bytes sent by anybody at any time, any answers of any peers, also lies, any calls
of the consensus and of clients, any interleaving, crashes and restarts: at no epoch the balances of an asset that a node shows are together more than the
genesis gave out of it; they are exactly that, or nothing is shown. -/
theorem C117_supply {z : Compression} {cfg : NodeCfg} {g : Genesis} {n : Node} {older : List Done} (h : NHistory z cfg g (fun _ => True) n older) (id : AssetID)
    (q : Option UInt64) :
    (∀ L : List Address, L.Nodup → (L.map (fun a => n.apiBalance cfg a id q)).sum ≤ supply g id) ∧
    ∃ L : List Address, L.Nodup ∧ (∀ a, a ∉ L → n.apiBalance cfg a id q = 0) ∧
      ((L.map (fun a => n.apiBalance cfg a id q)).sum = supply g id ∨ (L.map (fun a => n.apiBalance cfg a id q)).sum = 0) :=
  C90_concurrent ((h.calls (Q := fun _ => True) (fun _ _ _ _ => trivial) (fun _ _ _ _ _ _ _ => trivial) (fun _ _ _ _ _ _ => trivial)).imp fun _ _ _ => trivial) id q

namespace Demo

/-- The process at place 0 of the example of C116 can be started again. -/
def procAgain : Bool :=
  let n := (nodeNet demoZip ncfg n0 procLead).node.conf.node
  match handleInit ncfg ngenesis n.store n.tries with
  | none => false
  | some (s, t) => (startNode ncfg s t).isSome

theorem procAgain_some (h : procAgain = true) : ∃ s t n, handleInit (netCfg 0) ngenesis ((⟨n0, procLead, []⟩ : PSite).node demoZip (netCfg 0)).store
    ((⟨n0, procLead, []⟩ : PSite).node demoZip (netCfg 0)).tries = some (s, t) ∧ startNode (netCfg 0) s t = some n := by
  have e : netCfg 0 = ncfg := if_pos rfl
  rw [e]
  unfold procAgain at h
  unfold PSite.node
  generalize procLead = evs at *
  cases hh : handleInit ncfg ngenesis (nodeNet demoZip ncfg n0 evs).node.conf.node.store (nodeNet demoZip ncfg n0 evs).node.conf.node.tries with
  | none => simp only [hh] at h; cases h
  | some x =>
    obtain ⟨s, t⟩ := x
    simp only [hh] at h
    obtain ⟨n, hn⟩ := Option.isSome_iff_exists.1 h
    exact ⟨s, t, n, rfl, hn⟩

end Demo

open Demo in
/-- A network as in `C117_kept`: the node that committed three epochs is killed and started again, and gets garbage; it shows epoch 3 before, so also after. -/
example : OneScheme netCfg ∧ (∀ i j, OneChain (netCfg i) (netCfg j)) ∧ ∃ N M p q, PNet.Reach demoZip netCfg ngenesis netChain N ∧
    PNet.Later demoZip netCfg ngenesis netChain N M ∧ N.sites 0 = some p ∧ M.sites 0 = some q ∧ p ≠ q ∧
    (p.node demoZip (netCfg 0)).queryEpoch (some 3) = some netPill.epoch ∧ (q.node demoZip (netCfg 0)).queryEpoch (some 3) = some netPill.epoch := by
  have hs : OneScheme netCfg := fun i j => by
    unfold netCfg
    split <;> split <;> exact ⟨rfl, rfl⟩
  have hc : ∀ i j, OneChain (netCfg i) (netCfg j) := fun i j => by
    unfold netCfg
    split <;> split <;> exact ⟨rfl, rfl, rfl, rfl, rfl, rfl⟩
  refine ⟨hs, hc, ?_⟩
  have hA : procAgain = true := by decide +kernel
  have hB : procShows = true := by decide +kernel
  have hne : procLead.length ≠ 1 := by decide +kernel
  simp only [procShows, Bool.and_eq_true, decide_eq_true_eq] at hB
  obtain ⟨⟨⟨⟨b1, -⟩, -⟩, -⟩, -⟩ := hB
  have c1 := psite_epoch b1
  obtain ⟨s, t, n, h1, h2⟩ := procAgain_some hA
  obtain ⟨N, r1, r2, -, -, -⟩ := procLead_reach
  have e : netCfg 0 = ncfg := if_pos rfl
  rw [← e] at c1
  have l1 : PNet.Later demoZip netCfg ngenesis netChain N _ := .step .now (.restart 0 r2 h1 h2)
  have l2 : PNet.Later demoZip netCfg ngenesis netChain N _ := .step l1 (.event 0 (.net (.arrive 7 [1, 2, 3])) (PNet.set_self _ _ _) trivial)
  obtain ⟨q, q1, q2, -⟩ := C117_kept hs hc r1 l2 0 _ r2
  refine ⟨N, _, _, q, r1, l2, r2, q1, ?_, c1, q2 3 _ c1⟩
  intro he
  have q3 := q1
  unfold PNet.set at q3
  simp only [if_true] at q3
  injection q3 with q3
  rw [← he] at q3
  injection q3 with _ q4
  exact hne (by rw [← q4]; rfl)

open Demo in
/-- A lifetime as in `C117_supply`. -/
example : ∃ n, NHistory demoZip ncfg ngenesis (fun _ => True) n [] ∧ n.store.epochs 3 = some netPill.epoch := by
  have hB : procShows = true := by decide +kernel
  simp only [procShows, Bool.and_eq_true, decide_eq_true_eq] at hB
  obtain ⟨⟨⟨⟨b1, -⟩, -⟩, -⟩, -⟩ := hB
  obtain ⟨s, t, h1, h2⟩ := n0_start
  exact ⟨(nodeNet demoZip ncfg n0 procLead).node.conf.node, .init procLead h1 h2 trivial, b1⟩

end Huobi
