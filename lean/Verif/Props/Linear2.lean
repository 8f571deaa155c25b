import Verif.Props.Linear
import Verif.Props.ApiServer
import Verif.Props.PayOnce
/-
What C102 gives: properties of the chain data under every schedule of overlapping calls, at every moment, also in the middle of a commit.
-/
namespace Huobi

/-! ### C35, C71: the chain -/

/-- The counterpart of `Continues`: a commit that takes the lock continues the chain the node has at that moment; peers answer with epochs of the
height they are asked for, and the first epoch they hand out refers to the genesis epoch. -/
structure CContinues (cfg : NodeCfg) (n : Node) (evs : List Event) : Prop where
  orderly : SyncApart cfg n evs
  commit : ∀ pre t post io id pill proof, evs = pre ++ .run t :: post → TakesLock cfg n pre t io id pill proof →
    id ≠ 0 ∧ id = (Conf.after cfg n pre).node.status.epochId ∧ pill.epoch.header.epochId = id ∧
      pill.epoch.header.preHash = (Conf.after cfg n pre).node.status.prevHash
  sync : ∀ t io msg, Event.callSync t io msg ∈ evs → ∀ k id e, io.pullEpoch k id = some e → e.header.epochId = id ∧
    (id = 1 → ∀ pre post gen, evs = pre ++ post → (Conf.after cfg n pre).node.store.epochs 0 = some gen → e.header.preHash = cfg.digest (encode gen))

theorem CContinues.sequential {cfg : NodeCfg} {n : Node} {evs : List Event} (h : CContinues cfg n evs) {m : Node} {op : NodeOp}
    (hj : Justified cfg n evs m op) : Continues cfg m op := by
  cases op with
  | commit io' id pill proof =>
    obtain ⟨pre, mid, rest, t, io, he, ht, hs, -⟩ := hj
    obtain ⟨h1, h2, h3, h4⟩ := h.commit pre t (mid ++ rest) io id pill proof (by rw [he]; simp) ht
    exact ⟨h1, by rw [hs.status]; exact h2, h3, by rw [hs.status]; exact h4⟩
  | sync io' msg =>
    obtain ⟨pre, mid, rest, t, io, he, hc, -, hs, -, hp, -⟩ := hj
    intro k id e hk
    obtain ⟨h1, h2⟩ := h.sync t io msg (by rw [he]; exact List.mem_append_left _ (List.mem_append_left _ hc)) k id e (hp k id e hk)
    exact ⟨h1, fun h0 gen hg => h2 h0 pre (.run t :: mid ++ rest) gen (by rw [he]; simp) (by rw [← hs.store]; exact hg)⟩
  | _ => trivial

/-- **C35, with overlapping calls (partial: `CContinues`, cf. `C35_chain_partial`).**  At every moment of every schedule - also in the middle of
a commit, with the process killed there - the stored epochs are a hash-linked chain of consecutive heights. -/
theorem C35_concurrent_partial {cfg : NodeCfg} {g : Genesis} {n : Node} {older : List Done} (h : CHistory cfg g (CContinues cfg) n older) :
    n.store.Linked cfg.digest := by
  obtain ⟨m, hm, hd⟩ := C102_partial (fun _ _ h => h.orderly) h
  rw [← hd.store]
  exact (C35_chain_partial (hm.imp fun m op ⟨n0, _, evs, _, hc, hj⟩ => hc.sequential hj).lives).1

theorem sameData_apiEpoch {n m : Node} (h : m.SameData n) (q : Option (List Char)) : n.apiEpoch q = m.apiEpoch q := by
  unfold Node.apiEpoch Node.queryEpoch
  rw [h.store]

/-- **C71 on a chain, with overlapping calls.**  At every moment of every such schedule, for every height up to the latest, the API shows an epoch
of that height whose previous hash is the hash of the epoch stored under the height before. -/
theorem C71_concurrent_walk {cfg : NodeCfg} {g : Genesis} {n : Node} {older : List Done} (h : CHistory cfg g (CContinues cfg) n older) :
    ∃ last, n.store.latest = some last ∧ ∀ id, id ≤ last.header.epochId → ∃ v e, n.apiEpoch (some (Api.showU64 id)) = .ok v ∧ Shows v e ∧
      Api.readU64 v.header.epochId = some id ∧
      (id ≠ 0 → ∃ p, n.store.epochs (id - 1) = some p ∧ Api.readHash v.header.preHash = some (cfg.digest (encode p))) := by
  obtain ⟨m, hm, hd⟩ := C102_partial (fun _ _ h => h.orderly) h
  obtain ⟨last, h1, h2⟩ := C71_walk (hm.imp fun m op ⟨n0, _, evs, _, hc, hj⟩ => hc.sequential hj).lives
  rw [hd.store] at h1
  refine ⟨last, h1, fun id hid => ?_⟩
  obtain ⟨v, e, a, b, c, d⟩ := h2 id hid
  rw [hd.store] at d
  exact ⟨v, e, by rw [sameData_apiEpoch hd]; exact a, b, c, d⟩

/-! ### C36: the roots -/

/-- **C36, with overlapping calls (partial: without synchronisation, cf. `C36_refuted`).**  Whatever insertions, proposals, checks and commits
overlap: each epoch a process recorded was executed on the state root that the one recorded before it gave. -/
theorem C36_concurrent_partial {cfg : NodeCfg} {g : Genesis} {n : Node} {older : List Done}
    (h : CHistory cfg g (fun _ evs => ∀ t io msg, Event.callSync t io msg ∉ evs) n older) : RootsChain n.log := by
  obtain ⟨m, hm, hd⟩ := C102_partial (fun _ _ h ⟨t, io, msg, hm⟩ => absurd hm (h t io msg)) h
  rw [← hd.log]
  refine (C36_roots_partial (hm.imp fun m op ⟨n0, _, evs, _, hc, hj⟩ => ?_).lives).1
  cases op with
  | sync io msg =>
    obtain ⟨pre, mid, rest, t, io, he, hk, -⟩ := hj
    exact hc t io msg (by rw [he]; exact List.mem_append_left _ (List.mem_append_left _ hk))
  | _ => trivial

/-! ### C37: restart -/

/-- **C37, with overlapping calls (partial, as `C37_partial`; not said: what the state root is).**  A process killed at any moment of any schedule
can be started again from what is stored; it loses nothing that was stored, and continues after the latest stored epoch. -/
theorem C37_concurrent_partial {cfg : NodeCfg} {g : Genesis} {n : Node} {older : List Done} (h : CHistory cfg g (SyncApart cfg) n older) :
    handleInit cfg g n.store n.tries = some (n.store, n.tries) ∧ ∃ n' last, startNode cfg n.store n.tries = some n' ∧ n.store.latest = some last ∧
      n'.store = n.store ∧ n'.tries = n.tries ∧ n'.status.epochId = last.header.epochId + 1 ∧ n'.status.prevHash = cfg.digest (encode last) := by
  obtain ⟨m, hm, hd⟩ := C102_partial (fun _ _ h => h) h
  obtain ⟨-, last, hl, -⟩ := hm.lives.coherent
  have hi : handleInit cfg g m.store m.tries = some (m.store, m.tries) := by simp [handleInit, hl]
  have hs : (startNode cfg m.store m.tries).isSome = true := by simp [startNode, hl]
  obtain ⟨n', hs⟩ := Option.isSome_iff_exists.1 hs
  obtain ⟨⟨last', h1, h2, h3, h4, h5, -⟩, -⟩ := C37_partial hm.lives hi hs
  rw [← hd.store, ← hd.tries]
  exact ⟨hi, n', last', hs, h1, h2, h3, h4, h5⟩

/-! ### C89: receipts -/

/-- **C89, with overlapping calls (partial: `SyncApart`).**  At every moment of every schedule every transaction of a recorded epoch has a receipt, and
every receipt shown is one that executing transactions on a state of this chain gave, and is that of the transaction asked for. -/
theorem C89_concurrent_partial {cfg : NodeCfg} {g : Genesis} {n : Node} {older : List Done} (h : CHistory cfg g (SyncApart cfg) n older) (k : Hash) :
    (∀ d ∈ n.log ++ older, (∃ t ∈ d.txs, t.txHash = k) → (n.apiReceipt k).isSome = true) ∧
    ∀ r, n.apiReceipt k = some r → r.txHash = k ∧ ∃ height price coinbase w txs resp w', Descends cfg g w ∧
      Executes (cfg.env height price (.user coinbase)) w txs resp w' ∧ r ∈ resp.receipts ∧ ∃ t ∈ txs, t.txHash = k := by
  obtain ⟨m, hm, hd⟩ := C102_partial (fun _ _ h => h) h
  have hr : n.apiReceipt k = m.apiReceipt k := by show n.store.receipts k = m.store.receipts k; rw [hd.store]
  rw [hr, ← hd.log]
  exact C89_receipts_genuine hm k

/-! ### C99: paid once -/

/-- Schedules of a node whose peers behave: nothing is synchronised; what peers hand over on request was signed by its owner and not committed
before; no transaction is handed over during a call that commits it; a committed epoch names, when its commit takes the lock, the node's state
root, and orders no transaction twice; and no state is overwritten by another one. -/
structure CDecent (cfg : NodeCfg) (n : Node) (evs : List Event) : Prop where
  raceFree : RaceFree cfg n evs
  signed : ∀ e ∈ evs, e.Brings cfg (Authorised cfg)
  honest : ∀ pre t post io id pill proof, evs = pre ++ .run t :: post → TakesLock cfg n pre t io id pill proof →
    pill.epoch.header.stateRoot = (Conf.after cfg n pre).node.status.stateRoot
  distinct : ∀ t io id pill proof, Event.callCommit t io id pill proof ∈ evs → pill.epoch.orderedTxHashes.Nodup
  keeps : ∀ pre mid post, evs = pre ++ mid ++ post → ∀ r w, (Conf.after cfg n pre).node.tries r = some w →
    (Conf.after cfg n (pre ++ mid)).node.tries r = some w

theorem RaceFree.prefix {cfg : NodeCfg} {n : Node} {pre post : List Event} (h : RaceFree cfg n (pre ++ post)) : RaceFree cfg n pre where
  noSync t io msg hm := h.noSync t io msg (List.mem_append_left _ hm)
  fresh p t p1 p2 ha pill q hp := h.fresh p t p1 p2 ha pill (q ++ post) (by rw [hp]; simp)
  apart p q hp := h.apart p (q ++ post) (by rw [hp, List.append_assoc])

theorem getFullTxs_held {p : MemPool} {L : List Hash} {txs : List SignedTx} (h : p.getFullTxs L = .ok txs) {t : SignedTx} (ht : t ∈ txs) :
    ∃ k ∈ L, p.lookup k = some t := by
  unfold MemPool.getFullTxs at h
  simp only at h
  split at h
  · cases h
  · injection h with h
    subst h
    obtain ⟨k, h1, h2⟩ := List.mem_filterMap.1 ht
    exact ⟨k, h1, h2⟩

theorem CHistory.mono {cfg : NodeCfg} {g : Genesis} {ok ok' : Node → List Event → Prop} (hi : ∀ n evs, ok n evs → ok' n evs) {n : Node} {older : List Done}
    (h : CHistory cfg g ok n older) : CHistory cfg g ok' n older := by
  induction h with
  | init evs h1 h2 ho => exact .init evs h1 h2 (hi _ _ ho)
  | restart evs _ h1 h2 ho ih => exact .restart evs ih h1 h2 (hi _ _ ho)

theorem CDecent.sequential {cfg : NodeCfg} {g : Genesis} {n : Node} {older : List Done} {evs : List Event} (hs : CStart cfg g (CDecent cfg) n older)
    (h : CDecent cfg n evs) {m : Node} {op : NodeOp} (hj : Justified cfg n evs m op) : NodeOp.Decent cfg m op := by
  -- what holds when the process starts
  have hc : Closed cfg (Authorised cfg) (fun _ => True) := ⟨trivial, fun _ _ _ => trivial⟩
  have hstart : Base older n ∧ CInv (Authorised cfg) (fun _ => True) n := by
    cases hs with
    | init h1 h2 =>
      exact ⟨Base.start (fun d hd => by cases hd) .nil h1 h2, CInv.start (fun _ _ => trivial) (fun _ _ h => by cases h) (fun _ _ _ => trivial) h1 h2⟩
    | @restart n1 older1 s t _ hh h1 h2 =>
      have hb := (hh.mono (fun _ _ h => h.raceFree)).base
      have hi := ((hh.mono (fun _ _ h => h.signed)).inv hc fun _ _ => trivial).1
      exact ⟨Base.start hb.stored hb.once h1 h2, CInv.start (fun _ _ => trivial) hi.stored hi.tries h1 h2⟩
  cases op with
  | insertTx o b tx => exact hj.elim
  | propose now id => exact hj.elim
  | sync io' msg =>
    obtain ⟨pre, mid, rest, t, io, he, hk, -⟩ := hj
    exact absurd (by rw [he]; exact List.mem_append_left _ (List.mem_append_left _ hk)) (h.raceFree.noSync t io msg)
  | commit io' id pill proof =>
    obtain ⟨pre, mid, rest, t, io, he, ht, hsame, hd⟩ := hj
    have hk : Event.callCommit t io id pill proof ∈ pre := by
      obtain ⟨⟨a, b, hw, -⟩, -⟩ := ht
      rw [hw]; simp
    refine ⟨trivial, trivial, ?_, fun r w hr => ?_, ?_⟩
    · show _ = m.status.stateRoot
      rw [hsame.status]
      exact h.honest pre t (mid ++ rest) io id pill proof (by rw [he]; simp) ht
    · rw [hd.tries]
      exact h.keeps pre (.run t :: mid) rest he r w (by rw [← hsame.tries]; exact hr)
    · exact h.distinct t io id pill proof (by rw [he]; exact List.mem_append_left _ (List.mem_append_left _ hk))
  | check p1 p2 ha pill =>
    obtain ⟨pre, rest, L, txs, he, hst, hg, hx⟩ := hj
    subst he
    have hb := (Sched.after hstart.1 pre h.raceFree.prefix).base
    have hci := hstart.2.after hc (evs := pre) fun e hm => h.signed e (List.mem_append_left _ hm)
    refine ⟨fun q xs hq t ht => ?_, fun q xs hq t ht => ?_, trivial, fun r w hr => ?_, trivial⟩
    · rw [hx q xs hq] at ht
      obtain ⟨h1, h2⟩ := hb.getFull hg
      rw [← hst]
      exact h1 _ (by rw [← h2]; exact List.mem_map_of_mem ht)
    · rw [hx q xs hq] at ht
      obtain ⟨k, -, hk⟩ := getFullTxs_held hg ht
      rcases (lookup_iff _ _ _).1 hk with hk | ⟨-, hk⟩
      · exact hci.pool.1 k t hk
      · exact hci.pool.2 k t hk
    · rw [(passive_step cfg m (.check p1 p2 ha pill) trivial).2.1]; exact hr

/-- **C99, with overlapping calls (partial: `CDecent`, cf. `C99_partial` and `C101_refuted`).**  Whatever insertions, proposals, checks and commits
of a node overlap, and at whatever moments its processes are killed: no transaction is recorded twice; what is shown for any epoch the node
has is explained by recorded transactions, no two of them the same, all signed by the owners of the accounts they spend from; and whoever
signed only the payments in `S` never sees less than his allocation without the payments in `S`, each counted once. -/
theorem C99_concurrent_partial {cfg : NodeCfg} {g : Genesis} {n : Node} {older : List Done} (h : CHistory cfg g (CDecent cfg) n older)
    (he : EmptyRoot cfg n) :
    ExecutedOnce (n.log ++ older) ∧
    (∀ q e, n.queryEpoch q = some e → ∃ xs : List (SignedTx × Receipt), (xs.map (fun x => x.1.raw)).Nodup ∧
      (∀ x ∈ xs, x ∈ executed (n.log ++ older) ∧ Authorised cfg x.1) ∧
      ∀ a id, n.apiBalance cfg a id q + (xs.map (spent cfg a id)).sum = allocated g a id + (xs.map (incoming a id)).sum) ∧
    ∀ (a : Address) (S : List RawTx), (∀ d ∈ n.log ++ older, ∀ t ∈ d.txs, accountOf cfg t = a → t.raw ∈ S) →
      ∀ q e id, n.queryEpoch q = some e → allocated g a id ≤ n.apiBalance cfg a id q + (S.map (pays id)).sum := by
  obtain ⟨m, hm, hd⟩ := C102_partial (fun _ _ h ⟨t, io, msg, hm⟩ => absurd hm (h.raceFree.noSync t io msg)) h
  have hq (q : Option UInt64) : n.queryEpoch q = m.queryEpoch q := by unfold Node.queryEpoch; rw [hd.store]
  have hb (a : Address) (id : AssetID) (q : Option UInt64) : n.apiBalance cfg a id q = m.apiBalance cfg a id q := by
    unfold Node.apiBalance Node.queryBalance; rw [hq, hd.tries]
  have := C99_partial (hm.imp fun m op ⟨n0, o, evs, h1, h2, h3⟩ => h2.sequential h1 h3) (by unfold EmptyRoot; rw [hd.tries]; exact he)
  rw [hd.log] at this
  simp only [hq, hb]
  exact this

/-! ### The hypotheses are met -/

/-- The program leaves the states as they are. -/
def Prog.Still : Prog → Prop
  | .ret _ => True
  | .act f k => (∀ n : Node, (f n).tries = n.tries) ∧ ∀ n, (k n).Still
  | .lock _ a b => a.Still ∧ b.Still
  | .unlock _ k => k.Still

/-- The program leaves the states as they are, but for the access after the next `j`, which may add one. -/
inductive Prog.Adds : Nat → Prog → Prop
  | still {j p} : p.Still → Prog.Adds j p
  | add {f k} : (∀ n : Node, (f n).tries = n.tries ∨ ∃ r w, (f n).tries = PMap.set n.tries r w) → (∀ n, (k n).Still) → Prog.Adds 0 (.act f k)
  | act {j f k} : (∀ n : Node, (f n).tries = n.tries) → (∀ n, Prog.Adds j (k n)) → Prog.Adds (j + 1) (.act f k)
  | lock {j l a b} : Prog.Adds j a → Prog.Adds j b → Prog.Adds (j + 1) (.lock l a b)

theorem Prog.Pooly.still {p : Prog} (h : p.Pooly) : p.Still := by
  induction h with
  | ret => trivial
  | act h1 _ ih => exact ⟨fun n => (h1 n).tries.symm, ih⟩

theorem still_write {ok : Bool} {w : Node → Node} {fail next : Prog} (hw : ∀ n, (w n).tries = n.tries) (hf : fail.Still) (hn : next.Still) :
    (Prog.write ok w fail next).Still := by
  refine ⟨fun n => ?_, fun n => ?_⟩ <;> split
  · exact hw n
  · rfl
  · exact hn
  · exact hf

theorem still_updateStatus (cfg : NodeCfg) (io : SaveIo) (root : MerkleRoot) (id : UInt64) (epoch : Epoch) (proof : Proof) (resp : ExecResp)
    (txs : List SignedTx) {fail next : Prog} (hf : fail.Still) (hn : next.Still) : (Prog.updateStatus cfg io root id epoch proof resp txs fail next).Still := by
  refine still_write (fun _ => rfl) hf <| still_write (fun _ => rfl) hf <| still_write (fun _ => rfl) hf <| still_write (fun _ => rfl) hf <|
    still_write (fun _ => rfl) hf ⟨fun _ => rfl, fun _ => hn⟩

theorem exec_adds (cfg : NodeCfg) (root : MerkleRoot) (id : UInt64) (cb : Address) (txs : List SignedTx) (n : Node) :
    (n.exec cfg root id cb txs).2.tries = n.tries ∨ ∃ r w, (n.exec cfg root id cb txs).2.tries = PMap.set n.tries r w := by
  unfold Node.exec
  generalize hx : runBlock (cfg.env id n.status.cyclesPrice cb) n.tries root txs = x
  obtain ⟨a, db⟩ := x
  cases a with
  | none => left; unfold runBlock at hx; split at hx <;> [skip; split at hx] <;> simp_all
  | some a =>
    cases a with
    | error f =>
      left
      have : db = n.tries := by unfold runBlock at hx; split at hx <;> [skip; split at hx] <;> simp_all
      cases f <;> exact this
    | ok resp =>
      obtain ⟨w0, w', -, -, h⟩ := runBlock_db hx
      exact .inr ⟨_, w', h⟩

theorem adds_commit (cfg : NodeCfg) (io : CommitIo) (id : UInt64) (pill : Pill) (proof : OverlordProof) : Prog.Adds 5 (Prog.commit cfg io id pill proof) := by
  refine .lock ?_ (.still trivial)
  have he (r : Except CErr UInt64) : (Prog.endCommit r).Still := trivial
  split
  · exact .still (he _)
  refine .act (fun n => ?_) fun n => ?_
  · unfold Node.saveProof; split <;> rfl
  split
  · exact .still (he _)
  split
  · exact .still (he _)
  refine .act (fun _ => rfl) fun n => ?_
  split
  · exact .still (he _)
  refine .act (fun _ => rfl) fun _ => .act (fun _ => rfl) fun n0 => .add (fun n => exec_adds cfg _ _ _ _ n) fun n => ?_
  split
  · exact he _
  · exact still_updateStatus _ _ _ _ _ _ _ _ (he _) (he _)

/-- How many accesses each task makes before the one that executes an epoch (`none`: it makes none). -/
def marks (cfg : NodeCfg) (n : Node) (evs : List Event) : Conf × (Nat → Option Nat) :=
  evs.foldl (fun (c, m) e => (c.step cfg e, match e with
    | .callCommit t .. => if (c.tasks t).isNone then fun i => if i = t then some 5 else m i else m
    | .callSync .. => m
    | .callInsert t .. | .callPropose t .. | .callCheck t .. => if (c.tasks t).isNone then fun i => if i = t then none else m i else m
    | .run t => fun i => if i = t then match m t with | some (j + 1) => some j | _ => none else m i))
    ({ node := n, held := fun _ => none, tasks := fun _ => none }, fun _ => none)

/-- What the marks say. -/
def Marked (c : Conf) (m : Nat → Option Nat) : Prop := ∀ t p, c.tasks t = some p → match m t with
  | none => p.Still
  | some j => p.Adds j

theorem marks_snoc (cfg : NodeCfg) (n : Node) (evs : List Event) (e : Event) : marks cfg n (evs ++ [e]) =
    ((marks cfg n evs).1.step cfg e, match e with
    | .callCommit t .. => if ((marks cfg n evs).1.tasks t).isNone then fun i => if i = t then some 5 else (marks cfg n evs).2 i else (marks cfg n evs).2
    | .callSync .. => (marks cfg n evs).2
    | .callInsert t .. | .callPropose t .. | .callCheck t .. =>
      if ((marks cfg n evs).1.tasks t).isNone then fun i => if i = t then none else (marks cfg n evs).2 i else (marks cfg n evs).2
    | .run t => fun i => if i = t then match (marks cfg n evs).2 t with | some (j + 1) => some j | _ => none else (marks cfg n evs).2 i) := by
  unfold marks
  rw [List.foldl_append]
  rfl

theorem marks_fst (cfg : NodeCfg) (n : Node) (evs : List Event) : (marks cfg n evs).1 = Conf.after cfg n evs := by
  rw [← List.reverse_reverse evs]
  induction evs.reverse with
  | nil => rfl
  | cons e l ih => rw [List.reverse_cons, marks_snoc, after_snoc, ih]

theorem Marked.call {c : Conf} {m : Nat → Option Nat} (h : Marked c m) (t : Nat) (p : Prog) (a : Option Nat)
    (hp : match a with | none => p.Still | some j => p.Adds j) :
    Marked (c.start t p) (if (c.tasks t).isNone then fun i => if i = t then a else m i else m) := by
  unfold Conf.start
  split
  · intro i q hq
    simp only [Conf.setTask] at hq
    by_cases hi : i = t
    · subst hi
      simp only [if_true, Option.some.injEq] at hq ⊢
      subst hq
      exact hp
    · simp only [if_neg hi] at hq ⊢
      exact h i q hq
  · exact h

theorem Marked.run {c : Conf} {m : Nat → Option Nat} (h : Marked c m) {t : Nat} {p : Prog} (x : Option Prog) (hp : c.tasks t = some p)
    {c' : Conf} (hc : c'.tasks = (c.setTask t x).tasks)
    (hx : ∀ q, x = some q → (p.Still → q.Still) ∧ (∀ j, p.Adds (j + 1) → q.Adds j) ∧ (p.Adds 0 → q.Still)) :
    Marked c' (fun i => if i = t then match m t with | some (j + 1) => some j | _ => none else m i) := by
  intro i q hq
  rw [hc] at hq
  simp only [Conf.setTask] at hq
  by_cases hi : i = t
  · subst hi
    simp only [if_true] at hq ⊢
    have h1 := h i p hp
    cases hm : m i with
    | none => rw [hm] at h1; exact (hx q hq).1 h1
    | some j =>
      rw [hm] at h1
      cases j with
      | zero => exact (hx q hq).2.2 h1
      | succ j => exact (hx q hq).2.1 j h1
  · simp only [if_neg hi] at hq ⊢
    exact h i q hq

theorem marked (cfg : NodeCfg) (n : Node) (evs : List Event) (hs : ∀ t io msg, Event.callSync t io msg ∉ evs) :
    Marked (Conf.after cfg n evs) (marks cfg n evs).2 := by
  rw [← List.reverse_reverse evs] at hs ⊢
  generalize evs.reverse = l at hs ⊢
  induction l with
  | nil => intro t p h; cases h
  | cons e l ih =>
    rw [List.reverse_cons] at hs ⊢
    have ih := ih fun t io msg hm => hs t io msg (List.mem_append.2 (.inl hm))
    rw [marks_snoc, after_snoc, marks_fst]
    have he : ∀ t io msg, e ≠ Event.callSync t io msg := fun t io msg h => hs t io msg (by simp [h])
    clear hs
    generalize Conf.after cfg n l.reverse = c at ih ⊢
    generalize (marks cfg n l.reverse).2 = m at ih ⊢
    cases e with
    | callCommit t io id pill proof => exact ih.call t _ (some 5) (adds_commit cfg io id pill proof)
    | callSync t io msg => exact (he _ _ _ rfl).elim
    | callInsert t o b tx => exact ih.call t _ none (pooly_insert cfg o b tx).still
    | callPropose t now id => exact ih.call t _ none (pooly_propose cfg now id).still
    | callCheck t p1 p2 ha pill => exact ih.call t _ none (pooly_check p1 p2 ha pill).still
    | run t =>
      simp only [Conf.step]
      cases ht : c.tasks t with
      | none =>
        intro i q hq
        by_cases hi : i = t
        · subst hi; simp only [ht] at hq; cases hq
        · simp only [if_neg hi]; exact ih i q hq
      | some p =>
        cases p with
        | ret r => exact ih.run none ht rfl fun q hq => by cases hq
        | act f k =>
          refine ih.run (some (k c.node)) ht rfl fun q hq => ?_
          injection hq with hq
          subst hq
          refine ⟨fun h => h.2 _, fun j h => ?_, fun h => ?_⟩
          · cases h with
            | still h => exact .still (h.2 _)
            | act _ h => exact h _
          · cases h with
            | still h => exact h.2 _
            | add _ h => exact h _
        | lock l a b =>
          have key : ∀ q, q = a ∨ q = b → ((Prog.lock l a b).Still → q.Still) ∧ (∀ j, (Prog.lock l a b).Adds (j + 1) → q.Adds j) ∧
              ((Prog.lock l a b).Adds 0 → q.Still) := by
            intro q hq
            refine ⟨fun h => ?_, fun j h => ?_, fun h => ?_⟩
            · rcases hq with rfl | rfl
              · exact h.1
              · exact h.2
            · cases h with
              | still h => rcases hq with rfl | rfl <;> [exact .still h.1; exact .still h.2]
              | lock h1 h2 => rcases hq with rfl | rfl <;> assumption
            · cases h with
              | still h => rcases hq with rfl | rfl <;> [exact h.1; exact h.2]
          simp only
          split
          · exact ih.run (some a) ht rfl fun q hq => key q (.inl (Option.some.inj hq).symm)
          · exact ih.run (some b) ht rfl fun q hq => key q (.inr (Option.some.inj hq).symm)
        | unlock l k =>
          refine ih.run (some k) ht rfl fun q hq => ?_
          injection hq with hq
          subst hq
          refine ⟨fun h => h, fun j h => ?_, fun h => ?_⟩
          · cases h with
            | still h => exact .still h
          · cases h with
            | still h => exact h

/-- An event keeps the states, but for the access that executes an epoch, which may add one. -/
theorem step_tries {cfg : NodeCfg} {n : Node} {evs : List Event} (hs : ∀ t io msg, Event.callSync t io msg ∉ evs) (e : Event) :
    ((Conf.after cfg n evs).step cfg e).node.tries = (Conf.after cfg n evs).node.tries ∨
    (∃ t, e = .run t ∧ (marks cfg n evs).2 t = some 0) ∧ ∃ r w, ((Conf.after cfg n evs).step cfg e).node.tries = PMap.set (Conf.after cfg n evs).node.tries r w := by
  have hm := marked cfg n evs hs
  generalize Conf.after cfg n evs = c at hm ⊢
  generalize (marks cfg n evs).2 = m at hm ⊢
  cases e with
  | callCommit t io id pill proof => exact .inl (start_same c t _).tries.symm
  | callSync t io msg => exact .inl (start_same c t _).tries.symm
  | callInsert t o b tx => exact .inl (start_same c t _).tries.symm
  | callPropose t now id => exact .inl (start_same c t _).tries.symm
  | callCheck t p1 p2 ha pill => exact .inl (start_same c t _).tries.symm
  | run t =>
    simp only [Conf.step]
    cases ht : c.tasks t with
    | none => exact .inl rfl
    | some p =>
      have h1 := hm t p ht
      cases p with
      | ret r => exact .inl rfl
      | act f k =>
        show (f c.node).tries = c.node.tries ∨ _
        cases hj : m t with
        | none => rw [hj] at h1; exact .inl (h1.1 _)
        | some j =>
          rw [hj] at h1
          cases h1 with
          | still h => exact .inl (h.1 _)
          | act h _ => exact .inl (h _)
          | add h _ =>
            rcases h c.node with h | h
            · exact .inl h
            · exact .inr ⟨⟨t, rfl, hj⟩, h⟩
      | lock l a b => left; simp only; split <;> rfl
      | unlock l k => exact .inl rfl

/-- Every execution of an epoch adds the state of a root that was not known: `roots` are the roots that appear. -/
def keepCheck (cfg : NodeCfg) (n : Node) (roots : List MerkleRoot) (evs : List Event) : Bool :=
  (List.range evs.length).all fun i => match evs[i]? with
    | some (Event.run t) => !(decide ((marks cfg n (evs.take i)).2 t = some 0)) ||
        roots.any fun r => ((Conf.after cfg n (evs.take i)).node.tries r).isNone && ((Conf.after cfg n (evs.take (i + 1))).node.tries r).isSome
    | _ => true

/-- Then no state is replaced. -/
theorem keeps_of_check {cfg : NodeCfg} {n : Node} {roots : List MerkleRoot} {evs : List Event} (hs : ∀ t io msg, Event.callSync t io msg ∉ evs)
    (h : keepCheck cfg n roots evs = true) :
    ∀ pre mid post, evs = pre ++ mid ++ post → ∀ r w, (Conf.after cfg n pre).node.tries r = some w → (Conf.after cfg n (pre ++ mid)).node.tries r = some w := by
  have step : ∀ i, i < evs.length → ∀ r w, (Conf.after cfg n (evs.take i)).node.tries r = some w → (Conf.after cfg n (evs.take (i + 1))).node.tries r = some w := by
    intro i hi r w hr
    simp only [keepCheck, List.all_eq_true, List.mem_range] at h
    have h := h i hi
    have he : evs[i]? = some evs[i] := List.getElem?_eq_getElem hi
    generalize evs[i] = e at he
    rw [he] at h
    have ht : evs.take (i + 1) = evs.take i ++ [e] := by rw [List.take_add_one, he]; rfl
    rcases step_tries (cfg := cfg) (n := n) (evs := evs.take i) (fun t io msg hm => hs t io msg (List.mem_of_mem_take hm)) e with h1 | ⟨⟨t, rfl, h1⟩, r', w', h2⟩
    · rw [ht, after_snoc, h1]; exact hr
    · simp only [h1, decide_true, Bool.not_true, Bool.false_or, List.any_eq_true, Bool.and_eq_true, Option.isNone_iff_eq_none] at h
      obtain ⟨k, -, h3, h4⟩ := h
      rw [ht, after_snoc, h2] at h4 ⊢
      simp only [PMap.set] at h4 ⊢
      split
      · rename_i hk
        split at h4
        · rename_i hk'
          rw [hk, ← hk', h3] at hr
          cases hr
        · rw [h3] at h4; cases h4
      · exact hr
  have key : ∀ k i, i + k ≤ evs.length → ∀ r w, (Conf.after cfg n (evs.take i)).node.tries r = some w →
      (Conf.after cfg n (evs.take (i + k))).node.tries r = some w := by
    intro k
    induction k with
    | zero => exact fun i _ r w h => h
    | succ k ih => exact fun i hi r w hr => step (i + k) (by omega) r w (ih i (by omega) r w hr)
  intro pre mid post he r w hr
  have := key mid.length pre.length (by rw [he]; simp) r w
  rw [he, List.append_assoc, List.take_left' rfl, ← List.append_assoc, List.take_left' (by simp)] at this
  exact this hr

/-- A check at the moments when commits take the lock. -/
def lockCheck (cfg : NodeCfg) (n : Node) (good : UInt64 → Pill → Node → Bool) (evs : List Event) : Bool :=
  (List.range evs.length).all fun j => match evs[j]? with
    | some (Event.callCommit t _ id pill _) => (List.range evs.length).all fun i => match evs[i]? with
      | some (Event.run t') => !(decide (t' = t) && decide (j < i)) ||
          ((List.range i).any fun x => decide (j < x) && match evs[x]? with | some (Event.run t'') => decide (t'' = t) | _ => false) ||
          ((Conf.after cfg n (evs.take i)).held .engine).isSome || good id pill (Conf.after cfg n (evs.take i)).node
      | _ => true
    | _ => true

theorem lockCheck_good {cfg : NodeCfg} {n : Node} {good : UInt64 → Pill → Node → Bool} {evs : List Event} (h : lockCheck cfg n good evs = true)
    {pre post : List Event} {t : Nat} {io : CommitIo} {id : UInt64} {pill : Pill} {proof : OverlordProof} (he : evs = pre ++ .run t :: post)
    (ht : TakesLock cfg n pre t io id pill proof) : good id pill (Conf.after cfg n pre).node = true := by
  obtain ⟨⟨a, b, hw, -, hb, -⟩, hf⟩ := ht
  simp only [lockCheck, List.all_eq_true, List.mem_range] at h
  have hl : evs.length = a.length + 1 + b.length + 1 + post.length := by rw [he, hw]; simp; omega
  have hj : evs[a.length]? = some (Event.callCommit t io id pill proof) := by rw [he, hw]; simp
  have hi : evs[pre.length]? = some (Event.run t) := by rw [he]; simp
  have hp : pre.length = a.length + 1 + b.length := by rw [hw]; simp; omega
  have h1 := h a.length (by omega)
  rw [hj] at h1
  simp only [List.all_eq_true, List.mem_range] at h1
  have h2 := h1 pre.length (by omega)
  rw [hi] at h2
  have htake : evs.take pre.length = pre := by rw [he]; simp
  simp only [decide_true, Bool.true_and, htake, hf, Option.isSome_none, Bool.or_false, Bool.or_eq_true] at h2
  rcases h2 with (h2 | h2) | h2
  · have : a.length < pre.length := by omega
    simp [this] at h2
  · exfalso
    simp only [List.any_eq_true, List.mem_range, Bool.and_eq_true, decide_eq_true_eq] at h2
    obtain ⟨x, hx, hax, hm⟩ := h2
    have hx2 : evs[x]? = b[x - a.length - 1]? := by
      rw [he, hw]
      rw [List.getElem?_append_left (by simp; omega), List.getElem?_append_right (by omega)]
      have : x - a.length = (x - a.length - 1) + 1 := by omega
      rw [this]
      simp
    rw [hx2] at hm
    cases hg : b[x - a.length - 1]? with
    | none => rw [hg] at hm; cases hm
    | some y =>
      rw [hg] at hm
      cases y with
      | run t'' =>
        have : t'' = t := by simpa using hm
        subst this
        exact hb (List.mem_of_getElem? hg)
      | _ => cases hm
  · exact h2

namespace Demo

/-- After the restart the second payment arrives again, is proposed on the state the restarted node has, and its commit is cut off by a crash
after the last write, before the status is set. -/
def calm4 : List Event := insertEvents 9 other ++ .callPropose 2 7 2 :: runs 2 4
def calmPill4 : Pill := (pillOf ((Conf.after ncfg calmNode calm4).tasks 2)).getD noPill
def calm5 : List Event := calm4 ++ .callCommit 0 .ok 2 calmPill4 (oproof 2) :: runs 0 11
/-- The roots that appear. -/
def calmRoots : List MerkleRoot := (Conf.after ncfg n0 (calm2 ++ runs 0 10)).node.status.stateRoot ::
  (Conf.after ncfg calmNode (calm5 ++ runs 0 5)).node.status.stateRoot :: (Conf.after ncfg n0 calm2).node.log.map fun d => d.resp.stateRoot

end Demo

open Demo in
theorem calm_restart {ok : Node → List Event → Prop} (evs : List Event) (h1 : ok n0 calm2) (h2 : ok calmNode evs) :
    CHistory ncfg ngenesis ok (Conf.after ncfg calmNode evs).node ((Conf.after ncfg n0 calm2).node.log ++ []) := by
  obtain ⟨s, t, hi, hs⟩ := n0_start
  have hd : calmData.isSome = true := by decide +kernel
  have h0 : CHistory ncfg ngenesis ok (Conf.after ncfg n0 calm2).node [] := .init calm2 hi hs h1
  unfold calmNode at h2 ⊢
  unfold calmData at h2 hd ⊢
  cases hx : handleInit ncfg ngenesis (Conf.after ncfg n0 calm2).node.store (Conf.after ncfg n0 calm2).node.tries with
  | none => rw [hx] at hd; cases hd
  | some x =>
    rw [hx] at hd h2
    simp only [Option.bind_some] at hd h2 ⊢
    cases hy : startNode ncfg x.1 x.2 with
    | none => rw [hy] at hd; cases hd
    | some m =>
      rw [hy] at h2
      exact .restart evs h0 hx hy h2

namespace Demo

def goodRoot : UInt64 → Pill → Node → Bool := fun _ pill n => decide (pill.epoch.header.stateRoot = n.status.stateRoot)
def goodNext : UInt64 → Pill → Node → Bool := fun id pill n => decide (id ≠ 0) && decide (id = n.status.epochId) &&
  decide (pill.epoch.header.epochId = id) && decide (pill.epoch.header.preHash = n.status.prevHash)

/-- No synchronisation, no check of a proposal, the two payments only, and no epoch orders a transaction twice. -/
def plain (evs : List Event) : Bool := evs.all fun e => match e with
  | .callSync .. => false
  | .callCheck .. => false
  | .callCommit _ _ _ pill _ => decide pill.epoch.orderedTxHashes.Nodup
  | _ => true

theorem plain_decent {n : Node} {evs : List Event} (hp : plain evs = true) (hr : raceCheck ncfg n evs = true) (hg : lockCheck ncfg n goodRoot evs = true)
    {roots : List MerkleRoot} (hk : keepCheck ncfg n roots evs = true) : CDecent ncfg n evs := by
  simp only [plain, List.all_eq_true] at hp
  refine ⟨raceFree_of_check hr, fun e he => ?_, fun pre t post io id pill proof h1 h2 => ?_, fun t io id pill proof hm => ?_, keeps_of_check (fun t io msg hm => by have := hp _ hm; cases this) hk⟩
  · cases e with
    | callInsert t o b tx => exact fun h => h
    | callCheck t p1 p2 ha pill => have := hp _ he; cases this
    | callSync t io msg => have := hp _ he; cases this
    | _ => trivial
  · simpa [goodRoot] using lockCheck_good hg h1 h2
  · simpa using hp _ hm

theorem plain_continues {n : Node} {evs : List Event} (hp : plain evs = true) (hg : lockCheck ncfg n goodNext evs = true) : CContinues ncfg n evs := by
  simp only [plain, List.all_eq_true] at hp
  have hs (t : Nat) (io : SyncIo) (msg : Bytes) (hm : Event.callSync t io msg ∈ evs) : False := by have := hp _ hm; cases this
  refine ⟨fun ⟨t, io, msg, hm⟩ => (hs t io msg hm).elim, fun pre t post io id pill proof h1 h2 => ?_, fun t io msg hm => (hs t io msg hm).elim⟩
  simpa [goodNext, and_assoc] using lockCheck_good hg h1 h2

end Demo

open Demo in
/-- The hypotheses of `C102_partial`, `C35_concurrent_partial`, `C71_concurrent_walk`, `C36_concurrent_partial`, `C37_concurrent_partial`,
`C89_concurrent_partial` and `C99_concurrent_partial` are met by a lifetime with overlapping calls and two crashes in the middle of commits, the
second one after the last write of an epoch and before the status is set. -/
theorem calm_decent : CHistory ncfg ngenesis (fun n evs => CDecent ncfg n evs ∧ CContinues ncfg n evs) (Conf.after ncfg calmNode calm5).node
      ((Conf.after ncfg n0 calm2).node.log ++ []) ∧
    EmptyRoot ncfg (Conf.after ncfg calmNode calm5).node ∧
    ((Conf.after ncfg calmNode calm5).node.log ++ ((Conf.after ncfg n0 calm2).node.log ++ [])).map Done.txs = [[other], [late]] ∧
    (Conf.after ncfg calmNode calm5).held .engine = some 0 ∧
    (Conf.after ncfg calmNode calm5).node.status.epochId = 2 ∧ (Conf.after ncfg calmNode calm5).node.log.map Done.height = [2] := by
  have p2 : plain calm2 = true := by decide +kernel
  have p5 : plain calm5 = true := by decide +kernel
  refine ⟨calm_restart calm5 ⟨plain_decent p2 (by decide +kernel) (by decide +kernel) (roots := calmRoots) (by decide +kernel), plain_continues p2 (by decide +kernel)⟩
    ⟨plain_decent p5 (by decide +kernel) (by decide +kernel) (roots := calmRoots) (by decide +kernel), plain_continues p5 (by decide +kernel)⟩, ncfg_emptyRoot (by decide +kernel),
    by decide +kernel, by decide +kernel, by decide +kernel, by decide +kernel⟩

open Demo in
/-- So they are by each of the conditions. -/
example : CHistory ncfg ngenesis (CDecent ncfg) (Conf.after ncfg calmNode calm5).node ((Conf.after ncfg n0 calm2).node.log ++ []) ∧
    CHistory ncfg ngenesis (CContinues ncfg) (Conf.after ncfg calmNode calm5).node ((Conf.after ncfg n0 calm2).node.log ++ []) ∧
    CHistory ncfg ngenesis (SyncApart ncfg) (Conf.after ncfg calmNode calm5).node ((Conf.after ncfg n0 calm2).node.log ++ []) ∧
    CHistory ncfg ngenesis (fun _ evs => ∀ t io msg, Event.callSync t io msg ∉ evs) (Conf.after ncfg calmNode calm5).node
      ((Conf.after ncfg n0 calm2).node.log ++ []) :=
  ⟨calm_decent.1.mono fun _ _ h => h.1, calm_decent.1.mono fun _ _ h => h.2, calm_decent.1.mono fun _ _ h => h.2.orderly,
    calm_decent.1.mono fun _ _ h => h.1.raceFree.noSync⟩

end Huobi
