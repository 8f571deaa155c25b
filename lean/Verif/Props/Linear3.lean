import Verif.Props.Linear2
import Verif.Props.Agreement
/-
More of what C102 gives: agreement of two nodes, and balances, under every schedule of overlapping calls.
-/
namespace Huobi

/-- `linear`, with the status: while no call holds the engine lock, the sequential node also has the status of the process. -/
theorem linear_status {cfg : NodeCfg} {n : Node} (hb : n.Blank) (evs : List Event) (ha : SyncApart cfg n evs)
    (hk : ∀ pre post, evs = pre ++ post → (Conf.after cfg n pre).node.Keyed) :
    ∃ m, Runs cfg (Justified cfg n evs) n m ∧ m.SameData (Conf.after cfg n evs).node ∧
      ((Conf.after cfg n evs).held .engine = none → m.status = (Conf.after cfg n evs).node.status) := by
  obtain ⟨m, h⟩ := Mirror.after hb evs ha hk
  cases he : (Conf.after cfg n evs).held .engine with
  | none => exact ⟨m, h.runs, (h.free he).data, fun _ => (h.free he).status⟩
  | some t =>
    obtain ⟨q, pre, mid, h1, h2, h3, h4, h5⟩ := h.busy t he
    obtain ⟨m', r1, r2, r3⟩ := Mirror.finish h.runs h.blank h2 h3 h4 h5
    exact ⟨m', r1, r3.data, fun h => by cases h⟩

theorem FirstStart.cstart {cfg : NodeCfg} {g : Genesis} {n : Node} (h : FirstStart cfg g n) (ok : Node → List Event → Prop) : CStart cfg g ok n [] := by
  obtain ⟨s, t, h1, h2⟩ := h
  exact .init h1 h2

/-- The first process of a node, at any moment of a schedule. -/
theorem linear_first {cfg : NodeCfg} {g : Genesis} {n : Node} (h : FirstStart cfg g n) (evs : List Event) (ha : SyncApart cfg n evs) :
    ∃ m, Runs cfg (Justified cfg n evs) n m ∧ m.SameData (Conf.after cfg n evs).node ∧
      ((Conf.after cfg n evs).held .engine = none → m.status = (Conf.after cfg n evs).node.status) := by
  obtain ⟨hb, hc⟩ := (h.cstart (SyncApart cfg)).blank
  exact linear_status hb evs ha fun pre post _ => (hc.after (closed_true cfg) fun e _ => brings_true cfg e).keyed

/-- Nothing is synchronised, and no state is overwritten by another one. -/
structure CKeeps (cfg : NodeCfg) (n : Node) (evs : List Event) : Prop where
  noSync : ∀ t io msg, Event.callSync t io msg ∉ evs
  keeps : ∀ pre mid post, evs = pre ++ mid ++ post → ∀ r w, (Conf.after cfg n pre).node.tries r = some w →
    (Conf.after cfg n (pre ++ mid)).node.tries r = some w

theorem CKeeps.apart {cfg : NodeCfg} {n : Node} {evs : List Event} (h : CKeeps cfg n evs) : SyncApart cfg n evs :=
  fun ⟨t, io, msg, hm⟩ => absurd hm (h.noSync t io msg)

theorem CKeeps.sequential {cfg : NodeCfg} {n : Node} {evs : List Event} (h : CKeeps cfg n evs) {m : Node} {op : NodeOp} (hj : Justified cfg n evs m op) :
    op.NotSync ∧ KeepsRoots cfg m op := by
  cases op with
  | insertTx o b tx => exact hj.elim
  | propose now id => exact hj.elim
  | sync io' msg =>
    obtain ⟨pre, mid, rest, t, io, he, hk, -⟩ := hj
    exact absurd (by rw [he]; exact List.mem_append_left _ (List.mem_append_left _ hk)) (h.noSync t io msg)
  | commit io' id pill proof =>
    obtain ⟨pre, mid, rest, t, io, he, ht, hsame, hd⟩ := hj
    refine ⟨trivial, fun r w hr => ?_⟩
    rw [hd.tries]
    exact h.keeps pre (.run t :: mid) rest he r w (by rw [← hsame.tries]; exact hr)
  | check p1 p2 ha pill =>
    exact ⟨trivial, fun r w hr => by rw [(passive_step cfg m (.check p1 p2 ha pill) trivial).2.1]; exact hr⟩

/-- **C88, with overlapping calls (partial, as `C88_agreement_partial`: without synchronisation and restart, for transactions that their hash
identifies).**  Two nodes of one chain, started from the same genesis, each with its own schedule of overlapping calls: at whatever two moments
they have recorded the same epochs at the same heights, they have computed the same receipts and state roots for each of them and hold the same
latest epoch; and if no commit is running on either, they agree on everything their next proposals say about the chain and are at the same world. -/
theorem C88_concurrent_partial {a b : NodeCfg} (hc : OneChain a b) {g : Genesis} {n0 m0 : Node} (hn0 : FirstStart a g n0) (hm0 : FirstStart b g m0)
    {evs evs' : List Event} (hn : CKeeps a n0 evs) (hm : CKeeps b m0 evs')
    (hempty : EmptyRoot a (Conf.after a n0 evs).node) (hemptyb : EmptyRoot b (Conf.after b m0 evs').node)
    (hsame : (Conf.after a n0 evs).node.log.map (fun d => (d.height, d.epoch)) = (Conf.after b m0 evs').node.log.map (fun d => (d.height, d.epoch)))
    (hid : ∀ d ∈ (Conf.after a n0 evs).node.log, ∀ e ∈ (Conf.after b m0 evs').node.log, ∀ t ∈ d.txs, ∀ u ∈ e.txs,
      t.txHash = u.txHash → t.raw = u.raw ∧ t.pubkey = u.pubkey) :
    (Conf.after a n0 evs).node.log.map Done.resp = (Conf.after b m0 evs').node.log.map Done.resp ∧
    (Conf.after a n0 evs).node.store.latest = (Conf.after b m0 evs').node.store.latest ∧
    ((Conf.after a n0 evs).held .engine = none → (Conf.after b m0 evs').held .engine = none →
      (Conf.after a n0 evs).node.status.Agrees (Conf.after b m0 evs').node.status ∧
      ∃ w, Resolves a (Conf.after a n0 evs).node.tries (Conf.after a n0 evs).node.status.stateRoot w ∧
        Resolves b (Conf.after b m0 evs').node.tries (Conf.after b m0 evs').node.status.stateRoot w) := by
  obtain ⟨n, hrn, hdn, hsn⟩ := linear_first hn0 evs hn.apart
  obtain ⟨m, hrm, hdm, hsm⟩ := linear_first hm0 evs' hm.apart
  rw [← hdn.log, ← hdm.log] at hsame
  rw [← hdn.log, ← hdm.log] at hid
  obtain ⟨h1, h2, h3, w, h4, h5⟩ := C88_agreement_partial hc (by unfold EmptyRoot; rw [hdn.tries]; exact hempty) (by unfold EmptyRoot; rw [hdm.tries]; exact hemptyb)
    hn0 hm0 (hrn.imp fun _ _ hj => hn.sequential hj) (hrm.imp fun _ _ hj => hm.sequential hj) hsame hid
  rw [← hdn.log, ← hdm.log, ← hdn.store, ← hdm.store]
  refine ⟨h1, h3, fun f1 f2 => ?_⟩
  rw [← hsn f1, ← hsm f2, ← hdn.tries, ← hdm.tries]
  exact ⟨h2, w, h4, h5⟩

/-! ### C16: balances -/

/-- The counterpart of `Regular`: nothing is synchronised; a commit that takes the lock continues the chain the node has at that moment, with the
node's state root in the header; no state is overwritten and the height does not overflow. -/
structure CRegular (cfg : NodeCfg) (n : Node) (evs : List Event) : Prop where
  keeps : CKeeps cfg n evs
  continues : CContinues cfg n evs
  honest : ∀ pre t post io id pill proof, evs = pre ++ .run t :: post → TakesLock cfg n pre t io id pill proof →
    pill.epoch.header.stateRoot = (Conf.after cfg n pre).node.status.stateRoot
  room : ∀ t io id pill proof, Event.callCommit t io id pill proof ∈ evs → id + 1 ≠ 0

theorem CRegular.sequential {cfg : NodeCfg} {n : Node} {evs : List Event} (h : CRegular cfg n evs) {m : Node} {op : NodeOp} (hj : Justified cfg n evs m op) :
    Regular cfg m op := by
  refine ⟨h.continues.sequential hj, ?_, (h.keeps.sequential hj).2, ?_⟩
  · cases op with
    | commit io' id pill proof =>
      obtain ⟨pre, mid, rest, t, io, he, ht, hsame, -⟩ := hj
      show _ = m.status.stateRoot
      rw [hsame.status]
      exact h.honest pre t (mid ++ rest) io id pill proof (by rw [he]; simp) ht
    | sync io msg => exact (h.keeps.sequential hj).1.elim
    | _ => trivial
  · cases op with
    | commit io' id pill proof =>
      obtain ⟨pre, mid, rest, t, io, he, ⟨⟨x, y, hw, -⟩, -⟩, -⟩ := hj
      exact h.room t io id pill proof (by rw [he, hw]; simp)
    | _ => trivial

/-- **C16, with overlapping calls (partial, as `C16_partial`; what is missing is false, see `C16_refuted`).**  The first process of a node, at any
moment of any such schedule, also while a commit is running: the balance asked for at a recorded epoch is the one in the world in which the epochs
*before* it have been executed, from the world of the genesis on; it is the balance after the epoch if the epoch has no transactions.  A query
without an epoch id is a query at the latest epoch. -/
theorem C16_concurrent_partial {cfg : NodeCfg} {g : Genesis} {n0 : Node} (h0 : FirstStart cfg g n0) {evs : List Event} (h : CRegular cfg n0 evs)
    (hempty : EmptyRoot cfg (Conf.after cfg n0 evs).node) :
    ∃ w0, CreatesGenesis (cfg.env 0 cfg.cyclesPrice (.user cfg.selfAddress)) g w0 ∧ ∀ (a : Address) (id : AssetID),
    (∀ pre d post, (Conf.after cfg n0 evs).node.log.reverse = pre ++ d :: post → ∃ w w', Replays cfg w0 pre w ∧ Replays cfg w0 (pre ++ [d]) w' ∧
      (Conf.after cfg n0 evs).node.apiBalance cfg a id (some d.epoch.header.epochId) = balance w a id ∧
      (d.txs = [] → (Conf.after cfg n0 evs).node.apiBalance cfg a id (some d.epoch.header.epochId) = balance w' a id)) ∧
    (∀ d rest, (Conf.after cfg n0 evs).node.log = d :: rest →
      (Conf.after cfg n0 evs).node.apiBalance cfg a id none = (Conf.after cfg n0 evs).node.apiBalance cfg a id (some d.epoch.header.epochId)) := by
  obtain ⟨n, hr, hd, -⟩ := linear_first h0 evs h.keeps.apart
  have hr := hr.imp fun _ _ hj => h.sequential hj
  have he : EmptyRoot cfg n := by unfold EmptyRoot; rw [hd.tries]; exact hempty
  obtain ⟨w0, hg, -, hw0, -⟩ := C13_first_start (hr.emptyRoot (fun _ _ hok => hok.keeps) he) h0
  have start : n0.log = [] ∧ n0.status.cyclesPrice = cfg.cyclesPrice := by
    obtain ⟨s, t, -, h2⟩ := h0
    obtain ⟨e, -, -, -, h3, h4, -⟩ := startNode_some h2
    exact ⟨h4, by rw [h3]; rfl⟩
  have hq (q : Option UInt64) : (Conf.after cfg n0 evs).node.queryEpoch q = n.queryEpoch q := by unfold Node.queryEpoch; rw [hd.store]
  have hb (a : Address) (id : AssetID) (q : Option UInt64) : (Conf.after cfg n0 evs).node.apiBalance cfg a id q = n.apiBalance cfg a id q := by
    unfold Node.apiBalance Node.queryBalance; rw [hq, hd.tries]
  refine ⟨w0, hg, fun a id => ?_⟩
  simp only [hb]
  rw [← hd.log]
  exact C16_partial he start.1 start.2 (h0.lives _).chained hw0 hr a id

/-! ### The hypotheses are met -/

namespace Demo

theorem plain_keeps {cfg : NodeCfg} {n : Node} {evs : List Event} (hp : plain evs = true) {roots : List MerkleRoot} (hk : keepCheck cfg n roots evs = true) :
    CKeeps cfg n evs := by
  have hs (t : Nat) (io : SyncIo) (msg : Bytes) (hm : Event.callSync t io msg ∈ evs) : False := by
    simp only [plain, List.all_eq_true] at hp
    have := hp _ hm; cases this
  exact ⟨hs, keeps_of_check hs hk⟩

theorem plain_regular {n : Node} {evs : List Event} (hp : plain evs = true) (hg : lockCheck ncfg n goodNext evs = true) (hr : lockCheck ncfg n goodRoot evs = true)
    {roots : List MerkleRoot} (hk : keepCheck ncfg n roots evs = true)
    (hroom : (evs.all fun e => match e with | .callCommit _ _ id _ _ => decide (id + 1 ≠ 0) | _ => true) = true) :
    CRegular ncfg n evs := by
  refine ⟨plain_keeps hp hk, plain_continues hp hg, fun pre t post io id pill proof h1 h2 => ?_, fun t io id pill proof hm => ?_⟩
  · simpa [goodRoot] using lockCheck_good hr h1 h2
  · simpa using List.all_eq_true.1 hroom _ hm

/-- The other node has the payment with another signature; the other payment arrives while the epoch is committed. -/
def agree1 : List Event := insertEvents 9 resigned ++ .callCommit 0 .ok 1 racePill1 (oproof 1) :: runs 0 6 ++ insertEvents 8 other ++ runs 0 8

end Demo

open Demo in
/-- The hypotheses of `C88_concurrent_partial` are met by a node that proposed the epoch and got another payment and another call to propose while it
committed it, and a node that had the payment with another signature; no commit is running at the end on either. -/
example : OneChain ncfg bcfg ∧ FirstStart ncfg ngenesis n0 ∧ FirstStart bcfg ngenesis n0 ∧ CKeeps ncfg n0 calm1 ∧ CKeeps bcfg n0 agree1 ∧
    EmptyRoot ncfg (Conf.after ncfg n0 calm1).node ∧ EmptyRoot bcfg (Conf.after bcfg n0 agree1).node ∧
    (Conf.after ncfg n0 calm1).node.log.map (fun d => (d.height, d.epoch)) = (Conf.after bcfg n0 agree1).node.log.map (fun d => (d.height, d.epoch)) ∧
    (Conf.after ncfg n0 calm1).node.log.map Done.txs = [[late]] ∧ (Conf.after bcfg n0 agree1).node.log.map Done.txs = [[resigned]] ∧
    (Conf.after ncfg n0 calm1).held .engine = none ∧ (Conf.after bcfg n0 agree1).held .engine = none :=
  ⟨⟨rfl, rfl, rfl, rfl, rfl, rfl⟩, n0_start, n0_first_other, plain_keeps (by decide +kernel) (roots := calmRoots) (by decide +kernel),
    plain_keeps (by decide +kernel) (roots := calmRoots) (by decide +kernel), ncfg_emptyRoot (by decide +kernel), ncfg_emptyRoot (by decide +kernel), by decide +kernel, by decide +kernel,
    by decide +kernel, by decide +kernel, by decide +kernel⟩

open Demo in
/-- The hypotheses of `C16_concurrent_partial` are met by the first process of the lifetime above, which dies while it commits its second epoch. -/
example : FirstStart ncfg ngenesis n0 ∧ CRegular ncfg n0 calm2 ∧ EmptyRoot ncfg (Conf.after ncfg n0 calm2).node ∧
    (Conf.after ncfg n0 calm2).node.log.map Done.txs = [[late]] ∧ (Conf.after ncfg n0 calm2).held .engine = some 0 :=
  ⟨n0_start, plain_regular (by decide +kernel) (by decide +kernel) (by decide +kernel) (roots := calmRoots) (by decide +kernel) (by decide +kernel),
    ncfg_emptyRoot (by decide +kernel), by decide +kernel, by decide +kernel⟩

end Huobi
