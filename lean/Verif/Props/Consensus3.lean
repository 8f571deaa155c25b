import Verif.Props.Consensus2
import Verif.Props.Messages
/-
C16: balance queries; C38: synchronisation.
-/
namespace Huobi

/-! ### C16 -/

namespace Demo

/-- The node before the commit of its first epoch. -/
def n1pre : Node := (n0.step ncfg (.insertTx true true (npay 1 2 10))).step ncfg (.propose 7 n0.status.epochId)

def n1pill : Pill := proposal (n0.step ncfg (.insertTx true true (npay 1 2 10)))

theorem n1_commit : n1 = (n1pre.commit ncfg .ok n0.status.epochId n1pill (oproof n0.status.epochId)).2 := rfl

theorem n1pre_same : n1pre.tries = n0.tries ∧ n1pre.status = n0.status ∧ n1pre.log = n0.log := by
  obtain ⟨-, a, b, c⟩ := passive_step ncfg (n0.step ncfg (.insertTx true true (npay 1 2 10))) (.propose 7 n0.status.epochId) trivial
  obtain ⟨-, a', b', c'⟩ := passive_step ncfg n0 (.insertTx true true (npay 1 2 10)) trivial
  exact ⟨a.trans a', b.trans b', c.trans c'⟩

end Demo

open Demo in
/-- **C16 is false of the code as it stands.**  After the first epoch, in which user 1 pays 10 to user 2, the balances asked for at
epoch 1 (and at the latest epoch) are those before the payment. -/
theorem C16_refuted : ∃ (cfg : NodeCfg) (g : Genesis) (n : Node) (w w' : World) (d : Done) (a : Address) (id : AssetID),
    Lives cfg g (fun _ _ => True) n ∧ n.log = [d] ∧ d.epoch.header.epochId = 1 ∧
    Executes (cfg.env d.height cfg.cyclesPrice (.user d.epoch.header.proposer)) w d.txs d.resp w' ∧
    n.tries d.root = some w ∧ n.tries d.resp.stateRoot = some w' ∧
    balance w a id = 100 ∧ balance w' a id = 90 ∧ n.apiBalance cfg a id (some 1) = 100 ∧ n.apiBalance cfg a id none = 100 := by
  have hlen : n1.log.length = 1 := by decide +kernel
  have hid : n1.log[0]?.map (fun d => (d.epoch.header.epochId, d.root)) = some (1, n0.status.stateRoot) := by decide +kernel
  have h0 : (n0.tries n0.status.stateRoot).map (fun w => balance w (naddr 1) token) = some 100 ∧ n0.status.stateRoot ≠ ncfg.emptyHash ∧
    n1.status.stateRoot ≠ n0.status.stateRoot := by decide +kernel
  have h1 : (n1.tries n1.status.stateRoot).map (fun w => balance w (naddr 1) token) = some 90 := by decide +kernel
  have hq : n1.apiBalance ncfg (naddr 1) token (some 1) = 100 ∧ n1.apiBalance ncfg (naddr 1) token none = 100 := by decide +kernel
  have hnil : n0.log = [] := by decide +kernel
  obtain ⟨e1, e2, e3⟩ := n1pre_same
  have heff := commit_effect ncfg .ok n0.status.epochId n1pill (oproof n0.status.epochId) n1pre
  rw [← n1_commit] at heff
  have hp : n1pre.status.cyclesPrice = ncfg.cyclesPrice := by rw [e2]; exact (n0_lives (fun _ _ => True)).coherent.price
  have hl1 : Lives ncfg ngenesis (fun _ _ => True) n1 := blockOps_lives (n0_lives _) _ (fun _ _ => trivial)
  generalize n1 = n at *
  generalize n0 = m at *
  generalize n1pre = p at *
  generalize ncfg = cfg at *
  cases heff with
  | quiet _ _ _ h4 => rw [h4, e3, hnil] at hlen; cases hlen
  | proof _ _ _ _ h4 => rw [h4, e3, hnil] at hlen; cases hlen
  | failed _ _ _ _ _ _ _ h4 => rw [h4, e3, hnil] at hlen; cases hlen
  | done d hd hr hs hst hlog =>
    rw [e3, hnil] at hlog
    rw [hlog] at hid
    simp only [List.getElem?_cons_zero, Option.map_some, Option.some.injEq, Prod.mk.injEq] at hid
    obtain ⟨w, hw, hwb⟩ := Option.map_eq_some_iff.1 h0.1
    obtain ⟨w2, hw2, hwb2⟩ := Option.map_eq_some_iff.1 h1
    have hroot : n.status.stateRoot = d.resp.stateRoot := by rw [hst]; rfl
    obtain ⟨w', hex, hrt, hdb⟩ := ran_spec hr (w := w) (by rw [hid.2, e1]; unfold Resolves; rw [if_neg h0.2.1]; exact hw) hp
    have hw' : n.tries d.resp.stateRoot = some w' := by rw [hdb, hrt]; simp [PMap.set]
    have : w2 = w' := by rw [hroot, hw'] at hw2; exact (Option.some.inj hw2).symm
    subst this
    refine ⟨cfg, ngenesis, n, w, w2, d, naddr 1, token, hl1, hlog, hid.1, hex, ?_, hw', hwb, hwb2, hq.1, hq.2⟩
    rw [hdb, hid.2, e1]
    have : m.status.stateRoot ≠ cfg.rootOf w2 := by rw [← hrt, ← hroot]; exact fun h => h0.2.2 h.symm
    simp [PMap.set, this, hw]

theorem getBalance_open (w : World) (a : Address) (id : AssetID) : ((getBalance id a (St.open w)).toOption).getD 0 = balance w a id := by
  have hv : (St.open w).view.accounts a = w.accounts a := rfl
  unfold getBalance balance
  rw [getAccount_view, hv]
  cases w.accounts a with
  | none => rfl
  | some acc =>
    cases acc with
    | user u => simp only [accountBalance, Except.toOption, Option.getD]; cases u.assets.get id <;> rfl
    | contract c => simp only [accountBalance, Except.toOption, Option.getD]; cases c.assets.get id <;> rfl

theorem apiBalance_resolves {cfg : NodeCfg} {n : Node} {w : World} {e : Epoch} {q : Option UInt64} (hq : n.queryEpoch q = some e)
    (hw : Resolves cfg n.tries e.header.stateRoot w) (a : Address) (id : AssetID) : n.apiBalance cfg a id q = balance w a id := by
  unfold Node.apiBalance Node.queryBalance
  rw [hq]
  simp only
  rw [resolves_fromRoot hw]
  exact getBalance_open w a id

/-- Calls of a process without synchronisation in which every committed epoch continues the chain and has the node's state root in
its header, no root is overwritten and the height does not overflow. -/
structure Regular (cfg : NodeCfg) (n : Node) (op : NodeOp) : Prop where
  continues : Continues cfg n op
  honest : HonestRoot n op
  keeps : KeepsRoots cfg n op
  room : match op with | .commit _ id _ _ => id + 1 ≠ 0 | _ => True

theorem Replays.det {cfg : NodeCfg} {w : World} {ds : List Done} {w1 w2 : World} (h1 : Replays cfg w ds w1) (h2 : Replays cfg w ds w2) : w1 = w2 := by
  induction h1 with
  | nil w => cases h2; rfl
  | cons a _ ih => cases h2 with | cons b h => have := a.2.symm.trans b.2; subst this; exact ih h

theorem Replays.split {cfg : NodeCfg} {pre : List Done} : ∀ {w : World} {d : Done} {post : List Done} {w' : World},
    Replays cfg w (pre ++ d :: post) w' → ∃ w1 w2, Replays cfg w pre w1 ∧
      Executes (cfg.env d.height cfg.cyclesPrice (.user d.epoch.header.proposer)) w1 d.txs d.resp w2 ∧ Replays cfg w2 post w' := by
  induction pre with
  | nil => intro w d post w' h; cases h with | cons a h => exact ⟨w, _, .nil _, a, h⟩
  | cons x pre ih =>
    intro w d post w' h
    cases h with
    | cons a h => obtain ⟨w1, w2, h1, h2, h3⟩ := ih h; exact ⟨w1, w2, .cons a h1, h2, h3⟩

/-- What holds of a recorded epoch for good. -/
structure Recorded (cfg : NodeCfg) (w0 : World) (n : Node) (pre : List Done) (d : Done) : Prop where
  before : ∃ w, Replays cfg w0 pre w ∧ Resolves cfg n.tries d.epoch.header.stateRoot w
  stored : n.store.epochs d.epoch.header.epochId = some d.epoch
  low : d.epoch.header.epochId < n.status.epochId

structure QInv (cfg : NodeCfg) (w0 : World) (n : Node) : Prop where
  price : n.status.cyclesPrice = cfg.cyclesPrice
  chained : n.Chained cfg
  cur : ∃ w, Replays cfg w0 n.log.reverse w ∧ Resolves cfg n.tries n.status.stateRoot w
  recorded : ∀ pre d post, n.log.reverse = pre ++ d :: post → Recorded cfg w0 n pre d
  last : ∀ d rest, n.log = d :: rest → n.store.latest = some d.epoch

theorem qinv_step {cfg : NodeCfg} {w0 : World} {n : Node} (ih : QInv cfg w0 n) {op : NodeOp} (hempty : EmptyRoot cfg (n.step cfg op)) (hok : Regular cfg n op) :
    QInv cfg w0 (n.step cfg op) := by
  have passive : ∀ op, op.Passive → QInv cfg w0 (n.step cfg op) := by
    intro op hp
    obtain ⟨a, b, c, d⟩ := passive_step cfg n op hp
    refine ⟨by rw [c]; exact ih.price, ih.chained.effect (passive_effect cfg (fun _ => False) n op hp) (fun _ _ h => h.elim), ?_, ?_, ?_⟩
    · rw [b, c, d]; exact ih.cur
    · intro pre x post hx
      rw [d] at hx
      obtain ⟨r1, r2, r3⟩ := ih.recorded pre x post hx
      exact ⟨by rw [b]; exact r1, by rw [a]; exact r2, by rw [c]; exact r3⟩
    · rw [a, d]; exact ih.last
  cases op with
  | sync io msg => exact hok.honest.elim
  | insertTx o b tx => exact passive _ trivial
  | propose now id => exact passive _ trivial
  | check p1 p2 ha pill => exact passive _ trivial
  | commit io id pill proof =>
    obtain ⟨w, hrep, hres⟩ := ih.cur
    have hkeep : ∀ r w, n.tries r = some w → (n.commit cfg io id pill proof).2.tries r = some w := hok.keeps
    obtain ⟨hid0, hid, hhid, hpre⟩ : id ≠ 0 ∧ id = n.status.epochId ∧ pill.epoch.header.epochId = id ∧
      pill.epoch.header.preHash = n.status.prevHash := hok.continues
    have hhon : pill.epoch.header.stateRoot = n.status.stateRoot := hok.honest
    have hch : (n.commit cfg io id pill proof).2.Chained cfg := by
      refine ih.chained.effect (commit_effect cfg io id pill proof n) fun d last hd hl => ?_
      obtain ⟨hn1, hn2⟩ := ih.chained.next last hl
      rw [hd.epoch, hd.height]
      exact ⟨by rw [← hn1, ← hid]; exact hid0, hhid.symm, by rw [hhid, hid, hn1], by rw [hpre, hn2]⟩
    show QInv cfg w0 (n.commit cfg io id pill proof).2
    have keepRec : ∀ (n' : Node), n'.status = n.status → n'.log = n.log → n'.store.latest = n.store.latest →
        (∀ i, i ≠ n.status.epochId → n'.store.epochs i = n.store.epochs i) →
        (∀ r w, n.tries r = some w → n'.tries r = some w) → n'.Chained cfg → QInv cfg w0 n' := by
      intro n' h1 h2 h3 h4 h5 h6
      refine ⟨by rw [h1]; exact ih.price, h6, ⟨w, by rw [h2]; exact hrep, by rw [h1]; exact resolves_keep hres h5⟩, ?_, by rw [h2, h3]; exact ih.last⟩
      intro pre x post hx
      rw [h2] at hx
      obtain ⟨⟨wd, r1, r1'⟩, r2, r3⟩ := ih.recorded pre x post hx
      exact ⟨⟨wd, r1, resolves_keep r1' h5⟩, by rw [h4 _ (UInt64.ne_of_lt r3)]; exact r2, by rw [h1]; exact r3⟩
    have heff := commit_effect cfg io id pill proof n
    have hempty : EmptyRoot cfg (n.commit cfg io id pill proof).2 := hempty
    generalize (n.commit cfg io id pill proof).2 = n' at *
    cases heff with
    | quiet h1 h2 h3 h4 => exact keepRec n' h3 h4 (by rw [h1]) (fun _ _ => by rw [h1]) hkeep hch
    | proof p h1 h2 h3 h4 => exact keepRec n' h3 h4 (by rw [h1]; rfl) (fun _ _ => by rw [h1]; rfl) hkeep hch
    | failed d j hd hr hj h1 h3 h4 =>
      refine keepRec n' h3 h4 (by rw [h1, latest_take cfg d _ j hj]) (fun i hi => ?_) hkeep hch
      rw [h1]
      rcases epochs_take cfg d n.store j i with h | ⟨h, -⟩
      · exact h
      · exact absurd (by rw [h, hd.epoch, hhid, hid]) hi
    | done d hd hr h1 h3 h4 =>
      obtain ⟨w', hex, hroot, hdb⟩ := ran_spec hr (by rw [hd.root]; exact hres) ih.price
      have hlt : n.status.epochId < n'.status.epochId := by
        obtain ⟨l, hl, -⟩ := ih.chained.linked
        obtain ⟨hn1, -⟩ := hch.next d.epoch (by rw [h1]; rfl)
        rw [hn1, hd.epoch, hhid, ← hid]
        exact u64_lt_succ hok.room
      refine ⟨by rw [h3]; exact ih.price, hch, ⟨w', by rw [h4, List.reverse_cons]; exact hrep.snoc hex, ?_⟩, ?_, ?_⟩
      · rw [h3, hdb]
        show Resolves cfg _ d.resp.stateRoot w'
        rw [hroot]; exact resolves_put (hempty.of_put hdb) _
      · intro pre x post hx
        rw [h4, List.reverse_cons] at hx
        rcases List.eq_nil_or_concat post with rfl | ⟨post', y, rfl⟩
        · obtain ⟨hx1, hx2⟩ := List.append_inj' hx rfl
          cases hx2
          subst hx1
          refine ⟨⟨w, hrep, ?_⟩, by rw [h1, epochs_all, if_pos rfl], by rw [hd.epoch, hhid, hid]; exact hlt⟩
          rw [hd.epoch, hhon]; exact resolves_keep hres hkeep
        · rw [List.concat_eq_append, ← List.cons_append, ← List.append_assoc] at hx
          obtain ⟨hx1, -⟩ := List.append_inj' hx rfl
          obtain ⟨⟨wd, r1, r1'⟩, r2, r3⟩ := ih.recorded pre x post' hx1
          refine ⟨⟨wd, r1, resolves_keep r1' hkeep⟩, ?_, UInt64.lt_trans r3 hlt⟩
          rw [h1, epochs_all, if_neg (by rw [hd.epoch, hhid, hid]; exact UInt64.ne_of_lt r3)]; exact r2
      · intro d' rest hd'
        rw [h4] at hd'; cases hd'
        rw [h1]; rfl

/-- **C16 (partial).**  In every process without synchronisation, started on the root of world `w0`, in which committed epochs
continue the chain with the node's own root in the header: the balance asked for at a recorded epoch is the one in the world in which
the epochs *before* it have been executed, not the epoch itself, whatever was committed after it.  This is the balance after the epoch
if the epoch has no transactions.  A query without an epoch id is a query at the latest epoch.  What is missing for C16 is false, see
`C16_refuted`. -/
theorem C16_partial {cfg : NodeCfg} {n0 n : Node} (hempty : EmptyRoot cfg n) {w0 : World} (hlog : n0.log = [])
    (hprice : n0.status.cyclesPrice = cfg.cyclesPrice) (hch : n0.Chained cfg) (h0 : Resolves cfg n0.tries n0.status.stateRoot w0)
    (h : Runs cfg (Regular cfg) n0 n) (a : Address) (id : AssetID) :
    (∀ pre d post, n.log.reverse = pre ++ d :: post → ∃ w w', Replays cfg w0 pre w ∧ Replays cfg w0 (pre ++ [d]) w' ∧
      n.apiBalance cfg a id (some d.epoch.header.epochId) = balance w a id ∧
      (d.txs = [] → n.apiBalance cfg a id (some d.epoch.header.epochId) = balance w' a id)) ∧
    (∀ d rest, n.log = d :: rest → n.apiBalance cfg a id none = n.apiBalance cfg a id (some d.epoch.header.epochId)) := by
  have inv : QInv cfg w0 n := by
    induction h with
    | refl => exact ⟨hprice, hch, ⟨w0, by rw [hlog]; exact .nil _, h0⟩, by intro pre d post hx; rw [hlog] at hx; simp at hx,
        by rw [hlog]; intro _ _ h; cases h⟩
    | step op _ hok ih => exact qinv_step (ih (hempty.back hok.keeps)) hempty hok
  constructor
  · intro pre d post hx
    obtain ⟨⟨w, hw, hres⟩, hst, -⟩ := inv.recorded pre d post hx
    have hst : n.queryEpoch (some d.epoch.header.epochId) = some d.epoch := hst
    obtain ⟨wl, hl, -⟩ := inv.cur
    rw [hx] at hl
    obtain ⟨w1, w2, hw1, hex, -⟩ := hl.split
    have : w1 = w := hw1.det hw
    subst this
    refine ⟨w1, w2, hw1, hw1.snoc hex, apiBalance_resolves hst hres a id, fun ht => ?_⟩
    rw [apiBalance_resolves hst hres a id]
    rw [ht] at hex
    rw [(executes_nil hex).1]
  · intro d rest hd
    unfold Node.apiBalance Node.queryBalance
    have h1 : n.queryEpoch none = some d.epoch := inv.last d rest hd
    have h2 : n.queryEpoch (some d.epoch.header.epochId) = some d.epoch := by
      obtain ⟨-, hst, -⟩ := inv.recorded rest.reverse d [] (by rw [hd]; simp)
      exact hst
    rw [h1, h2]

theorem keeps_commit {cfg : NodeCfg} {io : CommitIo} {id : UInt64} {pill : Pill} {proof : OverlordProof} {n : Node} {w : World}
    (hp : n.status.cyclesPrice = cfg.cyclesPrice) (hw : Resolves cfg n.tries n.status.stateRoot w)
    (hlen : (n.commit cfg io id pill proof).2.log.length ≠ n.log.length)
    (hf : n.tries (n.commit cfg io id pill proof).2.status.stateRoot = none) : KeepsRoots cfg n (.commit io id pill proof) := by
  intro r w1 h
  show (n.commit cfg io id pill proof).2.tries r = some w1
  have heff := commit_effect cfg io id pill proof n
  generalize (n.commit cfg io id pill proof).2 = n' at *
  cases heff with
  | quiet _ _ _ h4 => rw [h4] at hlen; exact absurd rfl hlen
  | proof _ _ _ _ h4 => rw [h4] at hlen; exact absurd rfl hlen
  | failed _ _ _ _ _ _ _ h4 => rw [h4] at hlen; exact absurd rfl hlen
  | done d hd hr _ h3 _ =>
    obtain ⟨w', -, hroot, hdb⟩ := ran_spec hr (by rw [hd.root]; exact hw) hp
    rw [hdb]
    have : r ≠ cfg.rootOf w' := by
      rintro rfl
      rw [h3] at hf
      have hf : n.tries d.resp.stateRoot = none := hf
      rw [hroot, h] at hf; cases hf
    simp [PMap.set, this, h]

namespace Demo

/-- The node after `txs` were inserted. -/
def inserted (n : Node) (txs : List SignedTx) : Node := n.run ncfg (txs.map (fun t => NodeOp.insertTx true true t))

/-- The node after `txs` were inserted and an epoch proposed. -/
def preBlock (n : Node) (txs : List SignedTx) : Node := (inserted n txs).step ncfg (.propose 7 n.status.epochId)

theorem block_eq (n : Node) (txs : List SignedTx) : block n txs =
    (preBlock n txs).step ncfg (.commit .ok n.status.epochId (proposal (inserted n txs)) (oproof n.status.epochId)) := by
  unfold block blockOps Node.run preBlock
  rw [List.foldl_append]
  rfl

theorem passive_regular (k : Node) (op : NodeOp) (hpass : op.Passive) : Regular ncfg k op := by
  refine ⟨?_, ?_, ?_, ?_⟩
  · cases op <;> first | exact hpass.elim | trivial
  · cases op <;> first | exact hpass.elim | trivial
  · intro r w hw; rw [(passive_step ncfg k op hpass).2.1]; exact hw
  · cases op <;> first | exact hpass.elim | trivial

theorem inserted_runs (txs : List SignedTx) : ∀ {m n : Node}, Runs ncfg (Regular ncfg) m n → Runs ncfg (Regular ncfg) m (inserted n txs) ∧
    (inserted n txs).tries = n.tries ∧ (inserted n txs).status = n.status ∧ (inserted n txs).log = n.log := by
  induction txs with
  | nil => intro m n h; exact ⟨h, rfl, rfl, rfl⟩
  | cons t txs ih =>
    intro m n h
    obtain ⟨a1, a2, a3, a4⟩ := passive_step ncfg n (.insertTx true true t) trivial
    obtain ⟨h1, h2, h3, h4⟩ := ih (n := n.step ncfg (.insertTx true true t)) (.step _ h (passive_regular _ _ trivial))
    exact ⟨h1, h2.trans a2, h3.trans a3, h4.trans a4⟩

/-- What is needed of a concrete node to see that an epoch of the examples is regular; decidable. -/
def BlockOk (n : Node) (txs : List SignedTx) : Prop :=
  (n.status.stateRoot ≠ ncfg.emptyHash ∧ (n.tries n.status.stateRoot).isSome = true) ∧
  ((block n txs).log.length = n.log.length + 1) ∧
  (((block n txs).status.stateRoot = n.status.stateRoot ∧ (proposal (inserted n txs)).epoch.orderedTxHashes = []) ∨ (n.tries (block n txs).status.stateRoot).isNone = true) ∧
  n.status.epochId ≠ 0 ∧ n.status.epochId + 1 ≠ 0 ∧
  (proposal (inserted n txs)).epoch.header.epochId = n.status.epochId ∧
  (proposal (inserted n txs)).epoch.header.preHash = n.status.prevHash ∧
  (proposal (inserted n txs)).epoch.header.stateRoot = n.status.stateRoot

instance (n : Node) (txs : List SignedTx) : Decidable (BlockOk n txs) := by unfold BlockOk; infer_instance

/-- An epoch of the examples is a regular process. -/
theorem block_runs {m n : Node} {txs : List SignedTx} (h : Runs ncfg (Regular ncfg) m n) (hp : n.status.cyclesPrice = ncfg.cyclesPrice)
    (hok : BlockOk n txs) : Runs ncfg (Regular ncfg) m (block n txs) ∧ (block n txs).status.cyclesPrice = ncfg.cyclesPrice ∧
      ∃ d, (block n txs).log = d :: n.log := by
  obtain ⟨hr, hlen, hf, hc⟩ := hok
  obtain ⟨a1, a2, a3, a4⟩ := inserted_runs txs h
  obtain ⟨b1, b2, b3, b4⟩ := passive_step ncfg (inserted n txs) (.propose 7 n.status.epochId) trivial
  have e2 : (preBlock n txs).tries = n.tries := b2.trans a2
  have e3 : (preBlock n txs).status = n.status := b3.trans a3
  have e4 : (preBlock n txs).log = n.log := b4.trans a4
  obtain ⟨w, hw⟩ := Option.isSome_iff_exists.1 hr.2
  rw [block_eq] at hf hlen ⊢
  have heff := commit_effect ncfg .ok n.status.epochId (proposal (inserted n txs)) (oproof n.status.epochId) (preBlock n txs)
  have hruns : Runs ncfg (Regular ncfg) m (preBlock n txs) := .step _ a1 (passive_regular _ _ trivial)
  have hkeep : KeepsRoots ncfg (preBlock n txs) (.commit .ok n.status.epochId (proposal (inserted n txs)) (oproof n.status.epochId)) := by
    rcases hf with ⟨hsame, hnil⟩ | hf
    · -- nothing is executed: the world is written again under its own root
      intro r w1 hw1
      simp only [Node.step] at hsame ⊢
      cases heff with
      | quiet _ h2 _ _ => rw [h2]; exact hw1
      | proof _ _ h2 _ _ => rw [h2]; exact hw1
      | failed _ _ _ _ _ _ _ h4 =>
        simp only [Node.step] at hlen
        rw [h4, e4] at hlen; omega
      | done d hd hr' _ h3 _ =>
        obtain ⟨w', hex, hroot, hdb⟩ := ran_spec hr' (w := w) (by rw [hd.root, e2, e3]; unfold Resolves; rw [if_neg hr.1]; exact hw) (by rw [e3]; exact hp)
        have htx : d.txs = [] := by
          have := hd.txs
          rw [hnil] at this
          injection this with this
          exact this.symm
        rw [htx] at hex
        obtain ⟨rfl, -⟩ := executes_nil hex
        rw [h3] at hsame
        have hsame : d.resp.stateRoot = n.status.stateRoot := hsame
        rw [hdb]
        by_cases hrr : r = ncfg.rootOf w'
        · rw [e2, hrr, ← hroot, hsame, hw] at hw1
          cases hw1
          simp [PMap.set, hrr]
        · simp [PMap.set, hrr, hw1]
    · refine keeps_commit (w := w) (by rw [e3]; exact hp) (by rw [e2, e3]; unfold Resolves; rw [if_neg hr.1]; exact hw) ?_ ?_
      · rw [e4]
        intro hc'
        exact absurd (hc'.symm.trans hlen) (by omega)
      · rw [e2]; exact Option.isNone_iff_eq_none.1 hf
  refine ⟨.step _ hruns ⟨?_, ?_, hkeep, hc.2.1⟩, ?_⟩
  · exact ⟨hc.1, by rw [e3], hc.2.2.1, by rw [e3]; exact hc.2.2.2.1⟩
  · show _ = (preBlock n txs).status.stateRoot
    rw [e3]; exact hc.2.2.2.2
  · simp only [Node.step] at hlen ⊢
    rw [← e4] at hlen ⊢
    rw [← e3] at hp
    cases heff with
    | quiet _ _ _ h4 => rw [h4] at hlen; omega
    | proof _ _ _ _ h4 => rw [h4] at hlen; omega
    | failed _ _ _ _ _ _ _ h4 => rw [h4] at hlen; omega
    | done d hd hr _ h3 h4 => exact ⟨by rw [h3]; exact hp, d, h4⟩

theorem n0_price : n0.status.cyclesPrice = ncfg.cyclesPrice := (n0_lives (fun _ _ => True)).coherent.price

theorem n1_eq : block n0 [npay 1 2 10] = n1 := rfl
theorem n1_ok : BlockOk n0 [npay 1 2 10] := by decide +kernel
theorem n1_runs : Runs ncfg (Regular ncfg) n0 n1 ∧ n1.status.cyclesPrice = ncfg.cyclesPrice ∧ ∃ d, n1.log = d :: n0.log := by
  have h := block_runs (m := n0) .refl n0_price n1_ok
  rw [n1_eq] at h
  exact h

theorem n2_eq : block n1 [npay 2 1 5 1] = n2 := rfl
theorem n2_ok : BlockOk n1 [npay 2 1 5 1] := by decide +kernel
theorem n2_runs : Runs ncfg (Regular ncfg) n0 n2 ∧ n2.status.cyclesPrice = ncfg.cyclesPrice ∧ ∃ d, n2.log = d :: n1.log := by
  have h := block_runs n1_runs.1 n1_runs.2.1 n2_ok
  rw [n2_eq] at h
  exact h

theorem n3_eq : block n2 [npay 1 3 7 2] = n3 := rfl
theorem n3_ok : BlockOk n2 [npay 1 3 7 2] := by decide +kernel
theorem n3_runs : Runs ncfg (Regular ncfg) n0 n3 ∧ n3.status.cyclesPrice = ncfg.cyclesPrice ∧ ∃ d, n3.log = d :: n2.log := by
  have h := block_runs n2_runs.1 n2_runs.2.1 n3_ok
  rw [n3_eq] at h
  exact h

theorem n0_resolves : ∃ w, Resolves ncfg n0.tries n0.status.stateRoot w := by
  have h : (n0.tries n0.status.stateRoot).isSome = true ∧ n0.status.stateRoot ≠ ncfg.emptyHash := by decide +kernel
  obtain ⟨w, hw⟩ := Option.isSome_iff_exists.1 h.1
  exact ⟨w, by unfold Resolves; rw [if_neg h.2]; exact hw⟩

theorem n0_log : n0.log = [] := by decide +kernel

theorem n0_chained : n0.Chained ncfg := (n0_lives (Continues ncfg)).chained

/-- The hypotheses of `C16_partial` and `C36_replay_partial` are met by two epochs with payments, after which the balance of user 1
asked for at epochs 0, 1 and 2 is 100, 100 and 90 (and is 95 after epoch 2). -/
example : EmptyRoot ncfg n2 ∧ n0.log = [] ∧ n0.Chained ncfg ∧ (∃ w, Resolves ncfg n0.tries n0.status.stateRoot w) ∧ Runs ncfg (Regular ncfg) n0 n2 ∧
    n2.log.length = 2 ∧ [some 0, some 1, some 2].map (n2.apiBalance ncfg (naddr 1) token) = [100, 100, 90] :=
  ⟨ncfg_emptyRoot (by decide +kernel), n0_log, n0_chained, n0_resolves, n2_runs.1, by decide +kernel, by decide +kernel⟩

end Demo

end Huobi
