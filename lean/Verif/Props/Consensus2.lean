import Verif.Spec.DemoNode
import Verif.Proof.ExecLoop
/-
Witnesses for C35 and C36; C16, C37, C38.
-/
namespace Huobi

namespace Demo

/-- No peer answers. -/
def noPull : List Hash → Option (List SignedTx) := fun _ => none

/-- An epoch with a header that has nothing to do with the chain. -/
def strayPill : Pill := ⟨⟨{ header 77 (hash 66) (hash 67) with chainId := hash 68 }, []⟩, []⟩

def strayChecked : Node := (n1.checkEpoch ncfg noPull noPull [] strayPill).2
def strayCommitted : Node := (strayChecked.commit ncfg .ok strayChecked.status.epochId strayPill (oproof 2)).2

theorem blockOps_lives {ok : Node → NodeOp → Prop} {n : Node} (h : Lives ncfg ngenesis ok n) (txs : List SignedTx) (hok : ∀ n op, ok n op) :
    Lives ncfg ngenesis ok (block n txs) := run_lives _ h (fun _ _ _ _ => hok _ _)

/-- A store with exactly two linked epochs. -/
theorem linked_two (s : Store) (e1 : s.latest.map (fun e => e.header.epochId) = some 1) (e2 : s.epochs 1 = s.latest)
    (e3 : (s.epochs 0).map (fun e => e.header.epochId) = some 0)
    (e4 : (s.epochs 0).map (fun e => ncfg.digest (encode e)) = s.latest.map (fun e => e.header.preHash)) : s.Linked ncfg.digest := by
  generalize ncfg.digest = digest at *
  obtain ⟨last, hl, hid⟩ := Option.map_eq_some_iff.1 e1
  obtain ⟨g0, h0, hid0⟩ := Option.map_eq_some_iff.1 e3
  refine ⟨last, hl, by rw [hid, e2, hl], fun id hle => ?_⟩
  rw [hid] at hle
  have : id = 0 ∨ id = 1 := by
    have h1 : id.toNat ≤ 1 := UInt64.le_iff_toNat_le.1 hle
    rcases Nat.le_one_iff_eq_zero_or_eq_one.1 h1 with h | h
    · left; exact UInt64.toNat.inj h
    · right; exact UInt64.toNat.inj h
  rcases this with rfl | rfl
  · exact ⟨g0, h0, hid0, fun h => absurd rfl h⟩
  · refine ⟨last, by rw [e2, hl], hid, fun _ => ⟨g0, h0, ?_⟩⟩
    rw [h0, hl] at e4
    exact (Option.some.inj e4).symm

end Demo

open Demo in
/-- **C35 is false of the code as it stands.**  After one ordinary epoch, the node accepts an epoch of height 77, of another chain,
with an arbitrary previous hash, commits it as its epoch 2, and its stored epochs are no longer a chain. -/
theorem C35_refuted : ∃ (cfg : NodeCfg) (g : Genesis) (n n' n'' : Node) (pill : Pill) (proof : OverlordProof),
    Lives cfg g (fun _ _ => True) n ∧ n.store.Linked cfg.digest ∧ n.status.epochId = 2 ∧
    (n.checkEpoch cfg (fun _ => none) (fun _ => none) [] pill).1.toOption = some [] ∧ n' = (n.checkEpoch cfg (fun _ => none) (fun _ => none) [] pill).2 ∧
    (n'.commit cfg .ok 2 pill proof).1.toOption = some 3 ∧ n'' = (n'.commit cfg .ok 2 pill proof).2 ∧
    pill.epoch.header.epochId = 77 ∧ pill.epoch.header.preHash ≠ n.status.prevHash ∧ pill.epoch.header.chainId ≠ cfg.chainId ∧
    ¬ n''.store.Linked cfg.digest := by
  refine ⟨ncfg, ngenesis, n1, strayChecked, strayCommitted, strayPill, oproof 2, blockOps_lives (n0_lives _) _ (fun _ _ => trivial), ?_, ?_, ?_,
    rfl, ?_, ?_, ?_, ?_, ?_, ?_⟩
  · exact linked_two n1.store (by decide +kernel) (by decide +kernel) (by decide +kernel) (by decide +kernel)
  · decide +kernel
  · decide +kernel
  · decide +kernel
  · show _ = (strayChecked.commit ncfg .ok 2 strayPill (oproof 2)).2
    have : strayChecked.status.epochId = 2 := by decide +kernel
    unfold strayCommitted
    rw [this]
  · decide +kernel
  · decide +kernel
  · decide +kernel
  · rintro ⟨last, hl, -, hall⟩
    have e1 : strayCommitted.store.latest.map (fun e => e.header.epochId) = some 77 := by decide +kernel
    have hid : last.header.epochId = 77 := by rw [hl] at e1; simpa using e1
    obtain ⟨e, he, -⟩ := hall 5 (by rw [hid]; decide)
    have : strayCommitted.store.epochs 5 = none := by decide +kernel
    rw [this] at he; cases he

namespace Demo

/-- A peer that answers from the stored data of node `a`. -/
def peer (a : Node) : SyncIo :=
  { lock := true, pullEpoch := fun _ id => a.store.epochs id, pullTxs := fun _ hs => hs.mapM a.store.txs, save := fun _ => .ok, send := true }

/-- The node after a third epoch, with a payment of 7 from user 1 to user 3. -/
def n3 : Node := block n2 [npay 1 3 7 2]

/-- The node that stopped after epoch 1 and catches up with the one that committed epochs 2 and 3. -/
def caughtUp : Node := (n1.updateEpoch ncfg (peer n3) (u64LE 4)).2

theorem caughtUp_lives (ok : Node → NodeOp → Prop) (hok : ∀ n op, ok n op) : Lives ncfg ngenesis ok caughtUp :=
  .step (.sync (peer n3) (u64LE 4)) (blockOps_lives (n0_lives _) _ hok) (hok _ _)

end Demo

open Demo in
/-- **C36 is false when the node synchronises.**  The first epoch fetched is executed on the root *before* the latest epoch:
epoch 2 on the genesis root, although epoch 1 moved funds. -/
theorem C36_refuted : ∃ (cfg : NodeCfg) (g : Genesis) (n : Node) (d3 d2 d1 : Done), Lives cfg g (fun _ _ => True) n ∧
    n.log = [d3, d2, d1] ∧ d2.root = d1.root ∧ d2.root ≠ d1.resp.stateRoot ∧ ¬ RootsChain n.log := by
  have hlen : caughtUp.log.length = 3 := by decide +kernel
  have h1 : caughtUp.log[1]?.map (·.root) = caughtUp.log[2]?.map (·.root) := by decide +kernel
  have h2 : caughtUp.log[1]?.map (·.root) ≠ caughtUp.log[2]?.map (fun d => d.resp.stateRoot) := by decide +kernel
  match h : caughtUp.log, hlen with
  | [d3, d2, d1], _ =>
    rw [h] at h1 h2
    simp only [List.getElem?_cons_succ, List.getElem?_cons_zero, Option.map_some, Option.some.injEq, ne_eq] at h1 h2
    exact ⟨ncfg, ngenesis, caughtUp, d3, d2, d1, caughtUp_lives _ (fun _ _ => trivial), h, h1, h2, by rw [h]; exact fun hc => h2 hc.2.1⟩

/-! ### C37 -/

namespace Demo

/-- The node restarted after its first epoch. -/
def restarted : Node := (startNode ncfg n1.store n1.tries).getD noNode

end Demo

open Demo in
/-- **C37 is false of the code as it stands.**  After one epoch with a payment and a restart, the next epoch would be executed on
the genesis root: the payment is undone.  The remembered proof is not the one stored for the latest epoch. -/
theorem C37_refuted : ∃ (cfg : NodeCfg) (g : Genesis) (n n' : Node) (d : Done), Lives cfg g (fun _ _ => True) n ∧ n.log = [d] ∧
    handleInit cfg g n.store n.tries = some (n.store, n.tries) ∧ startNode cfg n.store n.tries = some n' ∧
    n'.status.stateRoot = d.root ∧ n'.status.stateRoot ≠ d.resp.stateRoot ∧
    n'.status.proof ≠ d.proof ∧ n.store.proof = some d.proof ∧
    -- and what the next epoch is executed on
    (∀ io id pill proof d', (n'.commit cfg io id pill proof).2.log = [d'] → d'.root = d.root) := by
  have hlen : n1.log.length = 1 := by decide +kernel
  have hst : (startNode ncfg n1.store n1.tries).isSome = true := by decide +kernel
  have hls : n1.store.latest.isSome = true := by decide +kernel
  obtain ⟨n', hn'⟩ := Option.isSome_iff_exists.1 hst
  obtain ⟨e, he⟩ := Option.isSome_iff_exists.1 hls
  have hr : restarted = n' := by unfold restarted; rw [hn']; rfl
  have hlog : restarted.log = [] := by decide +kernel
  have h1 : n1.log[0]?.map (·.root) = some restarted.status.stateRoot := by decide +kernel
  have h2 : n1.log[0]?.map (·.resp.stateRoot) ≠ some restarted.status.stateRoot := by decide +kernel
  have h3 : n1.log[0]?.map (·.proof) ≠ some restarted.status.proof := by decide +kernel
  have h4 : n1.log[0]?.map (·.proof) = n1.store.proof := by decide +kernel
  match h : n1.log, hlen with
  | [d], _ =>
    rw [h] at h1 h2 h3 h4
    simp only [List.getElem?_cons_zero, Option.map_some, Option.some.injEq, ne_eq] at h1 h2 h3 h4
    refine ⟨ncfg, ngenesis, n1, n', d, blockOps_lives (n0_lives _) _ (fun _ _ => trivial), h, by simp [handleInit, he], hn', ?_, ?_, ?_, h4.symm, ?_⟩
    · rw [← hr]; exact h1.symm
    · rw [← hr]; exact fun hc => h2 hc.symm
    · rw [← hr]; exact fun hc => h3 hc.symm
    · intro io id pill proof d' hd'
      rw [← hr] at hd'
      cases commit_effect ncfg io id pill proof restarted with
      | quiet _ _ _ h4 => rw [h4, hlog] at hd'; cases hd'
      | proof _ _ _ _ h4 => rw [h4, hlog] at hd'; cases hd'
      | failed _ _ _ _ _ _ _ h4 => rw [h4, hlog] at hd'; cases hd'
      | done d2 hd2 _ _ _ h4 =>
        rw [h4, hlog] at hd'
        cases hd'
        rw [hd2.root, h1]

/-- The state root in the header of a committed epoch is the node's (what `get_epoch` puts there), and there is no
synchronisation. -/
def HonestRoot (n : Node) : NodeOp → Prop
  | .commit _ _ pill _ => pill.epoch.header.stateRoot = n.status.stateRoot
  | .sync .. => False
  | _ => True

theorem Lives.headerRoot {cfg : NodeCfg} {g : Genesis} {n : Node} (h : Lives cfg g (fun n op => HonestRoot n op) n) :
    ∀ d ∈ n.log, d.epoch.header.stateRoot = d.root := by
  induction h with
  | init h1 h2 => obtain ⟨e, -, -, -, -, h4, -⟩ := startNode_some h2; rw [h4]; simp
  | restart _ _ h2 _ => obtain ⟨e, -, -, -, -, h4, -⟩ := startNode_some h2; rw [h4]; simp
  | @step n op hl hok ih =>
    cases op with
    | sync io msg => exact hok.elim
    | insertTx o b tx => rw [(passive_step cfg n (.insertTx o b tx) trivial).2.2.2]; exact ih
    | propose now id => rw [(passive_step cfg n (.propose now id) trivial).2.2.2]; exact ih
    | check p1 p2 ha pill => rw [(passive_step cfg n (.check p1 p2 ha pill) trivial).2.2.2]; exact ih
    | commit io id pill proof =>
      show ∀ d ∈ (n.commit cfg io id pill proof).2.log, _
      cases commit_effect cfg io id pill proof n with
      | quiet _ _ _ h4 => rw [h4]; exact ih
      | proof _ _ _ _ h4 => rw [h4]; exact ih
      | failed _ _ _ _ _ _ _ h4 => rw [h4]; exact ih
      | done d hd _ _ _ h4 =>
        rw [h4]
        intro d' hd'
        rcases List.mem_cons.1 hd' with rfl | hd'
        · rw [hd.root, hd.epoch]; exact hok
        · exact ih d' hd'

/-- An epoch without transactions leaves the world as it is. -/
theorem executes_nil {env : Env} {w w' : World} {resp : ExecResp} (h : Executes env w [] resp w') : w' = w ∧ resp.stateRoot = env.rootOf w := by
  obtain ⟨rs, hf, rfl⟩ := executes_iff.1 h
  cases hf
  exact ⟨rfl, rfl⟩

/-- **C37 (partial).**  A restarted node has the height and the hash of the latest stored epoch, whatever happened before, in
particular after a crash at any point of a commit.  Its state root is the one *before* the latest epoch; it is the right one
exactly if executing that epoch did not change the root, for instance if it has no transactions. -/
theorem C37_partial {cfg : NodeCfg} {g : Genesis} {ok : Node → NodeOp → Prop} {n n' : Node} {s : Store} {t : StateDB} (h : Lives cfg g ok n)
    (hi : handleInit cfg g n.store n.tries = some (s, t)) (hs : startNode cfg s t = some n') :
    (∃ last, n.store.latest = some last ∧ n'.store = n.store ∧ n'.tries = n.tries ∧ n'.status.epochId = last.header.epochId + 1 ∧
      n'.status.prevHash = cfg.digest (encode last) ∧ n'.status.prevHash = n.status.prevHash) ∧
    ((∀ d ∈ n.log, d.height = d.epoch.header.epochId) → n'.status.epochId = n.status.epochId) ∧
    (∀ d rest, n.log = d :: rest → d.epoch.header.stateRoot = d.root →
      n'.status.stateRoot = d.root ∧ (n'.status.stateRoot = n.status.stateRoot ↔ d.resp.stateRoot = d.root)) := by
  obtain ⟨-, last, hl, hprev, hlog⟩ := h.coherent
  obtain ⟨rfl, rfl⟩ := handleInit_some (by rw [hl]; rfl) hi
  obtain ⟨e, he, h1, h2, h3, h4, -⟩ := startNode_some hs
  rw [hl] at he; cases he
  refine ⟨⟨last, hl, h1, h2, by rw [h3]; rfl, by rw [h3]; rfl, by rw [h3, hprev]; rfl⟩, ?_, ?_⟩
  · intro hd
    rw [h3]
    rcases hlog with ⟨-, a, -⟩ | ⟨d, rest, hlog, rfl, a, -⟩
    · rw [a]; rfl
    · rw [a, hd d (by rw [hlog]; simp)]; rfl
  · intro d rest hd hroot
    rcases hlog with ⟨hlog, -⟩ | ⟨d', rest', hlog, rfl, a, b, -⟩
    · rw [hlog] at hd; cases hd
    · rw [hlog] at hd; cases hd
      rw [h3, b]
      refine ⟨hroot, ?_⟩
      show d.epoch.header.stateRoot = _ ↔ _
      rw [hroot]; exact eq_comm

end Huobi
