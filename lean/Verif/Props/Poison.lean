import Verif.Props.Engine
import Verif.Props.Consensus3
import Verif.Props.Executor
/-
C10 for a whole node: a transaction that the executor cannot handle, once it is in an epoch.
-/
namespace Huobi

/-- **C10 is false, for a node.**  Committing an epoch in which a transaction with an unsupported action comes after transactions that
execute ends in a panic: with no fault anywhere, the call has no result, and nothing but the proof is stored. -/
theorem C10_commit_panics_refuted {cfg : NodeCfg} {n : Node} {io : CommitIo} {id : UInt64} {pill : Pill} {proof : OverlordProof} {p : Proof}
    {pre post : List SignedTx} {tx : SignedTx} {w w0 : World} {resp0 : ExecResp} (hlock : io.lock = true) (halive : io.alive = true)
    (hsave : io.save.proof = true) (hproof : proof.toProof = some p) (hfull : n.pool.getFullTxs pill.epoch.orderedTxHashes = .ok (pre ++ tx :: post))
    (hw : Resolves cfg n.tries n.status.stateRoot w)
    (h0 : Executes (cfg.env id n.status.cyclesPrice (.user pill.epoch.header.proposer)) w pre resp0 w0)
    (hact : (∃ s i m, tx.raw.action = .approve s i m) ∨ (∃ c m as k, tx.raw.action = .call c m as k) ∨
      (∃ code ty, ty ≠ .asset ∧ tx.raw.action = .deploy code ty)) :
    (n.commit cfg io id pill proof).1 = .error .panic ∧ (n.commit cfg io id pill proof).2.log = n.log ∧
    (n.commit cfg io id pill proof).2.store = n.store.write (.latestProof p) := by
  have hx := C10_unsupported_panics_refuted (post := post) h0 hact
  have hrun : runBlock (cfg.env id n.status.cyclesPrice (.user pill.epoch.header.proposer)) n.tries n.status.stateRoot (pre ++ tx :: post) =
      (some (.error .panic), n.tries) := by
    unfold runBlock
    rw [resolves_fromRoot hw]
    simp only
    cases hr : exec (cfg.env id n.status.cyclesPrice (.user pill.epoch.header.proposer)) (pre ++ tx :: post) (St.open w) with
    | mk r s =>
      rw [hr] at hx
      simp only at hx
      subst hx
      rfl
  have hc : n.commit cfg io id pill proof =
      (.error .panic, { n with store := n.store.write (.latestProof p), pool := n.pool.flush pill.epoch.orderedTxHashes }) := by
    have hsp : n.saveProof cfg io.save p = (.ok (), { n with store := n.store.write (.latestProof p) }) := by
      rcases saveProof_spec (cfg := cfg) (io := io.save) (p := p) (n := n) with ⟨h, -⟩ | ⟨-, h⟩
      · rw [hsave] at h; cases h
      · exact h
    unfold Node.commit
    rw [if_neg (by rw [hlock]; simp), hproof]
    simp only
    rw [hsp]
    simp only
    rw [if_neg (by rw [halive]; simp), hfull]
    simp only [Node.commitTail, Node.exec]
    rw [hrun]
  rw [hc]
  exact ⟨rfl, rfl, rfl⟩

namespace Demo

/-- A call of a contract: well-formed, signed, admitted, proposed. -/
def ncall : SignedTx :=
  let raw : RawTx := { chainId := hash 9, nonce := hash 0, timeout := 10, fee := ⟨token, 10000⟩, action := callTx.action }
  { raw := raw, txHash := mix (encode raw), pubkey := [1], signature := [] }

def poisoned : Node := preBlock n0 [npay 1 2 10, ncall]
def poisonPill : Pill := proposal (inserted n0 [npay 1 2 10, ncall])

end Demo

set_option linter.constructorNameAsVariable false in
open Demo in
/-- The case is met by transactions that the pool admits and the node itself proposes: a payment and a call. -/
example : Lives ncfg ngenesis (fun _ _ => True) poisoned ∧ (poisoned.pool.getFullTxs poisonPill.epoch.orderedTxHashes).toOption = some ([npay 1 2 10] ++ [ncall]) ∧
    (∃ c m as k, ncall.raw.action = .call c m as k) ∧ (∃ p, (oproof 1).toProof = some p) ∧
    ∃ w resp w0, Resolves ncfg poisoned.tries poisoned.status.stateRoot w ∧
      Executes (ncfg.env 1 poisoned.status.cyclesPrice (.user poisonPill.epoch.header.proposer)) w [npay 1 2 10] resp w0 := by
  refine ⟨preBlock_lives (n0_lives _) _, by decide +kernel, ⟨_, _, _, _, rfl⟩, Option.isSome_iff_exists.1 (by decide +kernel), ?_⟩
  have h : (poisoned.tries poisoned.status.stateRoot).isSome = true ∧ poisoned.status.stateRoot ≠ ncfg.emptyHash := by decide +kernel
  have hex : ((poisoned.tries poisoned.status.stateRoot).map (fun w => (exec (ncfg.env 1 poisoned.status.cyclesPrice (.user poisonPill.epoch.header.proposer))
    [npay 1 2 10] (St.open w)).1.toOption.isSome)) = some true := by decide +kernel
  generalize poisoned = q at *
  generalize poisonPill = pl at *
  generalize npay 1 2 10 = tx at *
  obtain ⟨w, hw⟩ := Option.isSome_iff_exists.1 h.1
  rw [hw] at hex
  simp only [Option.map_some, Option.some.injEq] at hex
  have hres : Resolves ncfg q.tries q.status.stateRoot w := by unfold Resolves; rw [if_neg h.2]; exact hw
  refine ⟨w, ?_⟩
  have key : ∀ (x : Except Fault ExecResp × St), x.1.toOption.isSome = true → ∃ resp, x.1 = .ok resp ∧ x.2.committed = x.2.committed := by
    intro x hx
    cases hr : x.1 with
    | error e => rw [hr] at hx; cases hx
    | ok resp => exact ⟨resp, rfl, rfl⟩
  obtain ⟨resp, h1, h2⟩ := key _ hex
  exact ⟨resp, _, hres, h1, h2⟩

end Huobi
