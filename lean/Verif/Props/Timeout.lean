import Verif.Props.Proposal
import Verif.Props.Lifetime
import Verif.Props.Consensus3
/-
C104: a transaction is not executed after its time-out.
-/
namespace Huobi

theorem u64_succ_le {a b : UInt64} (h : a < b) : a + 1 ≤ b := by
  rw [UInt64.lt_iff_toNat_lt] at h
  rw [UInt64.le_iff_toNat_le, UInt64.toNat_add]
  have := b.toNat_lt
  simp
  omega

/-- **C104, proposals.**  In every lifetime of a node whose chain is continued by what is committed and synchronised, every transaction of an epoch it
proposes - and of those it announces for later - has not reached its time-out at the height of that epoch, and its time-out is at most the configured
gap after the latest epoch. -/
theorem C104_proposed {cfg : NodeCfg} {g : Genesis} {n n' : Node} {now id : UInt64} {pill : Pill} {hash : Bytes}
    (h : Lives cfg g (Continues cfg) n) (hp : n.getEpoch cfg now id = (.ok (pill, hash), n')) :
    ∀ k ∈ pill.epoch.orderedTxHashes ++ pill.proposeHashes, ∃ tx, n.pool.cache.get k = some tx ∧ tx.txHash = k ∧ id ≤ tx.raw.timeout ∧
      ∃ last, n.store.latest = some last ∧ id = last.header.epochId + 1 ∧ tx.raw.timeout ≤ last.header.epochId + cfg.timeoutGap := by
  intro k hk
  obtain ⟨hpk, hid, -⟩ := getEpoch_ok hp
  have hc := h.chained
  obtain ⟨ops, hops⟩ := h.pool
  obtain ⟨cops, hcc⟩ := after_cache cfg.mem cfg.poolSize cfg.timeoutGap ops
  rw [hops] at hcc
  obtain ⟨last, hl, -⟩ := hc.linked
  unfold MemPool.package at hpk
  split at hpk
  · injection hpk with hpk _; cases hpk
  · rename_i chain ep hlat
    simp only [Prod.mk.injEq] at hpk
    obtain ⟨hpk1, hpk2⟩ := hpk
    have hep : ep = last.header.epochId := by
      have : (n.view cfg (fun _ => none) true).latest = n.store.latest.map (fun e => (e.header.chainId, e.header.epochId)) := rfl
      rw [this, hl] at hlat
      cases hlat; rfl
    have hcp : n'.pool.cache = (n.pool.cache.package n.status.cyclesLimit ep (ep + n.pool.gap)).2 := by rw [← hpk2]
    obtain ⟨w1, -⟩ := C20_window hcc (c' := n'.pool.cache) (Prod.ext hpk1 hcp.symm)
    obtain ⟨tx, t1, t2, t3⟩ := w1 k hk
    have hnext := (hc.next last hl).1
    have hh : tx.txHash = k := by obtain ⟨e, _, _, h⟩ := (get_eq_some hcc.good).1 t1; exact h
    refine ⟨tx, t1, hh, ?_, last, hl, by rw [← hid, hnext], ?_⟩
    · rw [← hid, hnext, ← hep]
      exact u64_succ_le t2
    · have hgap : n.pool.gap = cfg.timeoutGap := by rw [← hops]; exact (after_const cfg.mem cfg.poolSize cfg.timeoutGap ops).2
      rw [← hep, ← hgap]; exact t3

/-- Node `p` of the chain, whose chain was continued by what it committed, proposes the epoch `e`. -/
def Proposes (a : NodeCfg) (g : Genesis) (p : Node) (e : Epoch) : Prop :=
  Lives a g (Continues a) p ∧ ∃ now id pill hash p', p.getEpoch a now id = (.ok (pill, hash), p') ∧ pill.epoch = e

/-- Calls with epochs that nodes of the chain proposed: an epoch committed was proposed for that height, and the node has the transactions the proposer
had, or none; an epoch a peer hands over was proposed, and the peer hands over the transactions of the proposer. -/
def Honest (g : Genesis) (m : Node) : NodeOp → Prop
  | .commit _ id pill _ => pill.epoch.header.epochId = id ∧ ∃ a p, Proposes a g p pill.epoch ∧
      ∀ k ∈ pill.epoch.orderedTxHashes, ∀ t u, m.pool.lookup k = some t → p.pool.cache.get k = some u → t.raw = u.raw
  | .sync io _ => ∀ k id e, io.pullEpoch k id = some e → ∃ a p, Proposes a g p e ∧
      ∀ txs, io.pullTxs k e.orderedTxHashes = some txs → ∀ t ∈ txs, t.txHash ∈ e.orderedTxHashes ∧ ∀ u, p.pool.cache.get t.txHash = some u → t.raw = u.raw
  | _ => True

theorem Proposes.inTime {a : NodeCfg} {g : Genesis} {p : Node} {e : Epoch} (h : Proposes a g p e) :
    ∀ k ∈ e.orderedTxHashes, ∃ u, p.pool.cache.get k = some u ∧ e.header.epochId ≤ u.raw.timeout := by
  obtain ⟨hl, now, id, pill, hash, p', hp, rfl⟩ := h
  intro k hk
  obtain ⟨u, h1, -, h2, -⟩ := C104_proposed hl hp k (List.mem_append_left _ hk)
  have hid : pill.epoch.header.epochId = id := by rw [(getEpoch_ok hp).2.2.2.2]
  exact ⟨u, h1, by rw [hid]; exact h2⟩

/-- **C104 (partial: every epoch was proposed by a node that follows the code; otherwise it is false, see `C104_refuted`).**  In every lifetime
in which the epochs were proposed by nodes of the chain - any calls, failures, crashes, restarts and synchronisations - no transaction is executed
after its time-out. -/
theorem C104_partial {cfg : NodeCfg} {g : Genesis} {n : Node} {older : List Done} (h : History cfg g (Honest g) n older) :
    ∀ d ∈ n.log ++ older, ∀ t ∈ d.txs, d.height ≤ t.raw.timeout := by
  induction h with
  | init h1 h2 => obtain ⟨e, -, -, -, -, h4, -⟩ := startNode_some h2; rw [h4]; intro d hd; cases hd
  | restart _ _ h2 ih => obtain ⟨e, -, -, -, -, h4, -⟩ := startNode_some h2; rw [h4]; exact ih
  | @step n older op hl hok ih =>
    cases op with
    | insertTx o b tx => rw [(passive_step cfg n (.insertTx o b tx) trivial).2.2.2]; exact ih
    | propose now id => rw [(passive_step cfg n (.propose now id) trivial).2.2.2]; exact ih
    | check p1 p2 ha pill => rw [(passive_step cfg n (.check p1 p2 ha pill) trivial).2.2.2]; exact ih
    | commit io id pill proof =>
      show ∀ d ∈ (n.commit cfg io id pill proof).2.log ++ older, _
      cases commit_effect cfg io id pill proof n with
      | quiet _ _ _ h4 => rw [h4]; exact ih
      | proof _ _ _ _ h4 => rw [h4]; exact ih
      | failed _ _ _ _ _ _ _ h4 => rw [h4]; exact ih
      | done d hd _ _ _ h4 =>
        rw [h4]
        intro x hx
        rcases List.mem_cons.1 hx with rfl | hx
        · obtain ⟨hid, a, p, hp, hsame⟩ := hok
          intro t ht
          obtain ⟨k, hk, hlk⟩ : ∃ k ∈ pill.epoch.orderedTxHashes, n.pool.lookup k = some t := by
            have hg := hd.txs
            unfold MemPool.getFullTxs at hg
            simp only at hg
            split at hg
            · cases hg
            · injection hg with hg
              rw [← hg] at ht
              obtain ⟨k, h1, h2⟩ := List.mem_filterMap.1 ht
              exact ⟨k, h1, h2⟩
          obtain ⟨u, hu, hto⟩ := hp.inTime k hk
          rw [hsame k hk t u hlk hu, hd.height, ← hid]
          exact hto
        · exact ih x hx
    | sync io msg =>
      show ∀ d ∈ (n.updateEpoch cfg io msg).2.log ++ older, _
      rcases updateEpoch_steps cfg io msg n with h1 | ⟨v, rest, ha, r, -, -, hs⟩
      · rw [h1]; exact ih
      · generalize (n.updateEpoch cfg io msg).2 = n' at hs
        generalize syncIds n.currentId (UInt64.ofNat v - 1) = ids at hs
        generalize 1 = k at hs
        clear hl
        induction hs with
        | stop => exact ih
        | fail _ _ h3 => rw [h3]; exact ih
        | @round k id ids ha r n n1 n' d hd _ _ _ h4 _ ih2 =>
          refine ih2 ?_ hok
          rw [h4]
          intro x hx
          rcases List.mem_cons.1 hx with rfl | hx
          · obtain ⟨a, p, hp, hsame⟩ := hok k id _ hd.pulled
            intro t ht
            obtain ⟨hm, hu'⟩ := hsame _ hd.txs t ht
            obtain ⟨u, hu, hto⟩ := hp.inTime _ hm
            rw [hu' u hu, hd.height]
            exact hto
          · exact ih x hx

/-! ### The refutation -/

namespace Demo

/-- A payment of 10 from user 1 to user 2 that times out at height 1. -/
def stale : SignedTx :=
  let raw : RawTx := { (npay 1 2 10).raw with timeout := 1 }
  { npay 1 2 10 with raw := raw, txHash := mix (encode raw) }

/-- The node gets the payment after its first epoch was proposed, and commits the epoch without it. -/
def stalePooled : Node := n0.step ncfg (.insertTx false true stale)
def emptyPill : Pill := proposal n0
def emptyHash : Bytes := (ncfg.digest (encode emptyPill)).bytes
def passed : Node := stalePooled.step ncfg (.commit .ok 1 emptyPill (oproof 1))
/-- A node that did not get the payment. -/
def unaware : Node := n0.step ncfg (.commit .ok 1 emptyPill (oproof 1))
/-- The epoch of height 2 that a proposer makes with the payment. -/
def stalePill : Pill :=
  let p := proposal unaware
  { p with epoch := { p.epoch with orderedTxHashes := [stale.txHash], header := { p.epoch.header with orderRoot := ncfg.merkle [stale.txHash] } } }
def staleChecked : Node := passed.step ncfg (.check noPull noPull [] stalePill)
def pulledChecked : Node := unaware.step ncfg (.check noPull (fun _ => some [stale]) [] stalePill)
def staleDone : Node := staleChecked.step ncfg (.commit .ok 2 stalePill (oproof 2))
def pulledDone : Node := pulledChecked.step ncfg (.commit .ok 2 stalePill (oproof 2))

end Demo

open Demo in
set_option linter.constructorNameAsVariable false in
/-- **C104 is false if a proposer does not follow the code**: neither the check of an epoch nor its execution looks at the time-out of a transaction that
is in the pool, and the check of one that is fetched lets the height after the time-out pass.  A user submits a payment that times out at height 1, and
epoch 1 is committed without it.  For height 2 a node that follows the code proposes nothing; but when the proposer puts the payment into the epoch,
a node that has it in its pool and one that fetches it from the proposer both accept the epoch and execute the payment. -/
theorem C104_refuted : ∃ (cfg : NodeCfg) (g : Genesis) (n0 p1 a0 a1 a2 a b1 b2 b : Node) (tx : SignedTx) (pill1 pill : Pill) (hash1 hash : Bytes)
    (proof1 proof : OverlordProof), FirstStart cfg g n0 ∧ n0.getEpoch cfg 7 1 = (.ok (pill1, hash1), p1) ∧
    (n0.pool.insert cfg.mem (n0.view cfg (fun _ => none) true) false tx).1 = .ok () ∧ a0 = n0.step cfg (.insertTx false true tx) ∧
    a0.commit cfg .ok 1 pill1 proof1 = (.ok 2, a1) ∧ n0.commit cfg .ok 1 pill1 proof1 = (.ok 2, b1) ∧
    tx.raw.timeout = 1 ∧ pill.epoch.header.epochId = 2 ∧
    (∀ pill' hash' a', a1.getEpoch cfg 7 2 = (.ok (pill', hash'), a') → pill'.epoch.orderedTxHashes = []) ∧
    a1.checkEpoch cfg noPull noPull hash pill = (.ok [tx], a2) ∧ b1.checkEpoch cfg noPull (fun _ => some [tx]) hash pill = (.ok [tx], b2) ∧
    a2.commit cfg .ok 2 pill proof = (.ok 3, a) ∧ b2.commit cfg .ok 2 pill proof = (.ok 3, b) ∧
    a.log.map (fun d => (d.height, d.txs)) = [(2, [tx]), (1, [])] ∧ b.log.map (fun d => (d.height, d.txs)) = [(2, [tx]), (1, [])] ∧
    (∃ w, Resolves cfg a.tries a.status.stateRoot w ∧ balance w (naddr 1) token = 90) ∧
    ∃ w, Resolves cfg b.tries b.status.stateRoot w ∧ balance w (naddr 1) token = 90 := by
  have ok_of : ∀ {ε α : Type} (x : Except ε α) (v : α), x.toOption = some v → x = .ok v := by
    intro ε α x v h
    cases x with
    | error e => cases h
    | ok y => simp only [Except.toOption, Option.some.injEq] at h; rw [h]
  have h0 : (n0.getEpoch ncfg 7 1).1.toOption = some (emptyPill, emptyHash) := by decide +kernel
  have h1 : (n0.pool.insert ncfg.mem (n0.view ncfg (fun _ => none) true) false stale).1.toOption = some () := by decide +kernel
  have h2 : (stalePooled.commit ncfg .ok 1 emptyPill (oproof 1)).1.toOption = some 2 := by decide +kernel
  have h3 : (n0.commit ncfg .ok 1 emptyPill (oproof 1)).1.toOption = some 2 := by decide +kernel
  have h4 : ((passed.getEpoch ncfg 7 2).1.toOption.map fun x => x.1.epoch.orderedTxHashes) = some [] := by decide +kernel
  have h5 : (passed.checkEpoch ncfg noPull noPull [] stalePill).1.toOption = some [stale] := by decide +kernel
  have h6 : (unaware.checkEpoch ncfg noPull (fun _ => some [stale]) [] stalePill).1.toOption = some [stale] := by decide +kernel
  have h7 : (staleChecked.commit ncfg .ok 2 stalePill (oproof 2)).1.toOption = some 3 := by decide +kernel
  have h8 : (pulledChecked.commit ncfg .ok 2 stalePill (oproof 2)).1.toOption = some 3 := by decide +kernel
  have h9 : staleDone.log.map (fun d => (d.height, d.txs)) = [(2, [stale]), (1, [])] := by decide +kernel
  have h10 : pulledDone.log.map (fun d => (d.height, d.txs)) = [(2, [stale]), (1, [])] := by decide +kernel
  have ha : ((staleDone.tries staleDone.status.stateRoot).map fun w => balance w (naddr 1) token) = some 90 := by decide +kernel
  have hb : ((pulledDone.tries pulledDone.status.stateRoot).map fun w => balance w (naddr 1) token) = some 90 := by decide +kernel
  have hea : staleDone.status.stateRoot ≠ ncfg.emptyHash ∧ pulledDone.status.stateRoot ≠ ncfg.emptyHash := by decide +kernel
  obtain ⟨wa, hwa, hba⟩ := Option.map_eq_some_iff.1 ha
  obtain ⟨wb, hwb, hbb⟩ := Option.map_eq_some_iff.1 hb
  have k0 : n0.getEpoch ncfg 7 1 = (.ok (emptyPill, emptyHash), (n0.getEpoch ncfg 7 1).2) := Prod.ext (ok_of _ _ h0) rfl
  have k1 := ok_of _ _ h1
  have k2 : stalePooled.commit ncfg .ok 1 emptyPill (oproof 1) = (.ok 2, passed) := Prod.ext (ok_of _ _ h2) (by simp only [passed, Node.step])
  have k3 : n0.commit ncfg .ok 1 emptyPill (oproof 1) = (.ok 2, unaware) := Prod.ext (ok_of _ _ h3) (by simp only [unaware, Node.step])
  have k4 : ∀ pill' hash' a', passed.getEpoch ncfg 7 2 = (.ok (pill', hash'), a') → pill'.epoch.orderedTxHashes = [] := by
    intro pill' hash' a' h
    rw [h] at h4
    simpa [Except.toOption] using h4
  have k5 : passed.checkEpoch ncfg noPull noPull [] stalePill = (.ok [stale], staleChecked) := Prod.ext (ok_of _ _ h5) (by simp only [staleChecked, Node.step])
  have k6 : unaware.checkEpoch ncfg noPull (fun _ => some [stale]) [] stalePill = (.ok [stale], pulledChecked) :=
    Prod.ext (ok_of _ _ h6) (by simp only [pulledChecked, Node.step])
  have k7 : staleChecked.commit ncfg .ok 2 stalePill (oproof 2) = (.ok 3, staleDone) := Prod.ext (ok_of _ _ h7) (by simp only [staleDone, Node.step])
  have k8 : pulledChecked.commit ncfg .ok 2 stalePill (oproof 2) = (.ok 3, pulledDone) := Prod.ext (ok_of _ _ h8) (by simp only [pulledDone, Node.step])
  have r1 : Resolves ncfg staleDone.tries staleDone.status.stateRoot wa := by unfold Resolves; rw [if_neg hea.1]; exact hwa
  have r2 : Resolves ncfg pulledDone.tries pulledDone.status.stateRoot wb := by unfold Resolves; rw [if_neg hea.2]; exact hwb
  have hw : stalePooled = n0.step ncfg (.insertTx false true stale) := rfl
  have ht : stale.raw.timeout = 1 := rfl
  have hp : stalePill.epoch.header.epochId = 2 := by decide +kernel
  have hf := n0_start
  clear h0 h1 h2 h3 h4 h5 h6 h7 h8 ha hb hea ok_of hwa hwb
  generalize (n0.getEpoch ncfg 7 1).2 = p1 at *
  generalize stalePooled = a0, passed = a1, unaware = b1, staleChecked = a2, pulledChecked = b2, staleDone = a, pulledDone = b, n0 = n0, ncfg = cfg, emptyPill = pill1,
    emptyHash = hash1, stalePill = pill, stale = tx, oproof 1 = proof1, oproof 2 = proof, ngenesis = g at *
  exact ⟨cfg, g, n0, p1, a0, a1, a2, a, b1, b2, b, tx, pill1, pill, hash1, [], proof1, proof, hf, k0, k1, hw, k2, k3, ht, hp, k4, k5, k6, k7, k8, h9, h10,
    ⟨wa, r1, hba⟩, wb, r2, hbb⟩

/-! ### The hypotheses are met -/

namespace Demo

theorem inserted_lives {n : Node} (h : Runs ncfg (Regular ncfg) n0 n) (txs : List SignedTx) : Lives ncfg ngenesis (Continues ncfg) (inserted n txs) := by
  obtain ⟨h1, -⟩ := inserted_runs txs h
  generalize inserted n txs = m at h1
  induction h1 with
  | refl => exact n0_lives _
  | step op _ ho ih => exact .step op ih ho.continues

theorem proposes_block {n : Node} (h : Runs ncfg (Regular ncfg) n0 n) (txs : List SignedTx)
    (hok : ((inserted n txs).getEpoch ncfg 7 (inserted n txs).status.epochId).1.toOption.isSome = true) :
    Proposes ncfg ngenesis (inserted n txs) (proposal (inserted n txs)).epoch := by
  refine ⟨inserted_lives h txs, ?_⟩
  unfold proposal
  cases hp : (inserted n txs).getEpoch ncfg 7 (inserted n txs).status.epochId with
  | mk r p' =>
    cases r with
    | error e => rw [hp] at hok; cases hok
    | ok x => exact ⟨7, _, x.1, x.2, p', hp, rfl⟩

/-- A peer that hands over the epochs 2 and 3 of the demo chain and their transactions. -/
def laterPeer : SyncIo :=
  { peer n3 with
    pullEpoch := fun _ id => if id = 2 then some (proposal (inserted n1 [npay 2 1 5 1])).epoch else if id = 3 then some (proposal (inserted n2 [npay 1 3 7 2])).epoch
      else none
    pullTxs := fun _ hs => if hs = [(npay 2 1 5 1).txHash] then some [npay 2 1 5 1] else some [npay 1 3 7 2] }

theorem laterPeer_txs (k : Nat) (hs : List Hash) :
    laterPeer.pullTxs k hs = if hs = [(npay 2 1 5 1).txHash] then some [npay 2 1 5 1] else some [npay 1 3 7 2] := rfl

/-- What the example needs, decidable. -/
def SameTxs (hs : List Hash) (txs : List SignedTx) (p : Node) : Prop := ∀ t ∈ txs, t.txHash ∈ hs ∧ (p.pool.cache.get t.txHash).map (·.raw) = some t.raw

instance (hs : List Hash) (txs : List SignedTx) (p : Node) : Decidable (SameTxs hs txs p) := by unfold SameTxs; infer_instance

theorem SameTxs.raw {hs : List Hash} {txs : List SignedTx} {p : Node} (h : SameTxs hs txs p) : ∀ t ∈ txs, t.txHash ∈ hs ∧ ∀ u, p.pool.cache.get t.txHash = some u → t.raw = u.raw := by
  intro t ht
  obtain ⟨h1, h2⟩ := h t ht
  refine ⟨h1, fun u hu => ?_⟩
  rw [hu] at h2
  exact (Option.some.inj h2).symm

end Demo

open Demo in
/-- The hypotheses of `C104_proposed` are met, with a transaction proposed. -/
example : ∃ pill hash n', Lives ncfg ngenesis (Continues ncfg) (inserted n0 [npay 1 2 10]) ∧
    (inserted n0 [npay 1 2 10]).getEpoch ncfg 7 1 = (.ok (pill, hash), n') ∧ pill.epoch.orderedTxHashes = [(npay 1 2 10).txHash] := by
  have h : ((inserted n0 [npay 1 2 10]).getEpoch ncfg 7 1).1.toOption.map (fun x => x.1.epoch.orderedTxHashes) = some [(npay 1 2 10).txHash] := by decide +kernel
  have hl := inserted_lives (n := n0) .refl [npay 1 2 10]
  generalize inserted n0 [npay 1 2 10] = m at *
  cases hp : m.getEpoch ncfg 7 1 with
  | mk r p' =>
    rw [hp] at h
    cases r with
    | error e => cases h
    | ok x => exact ⟨x.1, x.2, p', hl, rfl, by simpa [Except.toOption] using h⟩

open Demo in
/-- The hypothesis of `C104_partial` is met by a node that proposes and commits an epoch, and is then given the next two by a peer. -/
example : History ncfg ngenesis (Honest ngenesis) (((preBlock n0 [npay 1 2 10]).step ncfg
      (.commit .ok 1 (proposal (inserted n0 [npay 1 2 10])) (oproof 1))).step ncfg (.sync laterPeer (u64LE 4))) [] ∧
    (((preBlock n0 [npay 1 2 10]).step ncfg (.commit .ok 1 (proposal (inserted n0 [npay 1 2 10])) (oproof 1))).step ncfg (.sync laterPeer (u64LE 4))).log.map Done.txs =
      [[npay 1 3 7 2], [npay 2 1 5 1], [npay 1 2 10]] := by
  constructor
  · obtain ⟨s, t, hi, hs⟩ := n0_start
    have h0 : History ncfg ngenesis (Honest ngenesis) n0 [] := .init hi hs
    have h1 : History ncfg ngenesis (Honest ngenesis) (inserted n0 [npay 1 2 10]) [] := by
      unfold inserted Node.run
      exact History.step (.insertTx true true (npay 1 2 10)) h0 trivial
    have h2 : History ncfg ngenesis (Honest ngenesis) (preBlock n0 [npay 1 2 10]) [] := by
      unfold preBlock
      exact History.step (.propose 7 n0.status.epochId) h1 trivial
    refine History.step (.sync laterPeer (u64LE 4)) (History.step (.commit .ok 1 (proposal (inserted n0 [npay 1 2 10])) (oproof 1)) h2 ?_) ?_
    · refine ⟨by decide +kernel, ncfg, inserted n0 [npay 1 2 10], proposes_block .refl _ (by decide +kernel), fun k hk t u ht hu => ?_⟩
      have hk' : (proposal (inserted n0 [npay 1 2 10])).epoch.orderedTxHashes = [(npay 1 2 10).txHash] := by decide +kernel
      rw [hk'] at hk
      have hk : k = (npay 1 2 10).txHash := by simpa using hk
      subst hk
      have h1 : ((preBlock n0 [npay 1 2 10]).pool.lookup (npay 1 2 10).txHash).map (·.raw) = some (npay 1 2 10).raw := by decide +kernel
      have h2 : ((inserted n0 [npay 1 2 10]).pool.cache.get (npay 1 2 10).txHash).map (·.raw) = some (npay 1 2 10).raw := by decide +kernel
      rw [show (preBlock n0 [npay 1 2 10]).pool.lookup (npay 1 2 10).txHash = some t from ht] at h1
      rw [hu] at h2
      exact (Option.some.inj h1).trans (Option.some.inj h2).symm
    · intro k id e he
      have he : (if id = 2 then some (proposal (inserted n1 [npay 2 1 5 1])).epoch else if id = 3 then some (proposal (inserted n2 [npay 1 3 7 2])).epoch
        else none) = some e := he
      split at he
      · rw [← Option.some.inj he]
        refine ⟨ncfg, _, proposes_block n1_runs.1 _ (by decide +kernel), fun txs ht => ?_⟩
        rw [laterPeer_txs, if_pos (by decide +kernel)] at ht
        cases ht
        exact SameTxs.raw (by decide +kernel)
      · split at he
        · rw [← Option.some.inj he]
          refine ⟨ncfg, _, proposes_block n2_runs.1 _ (by decide +kernel), fun txs ht => ?_⟩
          rw [laterPeer_txs, if_neg (by decide +kernel)] at ht
          cases ht
          exact SameTxs.raw (by decide +kernel)
        · cases he
  · decide +kernel

end Huobi
