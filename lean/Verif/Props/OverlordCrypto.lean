import Verif.Model.OverlordCrypto
import Verif.Props.Replay
import Verif.Props.Sync
import Verif.Props.Messages
/-
C42 (signatures given to the consensus), C64 (heights given to the consensus).
-/
namespace Huobi

/-! ### C42 -/

/-- A signed vote or proposal is valid: 33 bytes of public key followed by a signature of `hash` under it. -/
def ValidSigned (c : OverlordCrypto) (hash signed : Bytes) : Prop :=
  ∃ pubkey signature, signed = pubkey ++ signature ∧ pubkey.length = 33 ∧ c.verify hash signature pubkey = true

/-- **C42 (partial: single signatures of at least 33 bytes).**  Such a byte string is accepted exactly if it is valid, and the address
returned is that of the public key in it; otherwise there is an error, never a crash.  What the node signs itself is accepted, if the
signature scheme accepts its own signatures and public keys have 33 bytes. -/
theorem C42_partial (c : OverlordCrypto) (hash : Bytes) :
    (∀ signed : Bytes, 33 ≤ signed.length →
      (c.verifySignature signed hash = .err ↔ ¬ ValidSigned c hash signed) ∧ c.verifySignature signed hash ≠ .panic ∧
      ∀ addr, c.verifySignature signed hash = .ok addr ↔ ∃ pubkey signature, signed = pubkey ++ signature ∧ pubkey.length = 33 ∧
        c.verify hash signature pubkey = true ∧ addr = (UserAddress.fromPubkey c.digest pubkey).toBytes) ∧
    (∀ signed, c.pubkey.length = 33 → (∀ s, c.signWith hash = some s → c.verify hash s c.pubkey = true) → c.sign hash = some signed →
      c.verifySignature signed hash = .ok (UserAddress.fromPubkey c.digest c.pubkey).toBytes) := by
  have split : ∀ signed : Bytes, 33 ≤ signed.length → ∀ pk sg : Bytes, signed = pk ++ sg → pk.length = 33 → pk = signed.take 33 ∧ sg = signed.drop 33 := by
    intro signed _ pk sg he hl
    subst he
    rw [← hl, List.take_left, List.drop_left]; exact ⟨rfl, rfl⟩
  have main : ∀ signed : Bytes, 33 ≤ signed.length → ∀ addr, c.verifySignature signed hash = .ok addr ↔ ∃ pubkey signature, signed = pubkey ++ signature ∧
      pubkey.length = 33 ∧ c.verify hash signature pubkey = true ∧ addr = (UserAddress.fromPubkey c.digest pubkey).toBytes := by
    intro signed hl addr
    unfold OverlordCrypto.verifySignature
    rw [if_neg (by omega)]
    simp only
    constructor
    · intro h
      split at h
      · rename_i hv
        injection h with h
        exact ⟨_, _, (List.take_append_drop 33 signed).symm, by rw [List.length_take]; omega, hv, h.symm⟩
      · cases h
    · rintro ⟨pk, sg, he, hk, hv, rfl⟩
      obtain ⟨rfl, rfl⟩ := split signed hl pk sg he hk
      rw [if_pos hv]
  have tri : ∀ signed : Bytes, 33 ≤ signed.length → c.verifySignature signed hash ≠ .panic := by
    intro signed hl
    unfold OverlordCrypto.verifySignature
    rw [if_neg (by omega)]
    simp only
    split <;> simp
  refine ⟨fun signed hl => ⟨?_, tri signed hl, main signed hl⟩, ?_⟩
  · constructor
    · rintro h ⟨pk, sg, h1, h2, h3⟩
      have := (main signed hl _).2 ⟨pk, sg, h1, h2, h3, rfl⟩
      rw [h] at this; cases this
    · intro h
      cases hv : c.verifySignature signed hash with
      | err => rfl
      | panic => exact absurd hv (tri signed hl)
      | ok a =>
        obtain ⟨pk, sg, h1, h2, h3, -⟩ := (main signed hl a).1 hv
        exact absurd ⟨pk, sg, h1, h2, h3⟩ h
  · intro signed hk hv hs
    unfold OverlordCrypto.sign at hs
    cases hw : c.signWith hash with
    | none => rw [hw] at hs; cases hs
    | some s =>
      rw [hw] at hs
      injection hs with hs
      exact (main signed (by rw [← hs, List.length_append]; omega) _).2 ⟨c.pubkey, s, hs.symm, hk, hv s hw, rfl⟩

/-- The hypotheses are met: a scheme that accepts exactly the signature `hash ++ pubkey`. -/
example : ∃ c : OverlordCrypto, c.pubkey.length = 33 ∧ (∀ hash s, c.signWith hash = some s → c.verify hash s c.pubkey = true) ∧
    c.sign [1] ≠ none ∧ c.verifySignature (c.pubkey ++ [7]) [1] = .err :=
  ⟨⟨Demo.mix, fun h s p => s == h ++ p, fun h => some (h ++ List.replicate 33 4), List.replicate 33 4⟩, by decide, by
    intro h s hs; simp only [Option.some.injEq] at hs; subst hs; simp, by simp [OverlordCrypto.sign], by decide⟩

/-- **C42 is false of the code as it stands: crash.**  Every byte string shorter than a public key, which is never a valid signature,
aborts the task that verifies it. -/
theorem C42_crash_refuted (c : OverlordCrypto) (hash signed : Bytes) (h : signed.length < 33) :
    c.verifySignature signed hash = .panic ∧ ¬ ValidSigned c hash signed := by
  refine ⟨by unfold OverlordCrypto.verifySignature; rw [if_pos h], ?_⟩
  rintro ⟨pk, sg, rfl, hk, -⟩
  rw [List.length_append] at h; omega

/-- **C42 is false of the code as it stands: quorum certificates and proofs.**  Every aggregated signature, and every proof of a
synchronised epoch, is accepted, whatever the votes. -/
theorem C42_aggregate_refuted (c : OverlordCrypto) (signature bitmap : Bytes) (id : UInt64) (proof : Proof) :
    c.verifyAggregated signature bitmap = .ok [] ∧ checkProof id proof = .ok [] := ⟨rfl, rfl⟩

/-! ### C64 -/

theorem syncLoop_heights {cfg : NodeCfg} {io : SyncIo} (hid : ∀ k id e, io.pullEpoch k id = some e → e.header.epochId = id) (ids : List UInt64) :
    ∀ (k : Nat) (h r : Hash) (n n' : Node), Node.syncLoop cfg io k ids h r n = (.ok (), n') →
      n'.log.map Done.height = ids.reverse ++ n.log.map Done.height ∧ ∀ last, ids.getLast? = some last → n'.status.epochId = last + 1 := by
  induction ids with
  | nil => intro k h r n n' hl; injection hl with _ hl; subst hl; exact ⟨rfl, fun _ h => by cases h⟩
  | cons id ids ih =>
    intro k h r n n' hl
    simp only [Node.syncLoop] at hl
    rcases syncOne_effect cfg io k id h r n with ⟨e, n1, he, -⟩ | ⟨d, n1, he, hd, -, -, h3, h4⟩
    · rw [he] at hl; cases hl
    · rw [he] at hl
      obtain ⟨a, b⟩ := ih _ _ _ _ _ hl
      have hh : d.height = id := by rw [hd.height]; exact hid _ _ _ hd.pulled
      refine ⟨by rw [a, h4, List.map_cons, hh]; simp, ?_⟩
      intro last hlast
      cases ids with
      | nil =>
        injection hl with _ hl
        subst hl
        cases hlast
        rw [h3, ← hh]; rfl
      | cons x xs => exact b last (by rw [List.getLast?_cons_cons] at hlast; exact hlast)

/-- **C64 (partial).**  A message announcing height `v ≥ 2`, and peers that answer with the epochs asked for: if the node reports a
height to the consensus, it is `v`, the height of its own status; it is more than two above the latest epoch it had; and it recorded
exactly the epochs in between. -/
theorem C64_partial {cfg : NodeCfg} {io : SyncIo} {n n' : Node} {v : Nat} {rest : Bytes} {h : UInt64} (hv : 2 ≤ v) (hlt : v < 2 ^ 64)
    (hid : ∀ k id e, io.pullEpoch k id = some e → e.header.epochId = id)
    (hs : n.updateEpoch cfg io (u64LE v ++ rest) = (.ok (some h), n')) :
    h.toNat = v ∧ n'.status.epochId = h ∧ n.currentId.toNat + 2 < v ∧
    n'.log.map (fun d => d.height.toNat) = (List.range' (n.currentId.toNat + 1) (v - 1 - n.currentId.toNat)).reverse ++ n.log.map (fun d => d.height.toNat) := by
  unfold Node.updateEpoch at hs
  rw [readU64LE_u64LE v hlt] at hs
  simp only at hs
  have hrich : (UInt64.ofNat v - 1).toNat = v - 1 := by
    rw [UInt64.toNat_sub_of_le _ _ (by rw [UInt64.le_iff_toNat_le, UInt64.toNat_ofNat_of_lt' hlt]; show 1 ≤ v; omega), UInt64.toNat_ofNat_of_lt' hlt]; rfl
  have hrich1 : (UInt64.ofNat v - 1 - 1).toNat = v - 2 := by
    rw [UInt64.toNat_sub_of_le _ _ (by rw [UInt64.le_iff_toNat_le, hrich]; show 1 ≤ v - 1; omega), hrich]; rfl
  split at hs
  · cases hs
  · rename_i hc
    have hc : n.currentId.toNat < v - 2 := by
      rw [UInt64.le_iff_toNat_le, hrich1] at hc; omega
    split at hs
    · cases hs
    · split at hs
      · cases hs
      · rename_i hh r _
        cases hloop : Node.syncLoop cfg io 1 (syncIds n.currentId (UInt64.ofNat v - 1)) hh r n with
        | mk a n1 =>
          rw [hloop] at hs
          cases a with
          | error e => cases hs
          | ok u =>
            simp only at hs
            split at hs
            · injection hs with h1 h2
              injection h1 with h1
              injection h1 with h1
              subst h2
              obtain ⟨a, b⟩ := syncLoop_heights hid _ _ _ _ _ _ hloop
              have hids : (syncIds n.currentId (UInt64.ofNat v - 1)).map UInt64.toNat =
                  List.range' (n.currentId.toNat + 1) (v - 1 - n.currentId.toNat) := by
                unfold syncIds
                rw [hrich, List.range'_eq_map_range, List.map_map]
                refine List.map_congr_left fun k hk => ?_
                have hk := List.mem_range.1 hk
                simp only [Function.comp_apply, UInt64.toNat_add, UInt64.toNat_one]
                rw [UInt64.toNat_ofNat_of_lt' (show k < 2 ^ 64 by omega)]
                omega
              have e1 : h.toNat = v := by
                rw [← h1, UInt64.toNat_add, hrich]; show (v - 1 + 1) % 2 ^ 64 = v
                rw [Nat.mod_eq_of_lt (by omega)]; omega
              refine ⟨e1, ?_, by omega, ?_⟩
              · have hlast : (syncIds n.currentId (UInt64.ofNat v - 1)).getLast? = some (UInt64.ofNat v - 1) := by
                  have hm := congrArg List.getLast? hids
                  rw [List.getLast?_map, List.getLast?_range', if_neg (by omega)] at hm
                  obtain ⟨y, hy, hy2⟩ := Option.map_eq_some_iff.1 hm
                  rw [hy]
                  congr 1
                  apply UInt64.toNat.inj
                  rw [hy2, hrich]; omega
                rw [b _ hlast, h1]
              · have := congrArg (List.map UInt64.toNat) a
                rw [List.map_append, List.map_reverse, hids, List.map_map, List.map_map] at this
                exact this
            · cases hs

open Demo in
/-- The hypotheses are met: the node that stopped after epoch 1 is told of height 4 by one that has epochs 1 to 3. -/
example : (n1.updateEpoch ncfg (peer n3) (u64LE 4)).1.toOption = some (some 4) ∧
    (∀ id ∈ [(0 : UInt64), 1, 2, 3], (n3.store.epochs id).map (fun e => e.header.epochId) = some id) := by decide +kernel

open Demo in
/-- **C64 is false of the code as it stands.**  A message announcing height 1, which any peer can send: the node at height 3, whose
honest peer is one epoch ahead, reports height 1 to the consensus, and neither fetches nor records anything. -/
theorem C64_refuted : ∃ (cfg : NodeCfg) (g : Genesis) (n m : Node) (io : SyncIo) (msg : Bytes),
    Lives cfg g (fun _ _ => True) n ∧ Lives cfg g (fun _ _ => True) m ∧ (∀ k id, io.pullEpoch k id = m.store.epochs id) ∧
    n.status.epochId = 3 ∧ m.status.epochId = 4 ∧
    (n.updateEpoch cfg io msg).1.toOption = some (some 1) ∧ (n.updateEpoch cfg io msg).2.status = n.status := by
  have h1 : Lives ncfg ngenesis (fun _ _ => True) n2 :=
    blockOps_lives (blockOps_lives (n0_lives _) _ (fun _ _ => trivial)) _ (fun _ _ => trivial)
  have h2 : Lives ncfg ngenesis (fun _ _ => True) n3 := blockOps_lives h1 _ (fun _ _ => trivial)
  have h3 : n2.status.epochId = 3 := by decide +kernel
  have h4 : n3.status.epochId = 4 := by decide +kernel
  have h5 : (n2.updateEpoch ncfg (peer n3) (u64LE 1)).1.toOption = some (some 1) := by decide +kernel
  have h6 : (n2.updateEpoch ncfg (peer n3) (u64LE 1)).2.status = n2.status := by decide +kernel
  exact ⟨ncfg, ngenesis, n2, n3, peer n3, u64LE 1, h1, h2, (peer_spec n3).1, h3, h4, h5, h6⟩

end Huobi
