import Verif.Model.Messages
import Verif.Props.Protobuf
/-
C50: message bodies exchanged between nodes.
-/
namespace Huobi

/-! ### bincode -/

theorem u64LE_length (n : Nat) : (u64LE n).length = 8 := by simp [u64LE]

theorem natOfLE_u64LE (n : Nat) (h : n < 2 ^ 64) : natOfLE (u64LE n) = n := by
  have hr : List.range 8 = [0, 1, 2, 3, 4, 5, 6, 7] := by decide
  have e : ∀ i, (UInt8.ofNat (n / 256 ^ i % 256)).toNat = n / 256 ^ i % 256 :=
    fun i => toNat_ofNat_small (by omega)
  simp only [u64LE, hr, List.map_cons, List.map_nil, natOfLE, e]
  omega

theorem readU64LE_u64LE (n : Nat) (h : n < 2 ^ 64) (rest : Bytes) : readU64LE (u64LE n ++ rest) = some (n, rest) := by
  unfold readU64LE
  have hl := u64LE_length n
  rw [if_neg (by rw [List.length_append]; omega)]
  have h1 : (u64LE n ++ rest).take 8 = u64LE n := by rw [← hl]; exact List.take_left
  have h2 : (u64LE n ++ rest).drop 8 = rest := by rw [← hl]; exact List.drop_left
  rw [h1, h2, natOfLE_u64LE n h]

theorem readBuf_encBuf (b rest : Bytes) (h : b.length < 2 ^ 64) : readBuf (encBuf b ++ rest) = some (b, rest) := by
  unfold readBuf encBuf
  rw [List.append_assoc, readU64LE_u64LE _ h]
  simp only [List.length_append]
  rw [if_neg (by omega), List.take_left, List.drop_left]

theorem readElems_enc {T : Type} [Protobuf T] (l : List T) (rest : Bytes)
    (hl : (l.flatMap (fun v => encBuf (pbEncode v))).length < 2 ^ 64)
    (hrt : ∀ v ∈ l, (pbEncode v).length < 2 ^ 64 → pbDecode (pbEncode v) = .ok v) :
    readElems l.length (l.flatMap (fun v => encBuf (pbEncode v)) ++ rest) = .ok l := by
  induction l generalizing rest with
  | nil => rfl
  | cons v l ih =>
    rw [List.flatMap_cons, List.length_append] at hl
    have hv : (pbEncode v).length < 2 ^ 64 := by
      have : (encBuf (pbEncode v)).length = 8 + (pbEncode v).length := by
        rw [encBuf, List.length_append, u64LE_length]
      omega
    rw [List.flatMap_cons, List.length_cons, List.append_assoc, readElems, readBuf_encBuf _ _ hv]
    simp only [hrt v (by simp) hv]
    rw [pok_bind, ih rest (by omega) (fun w hw => hrt w (by simp [hw]))]
    rfl

theorem flatMap_length_ge {T : Type} [Protobuf T] (l : List T) :
    l.length ≤ (l.flatMap (fun v => encBuf (pbEncode v))).length := by
  induction l with
  | nil => simp
  | cons v l ih =>
    rw [List.flatMap_cons, List.length_append, List.length_cons]
    have : (encBuf (pbEncode v)).length = 8 + (pbEncode v).length := by rw [encBuf, List.length_append, u64LE_length]
    omega

theorem decMulti_encMulti {T : Type} [Protobuf T] (l : List T) (rest : Bytes) (hl : (encMulti l).length < 2 ^ 64)
    (hrt : ∀ v ∈ l, (pbEncode v).length < 2 ^ 64 → pbDecode (pbEncode v) = .ok v) :
    decMulti (encMulti l ++ rest) = .ok l := by
  unfold encMulti at hl
  rw [List.length_append] at hl
  have := flatMap_length_ge l
  unfold decMulti encMulti
  rw [List.append_assoc, readU64LE_u64LE _ (by omega)]
  exact readElems_enc l rest (by omega) hrt

/-! ### C50 -/

/-- The message can be transmitted unchanged: it contains no deployment of a contract other than an asset. -/
def RpcResponse.clean : RpcResponse → Prop
  | .pullEpochs _ => True
  | .pullTxs txs => ∀ t ∈ txs, t.raw.action.deploysNonAsset = false

/-- **C50, the true part.**  A response that contains no deployment of a contract other than an asset is received as it
was sent. -/
theorem C50_round_trip_partial (r : RpcResponse) (hc : r.clean) (hl : r.enc.length < 2 ^ 64) :
    RpcResponse.dec r.enc = .ok r := by
  unfold RpcResponse.dec
  cases r with
  | pullEpochs e =>
    simp only [RpcResponse.enc, List.length_append, List.length_singleton] at hl
    simp only [RpcResponse.enc, List.getLast?_concat, List.dropLast_concat, if_true]
    rw [C44_round_trip_partial.2.2.2.2.2.2.2.2.2.2.2.2.2.2.1 e trivial (by omega)]
  | pullTxs txs =>
    simp only [RpcResponse.enc, List.length_append, List.length_singleton] at hl
    simp only [RpcResponse.enc, List.getLast?_concat, List.dropLast_concat]
    rw [if_neg (by decide)]
    simp only [if_true]
    have := decMulti_encMulti txs [] (by omega)
      (fun v hv h => C48_round_trip_partial.2.2.2.2.2.2.2.1 v (hc v hv) h)
    rw [List.append_nil] at this
    rw [this]

/-- **C50, kinds.**  An encoded response is never taken for a response of the other kind. -/
theorem C50_kind (r r' : RpcResponse) (h : RpcResponse.dec r.enc = .ok r') :
    (∃ e e', r = .pullEpochs e ∧ r' = .pullEpochs e') ∨ (∃ t t', r = .pullTxs t ∧ r' = .pullTxs t') := by
  unfold RpcResponse.dec at h
  cases r with
  | pullEpochs e =>
    simp only [RpcResponse.enc, List.getLast?_concat, List.dropLast_concat, if_true] at h
    generalize (FixedCodec.decode (FixedCodec.encode e) : Dec Epoch) = d at h
    cases d with
    | ok x => exact .inl ⟨e, x, rfl, (Except.ok.inj h).symm⟩
    | error x => cases x <;> cases h
  | pullTxs txs =>
    simp only [RpcResponse.enc, List.getLast?_concat, List.dropLast_concat] at h
    rw [if_neg (by decide), if_pos trivial] at h
    generalize (decMulti (encMulti txs) : PDec (List SignedTx)) = d at h
    cases d with
    | ok x => exact .inr ⟨txs, x, rfl, (Except.ok.inj h).symm⟩
    | error x => cases x <;> cases h

theorem readElems_noPanic (n : Nat) : ∀ bs, PNoPanic (readElems (T := SignedTx) n bs) := by
  induction n with
  | zero => intro bs; exact PNoPanic.ok _
  | succ n ih =>
    intro bs
    rw [readElems]
    split
    · intro h; cases h
    · exact PNoPanic.bind (C47_protobuf_no_panic_partial _).1 (fun _ => PNoPanic.bind (ih _) (fun _ => PNoPanic.ok _))

theorem decMulti_noPanic (bs : Bytes) : PNoPanic (decMulti (T := SignedTx) bs) := by
  unfold decMulti
  split
  · intro h; cases h
  · exact readElems_noPanic _ _

/-- **C50, exactly when a received response aborts the node.** -/
theorem C50_panic_iff (bs : Bytes) :
    RpcResponse.dec bs = .error .panic ↔
      bs = [] ∨ (∃ body flag, bs = body ++ [flag] ∧ flag ≠ flagEpoch ∧ flag ≠ flagTxs) ∨
      (∃ body, bs = body ++ [flagEpoch] ∧ decode (T := Epoch) body = .error .panic) := by
  rcases List.eq_nil_or_concat bs with rfl | ⟨body, flag, rfl⟩
  · simp [RpcResponse.dec]
  · rw [List.concat_eq_append]
    have hinj : ∀ (a b : Bytes) (x y : UInt8), a ++ [x] = b ++ [y] ↔ a = b ∧ x = y := by
      intro a b x y; rw [List.append_eq_append_iff_of_size_eq_right (by simp)]; simp
    simp only [RpcResponse.dec, List.getLast?_concat, List.dropLast_concat]
    by_cases h1 : flag = flagEpoch
    · subst h1
      rw [if_pos rfl]
      constructor
      · intro h
        refine .inr (.inr ⟨body, rfl, ?_⟩)
        cases hd : (FixedCodec.decode body : Dec Epoch) with
        | ok x => rw [hd] at h; cases h
        | error x =>
          rw [hd] at h
          cases x with
          | panic => rfl
          | _ => exact absurd (Except.error.inj h) (by decide)
      · rintro (h | ⟨b, f, h, h2, _⟩ | ⟨b, h, h2⟩)
        · simp at h
        · exact absurd ((hinj _ _ _ _).mp h).2.symm h2
        · rw [((hinj _ _ _ _).mp h).1, show (FixedCodec.decode b : Dec Epoch) = .error .panic from h2]
    · rw [if_neg h1]
      by_cases h2 : flag = flagTxs
      · subst h2
        rw [if_pos rfl]
        constructor
        · intro h
          have hp := decMulti_noPanic body
          cases hd : (decMulti body : PDec (List SignedTx)) with
          | ok x => rw [hd] at h; cases h
          | error x =>
            rw [hd] at h hp
            cases x with
            | panic => exact absurd rfl hp
            | _ => exact absurd (Except.error.inj h) (by decide)
        · rintro (h | ⟨b, f, h, _, h3⟩ | ⟨b, h, _⟩)
          · simp at h
          · exact absurd ((hinj _ _ _ _).mp h).2.symm h3
          · exact absurd ((hinj _ _ _ _).mp h).2 h1
      · rw [if_neg h2]
        exact ⟨fun _ => .inr (.inl ⟨body, flag, rfl, h1, h2⟩), fun _ => rfl⟩

/-- **C50 refuted.**  A batch with an `App` deployment is received as a different batch; an empty response, a response
with an unknown last byte and a malformed epoch abort the receiving node. -/
theorem C50_refuted :
    (∃ r r', r.enc.length < 2 ^ 64 ∧ RpcResponse.dec r.enc = .ok r' ∧ r' ≠ r) ∧
    RpcResponse.dec [] = .error .panic ∧ RpcResponse.dec [1, 2, 3] = .error .panic ∧
    (∃ body, RpcResponse.dec (body ++ [flagEpoch]) = .error .panic) := by
  refine ⟨⟨.pullTxs [Demo.deployTx], .pullTxs [Demo.deployTx .library], by decide +kernel, ?_, by decide⟩, rfl, by decide, ?_⟩
  · have h : (RpcResponse.dec (RpcResponse.enc (.pullTxs [Demo.deployTx]))).toOption =
        some (.pullTxs [Demo.deployTx .library]) := by decide +kernel
    cases hx : RpcResponse.dec (RpcResponse.enc (.pullTxs [Demo.deployTx])) with
    | error e => rw [hx] at h; cases h
    | ok x => rw [hx] at h; rw [Option.some.inj h]
  · refine ⟨(Item.list [Demo.badHeader]).enc, (C50_panic_iff _).mpr (.inr (.inr ⟨_, rfl, ?_⟩))⟩
    exact eq_panic_of_panics (by decide +kernel)

/-- Hypotheses of `C50_round_trip_partial` are met by a batch of two transactions. -/
example : (RpcResponse.pullTxs [Demo.tx 1 Demo.callTx.action, Demo.pay 1 2 5]).clean ∧
    (RpcResponse.pullTxs [Demo.tx 1 Demo.callTx.action, Demo.pay 1 2 5]).enc.length < 2 ^ 64 := by
  refine ⟨?_, by decide +kernel⟩
  intro t ht
  simp only [List.mem_cons, List.not_mem_nil, or_false] at ht
  rcases ht with rfl | rfl <;> rfl

/-- **C50, mempool messages.**  The bodies of the memory pool's messages (batches of new transactions, requested hashes,
pushed transactions) are received as they were sent, except for deployments of contracts other than assets. -/
theorem C50_mempool_messages_partial :
    (∀ (hashes : List Hash), (encMulti hashes).length < 2 ^ 64 → decMulti (encMulti hashes) = .ok hashes) ∧
    (∀ (txs : List SignedTx), (∀ t ∈ txs, t.raw.action.deploysNonAsset = false) → (encMulti txs).length < 2 ^ 64 →
      decMulti (encMulti txs) = .ok txs) ∧
    (∀ bs, decMulti (T := SignedTx) bs ≠ .error .panic) := by
  refine ⟨fun l hl => ?_, fun l hc hl => ?_, decMulti_noPanic⟩
  · have := decMulti_encMulti l [] hl (fun v _ h => C48_round_trip_partial.2.1 v trivial h)
    rwa [List.append_nil] at this
  · have := decMulti_encMulti l [] hl (fun v hv h => C48_round_trip_partial.2.2.2.2.2.2.2.1 v (hc v hv) h)
    rwa [List.append_nil] at this

end Huobi
