import Verif.Props.Fairness
import Verif.Props.Lifetime
import Verif.Props.Proposal
/-
C95: a submitted transaction is executed.  The progress of the pool (C91) carried to the whole node: proposals that the node makes are
committed, and the transaction ends in a recorded epoch with a receipt.
-/
namespace Huobi

/-- A proposal that the node makes now finds the transaction within its time-out window. -/
def Node.Unexpired (cfg : NodeCfg) (n : Node) (tx : SignedTx) : Prop :=
  ∀ e, n.store.latest = some e → e.header.epochId < tx.raw.timeout ∧ tx.raw.timeout ≤ e.header.epochId + cfg.timeoutGap

/-- A call that cannot lose the transaction: a proposal is made while it has not expired, and a commit of an epoch that contains it
succeeds.  Everything else is allowed, with any arguments, peers and failures. -/
def Harmless (cfg : NodeCfg) (tx : SignedTx) (n : Node) : NodeOp → Prop
  | .propose _ _ => n.Unexpired cfg tx
  | .commit io id pill proof => tx.txHash ∈ pill.epoch.orderedTxHashes → ∃ h, (n.commit cfg io id pill proof).1 = .ok h
  | _ => True

/-- `n'` comes after `n`, and `k` times in between the node made a proposal that was then committed. -/
inductive Proposing (cfg : NodeCfg) (tx : SignedTx) (n : Node) : Nat → Node → Prop
  | refl : Proposing cfg tx n 0 n
  | other {k m} (op : NodeOp) : Proposing cfg tx n k m → Harmless cfg tx m op → Proposing cfg tx n k (m.step cfg op)
  | own {k m m1 m2 m3 now id pill hash io proof h} : Proposing cfg tx n k m → m.Unexpired cfg tx →
      m.getEpoch cfg now id = (.ok (pill, hash), m1) → Runs cfg (Harmless cfg tx) m1 m2 →
      m2.commit cfg io id pill proof = (.ok h, m3) → Proposing cfg tx n (k + 1) m3

/-- The transaction is in a recorded epoch, or in line behind `pre`. -/
def Placed (cfg : NodeCfg) (limit : UInt64) (e : Entry) (pre : List Entry) (n : Node) : Prop :=
  (∃ d ∈ n.log, e.tx ∈ d.txs) ∨
  (n.pool.cache.Good ∧ n.pool.gap = cfg.timeoutGap ∧ n.status.cyclesLimit = limit ∧ (∃ l, n.store.latest = some l) ∧
    ∃ pre', pre'.Sublist pre ∧ n.pool.cache.InLine pre' e)

theorem step_log (cfg : NodeCfg) (n : Node) (op : NodeOp) (d : Done) (h : d ∈ n.log) : d ∈ (n.step cfg op).log :=
  step_induct (I := fun n => d ∈ n.log) (fun n n' P hn he => by
    cases he with
    | quiet _ _ _ h4 => rw [h4]; exact hn
    | proof _ _ _ _ h4 => rw [h4]; exact hn
    | failed _ _ _ _ _ _ _ h4 => rw [h4]; exact hn
    | done _ _ _ _ _ h4 => rw [h4]; exact List.mem_cons_of_mem _ hn) h op

theorem step_fixed (cfg : NodeCfg) (n : Node) (op : NodeOp) {limit : UInt64} (h : n.status.cyclesLimit = limit ∧ ∃ l, n.store.latest = some l) :
    (n.step cfg op).status.cyclesLimit = limit ∧ ∃ l, (n.step cfg op).store.latest = some l :=
  step_induct (I := fun n => n.status.cyclesLimit = limit ∧ ∃ l, n.store.latest = some l) (fun n n' P hn he => by
    cases he with
    | quiet h1 _ h3 _ => rw [h1, h3]; exact hn
    | proof _ h1 _ h3 _ => rw [h1, h3]; exact hn
    | failed d j _ _ hj h1 h3 _ => rw [h1, h3, latest_take cfg d _ j hj]; exact hn
    | done d _ _ h1 h3 _ => rw [h1, h3, latest_all]; exact ⟨hn.1, _, rfl⟩) h op

theorem getFull_mem {p : MemPool} {hs : List Hash} {txs : List SignedTx} {tx : SignedTx} (h : p.getFullTxs hs = .ok txs)
    (hg : p.cache.get tx.txHash = some tx) (hm : tx.txHash ∈ hs) : tx ∈ txs := by
  simp only [MemPool.getFullTxs] at h
  split at h
  · cases h
  · injection h with h
    rw [← h]
    exact List.mem_filterMap.2 ⟨_, hm, by simp [MemPool.lookup, hg]⟩

theorem inLine_get {p : MemPool} (g : p.cache.Good) {pre : List Entry} {e : Entry} (h : p.cache.InLine pre e) :
    p.cache.get e.tx.txHash = some e.tx := by
  obtain ⟨post, h⟩ := h
  exact (get_eq_some g).2 ⟨e, by rw [h]; simp, rfl, rfl⟩

/-- A commit that succeeds while the transaction is in line. -/
theorem commit_ok_placed {cfg : NodeCfg} {io : CommitIo} {id h : UInt64} {pill : Pill} {proof : OverlordProof} {n n' : Node}
    (hc : n.commit cfg io id pill proof = (.ok h, n')) :
    ∃ d, n'.log = d :: n.log ∧ n.pool.getFullTxs pill.epoch.orderedTxHashes = .ok d.txs ∧ n'.pool = n.pool.flush pill.epoch.orderedTxHashes := by
  have hend := commit_end cfg io id pill proof n
  rw [hc] at hend
  generalize hx : (Except.ok h, n') = x at hend
  cases hend with
  | @done d db hd hr =>
    injection hx with h1 h2
    subst h2
    exact ⟨d, rfl, hd.txs, rfl⟩
  | _ => cases hx

/-- One call keeps the transaction in line, no further back, or records it. -/
theorem placed_step {cfg : NodeCfg} {limit : UInt64} {e : Entry} {pre : List Entry} {n : Node} (hp : Placed cfg limit e pre n) {op : NodeOp}
    (ho : Harmless cfg e.tx n op) : Placed cfg limit e pre (n.step cfg op) := by
  rcases hp with ⟨d, hd, hm⟩ | ⟨g, hgap, hl, hs, pre', hsub, hin⟩
  · exact .inl ⟨d, step_log cfg n op d hd, hm⟩
  obtain ⟨hl', hs'⟩ := step_fixed cfg n op ⟨hl, hs⟩
  have one : ∀ mop : MemOp, mop.Leaves n.pool.gap e.tx → (n.step cfg op).pool = n.pool.step cfg.mem mop → Placed cfg limit e pre (n.step cfg op) := by
    intro mop hmop heq
    obtain ⟨g1, pre1, hs1, h1⟩ := step_inLine cfg.mem g hin hmop
    refine .inr ⟨by rw [heq]; exact g1, by rw [heq, (step_const cfg.mem n.pool mop).2]; exact hgap, hl', hs', pre1, hs1.trans hsub, by rw [heq]; exact h1⟩
  cases op with
  | insertTx o b tx => exact one (.insert (n.view cfg (fun _ => none) b) o tx) trivial rfl
  | propose now id =>
    refine one (.package (n.view cfg (fun _ => none) true) n.status.cyclesLimit) ?_ (getEpoch_pool cfg now id n)
    intro c ep hv
    simp only [Node.view, Option.map_eq_some_iff, Prod.mk.injEq] at hv
    obtain ⟨l, hl1, -, rfl⟩ := hv
    rw [hgap]
    exact ho l hl1
  | check p1 p2 ha pill =>
    rcases (checkEpoch_spec cfg p1 p2 ha pill n).1 with h | h | h
    · exact one (.getFullTxs []) trivial h
    · exact one (.syncProposeTxs _ _) trivial h
    · obtain ⟨g1, pre1, hs1, h1⟩ := step_inLine cfg.mem g hin (op := .syncProposeTxs (n.view cfg p1 true) pill.proposeHashes) trivial
      obtain ⟨g2, pre2, hs2, h2⟩ := step_inLine cfg.mem g1 h1 (op := .ensureOrderTxs (n.view cfg p2 true) pill.epoch.orderedTxHashes) trivial
      have heq : (n.step cfg (.check p1 p2 ha pill)).pool = (n.pool.step cfg.mem (.syncProposeTxs (n.view cfg p1 true) pill.proposeHashes)).step
        cfg.mem (.ensureOrderTxs (n.view cfg p2 true) pill.epoch.orderedTxHashes) := h
      exact .inr ⟨by rw [heq]; exact g2, by rw [heq, (step_const _ _ _).2, (step_const _ _ _).2]; exact hgap, hl', hs', pre2,
        (hs2.trans hs1).trans hsub, by rw [heq]; exact h2⟩
  | commit io id pill proof =>
    by_cases hm : e.tx.txHash ∈ pill.epoch.orderedTxHashes
    · obtain ⟨h, hok⟩ := ho hm
      obtain ⟨d, h1, h2, -⟩ := commit_ok_placed (n' := (n.commit cfg io id pill proof).2) (Prod.ext hok rfl)
      exact .inl ⟨d, by simp only [Node.step, h1]; exact List.mem_cons_self, getFull_mem h2 (inLine_get g hin) hm⟩
    · rcases commit_pool cfg io id pill proof n with ⟨h, -⟩ | ⟨h, -⟩
      · exact one (.getFullTxs []) trivial h
      · exact one (.flush _) hm h
  | sync io msg => exact one (.getFullTxs []) trivial (updateEpoch_pool cfg io msg n)

theorem placed_runs {cfg : NodeCfg} {limit : UInt64} {e : Entry} {pre : List Entry} {n n' : Node} (hp : Placed cfg limit e pre n)
    (hr : Runs cfg (Harmless cfg e.tx) n n') : Placed cfg limit e pre n' := by
  induction hr with
  | refl => exact hp
  | step op _ ho ih => exact placed_step ih ho

/-- What the order list of a proposal holds while the transaction is in line: itself, or the head of the line. -/
theorem getEpoch_order {cfg : NodeCfg} {limit : UInt64} {e : Entry} {pre : List Entry} {n n1 : Node} {now id : UInt64} {pill : Pill} {hash : Bytes}
    (g : n.pool.cache.Good) (hgap : n.pool.gap = cfg.timeoutGap) (hl : n.status.cyclesLimit = limit) (hin : n.pool.cache.InLine pre e)
    (hfit : ∀ x ∈ pre ++ [e], x.tx.raw.fee.cycle ≤ limit) (hu : n.Unexpired cfg e.tx)
    (hg : n.getEpoch cfg now id = (.ok (pill, hash), n1)) :
    n1.pool.cache.Good ∧ n1.pool.gap = cfg.timeoutGap ∧ ∃ pre1, pre1.Sublist pre ∧ n1.pool.cache.InLine pre1 e ∧
      (e.tx.txHash ∈ pill.epoch.orderedTxHashes ∨ (pre1.filter (fun x => x.tx.txHash ∉ pill.epoch.orderedTxHashes)).length < pre1.length) := by
  have hpool := getEpoch_pool cfg now id n
  rw [hg] at hpool
  simp only at hpool
  unfold Node.getEpoch at hg
  cases hla : n.store.latest with
  | none =>
    have : n.pool.package (n.view cfg (fun _ => none) true) n.status.cyclesLimit = (.error (.other "get_latest_epoch"), n.pool) := by
      simp [MemPool.package, Node.view, hla]
    rw [this] at hg
    cases hg
  | some l =>
    obtain ⟨hw1, hw2⟩ := hu l hla
    rw [← hgap] at hw2
    have hwin : e.inWindow l.header.epochId (l.header.epochId + n.pool.gap) = true := inWindow_iff.2 ⟨hw1, hw2⟩
    have hpk := package_exact g n.status.cyclesLimit l.header.epochId (l.header.epochId + n.pool.gap)
    have h2 := hin.package g (l := n.status.cyclesLimit) hwin
    obtain ⟨post, hent⟩ := hin
    have hlive : n.pool.cache.abs.entries.filter (Entry.inWindow l.header.epochId (l.header.epochId + n.pool.gap)) =
        pre.filter (Entry.inWindow l.header.epochId (l.header.epochId + n.pool.gap)) ++
          e :: post.filter (Entry.inWindow l.header.epochId (l.header.epochId + n.pool.gap)) := by
      rw [hent, List.filter_append, List.filter_cons_of_pos hwin]
    rw [hlive, hl] at hpk
    have he : n.pool.package (n.view cfg (fun _ => none) true) n.status.cyclesLimit =
        ((n.pool.cache.package limit l.header.epochId (l.header.epochId + n.pool.gap)).1,
          { n.pool with cache := (n.pool.cache.package limit l.header.epochId (l.header.epochId + n.pool.gap)).2 }) := by
      simp [MemPool.package, Node.view, hla, hl]
    rw [hl] at h2
    rw [he] at hpool hg
    rw [hpk] at hg
    generalize hpre2 : pre.filter (Entry.inWindow l.header.epochId (l.header.epochId + n.pool.gap)) = pre2 at h2 hg
    have hs2 : pre2.Sublist pre := by rw [← hpre2]; exact List.filter_sublist
    generalize post.filter (Entry.inWindow l.header.epochId (l.header.epochId + n.pool.gap)) = post2 at hg
    simp only at hg
    split at hg
    · cases hg
    · injection hg with hg1 _
      injection hg1 with hg1
      injection hg1 with hg1 _
      have hord : pill.epoch.orderedTxHashes = hashesOf (selectOrder limit (pre2 ++ e :: post2)) := by rw [← hg1]
      refine ⟨by rw [hpool]; exact h2.1, by rw [hpool]; exact hgap, pre2, hs2, by rw [hpool]; exact h2.2, ?_⟩
      rw [hord]
      by_cases hin : e.tx.txHash ∈ hashesOf (selectOrder limit (pre2 ++ e :: post2))
      · exact .inl hin
      · right
        rcases mem_takeGreedy_or_prefix limit 0 pre2 post2 e with hm | ⟨xs, ys, k1, k2, k3, k4⟩
        · exact absurd (List.mem_map_of_mem (f := fun e : Entry => e.tx.txHash) hm) hin
        · have hxs : selectOrder limit (pre2 ++ e :: post2) = xs := k2
          rw [hxs]
          cases hp2 : pre2 with
          | nil =>
            exfalso
            have := k4 hp2
            have h' := hfit e (by simp)
            rw [UInt64.zero_add] at this
            exact absurd h' (by simpa using this)
          | cons y ys' =>
            have hy : y.tx.raw.fee.cycle ≤ limit := hfit y (by
              rw [List.mem_append]; left; exact hs2.subset (by rw [hp2]; simp))
            have hne := k3 y ys' hp2 (by rw [UInt64.zero_add]; exact hy)
            rw [← hp2, k1, List.filter_append]
            have hnil : xs.filter (fun e => e.tx.txHash ∉ hashesOf xs) = [] := by
              rw [List.filter_eq_nil_iff]
              intro x hx
              have : x.tx.txHash ∈ hashesOf xs := List.mem_map_of_mem (f := fun e : Entry => e.tx.txHash) hx
              simp [this]
            rw [hnil, List.nil_append, List.length_append]
            have h5 := List.length_filter_le (fun e => decide (e.tx.txHash ∉ hashesOf xs)) ys
            have h6 : 0 < xs.length := List.length_pos_iff.2 hne
            omega

/-- A proposal that is committed records the transaction or moves it up. -/
theorem own_placed {cfg : NodeCfg} {limit : UInt64} {e : Entry} {pre : List Entry} {m m1 m2 m3 : Node} {now id h : UInt64} {pill : Pill}
    {hash : Bytes} {io : CommitIo} {proof : OverlordProof} (hp : Placed cfg limit e pre m) (hfit : ∀ x ∈ pre ++ [e], x.tx.raw.fee.cycle ≤ limit)
    (hu : m.Unexpired cfg e.tx) (hg : m.getEpoch cfg now id = (.ok (pill, hash), m1)) (hr : Runs cfg (Harmless cfg e.tx) m1 m2)
    (hc : m2.commit cfg io id pill proof = (.ok h, m3)) :
    (∃ d ∈ m3.log, e.tx ∈ d.txs) ∨ ∃ pre', pre'.Sublist pre ∧ pre'.length < pre.length ∧ Placed cfg limit e pre' m3 := by
  have hm1 : m1 = m.step cfg (.propose now id) := by simp only [Node.step, hg]
  have hm3 : m3 = m2.step cfg (.commit io id pill proof) := by simp only [Node.step, hc]
  rcases hp with ⟨d, hd, hm⟩ | ⟨g, hgap, hl, hs, pre0, hsub, hin⟩
  · left
    have : Placed cfg limit e pre m2 := placed_runs (.inl ⟨d, by rw [hm1]; exact step_log cfg m _ d hd, hm⟩) hr
    have hd2 : ∀ {a b : Node}, Runs cfg (Harmless cfg e.tx) a b → d ∈ a.log → d ∈ b.log := by
      intro a b hr
      induction hr with
      | refl => exact fun h => h
      | step op _ _ ih => exact fun h => step_log cfg _ op d (ih h)
    exact ⟨d, by rw [hm3]; exact step_log cfg _ _ d (hd2 hr (by rw [hm1]; exact step_log cfg m _ d hd)), hm⟩
  · obtain ⟨g1, hgap1, pre1, hs1, hin1, hord⟩ := getEpoch_order g hgap hl hin
      (fun x hx => hfit x (by simp only [List.mem_append] at hx ⊢; exact hx.imp (fun hx => hsub.subset hx) (fun h => h))) hu hg
    obtain ⟨hl1, hst1⟩ := step_fixed cfg m (.propose now id) ⟨hl, hs⟩
    rw [← hm1] at hl1 hst1
    have hp1 : Placed cfg limit e pre1 m1 := .inr ⟨g1, hgap1, hl1, hst1, pre1, .refl _, hin1⟩
    have hp2 := placed_runs hp1 hr
    obtain ⟨d, hd1, hd2, hd3⟩ := commit_ok_placed hc
    rcases hp2 with ⟨d', hd', hm'⟩ | ⟨g2, hgap2, hl2, hst2, pre2, hs2, hin2⟩
    · exact .inl ⟨d', by rw [hd1]; exact List.mem_cons_of_mem _ hd', hm'⟩
    · rcases hord with hord | hord
      · exact .inl ⟨d, by rw [hd1]; exact List.mem_cons_self, getFull_mem hd2 (inLine_get g2 hin2) hord⟩
      · by_cases hx : e.tx.txHash ∈ pill.epoch.orderedTxHashes
        · exact .inl ⟨d, by rw [hd1]; exact List.mem_cons_self, getFull_mem hd2 (inLine_get g2 hin2) hx⟩
        · right
          have h3 := hin2.flush g2 hx
          obtain ⟨hl3, hst3⟩ := step_fixed cfg m2 (.commit io id pill proof) ⟨hl2, hst2⟩
          rw [← hm3] at hl3 hst3
          have hsl := (hs2.filter (fun x => decide (x.tx.txHash ∉ pill.epoch.orderedTxHashes))).length_le
          have hl4 := (hs1.trans hsub).length_le
          refine ⟨_, (List.filter_sublist.trans hs2).trans (hs1.trans hsub), Nat.lt_of_le_of_lt hsl (Nat.lt_of_lt_of_le hord hl4),
            .inr ⟨by rw [hd3]; exact h3.1, by rw [hd3]; exact hgap2, hl3, hst3, _, .refl _, by rw [hd3]; exact h3.2⟩⟩

theorem proposing_placed {cfg : NodeCfg} {limit : UInt64} {e : Entry} {pre : List Entry} {n n' : Node} {k : Nat}
    (hp : Placed cfg limit e pre n) (hfit : ∀ x ∈ pre ++ [e], x.tx.raw.fee.cycle ≤ limit) (hr : Proposing cfg e.tx n k n') :
    (∃ d ∈ n'.log, e.tx ∈ d.txs) ∨ ∃ pre', pre'.Sublist pre ∧ pre'.length + k ≤ pre.length ∧ Placed cfg limit e pre' n' := by
  induction hr with
  | refl => exact .inr ⟨pre, .refl _, by omega, hp⟩
  | other op _ ho ih =>
    rcases ih with ⟨d, hd, hm⟩ | ⟨pre', hs, hlen, hpl⟩
    · exact .inl ⟨d, step_log cfg _ op d hd, hm⟩
    · exact .inr ⟨pre', hs, hlen, placed_step hpl ho⟩
  | own _ hu hg hr hc ih =>
    have sub : ∀ pre' : List Entry, pre'.Sublist pre → ∀ x ∈ pre' ++ [e], x.tx.raw.fee.cycle ≤ limit := fun pre' hs x hx =>
      hfit x (by simp only [List.mem_append] at hx ⊢; exact hx.imp (fun hx => hs.subset hx) (fun h => h))
    rcases ih with hdone | ⟨pre', hs, hlen, hpl⟩
    · rcases own_placed (pre := []) (.inl hdone) (sub [] (List.nil_sublist _)) hu hg hr hc with h | ⟨q, hq, hlt, -⟩
      · exact .inl h
      · exact absurd hlt (by simp)
    · rcases own_placed hpl (sub _ hs) hu hg hr hc with h | ⟨q, hq, hlt, hpl'⟩
      · exact .inl h
      · exact .inr ⟨q, hq.trans hs, by omega, hpl'⟩

/-- The calls of `Proposing` are calls of a lifetime. -/
theorem Proposing.history {cfg : NodeCfg} {g : Genesis} {tx : SignedTx} {n n' : Node} {k : Nat} {older : List Done}
    (h : History cfg g (fun _ _ => True) n older) (hr : Proposing cfg tx n k n') : History cfg g (fun _ _ => True) n' older := by
  induction hr with
  | refl => exact h
  | other op _ _ ih => exact .step op ih trivial
  | @own k m m1 m2 m3 now id pill hash io proof x _ _ hg hr hc ih =>
    have h1 : History cfg g (fun _ _ => True) m1 older := by
      have := History.step (.propose now id) ih trivial
      simp only [Node.step, hg] at this
      exact this
    have h2 : History cfg g (fun _ _ => True) m2 older := by
      clear hc
      induction hr with
      | refl => exact h1
      | step op _ _ ih => exact .step op ih trivial
    have := History.step (.commit io id pill proof) h2 trivial
    simp only [Node.step, hc] at this
    exact this

theorem Lives.limit {cfg : NodeCfg} {g : Genesis} {ok : Node → NodeOp → Prop} {n : Node} (h : Lives cfg g ok n) :
    n.status.cyclesLimit = cfg.cyclesLimit ∧ ∃ l, n.store.latest = some l := by
  induction h with
  | init h1 h2 => obtain ⟨e, he, hs, -, hst, -⟩ := startNode_some h2; exact ⟨by rw [hst]; rfl, e, by rw [hs]; exact he⟩
  | restart _ h1 h2 => obtain ⟨e, he, hs, -, hst, -⟩ := startNode_some h2; exact ⟨by rw [hst]; rfl, e, by rw [hs]; exact he⟩
  | step op _ _ ih => exact step_fixed cfg _ op ih

/-- **C95, part.**  A transaction in the pool of a node is executed: after as many committed proposals of the node as there were
transactions in its pool, it is in an epoch that the node recorded and the API shows a receipt for it, whatever other calls come in
between, if no pooled transaction asks for more cycles than an epoch may have, it does not expire, and commits of it succeed. -/
theorem C95_executed_partial {cfg : NodeCfg} {g : Genesis} {n n' : Node} {older : List Done} (h : History cfg g (fun _ _ => True) n older)
    {tx : SignedTx} (hg : n.pool.cache.get tx.txHash = some tx)
    (hfit : ∀ h' tx', n.pool.cache.get h' = some tx' → tx'.raw.fee.cycle ≤ cfg.cyclesLimit) {k : Nat} (hk : n.pool.cache.len ≤ k)
    (hr : Proposing cfg tx n k n') :
    (∃ d ∈ n'.log, tx ∈ d.txs ∧ d.resp.receipts.map (·.txHash) = d.txs.map (·.txHash)) ∧
    ∃ r, n'.apiReceipt tx.txHash = some r ∧ Genuine cfg g tx.txHash r := by
  have gd : n.pool.cache.Good := h.lives.good
  obtain ⟨ops, hpool⟩ := h.lives.pool
  have hgap : n.pool.gap = cfg.timeoutGap := by rw [← hpool]; exact (after_const _ _ _ ops).2
  obtain ⟨e, he, rfl, -⟩ := (get_eq_some gd).1 hg
  obtain ⟨pre, post, hent⟩ := List.append_of_mem he
  have hln : pre.length < k := by
    rw [← gd.abs_len, hent] at hk
    simp only [List.length_append, List.length_cons] at hk
    omega
  have hf : ∀ x ∈ pre ++ [e], x.tx.raw.fee.cycle ≤ cfg.cyclesLimit := fun x hx =>
    hfit x.tx.txHash x.tx ((get_eq_some gd).2 ⟨x, by
      rw [hent]; simp only [List.mem_append, List.mem_cons, List.not_mem_nil, or_false] at hx ⊢
      rcases hx with hx | hx <;> simp [hx], rfl, rfl⟩)
  have hpl : Placed cfg cfg.cyclesLimit e pre n := .inr ⟨gd, hgap, h.lives.limit.1, h.lives.limit.2, pre, .refl _, post, hent⟩
  rcases proposing_placed hpl hf hr with ⟨d, hd, hm⟩ | ⟨pre', -, hlen, -⟩
  · have h' := hr.history h
    have inv := h'.receiptInv
    refine ⟨⟨d, hd, hm, inv.named d (List.mem_append_left _ hd)⟩, ?_⟩
    have := inv.served d (List.mem_append_left _ hd) e.tx hm
    cases hx : n'.store.receipts e.tx.txHash with
    | none => rw [hx] at this; cases this
    | some r => exact ⟨r, hx, inv.genuine _ _ hx⟩
  · omega

/-! ### The hypotheses are met, and what happens without them -/

namespace Demo

theorem unexpired_of {n : Node} {tx : SignedTx}
    (h : n.store.latest.map (fun e => decide (e.header.epochId < tx.raw.timeout ∧ tx.raw.timeout ≤ e.header.epochId + ncfg.timeoutGap)) = some true) :
    n.Unexpired ncfg tx := by
  intro e he
  rw [he] at h
  simpa using h

/-- A proposal of the node that is committed at once. -/
theorem own_round {tx : SignedTx} {m n : Node} {k : Nat} (h : Proposing ncfg tx m k n)
    (hu : n.store.latest.map (fun e => decide (e.header.epochId < tx.raw.timeout ∧ tx.raw.timeout ≤ e.header.epochId + ncfg.timeoutGap)) = some true)
    (hp : (n.getEpoch ncfg 7 n.status.epochId).1.toOption.isSome = true)
    (hc : (((n.getEpoch ncfg 7 n.status.epochId).2.commit ncfg .ok n.status.epochId (proposal n) (oproof n.status.epochId)).1).toOption.isSome = true) :
    Proposing ncfg tx m (k + 1) (((n.getEpoch ncfg 7 n.status.epochId).2.commit ncfg .ok n.status.epochId (proposal n) (oproof n.status.epochId)).2) := by
  obtain ⟨hash, n', hg⟩ := proposal_ok n hp
  have hn' : n' = (n.getEpoch ncfg 7 n.status.epochId).2 := by rw [hg]
  cases hx : (n.getEpoch ncfg 7 n.status.epochId).2.commit ncfg .ok n.status.epochId (proposal n) (oproof n.status.epochId) with
  | mk r n3 =>
    rw [hx] at hc
    cases r with
    | error e => cases hc
    | ok x => exact .own h (unexpired_of hu) hg .refl (by rw [hn']; exact hx)

/-- Two payments are pooled. -/
def waiting : Node := inserted n0 [npay 1 2 10, npay 2 1 5 1]

/-- After one committed proposal, and after two. -/
def waited1 : Node := ((waiting.getEpoch ncfg 7 waiting.status.epochId).2.commit ncfg .ok waiting.status.epochId (proposal waiting) (oproof waiting.status.epochId)).2
def waited2 : Node := ((waited1.getEpoch ncfg 7 waited1.status.epochId).2.commit ncfg .ok waited1.status.epochId (proposal waited1) (oproof waited1.status.epochId)).2

theorem inserted_history {n : Node} {older : List Done} (h : History ncfg ngenesis (fun _ _ => True) n older) (txs : List SignedTx) :
    History ncfg ngenesis (fun _ _ => True) (inserted n txs) older := run_history _ h (fun _ _ _ => trivial)

end Demo

open Demo in
/-- The hypotheses of `C95_executed_partial` hold for the second of two payments and two committed proposals. -/
example : ∃ (n n' : Node) (tx : SignedTx), History ncfg ngenesis (fun _ _ => True) n [] ∧ n.log = [] ∧ n.pool.cache.get tx.txHash = some tx ∧
    n.pool.cache.len = 2 ∧ (∀ h' tx', n.pool.cache.get h' = some tx' → tx'.raw.fee.cycle ≤ ncfg.cyclesLimit) ∧ Proposing ncfg tx n 2 n' := by
  have h0 := inserted_history (n0_history _) [npay 1 2 10, npay 2 1 5 1]
  have h1 : waiting.log = [] := by decide +kernel
  have h2 : waiting.pool.cache.get (npay 2 1 5 1).txHash = some (npay 2 1 5 1) := by decide +kernel
  have h3 : waiting.pool.cache.len = 2 := by decide +kernel
  have h4 : ∀ e ∈ waiting.pool.cache.abs.entries, e.tx.raw.fee.cycle ≤ ncfg.cyclesLimit := by decide +kernel
  have h5 : Proposing ncfg (npay 2 1 5 1) waiting 1 waited1 :=
    own_round .refl (by decide +kernel) (by decide +kernel) (by decide +kernel)
  have h6 : Proposing ncfg (npay 2 1 5 1) waiting 2 waited2 :=
    own_round h5 (by decide +kernel) (by decide +kernel) (by decide +kernel)
  refine ⟨waiting, waited2, npay 2 1 5 1, h0, h1, h2, h3, ?_, h6⟩
  intro h' tx' hg
  obtain ⟨e, he, rfl, -⟩ := (get_eq_some h0.lives.good).1 hg
  exact h4 e he

namespace Demo

/-- A payment of a stranger without an account behind a good one. -/
def doomed : Node := inserted n0 [npay 1 2 10, npay 3 1 5]

/-- The node after its proposal failed to commit. -/
def lost : Node := ((doomed.getEpoch ncfg 7 doomed.status.epochId).2.commit ncfg .ok doomed.status.epochId (proposal doomed) (oproof doomed.status.epochId)).2

end Demo

open Demo in
/-- **C95 is false of the code as it stands.**  A good payment (alone it is executed) is pooled and has not expired; anybody submits a
payment from an account that does not exist; the node proposes both, and with no fault anywhere the commit fails and the good payment is
gone: not pooled, not recorded, no receipt. -/
theorem C95_refuted : ∃ (cfg : NodeCfg) (g : Genesis) (m0 n n1 n' : Node) (tx bad : SignedTx) (pill : Pill) (hash : Bytes) (proof : OverlordProof)
    (x : ExecErr), History cfg g (fun _ _ => True) n [] ∧ n.pool.cache.get tx.txHash = some tx ∧ n.Unexpired cfg tx ∧
    tx.raw.fee.cycle ≤ cfg.cyclesLimit ∧ bad.raw.fee.cycle ≤ cfg.cyclesLimit ∧
    (∃ m : Node, Proposing cfg tx (m0.step cfg (.insertTx true true tx)) 1 m ∧ ∃ d ∈ m.log, d.txs = [tx]) ∧
    n = (m0.step cfg (.insertTx true true tx)).step cfg (.insertTx true true bad) ∧
    n.getEpoch cfg 7 1 = (.ok (pill, hash), n1) ∧ pill.epoch.orderedTxHashes = [tx.txHash, bad.txHash] ∧
    n1.commit cfg .ok 1 pill proof = (.error (.exec x), n') ∧
    n'.pool.cache.get tx.txHash = none ∧ n'.log = [] ∧ n'.apiReceipt tx.txHash = none := by
  have h0 := inserted_history (n0_history _) [npay 1 2 10, npay 3 1 5]
  have h2 : doomed.pool.cache.get (npay 1 2 10).txHash = some (npay 1 2 10) := by decide +kernel
  have h3 : doomed.Unexpired ncfg (npay 1 2 10) := unexpired_of (by decide +kernel)
  have h4 : (doomed.getEpoch ncfg 7 doomed.status.epochId).1.toOption.isSome = true := by decide +kernel
  have h5 : doomed.status.epochId = 1 := by decide +kernel
  have h6 : (proposal doomed).epoch.orderedTxHashes = [(npay 1 2 10).txHash, (npay 3 1 5).txHash] := by decide +kernel
  have h7 : execErrOf ((doomed.getEpoch ncfg 7 doomed.status.epochId).2.commit ncfg .ok doomed.status.epochId (proposal doomed)
    (oproof doomed.status.epochId)).1 = some (.accountNotFound (naddr 3)) := by decide +kernel
  have h8 : lost.pool.cache.get (npay 1 2 10).txHash = none := by decide +kernel
  have h9 : lost.log = [] := by decide +kernel
  have h10 : lost.apiReceipt (npay 1 2 10).txHash = none := by decide +kernel
  have ha : Proposing ncfg (npay 1 2 10) (n0.step ncfg (.insertTx true true (npay 1 2 10))) 1 _ :=
    own_round .refl (by decide +kernel) (by decide +kernel) (by decide +kernel)
  have hb : ((((n0.step ncfg (.insertTx true true (npay 1 2 10))).getEpoch ncfg 7 (n0.step ncfg (.insertTx true true (npay 1 2 10))).status.epochId).2.commit
    ncfg .ok (n0.step ncfg (.insertTx true true (npay 1 2 10))).status.epochId (proposal (n0.step ncfg (.insertTx true true (npay 1 2 10))))
    (oproof (n0.step ncfg (.insertTx true true (npay 1 2 10))).status.epochId)).2).log.map (·.txs) = [[npay 1 2 10]] := by decide +kernel
  have hd : doomed = (n0.step ncfg (.insertTx true true (npay 1 2 10))).step ncfg (.insertTx true true (npay 3 1 5)) := rfl
  have hcy : (npay 1 2 10).raw.fee.cycle ≤ ncfg.cyclesLimit ∧ (npay 3 1 5).raw.fee.cycle ≤ ncfg.cyclesLimit := by decide +kernel
  have hlone : ∃ m : Node, Proposing ncfg (npay 1 2 10) (n0.step ncfg (.insertTx true true (npay 1 2 10))) 1 m ∧ ∃ d ∈ m.log, d.txs = [npay 1 2 10] := by
    refine ⟨_, ha, ?_⟩
    have hm : [npay 1 2 10] ∈ [[npay 1 2 10]] := by simp
    rw [← hb] at hm
    obtain ⟨d, hd, he⟩ := List.mem_map.1 hm
    exact ⟨d, hd, he⟩
  obtain ⟨hash, n1, hg⟩ := proposal_ok doomed h4
  have hn1 : n1 = (doomed.getEpoch ncfg 7 doomed.status.epochId).2 := by rw [hg]
  have hl : lost = (n1.commit ncfg .ok doomed.status.epochId (proposal doomed) (oproof doomed.status.epochId)).2 := by rw [hn1]; rfl
  rw [← hn1] at h7
  change History ncfg ngenesis (fun _ _ => True) doomed [] at h0
  generalize doomed = dm at *
  generalize lost = ls at *
  rw [h5] at hg h7 hl
  exact ⟨ncfg, ngenesis, n0, dm, n1, ls, npay 1 2 10, npay 3 1 5, proposal dm, hash, oproof 1, _, h0, h2, h3, hcy.1, hcy.2, hlone, hd, hg, h6,
    Prod.ext (execErrOf_some h7) hl.symm, h8, h9, h10⟩

end Huobi
