import Verif.Props.Mempool2
/-
C91: a pooled transaction is proposed after finitely many proposals.  False when a transaction ahead of it asks for more
cycles than an epoch may have: such a transaction is admitted, and as long as it is the oldest every order list is empty.
-/
namespace Huobi

/-- A call that leaves the pooled transaction `tx` alone: it does not flush it, and a package call finds it within its
time-out window. -/
def MemOp.Leaves (gap : UInt64) (tx : SignedTx) : MemOp → Prop
  | .flush hs => tx.txHash ∉ hs
  | .package v _ => ∀ c e, v.latest = some (c, e) → e < tx.raw.timeout ∧ tx.raw.timeout ≤ e + gap
  | _ => True

/-- One epoch: other calls on the pool, then a proposal whose order list is committed (flushed), together with whatever
else the committed epochs contain. -/
structure Turn where
  before : List MemOp
  view : MemView
  limit : UInt64
  others : List Hash

/-- The order list of the proposal, and the pool after the epoch. -/
def MemPool.turn (cr : MemCrypto) (p : MemPool) (t : Turn) : List Hash × MemPool :=
  match (t.before.foldl (MemPool.step cr) p).package t.view t.limit with
  | (.ok (order, _), p') => (order, p'.flush (order ++ t.others))
  | (.error _, p') => ([], p')

/-- Several epochs: their order lists. -/
def MemPool.turns (cr : MemCrypto) (p : MemPool) : List Turn → List (List Hash)
  | [] => []
  | t :: ts => (p.turn cr t).1 :: MemPool.turns cr (p.turn cr t).2 ts

/-- An epoch in which `tx` neither expires nor is committed by others. -/
structure Turn.Leaves (gap : UInt64) (tx : SignedTx) (t : Turn) : Prop where
  ops : ∀ op ∈ t.before, op.Leaves gap tx
  view : ∃ c e, t.view.latest = some (c, e) ∧ e < tx.raw.timeout ∧ tx.raw.timeout ≤ e + gap
  others : tx.txHash ∉ t.others

/-- `e` is pooled, after exactly `pre`. -/
def TxCache.InLine (c : TxCache) (pre : List Entry) (e : Entry) : Prop := ∃ post, c.abs.entries = pre ++ e :: post

theorem inWindow_iff {cu to' : UInt64} {e : Entry} :
    e.inWindow cu to' = true ↔ cu < e.tx.raw.timeout ∧ e.tx.raw.timeout ≤ to' := by simp [Entry.inWindow]

theorem TxCache.InLine.insert {c : TxCache} (g : c.Good) {pre : List Entry} {e : Entry} (h : c.InLine pre e) (tx : SignedTx) (b : Bool) :
    (c.insert tx b).2.Good ∧ (c.insert tx b).2.InLine pre e := by
  obtain ⟨_, g', h3⟩ := g.call_refines (.insert tx b)
  refine ⟨g', ?_⟩
  obtain ⟨post, h⟩ := h
  change (c.insert tx b).2.abs = _ at h3
  unfold TxCache.InLine
  rw [h3]
  simp only [RefPool.call]
  split
  · exact ⟨post, h⟩
  · split
    · exact ⟨post ++ [⟨tx, b⟩], by simp [h]⟩
    · exact ⟨post, h⟩

theorem TxCache.InLine.flush {c : TxCache} (g : c.Good) {pre : List Entry} {e : Entry} (h : c.InLine pre e) {hs : List Hash}
    (hh : e.tx.txHash ∉ hs) :
    (c.flush hs).Good ∧ (c.flush hs).InLine (pre.filter (fun e => e.tx.txHash ∉ hs)) e := by
  obtain ⟨_, g', h3⟩ := g.call_refines (.flush hs)
  refine ⟨g', ?_⟩
  obtain ⟨post, h⟩ := h
  change (c.flush hs).abs = _ at h3
  unfold TxCache.InLine
  rw [h3]
  refine ⟨post.filter (fun e => e.tx.txHash ∉ hs), ?_⟩
  simp only [RefPool.call, h, List.filter_append]
  rw [List.filter_cons_of_pos (by simpa using hh)]

theorem TxCache.InLine.package {c : TxCache} (g : c.Good) {pre : List Entry} {e : Entry} (h : c.InLine pre e) {l cu to' : UInt64}
    (hw : e.inWindow cu to' = true) :
    (c.package l cu to').2.Good ∧ (c.package l cu to').2.InLine (pre.filter (Entry.inWindow cu to')) e := by
  obtain ⟨_, g', h3⟩ := g.call_refines (.package l cu to')
  refine ⟨g', ?_⟩
  obtain ⟨post, h⟩ := h
  change (c.package l cu to').2.abs = _ at h3
  unfold TxCache.InLine
  rw [h3]
  refine ⟨post.filter (Entry.inWindow cu to'), ?_⟩
  simp only [RefPool.call, h, List.filter_append]
  rw [List.filter_cons_of_pos hw]

theorem step_inLine (cr : MemCrypto) {p : MemPool} (g : p.cache.Good) {pre : List Entry} {e : Entry} (h : p.cache.InLine pre e)
    {op : MemOp} (ho : op.Leaves p.gap e.tx) :
    (p.step cr op).cache.Good ∧ ∃ pre', pre'.Sublist pre ∧ (p.step cr op).cache.InLine pre' e := by
  cases op with
  | insert v o tx =>
    have hi := h.insert g tx false
    simp only [MemPool.step, MemPool.insert]
    split
    · exact ⟨g, pre, .refl _, h⟩
    · cases hx : p.cache.insert tx false with
      | mk r c =>
        rw [hx] at hi
        cases r with
        | error e => exact ⟨hi.1, pre, .refl _, hi.2⟩
        | ok u => simp only; split <;> exact ⟨hi.1, pre, .refl _, hi.2⟩
  | package v l =>
    simp only [MemPool.step, MemPool.package]
    cases hv : v.latest with
    | none => exact ⟨g, pre, .refl _, h⟩
    | some x =>
      have := h.package g (l := l) (inWindow_iff.2 (ho x.1 x.2 hv))
      exact ⟨this.1, _, List.filter_sublist, this.2⟩
  | flush hs =>
    have := h.flush g ho
    exact ⟨this.1, _, List.filter_sublist, this.2⟩
  | getFullTxs hs => exact ⟨g, pre, .refl _, h⟩
  | ensureOrderTxs v hs =>
    simp only [MemPool.step, MemPool.ensureOrderTxs]
    split
    · exact ⟨g, pre, .refl _, h⟩
    · split
      · exact ⟨g, pre, .refl _, h⟩
      · split <;> exact ⟨g, pre, .refl _, h⟩
  | syncProposeTxs v hs =>
    simp only [MemPool.step, MemPool.syncProposeTxs]
    split
    · exact ⟨g, pre, .refl _, h⟩
    · split
      · exact ⟨g, pre, .refl _, h⟩
      · rename_i txs _
        have key : ∀ (txs : List SignedTx) (c : TxCache), c.Good → c.InLine pre e →
            (txs.foldl (fun c tx => (c.insert tx true).2) c).Good ∧ (txs.foldl (fun c tx => (c.insert tx true).2) c).InLine pre e := by
          intro txs
          induction txs with
          | nil => intro c g h; exact ⟨g, h⟩
          | cons tx txs ih => intro c g h; exact ih _ (h.insert g tx true).1 (h.insert g tx true).2
        exact ⟨(key txs _ g h).1, pre, .refl _, (key txs _ g h).2⟩

theorem steps_inLine (cr : MemCrypto) {ops : List MemOp} : ∀ {p : MemPool} {pre : List Entry} {e : Entry}, p.cache.Good →
    p.cache.InLine pre e → (∀ op ∈ ops, op.Leaves p.gap e.tx) →
    (ops.foldl (MemPool.step cr) p).cache.Good ∧ (ops.foldl (MemPool.step cr) p).gap = p.gap ∧
      ∃ pre', pre'.Sublist pre ∧ (ops.foldl (MemPool.step cr) p).cache.InLine pre' e := by
  induction ops with
  | nil => intro p pre e g h _; exact ⟨g, rfl, pre, .refl _, h⟩
  | cons op ops ih =>
    intro p pre e g h ho
    obtain ⟨g1, pre1, hs1, h1⟩ := step_inLine cr g h (ho op (by simp))
    have hg := (step_const cr p op).2
    obtain ⟨g2, hg2, pre2, hs2, h2⟩ := ih g1 h1 (fun o hm => by rw [hg]; exact ho o (by simp [hm]))
    exact ⟨g2, hg2.trans hg, pre2, hs2.trans hs1, h2⟩

theorem mem_takeGreedy_or_prefix (limit acc : UInt64) (pre post : List Entry) (e : Entry) :
    e ∈ (takeGreedy limit acc (pre ++ e :: post)).1 ∨ ∃ xs ys, pre = xs ++ ys ∧ (takeGreedy limit acc (pre ++ e :: post)).1 = xs ∧
      (∀ y ys', pre = y :: ys' → acc + y.tx.raw.fee.cycle ≤ limit → xs ≠ []) ∧ (pre = [] → limit < acc + e.tx.raw.fee.cycle) := by
  induction pre generalizing acc with
  | nil =>
    by_cases hc : acc + e.tx.raw.fee.cycle ≤ limit
    · left; simp [takeGreedy, hc]
    · right; exact ⟨[], [], rfl, by simp [takeGreedy, hc], by simp, fun _ => by simpa using hc⟩
  | cons y pre ih =>
    by_cases hc : acc + y.tx.raw.fee.cycle ≤ limit
    · rcases ih (acc + y.tx.raw.fee.cycle) with h | ⟨xs, ys, h1, h2, -, -⟩
      · left; simp [takeGreedy, hc, h]
      · right; exact ⟨y :: xs, ys, by rw [h1]; rfl, by simp [takeGreedy, hc, h2], by simp, by simp⟩
    · right
      exact ⟨[], y :: pre, rfl, by simp [takeGreedy, hc], fun z zs hz hl => by cases hz; exact absurd hl hc, by simp⟩

/-- One epoch moves the transaction up, or proposes it. -/
theorem turn_inLine (cr : MemCrypto) {p : MemPool} {t : Turn} {pre : List Entry} {e : Entry} (g : p.cache.Good) (h : p.cache.InLine pre e)
    (hfit : ∀ x ∈ pre ++ [e], x.tx.raw.fee.cycle ≤ t.limit) (ht : t.Leaves p.gap e.tx) :
    e.tx.txHash ∈ (p.turn cr t).1 ∨
    ((p.turn cr t).2.cache.Good ∧ (p.turn cr t).2.gap = p.gap ∧ ∃ pre', pre'.Sublist pre ∧ pre'.length < pre.length ∧
      (p.turn cr t).2.cache.InLine pre' e) := by
  obtain ⟨g1, hg1, pre1, hs1, h1⟩ := steps_inLine cr g h ht.ops
  unfold MemPool.turn
  generalize hp1 : t.before.foldl (MemPool.step cr) p = p1 at g1 hg1 h1 ⊢
  obtain ⟨c, ep, hv, hw⟩ := ht.view
  rw [← hg1] at hw
  have hpk := package_exact g1 t.limit ep (ep + p1.gap)
  have h2 := h1.package g1 (l := t.limit) (inWindow_iff.2 hw)
  have he : p1.package t.view t.limit =
      (.ok (hashesOf (selectOrder t.limit (p1.cache.abs.entries.filter (Entry.inWindow ep (ep + p1.gap)))),
        hashesOf (selectPropose t.limit (p1.cache.abs.entries.filter (Entry.inWindow ep (ep + p1.gap))))),
        { p1 with cache := (p1.cache.package t.limit ep (ep + p1.gap)).2 }) := by
    simp only [MemPool.package, hv, hpk]
  rw [he]
  simp only
  obtain ⟨post, hent⟩ := h1
  have hlive : p1.cache.abs.entries.filter (Entry.inWindow ep (ep + p1.gap)) =
      pre1.filter (Entry.inWindow ep (ep + p1.gap)) ++ e :: post.filter (Entry.inWindow ep (ep + p1.gap)) := by
    rw [hent, List.filter_append, List.filter_cons_of_pos (inWindow_iff.2 hw)]
  rw [hlive]
  generalize hpre2 : pre1.filter (Entry.inWindow ep (ep + p1.gap)) = pre2 at h2 hlive ⊢
  have hs2 : pre2.Sublist pre := by rw [← hpre2]; exact List.filter_sublist.trans hs1
  generalize hord : selectOrder t.limit (pre2 ++ e :: post.filter (Entry.inWindow ep (ep + p1.gap))) = order
  by_cases hin : e.tx.txHash ∈ hashesOf order
  · exact .inl hin
  · right
    have h3 := h2.2.flush h2.1 (hs := hashesOf order ++ t.others) (by simp [hin, ht.others])
    refine ⟨h3.1, hg1, _, List.filter_sublist.trans hs2, ?_, h3.2⟩
    rcases mem_takeGreedy_or_prefix t.limit 0 pre2 (post.filter (Entry.inWindow ep (ep + p1.gap))) e with hm | ⟨xs, ys, k1, k2, k3, k4⟩
    · exact absurd (List.mem_map_of_mem (f := fun e : Entry => e.tx.txHash) (hord ▸ hm)) hin
    · have hxs : order = xs := by rw [← hord, ← k2]; rfl
      cases hp2 : pre2 with
      | nil =>
        exfalso
        have := k4 hp2
        have h' := hfit e (by simp)
        rw [UInt64.zero_add] at this
        exact absurd h' (by simpa using this)
      | cons y ys' =>
        have hy : y.tx.raw.fee.cycle ≤ t.limit := hfit y (by
          rw [List.mem_append]; left; exact hs2.subset (by rw [hp2]; simp))
        have hne := k3 y ys' hp2 (by rw [UInt64.zero_add]; exact hy)
        rw [← hp2, k1, List.filter_append]
        have hnil : xs.filter (fun e => e.tx.txHash ∉ hashesOf order ++ t.others) = [] := by
          rw [List.filter_eq_nil_iff]
          intro x hx
          have : x.tx.txHash ∈ hashesOf order := by rw [hxs]; exact List.mem_map_of_mem (f := fun e : Entry => e.tx.txHash) hx
          simp [this]
        rw [hnil, List.nil_append]
        have h5 := List.length_filter_le (fun e => decide (e.tx.txHash ∉ hashesOf order ++ t.others)) ys
        have h6 : 0 < xs.length := List.length_pos_iff.2 hne
        have h7 := hs2.length_le
        rw [k1, List.length_append] at h7
        omega

/-- **C91, part.**  A pooled transaction is proposed within as many epochs as there are pooled transactions, whatever else arrives, is
committed or expires meanwhile, if it stays within its time-out window and no pooled transaction asks for more cycles than an epoch may
have. -/
theorem C91_progress_partial (cr : MemCrypto) (n : Nat) (gap : UInt64) (ops : List MemOp) {p : MemPool}
    (hp : MemPool.after cr n gap ops = p) {tx : SignedTx} (hg : p.cache.get tx.txHash = some tx) (ts : List Turn)
    (hlen : p.cache.len ≤ ts.length) (hts : ∀ t ∈ ts, t.Leaves gap tx)
    (hfit : ∀ t ∈ ts, ∀ h' tx', p.cache.get h' = some tx' → tx'.raw.fee.cycle ≤ t.limit) :
    ∃ order ∈ p.turns cr ts, tx.txHash ∈ order := by
  have g : p.cache.Good := by rw [← hp]; exact after_good cr n gap ops
  have hgap : p.gap = gap := by rw [← hp]; exact (after_const cr n gap ops).2
  obtain ⟨e, he, rfl, -⟩ := (get_eq_some g).1 hg
  obtain ⟨pre, post, hent⟩ := List.append_of_mem he
  have hln : pre.length < ts.length := by
    rw [← g.abs_len, hent] at hlen
    simp only [List.length_append, List.length_cons] at hlen
    omega
  have hf : ∀ t ∈ ts, ∀ x ∈ pre ++ [e], x.tx.raw.fee.cycle ≤ t.limit := fun t ht x hx =>
    hfit t ht x.tx.txHash x.tx ((get_eq_some g).2 ⟨x, by
      rw [hent]; simp only [List.mem_append, List.mem_cons, List.not_mem_nil, or_false] at hx ⊢
      rcases hx with hx | hx <;> simp [hx], rfl, rfl⟩)
  have key : ∀ (ts : List Turn) (p : MemPool) (pre : List Entry), p.cache.Good → p.gap = gap → p.cache.InLine pre e →
      pre.length < ts.length → (∀ t ∈ ts, t.Leaves gap e.tx) → (∀ t ∈ ts, ∀ x ∈ pre ++ [e], x.tx.raw.fee.cycle ≤ t.limit) →
      ∃ order ∈ p.turns cr ts, e.tx.txHash ∈ order := by
    intro ts
    induction ts with
    | nil => intro p pre _ _ _ hl; exact absurd hl (by simp)
    | cons t ts ih =>
      intro p pre g hgp h hl hlv hft
      rcases turn_inLine cr g h (hft t (by simp)) (hgp ▸ hlv t (by simp)) with hm | ⟨g', hg', pre', hs, hlt, h'⟩
      · exact ⟨_, List.mem_cons_self, hm⟩
      · obtain ⟨o, ho, hm⟩ := ih _ pre' g' (hg'.trans hgp) h' (by simp only [List.length_cons] at hl; omega)
          (fun t' ht => hlv t' (by simp [ht])) (fun t' ht x hx => hft t' (by simp [ht]) x (by
            simp only [List.mem_append] at hx ⊢
            exact hx.imp (fun hx => hs.subset hx) id))
        exact ⟨o, List.mem_cons_of_mem _ ho, hm⟩
  exact key ts p pre g hgap ⟨post, hent⟩ hln hts hf

theorem blocked_package {q : MemPool} {x : Entry} (g1 : q.cache.Good) (h1 : q.cache.InLine [] x) {v : MemView} {c : Hash} {e : UInt64}
    (hv : v.latest = some (c, e)) (hw : e < x.tx.raw.timeout ∧ x.tx.raw.timeout ≤ e + q.gap) {limit : UInt64}
    (hbig : limit < x.tx.raw.fee.cycle) : ∃ propose, (q.package v limit).1 = .ok ([], propose) := by
  obtain ⟨post, h1⟩ := h1
  have hpk := package_exact g1 limit e (e + q.gap)
  have : selectOrder limit (q.cache.abs.entries.filter (Entry.inWindow e (e + q.gap))) = [] := by
    rw [h1, List.nil_append, List.filter_cons_of_pos (inWindow_iff.2 hw)]
    simp only [selectOrder, takeGreedy, UInt64.zero_add]
    rw [if_neg (by simpa using hbig)]
  rw [this] at hpk
  simp only [MemPool.package, hv]
  exact ⟨_, hpk⟩

theorem inLine_of_alone {p : MemPool} (g : p.cache.Good) {big : SignedTx} (hg : p.cache.get big.txHash = some big)
    (hone : p.cache.len = 1) : ∃ x : Entry, x.tx = big ∧ p.cache.InLine [] x := by
  obtain ⟨x, hx, rfl, -⟩ := (get_eq_some g).1 hg
  rw [← g.abs_len] at hone
  obtain ⟨y, hy⟩ := List.length_eq_one_iff.1 hone
  have : x = y := by rw [hy] at hx; simpa using hx
  subst this
  exact ⟨x, rfl, [], by rw [hy]; rfl⟩

/-- **C91, the obstacle.**  A transaction that asks for more cycles than an epoch may have and is alone in the pool keeps every later
order list empty, whatever is submitted, until it expires: no call but a package drops it and no epoch can contain it. -/
theorem C91_blocked (cr : MemCrypto) (n : Nat) (gap : UInt64) (ops : List MemOp) {p : MemPool} (hp : MemPool.after cr n gap ops = p)
    {big : SignedTx} (hg : p.cache.get big.txHash = some big) (hone : p.cache.len = 1) (later : List MemOp)
    (hl : ∀ op ∈ later, op.Leaves gap big) {v : MemView} {c : Hash} {e : UInt64} (hv : v.latest = some (c, e))
    (hw : e < big.raw.timeout ∧ big.raw.timeout ≤ e + gap) {limit : UInt64} (hbig : limit < big.raw.fee.cycle) :
    ∃ propose, ((later.foldl (MemPool.step cr) p).package v limit).1 = .ok ([], propose) := by
  have g : p.cache.Good := by rw [← hp]; exact after_good cr n gap ops
  have hgap : p.gap = gap := by rw [← hp]; exact (after_const cr n gap ops).2
  obtain ⟨x, rfl, hx⟩ := inLine_of_alone g hg hone
  obtain ⟨g1, hg1, pre1, hs1, h1⟩ := steps_inLine cr (ops := later) g hx (fun op ho => hgap ▸ hl op ho)
  rw [List.sublist_nil.1 hs1] at h1
  exact blocked_package g1 h1 hv (by rw [hg1, hgap]; exact hw) hbig

theorem blocked_turn (cr : MemCrypto) {p : MemPool} {t : Turn} {e : Entry} (g : p.cache.Good) (h : p.cache.InLine [] e)
    (hbig : t.limit < e.tx.raw.fee.cycle) (ht : t.Leaves p.gap e.tx) :
    (p.turn cr t).1 = [] ∧ (p.turn cr t).2.cache.Good ∧ (p.turn cr t).2.gap = p.gap ∧ (p.turn cr t).2.cache.InLine [] e := by
  obtain ⟨g1, hg1, pre1, hs1, h1⟩ := steps_inLine cr g h ht.ops
  rw [List.sublist_nil.1 hs1] at h1
  unfold MemPool.turn
  generalize hp1 : t.before.foldl (MemPool.step cr) p = p1 at g1 hg1 h1 ⊢
  obtain ⟨c, ep, hv, hw⟩ := ht.view
  rw [← hg1] at hw
  obtain ⟨pr, hpk⟩ := blocked_package g1 h1 hv hw hbig
  have h2 := h1.package g1 (l := t.limit) (inWindow_iff.2 hw)
  have he : p1.package t.view t.limit = (.ok ([], pr), { p1 with cache := (p1.cache.package t.limit ep (ep + p1.gap)).2 }) := by
    refine Prod.ext hpk ?_
    simp only [MemPool.package, hv]
  rw [he]
  have h3 := h2.2.flush h2.1 (hs := [] ++ t.others) (by simpa using ht.others)
  exact ⟨rfl, h3.1, hg1, h3.2⟩

/-- **C91 is false.**  Two transactions are admitted, the second asking for no more than an epoch may have; until the first one expires,
every proposal is empty, whatever happens. -/
theorem C91_refuted : ∃ (cr : MemCrypto) (n : Nat) (gap limit : UInt64) (v : MemView) (big tx : SignedTx) (p q : MemPool),
    (MemPool.new n gap).insert cr v false big = (.ok (), p) ∧ p.insert cr v false tx = (.ok (), q) ∧ tx.raw.fee.cycle ≤ limit ∧
    v.latest.map (·.2 + 10) = some big.raw.timeout ∧ big.raw.timeout = tx.raw.timeout ∧
    ∀ ts : List Turn, (∀ t ∈ ts, t.limit = limit ∧ t.Leaves gap big) → ∀ order ∈ q.turns cr ts, order = [] := by
  refine ⟨Demo.mcr, 5, 20, 100, Demo.mview 3, Demo.ptx 1 13 101, Demo.ptx 2 13 4,
    ((MemPool.new 5 20).insert Demo.mcr (Demo.mview 3) false (Demo.ptx 1 13 101)).2,
    (((MemPool.new 5 20).insert Demo.mcr (Demo.mview 3) false (Demo.ptx 1 13 101)).2.insert Demo.mcr (Demo.mview 3) false (Demo.ptx 2 13 4)).2,
    Prod.ext (Demo.eq_ok_of_isOk (by decide +kernel)) rfl, Prod.ext (Demo.eq_ok_of_isOk (by decide +kernel)) rfl, by decide +kernel,
    by decide +kernel, by decide +kernel, ?_⟩
  have hp : MemPool.after Demo.mcr 5 20 [.insert (Demo.mview 3) false (Demo.ptx 1 13 101)] =
      ((MemPool.new 5 20).insert Demo.mcr (Demo.mview 3) false (Demo.ptx 1 13 101)).2 := rfl
  have hg : ((MemPool.new 5 20).insert Demo.mcr (Demo.mview 3) false (Demo.ptx 1 13 101)).2.cache.get (Demo.ptx 1 13 101).txHash =
      some (Demo.ptx 1 13 101) := by decide +kernel
  have h1 : ((MemPool.new 5 20).insert Demo.mcr (Demo.mview 3) false (Demo.ptx 1 13 101)).2.cache.len = 1 := by decide +kernel
  generalize ((MemPool.new 5 20).insert Demo.mcr (Demo.mview 3) false (Demo.ptx 1 13 101)).2 = p at hp hg h1 ⊢
  have g : p.cache.Good := by rw [← hp]; exact after_good _ _ _ _
  have hgap : p.gap = 20 := by rw [← hp]; exact (after_const _ _ _ _).2
  have hbg : (100 : UInt64) < (Demo.ptx 1 13 101).raw.fee.cycle := by decide +kernel
  generalize Demo.ptx 1 13 101 = big at hg hbg ⊢
  obtain ⟨x, rfl, hx⟩ := inLine_of_alone g hg h1
  obtain ⟨g1, hg1, pre1, hs1, hq⟩ := steps_inLine Demo.mcr (ops := [.insert (Demo.mview 3) false (Demo.ptx 2 13 4)]) g hx
    (fun op ho => by rw [List.mem_singleton.1 ho]; trivial)
  rw [List.sublist_nil.1 hs1] at hq
  change (p.insert Demo.mcr (Demo.mview 3) false (Demo.ptx 2 13 4)).2.cache.Good at g1
  change (p.insert Demo.mcr (Demo.mview 3) false (Demo.ptx 2 13 4)).2.gap = p.gap at hg1
  change (p.insert Demo.mcr (Demo.mview 3) false (Demo.ptx 2 13 4)).2.cache.InLine [] x at hq
  generalize (p.insert Demo.mcr (Demo.mview 3) false (Demo.ptx 2 13 4)).2 = q at g1 hg1 hq ⊢
  rw [hgap] at hg1
  clear hx hg g h1 hp hgap
  intro ts
  induction ts generalizing q with
  | nil => intro _ o ho; cases ho
  | cons t ts ih =>
    intro ht
    obtain ⟨k1, k2, k3, k4⟩ := blocked_turn Demo.mcr g1 hq (by rw [(ht t (by simp)).1]; exact hbg) (hg1 ▸ (ht t (by simp)).2)
    intro o ho
    rcases List.mem_cons.1 ho with rfl | ho
    · exact k1
    · exact ih _ k2 (k3.trans hg1) k4 (fun t' h' => ht t' (by simp [h'])) o ho

/-! ### The hypotheses are met -/

namespace Demo

/-- Three pooled transactions, each taking more than half of an epoch. -/
def fops : List MemOp :=
  [.insert (mview 3) false (ptx 1 13 6), .insert (mview 3) false (ptx 2 13 6), .insert (mview 3) false (ptx 3 13 6)]

/-- An epoch at height `e` in which one more transaction arrives. -/
def fturn (e : UInt64) (k : UInt8) : Turn := ⟨[.insert (mview e) false (ptx k 13 6)], mview e, 10, [hash 77]⟩

end Demo

/-- Three epochs; the third transaction is proposed in the third. -/
example : ((MemPool.after Demo.mcr 9 20 Demo.fops).turns Demo.mcr [Demo.fturn 3 4, Demo.fturn 4 5, Demo.fturn 5 6]) =
    [[Demo.hash 1], [Demo.hash 2], [Demo.hash 3]] := by decide +kernel

/-- The hypotheses of `C91_progress_partial` hold for it. -/
example : (MemPool.after Demo.mcr 9 20 Demo.fops).cache.get (Demo.ptx 3 13 6).txHash = some (Demo.ptx 3 13 6) ∧
    (MemPool.after Demo.mcr 9 20 Demo.fops).cache.len ≤ [Demo.fturn 3 4, Demo.fturn 4 5, Demo.fturn 5 6].length ∧
    (∀ t ∈ [Demo.fturn 3 4, Demo.fturn 4 5, Demo.fturn 5 6], t.Leaves 20 (Demo.ptx 3 13 6)) ∧
    ∀ t ∈ [Demo.fturn 3 4, Demo.fturn 4 5, Demo.fturn 5 6], ∀ h tx, (MemPool.after Demo.mcr 9 20 Demo.fops).cache.get h = some tx →
      tx.raw.fee.cycle ≤ t.limit := by
  have key : ∀ (e : UInt64) (k : UInt8), e < 13 → 13 ≤ e + 20 → (Demo.fturn e k).Leaves 20 (Demo.ptx 3 13 6) := by
    intro e k h1 h2
    refine ⟨?_, ⟨_, e, rfl, h1, h2⟩, show Demo.hash 3 ∉ [Demo.hash 77] by decide +kernel⟩
    intro op ho
    rw [List.mem_singleton.1 ho]
    trivial
  refine ⟨by decide +kernel, by decide +kernel, ?_, ?_⟩
  · intro t ht
    simp only [List.mem_cons, List.not_mem_nil, or_false] at ht
    rcases ht with rfl | rfl | rfl <;> exact key _ _ (by decide) (by decide)
  · intro t ht h tx hg
    have hl : t.limit = 10 := by
      simp only [List.mem_cons, List.not_mem_nil, or_false] at ht
      rcases ht with rfl | rfl | rfl <;> rfl
    rw [hl]
    obtain ⟨e, he, rfl, -⟩ := (get_eq_some (after_good Demo.mcr 9 20 Demo.fops)).1 hg
    have : ∀ e ∈ (MemPool.after Demo.mcr 9 20 Demo.fops).cache.abs.entries, e.tx.raw.fee.cycle ≤ 10 := by decide +kernel
    exact this e he

/-- The hypotheses of `C91_blocked` hold for a transaction asking for 101 cycles when an epoch may have 100. -/
example : ∃ p, MemPool.after Demo.mcr 5 20 [.insert (Demo.mview 3) false (Demo.ptx 1 13 101)] = p ∧
    p.cache.get (Demo.ptx 1 13 101).txHash = some (Demo.ptx 1 13 101) ∧ p.cache.len = 1 ∧ (100 : UInt64) < (Demo.ptx 1 13 101).raw.fee.cycle :=
  ⟨_, rfl, by decide +kernel, by decide +kernel, by decide +kernel⟩

end Huobi
