import Verif.Props.Spending
import Verif.Props.Replay
import Verif.Props.Agreement
/-
C99: a payment is made at most once, and nobody loses more than what he signed; C65 over restarts.
-/
namespace Huobi

theorem History.mono {cfg : NodeCfg} {g : Genesis} {ok ok' : Node → NodeOp → Prop} {n : Node} {older : List Done}
    (h : History cfg g ok n older) (hi : ∀ n op, ok n op → ok' n op) : History cfg g ok' n older := by
  induction h with
  | init h1 h2 => exact .init h1 h2
  | step op _ ho ih => exact .step op ih (hi _ op ho)
  | restart _ h1 h2 ih => exact .restart ih h1 h2

/-! ### C65 over restarts -/

/-- What the node and the processes before it recorded: everything is stored, nothing was recorded in two epochs. -/
structure OnceInv (n : Node) (older : List Done) : Prop where
  stored : ∀ d ∈ n.log ++ older, ∀ t ∈ d.txs, (n.store.txs t.txHash).isSome
  once : (n.log ++ older).Pairwise (fun d2 d1 => ∀ t2 ∈ d2.txs, ∀ t1 ∈ d1.txs, t2.txHash ≠ t1.txHash)

theorem OnceInv.effect {cfg : NodeCfg} {P : Done → Prop} {n n' : Node} {older : List Done} (h : OnceInv n older)
    (hP : ∀ d, P d → ∀ t ∈ d.txs, n.store.txs t.txHash = none) (he : Effect cfg P n n') : OnceInv n' older := by
  cases he with
  | quiet h1 _ _ h4 => exact ⟨by rw [h1, h4]; exact h.stored, by rw [h4]; exact h.once⟩
  | proof p h1 _ _ h4 => exact ⟨by rw [h1, h4]; exact h.stored, by rw [h4]; exact h.once⟩
  | failed d j _ _ _ h1 _ h4 =>
    refine ⟨?_, by rw [h4]; exact h.once⟩
    rw [h1, h4]
    exact fun y hy t ht => txs_take_mono cfg d n.store j _ (h.stored y hy t ht)
  | done d hd _ h1 _ h4 =>
    rw [← List.singleton_append] at h4
    refine ⟨?_, ?_⟩
    · rw [h1, h4, List.append_assoc, List.singleton_append]
      intro y hy t ht
      rcases List.mem_cons.1 hy with rfl | hy
      · exact txs_writes cfg _ _ _ (.inr ⟨t, ht, rfl⟩)
      · exact txs_writes cfg _ _ _ (.inl (h.stored y hy t ht))
    · rw [h4, List.append_assoc, List.singleton_append]
      refine .cons ?_ h.once
      intro y hy t2 ht2 t1 ht1 hc
      have h1 := h.stored y hy t1 ht1
      rw [← hc, hP d hd t2 ht2] at h1
      cases h1

theorem commitDone_unstored {cfg : NodeCfg} {g : Genesis} {ok : Node → NodeOp → Prop} {n : Node} (hl : Lives cfg g ok n) (hr : ReplayInv n)
    {id : UInt64} {pill : Pill} {proof : OverlordProof} {d : Done} (hd : CommitDone n id pill proof d) :
    d.txs.map SignedTx.txHash = pill.epoch.orderedTxHashes ∧ ∀ t ∈ d.txs, n.store.txs t.txHash = none := by
  obtain ⟨ops, hpool⟩ := hl.pool
  have h1 := (C26_full_txs_exact cfg.mem cfg.poolSize cfg.timeoutGap ops hpool pill.epoch.orderedTxHashes).2.1 d.txs hd.txs
  exact ⟨h1, fun t ht => hr.getFull hd.txs _ (h1 ▸ List.mem_map_of_mem ht)⟩

theorem History.onceInv {cfg : NodeCfg} {g : Genesis} {n : Node} {older : List Done} (h : History cfg g NodeOp.Fresh n older) :
    OnceInv n older := by
  induction h with
  | init h1 h2 =>
    obtain ⟨e, -, -, -, -, hl, -⟩ := startNode_some h2
    refine ⟨?_, by rw [hl]; exact .nil⟩
    rw [hl]
    intro d hd
    cases hd
  | @restart n older s t n' h h1 h2 ih =>
    obtain ⟨e, -, hs, -, -, hl, -⟩ := startNode_some h2
    obtain ⟨-, l, hlat, -⟩ := h.lives.coherent
    obtain ⟨rfl, rfl⟩ := handleInit_some (by rw [hlat]; rfl) h1
    refine ⟨?_, ?_⟩
    · rw [hl, hs]; exact ih.stored
    · rw [hl]; exact ih.once
  | @step n older op h ho ih =>
    cases op with
    | sync io msg => exact ho.elim
    | insertTx o b tx => exact ih.effect (P := fun _ => False) (fun _ h => h.elim) (passive_effect cfg _ n _ trivial)
    | propose now id => exact ih.effect (P := fun _ => False) (fun _ h => h.elim) (passive_effect cfg _ n _ trivial)
    | check p1 p2 ha pill => exact ih.effect (P := fun _ => False) (fun _ h => h.elim) (passive_effect cfg _ n _ trivial)
    | commit io id pill proof =>
      exact ih.effect (fun d hd => (commitDone_unstored h.lives h.lives.replayInv hd).2) (commit_effect cfg io id pill proof n)

/-- C65 over restarts: in a lifetime without synchronisation and in which peers send, on request, only transactions that were not
committed, no transaction is recorded in two epochs, by whatever processes of the node, between any crashes and restarts. -/
theorem C65_restarts_partial {cfg : NodeCfg} {g : Genesis} {n : Node} {older : List Done} (h : History cfg g NodeOp.Fresh n older) :
    (n.log ++ older).Pairwise (fun d2 d1 => ∀ t2 ∈ d2.txs, ∀ t1 ∈ d1.txs, t2.txHash ≠ t1.txHash) := h.onceInv.once

/-! ### C99 -/

/-- A committed epoch orders no transaction twice. -/
def NodeOp.Distinct : NodeOp → Prop
  | .commit _ _ pill _ => pill.epoch.orderedTxHashes.Nodup
  | _ => True

/-- Calls of a node whose peers behave: what they hand over on request was signed by its owner and not committed before, a committed epoch
names the node's own state root and orders no transaction twice, nothing is synchronised, and no state is overwritten by another one. -/
structure NodeOp.Decent (cfg : NodeCfg) (n : Node) (op : NodeOp) : Prop where
  fresh : op.Fresh n
  vouched : op.Vouched cfg n
  honest : HonestRoot n op
  keeps : KeepsRoots cfg n op
  distinct : op.Distinct

/-- What a transaction, if it is executed with success, pays of an asset. -/
def pays (id : AssetID) (t : RawTx) : Nat :=
  match t.action with
  | .transfer _ c => if id = c.assetId then c.amount else 0
  | _ => 0

/-- The world comes from the genesis by transactions of the epochs `ds`, each executed once. -/
def OnceFrom (cfg : NodeCfg) (g : Genesis) (ds : List Done) (w : World) : Prop :=
  ∃ w0 xs, CreatesGenesis (cfg.env 0 cfg.cyclesPrice (.user cfg.selfAddress)) g w0 ∧ AuthLater cfg w0 xs w ∧
    (xs.map (fun x => x.1.txHash)).Nodup ∧ ∀ x ∈ xs, x ∈ executed ds

theorem OnceFrom.mono {cfg : NodeCfg} {g : Genesis} {ds ds' : List Done} {w : World} (h : OnceFrom cfg g ds w) (hs : ∀ d ∈ ds, d ∈ ds') :
    OnceFrom cfg g ds' w := by
  obtain ⟨w0, xs, h1, h2, h3, h4⟩ := h
  refine ⟨w0, xs, h1, h2, h3, fun x hx => ?_⟩
  obtain ⟨d, hd, hx⟩ := List.mem_flatMap.1 (h4 x hx)
  exact List.mem_flatMap.2 ⟨d, hs d hd, hx⟩

/-- A root the node works on or shows: of its status or of a stored epoch. -/
def Node.Names (n : Node) (r : MerkleRoot) : Prop :=
  r = n.status.stateRoot ∨ (∃ i e, n.store.epochs i = some e ∧ r = e.header.stateRoot) ∨ ∃ e, n.store.latest = some e ∧ r = e.header.stateRoot

def PayInv (cfg : NodeCfg) (g : Genesis) (n : Node) (older : List Done) : Prop :=
  ∀ r, n.Names r → ∃ w, n.tries r = some w ∧ OnceFrom cfg g (n.log ++ older) w

theorem zip_hashes_nodup {txs : List SignedTx} : ∀ {rs : List Receipt}, (txs.map SignedTx.txHash).Nodup →
    ((txs.zip rs).map (fun x => x.1.txHash)).Nodup := by
  intro rs h
  have : (txs.zip rs).map (fun x => x.1.txHash) = ((txs.zip rs).map Prod.fst).map SignedTx.txHash := by rw [List.map_map]; rfl
  rw [this]
  refine List.Nodup.sublist ?_ h
  refine List.Sublist.map _ ?_
  clear h this
  induction txs generalizing rs with
  | nil => exact .slnil
  | cons t txs ih =>
    cases rs with
    | nil => exact List.nil_sublist _
    | cons r rs => exact (ih (rs := rs)).cons_cons _

theorem resolves_of_stored {cfg : NodeCfg} {n : Node} (he : EmptyRoot cfg n) {r : MerkleRoot} {w : World} (h : n.tries r = some w) :
    Resolves cfg n.tries r w := by
  unfold Resolves
  split
  · rename_i hr; rw [hr] at h; exact he w h
  · exact h

theorem PayInv.keep {cfg : NodeCfg} {g : Genesis} {n n' : Node} {older : List Done} (h : PayInv cfg g n older)
    (hk : ∀ r w, n.tries r = some w → n'.tries r = some w) (hl : n'.log = n.log) (hn : ∀ r, n'.Names r → n.Names r) : PayInv cfg g n' older := by
  intro r hr
  obtain ⟨w, h1, h2⟩ := h r (hn r hr)
  exact ⟨w, hk r w h1, by rw [hl]; exact h2⟩

theorem PayInv.commit {cfg : NodeCfg} {g : Genesis} {n n' : Node} {older : List Done} {id : UInt64} {pill : Pill} {proof : OverlordProof}
    (h : PayInv cfg g n older) (ho : OnceInv n older) (he : EmptyRoot cfg n) (hp : n.status.cyclesPrice = cfg.cyclesPrice)
    (hdone : ∀ d, CommitDone n id pill proof d → (d.txs.map SignedTx.txHash).Nodup ∧ (∀ t ∈ d.txs, n.store.txs t.txHash = none) ∧
      ∀ t ∈ d.txs, Authorised cfg t)
    (hroot : pill.epoch.header.stateRoot = n.status.stateRoot)
    (hk : ∀ r w, n.tries r = some w → n'.tries r = some w) (heff : Effect cfg (CommitDone n id pill proof) n n') : PayInv cfg g n' older := by
  cases heff with
  | quiet h1 h2 h3 h4 =>
    exact h.keep hk h4 (fun r => by unfold Node.Names; rw [h1, h3]; exact fun x => x)
  | proof p h1 h2 h3 h4 =>
    exact h.keep hk h4 (fun r => by unfold Node.Names; rw [h1, h3]; exact fun x => x)
  | failed d j hd hr hj h1 h3 h4 =>
    refine h.keep hk h4 (fun r hr => ?_)
    unfold Node.Names at hr ⊢
    rw [h1, h3, latest_take cfg d _ j hj] at hr
    rcases hr with hr | ⟨i, e, hi, rfl⟩ | hr
    · exact .inl hr
    · rcases epochs_take cfg d n.store j i with hx | ⟨-, hx⟩
      · exact .inr (.inl ⟨i, e, by rw [← hx]; exact hi, rfl⟩)
      · rw [hx] at hi
        injection hi with hi
        exact .inl (by rw [← hi, hd.epoch, hroot])
    · exact .inr (.inr hr)
  | done d hd hr h1 h3 h4 =>
    obtain ⟨w, hw, w0, xs, c1, c2, c3, c4⟩ := h n.status.stateRoot (.inl rfl)
    obtain ⟨w', hex, hrt, hdb⟩ := ran_spec hr (w := w) (by rw [hd.root]; exact resolves_of_stored he hw) hp
    obtain ⟨d1, d2, d3⟩ := hdone d hd
    have old : ∀ r, n.Names r → ∃ w, n'.tries r = some w ∧ OnceFrom cfg g (n'.log ++ older) w := by
      intro r hr
      obtain ⟨v, v1, v2⟩ := h r hr
      exact ⟨v, hk r v v1, v2.mono (fun y hy => by rw [h4]; exact List.mem_cons_of_mem _ hy)⟩
    intro r hn
    rcases hn with rfl | ⟨i, e, hi, rfl⟩ | ⟨e, hi, rfl⟩
    · refine ⟨w', ?_, w0, xs ++ d.txs.zip d.resp.receipts, c1, c2.step hex d3, ?_, ?_⟩
      · rw [h3, hdb]
        show PMap.set n.tries (cfg.rootOf w') w' d.resp.stateRoot = some w'
        rw [hrt]; simp [PMap.set]
      · rw [List.map_append, List.nodup_append]
        refine ⟨c3, zip_hashes_nodup d1, ?_⟩
        intro a ha b hb hab
        obtain ⟨x, hx, rfl⟩ := List.mem_map.1 ha
        obtain ⟨y, hy, rfl⟩ := List.mem_map.1 hb
        obtain ⟨dx, hdx, hx⟩ := List.mem_flatMap.1 (c4 x hx)
        have s1 := ho.stored dx hdx x.1 (List.of_mem_zip hx).1
        rw [hab, d2 y.1 (List.of_mem_zip hy).1] at s1
        cases s1
      · intro x hx
        rw [h4]
        rcases List.mem_append.1 hx with hx | hx
        · obtain ⟨dx, hdx, hx⟩ := List.mem_flatMap.1 (c4 x hx)
          exact List.mem_flatMap.2 ⟨dx, List.mem_cons_of_mem _ hdx, hx⟩
        · exact List.mem_flatMap.2 ⟨d, List.mem_cons_self, hx⟩
    · rw [h1, epochs_all] at hi
      split at hi
      · injection hi with hi
        rw [← hi, hd.epoch, hroot]
        exact old _ (.inl rfl)
      · exact old _ (.inr (.inl ⟨i, e, hi, rfl⟩))
    · have hi : n'.store.latest = some e := hi
      rw [h1] at hi
      injection hi with hi
      have hi : d.epoch = e := hi
      rw [← hi, hd.epoch, hroot]
      exact old _ (.inl rfl)

theorem firstStart_pays {cfg : NodeCfg} {g : Genesis} {s : Store} {t : StateDB} {n : Node} (h1 : handleInit cfg g Store.empty PMap.empty = some (s, t))
    (h2 : startNode cfg s t = some n) : PayInv cfg g n [] := by
  obtain ⟨root, hr, hs⟩ := handleInit_empty h1
  obtain ⟨e, hl, hst, htr, hstat, -⟩ := startNode_some h2
  have hl' : s.latest = some (cfg.genesisEpoch g.timestamp root) := by rw [hs]; rfl
  have he0 : ∀ i x, s.epochs i = some x → x = cfg.genesisEpoch g.timestamp root := by
    intro i x hx
    have hx : (if i = 0 then some (cfg.genesisEpoch g.timestamp root) else none) = some x := by rw [hs] at hx; exact hx
    split at hx
    · exact (Option.some.inj hx).symm
    · cases hx
  rw [hl'] at hl; cases hl
  have names : ∀ r, n.Names r → r = root := by
    intro r hn
    rcases hn with rfl | ⟨i, e, hi, rfl⟩ | ⟨e, hi, rfl⟩
    · rw [hstat]; rfl
    · rw [hst] at hi; rw [he0 i e hi]; rfl
    · rw [hst, hl'] at hi; injection hi with hi; rw [← hi]; rfl
  unfold runGenesis at hr
  split at hr
  · cases hr
  · rename_i s0 hs0
    have hs0 : s0 = St.open World.empty := by
      unfold fromRoot at hs0
      rw [if_pos rfl] at hs0
      injection hs0 with hs0
      exact hs0.symm
    split at hr
    · rename_i r s1 hg
      simp only [Prod.mk.injEq, Option.some.injEq, Except.ok.injEq] at hr
      obtain ⟨rfl, hdb⟩ := hr
      rw [hs0] at hg
      have hroot : r = cfg.rootOf s1.committed := createGenesis_root hg
      intro r' hn
      rw [names r' hn]
      refine ⟨s1.committed, ?_, s1.committed, [], ⟨⟨r, by rw [hg]⟩, by rw [hg]⟩, .refl _, .nil, fun x hx => by cases hx⟩
      rw [htr, ← hdb]
      unfold StateDB.put PMap.set
      exact if_pos hroot
    · cases hr

theorem History.payInv {cfg : NodeCfg} {g : Genesis} {n : Node} {older : List Done} (h : History cfg g (NodeOp.Decent cfg) n older) :
    EmptyRoot cfg n → PayInv cfg g n older := by
  induction h with
  | init h1 h2 => exact fun _ => firstStart_pays h1 h2
  | @restart n older s t n' h h1 h2 ih =>
    intro he
    obtain ⟨e, hl, hs, htr, hstat, hlog, -⟩ := startNode_some h2
    obtain ⟨-, l, hlat, -⟩ := h.lives.coherent
    obtain ⟨rfl, rfl⟩ := handleInit_some (by rw [hlat]; rfl) h1
    have hi := ih (fun w hw => he w (by rw [htr]; exact hw))
    intro r hn
    have hn : n.Names r := by
      unfold Node.Names at hn ⊢
      rw [hs, hstat] at hn
      rcases hn with hn | hn | hn
      · exact .inr (.inr ⟨e, hl, hn⟩)
      · exact .inr (.inl hn)
      · exact .inr (.inr hn)
    obtain ⟨w, w1, w2⟩ := hi r hn
    exact ⟨w, by rw [htr]; exact w1, by rw [hlog]; exact w2⟩
  | @step n older op h ho ih =>
    intro he
    have hen := he.back ho.keeps
    have hi := ih hen
    have hfresh := h.mono (ok' := NodeOp.Fresh) (fun _ _ h => h.fresh)
    have passive : op.Passive → PayInv cfg g (n.step cfg op) older := by
      intro hp
      obtain ⟨a, b, c, d⟩ := passive_step cfg n op hp
      exact hi.keep (fun r w hw => by rw [b]; exact hw) d (fun r => by unfold Node.Names; rw [a, c]; exact fun x => x)
    cases op with
    | sync io msg => exact ho.fresh.elim
    | insertTx o b tx => exact passive trivial
    | propose now id => exact passive trivial
    | check p1 p2 ha pill => exact passive trivial
    | commit io id pill proof =>
      have hsp := (h.mono (ok' := NodeOp.Vouched cfg) (fun _ _ h => h.vouched)).lives.spending.1
      refine PayInv.commit hi hfresh.onceInv hen h.lives.coherent.price (fun d hd => ?_) ho.honest ho.keeps (commit_effect cfg io id pill proof n)
      obtain ⟨d1, d2⟩ := commitDone_unstored h.lives hfresh.lives.replayInv hd
      exact ⟨by rw [d1]; exact ho.distinct, d2, hsp.getFull hd.txs⟩

theorem sum_le_of_nodup {α β : Type} [DecidableEq β] (f : α → β) (v : β → Nat) (u : α → Nat) :
    ∀ (xs : List α) (S : List β), (xs.map f).Nodup → (∀ x ∈ xs, u x ≤ v (f x)) → (∀ x ∈ xs, u x ≠ 0 → f x ∈ S) →
      (xs.map u).sum ≤ (S.map v).sum := by
  intro xs
  induction xs with
  | nil => intro S _ _ _; simp
  | cons x xs ih =>
    intro S hn hu hs
    rw [List.map_cons, List.nodup_cons] at hn
    rw [List.map_cons, List.sum_cons]
    by_cases h0 : u x = 0
    · rw [h0, Nat.zero_add]
      exact ih S hn.2 (fun y hy => hu y (by simp [hy])) (fun y hy => hs y (by simp [hy]))
    · have hm : f x ∈ S := hs x (by simp) h0
      have hS : (S.map v).sum = v (f x) + ((S.erase (f x)).map v).sum := by
        have hperm := (List.perm_cons_erase hm).map v
        rw [hperm.sum_nat, List.map_cons, List.sum_cons]
      rw [hS]
      have h1 := hu x (by simp)
      have h2 := ih (S.erase (f x)) hn.2 (fun y hy => hu y (by simp [hy])) (fun y hy hy0 => by
        refine (List.mem_erase_of_ne ?_).2 (hs y (by simp [hy]) hy0)
        intro hc
        exact hn.1 (hc ▸ List.mem_map_of_mem hy))
      omega

/-- **C99 (partial: for peers that behave, `NodeOp.Decent`; see `C99_refuted`, `C65_twice_refuted`, `C65_sync_refuted` and the
refutations of C93 for the others).**  Whatever happens to a node - calls, failures, crashes at any write, restarts - no transaction is
recorded twice; what it shows for any epoch it has is explained by recorded transactions, no two of them the same, all signed by the owners
of the accounts they spend from; and whoever signed only the payments in `S` never sees less than his allocation without the payments
in `S`, each counted once. -/
theorem C99_partial {cfg : NodeCfg} {g : Genesis} {n : Node} {older : List Done} (h : History cfg g (NodeOp.Decent cfg) n older)
    (he : EmptyRoot cfg n) :
    (n.log ++ older).Pairwise (fun d2 d1 => ∀ t2 ∈ d2.txs, ∀ t1 ∈ d1.txs, t2.txHash ≠ t1.txHash) ∧
    (∀ q e, n.queryEpoch q = some e → ∃ xs : List (SignedTx × Receipt), (xs.map (fun x => x.1.raw)).Nodup ∧
      (∀ x ∈ xs, x ∈ executed (n.log ++ older) ∧ Authorised cfg x.1) ∧
      ∀ a id, n.apiBalance cfg a id q + (xs.map (spent cfg a id)).sum = allocated g a id + (xs.map (incoming a id)).sum) ∧
    ∀ (a : Address) (S : List RawTx), (∀ d ∈ n.log ++ older, ∀ t ∈ d.txs, accountOf cfg t = a → t.raw ∈ S) →
      ∀ q e id, n.queryEpoch q = some e → allocated g a id ≤ n.apiBalance cfg a id q + (S.map (pays id)).sum := by
  have key : ∀ q e, n.queryEpoch q = some e → ∃ xs : List (SignedTx × Receipt), (xs.map (fun x => x.1.raw)).Nodup ∧
      (∀ x ∈ xs, x ∈ executed (n.log ++ older) ∧ Authorised cfg x.1) ∧
      ∀ a id, n.apiBalance cfg a id q + (xs.map (spent cfg a id)).sum = allocated g a id + (xs.map (incoming a id)).sum := by
    intro q e hq
    have hn : n.Names e.header.stateRoot := by
      cases q with
      | none => exact .inr (.inr ⟨e, hq, rfl⟩)
      | some i => exact .inr (.inl ⟨i, e, hq, rfl⟩)
    obtain ⟨w, hw, w0, xs, c1, c2, c3, c4⟩ := h.payInv he _ hn
    obtain ⟨_, -, -, -, hty, -⟩ := createsGenesis_spec c1
    refine ⟨xs, ?_, fun x hx => ⟨c4 x hx, c2.authorised x hx⟩, fun a id => ?_⟩
    · have hh : ∀ x ∈ xs, x.1.txHash = cfg.digest (encode x.1.raw) := fun x hx => (c2.authorised x hx).2
      have : xs.map (fun x => x.1.txHash) = (xs.map (fun x => x.1.raw)).map (fun r => cfg.digest (encode r)) := by
        rw [List.map_map]; exact List.map_congr_left hh
      rw [this] at c3
      exact List.Pairwise.of_map _ (fun a b hab hc => hab (by rw [hc])) c3
    · rw [apiBalance_resolves hq (resolves_of_stored he hw), (c2.ledger hty a id).2, C13_genesis_balances c1 a id]
  refine ⟨(h.mono (ok' := NodeOp.Fresh) (fun _ _ h => h.fresh)).onceInv.once, key, ?_⟩
  intro a S hS q e id hq
  obtain ⟨xs, x1, x2, x3⟩ := key q e hq
  have hle : (xs.map (spent cfg a id)).sum ≤ (S.map (pays id)).sum := by
    refine sum_le_of_nodup (fun x => x.1.raw) (pays id) (spent cfg a id) xs S x1 (fun x _ => ?_) (fun x hx h0 => ?_)
    · unfold spent pays
      split
      · rename_i c hc
        split
        · rename_i hc'
          simp only [hc, if_pos hc'.2.2]
          exact Nat.le_refl _
        · exact Nat.zero_le _
      · exact Nat.zero_le _
    · obtain ⟨d, hd, hx⟩ := List.mem_flatMap.1 (x2 x hx).1
      refine hS d hd x.1 (List.of_mem_zip hx).1 ?_
      unfold spent at h0
      split at h0
      · split at h0
        · rename_i hc; exact hc.2.1.symm
        · exact absurd rfl h0
      · exact absurd rfl h0
  have := x3 a id
  omega

theorem Demo.Passively.trans {n m k : Node} (h1 : Demo.Passively n m) (h2 : Demo.Passively m k) : Demo.Passively n k :=
  ⟨h2.1.trans h1.1, h2.2.1.trans h1.2.1, h2.2.2.trans h1.2.2⟩

namespace Demo

theorem passive_decent (k : Node) (op : NodeOp) (hp : op.Passive) (hc : ∀ p1 p2 ha pill, op ≠ .check p1 p2 ha pill) : op.Decent ncfg k := by
  refine ⟨?_, ?_, ?_, (passive_keeps ncfg k op hp).2, ?_⟩ <;> cases op <;> first | exact hp.elim | trivial | exact absurd rfl (hc _ _ _ _)

theorem inserted_decent (txs : List SignedTx) : ∀ {n : Node} {older : List Done}, History ncfg ngenesis (NodeOp.Decent ncfg) n older →
    History ncfg ngenesis (NodeOp.Decent ncfg) (inserted n txs) older ∧ Passively n (inserted n txs) := by
  induction txs with
  | nil => intro n older h; exact ⟨h, rfl, rfl, rfl⟩
  | cons t txs ih =>
    intro n older h
    obtain ⟨h1, h2⟩ := ih (n := n.step ncfg (.insertTx true true t)) (.step _ h (passive_decent _ _ trivial (fun _ _ _ _ h => by cases h)))
    exact ⟨h1, (Passively.step ncfg ⟨rfl, rfl, rfl⟩ (.insertTx true true t) trivial).trans h2⟩

/-- An epoch of the examples that changes the state consists of decent calls. -/
theorem block_decent {n : Node} {older : List Done} {txs : List SignedTx} (h : History ncfg ngenesis (NodeOp.Decent ncfg) n older)
    (hok : BlockOk n txs) (hnew : (n.tries (block n txs).status.stateRoot).isNone = true)
    (hd : (proposal (inserted n txs)).epoch.orderedTxHashes.Nodup) : History ncfg ngenesis (NodeOp.Decent ncfg) (block n txs) older := by
  obtain ⟨hr, hlen, -, hc⟩ := hok
  obtain ⟨h1, h2⟩ := inserted_decent txs h
  have h3 := h2.step ncfg (.propose 7 n.status.epochId) trivial
  rw [block_eq] at hlen hnew ⊢
  have hlen : ((preBlock n txs).step ncfg (.commit .ok n.status.epochId (proposal (inserted n txs)) (oproof n.status.epochId))).log.length ≠
      n.log.length := by omega
  refine .step _ (.step (.propose 7 n.status.epochId) h1 (passive_decent _ _ trivial (fun _ _ _ _ h => by cases h))) ⟨trivial, trivial, ?_, ?_, hd⟩
  · show _ = (preBlock n txs).status.stateRoot
    rw [show (preBlock n txs).status = n.status from h3.2.1]; exact hc.2.2.2.2
  · exact (commit_keeps ncfg h3 h.lives.coherent.price hr _ _ _ hlen hnew).2

/-- After the first epoch the node is restarted and commits another payment of user 1. -/
def paidAgain : Node := block restarted [npay 1 3 7 2]

theorem restarted_history : History ncfg ngenesis (NodeOp.Decent ncfg) restarted (n1.log ++ []) := by
  have h1 : History ncfg ngenesis (NodeOp.Decent ncfg) n1 [] := block_decent (n0_history _) n1_ok (by decide +kernel) (by decide +kernel)
  have hst : (startNode ncfg n1.store n1.tries).isSome = true := by decide +kernel
  obtain ⟨-, e, he, -⟩ := h1.lives.coherent
  refine .restart (s := n1.store) (t := n1.tries) h1 (by simp [handleInit, he]) ?_
  obtain ⟨n', hn'⟩ := Option.isSome_iff_exists.1 hst
  unfold restarted
  rw [hn']; rfl

theorem paidAgain_history : History ncfg ngenesis (NodeOp.Decent ncfg) paidAgain n1.log := by
  have h := block_decent (txs := [npay 1 3 7 2]) restarted_history (by decide +kernel) (by decide +kernel) (by decide +kernel)
  rw [List.append_nil] at h
  exact h

end Demo

open Demo in
/-- The hypotheses of `C99_partial` are met by a node that committed a payment of 10 of user 1, was restarted and committed a payment of 7;
user 1 signed both, so no less than 100 - 17 is shown of him. -/
example : History ncfg ngenesis (NodeOp.Decent ncfg) paidAgain n1.log ∧ EmptyRoot ncfg paidAgain ∧
    (paidAgain.log ++ n1.log).map (fun d => d.txs) = [[npay 1 3 7 2], [npay 1 2 10]] ∧ allocated ngenesis (naddr 1) token = 100 ∧
    ([(npay 1 2 10).raw, (npay 1 3 7 2).raw].map (pays token)).sum = 17 ∧
    (paidAgain.tries paidAgain.status.stateRoot).map (fun w => (balance w (naddr 1) token, balance w (naddr 3) token)) = some (93, 7) :=
  ⟨paidAgain_history, ncfg_emptyRoot (by decide +kernel), by decide +kernel, by decide +kernel, by decide +kernel, by decide +kernel⟩

namespace Demo

/-- A node that was made to commit the payment of epoch 1 again in epoch 2, and an epoch 3 without transactions. -/
def paidTwice : Node := block ((n1.checkEpoch ncfg noPull oldPull [] againPill).2.step ncfg (.commit .ok 2 againPill (oproof 2))) []

theorem paidTwice_lives : Lives ncfg ngenesis (fun _ _ => True) paidTwice :=
  blockOps_lives (.step (.commit .ok 2 againPill (oproof 2)) (.step (.check noPull oldPull [] againPill)
    (blockOps_lives (n0_lives _) _ (fun _ _ => trivial)) trivial) trivial) _ (fun _ _ => trivial)

end Demo

open Demo in
/-- **C99 is false of the code as it stands.**  A user signed one payment of 10; after a peer sent it again for epoch 2 the node recorded
it twice and shows 80 of the 100 the user was allocated. -/
theorem C99_refuted : ∃ (cfg : NodeCfg) (g : Genesis) (n : Node) (tx : SignedTx) (id : AssetID) (e : Epoch), Lives cfg g (fun _ _ => True) n ∧
    n.log.map Done.txs = [[], [tx], [tx]] ∧ Authorised cfg tx ∧ n.queryEpoch none = some e ∧ pays id tx.raw = 10 ∧
    allocated g (accountOf cfg tx) id = 100 ∧ n.apiBalance cfg (accountOf cfg tx) id none = 80 := by
  have h1 := paidTwice_lives
  have h2 : paidTwice.log.map Done.txs = [[], [npay 1 2 10], [npay 1 2 10]] := by decide +kernel
  have h3 : Authorised ncfg (npay 1 2 10) := ⟨rfl, rfl⟩
  have h4 : (paidTwice.queryEpoch none).isSome = true := by decide +kernel
  have h5 : pays token (npay 1 2 10).raw = 10 ∧ allocated ngenesis (accountOf ncfg (npay 1 2 10)) token = 100 ∧
    paidTwice.apiBalance ncfg (accountOf ncfg (npay 1 2 10)) token none = 80 := by decide +kernel
  obtain ⟨e, he⟩ := Option.isSome_iff_exists.1 h4
  exact ⟨ncfg, ngenesis, paidTwice, npay 1 2 10, token, e, h1, h2, h3, he, h5⟩

end Huobi
