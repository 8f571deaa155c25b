import Verif.Model.Authority
import Verif.Spec.DemoNode
import Verif.Props.Consensus2
import Verif.Props.Engine
import Verif.Props.OverlordCrypto
/-
C69, C70: the list of authorities handed to Overlord.
-/
namespace Huobi

/-! ### Sorting -/

theorem OvNode.le_trans (a b c : OvNode) (h1 : OvNode.le a b = true) (h2 : OvNode.le b c = true) : OvNode.le a c = true := by
  simp only [OvNode.le, decide_eq_true_eq] at *
  exact List.le_trans h1 h2

theorem OvNode.le_total (a b : OvNode) : (OvNode.le a b || OvNode.le b a) = true := by
  simp only [OvNode.le, Bool.or_eq_true, decide_eq_true_eq]
  exact List.le_total _ _

theorem authorityOf_perm (vs : List Validator) : (authorityOf vs).Perm (vs.map OvNode.ofValidator) := List.mergeSort_perm _ _

theorem authorityOf_sorted (vs : List Validator) : (authorityOf vs).Pairwise (fun a b => a.address ≤ b.address) := by
  have h := List.pairwise_mergeSort (le := OvNode.le) OvNode.le_trans OvNode.le_total (vs.map OvNode.ofValidator)
  exact h.imp (fun h => by simpa [OvNode.le] using h)

theorem UserAddress.toBytes_inj {a b : UserAddress} (h : a.toBytes = b.toBytes) : a = b := by
  cases a; cases b
  simp only [UserAddress.toBytes, List.cons.injEq, true_and] at h
  subst h; rfl

/-- Two lists with the same entries have the same authority list, if no two different entries are for the same address. -/
theorem authorityOf_congr {vs ws : List Validator} (hp : vs.Perm ws) (hu : ∀ v ∈ vs, ∀ w ∈ vs, v.address = w.address → v = w) :
    authorityOf vs = authorityOf ws := by
  refine List.Perm.eq_of_pairwise (le := fun a b : OvNode => a.address ≤ b.address) ?_ (authorityOf_sorted vs) (authorityOf_sorted ws) ?_
  · intro a b ha hb h1 h2
    have ha' := (authorityOf_perm vs).subset ha
    have hb' := (authorityOf_perm ws).subset hb
    obtain ⟨v, hv, rfl⟩ := List.mem_map.1 ha'
    obtain ⟨w, hw, rfl⟩ := List.mem_map.1 hb'
    have hw' := hp.symm.subset hw
    have : v.address.toBytes = w.address.toBytes := List.le_antisymm h1 h2
    rw [hu v hv w hw' (UserAddress.toBytes_inj this)]
  · exact ((authorityOf_perm vs).trans (hp.map _)).trans (authorityOf_perm ws).symm

theorem configValidators_weight : ∀ {ss : List String} {vs : List Validator}, configValidators ss = some vs →
    ∀ v ∈ vs, v.proposeWeight = 1 ∧ v.voteWeight = 1
  | [], vs, h, v, hv => by cases h; cases hv
  | s :: ss, vs, h, v, hv => by
    unfold configValidators at h
    split at h
    · rename_i a vs' ha hvs
      cases h
      rcases List.mem_cons.1 hv with rfl | hv
      · exact ⟨rfl, rfl⟩
      · exact configValidators_weight hvs v hv
    · cases h

theorem configValidators_perm {ss ts : List String} (hp : ss.Perm ts) : ∀ {vs ws : List Validator}, configValidators ss = some vs →
    configValidators ts = some ws → vs.Perm ws := by
  induction hp with
  | nil => intro vs ws h1 h2; cases h1; cases h2; exact .nil
  | cons s _ ih =>
    intro vs ws h1 h2
    unfold configValidators at h1 h2
    split at h1
    · rename_i a vs' ha hvs
      cases h1
      rw [ha] at h2
      split at h2
      · rename_i b ws' hb hws
        cases hb; cases h2
        exact (ih hvs hws).cons _
      · cases h2
    · cases h1
  | swap s t l =>
    intro vs ws h1 h2
    simp only [configValidators] at h1 h2
    cases hs : UserAddress.fromHex s.toList <;> cases ht : UserAddress.fromHex t.toList <;> cases hl : configValidators l <;>
      simp only [hs, ht, hl] at h1 h2 <;> first | cases h1 | cases h2 | skip
    cases h2
    exact .swap _ _ _
  | trans h1 h2 ih1 ih2 =>
    intro vs ws ha hc
    rename_i l1 l2 l3
    have : ∃ us, configValidators l2 = some us := by
      have key : ∀ (l : List String), (∀ s ∈ l, (UserAddress.fromHex s.toList).isSome) → ∃ us, configValidators l = some us := by
        intro l
        induction l with
        | nil => intro _; exact ⟨[], rfl⟩
        | cons s l ih =>
          intro h
          obtain ⟨a, hs⟩ := Option.isSome_iff_exists.1 (h s (by simp))
          obtain ⟨us, hu⟩ := ih (fun t ht => h t (by simp [ht]))
          exact ⟨⟨a, 1, 1⟩ :: us, by simp only [configValidators, hs, hu]⟩
      have back : ∀ (l : List String) vs, configValidators l = some vs → ∀ s ∈ l, (UserAddress.fromHex s.toList).isSome := by
        intro l
        induction l with
        | nil => intro _ _ s hs; cases hs
        | cons s l ih =>
          intro vs h t ht
          unfold configValidators at h
          split at h
          · rename_i a vs' ha hvs
            rcases List.mem_cons.1 ht with rfl | ht
            · rw [ha]; rfl
            · exact ih _ hvs t ht
          · cases h
      exact key l2 (fun s hs => back l1 vs ha s (h1.symm.subset hs))
    obtain ⟨us, hu⟩ := this
    exact (ih1 ha hu).trans (ih2 hu hc)

/-! ### The validators of a status never change -/

/-- The part of the status that comes from the configuration. -/
structure Node.Configured (cfg : NodeCfg) (n : Node) : Prop where
  validators : n.status.validators = cfg.validators
  interval : n.status.interval = cfg.interval

theorem configured_effect {cfg : NodeCfg} {P : Done → Prop} {n n' : Node} (h : n.Configured cfg) (he : Effect cfg P n n') :
    n'.Configured cfg := by
  cases he with
  | quiet h1 h2 h3 h4 => exact ⟨by rw [h3]; exact h.1, by rw [h3]; exact h.2⟩
  | proof p h1 h2 h3 h4 => exact ⟨by rw [h3]; exact h.1, by rw [h3]; exact h.2⟩
  | failed d j hp hr hj h1 h3 h4 => exact ⟨by rw [h3]; exact h.1, by rw [h3]; exact h.2⟩
  | done d hp hr h1 h3 h4 => exact ⟨by rw [h3]; exact h.1, by rw [h3]; exact h.2⟩

theorem configured_start {cfg : NodeCfg} {s : Store} {t : StateDB} {n : Node} (h : startNode cfg s t = some n) : n.Configured cfg := by
  obtain ⟨e, he, h1, h2, h3, h4, -⟩ := startNode_some h
  exact ⟨by rw [h3]; rfl, by rw [h3]; rfl⟩

theorem Lives.configured {cfg : NodeCfg} {g : Genesis} {ok : Node → NodeOp → Prop} {n : Node} (h : Lives cfg g ok n) : n.Configured cfg := by
  induction h with
  | init h1 h2 => exact configured_start h2
  | step op _ _ ih => exact step_induct (fun n n' P hn he => configured_effect hn he) ih op
  | restart _ _ h2 _ => exact configured_start h2

/-- A status the node `n` of a lifetime hands to Overlord: at the start of the process, as the result of a commit, or after a
synchronisation. -/
inductive HandsOver (cfg : NodeCfg) (n : Node) : OvStatus → Prop
  | start : n.log = [] → HandsOver cfg n n.startOvStatus
  | commit {io id pill proof s} : n.commitOvStatus cfg io id pill proof = some s → HandsOver cfg n s
  | sync {io msg s} : n.syncOvStatus cfg io msg = some s → HandsOver cfg n s

/-- **C69, content.**  Every status that a node hands to Overlord, in every lifetime, has the configured interval, and its authorities
are exactly the configured validators with their weights, ordered by address. -/
theorem C69_authorities {cfg : NodeCfg} {g : Genesis} {ok : Node → NodeOp → Prop} {n : Node} (h : Lives cfg g ok n) {s : OvStatus}
    (hs : HandsOver cfg n s) :
    s.interval = some cfg.interval ∧
    s.authority.Pairwise (fun a b => a.address ≤ b.address) ∧
    s.authority.Perm (cfg.validators.map (fun v => ⟨v.address.toBytes, v.proposeWeight, v.voteWeight⟩)) := by
  have key : ∀ (m : Node) (hgt : UInt64), m.Configured cfg → (m.ovStatus hgt).interval = some cfg.interval ∧
      (m.ovStatus hgt).authority = authorityOf cfg.validators := by
    intro m hgt hm
    simp only [Node.ovStatus, hm.1, hm.2, and_self]
  have step : ∀ op, (n.step cfg op).Configured cfg := fun op =>
    step_induct (fun n n' P hn he => configured_effect hn he) h.configured op
  have : s.interval = some cfg.interval ∧ s.authority = authorityOf cfg.validators := by
    cases hs with
    | start _ => exact key n _ h.configured
    | @commit io id pill proof _ hc =>
      have hn := step (.commit io id pill proof)
      simp only [Node.step] at hn
      unfold Node.commitOvStatus at hc
      split at hc
      · rename_i hgt n' he
        cases hc
        rw [he] at hn
        exact key n' hgt hn
      · cases hc
    | @sync io msg _ hc =>
      have hn := step (.sync io msg)
      simp only [Node.step] at hn
      unfold Node.syncOvStatus at hc
      split at hc
      · rename_i hgt n' he
        cases hc
        rw [he] at hn
        exact key n' hgt hn
      · cases hc
  obtain ⟨h1, h2⟩ := this
  rw [h1, h2]
  exact ⟨rfl, authorityOf_sorted _, authorityOf_perm _⟩

theorem handsOver_authority {cfg : NodeCfg} {g : Genesis} {ok : Node → NodeOp → Prop} {n : Node} (h : Lives cfg g ok n) {s : OvStatus}
    (hs : HandsOver cfg n s) (hu : ∀ v ∈ cfg.validators, ∀ w ∈ cfg.validators, v.address = w.address → v = w) :
    s.authority = authorityOf cfg.validators := by
  obtain ⟨-, h2, h3⟩ := C69_authorities h hs
  refine List.Perm.eq_of_pairwise (le := fun a b : OvNode => a.address ≤ b.address) ?_ h2 (authorityOf_sorted _)
    (h3.trans (authorityOf_perm _).symm)
  intro a b ha hb h1 h2
  obtain ⟨v, hv, rfl⟩ := List.mem_map.1 (h3.subset ha)
  obtain ⟨w, hw, rfl⟩ := List.mem_map.1 ((authorityOf_perm _).subset hb)
  have : v.address.toBytes = w.address.toBytes := List.le_antisymm h1 h2
  rw [hu v hv w hw (UserAddress.toBytes_inj this)]
  rfl

/-- **C69, height.**  The status handed over after a commit of height `id` is for height `id + 1`, the height the node itself is then at;
the one handed over at the start is for the height after the latest stored epoch; the one after a synchronisation with an honest
announcement `v` is for the height the node is then at (its shortcomings are C64). -/
theorem C69_height {cfg : NodeCfg} {n : Node} {s : OvStatus} :
    (∀ io id pill proof, n.commitOvStatus cfg io id pill proof = some s →
      s.epochId = id + 1 ∧ (n.commit cfg io id pill proof).2.status.epochId = id + 1) ∧
    (∀ st db m, startNode cfg st db = some m → ∃ e, st.latest = some e ∧ m.startOvStatus.epochId = e.header.epochId + 1) ∧
    (∀ (io : SyncIo) (v : Nat) (rest : Bytes), 2 ≤ v → v < 2 ^ 64 → (∀ k id e, io.pullEpoch k id = some e → e.header.epochId = id) →
      n.syncOvStatus cfg io (u64LE v ++ rest) = some s →
      s.epochId.toNat = v ∧ (n.updateEpoch cfg io (u64LE v ++ rest)).2.status.epochId = s.epochId) := by
  refine ⟨?_, ?_, ?_⟩
  · intro io id pill proof h
    unfold Node.commitOvStatus at h
    have he := commit_end cfg io id pill proof n
    cases hc : n.commit cfg io id pill proof with
    | mk r m =>
      rw [hc] at h he
      cases r with
      | error e => cases h
      | ok hgt =>
        cases h
        generalize hx : ((Except.ok hgt : Except CErr UInt64), m) = x at he
        cases he with
        | done hd hr =>
          rename_i d db
          injection hx with hx1 hx2
          subst hx2
          have h1 := hd.height
          split at hx1
          · injection hx1 with hx1
            subst hx1
            refine ⟨rfl, ?_⟩
            show d.height + 1 = id + 1
            rw [h1]
          · cases hx1
        | _ => injection hx with hx1 hx2; cases hx1
  · intro st db m h
    obtain ⟨e, he, -, -, hst, -⟩ := startNode_some h
    exact ⟨e, he, by simp only [Node.startOvStatus, Node.ovStatus, hst]; rfl⟩
  · intro io v rest h2 hlt hid h
    unfold Node.syncOvStatus at h
    cases hc : n.updateEpoch cfg io (u64LE v ++ rest) with
    | mk r m =>
      rw [hc] at h
      cases r with
      | error e => cases h
      | ok o =>
        cases o with
        | none => cases h
        | some hgt =>
          cases h
          obtain ⟨a, b, -, -⟩ := C64_partial h2 hlt hid hc
          exact ⟨a, b⟩

/-- **C69, agreement.**  Two nodes whose configuration files list the same validators, in any order, hand Overlord the same list of
authorities, in the same order, at every point of their lifetimes, whatever else differs between them. -/
theorem C69_agree {cfg cfg' : NodeCfg} {g g' : Genesis} {ok ok' : Node → NodeOp → Prop} {n n' : Node} {s s' : OvStatus}
    {verifiers verifiers' : List String}
    (hc : configValidators verifiers = some cfg.validators) (hc' : configValidators verifiers' = some cfg'.validators)
    (hp : verifiers.Perm verifiers')
    (h : Lives cfg g ok n) (h' : Lives cfg' g' ok' n') (hs : HandsOver cfg n s) (hs' : HandsOver cfg' n' s') :
    s.authority = s'.authority := by
  have hperm := configValidators_perm hp hc hc'
  have uniq : ∀ {ss : List String} {vs : List Validator}, configValidators ss = some vs →
      ∀ v ∈ vs, ∀ w ∈ vs, v.address = w.address → v = w := by
    intro ss vs hss v hv w hw ha
    obtain ⟨a, b, c⟩ := v
    obtain ⟨a', b', c'⟩ := w
    obtain ⟨hb, hc⟩ := configValidators_weight hss _ hv
    obtain ⟨hb', hc'⟩ := configValidators_weight hss _ hw
    simp only at ha hb hc hb' hc'
    subst ha hb hc hb' hc'
    rfl
  rw [handsOver_authority h hs (uniq hc), handsOver_authority h' hs' (uniq hc')]
  exact authorityOf_congr hperm (uniq hc)

/-- **C69, relaying.**  A vote for an authority of a status is addressed to the configured validator of that address: no address of
the list is refused. -/
theorem C69_relay {cfg : NodeCfg} {g : Genesis} {ok : Node → NodeOp → Prop} {n : Node} (h : Lives cfg g ok n) {s : OvStatus}
    (hs : HandsOver cfg n s) {a : OvNode} (ha : a ∈ s.authority) :
    ∃ v ∈ cfg.validators, a = ⟨v.address.toBytes, v.proposeWeight, v.voteWeight⟩ ∧ relayTarget a.address = some v.address := by
  obtain ⟨-, -, h3⟩ := C69_authorities h hs
  obtain ⟨v, hv, rfl⟩ := List.mem_map.1 (h3.subset ha)
  refine ⟨v, hv, rfl, ?_⟩
  simp only [relayTarget, UserAddress.toBytes, UserAddress.fromBytes]
  simp [v.address.size]

/-! ### C70: the list looked up for a height -/

/-- No epoch of height 0 is committed or handed out by a peer, and the validators in the headers of the others are the configured ones,
in any order. -/
def SameValidators (cfg : NodeCfg) : NodeOp → Prop
  | .commit _ _ pill _ => pill.epoch.header.epochId ≠ 0 ∧ pill.epoch.header.validators.Perm cfg.validators
  | .sync io _ => ∀ k id e, io.pullEpoch k id = some e → e.header.epochId ≠ 0 ∧ e.header.validators.Perm cfg.validators
  | _ => True

/-- What is stored of the validators. -/
def Store.Validators (cfg : NodeCfg) (s : Store) : Prop :=
  (∃ e, s.epochs 0 = some e ∧ e.header.validators = []) ∧
  ∀ id e, id ≠ 0 → s.epochs id = some e → e.header.validators.Perm cfg.validators

theorem Lives.storedValidators {cfg : NodeCfg} {g : Genesis} {n : Node} (h : Lives cfg g (fun _ => SameValidators cfg) n) :
    n.store.Validators cfg := by
  have keep : ∀ (P : Done → Prop), (∀ d, P d → d.epoch.header.epochId ≠ 0 ∧ d.epoch.header.validators.Perm cfg.validators) →
      ∀ n n' : Node, n.store.Validators cfg → Effect cfg P n n' → n'.store.Validators cfg := by
    intro P hP n n' hn he
    have hw : ∀ (d : Done), P d → ∀ ws : List Write, (∀ i, (n.store.writes ws).epochs i = n.store.epochs i ∨
        (i = d.epoch.header.epochId ∧ (n.store.writes ws).epochs i = some d.epoch)) → (n.store.writes ws).Validators cfg := by
      intro d hd ws h
      obtain ⟨h0, hv⟩ := hP d hd
      refine ⟨?_, ?_⟩
      · rcases h 0 with h | ⟨h, -⟩
        · rw [h]; exact hn.1
        · exact absurd h.symm h0
      · intro id e hid he
        rcases h id with h | ⟨-, h⟩
        · rw [h] at he; exact hn.2 id e hid he
        · rw [h] at he; cases he; exact hv
    cases he with
    | quiet h1 h2 h3 h4 => rw [h1]; exact hn
    | proof p h1 h2 h3 h4 => rw [h1]; exact hn
    | failed d j hp hr hj h1 h3 h4 => rw [h1]; exact hw d hp _ (fun i => epochs_take cfg d n.store j i)
    | done d hp hr h1 h3 h4 =>
      rw [h1]
      refine hw d hp _ (fun i => ?_)
      rw [epochs_all]
      by_cases hi : i = d.epoch.header.epochId
      · exact .inr ⟨hi, if_pos hi⟩
      · exact .inl (if_neg hi)
  induction h with
  | init h1 h2 =>
    obtain ⟨e, he, hst, -⟩ := startNode_some h2
    rw [hst]
    obtain ⟨root, -, rfl⟩ := handleInit_empty h1
    refine ⟨⟨_, rfl, rfl⟩, ?_⟩
    intro id e hid he
    have : (if id = 0 then some (cfg.genesisEpoch g.timestamp root) else none) = some e := he
    rw [if_neg hid] at this
    cases this
  | @step n op hl hok ih =>
    cases op with
    | insertTx o b tx => exact keep (fun _ => False) (fun _ h => h.elim) _ _ ih (passive_effect cfg _ n _ trivial)
    | propose now id => exact keep (fun _ => False) (fun _ h => h.elim) _ _ ih (passive_effect cfg _ n _ trivial)
    | check p1 p2 ha pill => exact keep (fun _ => False) (fun _ h => h.elim) _ _ ih (passive_effect cfg _ n _ trivial)
    | commit io id pill proof =>
      refine keep _ ?_ _ _ ih (commit_effect cfg io id pill proof n)
      intro d hd
      rw [hd.epoch]; exact hok
    | sync io msg =>
      rcases updateEpoch_steps cfg io msg n with h | ⟨v, rest, h, r, -, -, hs⟩
      · show (n.updateEpoch cfg io msg).2.store.Validators cfg
        rw [h]; exact ih
      · have : ∀ {k ids h r m m'}, SyncSteps cfg io k ids h r m m' → m.store.Validators cfg → m'.store.Validators cfg := by
          intro k ids h r m m' hs
          induction hs with
          | stop => exact id
          | fail he _ _ =>
            intro hm
            exact keep _ (fun d hd => hok _ _ _ hd.pulled) _ _ hm he
          | round d hd hr h1 h2 h3 _ ih2 =>
            intro hm
            exact ih2 (keep (fun x => x = d) (fun x hx => by subst hx; exact hok _ _ _ hd.pulled) _ _ hm (.done d rfl hr h1 h2 h3))
        exact this hs ih
  | @restart n s t n' hl h1 h2 ih =>
    have hsome : n.store.latest.isSome := by
      obtain ⟨-, e, he, -⟩ := hl.coherent
      rw [he]; rfl
    obtain ⟨rfl, rfl⟩ := handleInit_some hsome h1
    obtain ⟨e, he, hst, -⟩ := startNode_some h2
    rw [hst]; exact ih

/-- **C70, the true part.**  If the headers of the committed and fetched epochs carry the configured validators (as what the node
itself proposes does, `C70_proposal`), the list looked up for a stored height from 1 on is the list in every status the node hands to
Overlord. -/
theorem C70_partial {cfg : NodeCfg} {g : Genesis} {n : Node} (h : Lives cfg g (fun _ => SameValidators cfg) n)
    (hu : ∀ v ∈ cfg.validators, ∀ w ∈ cfg.validators, v.address = w.address → v = w) {s : OvStatus} (hs : HandsOver cfg n s) {id : UInt64}
    (hid : id ≠ 0) {l : List OvNode} (hl : n.getAuthorityList id = some l) : l = s.authority := by
  unfold Node.getAuthorityList at hl
  cases he : n.store.epochs id with
  | none => rw [he] at hl; cases hl
  | some e =>
    rw [he] at hl
    cases hl
    rw [handsOver_authority h hs hu]
    have hp := h.storedValidators.2 id e hid he
    exact (authorityOf_congr hp.symm hu).symm

/-- What a node proposes carries the configured validators. -/
theorem C70_proposal {cfg : NodeCfg} {g : Genesis} {ok : Node → NodeOp → Prop} {n n' : Node} {now id : UInt64} {pill : Pill} {hash : Bytes}
    (h : Lives cfg g ok n) (hp : n.getEpoch cfg now id = (.ok (pill, hash), n')) : pill.epoch.header.validators = cfg.validators := by
  unfold Node.getEpoch at hp
  split at hp
  · cases hp
  · split at hp
    · cases hp
    · simp only [Prod.mk.injEq, Except.ok.injEq] at hp
      obtain ⟨⟨rfl, -⟩, -⟩ := hp
      exact h.configured.1

/-- **C70 is false for height 0**: the list looked up for the genesis epoch is empty in every lifetime, although the validators of
every status are the configured ones. -/
theorem C70_refuted {cfg : NodeCfg} {g : Genesis} {n : Node} (h : Lives cfg g (fun _ => SameValidators cfg) n) :
    n.getAuthorityList 0 = some [] := by
  obtain ⟨e, he, hv⟩ := h.storedValidators.1
  unfold Node.getAuthorityList
  rw [he]
  simp [hv, authorityOf]

/-! ### The hypotheses are met -/

namespace Demo

/-- Three validators, written down in two orders. -/
def verifiersA : List String := ["100907000000000000000000000000000000000000", "0x100a07000000000000000000000000000000000000",
  "100207000000000000000000000000000000000000"]
def verifiersB : List String := ["100207000000000000000000000000000000000000", "100907000000000000000000000000000000000000",
  "0x100a07000000000000000000000000000000000000"]

def threeValidators (l : List String) : NodeCfg := { ncfg with validators := (configValidators l).getD [] }

def nodeOf (cfg : NodeCfg) : Node := ((handleInit cfg ngenesis Store.empty PMap.empty).bind (fun x => startNode cfg x.1 x.2)).getD noNode

/-- The two nodes of the example list their validators in different orders. -/
example : verifiersA.Perm verifiersB ∧ (threeValidators verifiersA).validators ≠ (threeValidators verifiersB).validators ∧
    (threeValidators verifiersA).validators.length = 3 ∧ configValidators verifiersB ≠ none := by
  decide +kernel

theorem nodeOf_lives (l : List String) (h : ((handleInit (threeValidators l) ngenesis Store.empty PMap.empty).bind
    (fun x => startNode (threeValidators l) x.1 x.2)).isSome = true) (ok : Node → NodeOp → Prop) :
    Lives (threeValidators l) ngenesis ok (nodeOf (threeValidators l)) := by
  unfold nodeOf
  cases hi : handleInit (threeValidators l) ngenesis Store.empty PMap.empty with
  | none => rw [hi] at h; cases h
  | some x =>
    obtain ⟨s, t⟩ := x
    rw [hi] at h
    simp only [Option.bind_some] at h ⊢
    cases hs : startNode (threeValidators l) s t with
    | none => rw [hs] at h; cases h
    | some n => exact .init hi hs

/-- `C69_agree` applies to them. -/
example : (nodeOf (threeValidators verifiersA)).startOvStatus.authority = (nodeOf (threeValidators verifiersB)).startOvStatus.authority :=
  C69_agree (verifiers := verifiersA) (verifiers' := verifiersB) (by decide +kernel) (by decide +kernel) (by decide +kernel)
    (nodeOf_lives verifiersA (by decide +kernel) (fun _ _ => True)) (nodeOf_lives verifiersB (by decide +kernel) (fun _ _ => True))
    (.start (by decide +kernel)) (.start (by decide +kernel))

/-- The list of the first one: ordered by address, not as written down. -/
example : (nodeOf (threeValidators verifiersA)).startOvStatus.authority =
    ["100207000000000000000000000000000000000000", "100907000000000000000000000000000000000000",
      "100a07000000000000000000000000000000000000"].map (fun s => ⟨(hexDecode s.toList).getD [], 1, 1⟩) := by
  obtain ⟨-, h2, h3⟩ := C69_authorities (nodeOf_lives verifiersA (by decide +kernel) (fun _ _ => True)) (.start (by decide +kernel))
  refine List.Perm.eq_of_pairwise (le := fun a b : OvNode => a.address ≤ b.address) ?_ h2 (by decide +kernel) (h3.trans (by decide +kernel))
  intro a b ha hb h1 h2
  obtain ⟨v, hv, rfl⟩ := List.mem_map.1 (h3.subset ha)
  obtain ⟨t, ht, rfl⟩ := List.mem_map.1 hb
  have e := List.le_antisymm h1 h2
  have hw := configValidators_weight (ss := verifiersA) (vs := (threeValidators verifiersA).validators) (by decide +kernel) v hv
  simp only [hw.1, hw.2] at e ⊢
  rw [e]

def n1AuthPre : Node := (n0.step ncfg (.insertTx true true (npay 1 2 10))).step ncfg (.propose 7 n0.status.epochId)
def n1AuthPill : Pill := proposal (n0.step ncfg (.insertTx true true (npay 1 2 10)))

/-- The commit of the example node returns a status, for height 2. -/
example : ((n1AuthPre.commitOvStatus ncfg .ok 1 n1AuthPill (oproof 1)).map (fun s => (s.epochId, s.interval))) =
    some (2, some 1) := by decide +kernel

/-- A synchronisation of the example node sends one, for height 4. -/
example : ((n1.syncOvStatus ncfg (peer n3) (u64LE 4)).map (fun s => (s.epochId, s.interval))) =
    some (4, some 1) := by decide +kernel

theorem n1_sameValidators : Lives ncfg ngenesis (fun _ => SameValidators ncfg) n1 := by
  have hb : n1 = n0.run ncfg (blockOps n0 [npay 1 2 10]) := rfl
  rw [hb]
  refine run_lives _ (n0_lives _) ?_
  intro pre op post he
  have hmem : op ∈ blockOps n0 [npay 1 2 10] := by rw [he]; simp
  have hall : ∀ op ∈ blockOps n0 [npay 1 2 10], SameValidators ncfg op := by
    intro op hop
    simp only [blockOps, List.map_cons, List.map_nil, List.cons_append, List.nil_append, List.mem_cons, List.not_mem_nil, or_false] at hop
    rcases hop with rfl | rfl | rfl
    · trivial
    · trivial
    · refine ⟨by decide +kernel, ?_⟩
      have : (proposal (n0.run ncfg [NodeOp.insertTx true true (npay 1 2 10)])).epoch.header.validators = ncfg.validators := by
        decide +kernel
      exact List.Perm.of_eq this
  exact hall op hmem

/-- `C70_partial` and `C70_refuted` on the example: the list of height 1 is that of the statuses, that of height 0 is empty. -/
example : n1.getAuthorityList 1 = some (n1.ovStatus 2).authority ∧ (n1.ovStatus 2).authority ≠ [] ∧ n1.getAuthorityList 0 = some [] := by
  have h1 : (n1.store.epochs 1).map (fun e => e.header.validators) = some n1.status.validators := by decide +kernel
  have h2 : n1.status.validators ≠ [] := by decide +kernel
  refine ⟨?_, ?_, C70_refuted n1_sameValidators⟩
  · unfold Node.getAuthorityList Node.ovStatus
    cases he : n1.store.epochs 1 with
    | none => rw [he] at h1; cases h1
    | some e =>
      rw [he] at h1
      have : e.header.validators = n1.status.validators := by simpa using h1
      simp only [Option.map_some, this]
  · intro h
    have hp := authorityOf_perm n1.status.validators
    rw [show authorityOf n1.status.validators = [] from h] at hp
    exact h2 (List.map_eq_nil_iff.1 hp.nil_eq.symm)

end Demo
end Huobi
