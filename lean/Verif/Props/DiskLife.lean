import Verif.Props.Disk
import Verif.Props.Handed
/-
C98, C99 on a machine that holds bytes: what the properties of a node's life assume of its states follows there from the absence of
clashes, and no call of a node whose peers behave fails to open a root.
-/
namespace Huobi

/-! ### Roots are never forgotten -/

theorem ran_known {cfg : NodeCfg} {d : Done} {n : Node} {db : StateDB} (h : d.Ran cfg n db) (r : MerkleRoot) (hr : n.tries r ≠ none) : db r ≠ none := by
  unfold Done.Ran runBlock at h
  split at h
  · cases h
  · split at h
    · injection h with _ h
      subst h
      unfold StateDB.put PMap.set
      split
      · exact nofun
      · exact hr
    · cases h

theorem Effect.known {cfg : NodeCfg} {P : Done → Prop} {n n' : Node} (h : Effect cfg P n n') (r : MerkleRoot) (hr : n.tries r ≠ none) : n'.tries r ≠ none := by
  cases h with
  | quiet _ h _ _ => rw [h]; exact hr
  | proof p _ h _ _ => rw [h]; exact hr
  | failed d j _ h _ _ _ _ => exact ran_known h r hr
  | done d _ h _ _ _ => exact ran_known h r hr

theorem SyncSteps.known {cfg : NodeCfg} {io : SyncIo} {k : Nat} {ids : List UInt64} {h r : Hash} {n n' : Node} (hs : SyncSteps cfg io k ids h r n n')
    (x : MerkleRoot) (hx : n.tries x ≠ none) : n'.tries x ≠ none := by
  induction hs with
  | stop => exact hx
  | fail he _ _ => exact he.known x hx
  | round d _ hr _ _ _ _ ih => exact ih (ran_known hr x hx)

theorem step_known (cfg : NodeCfg) (n : Node) (op : NodeOp) (r : MerkleRoot) (hr : n.tries r ≠ none) : (n.step cfg op).tries r ≠ none := by
  cases op with
  | insertTx o b tx => exact hr
  | propose now id => rw [(passive_step cfg n (.propose now id) trivial).2.1]; exact hr
  | check p1 p2 ha pill => rw [(passive_step cfg n (.check p1 p2 ha pill) trivial).2.1]; exact hr
  | commit io id pill proof => exact (commit_effect cfg io id pill proof n).known r hr
  | sync io msg =>
    show (n.updateEpoch cfg io msg).2.tries r ≠ none
    rcases updateEpoch_steps cfg io msg n with h | ⟨v, rest, h, r', -, -, hs⟩
    · rw [h]; exact hr
    · exact hs.known r hr

/-! ### Without clashes the states are kept -/

theorem Mirrors.same {T : TrieLib} {db db' : StateDB} {b : TrieStore} (hc : ¬ Collides T b) (h : Mirrors T db b) (h' : Mirrors T db' b)
    {r : MerkleRoot} {w w' : World} (hw : db r = some w) (hw' : db' r = some w') : w = w' := by
  obtain ⟨a1, a2, a3, a4, a5⟩ := h r w hw
  obtain ⟨b1, b2, b3, b4, b5⟩ := h' r w' hw'
  exact worldRoot_inj hc a2 b2 a3 a4 a5 b3 b4 b5 (a1 ▸ b1)

theorem keeps_of_sim {cfg : NodeCfg} {L : DiskLib} {n : Node} {op : NodeOp} {b b' : TrieStore} (hc : ¬ Collides L.trie b')
    (h : Mirrors L.trie n.tries b) (h' : Mirrors L.trie (n.step cfg op).tries b') (hsub : ∀ t ∈ b, t ∈ b') : KeepsRoots cfg n op := by
  intro r w hw
  obtain ⟨w', hw'⟩ := Option.ne_none_iff_exists'.1 (step_known cfg n op r (by rw [hw]; exact nofun))
  rw [hw', (h.mono hsub).same hc h' hw hw']

theorem emptyRoot_of_sim {cfg : NodeCfg} {L : DiskLib} {n : Node} {b : TrieStore} (hempty : L.trie.root PMap.empty = cfg.emptyHash)
    (hc : ¬ Collides L.trie (PMap.empty :: b)) (h : Mirrors L.trie n.tries b) : EmptyRoot cfg n := by
  intro w hw
  obtain ⟨h1, -, h3, -, -⟩ := h _ w hw
  refine absurd ⟨PMap.empty, .head _, worldTop L.trie w, .tail _ h3, ?_, by rw [hempty, h1]; rfl⟩ hc
  intro e
  have := congrFun e bankContract.toBytes
  simp [worldTop, PMap.set, PMap.empty] at this

/-! ### The life of the node of a machine -/

/-- Every call on the running node is, at that moment, as `ok` says. -/
def RunsWith (cfg : NodeCfg) (g : Genesis) (ok : Node → NodeOp → Prop) : Machine → List MachineCall → Prop
  | _, [] => True
  | m, c :: cs => (∀ n o op, m = .on n → c = .op o op → ok n op) ∧ RunsWith cfg g ok (m.call cfg g c).2 cs

theorem RunsWith.append {cfg : NodeCfg} {g : Genesis} {ok : Node → NodeOp → Prop} : ∀ {xs ys : List MachineCall} {m : Machine},
    RunsWith cfg g ok m (xs ++ ys) → RunsWith cfg g ok m xs ∧ RunsWith cfg g ok (callAll (Machine.call cfg g) m xs).2 ys := by
  intro xs
  induction xs with
  | nil => exact fun h => ⟨trivial, h⟩
  | cons x xs ih => exact fun h => ⟨⟨h.1, (ih h.2).1⟩, (ih h.2).2⟩

/-- A condition on calls does not look at the stored latest proof. -/
def Blind (ok : Node → NodeOp → Prop) : Prop := ∀ n p op, ok (n.withProof p) op → ok n op

/-- The tables of a machine with everything that was recorded in them, but for the record of the latest proof. -/
inductive MHist (cfg : NodeCfg) (g : Genesis) (ok : Node → NodeOp → Prop) : Machine → List Done → Prop
  | unborn {s t} : Unborn cfg g s t → MHist cfg g ok (.off s t) []
  | off {n older} (p : Option Proof) : History cfg g ok n older → MHist cfg g ok (.off (n.store.withProof p) n.tries) (n.log ++ older)
  | on {n older} (p : Option Proof) : History cfg g ok n older → MHist cfg g ok (.on (n.withProof p)) (n.log ++ older)

theorem MHist.call {cfg : NodeCfg} {g : Genesis} {ok : Node → NodeOp → Prop} (hb : Blind ok) {m : Machine} {ds : List Done} (h : MHist cfg g ok m ds)
    (c : MachineCall) (hok : ∀ n o op, m = .on n → c = .op o op → ok n op) :
    ∃ ds', MHist cfg g ok (m.call cfg g c).2 ds' := by
  cases c with
  | start o k =>
    have alive : ∀ n older p, History cfg g ok n older → n.store.withProof p = m.store → n.tries = m.tries →
        ∃ ds', MHist cfg g ok (m.call cfg g (.start o k)).2 ds' := by
      intro n older p hn e1 e2
      have hl : n.store.latest ≠ none := by
        obtain ⟨-, e, he⟩ := hn.lives.limit
        rw [he]; exact nofun
      have a := (tableInit_latest (cfg := cfg) (g := g) (s := n.store.withProof p) (t := n.tries) (k := k) hl).1
      have b := (tableInit_latest (cfg := cfg) (g := g) (t := n.tries) (k := k) hl).2
      unfold Machine.call
      simp only
      rw [← e1, ← e2, a]
      simp only
      rw [startNode_withProof]
      cases hs : startNode cfg n.store n.tries with
      | none => exact ⟨_, .off p hn⟩
      | some n' => exact ⟨_, .on p (.restart hn b hs)⟩
    cases h with
    | unborn h =>
      rename_i s t
      unfold Machine.call
      simp only [Machine.store, Machine.tries]
      rcases tableInit_unborn h with ⟨s', t', e, hu⟩ | ⟨s', t', e, hu⟩ | ⟨s', t', p, e, hu⟩
      · rw [e]; exact ⟨_, .unborn hu⟩
      · rw [e]
        obtain ⟨n, hs, -, -⟩ := startNode_init hu
        simp only [hs]
        exact ⟨_, .on n.store.proof (.init hu hs)⟩
      · rw [e]
        obtain ⟨n, hs, rfl, rfl⟩ := startNode_init hu
        exact ⟨_, .off p (.init hu hs)⟩
    | off p hn => exact alive _ _ p hn rfl rfl
    | on p hn => exact alive _ _ p hn rfl rfl
  | killed w =>
    cases h with
    | unborn h => exact ⟨_, .unborn h⟩
    | off p hn => exact ⟨_, .off p hn⟩
    | on p hn => exact ⟨_, .off p hn⟩
  | op o op =>
    cases h with
    | unborn h => exact ⟨_, .unborn h⟩
    | off p hn => exact ⟨_, .off p hn⟩
    | @on n older p hn =>
      obtain ⟨-, p', e⟩ := step_agree cfg op n p
      show ∃ ds', MHist cfg g ok (.on ((n.withProof p).step cfg op)) ds'
      rw [e]
      exact ⟨_, .on p' (.step op hn (hb _ _ _ (hok _ o op rfl rfl)))⟩
  | epoch i => cases h <;> first | exact ⟨_, .unborn ‹_›⟩ | exact ⟨_, .off _ ‹_›⟩ | exact ⟨_, .on _ ‹_›⟩
  | receipt i => cases h <;> first | exact ⟨_, .unborn ‹_›⟩ | exact ⟨_, .off _ ‹_›⟩ | exact ⟨_, .on _ ‹_›⟩
  | transactions i => cases h <;> first | exact ⟨_, .unborn ‹_›⟩ | exact ⟨_, .off _ ‹_›⟩ | exact ⟨_, .on _ ‹_›⟩
  | balance a i e => cases h <;> first | exact ⟨_, .unborn ‹_›⟩ | exact ⟨_, .off _ ‹_›⟩ | exact ⟨_, .on _ ‹_›⟩

theorem KeepsRoots.blind (cfg : NodeCfg) : Blind (KeepsRoots cfg) := by
  intro n p op h r w hw
  obtain ⟨-, p', e⟩ := step_agree cfg op n p
  have := h r w hw
  rw [e] at this
  exact this

theorem Collides.cons {T : TrieLib} {b : TrieStore} {m : ByteMap} (h : Collides T b) : Collides T (m :: b) :=
  h.mono fun _ ht => .tail _ ht

/-- What the runs of the two machines have in common. -/
structure Both (cfg : NodeCfg) (L : DiskLib) (g : Genesis) (ok : Node → NodeOp → Prop) (m : Machine) (m' : DiskMachine) : Prop where
  sim : MSim cfg L m m'
  hist : ∃ ds, MHist cfg g (fun n op => ok n op ∧ KeepsRoots cfg n op) m ds

theorem both_calls {cfg : NodeCfg} {L : DiskLib} (he : cfg.rootOf = worldRoot L.trie) (hk : cfg.keys.epoch ≠ cfg.keys.proof) (g : Genesis)
    {ok : Node → NodeOp → Prop} (hblind : Blind ok) (calls : List MachineCall) {m : Machine} {m' : DiskMachine} (h : Both cfg L g ok m m')
    (hcalls : RunsWith cfg g ok m calls)
    (hres : ¬ Reserved cfg (callAll (Machine.call cfg g) m calls).2.store)
    (hcol : ¬ Collides L.trie (callAll (DiskMachine.call cfg L g) m' calls).2.tries)
    (hmem : ∀ a ∈ (callAll (DiskMachine.call cfg L g) m' calls).1, a.failure ≠ some .memory)
    (hopen : ∀ pre c post, calls = pre ++ c :: post →
      Both cfg L g ok (callAll (Machine.call cfg g) m pre).2 (callAll (DiskMachine.call cfg L g) m' pre).2 →
      (((callAll (Machine.call cfg g) m pre).2.call cfg g c).1).failure ≠ some .openRoot) :
    (callAll (DiskMachine.call cfg L g) m' calls).1 = (callAll (Machine.call cfg g) m calls).1.map MachineAns.onDisk ∧
      Both cfg L g ok (callAll (Machine.call cfg g) m calls).2 (callAll (DiskMachine.call cfg L g) m' calls).2 := by
  induction calls generalizing m m' with
  | nil => exact ⟨rfl, h⟩
  | cons c cs ih =>
    rcases call_out he hk g h.sim c with hb | hb | hb | ⟨h1, h2⟩
    · rcases hb with hb | hb
      · refine absurd ?_ hres
        exact hb.elim (fun x => .inl (calls_grow cfg g cs _ _ x)) (fun x => .inr (calls_grow cfg g cs _ _ x))
      · exact absurd (hb.mono (calls_dgrow cfg L g cs _)) hcol
    · exact absurd hb (hmem _ (.head _))
    · exact absurd hb (hopen [] c cs rfl h)
    · have hnext : Both cfg L g ok (m.call cfg g c).2 (m'.call cfg L g c).2 := by
        refine ⟨h2, ?_⟩
        obtain ⟨ds, hds⟩ := h.hist
        refine hds.call (fun n p op x => ⟨hblind n p op x.1, KeepsRoots.blind cfg n p op x.2⟩) c (fun n o op hm ho => ⟨hcalls.1 n o op hm ho, ?_⟩)
        have hc1 : ¬ Collides L.trie (m'.call cfg L g c).2.tries := fun x => hcol (x.mono (calls_dgrow cfg L g cs _))
        have s1 := h.sim.rocks.2.2
        have s2 := h2.rocks.2.2
        subst hm ho
        exact keeps_of_sim hc1 s1 s2 (call_dgrows cfg L g m' (.op o op))
      obtain ⟨i1, i2⟩ := ih hnext hcalls.2 hres hcol (fun a ha => hmem a (.tail _ ha))
        (fun pre c' post e hb => hopen (c :: pre) c' post (by rw [e]; rfl) hb)
      exact ⟨congr (congrArg List.cons h1) i1, i2⟩

/-! ### Nodes whose peers behave -/

/-- Calls of a node whose peers behave: `NodeOp.Decent` without what is assumed of the states. -/
structure NodeOp.Proper (cfg : NodeCfg) (n : Node) (op : NodeOp) : Prop where
  fresh : op.Fresh n
  vouched : op.Vouched cfg n
  honest : HonestRoot n op
  distinct : op.Distinct

theorem NodeOp.Proper.blind (cfg : NodeCfg) : Blind (fun n op => NodeOp.Proper cfg n op) := by
  rintro n p op ⟨h1, h2, h3, h4⟩
  cases op <;> exact ⟨h1, h2, h3, h4⟩

theorem NodeOp.Hands.blind (P : SignedTx → Prop) : Blind (fun n op => NodeOp.Hands P n op) := by
  intro n p op h
  cases op <;> exact h

theorem Blind.and {P Q : Node → NodeOp → Prop} (hp : Blind P) (hq : Blind Q) : Blind (fun n op => P n op ∧ Q n op) :=
  fun n p op h => ⟨hp n p op h.1, hq n p op h.2⟩

theorem commit_opens {cfg : NodeCfg} {io : CommitIo} {id : UInt64} {pill : Pill} {proof : OverlordProof} {n : Node} {w : World}
    (hw : Resolves cfg n.tries n.status.stateRoot w) : (n.commit cfg io id pill proof).1 ≠ .error .openRoot := by
  have hexec : ∀ (n1 : Node) (txs : List SignedTx), n1.tries = n.tries → n1.status = n.status →
      (n1.exec cfg n1.status.stateRoot id (.user pill.epoch.header.proposer) txs).1 ≠ .error .openRoot := by
    intro n1 txs h1 h2
    unfold Node.exec runBlock
    rw [h1, h2, resolves_fromRoot hw]
    simp only
    split
    · rename_i h; split at h <;> cases h
    · exact nofun
    · exact nofun
    · exact nofun
  have hupd : ∀ (n2 : Node) (root : MerkleRoot) (e : Epoch) (p : Proof) (resp : ExecResp) (txs : List SignedTx) (x : CErr),
      (n2.updateStatus cfg io.save root id e p resp txs).1 = .error x → x ≠ .openRoot := by
    intro n2 root e p resp txs x hx
    unfold Node.updateStatus at hx
    simp only at hx
    repeat' split at hx
    all_goals first | (injection hx with hx; rw [← hx]; exact nofun) | cases hx
  unfold Node.commit
  split
  · exact nofun
  · split
    · exact nofun
    · rename_i p _
      have hs : (n.saveProof cfg io.save p).2.tries = n.tries ∧ (n.saveProof cfg io.save p).2.status = n.status ∧
          ∀ x, (n.saveProof cfg io.save p).1 = .error x → x ≠ .openRoot := by
        unfold Node.saveProof
        split
        · exact ⟨rfl, rfl, fun x h => by cases h⟩
        · exact ⟨rfl, rfl, fun x h => by injection h with h; rw [← h]; exact nofun⟩
      revert hs
      rcases n.saveProof cfg io.save p with ⟨x, n1⟩
      intro hs
      obtain ⟨h1, h2, h3⟩ := hs
      simp only at h1 h2 h3
      cases x with
      | error e => exact fun h => h3 e rfl (by injection h)
      | ok u =>
        simp only
        split
        · exact nofun
        · split
          · exact nofun
          · rename_i txs _
            unfold Node.commitTail
            simp only
            have hx := hexec { n1 with pool := n1.pool.flush pill.epoch.orderedTxHashes } txs h1 h2
            simp only at hx
            revert hx
            rcases Node.exec cfg n1.status.stateRoot id (.user pill.epoch.header.proposer) txs
              { n1 with pool := n1.pool.flush pill.epoch.orderedTxHashes } with ⟨y, n2⟩
            intro hx
            cases y with
            | error e => exact fun h => hx (congrArg Except.error (Except.error.inj h))
            | ok resp =>
              simp only
              have hu := hupd n2 n1.status.stateRoot pill.epoch p resp txs
              revert hu
              rcases n2.updateStatus cfg io.save n1.status.stateRoot id pill.epoch p resp txs with ⟨z, n3⟩
              intro hu
              cases z with
              | error e => exact fun h => hu e rfl (by injection h)
              | ok u =>
                simp only
                split <;> exact nofun

theorem propose_opens {cfg : NodeCfg} {n : Node} {now id : UInt64} : (n.getEpoch cfg now id).1 ≠ .error .openRoot := by
  unfold Node.getEpoch
  split
  · exact nofun
  · split <;> exact nofun

theorem check_opens {cfg : NodeCfg} {n : Node} {p1 p2 : List Hash → Option (List SignedTx)} {ha : Bytes} {pill : Pill} :
    (n.checkEpoch cfg p1 p2 ha pill).1 ≠ .error .openRoot := by
  unfold Node.checkEpoch
  simp only
  repeat' split
  all_goals exact nofun

theorem balance_opens {cfg : NodeCfg} {g : Genesis} {n : Node} {older : List Done} (hp : PayInv cfg g n older) (he : EmptyRoot cfg n) (a : Address)
    (id : AssetID) (q : Option UInt64) : n.balanceAt cfg a id q ≠ .error .openRoot := by
  unfold Node.balanceAt
  cases hq : n.queryEpoch q with
  | none => exact nofun
  | some e =>
    have hn : n.Names e.header.stateRoot := by
      cases q with
      | none => exact .inr (.inr ⟨e, hq, rfl⟩)
      | some i => exact .inr (.inl ⟨i, e, hq, rfl⟩)
    obtain ⟨w, hw, -⟩ := hp _ hn
    simp only
    rw [resolves_fromRoot (resolves_of_stored he hw)]
    simp only
    split <;> exact nofun

theorem MHist.opens {cfg : NodeCfg} {g : Genesis} {P : Node → NodeOp → Prop} {m : Machine} {ds : List Done}
    (h : MHist cfg g (fun n op => (op.Proper cfg n ∧ P n op) ∧ KeepsRoots cfg n op) m ds)
    (he : ∀ n, m = .on n → EmptyRoot cfg n) (c : MachineCall) (hc : ∀ n o op, m = .on n → c = .op o op → op.Proper cfg n) :
    (m.call cfg g c).1.failure ≠ some .openRoot := by
  have dead : ∀ s t, ((Machine.off s t).call cfg g c).1.failure ≠ some .openRoot := by
    intro s t
    cases c <;> simp only [Machine.call]
    case start o k =>
      split
      · exact nofun
      · split <;> exact nofun
    all_goals exact nofun
  cases h with
  | unborn => exact dead _ _
  | off => exact dead _ _
  | @on n older p h =>
    have hdec : History cfg g (NodeOp.Decent cfg) n older :=
      h.mono (fun n op x => ⟨x.1.1.fresh, x.1.1.vouched, x.1.1.honest, x.2, x.1.1.distinct⟩)
    have hem : EmptyRoot cfg n := he (n.withProof p) rfl
    have hpay := hdec.payInv hem
    cases c with
    | start o k =>
      simp only [Machine.call]
      split
      · exact nofun
      · split <;> exact nofun
    | killed w => exact nofun
    | epoch i => exact nofun
    | receipt i => exact nofun
    | transactions i => exact nofun
    | balance a i q =>
      have := balance_opens hpay hem a i q
      show (MachineAns.balance ((n.withProof p).balanceAt cfg a i q)).failure ≠ _
      have e : (n.withProof p).balanceAt cfg a i q = n.balanceAt cfg a i q := by cases q <;> rfl
      rw [e]
      cases hx : n.balanceAt cfg a i q with
      | ok b => exact nofun
      | error e => rw [hx] at this; exact fun h => this (by injection h with h; rw [h])
    | op o op =>
      have hpr := NodeOp.Proper.blind cfg _ _ _ (hc _ o op rfl rfl)
      have lift : ∀ {α : Type} (r : Except CErr α) (f : Except CErr α → MachineAns CErr), (∀ x, (f (.ok x)).failure = none) →
          (∀ e, (f (.error e)).failure = some e) → r ≠ .error .openRoot → (f r).failure ≠ some .openRoot := by
        intro α r f h1 h2 hr
        cases r with
        | ok x => rw [h1]; exact nofun
        | error e => rw [h2]; exact fun h => hr (by injection h with h; rw [h])
      show ((n.withProof p).answer cfg op).failure ≠ _
      rw [(step_agree cfg op n p).1]
      cases op with
      | sync io msg => exact hpr.fresh.elim
      | insertTx b b' tx => exact nofun
      | propose now id => exact lift _ .proposed (fun _ => rfl) (fun _ => rfl) propose_opens
      | check p1 p2 x pill => exact lift _ .checked (fun _ => rfl) (fun _ => rfl) check_opens
      | commit io id pill proof =>
        obtain ⟨w, hw, -⟩ := hpay n.status.stateRoot (.inl rfl)
        exact lift _ .committed (fun _ => rfl) (fun _ => rfl) (commit_opens (resolves_of_stored hem hw))

theorem both_proper {cfg : NodeCfg} {L : DiskLib} {g : Genesis} (hroot : cfg.rootOf = worldRoot L.trie) (hempty : L.trie.root PMap.empty = cfg.emptyHash)
    (hkeys : cfg.digest (utf8 "latest_hash") ≠ cfg.digest (utf8 "latest_proof")) {P : Node → NodeOp → Prop} (hP : Blind P) (calls : List MachineCall)
    (hcalls : RunsWith cfg g (fun n op => op.Proper cfg n ∧ P n op) (.off Store.empty PMap.empty) calls)
    (hres : (callAll (Machine.call cfg g) (.off Store.empty PMap.empty) calls).2.store.byHash (cfg.digest (utf8 "latest_hash")) = none ∧
      (callAll (Machine.call cfg g) (.off Store.empty PMap.empty) calls).2.store.byHash (cfg.digest (utf8 "latest_proof")) = none)
    (hcol : ¬ Collides L.trie (PMap.empty :: (callAll (DiskMachine.call cfg L g) (.off Db.empty []) calls).2.tries))
    (hmem : ∀ a ∈ (callAll (DiskMachine.call cfg L g) (.off Db.empty []) calls).1, a.failure ≠ some .memory) :
    (callAll (DiskMachine.call cfg L g) (.off Db.empty []) calls).1 =
        (callAll (Machine.call cfg g) (.off Store.empty PMap.empty) calls).1.map MachineAns.onDisk ∧
      Both cfg L g (fun n op => op.Proper cfg n ∧ P n op) (callAll (Machine.call cfg g) (.off Store.empty PMap.empty) calls).2
        (callAll (DiskMachine.call cfg L g) (.off Db.empty []) calls).2 := by
  refine both_calls hroot hkeys g ((NodeOp.Proper.blind cfg).and hP) calls ⟨MSim.start cfg L, _, .unborn ⟨rfl, rfl⟩⟩ hcalls
    (fun h => h.elim (fun h => h hres.1) (fun h => h hres.2)) (fun h => hcol h.cons) hmem ?_
  intro pre c post e hb
  obtain ⟨ds, hds⟩ := hb.hist
  subst e
  obtain ⟨-, hc⟩ := RunsWith.append hcalls
  refine hds.opens (fun n hn => ?_) c (fun n o op hm ho => (hc.1 n o op hm ho).1)
  have hsim := hb.sim.rocks.2.2
  rw [hn] at hsim
  refine emptyRoot_of_sim hempty (fun hx => hcol (hx.mono fun t ht => ?_)) hsim
  rw [callAll_append]
  rcases List.mem_cons.1 ht with rfl | ht
  · exact .head _
  · exact .tail _ (calls_dgrow cfg L g (c :: post) _ t ht)

/-- C98 for a node whose peers behave (`NodeOp.Proper`): the exception of a root that is of no state never occurs.  Every answer of the machine
on bytes is that of the node on tables, unless a buffer of 2^64 bytes was needed, two tries with one root were stored, or a recorded
epoch has the digest of the name of a reserved key. -/
theorem C98_proper {cfg : NodeCfg} {L : DiskLib} {g : Genesis} (hroot : cfg.rootOf = worldRoot L.trie) (hempty : L.trie.root PMap.empty = cfg.emptyHash)
    (hkeys : cfg.digest (utf8 "latest_hash") ≠ cfg.digest (utf8 "latest_proof")) (calls : List MachineCall)
    (hcalls : RunsWith cfg g (fun n op => op.Proper cfg n) (.off Store.empty PMap.empty) calls)
    (hres : (callAll (Machine.call cfg g) (.off Store.empty PMap.empty) calls).2.store.byHash (cfg.digest (utf8 "latest_hash")) = none ∧
      (callAll (Machine.call cfg g) (.off Store.empty PMap.empty) calls).2.store.byHash (cfg.digest (utf8 "latest_proof")) = none)
    (hcol : ¬ Collides L.trie (PMap.empty :: (callAll (DiskMachine.call cfg L g) (.off Db.empty []) calls).2.tries))
    (hmem : ∀ a ∈ (callAll (DiskMachine.call cfg L g) (.off Db.empty []) calls).1, a.failure ≠ some .memory) :
    (callAll (DiskMachine.call cfg L g) (.off Db.empty []) calls).1 =
        (callAll (Machine.call cfg g) (.off Store.empty PMap.empty) calls).1.map MachineAns.onDisk := by
  have hw : ∀ (calls : List MachineCall) (m : Machine), RunsWith cfg g (fun n op => op.Proper cfg n) m calls →
      RunsWith cfg g (fun n op => op.Proper cfg n ∧ True) m calls := by
    intro calls
    induction calls with
    | nil => exact fun _ _ => trivial
    | cons c cs ih => exact fun m h => ⟨fun n o op a b => ⟨h.1 n o op a b, trivial⟩, ih _ h.2⟩
  exact (both_proper hroot hempty hkeys (fun _ _ _ h => h) calls (hw calls _ hcalls) hres hcol hmem).1

/-- C99 (partial: for a node whose peers behave) on a machine that holds only bytes: let a user have signed only the transactions `S`, so that no
other transactions of his account are handed to the node, and let anything happen to the machine.  Whenever it shows an epoch and, at that
epoch, a balance of his, then that is at least his allocation of the genesis without the payments in `S`, each counted once. -/
theorem C99_disk_partial {cfg : NodeCfg} {L : DiskLib} {g : Genesis} (hroot : cfg.rootOf = worldRoot L.trie) (hempty : L.trie.root PMap.empty = cfg.emptyHash)
    (hkeys : cfg.digest (utf8 "latest_hash") ≠ cfg.digest (utf8 "latest_proof")) (before : List MachineCall) (a : Address) (S : List RawTx)
    (hcalls : RunsWith cfg g (fun n op => op.Proper cfg n ∧ op.Hands (fun t => accountOf cfg t = a → t.raw ∈ S) n) (.off Store.empty PMap.empty) before)
    (id : AssetID) (q : Option UInt64) (calls : List MachineCall)
    (happ : calls = before ++ [.epoch q, .balance a id q])
    (hres : (callAll (Machine.call cfg g) (.off Store.empty PMap.empty) calls).2.store.byHash (cfg.digest (utf8 "latest_hash")) = none ∧
      (callAll (Machine.call cfg g) (.off Store.empty PMap.empty) calls).2.store.byHash (cfg.digest (utf8 "latest_proof")) = none)
    (hcol : ¬ Collides L.trie (PMap.empty :: (callAll (DiskMachine.call cfg L g) (.off Db.empty []) calls).2.tries))
    (hmem : ∀ x ∈ (callAll (DiskMachine.call cfg L g) (.off Db.empty []) calls).1, x.failure ≠ some .memory)
    (e : Epoch) (shown : MachineAns DiskErr)
    (hshown : (callAll (DiskMachine.call cfg L g) (.off Db.empty []) calls).1.drop before.length = [.epoch (.ok e), shown]) :
    allocated g a id ≤ shown.amount + (S.map (pays id)).sum := by
  have runs : RunsWith cfg g (fun n op => op.Proper cfg n ∧ op.Hands (fun t => accountOf cfg t = a → t.raw ∈ S) n) (.off Store.empty PMap.empty) calls := by
    subst happ
    revert hcalls
    generalize Machine.off Store.empty PMap.empty = m
    clear hres hcol hmem hshown
    induction before generalizing m with
    | nil => exact fun _ => ⟨fun _ _ _ _ h => (by cases h), fun _ _ _ _ h => (by cases h), trivial⟩
    | cons c cs ih => exact fun h => ⟨h.1, ih _ h.2⟩
  obtain ⟨h1, h2⟩ := both_proper hroot hempty hkeys (NodeOp.Hands.blind _) calls runs hres hcol hmem
  rw [h1] at hshown
  subst happ
  have len : ∀ (cs : List MachineCall) (m : Machine), (callAll (Machine.call cfg g) m cs).1.length = cs.length := by
    intro cs
    induction cs with
    | nil => exact fun _ => rfl
    | cons c cs ih => exact fun m => congrArg (· + 1) (ih _)
  rw [← List.map_drop, callAll_append_fst] at hshown
  rw [← len before (.off Store.empty PMap.empty), List.drop_left] at hshown
  rw [callAll_append, callAll_append] at h2
  revert hshown h2
  have hs : ∀ m : Machine, (callAll (Machine.call cfg g) m [.epoch q, .balance a id q]).2 = m := by
    intro m; cases m <;> rfl
  have hs' : ∀ m : DiskMachine, (callAll (DiskMachine.call cfg L g) m [.epoch q, .balance a id q]).2 = m := by
    intro m; cases m <;> rfl
  rw [callAll_append, hs'] at hcol
  rw [hs, hs']
  generalize (callAll (Machine.call cfg g) (.off Store.empty PMap.empty) before).2 = m
  revert hcol
  generalize (callAll (DiskMachine.call cfg L g) (.off Db.empty []) before).2 = m'
  intro hcol hshown h2
  cases m with
  | off s t => simp [callAll, Machine.call, MachineAns.onDisk] at hshown
  | on n =>
    simp only [callAll, Machine.call, List.map_cons, List.map_nil, MachineAns.onDisk, List.cons.injEq, and_true, MachineAns.epoch.injEq] at hshown
    obtain ⟨hq, rfl⟩ := hshown
    have hq : n.queryEpoch q = some e := by
      cases hx : n.queryEpoch q with
      | none => rw [hx] at hq; cases hq
      | some y => rw [hx] at hq; injection hq with hq; rw [hq]
    obtain ⟨ds, hds⟩ := h2.hist
    cases hds with
    | @on n older p h =>
      have hem : EmptyRoot cfg n := emptyRoot_of_sim hempty hcol h2.sim.rocks.2.2
      have hdec : History cfg g (NodeOp.Decent cfg) n older :=
        h.mono (fun n op x => ⟨x.1.1.fresh, x.1.1.vouched, x.1.1.honest, x.2, x.1.1.distinct⟩)
      have hhand := (C100_no_invented_transactions (h.mono (fun n op x => x.1.2))).2.1
      have hq' : n.queryEpoch q = some e := (by cases q <;> rfl : (n.withProof p).queryEpoch q = n.queryEpoch q) ▸ hq
      have := (C99_partial hdec hem).2.2 a S hhand q e id hq'
      have hx : (n.withProof p).balanceAt cfg a id q = n.balanceAt cfg a id q := by cases q <;> rfl
      rw [hx]
      have hb := balanceAt_api cfg n a id q
      have ho := onDisk_amount (MachineAns.balance (n.balanceAt cfg a id q))
      simp only [MachineAns.onDisk] at ho
      rw [ho, hb]
      exact this

/-- C99 on disk with Merkle Patricia tries: instead of two tries with one root, two different nodes of stored tries (or of the empty one)
have one hash, or a node is of 2^64 bytes. -/
theorem C99_patricia_partial {cfg : NodeCfg} {L : DiskLib} {g : Genesis} (hmpt : IsMpt cfg.digest L.trie) (hroot : cfg.rootOf = worldRoot L.trie)
    (hkeys : cfg.digest (utf8 "latest_hash") ≠ cfg.digest (utf8 "latest_proof")) (before : List MachineCall) (a : Address) (S : List RawTx)
    (hcalls : RunsWith cfg g (fun n op => op.Proper cfg n ∧ op.Hands (fun t => accountOf cfg t = a → t.raw ∈ S) n) (.off Store.empty PMap.empty) before)
    (hwritten : ∀ w, .killed w ∈ before → ∀ m ∈ w, Built m) (id : AssetID) (q : Option UInt64)
    (calls : List MachineCall) (happ : calls = before ++ [.epoch q, .balance a id q])
    (hres : (callAll (Machine.call cfg g) (.off Store.empty PMap.empty) calls).2.store.byHash (cfg.digest (utf8 "latest_hash")) = none ∧
      (callAll (Machine.call cfg g) (.off Store.empty PMap.empty) calls).2.store.byHash (cfg.digest (utf8 "latest_proof")) = none)
    (hlong : ¬ NodeTooLong cfg.digest (PMap.empty :: (callAll (DiskMachine.call cfg L g) (.off Db.empty []) calls).2.tries))
    (hclash : ¬ NodeClash cfg.digest (PMap.empty :: (callAll (DiskMachine.call cfg L g) (.off Db.empty []) calls).2.tries))
    (hmem : ∀ x ∈ (callAll (DiskMachine.call cfg L g) (.off Db.empty []) calls).1, x.failure ≠ some .memory)
    (e : Epoch) (shown : MachineAns DiskErr)
    (hshown : (callAll (DiskMachine.call cfg L g) (.off Db.empty []) calls).1.drop before.length = [.epoch (.ok e), shown]) :
    allocated g a id ≤ shown.amount + (S.map (pays id)).sum := by
  refine C99_disk_partial hroot (hmpt []) hkeys before a S hcalls id q calls happ hres ?_ hmem e shown hshown
  refine not_collides hmpt (fun m hm => ?_) hclash hlong
  rcases List.mem_cons.1 hm with rfl | hm
  · exact .empty
  · refine calls_built cfg L g calls (fun w hw => ?_) _ (fun _ h => by cases h) m hm
    rw [happ] at hw
    rcases List.mem_append.1 hw with hw | hw
    · exact hwritten w hw
    · simp at hw

namespace Demo

/-- What user 3 deploys, and the asset that registers. -/
def edeploy : SignedTx :=
  let raw : RawTx := { chainId := hash 9, nonce := hash 0, timeout := 10, fee := ⟨token, 10000⟩, action := .deploy [6] .asset }
  { raw := raw, txHash := mix (encode raw), pubkey := [3], signature := [] }

def edeployed : AssetID := mix ((hash 9).bytes ++ (ContractAddress.fromCode mix [6] 0 .asset).toBytes)

/-- A root function for examples, with the right root for the empty trie. -/
def etrie : TrieLib :=
  ⟨fun m =>
    let l := ([accountContract.toBytes, bankContract.toBytes] ++ [naddr 1, naddr 2, naddr 3].map (fun a => a.item.enc) ++
      [token, bdeployed, edeployed].map (fun h => h.item.enc)).flatMap (fun k => match m k with | none => [0] | some v => 1 :: v)
    if l = List.replicate 8 0 then mix [0x80] else mix l⟩

def ecfg : NodeCfg := { ncfg with rootOf := worldRoot etrie }
def elib : DiskLib := ⟨etrie, fun _ => "codec"⟩

/-- What the running node would propose for an epoch. -/
def epill (calls : List MachineCall) (id : UInt64) : Pill :=
  match (callAll (Machine.call ecfg ngenesis) (.off Store.empty PMap.empty) calls).2 with
  | .on n => match (n.getEpoch ecfg 7 id).1 with
    | .ok (pill, _) => pill
    | .error _ => noPill
  | _ => noPill

def ecalls1 : List MachineCall :=
  [.epoch none, .start true 3, .start true 4, .op (fun _ => true) (.insertTx true true bdeploy), .op (fun _ => true) (.insertTx true true (npay 1 3 30))]

/-- The process is killed between the third and the fourth write of its initialisation and started again. User 1 deploys an asset and pays 30 to user 3 in epoch 1, user 3 deploys one and pays 5 to user 2 in epoch 2; the process is killed and started again. -/
def ecalls2 : List MachineCall :=
  ecalls1 ++ [.op (fun _ => false) (.commit .ok 1 (epill ecalls1 1) (oproof 1)),
    .op (fun _ => true) (.insertTx true true edeploy), .op (fun _ => true) (.insertTx true true (npay 3 2 5))]
def ecalls : List MachineCall := ecalls2 ++ [.op (fun _ => true) (.commit .ok 2 (epill ecalls2 2) (oproof 2)), .killed [], .start false 4]

/-- What is asked of a run, as a decision. -/
def properRun (a : Address) (S : List RawTx) : Machine → List MachineCall → Bool
  | _, [] => true
  | m, c :: cs => (match m, c with
      | .on n, .op _ (.commit _ _ pill _) => decide (pill.epoch.header.stateRoot = n.status.stateRoot) && decide pill.epoch.orderedTxHashes.Nodup
      | _, .op _ (.insertTx _ _ tx) => decide (accountOf ecfg tx = a → tx.raw ∈ S)
      | .on _, .op _ (.check ..) => false
      | .on _, .op _ (.sync ..) => false
      | _, _ => true) && properRun a S (m.call ecfg ngenesis c).2 cs

theorem properRun_spec {a : Address} {S : List RawTx} : ∀ {calls : List MachineCall} {m : Machine}, properRun a S m calls = true →
    RunsWith ecfg ngenesis (fun n op => op.Proper ecfg n ∧ op.Hands (fun t => accountOf ecfg t = a → t.raw ∈ S) n) m calls := by
  intro calls
  induction calls with
  | nil => exact fun _ => trivial
  | cons c cs ih =>
    intro m h
    unfold properRun at h
    rw [Bool.and_eq_true] at h
    refine ⟨fun n o op hm ho => ?_, ih h.2⟩
    subst hm ho
    have h := h.1
    cases op with
    | insertTx x y tx => exact ⟨⟨trivial, trivial, trivial, trivial⟩, (of_decide_eq_true h : accountOf ecfg tx = a → tx.raw ∈ S)⟩
    | propose now id => exact ⟨⟨trivial, trivial, trivial, trivial⟩, trivial⟩
    | check => cases h
    | sync => cases h
    | commit io id pill proof =>
      simp only [Bool.and_eq_true, decide_eq_true_eq] at h
      exact ⟨⟨trivial, trivial, h.1, h.2⟩, trivial⟩

/-- What user 1 signed. -/
def esigned : List RawTx := [bdeploy.raw, (npay 1 3 30).raw]

/-- The hypotheses of C99 on disk are met; user 1, who was allocated 100 and signed a payment of 30, is shown 70. -/
example : ecfg.rootOf = worldRoot elib.trie ∧ elib.trie.root PMap.empty = ecfg.emptyHash ∧
    ecfg.digest (utf8 "latest_hash") ≠ ecfg.digest (utf8 "latest_proof") ∧
    RunsWith ecfg ngenesis (fun n op => op.Proper ecfg n ∧ op.Hands (fun t => accountOf ecfg t = naddr 1 → t.raw ∈ esigned) n)
      (.off Store.empty PMap.empty) ecalls ∧
    ((callAll (Machine.call ecfg ngenesis) (.off Store.empty PMap.empty) (ecalls ++ [.epoch none, .balance (naddr 1) token none])).2.store.byHash
        (ecfg.digest (utf8 "latest_hash")) = none ∧
      (callAll (Machine.call ecfg ngenesis) (.off Store.empty PMap.empty) (ecalls ++ [.epoch none, .balance (naddr 1) token none])).2.store.byHash
        (ecfg.digest (utf8 "latest_proof")) = none) ∧
    ¬ Collides elib.trie (PMap.empty :: (callAll (DiskMachine.call ecfg elib ngenesis) (.off Db.empty []) (ecalls ++ [.epoch none, .balance (naddr 1) token none])).2.tries) ∧
    (∀ x ∈ (callAll (DiskMachine.call ecfg elib ngenesis) (.off Db.empty []) (ecalls ++ [.epoch none, .balance (naddr 1) token none])).1, x.failure ≠ some .memory) ∧
    (callAll (DiskMachine.call ecfg elib ngenesis) (.off Db.empty []) (ecalls ++ [.epoch none, .balance (naddr 1) token none])).1.map shown =
      [1000, 1002, 1001, 1004, 1004, 2002, 1004, 1004, 2003, 1003, 1001, 3002, 70] ∧
    allocated ngenesis (naddr 1) token = 100 ∧ (esigned.map (pays token)).sum = 30 := by
  refine ⟨rfl, by decide +kernel, by decide +kernel, properRun_spec (by decide +kernel), ⟨by decide +kernel, by decide +kernel⟩, ?_, ?_, by decide +kernel,
    by decide +kernel, by decide +kernel⟩
  · apply not_collides_of_nodup
    decide +kernel
  · apply outOfMemory_spec
    decide +kernel

end Demo

/-- **C98, room.**  Writing to the block database fails for lack of memory only if a record of 2^64 bytes or more is to be written; otherwise it
succeeds. -/
theorem C98_room (cfg : NodeCfg) (ws : List Write) (d : DNode) :
    ((d.save cfg ws).1 = .error .memory ↔ ∃ w ∈ ws, ∃ p ∈ w.puts cfg.keys, 2 ^ 64 ≤ p.2.2.length) ∧
    ((d.save cfg ws).1 = .ok () ↔ ∀ w ∈ ws, ∀ p ∈ w.puts cfg.keys, p.2.2.length < 2 ^ 64) := by
  have key : ∀ (ws : List Write) (db : Db), (db.save cfg.keys ws).1 = decide (∀ w ∈ ws, ∀ p ∈ w.puts cfg.keys, p.2.2.length < 2 ^ 64) := by
    intro ws
    induction ws with
    | nil => intro db; simp [Db.save]
    | cons w ws ih =>
      intro db
      unfold Db.save
      split
      · rename_i h
        simp only [Write.tooLong, List.any_eq_true, decide_eq_true_eq] at h
        obtain ⟨p, h1, h2⟩ := h
        symm
        rw [decide_eq_false_iff_not]
        exact fun hall => absurd (hall w (List.mem_cons_self ..) p h1) (by omega)
      · rename_i h
        simp only [Write.tooLong, List.any_eq_true, decide_eq_true_eq, not_exists, not_and] at h
        rw [ih]
        refine decide_eq_decide.2 ⟨fun hall x hx => ?_, fun hall x hx => hall x (List.mem_cons_of_mem _ hx)⟩
        rcases List.mem_cons.1 hx with rfl | hx
        · exact fun p hp => by have := h p hp; omega
        · exact hall x hx
  have hk := key ws d.rocks
  unfold DNode.save
  generalize d.rocks.save cfg.keys ws = x at hk
  obtain ⟨a, db⟩ := x
  simp only at hk
  subst hk
  by_cases hall : ∀ w ∈ ws, ∀ p ∈ w.puts cfg.keys, p.2.2.length < 2 ^ 64
  · rw [decide_eq_true hall]
    refine ⟨⟨fun h => (by cases h), fun ⟨w, h1, p, h2, h3⟩ => absurd (hall w h1 p h2) (by omega)⟩, ⟨fun _ => hall, fun _ => rfl⟩⟩
  · rw [decide_eq_false hall]
    refine ⟨⟨fun _ => ?_, fun _ => rfl⟩, ⟨fun h => (by cases h), fun h => absurd h hall⟩⟩
    refine Classical.byContradiction fun hno => hall fun w h1 p h2 => ?_
    exact Nat.lt_of_not_le fun h3 => hno ⟨w, h1, p, h2, h3⟩

/-- Saving nothing succeeds. -/
example (d : DNode) : (d.save Demo.dcfg []).1 = .ok () := (C98_room Demo.dcfg [] d).2.2 (fun _ h => by cases h)

end Huobi
