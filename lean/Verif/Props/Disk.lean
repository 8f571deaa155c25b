import Verif.Proof.LatestProof
import Verif.Spec.Machine
import Verif.Proof.Disk
import Verif.Spec.Run
import Verif.Props.Lifetime
import Verif.Props.Inclusion
import Verif.Props.MptStore
/-
C98: a machine whose databases hold bytes answers as one whose tables hold records.
-/
namespace Huobi

/-! ### Proofs -/

theorem liftC_eq {α : Type} (r : Except CErr α) : liftC r = r.mapError .node := by cases r <;> rfl

theorem present_eq {V : Type} (o : Option V) : present o = answer o := by cases o <;> rfl

/-- The two machines hold the same. -/
inductive MSim (cfg : NodeCfg) (L : DiskLib) : Machine → DiskMachine → Prop
  | off {s t r b} : Refines cfg.keys r s → Storable s → Mirrors L.trie t b → MSim cfg L (.off s t) (.off r b)
  | on {n d} : DSim cfg L n d → MSim cfg L (.on n) (.on d)

theorem MSim.rocks {cfg : NodeCfg} {L : DiskLib} {m : Machine} {m' : DiskMachine} (h : MSim cfg L m m') :
    Refines cfg.keys m'.rocks m.store ∧ Storable m.store ∧ Mirrors L.trie m.tries m'.tries := by
  cases h with
  | off a b c => exact ⟨a, b, c⟩
  | on h => exact ⟨h.rocks, h.good, h.tries⟩

/-- What a call of the machines leads to. -/
def MOut (cfg : NodeCfg) (L : DiskLib) (r : MachineAns CErr × Machine) (r' : MachineAns DiskErr × DiskMachine) : Prop :=
  Bad cfg L r.2.store r'.2.tries ∨ r'.1.failure = some .memory ∨ r.1.failure = some .openRoot ∨
    (r'.1 = r.1.onDisk ∧ MSim cfg L r.2 r'.2)

theorem Out.machine {cfg : NodeCfg} {L : DiskLib} {α : Type} {r : Except CErr α × Node} {r' : Except DiskErr α × DNode}
    (h : Out cfg L r r') (f : Except CErr α → MachineAns CErr) (f' : Except DiskErr α → MachineAns DiskErr)
    (hf : ∀ x, f' (liftC x) = (f x).onDisk) (he : ∀ e, (f (.error e)).failure = some e)
    (he' : ∀ e, (f' (.error e)).failure = some e) : MOut cfg L (f r.1, .on r.2) (f' r'.1, .on r'.2) := by
  rcases h with h | h | h | ⟨h, hs⟩
  · exact .inl h
  · right; left; simp only [h, he']
  · right; right; left; simp only [h, he]
  · right; right; right; exact ⟨by simp only [h, hf], .on hs⟩

theorem op_out {cfg : NodeCfg} {L : DiskLib} (he : cfg.rootOf = worldRoot L.trie) (hk : cfg.keys.epoch ≠ cfg.keys.proof) {n : Node} {d : DNode}
    (h : DSim cfg L n d) (o : Nat → Bool) (op : NodeOp) :
    MOut cfg L (n.answer cfg op, .on (n.step cfg op)) ((d.step cfg L o op).1, .on (d.step cfg L o op).2) := by
  cases op with
  | insertTx a b tx =>
    right; right; right
    simp only [Node.answer, Node.step, DNode.step, view_eq h, h.pool]
    refine ⟨rfl, .on ⟨h.rocks, h.good, h.tries, rfl, h.status, h.exempt⟩⟩
  | propose now id => exact (getEpoch_out h now id).machine .proposed .proposed (fun x => by rw [liftC_eq]; rfl) (fun _ => rfl) (fun _ => rfl)
  | check p1 p2 x pill =>
    exact (checkEpoch_out h p1 p2 x pill).machine .checked .checked (fun x => by rw [liftC_eq]; rfl) (fun _ => rfl) (fun _ => rfl)
  | commit io id pill proof =>
    exact (commit_out he hk h (o 0) io id pill proof).machine .committed .committed (fun x => by rw [liftC_eq]; rfl) (fun _ => rfl) (fun _ => rfl)
  | sync io msg =>
    exact (updateEpoch_out he hk h o io msg).machine .synced .synced (fun x => by rw [liftC_eq]; rfl) (fun _ => rfl) (fun _ => rfl)

theorem queryEpoch_eq {cfg : NodeCfg} {L : DiskLib} {n : Node} {d : DNode} (h : DSim cfg L n d) (i : Option UInt64) :
    d.queryEpoch cfg i = answer (n.queryEpoch i) := by
  cases i with
  | none => exact latest_read h.rocks h.good
  | some i => exact epoch_read h.rocks h.good i

theorem balance_out {cfg : NodeCfg} {L : DiskLib} (he : cfg.rootOf = worldRoot L.trie) {n : Node} {d : DNode}
    (h : DSim cfg L n d) (a : Address) (id : AssetID) (i : Option UInt64) :
    Collides L.trie d.tries ∨ d.queryBalance cfg L a id i = .error .memory ∨ n.balanceAt cfg a id i = .error .openRoot ∨
      d.queryBalance cfg L a id i = (n.balanceAt cfg a id i).mapError .node := by
  by_cases hc : Collides L.trie d.tries
  · exact .inl hc
  right
  unfold DNode.queryBalance Node.balanceAt
  rw [queryEpoch_eq h]
  cases n.queryEpoch i with
  | none => exact .inr (.inr rfl)
  | some e =>
    simp only [answer]
    have := call_sim h.tries hc L.showCodec (.balance (cfg.env e.header.epochId 0 (.user e.header.proposer)) e.header.stateRoot a id) he
    simp only [typedCall, byteCall] at this
    generalize fromRoot (cfg.env e.header.epochId 0 (.user e.header.proposer)) n.tries e.header.stateRoot = F at this ⊢
    generalize bQueryBalance L.trie (cfg.env e.header.epochId 0 (.user e.header.proposer)) d.tries e.header.stateRoot a id = G at this ⊢
    cases F with
    | none => exact .inr (.inl rfl)
    | some s =>
      rcases this with hmem | ⟨h1, _⟩
      · left
        match G, hmem with
        | some (.error .memory), _ => rfl
      · rcases h1 with h1 | h1
        · cases h1
        · right; right
          cases G with
          | none => cases h1
          | some y =>
            simp only [Option.map_some, ExecAns.toB, Option.some.injEq, ExecAns.balance.injEq] at h1
            subst h1
            simp only
            rcases getBalance id a s with f | b
            · cases f <;> rfl
            · rfl

theorem init_steps (cfg : NodeCfg) (L : DiskLib) (g : Genesis) (o : Bool) (k : Nat) (r : Db) (t : TrieStore) :
    TrieSteps L t (diskInit cfg L g o k r t).2.2 := by
  have := TrieSteps.call (L := L) (.genesis (cfg.env 0 cfg.cyclesPrice (.user cfg.selfAddress)) o g) (.refl (t := t))
  simp only [byteCall] at this
  unfold diskInit
  split
  · exact .refl
  · exact .refl
  · split <;> rename_i e <;> rw [e] at this
    · simp only
      split <;> exact this
    all_goals exact this

theorem init_grows (cfg : NodeCfg) (g : Genesis) (k : Nat) (s : Store) (t : StateDB) (h : Hash) (e : s.byHash h ≠ none) :
    (tableInit cfg g k s t).2.1.byHash h ≠ none := by
  unfold tableInit
  split
  · exact e
  · split
    · exact byHash_writes _ _ _ e
    · exact e

theorem init_sim {cfg : NodeCfg} {L : DiskLib} (he : cfg.rootOf = worldRoot L.trie) (hk : cfg.keys.epoch ≠ cfg.keys.proof) (g : Genesis)
    (o : Bool) (k : Nat) {s : Store} {t : StateDB} {r : Db} {b : TrieStore} (h1 : Refines cfg.keys r s) (h2 : Storable s)
    (h3 : Mirrors L.trie t b) : Bad cfg L (tableInit cfg g k s t).2.1 (diskInit cfg L g o k r b).2.2 ∨
      (diskInit cfg L g o k r b).1 = .error .memory ∨
      ((diskInit cfg L g o k r b).1 = .ok (tableInit cfg g k s t).1 ∧
        Refines cfg.keys (diskInit cfg L g o k r b).2.1 (tableInit cfg g k s t).2.1 ∧ Storable (tableInit cfg g k s t).2.1 ∧
        Mirrors L.trie (tableInit cfg g k s t).2.2 (diskInit cfg L g o k r b).2.2) := by
  by_cases hc : Collides L.trie b
  · exact .inl (.inr (hc.mono (init_steps cfg L g o k r b).mem))
  unfold diskInit tableInit
  rw [latest_read h1 h2]
  cases s.latest with
  | some e => exact .inr (.inr ⟨rfl, h1, h2, h3⟩)
  | none =>
    simp only [answer]
    have := call_sim h3 hc L.showCodec (.genesis (cfg.env 0 cfg.cyclesPrice (.user cfg.selfAddress)) o g) he
    simp only [typedCall, byteCall] at this
    have hopen : (runGenesis (cfg.env 0 cfg.cyclesPrice (.user cfg.selfAddress)) t g).1 ≠ none := by
      unfold runGenesis fromRoot
      simp only [if_true]
      split <;> exact nofun
    revert this hopen
    rcases bRunGenesis L.trie (cfg.env 0 cfg.cyclesPrice (.user cfg.selfAddress)) o b g with ⟨q, t'⟩
    rcases runGenesis (cfg.env 0 cfg.cyclesPrice (.user cfg.selfAddress)) t g with ⟨q', b'⟩
    intro this hopen
    simp only at this hopen
    rcases this with hmem | ⟨ha, hm⟩
    · right; left
      match q, hmem with
      | some (.error .memory), _ => rfl
    · rcases ha with ha | ha
      · cases q' with
        | none => exact absurd rfl hopen
        | some x => cases ha
      · cases q' with
        | none => exact absurd rfl hopen
        | some x =>
          have hq : q = some (liftE x) := by
            cases q with
            | none => cases ha
            | some y => simp only [Option.map_some, ExecAns.toB, Option.some.injEq, ExecAns.genesis.injEq] at ha; rw [ha]
          subst hq
          cases x with
          | error f => cases f <;> exact .inr (.inr ⟨rfl, h1, h2, hm⟩)
          | ok root =>
            simp only [liftE]
            generalize hws : (StoreOp.writes cfg.digest (.insertEpoch (cfg.genesisEpoch g.timestamp root)) ++
              StoreOp.writes cfg.digest (.updateLatestProof (cfg.genesisEpoch g.timestamp root).header.proof)).take k = ws
            have hw : Writable ws := by
              intro w hw
              subst hws
              have := List.mem_of_mem_take hw
              simp only [StoreOp.writes, List.mem_append, List.mem_cons, List.not_mem_nil, or_false] at this
              rcases this with (rfl | rfl | rfl) | rfl <;> exact ⟨nofun, nofun⟩
            have hs := save_refines hk ws hw h1 h2
            revert hs
            rcases r.save cfg.keys ws with ⟨f, db⟩
            intro hs
            rcases hs with hs | hs | ⟨hs, hs'⟩
            · left; left
              cases f <;> exact hs
            · simp only at hs; subst hs; exact .inr (.inl rfl)
            · cases f with
              | false => exact .inr (.inl rfl)
              | true => exact .inr (.inr ⟨rfl, hs, hs', hm⟩)

theorem start_store {cfg : NodeCfg} {s : Store} {t : StateDB} {n : Node} (h : startNode cfg s t = some n) : n.store = s := by
  unfold startNode at h
  split at h
  · cases h
  · cases h; rfl

theorem dstart_tries {cfg : NodeCfg} {s : Db} {t : TrieStore} {n : DNode} (h : diskStart cfg s t = some n) : n.tries = t := by
  unfold diskStart at h
  split at h
  · cases h
  · cases h; rfl

theorem call_out {cfg : NodeCfg} {L : DiskLib} (he : cfg.rootOf = worldRoot L.trie) (hk : cfg.keys.epoch ≠ cfg.keys.proof) (g : Genesis)
    {m : Machine} {m' : DiskMachine} (h : MSim cfg L m m') (c : MachineCall) :
    MOut cfg L (m.call cfg g c) (m'.call cfg L g c) := by
  cases c with
  | start o k =>
    obtain ⟨h1, h2, h3⟩ := h.rocks
    have := init_sim he hk g o k h1 h2 h3
    unfold Machine.call DiskMachine.call
    simp only
    revert this
    rcases tableInit cfg g k m.store m.tries with ⟨u, s, t⟩
    rcases diskInit cfg L g o k m'.rocks m'.tries with ⟨u', r, b⟩
    intro this
    rcases this with hb | hm | ⟨hq, i1, i2, i3⟩
    · left
      simp only at hb
      have : ∀ (x : MachineAns CErr × Machine) (y : MachineAns DiskErr × DiskMachine), x.2.store = s → y.2.tries = b →
          Bad cfg L x.2.store y.2.tries := fun x y e e' => by rw [e, e']; exact hb
      apply this
      · cases u with
        | false => rfl
        | true =>
          simp only
          split
          · rfl
          · rename_i e; exact start_store e
      · rcases u' with e | u'
        · rfl
        · cases u' with
          | false => rfl
          | true =>
            simp only
            split
            · rfl
            · rename_i e; exact dstart_tries e
    · simp only at hm; subst hm; exact .inr (.inl rfl)
    · simp only at hq i1 i2 i3
      subst hq
      cases u with
      | false => exact .inr (.inr (.inr ⟨rfl, .off i1 i2 i3⟩))
      | true =>
        simp only
        unfold startNode diskStart
        rw [latest_read i1 i2]
        cases s.latest with
        | none => exact .inr (.inr (.inr ⟨rfl, .off i1 i2 i3⟩))
        | some e => exact .inr (.inr (.inr ⟨rfl, .on ⟨i1, i2, i3, rfl, rfl, rfl⟩⟩))
  | killed w =>
    obtain ⟨h1, h2, h3⟩ := h.rocks
    exact .inr (.inr (.inr ⟨rfl, .off h1 h2 (h3.mono fun x hx => List.mem_append_right _ hx)⟩))
  | op o op =>
    cases h with
    | off a b c => exact .inr (.inr (.inr ⟨rfl, .off a b c⟩))
    | on h => exact op_out he hk h o op
  | epoch i =>
    cases h with
    | off a b c => exact .inr (.inr (.inr ⟨rfl, .off a b c⟩))
    | on h => exact .inr (.inr (.inr ⟨by simp only [DiskMachine.call, Machine.call, queryEpoch_eq h, present_eq]; rfl, .on h⟩))
  | receipt x =>
    cases h with
    | off a b c => exact .inr (.inr (.inr ⟨rfl, .off a b c⟩))
    | on h => exact .inr (.inr (.inr ⟨by simp only [DiskMachine.call, Machine.call, receipt_read h.rocks h.good, present_eq]; rfl, .on h⟩))
  | transactions x =>
    cases h with
    | off a b c => exact .inr (.inr (.inr ⟨rfl, .off a b c⟩))
    | on h => exact .inr (.inr (.inr ⟨by simp only [DiskMachine.call, Machine.call, txs_read h.rocks h.good]; rfl, .on h⟩))
  | balance a i e =>
    cases h with
    | off a b c => exact .inr (.inr (.inr ⟨rfl, .off a b c⟩))
    | on h =>
      rcases balance_out he h a i e with hc | hc | hc | hc
      · exact .inl (.inr hc)
      · right; left; simp only [DiskMachine.call, hc]; rfl
      · right; right; left; simp only [Machine.call, hc]; rfl
      · right; right; right; exact ⟨by simp only [DiskMachine.call, Machine.call, hc]; rfl, .on h⟩

theorem step_grows' (cfg : NodeCfg) (n : Node) (op : NodeOp) : Grows n (n.step cfg op) := by
  cases op with
  | insertTx o b tx => exact .refl _
  | propose now id =>
    have : (n.step cfg (.propose now id)).store = n.store := by
      unfold Node.step Node.getEpoch
      simp only
      repeat' split
      all_goals rfl
    intro k h; rw [this]; exact h
  | check p1 p2 x pill =>
    have : (n.step cfg (.check p1 p2 x pill)).store = n.store := by
      unfold Node.step Node.checkEpoch
      simp only
      repeat' split
      all_goals rfl
    intro k h; rw [this]; exact h
  | commit io id pill proof => exact commit_grows' io id pill proof
  | sync io msg => exact updateEpoch_grows io msg

theorem step_dgrows' (cfg : NodeCfg) (L : DiskLib) (d : DNode) (o : Nat → Bool) (op : NodeOp) : DGrows L d (d.step cfg L o op).2 := by
  cases op with
  | insertTx a b tx => exact .refl _
  | propose now id => exact getEpoch_dgrows now id
  | check p1 p2 x pill => exact checkEpoch_dgrows p1 p2 x pill
  | commit io id pill proof => exact commit_dgrows (o 0) io id pill proof
  | sync io msg => exact updateEpoch_dgrows o io msg

theorem call_grows (cfg : NodeCfg) (g : Genesis) (m : Machine) (c : MachineCall) (k : Hash) (h : m.store.byHash k ≠ none) :
    (m.call cfg g c).2.store.byHash k ≠ none := by
  cases c with
  | start o w =>
    have := init_grows cfg g w m.store m.tries k h
    unfold Machine.call
    simp only
    revert this
    rcases tableInit cfg g w m.store m.tries with ⟨u, s, t⟩
    intro this
    cases u with
    | false => exact this
    | true =>
      simp only
      split
      · exact this
      · rename_i e; simp only [Machine.store, start_store e]; exact this
  | killed w => exact h
  | op o op =>
    cases m with
    | off s t => exact h
    | on n => exact step_grows' cfg n op k h
  | epoch i => cases m <;> exact h
  | receipt i => cases m <;> exact h
  | transactions i => cases m <;> exact h
  | balance a i e => cases m <;> exact h

theorem call_tries (cfg : NodeCfg) (L : DiskLib) (g : Genesis) (m : DiskMachine) (c : MachineCall) :
    (∃ w, c = .killed w ∧ (m.call cfg L g c).2.tries = w ++ m.tries) ∨ TrieSteps L m.tries (m.call cfg L g c).2.tries := by
  cases c with
  | start o w =>
    right
    have := init_steps cfg L g o w m.rocks m.tries
    unfold DiskMachine.call
    simp only
    revert this
    rcases diskInit cfg L g o w m.rocks m.tries with ⟨u, s, t⟩
    intro this
    rcases u with e | u
    · exact this
    · cases u with
      | false => exact this
      | true =>
        simp only
        split
        · exact this
        · rename_i e; simp only [DiskMachine.tries, dstart_tries e]; exact this
  | killed w => exact .inl ⟨w, rfl, rfl⟩
  | op o op =>
    right
    cases m with
    | off s t => exact .refl
    | on n => exact step_dgrows' cfg L n o op
  | epoch i => right; cases m <;> exact .refl
  | receipt i => right; cases m <;> exact .refl
  | transactions i => right; cases m <;> exact .refl
  | balance a i e => right; cases m <;> exact .refl

theorem call_dgrows (cfg : NodeCfg) (L : DiskLib) (g : Genesis) (m : DiskMachine) (c : MachineCall) :
    ∀ t ∈ m.tries, t ∈ (m.call cfg L g c).2.tries := by
  rcases call_tries cfg L g m c with ⟨w, _, e⟩ | h
  · rw [e]; exact fun t ht => List.mem_append_right _ ht
  · exact h.mem

theorem calls_grow (cfg : NodeCfg) (g : Genesis) (calls : List MachineCall) (m : Machine) (k : Hash) (h : m.store.byHash k ≠ none) :
    (callAll (Machine.call cfg g) m calls).2.store.byHash k ≠ none := by
  induction calls generalizing m with
  | nil => exact h
  | cons c cs ih => exact ih _ (call_grows cfg g m c k h)

theorem calls_dgrow (cfg : NodeCfg) (L : DiskLib) (g : Genesis) (calls : List MachineCall) (m : DiskMachine) :
    ∀ t ∈ m.tries, t ∈ (callAll (DiskMachine.call cfg L g) m calls).2.tries := by
  induction calls generalizing m with
  | nil => exact fun _ h => h
  | cons c cs ih => exact fun t h => ih _ t (call_dgrows cfg L g m c t h)

theorem machine_sim {cfg : NodeCfg} {L : DiskLib} (he : cfg.rootOf = worldRoot L.trie) (hk : cfg.keys.epoch ≠ cfg.keys.proof) (g : Genesis)
    (calls : List MachineCall) {m : Machine} {m' : DiskMachine} (h : MSim cfg L m m')
    (hres : ¬ Reserved cfg (callAll (Machine.call cfg g) m calls).2.store)
    (hcol : ¬ Collides L.trie (callAll (DiskMachine.call cfg L g) m' calls).2.tries)
    (hmem : ∀ a ∈ (callAll (DiskMachine.call cfg L g) m' calls).1, a.failure ≠ some .memory)
    (hopen : ∀ a ∈ (callAll (Machine.call cfg g) m calls).1, a.failure ≠ some .openRoot) :
    (callAll (DiskMachine.call cfg L g) m' calls).1 = (callAll (Machine.call cfg g) m calls).1.map MachineAns.onDisk ∧
      MSim cfg L (callAll (Machine.call cfg g) m calls).2 (callAll (DiskMachine.call cfg L g) m' calls).2 := by
  induction calls generalizing m m' with
  | nil => exact ⟨rfl, h⟩
  | cons c cs ih =>
    rcases call_out he hk g h c with hb | hb | hb | ⟨h1, h2⟩
    · rcases hb with hb | hb
      · refine absurd ?_ hres
        exact hb.elim (fun x => .inl (calls_grow cfg g cs _ _ x)) (fun x => .inr (calls_grow cfg g cs _ _ x))
      · exact absurd (hb.mono (calls_dgrow cfg L g cs _)) hcol
    · exact absurd hb (hmem _ (.head _))
    · exact absurd hb (hopen _ (.head _))
    · obtain ⟨i1, i2⟩ := ih h2 hres hcol (fun a ha => hmem a (.tail _ ha)) (fun a ha => hopen a (.tail _ ha))
      exact ⟨congr (congrArg List.cons h1) i1, i2⟩

/-! ### The tables are those of a node's life -/

/-- The writes of genesis. -/
def genesisWrites (cfg : NodeCfg) (g : Genesis) (root : MerkleRoot) : List Write :=
  StoreOp.writes cfg.digest (.insertEpoch (cfg.genesisEpoch g.timestamp root)) ++
    StoreOp.writes cfg.digest (.updateLatestProof (cfg.genesisEpoch g.timestamp root).header.proof)

theorem genesis_again (cfg : NodeCfg) (g : Genesis) (root : MerkleRoot) (k : Nat) (hk : k ≤ 2) (s : Store) :
    (s.writes ((genesisWrites cfg g root).take k)).writes (genesisWrites cfg g root) = s.writes (genesisWrites cfg g root) ∧
      (s.writes ((genesisWrites cfg g root).take k)).latest = s.latest := by
  match k, hk with
  | 0, _ => exact ⟨rfl, rfl⟩
  | 1, _ =>
    refine ⟨?_, rfl⟩
    simp only [genesisWrites, StoreOp.writes, Store.writes, Store.write, List.cons_append, List.nil_append, List.take_succ_cons, List.take_zero, List.foldl_cons, List.foldl_nil]
    congr 1
    funext i
    split <;> rfl
  | 2, _ =>
    refine ⟨?_, rfl⟩
    simp only [genesisWrites, StoreOp.writes, Store.writes, Store.write, List.cons_append, List.nil_append, List.take_succ_cons, List.take_zero, List.foldl_cons, List.foldl_nil]
    congr 1 <;>
    · funext i
      split <;> rfl

theorem runGenesis_again {env : Env} {db db' : StateDB} {g : Genesis} {root : MerkleRoot} (h : runGenesis env db g = (some (.ok root), db')) :
    runGenesis env db' g = (some (.ok root), db') := by
  unfold runGenesis fromRoot at h ⊢
  simp only [if_true] at h ⊢
  split at h
  · rename_i x hx
    cases h
    simp only [StateDB.put, Prod.mk.injEq, true_and]
    funext i
    simp only [PMap.set]
    split <;> rfl
  · cases h

theorem startNode_withProof (cfg : NodeCfg) (s : Store) (t : StateDB) (p : Option Proof) :
    startNode cfg (s.withProof p) t = (startNode cfg s t).map (Node.withProof p) := by
  unfold startNode
  show (match s.latest with | none => none | some _ => _) = _
  cases s.latest <;> rfl

/-- Genesis was not completed: it starts over. -/
def Unborn (cfg : NodeCfg) (g : Genesis) (s : Store) (t : StateDB) : Prop :=
  s.latest = none ∧ handleInit cfg g s t = handleInit cfg g Store.empty PMap.empty

/-- The tables of a machine: genesis is not completed, or they are those of a node's life, but for the record of the latest proof. -/
inductive MLives (cfg : NodeCfg) (g : Genesis) : Machine → Prop
  | unborn {s t} : Unborn cfg g s t → MLives cfg g (.off s t)
  | off {n} (p : Option Proof) : Lives cfg g (fun _ _ => True) n → MLives cfg g (.off (n.store.withProof p) n.tries)
  | on {n} (p : Option Proof) : Lives cfg g (fun _ _ => True) n → MLives cfg g (.on (n.withProof p))

theorem tableInit_latest {cfg : NodeCfg} {g : Genesis} {s : Store} {t : StateDB} {k : Nat} (h : s.latest ≠ none) :
    tableInit cfg g k s t = (true, s, t) ∧ handleInit cfg g s t = some (s, t) := by
  unfold tableInit handleInit
  cases e : s.latest with
  | none => exact absurd e h
  | some x => exact ⟨rfl, rfl⟩

theorem tableInit_unborn {cfg : NodeCfg} {g : Genesis} {s : Store} {t : StateDB} {k : Nat} (h : Unborn cfg g s t) :
    (∃ s' t', tableInit cfg g k s t = (false, s', t') ∧ Unborn cfg g s' t') ∨
      (∃ s' t', tableInit cfg g k s t = (true, s', t') ∧ handleInit cfg g Store.empty PMap.empty = some (s', t')) ∨
      ∃ s' t' p, tableInit cfg g k s t = (false, s'.withProof p, t') ∧ handleInit cfg g Store.empty PMap.empty = some (s', t') := by
  obtain ⟨h1, h2⟩ := h
  rw [← h2]
  unfold tableInit Unborn
  rw [← h2]
  unfold handleInit
  rw [h1]
  simp only
  rcases e : runGenesis (cfg.env 0 cfg.cyclesPrice (.user cfg.selfAddress)) t g with ⟨q, t'⟩
  match q, e with
  | none, e =>
    left
    have : t' = t := by
      unfold runGenesis at e
      split at e
      · cases e; rfl
      · split at e <;> cases e
    subst this
    exact ⟨s, t', rfl, h1, by rw [h1, e]⟩
  | some (.error f), e =>
    left
    have : t' = t := by
      unfold runGenesis at e
      split at e
      · cases e
      · split at e
        · cases e
        · cases e; rfl
    subst this
    exact ⟨s, t', rfl, h1, by rw [h1, e]⟩
  | some (.ok root), e =>
    by_cases h4 : 4 ≤ k
    · right; left
      refine ⟨s.writes (genesisWrites cfg g root), t', ?_, rfl⟩
      have : (genesisWrites cfg g root).take k = genesisWrites cfg g root := List.take_of_length_le h4
      simp only [genesisWrites] at this ⊢
      simp only [this, decide_eq_true h4]
    · by_cases h3 : k = 3
      · right; right
        exact ⟨s.writes (genesisWrites cfg g root), t', s.proof, by rw [h3]; rfl, rfl⟩
      left
      obtain ⟨w1, w2⟩ := genesis_again cfg g root k (by omega) s
      refine ⟨s.writes ((genesisWrites cfg g root).take k), t', ?_, ?_, ?_⟩
      · simp only [genesisWrites, decide_eq_false h4]
      · rw [w2]; exact h1
      · rw [w2, h1, runGenesis_again e]
        simp only [genesisWrites] at w1 ⊢
        rw [w1]

theorem startNode_init {cfg : NodeCfg} {g : Genesis} {s : Store} {t : StateDB} (h : handleInit cfg g Store.empty PMap.empty = some (s, t)) :
    ∃ n, startNode cfg s t = some n ∧ n.store = s ∧ n.tries = t := by
  unfold handleInit at h
  simp only [Store.empty] at h
  split at h
  · injection h with h
    injection h with h1 h2
    subst h1 h2
    exact ⟨_, rfl, rfl, rfl⟩
  · cases h

theorem MLives.call {cfg : NodeCfg} {g : Genesis} {m : Machine} (h : MLives cfg g m) (c : MachineCall) :
    MLives cfg g (m.call cfg g c).2 := by
  cases c with
  | start o k =>
    have alive : ∀ n p, Lives cfg g (fun _ _ => True) n → n.store.withProof p = m.store → n.tries = m.tries →
        MLives cfg g (m.call cfg g (.start o k)).2 := by
      intro n p hn e1 e2
      have hl : n.store.latest ≠ none := by
        obtain ⟨-, e, he⟩ := hn.limit
        rw [he]; exact nofun
      have a := (tableInit_latest (cfg := cfg) (g := g) (s := n.store.withProof p) (t := n.tries) (k := k) hl).1
      have b := (tableInit_latest (cfg := cfg) (g := g) (t := n.tries) (k := k) hl).2
      unfold Machine.call
      simp only
      rw [← e1, ← e2, a]
      simp only
      rw [startNode_withProof]
      cases hs : startNode cfg n.store n.tries with
      | none => exact .off p hn
      | some n' => exact .on p (.restart hn b hs)
    cases h with
    | unborn h =>
      rename_i s t
      unfold Machine.call
      simp only [Machine.store, Machine.tries]
      rcases tableInit_unborn h with ⟨s', t', e, hu⟩ | ⟨s', t', e, hu⟩ | ⟨s', t', p, e, hu⟩
      · rw [e]; exact .unborn hu
      · rw [e]
        obtain ⟨n, hs, -, -⟩ := startNode_init hu
        simp only [hs]
        exact .on n.store.proof (.init hu hs)
      · rw [e]
        obtain ⟨n, hs, rfl, rfl⟩ := startNode_init hu
        exact .off p (.init hu hs)
    | off p hn => exact alive _ p hn rfl rfl
    | on p hn => exact alive _ p hn rfl rfl
  | killed w =>
    cases h with
    | unborn h => exact .unborn h
    | off p hn => exact .off p hn
    | on p hn => exact .off p hn
  | op o op =>
    cases h with
    | unborn h => exact .unborn h
    | off p hn => exact .off p hn
    | @on n p hn =>
      obtain ⟨-, p', e⟩ := step_agree cfg op n p
      show MLives cfg g (.on ((n.withProof p).step cfg op))
      rw [e]
      exact .on p' (.step op hn trivial)
  | epoch i => cases h <;> first | exact .unborn ‹_› | exact .off _ ‹_› | exact .on _ ‹_›
  | receipt i => cases h <;> first | exact .unborn ‹_› | exact .off _ ‹_› | exact .on _ ‹_›
  | transactions i => cases h <;> first | exact .unborn ‹_› | exact .off _ ‹_› | exact .on _ ‹_›
  | balance a i e => cases h <;> first | exact .unborn ‹_› | exact .off _ ‹_› | exact .on _ ‹_›

theorem MLives.calls {cfg : NodeCfg} {g : Genesis} (calls : List MachineCall) {m : Machine} (h : MLives cfg g m) :
    MLives cfg g (callAll (Machine.call cfg g) m calls).2 := by
  induction calls generalizing m with
  | nil => exact h
  | cons c cs ih => exact ih (h.call c)

/-! ### Patricia tries -/

theorem TrieSteps.built {L : DiskLib} {a b : TrieStore} (h : TrieSteps L a b) (ha : ∀ m ∈ a, Built m) : ∀ m ∈ b, Built m := by
  induction h with
  | refl => exact ha
  | call x _ ih => exact byteCall_built _ _ ih x

theorem calls_built (cfg : NodeCfg) (L : DiskLib) (g : Genesis) (calls : List MachineCall) (hw : ∀ w, .killed w ∈ calls → ∀ m ∈ w, Built m)
    (m : DiskMachine) (h : ∀ t ∈ m.tries, Built t) : ∀ t ∈ (callAll (DiskMachine.call cfg L g) m calls).2.tries, Built t := by
  induction calls generalizing m with
  | nil => exact h
  | cons c cs ih =>
    refine ih (fun w hm => hw w (.tail _ hm)) (m.call cfg L g c).2 ?_
    rcases call_tries cfg L g m c with ⟨w, e, e'⟩ | hs
    · rw [e']
      intro t ht
      exact (List.mem_append.1 ht).elim (hw w (e ▸ .head _) t) (h t)
    · exact hs.built h

theorem MSim.start (cfg : NodeCfg) (L : DiskLib) : MSim cfg L (.off Store.empty PMap.empty) (.off Db.empty []) :=
  .off (Refines.empty _) Storable.empty (Mirrors.start _)

/-! ### The theorems -/

/-- **C98.**  Take a machine with empty disks and let happen to it any sequence of: starting the process (which may be killed
after any write of the initialisation), killing it (also between the writes of the state database), calls on the running node -
transactions to its pool, proposals, checks, commits and synchronisation, each failing at any point or not - and queries for
epochs, receipts, transactions and balances.  Its block database holds only bytes, which are encoded records, and its state
database tries of bytes; still every answer is the one that a node on tables of records and states gives, whatever the orders in
which the executor commits its contracts.  In particular no stored record fails to decode and nothing that was stored is lost or
altered by a restart.  Exceptions: a buffer of 2^64 bytes was needed; two tries with one root were stored; a recorded epoch has
the digest of the name of a reserved key; the node on tables was asked to open a root that is of no state. -/
theorem C98_disk_refines {cfg : NodeCfg} {L : DiskLib} {g : Genesis} (hroot : cfg.rootOf = worldRoot L.trie)
    (hkeys : cfg.digest (utf8 "latest_hash") ≠ cfg.digest (utf8 "latest_proof")) (calls : List MachineCall)
    (hres : (callAll (Machine.call cfg g) (.off Store.empty PMap.empty) calls).2.store.byHash (cfg.digest (utf8 "latest_hash")) = none ∧
      (callAll (Machine.call cfg g) (.off Store.empty PMap.empty) calls).2.store.byHash (cfg.digest (utf8 "latest_proof")) = none)
    (hcol : ¬ Collides L.trie (callAll (DiskMachine.call cfg L g) (.off Db.empty []) calls).2.tries)
    (hmem : ∀ a ∈ (callAll (DiskMachine.call cfg L g) (.off Db.empty []) calls).1, a.failure ≠ some .memory)
    (hopen : ∀ a ∈ (callAll (Machine.call cfg g) (.off Store.empty PMap.empty) calls).1, a.failure ≠ some .openRoot) :
    (callAll (DiskMachine.call cfg L g) (.off Db.empty []) calls).1 =
      (callAll (Machine.call cfg g) (.off Store.empty PMap.empty) calls).1.map MachineAns.onDisk :=
  (machine_sim hroot hkeys g calls (MSim.start cfg L) (fun h => h.elim (fun h => h hres.1) (fun h => h hres.2)) hcol hmem hopen).1

/-- C98 with Merkle Patricia tries: instead of two tries with one root, two different nodes of stored tries have one hash (or a
node is of 2^64 bytes). -/
theorem C98_patricia {cfg : NodeCfg} {L : DiskLib} {g : Genesis} (hmpt : IsMpt cfg.digest L.trie) (hroot : cfg.rootOf = worldRoot L.trie)
    (hkeys : cfg.digest (utf8 "latest_hash") ≠ cfg.digest (utf8 "latest_proof")) (calls : List MachineCall)
    (hwritten : ∀ w, .killed w ∈ calls → ∀ m ∈ w, Built m)
    (hres : (callAll (Machine.call cfg g) (.off Store.empty PMap.empty) calls).2.store.byHash (cfg.digest (utf8 "latest_hash")) = none ∧
      (callAll (Machine.call cfg g) (.off Store.empty PMap.empty) calls).2.store.byHash (cfg.digest (utf8 "latest_proof")) = none)
    (hlong : ¬ NodeTooLong cfg.digest (callAll (DiskMachine.call cfg L g) (.off Db.empty []) calls).2.tries)
    (hclash : ¬ NodeClash cfg.digest (callAll (DiskMachine.call cfg L g) (.off Db.empty []) calls).2.tries)
    (hmem : ∀ a ∈ (callAll (DiskMachine.call cfg L g) (.off Db.empty []) calls).1, a.failure ≠ some .memory)
    (hopen : ∀ a ∈ (callAll (Machine.call cfg g) (.off Store.empty PMap.empty) calls).1, a.failure ≠ some .openRoot) :
    (callAll (DiskMachine.call cfg L g) (.off Db.empty []) calls).1 =
      (callAll (Machine.call cfg g) (.off Store.empty PMap.empty) calls).1.map MachineAns.onDisk :=
  C98_disk_refines hroot hkeys calls hres
    (not_collides hmpt (calls_built cfg L g calls hwritten _ (fun _ h => by cases h)) hclash hlong) hmem hopen

/-- C98: the node on tables is one whose life the other properties are about: whatever happens to the machine, its tables and memory are
those of a node of the same life, but possibly for one record that nothing reads: the latest proof (which is missing if the process was killed
between the third and the fourth write of the initialisation). -/
theorem C98_lives {cfg : NodeCfg} {g : Genesis} (calls : List MachineCall) (n : Node)
    (h : (callAll (Machine.call cfg g) (.off Store.empty PMap.empty) calls).2 = .on n) :
    ∃ n' p, Lives cfg g (fun _ _ => True) n' ∧ n = { n' with store := { n'.store with proof := p } } ∧
      (∀ op, n.answer cfg op = n'.answer cfg op) ∧ (∀ q, n.queryEpoch q = n'.queryEpoch q) ∧
      ∀ a id q, n.balanceAt cfg a id q = n'.balanceAt cfg a id q := by
  have := MLives.calls (cfg := cfg) (g := g) calls (m := .off Store.empty PMap.empty) (.unborn ⟨rfl, rfl⟩)
  rw [h] at this
  cases this with
  | @on n' p hl => exact ⟨n', p, hl, rfl, fun op => (step_agree cfg op n' p).1, fun q => (by cases q <;> rfl), fun _ _ q => (by cases q <;> rfl)⟩

/-- The balance that an answer shows; an error is the balance zero, core/api/src/lib.rs:91-101. -/
def MachineAns.amount {E : Type} : MachineAns E → Nat
  | .balance (.ok b) => b
  | _ => 0

theorem balanceAt_api (cfg : NodeCfg) (n : Node) (a : Address) (id : AssetID) (q : Option UInt64) :
    (MachineAns.balance (n.balanceAt cfg a id q)).amount = n.apiBalance cfg a id q := by
  unfold Node.balanceAt Node.apiBalance Node.queryBalance
  cases n.queryEpoch q with
  | none => rfl
  | some e =>
    simp only
    cases fromRoot (cfg.env e.header.epochId 0 (.user e.header.proposer)) n.tries e.header.stateRoot with
    | none => rfl
    | some s =>
      simp only
      rcases getBalance id a s with f | b
      · cases f <;> rfl
      · rfl

theorem onDisk_amount (a : MachineAns CErr) : a.onDisk.amount = a.amount := by
  cases a <;> try rfl
  rename_i r
  cases r <;> rfl

theorem balances_tables {cfg : NodeCfg} {g : Genesis} (m : Machine) (as : List Address) (id : AssetID) (q : Option UInt64) :
    (callAll (Machine.call cfg g) m (as.map fun a => .balance a id q)).1.map MachineAns.amount =
      match m with
      | .off _ _ => as.map fun _ => 0
      | .on n => as.map fun a => n.apiBalance cfg a id q := by
  induction as with
  | nil => cases m <;> rfl
  | cons a as ih =>
    cases m with
    | off s t => exact congrArg (List.cons 0) ih
    | on n => exact congr (congrArg List.cons (balanceAt_api cfg n a id q)) ih

/-- C98 for one property of the node, C90: on a machine that holds only bytes, the balances of any asset that the API shows for
different users never add up to more than what genesis issued, after anything that may happen to the machine. -/
theorem C98_no_money_from_nothing {cfg : NodeCfg} {L : DiskLib} {g : Genesis} (hroot : cfg.rootOf = worldRoot L.trie)
    (hkeys : cfg.digest (utf8 "latest_hash") ≠ cfg.digest (utf8 "latest_proof")) (before : List MachineCall)
    (users : List Address) (hnd : users.Nodup) (id : AssetID) (q : Option UInt64)
    (calls : List MachineCall) (hcalls : calls = before ++ users.map (fun a => .balance a id q))
    (hres : (callAll (Machine.call cfg g) (.off Store.empty PMap.empty) calls).2.store.byHash (cfg.digest (utf8 "latest_hash")) = none ∧
      (callAll (Machine.call cfg g) (.off Store.empty PMap.empty) calls).2.store.byHash (cfg.digest (utf8 "latest_proof")) = none)
    (hcol : ¬ Collides L.trie (callAll (DiskMachine.call cfg L g) (.off Db.empty []) calls).2.tries)
    (hmem : ∀ a ∈ (callAll (DiskMachine.call cfg L g) (.off Db.empty []) calls).1, a.failure ≠ some .memory)
    (hopen : ∀ a ∈ (callAll (Machine.call cfg g) (.off Store.empty PMap.empty) calls).1, a.failure ≠ some .openRoot) :
    (((callAll (DiskMachine.call cfg L g) (.off Db.empty []) calls).1.drop before.length).map MachineAns.amount).sum ≤ supply g id := by
  rw [C98_disk_refines hroot hkeys calls hres hcol hmem hopen]
  subst hcalls
  have len : ∀ (cs : List MachineCall) (m : Machine), (callAll (Machine.call cfg g) m cs).1.length = cs.length := by
    intro cs
    induction cs with
    | nil => exact fun _ => rfl
    | cons c cs ih => exact fun m => congrArg (· + 1) (ih _)
  rw [← List.map_drop, List.map_map, callAll_append_fst]
  have : ((callAll (Machine.call cfg g) (.off Store.empty PMap.empty) before).1 ++
      (callAll (Machine.call cfg g) (callAll (Machine.call cfg g) (.off Store.empty PMap.empty) before).2 (users.map fun a => .balance a id q)).1).drop
        before.length = (callAll (Machine.call cfg g) (callAll (Machine.call cfg g) (.off Store.empty PMap.empty) before).2
          (users.map fun a => .balance a id q)).1 := by
    rw [← len before (.off Store.empty PMap.empty), List.drop_left]
  rw [this]
  have hf : (MachineAns.amount ∘ MachineAns.onDisk) = (MachineAns.amount : MachineAns CErr → Nat) := funext onDisk_amount
  rw [hf, balances_tables]
  cases hm : (callAll (Machine.call cfg g) (.off Store.empty PMap.empty) before).2 with
  | off s t =>
    simp only
    have : ∀ l : List Address, (l.map fun _ => 0).sum = 0 := by
      intro l
      induction l with
      | nil => rfl
      | cons a l ih => simp
    rw [this]
    exact Nat.zero_le _
  | on n =>
    obtain ⟨n', p, hl, rfl, -⟩ := C98_lives before n hm
    exact (C90_no_money_from_nothing hl id q).1 users hnd

namespace Demo

/-- The configuration of the examples on tries of bytes. -/
def dcfg : NodeCfg := { ncfg with rootOf := worldRoot btrie }
def dlib : DiskLib := ⟨btrie, fun _ => "codec"⟩

/-- The process is killed between the third and the fourth write of its initialisation and started again; user 1 deploys an asset and pays 30 to user 3. -/
def dcalls1 : List MachineCall :=
  [.epoch none, .start true 3, .start true 4, .op (fun _ => true) (.insertTx true true bdeploy), .op (fun _ => true) (.insertTx true true (npay 1 3 30))]

/-- What the node then proposes. -/
def dpill : Pill :=
  match (callAll (DiskMachine.call dcfg dlib ngenesis) (.off Db.empty []) dcalls1).2 with
  | .on d => match (d.getEpoch dcfg 7 1).1 with
    | .ok (pill, _) => pill
    | .error _ => noPill
  | _ => noPill

/-- The epoch is committed, the process is killed and started again. -/
def dcalls : List MachineCall :=
  dcalls1 ++ [.op (fun _ => true) (.propose 7 1), .op (fun _ => false) (.commit .ok 1 dpill (oproof 1)), .killed [], .receipt bdeploy.txHash,
    .start false 4, .epoch (some 1), .receipt bdeploy.txHash, .transactions [(npay 1 3 30).txHash, hash 4],
    .balance (naddr 1) token none, .balance (naddr 3) token (some 0)]

/-- What can be seen of an answer. -/
def shown {E : Type} : MachineAns E → Nat
  | .down => 1000
  | .started (.ok up) => if up then 1001 else 1002
  | .killed => 1003
  | .inserted (.ok ()) => 1004
  | .proposed (.ok (p, _)) => 1005 + p.epoch.orderedTxHashes.length
  | .committed (.ok h) => 2000 + h.toNat
  | .epoch (.ok e) => 3000 + e.header.epochId.toNat
  | .receipt (.ok r) => if r.result.isFail then 4000 else 4001
  | .transactions (.ok l) => 5000 + l.length
  | .balance (.ok b) => b
  | _ => 9999

/-- Whether an answer is a failure of the given kind. -/
def outOfMemory : MachineAns DiskErr → Bool
  | a => match a.failure with
    | some .memory => true
    | _ => false

def unopened : MachineAns CErr → Bool
  | a => match a.failure with
    | some .openRoot => true
    | _ => false

theorem outOfMemory_spec {l : List (MachineAns DiskErr)} (h : l.all (fun a => !outOfMemory a) = true) : ∀ a ∈ l, a.failure ≠ some .memory := by
  intro a ha e
  have := List.all_eq_true.1 h a ha
  simp [outOfMemory, e] at this

theorem unopened_spec {l : List (MachineAns CErr)} (h : l.all (fun a => !unopened a) = true) : ∀ a ∈ l, a.failure ≠ some .openRoot := by
  intro a ha e
  have := List.all_eq_true.1 h a ha
  simp [unopened, e] at this

/-- The answers on bytes. -/
theorem dcalls_disk : (callAll (DiskMachine.call dcfg dlib ngenesis) (.off Db.empty []) dcalls).1.map shown =
    [1000, 1002, 1001, 1004, 1004, 1007, 2002, 1003, 1000, 1001, 3001, 4001, 5001, 100, 9999] := by decide +kernel

/-- The hypotheses of C98 are met. -/
example : dcfg.rootOf = worldRoot dlib.trie ∧ dcfg.digest (utf8 "latest_hash") ≠ dcfg.digest (utf8 "latest_proof") ∧
    ((callAll (Machine.call dcfg ngenesis) (.off Store.empty PMap.empty) dcalls).2.store.byHash (dcfg.digest (utf8 "latest_hash")) = none ∧
      (callAll (Machine.call dcfg ngenesis) (.off Store.empty PMap.empty) dcalls).2.store.byHash (dcfg.digest (utf8 "latest_proof")) = none) ∧
    ¬ Collides dlib.trie (callAll (DiskMachine.call dcfg dlib ngenesis) (.off Db.empty []) dcalls).2.tries ∧
    (∀ a ∈ (callAll (DiskMachine.call dcfg dlib ngenesis) (.off Db.empty []) dcalls).1, a.failure ≠ some .memory) ∧
    (∀ a ∈ (callAll (Machine.call dcfg ngenesis) (.off Store.empty PMap.empty) dcalls).1, a.failure ≠ some .openRoot) := by
  refine ⟨rfl, by decide +kernel, ⟨by decide +kernel, by decide +kernel⟩, ?_, ?_, ?_⟩
  · apply not_collides_of_nodup
    decide +kernel
  · apply outOfMemory_spec
    decide +kernel
  · apply unopened_spec
    decide +kernel

end Demo


end Huobi
