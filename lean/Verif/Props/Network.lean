import Verif.Props.RaceReplay
import Verif.Model.Server
/-
C112: in a network of nodes that run this code, only transactions that somebody signed and submitted are executed.
-/
namespace Huobi

/-! ### Specification -/

/-- The process that runs at one place: the node as it was started, what happened in this process, and what earlier processes there recorded. -/
structure Site where
  start : Node
  evs : List Event
  older : List Done

/-- The node as it is now. -/
def Site.node (cfg : NodeCfg) (s : Site) : Node := (Conf.after cfg s.start s.evs).node

/-- A network: the places at which nodes run, the transactions that clients submitted at the API of any of them so far, and those that any of them sent
to others so far. -/
structure Net where
  sites : Nat → Option Site
  submitted : List SignedTx
  sent : List SignedTx

def Net.set (N : Net) (i : Nat) (s : Site) : Net := { N with sites := fun j => if j = i then some s else N.sites j }

/-- What a node can send: it answers requests for transactions out of its pool (core/mempool/src/adapter/message.rs:99-107) and out of its database
(core/consensus/src/message.rs:136-178), and gossips transactions that were put into its pool (core/mempool/src/lib.rs:85-98).  What is sent may arrive at any
time, many times or never; so it does not matter when exactly a transaction leaves that was in the pool at some time. -/
def Node.Gives (n : Node) (t : SignedTx) : Prop :=
  (∃ k, n.store.txs k = some t) ∨ ∃ hs txs, n.pool.getFullTxs hs = .ok txs ∧ t ∈ txs

/-- Two descriptions of one call that differ in the answers of peers only; those of the second are among `sent`. -/
inductive Event.Answered (sent : List SignedTx) : Event → Event → Prop
  | same (e) : Answered sent e e
  | check {t p1 p2 h pill} (q1 q2 : List Hash → Option (List SignedTx)) : (Event.callCheck t q1 q2 h pill).Hands (· ∈ sent) →
      Answered sent (.callCheck t p1 p2 h pill) (.callCheck t q1 q2 h pill)
  | sync {t io msg} (pe : Nat → UInt64 → Option Epoch) (pt : Nat → List Hash → Option (List SignedTx)) :
      (Event.callSync t { io with pullEpoch := pe, pullTxs := pt } msg).Hands (· ∈ sent) →
      Answered sent (.callSync t io msg) (.callSync t { io with pullEpoch := pe, pullTxs := pt } msg)

/-- What can happen in a network in which every node runs this code with its own configuration.  Nothing is said about the order of anything: nodes start,
stop at any moment and are started again; clients submit whatever they want wherever they want; the accesses of overlapping calls interleave in any way; the
consensus has any proposals checked and commits any epochs; and any epochs are taken for those of other nodes in a synchronisation.  The only assumption is
that the *transactions* in messages of nodes and in answers to requests were sent by a node.  -/
inductive Net.Reach (cfg : Nat → NodeCfg) (g : Genesis) : Net → Prop
  | init : Reach cfg g ⟨fun _ => none, [], []⟩
  /-- the first start at a place -/
  | first {N s t n} (i : Nat) : Reach cfg g N → N.sites i = none → handleInit (cfg i) g Store.empty PMap.empty = some (s, t) →
      startNode (cfg i) s t = some n → Reach cfg g (N.set i ⟨n, [], []⟩)
  /-- the process is killed and started again -/
  | restart {N s t n p} (i : Nat) : Reach cfg g N → N.sites i = some p →
      handleInit (cfg i) g (p.node (cfg i)).store (p.node (cfg i)).tries = some (s, t) → startNode (cfg i) s t = some n →
      Reach cfg g (N.set i ⟨n, [], (p.node (cfg i)).log ++ p.older⟩)
  /-- a client submits a transaction at the API -/
  | submit {N p} (i t : Nat) (b : Bool) (tx : SignedTx) : Reach cfg g N → N.sites i = some p →
      Reach cfg g { N.set i { p with evs := p.evs ++ [.callInsert t false b tx] } with submitted := tx :: N.submitted }
  /-- a node sends a transaction -/
  | send {N p tx} (i : Nat) : Reach cfg g N → N.sites i = some p → (p.node (cfg i)).Gives tx → Reach cfg g { N with sent := tx :: N.sent }
  /-- anything else that happens at a node; it is handed only transactions that were sent -/
  | event {N p} (i : Nat) (e : Event) : Reach cfg g N → N.sites i = some p → e.Hands (· ∈ N.sent) →
      Reach cfg g (N.set i { p with evs := p.evs ++ [e] })
  /-- an answer to a request arrives after the call that asks for it began: answers that made no difference so far may still be others -/
  | answer {N p} (i : Nat) (evs : List Event) : Reach cfg g N → N.sites i = some p → evs.length = p.evs.length →
      (∀ (k : Nat) (e e' : Event), p.evs[k]? = some e → evs[k]? = some e' → e.Answered N.sent e') →
      (∀ k, (Conf.after (cfg i) p.start (evs.take k)).node = (Conf.after (cfg i) p.start (p.evs.take k)).node) →
      Reach cfg g (N.set i { p with evs := evs })

/-! ### Proofs -/

/-- Worlds reached by blocks of transactions of `P`, with these transactions and their receipts. -/
inductive PLater (cfg : NodeCfg) (P : SignedTx → Prop) : World → List (SignedTx × Receipt) → World → Prop
  | refl (w) : PLater cfg P w [] w
  | step {w xs w1 h price cb txs resp w2} : PLater cfg P w xs w1 → Executes (cfg.env h price cb) w1 txs resp w2 →
      (∀ t ∈ txs, P t) → PLater cfg P w (xs ++ txs.zip resp.receipts) w2

theorem PLater.auth {cfg : NodeCfg} {P : SignedTx → Prop} (hP : ∀ t, P t → Authorised cfg t) {w w' : World} {xs : List (SignedTx × Receipt)}
    (h : PLater cfg P w xs w') : AuthLater cfg w xs w' ∧ ∀ x ∈ xs, P x.1 := by
  induction h with
  | refl => exact ⟨.refl _, fun x hx => by cases hx⟩
  | step _ he ht ih =>
    refine ⟨.step ih.1 he fun t h => hP t (ht t h), fun x hx => ?_⟩
    rcases List.mem_append.1 hx with hx | hx
    · exact ih.2 x hx
    · exact ht _ (List.of_mem_zip hx).1

def PDescends (cfg : NodeCfg) (P : SignedTx → Prop) (g : Genesis) (w : World) : Prop :=
  (∃ w0 xs, CreatesGenesis (cfg.env 0 cfg.cyclesPrice (.user cfg.selfAddress)) g w0 ∧ PLater cfg P w0 xs w) ∨ ∃ xs, PLater cfg P World.empty xs w

theorem balances_of_worlds {cfg : NodeCfg} {P : SignedTx → Prop} (hP : ∀ t, P t → Authorised cfg t) {g : Genesis} {n : Node}
    (ht : ∀ r w, n.tries r = some w → PDescends cfg P g w) (q : Option UInt64) :
    (∀ a id, n.apiBalance cfg a id q = 0) ∨
      ∃ (start : Address → AssetID → Nat) (xs : List (SignedTx × Receipt)), (start = allocated g ∨ start = fun _ _ => 0) ∧ (∀ x ∈ xs, P x.1) ∧
        ∀ a id, n.apiBalance cfg a id q + (xs.map (spent cfg a id)).sum = start a id + (xs.map (incoming a id)).sum := by
  have known : (∀ a id, n.apiBalance cfg a id q = 0) ∨
      ∃ w, PDescends cfg P g w ∧ ∀ a id, n.apiBalance cfg a id q = balance w a id := by
    cases hq : n.queryEpoch q with
    | none => left; intro a id; unfold Node.apiBalance Node.queryBalance; rw [hq]; rfl
    | some e =>
      by_cases he : e.header.stateRoot = cfg.emptyHash
      · exact .inr ⟨World.empty, .inr ⟨_, .refl _⟩, fun a id => apiBalance_resolves hq (by unfold Resolves; rw [if_pos he]) a id⟩
      · cases hw : n.tries e.header.stateRoot with
        | some w => exact .inr ⟨w, ht _ _ hw, fun a id => apiBalance_resolves hq (by unfold Resolves; rw [if_neg he]; exact hw) a id⟩
        | none =>
          left; intro a id; unfold Node.apiBalance Node.queryBalance
          rw [hq]
          simp only
          have : fromRoot (cfg.env e.header.epochId 0 (.user e.header.proposer)) n.tries e.header.stateRoot = none := by
            unfold fromRoot
            rw [if_neg (show ¬ e.header.stateRoot = (cfg.env e.header.epochId 0 (.user e.header.proposer)).emptyHash from he), hw]
            rfl
          rw [this]; rfl
  refine known.imp id ?_
  rintro ⟨w, hw, hb⟩
  rcases hw with ⟨w0, xs, h0, h1⟩ | ⟨xs, h1⟩
  · obtain ⟨_, -, -, -, hty, -⟩ := createsGenesis_spec h0
    refine ⟨_, xs, .inl rfl, (h1.auth hP).2, fun a id => ?_⟩
    rw [hb, ((h1.auth hP).1.ledger hty a id).2, C13_genesis_balances h0 a id]
  · refine ⟨_, xs, .inr rfl, (h1.auth hP).2, fun a id => ?_⟩
    rw [hb, ((h1.auth hP).1.ledger empty_wellTyped a id).2]
    rfl

/-- How a place came to where it is. -/
inductive Site.From (cfg : NodeCfg) (g : Genesis) (P : SignedTx → Prop) : Site → Prop
  | init {s t n} (evs : List Event) : handleInit cfg g Store.empty PMap.empty = some (s, t) → startNode cfg s t = some n →
      (∀ e ∈ evs, e.Brings cfg P) → From cfg g P ⟨n, evs, []⟩
  | restart {p s t n} (evs : List Event) : From cfg g P p → handleInit cfg g (p.node cfg).store (p.node cfg).tries = some (s, t) →
      startNode cfg s t = some n → (∀ e ∈ evs, e.Brings cfg P) → From cfg g P ⟨n, evs, (p.node cfg).log ++ p.older⟩

theorem Event.Brings.mono {cfg : NodeCfg} {P Q : SignedTx → Prop} (hPQ : ∀ t, P t → Q t) {e : Event} (h : e.Brings cfg P) : e.Brings cfg Q := by
  cases e with
  | callInsert t o b tx => exact fun ha => hPQ _ (h ha)
  | callCheck t p1 p2 ha pill => exact fun q txs hq t ht => hPQ _ (h q txs hq t ht)
  | callSync t io msg => exact fun k q txs hq t ht => hPQ _ (h k q txs hq t ht)
  | _ => trivial

theorem Event.Hands.brings {cfg : NodeCfg} {P : SignedTx → Prop} {e : Event} (h : e.Hands P) : e.Brings cfg P := by
  cases e with
  | callInsert t o b tx => exact fun _ => h
  | callCheck t p1 p2 ha pill => exact h
  | callSync t io msg => exact h
  | _ => trivial

theorem Event.Hands.mono {P Q : SignedTx → Prop} (hPQ : ∀ t, P t → Q t) {e : Event} (h : e.Hands P) : e.Hands Q := by
  cases e with
  | callInsert t o b tx => exact hPQ _ h
  | callCheck t p1 p2 ha pill => exact fun q txs hq t ht => hPQ _ (h q txs hq t ht)
  | callSync t io msg => exact fun k q txs hq t ht => hPQ _ (h k q txs hq t ht)
  | _ => trivial

theorem Site.From.mono {cfg : NodeCfg} {g : Genesis} {P Q : SignedTx → Prop} (hPQ : ∀ t, P t → Q t) {p : Site} (h : p.From cfg g P) : p.From cfg g Q := by
  induction h with
  | init evs h1 h2 he => exact .init evs h1 h2 fun e hm => (he e hm).mono hPQ
  | restart evs _ h1 h2 he ih => exact .restart evs ih h1 h2 fun e hm => (he e hm).mono hPQ

theorem Site.From.brings {cfg : NodeCfg} {g : Genesis} {P : SignedTx → Prop} {p : Site} (h : p.From cfg g P) : ∀ e ∈ p.evs, e.Brings cfg P := by
  cases h with
  | init evs _ _ he => exact he
  | restart evs _ _ _ he => exact he

/-- In its current process something else happened. -/
theorem Site.From.with {cfg : NodeCfg} {g : Genesis} {P : SignedTx → Prop} {p : Site} (h : p.From cfg g P) (evs : List Event)
    (he : ∀ e ∈ evs, e.Brings cfg P) : ({ p with evs := evs } : Site).From cfg g P := by
  cases h with
  | init _ h1 h2 _ => exact .init evs h1 h2 he
  | restart _ h h1 h2 _ => exact .restart evs h h1 h2 he

theorem Site.From.history {cfg : NodeCfg} {g : Genesis} {P : SignedTx → Prop} {p : Site} (h : p.From cfg g P) :
    CHistory cfg g (fun _ evs => ∀ e ∈ evs, e.Brings cfg P) (p.node cfg) p.older := by
  induction h with
  | init evs h1 h2 he => exact .init evs h1 h2 he
  | restart evs _ h1 h2 he ih => exact .restart evs ih h1 h2 he

theorem pdescends_closed (cfg : NodeCfg) (g : Genesis) (P : SignedTx → Prop) : Closed cfg P (PDescends cfg P g) := by
  refine ⟨.inr ⟨_, .refl _⟩, fun hw he ha => ?_⟩
  rcases hw with ⟨w0, xs, h0, h1⟩ | ⟨xs, h1⟩
  · exact .inl ⟨w0, _, h0, .step h1 he ha⟩
  · exact .inr ⟨_, .step h1 he ha⟩

theorem Site.From.inv {cfg : NodeCfg} {g : Genesis} {P : SignedTx → Prop} {p : Site} (h : p.From cfg g P) :
    CInv P (PDescends cfg P g) (p.node cfg) ∧ ∀ d ∈ p.older, ∀ t ∈ d.txs, P t :=
  h.history.inv (pdescends_closed cfg g P) fun w hw => .inl ⟨w, _, hw, .refl _⟩

theorem Site.From.gives {cfg : NodeCfg} {g : Genesis} {P : SignedTx → Prop} {p : Site} (h : p.From cfg g P) {t : SignedTx} (hg : (p.node cfg).Gives t) : P t := by
  rcases hg with ⟨k, hk⟩ | ⟨hs, txs, h1, h2⟩
  · exact h.inv.1.stored k t hk
  · exact h.inv.1.pool.getFull h1 t h2

/-- All nodes of the network use one hash function and one signature scheme. -/
def OneScheme (cfg : Nat → NodeCfg) : Prop := ∀ i j, (cfg i).digest = (cfg j).digest ∧ (cfg i).sigOk = (cfg j).sigOk

theorem OneScheme.auth {cfg : Nat → NodeCfg} (h : OneScheme cfg) {i j : Nat} {t : SignedTx} (ha : Authorised (cfg i) t) : Authorised (cfg j) t := by
  unfold Authorised at *
  rw [← (h i j).1, ← (h i j).2]
  exact ha

theorem Net.Reach.inv {cfg : Nat → NodeCfg} {g : Genesis} (hc : OneScheme cfg) {N : Net} (h : Net.Reach cfg g N) :
    (∀ t ∈ N.sent, t ∈ N.submitted ∧ ∀ i, Authorised (cfg i) t) ∧
    ∀ i p, N.sites i = some p → p.From (cfg i) g (fun t => t ∈ N.submitted ∧ ∀ i, Authorised (cfg i) t) := by
  induction h with
  | init => exact ⟨fun t ht => (by cases ht), fun i p hp => (by cases hp)⟩
  | first i _ _ h1 h2 ih =>
    refine ⟨ih.1, fun j p hp => ?_⟩
    simp only [Net.set] at hp
    split at hp
    · rename_i hj
      subst hj
      injection hp with hp
      subst hp
      exact .init [] h1 h2 fun e he => by cases he
    · exact ih.2 j p hp
  | restart i _ h0 h1 h2 ih =>
    refine ⟨ih.1, fun j p hp => ?_⟩
    simp only [Net.set] at hp
    split at hp
    · rename_i hj
      subst hj
      injection hp with hp
      subst hp
      exact .restart [] (ih.2 _ _ h0) h1 h2 fun e he => by cases he
    · exact ih.2 j p hp
  | @submit N p i t b tx _ h0 ih =>
    have up : ∀ t, (t ∈ N.submitted ∧ ∀ i, Authorised (cfg i) t) → (t ∈ tx :: N.submitted ∧ ∀ i, Authorised (cfg i) t) :=
      fun t ht => ⟨.tail _ ht.1, ht.2⟩
    refine ⟨fun t ht => up t (ih.1 t ht), fun j q hq => ?_⟩
    simp only [Net.set] at hq
    split at hq
    · rename_i hj
      subst hj
      injection hq with hq
      subst hq
      refine ((ih.2 _ _ h0).mono up).with _ fun e he => ?_
      rcases List.mem_append.1 he with he | he
      · exact ((ih.2 _ _ h0).brings e he).mono up
      · rw [List.mem_singleton.1 he]
        exact fun ha => ⟨.head _, fun i => hc.auth ha⟩
    · exact (ih.2 j q hq).mono up
  | send i _ h0 hg ih =>
    refine ⟨fun t ht => ?_, ih.2⟩
    rcases List.mem_cons.1 ht with rfl | ht
    · exact (ih.2 _ _ h0).gives hg
    · exact ih.1 t ht
  | event i e _ h0 he ih =>
    refine ⟨ih.1, fun j q hq => ?_⟩
    simp only [Net.set] at hq
    split at hq
    · rename_i hj
      subst hj
      injection hq with hq
      subst hq
      refine (ih.2 _ _ h0).with _ fun x hx => ?_
      rcases List.mem_append.1 hx with hx | hx
      · exact (ih.2 _ _ h0).brings x hx
      · rw [List.mem_singleton.1 hx]
        exact (he.mono ih.1).brings
    · exact ih.2 j q hq
  | @answer N p i evs _ h0 hl ha _ ih =>
    refine ⟨ih.1, fun j q hq => ?_⟩
    simp only [Net.set] at hq
    split at hq
    · rename_i hj
      subst hj
      injection hq with hq
      subst hq
      refine (ih.2 _ _ h0).with _ fun x hx => ?_
      obtain ⟨k, hk, rfl⟩ := List.mem_iff_getElem.1 hx
      have hk' : k < p.evs.length := hl ▸ hk
      have hb := (ih.2 _ _ h0).brings _ (List.getElem_mem hk')
      have := ha k p.evs[k] evs[k] (List.getElem?_eq_getElem hk') (List.getElem?_eq_getElem hk)
      generalize evs[k] = y at this ⊢
      generalize p.evs[k] = z at this hb
      cases this with
      | same => exact hb
      | check q1 q2 hh => exact (hh.mono ih.1).brings
      | sync pe pt hh => exact (hh.mono ih.1).brings
    · exact ih.2 j q hq

/-- **C112.**  In every network of nodes that run this code - however many, whatever their configurations, clients, crashes, schedules, consensus decisions
and whatever epochs they take over from each other - a transaction that any node sends, has in its pool, stores, executed in an epoch it recorded or names in
a proposal was submitted at the API of some node and is signed with the key of the account it spends from.  Whatever any node shows of any account at any
epoch is explained exactly by such transactions. -/
theorem C112_network {cfg : Nat → NodeCfg} {g : Genesis} (hc : OneScheme cfg) {N : Net} (h : Net.Reach cfg g N) :
    (∀ t ∈ N.sent, t ∈ N.submitted ∧ ∀ i, Authorised (cfg i) t) ∧
    ∀ i p, N.sites i = some p →
      (∀ t, (p.node (cfg i)).Gives t → t ∈ N.submitted ∧ Authorised (cfg i) t) ∧
      (∀ d ∈ (p.node (cfg i)).log ++ p.older, ∀ t ∈ d.txs, t ∈ N.submitted ∧ Authorised (cfg i) t) ∧
      (∀ now id pill ha, ((p.node (cfg i)).getEpoch (cfg i) now id).1 = .ok (pill, ha) →
        ∀ x ∈ pill.epoch.orderedTxHashes ++ pill.proposeHashes, ∃ t ∈ N.submitted, Authorised (cfg i) t ∧ t.txHash = x) ∧
      ∀ q, (∀ a id, (p.node (cfg i)).apiBalance (cfg i) a id q = 0) ∨
        ∃ (start : Address → AssetID → Nat) (xs : List (SignedTx × Receipt)), (start = allocated g ∨ start = fun _ _ => 0) ∧
          (∀ x ∈ xs, x.1 ∈ N.submitted ∧ Authorised (cfg i) x.1) ∧
          ∀ a id, (p.node (cfg i)).apiBalance (cfg i) a id q + (xs.map (spent (cfg i) a id)).sum = start a id + (xs.map (incoming a id)).sum := by
  obtain ⟨hs, hp⟩ := h.inv hc
  refine ⟨hs, fun i p hi => ?_⟩
  have hf := (hp i p hi).mono (Q := fun t => t ∈ N.submitted ∧ Authorised (cfg i) t) fun t ht => ⟨ht.1, ht.2 i⟩
  obtain ⟨hinv, hold⟩ := hf.inv
  have hdata : HandedData (fun t => t ∈ N.submitted ∧ Authorised (cfg i) t) (p.node (cfg i)) p.older := by
    refine ⟨hinv.stored, fun d hd => ?_⟩
    rcases List.mem_append.1 hd with hd | hd
    · exact hinv.log d hd
    · exact hold d hd
  obtain ⟨-, a2, -, -, a5⟩ := handed_of_data (cfg := cfg i) hinv.pool hdata hinv.good
  refine ⟨fun t => hf.gives, a2, fun now id pill ha hg x hx => ?_, fun q => balances_of_worlds (fun t ht => ht.2) hinv.tries q⟩
  obtain ⟨t, ⟨h1, h2⟩, h3⟩ := a5 now id pill ha hg x hx
  exact ⟨t, h1, h2, h3⟩

/-! ### What nodes send -/

theorem mapM_some {f : Hash → Option SignedTx} : ∀ {hs : List Hash} {txs : List SignedTx}, hs.mapM f = some txs → ∀ t ∈ txs, ∃ k, f k = some t
  | [], txs, h, t, ht => by
    rw [List.mapM_nil] at h
    cases h
    cases ht
  | k :: hs, txs, h, t, ht => by
    rw [List.mapM_cons] at h
    cases hk : f k with
    | none => rw [hk] at h; cases h
    | some x =>
      cases hr : hs.mapM f with
      | none => rw [hk, hr] at h; cases h
      | some xs =>
        rw [hk, hr] at h
        cases h
        rcases List.mem_cons.1 ht with rfl | ht
        · exact ⟨k, hk⟩
        · exact mapM_some hr t ht

theorem respond_content {sid : Nat} {rid : Option UInt64} {url : Str} {content : Bytes} {m : OutMsg} (h : m ∈ respond sid rid url content) :
    m.content = content := by
  unfold respond at h
  split at h
  · split at h
    · rw [List.mem_singleton.1 h]
    · cases h
  · cases h

/-- `Node.Gives` is what the code sends: a reply to a request of a synchronising peer carries an epoch or transactions the node gives; the reply of the
handler for missing transactions of a proposal carries transactions the node gives (the handler exists, but is not registered, see C30); and a transaction
that is handed to the gossip is one that the node gives when it is handed over. -/
theorem C112_sends (cfg : NodeCfg) (n : Node) (sid : Nat) (rid : Option UInt64) (content : Bytes) :
    (∀ m ∈ rpcHandler n sid rid content, (∃ e, m.content = (RpcResponse.pullEpochs e).enc) ∨
      ∃ txs, m.content = (RpcResponse.pullTxs txs).enc ∧ ∀ t ∈ txs, n.Gives t) ∧
    (∀ m ∈ pullTxsHandler n.pool sid rid content, ∃ txs, m.content = encMulti txs ∧ ∀ t ∈ txs, n.Gives t) ∧
    (n.pool.cache.Good → ∀ v o tx, ∀ t ∈ n.pool.gossips cfg.mem v o tx, ({ n with pool := (n.pool.insert cfg.mem v o tx).2 } : Node).Gives t) := by
  refine ⟨fun m hm => ?_, fun m hm => ?_, fun g v o tx t ht => ?_⟩
  · unfold rpcHandler at hm
    split at hm
    · cases hm
    · split at hm
      · cases hm
      · rename_i e _; exact .inl ⟨e, respond_content hm⟩
    · split at hm
      · cases hm
      · rename_i txs hx
        exact .inr ⟨txs, respond_content hm, fun t ht => .inl (mapM_some hx t ht)⟩
  · unfold pullTxsHandler at hm
    split at hm
    · cases hm
    · split at hm
      · cases hm
      · rename_i txs hx
        exact ⟨txs, respond_content hm, fun t ht => .inr ⟨_, txs, hx, ht⟩⟩
  · unfold MemPool.gossips at ht
    split at ht
    · rename_i hok
      split at ht
      · cases ht
      · rw [List.mem_singleton] at ht
        subst ht
        have hl : (n.pool.insert cfg.mem v o t).2.cache.get t.txHash = some t := by
          rcases checks_spec cfg.mem v n.pool t with ⟨h1, h2⟩ | ⟨e, h1, h2⟩
          · have hn : n.pool.cache.get t.txHash = none := h2 (_, .dup t.txHash) (by simp [admissionRules])
            have h1' : n.pool.checks cfg.mem { v with broadcastOk := true } t = .ok () := h1
            have hres : (n.pool.insert cfg.mem v o t).2.cache = (n.pool.cache.insert t false).2 := by
              rw [insert_unfold, h1]
              cases hx : n.pool.cache.insert t false with
              | mk r c => cases r with
                | error e => rfl
                | ok u => simp only; split <;> rfl
            rw [hres]
            rcases cache_insert (b := false) g hn with ⟨_, h3, h4, h5⟩ | ⟨_, h3, h4, h5⟩
            · rw [get_append g h4 (by rw [h5]) hn, if_pos rfl]
            · rw [insert_unfold, h1'] at hok
              cases hx : n.pool.cache.insert t false with
              | mk r c =>
                rw [hx] at h3 hok
                simp only at h3
                subst h3
                cases hok
          · have h2' : ∀ v' : MemView, v' = { v with broadcastOk := true } → (n.pool.insert cfg.mem v' o t).1 = .error e := fun v' hv => by
              subst hv
              have : n.pool.checks cfg.mem { v with broadcastOk := true } t = .error e := h1
              rw [insert_unfold, this]
            rw [h2' _ rfl] at hok
            cases hok
        refine .inr ⟨[t.txHash], [t], ?_, .head _⟩
        unfold MemPool.getFullTxs MemPool.lookup
        simp only [List.filterMap_cons, List.filterMap_nil, hl]
        rfl
    · cases ht

/-! ### A network -/

theorem Net.set_self (N : Net) (i : Nat) (a : Site) : (N.set i a).sites i = some a := by
  unfold Net.set
  exact if_pos rfl

/-- Several things happen at one node. -/
theorem Net.Reach.events {cfg : Nat → NodeCfg} {g : Genesis} {N : Net} {i : Nat} {p : Site} (h : Net.Reach cfg g N) (hp : N.sites i = some p)
    (evs : List Event) (he : ∀ e ∈ evs, e.Hands (· ∈ N.sent)) : ∃ M, Net.Reach cfg g M ∧ M.sites i = some { p with evs := p.evs ++ evs } ∧
      (∀ j, j ≠ i → M.sites j = N.sites j) ∧ M.submitted = N.submitted ∧ M.sent = N.sent := by
  induction evs generalizing N p with
  | nil => exact ⟨N, h, by rw [List.append_nil]; exact hp, fun _ _ => rfl, rfl, rfl⟩
  | cons e evs ih =>
    have h1 := Net.Reach.event i e h hp (he e (.head _))
    obtain ⟨M, m1, m2, m3, m4, m5⟩ := ih h1 (Net.set_self ..) fun x hx => he x (.tail _ hx)
    refine ⟨M, m1, ?_, fun j hj => ?_, m4, m5⟩
    · rw [m2, List.append_assoc]; rfl
    · rw [m3 j hj]; exact if_neg hj

namespace Demo

/-- Everybody has the same configuration. -/
def everywhere : Nat → NodeCfg := fun _ => scfg

/-- What happens at the first node: a client submits a payment. -/
def client : List Event := .callInsert 9 false true (spay 1) :: runs 9 7

/-- What happens at the second node: it asks for the transaction of a proposal, gets it, and commits the epoch. -/
def asking (answer : List Hash → Option (List SignedTx)) : List Event := [.callCheck 0 noPull answer splitHash splitPill, .run 0]
def askAnswer : List Hash → Option (List SignedTx) := fun _ => some [spay 1]
def follower : List Event := asking askAnswer ++ (runs 0 6 ++ .callCommit 1 .ok 1 splitPill (oproof 1) :: runs 1 14)

def clientCheck : Bool := match (Conf.after scfg n0 client).node.pool.getFullTxs [(spay 1).txHash] with
  | .ok txs => decide (txs = [spay 1])
  | .error _ => false
def followerCheck : Bool := decide ((Conf.after scfg n0 follower).node.log.map Done.txs = [[spay 1]])


theorem asked_after (cfg : NodeCfg) (n : Node) (p a : List Hash → Option (List SignedTx)) (h : Bytes) (pill : Pill) (k : Nat) :
    (Conf.after cfg n (([.callCheck 0 p a h pill, .run 0] : List Event).take k)).node = n := by
  match k with
  | 0 => rfl
  | 1 => rfl
  | _ + 2 => rw [List.take_of_length_le (by simp)]; rfl

theorem site_gives {cfg : NodeCfg} {n : Node} {evs : List Event} {tx : SignedTx} {txs : List SignedTx}
    (h : (Conf.after cfg n evs).node.pool.getFullTxs [tx.txHash] = .ok txs) (ht : txs = [tx]) : ((⟨n, evs, []⟩ : Site).node cfg).Gives tx :=
  .inr ⟨_, _, h, by rw [ht]; exact .head _⟩

theorem site_log {cfg : NodeCfg} {n : Node} {evs : List Event} {l : List (List SignedTx)} (h : (Conf.after cfg n evs).node.log.map Done.txs = l) :
    ((⟨n, evs, []⟩ : Site).node cfg).log.map Done.txs = l := h

end Demo

open Demo in
/-- A network as in `C112_network`: a client submits a payment at one node; another node asks for it to check a proposal, gets the answer while the call is
running, and executes it. -/
example : OneScheme everywhere ∧ ∃ N p, Net.Reach everywhere ngenesis N ∧ N.submitted = [spay 1] ∧ N.sent = [spay 1] ∧ N.sites 1 = some p ∧
    (p.node scfg).log.map Done.txs = [[spay 1]] := by
  refine ⟨fun _ _ => ⟨rfl, rfl⟩, ?_⟩
  have hA : clientCheck = true := by decide +kernel
  have hB : followerCheck = true := by decide +kernel
  obtain ⟨s, t, i1, i2⟩ := n0_first
  have one : ∀ sent : List SignedTx, ∀ e ∈ runs 9 7, e.Hands (· ∈ sent) := fun sent e he => by rw [List.eq_of_mem_replicate he]; trivial
  have h1 := Net.Reach.first (cfg := everywhere) 0 .init rfl i1 i2
  have h2 := Net.Reach.submit (cfg := everywhere) 0 9 true (spay 1) h1 (Net.set_self ..)
  obtain ⟨M, m1, m2, m3, m4, m5⟩ := h2.events (Net.set_self ..) (runs 9 7) (one _)
  have hg : ((⟨n0, client, []⟩ : Site).node scfg).Gives (spay 1) := by
    unfold clientCheck at hA
    split at hA
    · rename_i txs hx
      exact site_gives hx (of_decide_eq_true hA)
    · cases hA
  have h3 := Net.Reach.send (cfg := everywhere) 0 m1 m2 hg
  have hn : ({ M with sent := spay 1 :: M.sent } : Net).sites 1 = none := m3 1 (by decide)
  have h4 := Net.Reach.first (cfg := everywhere) 1 h3 hn i1 i2
  obtain ⟨K, k1, k2, -, k4, k5⟩ := h4.events (Net.set_self ..) (asking noPull) (fun e he => by
    rcases List.mem_cons.1 he with rfl | he
    · rintro q txs (h | h) <;> cases h
    · rw [List.mem_singleton.1 he]; trivial)
  have hs : K.sent = [spay 1] := by rw [k5]; show spay 1 :: M.sent = _; rw [m5]; rfl
  have hsub : K.submitted = [spay 1] := by rw [k4]; show M.submitted = _; rw [m4]; rfl
  have h5 := Net.Reach.answer (cfg := everywhere) 1 (asking askAnswer) k1 k2 rfl (fun j e e' he he' => by
    match j with
    | 0 =>
      cases he
      cases he'
      refine .check _ _ ?_
      rintro q txs (h | h) x hx
      · cases h
      · cases h
        rw [hs]
        exact hx
    | 1 => cases he; cases he'; exact .same _
    | _ + 2 => cases he) (fun j => (asked_after ..).trans (asked_after ..).symm)
  obtain ⟨L, l1, l2, -, l4, l5⟩ := h5.events (Net.set_self ..) (runs 0 6 ++ .callCommit 1 .ok 1 splitPill (oproof 1) :: runs 1 14) (fun e he => by
    rcases List.mem_append.1 he with he | he
    · rw [List.eq_of_mem_replicate he]; trivial
    · rcases List.mem_cons.1 he with rfl | he
      · trivial
      · rw [List.eq_of_mem_replicate he]; trivial)
  exact ⟨L, ⟨n0, follower, []⟩, l1, l4.trans hsub, l5.trans hs, l2, site_log (of_decide_eq_true hB)⟩

end Huobi
