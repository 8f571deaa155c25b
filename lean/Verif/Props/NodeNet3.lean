import Verif.Props.NodeNet2
import Verif.Props.NetworkFork
/-
C116: a network of whole processes, to which anybody sends any bytes, does not fork, has no holes, and executes only what its senders authorised.
-/
namespace Huobi

/-! ### Specification -/

/-- The process that runs at one place: the node as it was started, what its tasks did so far, and what earlier processes there recorded. -/
structure PSite where
  start : Node
  sched : List NodeNetEvent
  older : List Done

/-- The node as it is now. -/
def PSite.node (z : Compression) (cfg : NodeCfg) (p : PSite) : Node := (nodeNet z cfg p.start p.sched).node.conf.node

/-- A network: the places at which nodes run; the answers that nodes gave so far to requests of synchronising nodes (epochs, with the height that was asked
for, and transactions, with the hashes that were asked for); the transactions that nodes gave to others that miss them; and which transactions ever came in,
from a client of any node or in a frame that anybody sent to any node. -/
structure PNet where
  sites : Nat → Option PSite
  epochs : List (UInt64 × Epoch)
  bodies : List (List Hash × List SignedTx)
  gifts : List SignedTx
  came : SignedTx → Prop

def PNet.set (N : PNet) (i : Nat) (s : PSite) : PNet := { N with sites := fun j => if j = i then some s else N.sites j }

/-- What peers answer to a synchronisation are answers that nodes of the network gave. -/
def SyncIo.AnsweredBy (N : PNet) (io : SyncIo) : Prop :=
  (∀ k id e, io.pullEpoch k id = some e → (id, e) ∈ N.epochs) ∧ ∀ k hs txs, io.pullTxs k hs = some txs → (hs, txs) ∈ N.bodies

/-- The consensus commits only what the validators decided on: one epoch for each height (`chain`), with the height in its header.  Requests are answered by
nodes of the network.  Nothing else is assumed; in particular any bytes arrive. -/
def NodeNetEvent.Told (chain : UInt64 → Epoch) (N : PNet) : NodeNetEvent → Prop
  | .net (.react _ io) => io.AnsweredBy N
  | .own (.callCommit _ _ id pill _) => id ≠ 0 ∧ pill.epoch = chain id ∧ pill.epoch.header.epochId = id
  | .own (.callSync _ io _) => io.AnsweredBy N
  | .own (.callCheck _ p1 p2 _ _) => ∀ q txs, p1 q = some txs ∨ p2 q = some txs → ∀ t ∈ txs, t ∈ N.gifts
  | _ => True

/-- The transactions that come in with an event. -/
def NodeNetEvent.Brought (z : Compression) : NodeNetEvent → SignedTx → Prop
  | .net (.arrive _ raw), t => Carries z raw t
  | .own (.callInsert _ _ _ tx), t => t = tx
  | _, _ => False

/-- Two descriptions of one event that differ in the answers of peers only; those of the second were given by nodes. -/
inductive NodeNetEvent.Replied (N : PNet) : NodeNetEvent → NodeNetEvent → Prop
  | same (e) : Replied N e e
  | react {k io} (io' : SyncIo) : io'.AnsweredBy N → Replied N (.net (.react k io)) (.net (.react k io'))
  | sync {t io msg} (io' : SyncIo) : io'.AnsweredBy N → Replied N (.own (.callSync t io msg)) (.own (.callSync t io' msg))
  | check {t p1 p2 h pill} (q1 q2 : List Hash → Option (List SignedTx)) :
      (∀ q txs, q1 q = some txs ∨ q2 q = some txs → ∀ t ∈ txs, t ∈ N.gifts) → Replied N (.own (.callCheck t p1 p2 h pill)) (.own (.callCheck t q1 q2 h pill))

/-- What can happen in a network in which every node is a whole process of this code (NodeNet) with its own configuration.  Anybody sends any bytes to any
node at any time; clients submit anything; the tasks of each process interleave in any way; nodes are killed at any moment and started again; any access to a
database may fail; nodes synchronise with each other at any time.  Answers arrive at any time, many times or never. -/
inductive PNet.Step (z : Compression) (cfg : Nat → NodeCfg) (g : Genesis) (chain : UInt64 → Epoch) : PNet → PNet → Prop
  /-- the first start at a place -/
  | first {N s t n} (i : Nat) : N.sites i = none → handleInit (cfg i) g Store.empty PMap.empty = some (s, t) →
      startNode (cfg i) s t = some n → Step z cfg g chain N (N.set i ⟨n, [], []⟩)
  /-- the process is killed and started again -/
  | restart {N s t n p} (i : Nat) : N.sites i = some p →
      handleInit (cfg i) g (p.node z (cfg i)).store (p.node z (cfg i)).tries = some (s, t) → startNode (cfg i) s t = some n →
      Step z cfg g chain N (N.set i ⟨n, [], (p.node z (cfg i)).log ++ p.older⟩)
  /-- a node gives an epoch that it is asked for -/
  | giveEpoch {N p id e} (i : Nat) : N.sites i = some p → (p.node z (cfg i)).store.epochs id = some e →
      Step z cfg g chain N { N with epochs := (id, e) :: N.epochs }
  /-- a node gives transactions that it is asked for -/
  | giveTxs {N p hs txs} (i : Nat) : N.sites i = some p → hs.mapM (p.node z (cfg i)).store.txs = some txs →
      Step z cfg g chain N { N with bodies := (hs, txs) :: N.bodies }
  /-- a node gives a transaction that another one misses -/
  | giveTx {N p tx} (i : Nat) : N.sites i = some p → (p.node z (cfg i)).Gives tx → Step z cfg g chain N { N with gifts := tx :: N.gifts }
  /-- anything else that happens at a node -/
  | event {N p} (i : Nat) (e : NodeNetEvent) : N.sites i = some p → e.Told chain N →
      Step z cfg g chain N { N.set i { p with sched := p.sched ++ [e] } with came := fun t => N.came t ∨ e.Brought z t }
  /-- an answer to a request arrives after the call that asks for it began: answers that made no difference so far may still be others -/
  | answer {N p} (i : Nat) (l : List NodeNetEvent) : N.sites i = some p → l.length = p.sched.length →
      (∀ (k : Nat) (e e' : NodeNetEvent), p.sched[k]? = some e → l[k]? = some e' → e.Replied N e') →
      (∀ k, (nodeNet z (cfg i) p.start (l.take k)).node.conf.node = (nodeNet z (cfg i) p.start (p.sched.take k)).node.conf.node) →
      Step z cfg g chain N (N.set i { p with sched := l })

/-- What a network can become: nothing runs at first. -/
inductive PNet.Reach (z : Compression) (cfg : Nat → NodeCfg) (g : Genesis) (chain : UInt64 → Epoch) : PNet → Prop
  | init : Reach z cfg g chain ⟨fun _ => none, [], [], [], fun _ => False⟩
  | step {N M} : Reach z cfg g chain N → Step z cfg g chain N M → Reach z cfg g chain M

/-! ### Proofs -/

/-- How a place came to where it is. -/
inductive PSite.Lived (z : Compression) (cfg : NodeCfg) (g : Genesis) (P : NodeNetEvent → Prop) : PSite → Prop
  | init {s t n} (l : List NodeNetEvent) : handleInit cfg g Store.empty PMap.empty = some (s, t) → startNode cfg s t = some n →
      (∀ e ∈ l, P e) → Lived z cfg g P ⟨n, l, []⟩
  | restart {p s t n} (l : List NodeNetEvent) : Lived z cfg g P p → handleInit cfg g (p.node z cfg).store (p.node z cfg).tries = some (s, t) →
      startNode cfg s t = some n → (∀ e ∈ l, P e) → Lived z cfg g P ⟨n, l, (p.node z cfg).log ++ p.older⟩

section
variable {z : Compression}

theorem PSite.Lived.now {cfg : NodeCfg} {g : Genesis} {P : NodeNetEvent → Prop} {p : PSite} (h : p.Lived z cfg g P) : ∀ e ∈ p.sched, P e := by
  cases h with
  | init l _ _ he => exact he
  | restart l _ _ _ he => exact he

theorem PSite.Lived.with {cfg : NodeCfg} {g : Genesis} {P : NodeNetEvent → Prop} {p : PSite} (h : p.Lived z cfg g P) (l : List NodeNetEvent) (he : ∀ e ∈ l, P e) :
    ({ p with sched := l } : PSite).Lived z cfg g P := by
  cases h with
  | init _ h1 h2 _ => exact .init l h1 h2 he
  | restart _ h h1 h2 _ => exact .restart l h h1 h2 he

theorem PSite.Lived.mono {cfg : NodeCfg} {g : Genesis} {P Q : NodeNetEvent → Prop} (hPQ : ∀ e, P e → Q e) {p : PSite} (h : p.Lived z cfg g P) :
    p.Lived z cfg g Q := by
  induction h with
  | init l h1 h2 he => exact .init l h1 h2 fun e hm => hPQ e (he e hm)
  | restart l _ h1 h2 he ih => exact .restart l ih h1 h2 fun e hm => hPQ e (he e hm)

theorem PSite.Lived.history {cfg : NodeCfg} {g : Genesis} {P : NodeNetEvent → Prop} {p : PSite} (h : p.Lived z cfg g P) :
    NHistory z cfg g (fun l => ∀ e ∈ l, P e) (p.node z cfg) p.older := by
  induction h with
  | init l h1 h2 he => exact .init l h1 h2 he
  | restart l _ h1 h2 he ih => exact .restart l ih h1 h2 he

/-- What the answers to a synchronisation are known to be. -/
def SyncIo.Fine (chain : UInt64 → Epoch) (P : SignedTx → Prop) (io : SyncIo) : Prop :=
  (∀ k id e, io.pullEpoch k id = some e → e.header.epochId = id ∧ (id ≠ 0 → e = chain id)) ∧
  (∀ k hs txs, io.pullTxs k hs = some txs → txs.map SignedTx.txHash = hs) ∧ ∀ k hs txs, io.pullTxs k hs = some txs → ∀ t ∈ txs, P t

/-- What is known of the events of a process. -/
def NodeNetEvent.Fine (z : Compression) (chain : UInt64 → Epoch) (came P : SignedTx → Prop) : NodeNetEvent → Prop
  | .net (.arrive _ raw) => ∀ t, Carries z raw t → came t
  | .net (.react _ io) => io.Fine chain P
  | .own (.callCommit _ _ id pill _) => id ≠ 0 ∧ pill.epoch = chain id ∧ pill.epoch.header.epochId = id
  | .own (.callSync _ io _) => io.Fine chain P
  | .own (.callCheck _ p1 p2 _ _) => ∀ q txs, p1 q = some txs ∨ p2 q = some txs → ∀ t ∈ txs, P t
  | .own (.callInsert _ _ _ tx) => came tx
  | _ => True

theorem NodeNetEvent.Fine.mono {chain : UInt64 → Epoch} {came came' P P' : SignedTx → Prop} (hc : ∀ t, came t → came' t) (hP : ∀ t, P t → P' t)
    {e : NodeNetEvent} (h : e.Fine z chain came P) : e.Fine z chain came' P' := by
  cases e with
  | net e =>
    cases e with
    | arrive sid raw => exact fun t ht => hc t (h t ht)
    | react i io => exact ⟨h.1, h.2.1, fun k hs txs hk t ht => hP t (h.2.2 k hs txs hk t ht)⟩
    | _ => trivial
  | own e =>
    cases e with
    | callCommit t io id pill proof => exact h
    | callSync t io msg => exact ⟨h.1, h.2.1, fun k hs txs hk t ht => hP t (h.2.2 k hs txs hk t ht)⟩
    | callCheck t p1 p2 ha pill => exact fun q txs hq t ht => hP t (h q txs hq t ht)
    | callInsert t o b tx => exact hc tx h
    | _ => trivial

theorem own_mem {l : List NodeNetEvent} {e : Event} (h : e ∈ ownEvents l) : NodeNetEvent.own e ∈ l := by
  unfold ownEvents at h
  obtain ⟨x, hx, hxe⟩ := List.mem_filterMap.1 h
  cases x with
  | net e' => cases hxe
  | own e' =>
    simp only at hxe
    split at hxe
    · injection hxe with hxe; subst hxe; exact hx
    · cases hxe

theorem arrived_mem {l : List NodeNetEvent} {x : Nat × Bytes} (h : x ∈ netArrived l) : NodeNetEvent.net (.arrive x.1 x.2) ∈ l := by
  unfold netArrived at h
  obtain ⟨y, hy, hye⟩ := List.mem_filterMap.1 h
  split at hye
  · injection hye with hye; subst hye; exact hy
  · cases hye

/-- The calls of a process are those of the chain. -/
theorem PSite.Lived.fine {cfg : NodeCfg} {g : Genesis} {chain : UInt64 → Epoch} {came P : SignedTx → Prop} {p : PSite}
    (h : p.Lived z cfg g (NodeNetEvent.Fine z chain came P)) : CHistory cfg g (fun _ evs => ∀ e ∈ evs, e.Fine chain) (p.node z cfg) p.older := by
  refine h.history.calls (Q := Event.Fine chain) (fun l hl e he => ?_) (fun _ _ _ _ _ _ _ => trivial) fun l hl io hi t msg => ?_
  · have := hl _ (own_mem he)
    cases e with
    | callCommit t io id pill proof => exact this
    | callSync t io msg => exact ⟨this.1, this.2.1⟩
    | _ => trivial
  · obtain ⟨i, hi⟩ := hi
    have := hl _ hi
    exact ⟨this.1, this.2.1⟩

/-- The calls of a process bring only what came in and is authorised. -/
theorem PSite.Lived.brings {cfg : NodeCfg} {g : Genesis} {chain : UInt64 → Epoch} {came P : SignedTx → Prop} (hP : ∀ t, came t → Authorised cfg t → P t) {p : PSite}
    (h : p.Lived z cfg g (NodeNetEvent.Fine z chain came P)) : CHistory cfg g (fun _ evs => ∀ e ∈ evs, e.Brings cfg P) (p.node z cfg) p.older := by
  refine h.history.calls (Q := fun e => e.Brings cfg P) (fun l hl e he => ?_) (fun l hl x hx tx t hc ha => ?_) fun l hl io hi t msg => ?_
  · have := hl _ (own_mem he)
    cases e with
    | callInsert t o b tx => exact fun ha => hP tx this ha
    | callCheck t p1 p2 ha pill => exact this
    | callSync t io msg => exact this.2.2
    | _ => trivial
  · exact hP tx (hl _ (arrived_mem hx) tx hc) ha
  · obtain ⟨i, hi⟩ := hi
    exact (hl _ hi).2.2

/-- What a network has seen. -/
structure PNet.Inv (z : Compression) (cfg : Nat → NodeCfg) (g : Genesis) (chain : UInt64 → Epoch) (N : PNet) : Prop where
  epochs : ∀ x ∈ N.epochs, x.2.header.epochId = x.1 ∧ (x.1 ≠ 0 → x.2 = chain x.1)
  bodies : ∀ x ∈ N.bodies, x.2.map SignedTx.txHash = x.1 ∧ ∀ t ∈ x.2, N.came t ∧ ∀ i, Authorised (cfg i) t
  gifts : ∀ t ∈ N.gifts, N.came t ∧ ∀ i, Authorised (cfg i) t
  sites : ∀ i p, N.sites i = some p → p.Lived z (cfg i) g (NodeNetEvent.Fine z chain N.came fun t => N.came t ∧ ∀ i, Authorised (cfg i) t)

theorem PNet.Inv.io {cfg : Nat → NodeCfg} {g : Genesis} {chain : UInt64 → Epoch} {N : PNet} (h : N.Inv z cfg g chain) {io : SyncIo} (ha : io.AnsweredBy N) :
    io.Fine chain fun t => N.came t ∧ ∀ i, Authorised (cfg i) t :=
  ⟨fun k id e hk => h.epochs _ (ha.1 k id e hk), fun k hs txs hk => (h.bodies _ (ha.2 k hs txs hk)).1, fun k hs txs hk => (h.bodies _ (ha.2 k hs txs hk)).2⟩

theorem PSite.Lived.cinv {cfg : NodeCfg} {g : Genesis} {chain : UInt64 → Epoch} {came P : SignedTx → Prop} (hP : ∀ t, came t → Authorised cfg t → P t) {p : PSite}
    (h : p.Lived z cfg g (NodeNetEvent.Fine z chain came P)) : CInv P (PDescends cfg P g) (p.node z cfg) ∧ ∀ d ∈ p.older, ∀ t ∈ d.txs, P t :=
  (h.brings hP).inv (pdescends_closed cfg g P) fun w hw => .inl ⟨w, _, hw, .refl _⟩

theorem PNet.Reach.inv {cfg : Nat → NodeCfg} (hc : OneScheme cfg) {g : Genesis} {chain : UInt64 → Epoch} {N : PNet} (h : PNet.Reach z cfg g chain N) :
    N.Inv z cfg g chain := by
  have hP (N : PNet) (i : Nat) : ∀ t, N.came t → Authorised (cfg i) t → N.came t ∧ ∀ i, Authorised (cfg i) t := fun t h1 h2 => ⟨h1, fun j => hc.auth h2⟩
  induction h with
  | init => exact ⟨fun t ht => (by cases ht), fun t ht => (by cases ht), fun t ht => (by cases ht), fun i p hp => (by cases hp)⟩
  | @step N M _ hs ih =>
  cases hs with
  | first i _ h1 h2 =>
    refine ⟨ih.epochs, ih.bodies, ih.gifts, fun j p hp => ?_⟩
    simp only [PNet.set] at hp
    split at hp
    · rename_i hj
      subst hj
      injection hp with hp
      subst hp
      exact .init [] h1 h2 fun e he => by cases he
    · exact ih.sites j p hp
  | restart i h0 h1 h2 =>
    refine ⟨ih.epochs, ih.bodies, ih.gifts, fun j p hp => ?_⟩
    simp only [PNet.set] at hp
    split at hp
    · rename_i hj
      subst hj
      injection hp with hp
      subst hp
      exact .restart [] (ih.sites _ _ h0) h1 h2 fun e he => by cases he
    · exact ih.sites j p hp
  | giveEpoch i h0 he =>
    refine ⟨fun x hx => ?_, ih.bodies, ih.gifts, ih.sites⟩
    rcases List.mem_cons.1 hx with rfl | hx
    · obtain ⟨gen, -, hf, -⟩ := ((ih.sites _ _ h0).fine.imp fun _ _ h => fine_decided h).follows
      obtain ⟨h1, h2⟩ := hf.store.byHeight _ _ he
      exact ⟨h1, fun h => by rw [if_neg h] at h2; exact h2⟩
    · exact ih.epochs x hx
  | @giveTxs p hs txs i h0 ht =>
    refine ⟨ih.epochs, fun x hx => ?_, ih.gifts, ih.sites⟩
    rcases List.mem_cons.1 hx with rfl | hx
    · obtain ⟨gen, -, hf, -⟩ := ((ih.sites _ _ h0).fine.imp fun _ _ h => fine_decided h).follows
      refine ⟨mapM_keyed hf.keyed ht, fun t hm => ?_⟩
      obtain ⟨k, hk⟩ := mapM_some ht t hm
      exact ((ih.sites _ _ h0).cinv (hP N i)).1.stored k t hk
    · exact ih.bodies x hx
  | @giveTx p tx i h0 hg =>
    refine ⟨ih.epochs, ih.bodies, fun t ht => ?_, ih.sites⟩
    rcases List.mem_cons.1 ht with rfl | ht
    · have := ((ih.sites _ _ h0).cinv (hP N i)).1
      rcases hg with ⟨k, hk⟩ | ⟨hs, txs, h1, h2⟩
      · exact this.stored k _ hk
      · exact this.pool.getFull h1 _ h2
    · exact ih.gifts t ht
  | @event p i e h0 he =>
    have up : ∀ t, (N.came t ∧ ∀ i, Authorised (cfg i) t) → (N.came t ∨ e.Brought z t) ∧ ∀ i, Authorised (cfg i) t := fun t h => ⟨.inl h.1, h.2⟩
    refine ⟨ih.epochs, fun x hx => ⟨(ih.bodies x hx).1, fun t ht => up t ((ih.bodies x hx).2 t ht)⟩, fun t ht => up t (ih.gifts t ht), fun j q hq => ?_⟩
    simp only [PNet.set] at hq
    split at hq
    · rename_i hj
      subst hj
      injection hq with hq
      subst hq
      refine ((ih.sites _ _ h0).mono fun e h => h.mono (fun t => .inl) up).with _ fun x hx => ?_
      rcases List.mem_append.1 hx with hx | hx
      · exact ((ih.sites _ _ h0).now x hx).mono (fun t => .inl) up
      · rw [List.mem_singleton.1 hx]
        have hio {io : SyncIo} (ha : io.AnsweredBy N) := ih.io ha
        cases e with
        | net e =>
          cases e with
          | arrive sid raw => exact fun t ht => .inr ht
          | react k io => exact NodeNetEvent.Fine.mono (e := .net (.react k io)) (fun t => .inl) up (hio he)
          | _ => trivial
        | own e =>
          cases e with
          | callCommit t io id pill proof => exact he
          | callSync t io msg => exact NodeNetEvent.Fine.mono (e := .own (.callSync t io msg)) (fun t => .inl) up (hio he)
          | callCheck t p1 p2 ha pill => exact fun q txs hq t ht => up t (ih.gifts t (he q txs hq t ht))
          | callInsert t o b tx => exact .inr rfl
          | _ => trivial
    · exact (ih.sites j q hq).mono fun e h => h.mono (fun t => .inl) up
  | @answer p i l h0 hl ha _ =>
    refine ⟨ih.epochs, ih.bodies, ih.gifts, fun j q hq => ?_⟩
    simp only [PNet.set] at hq
    split at hq
    · rename_i hj
      subst hj
      injection hq with hq
      subst hq
      refine (ih.sites _ _ h0).with _ fun x hx => ?_
      obtain ⟨k, hk, rfl⟩ := List.mem_iff_getElem.1 hx
      have hk' : k < p.sched.length := hl ▸ hk
      have hb := (ih.sites _ _ h0).now _ (List.getElem_mem hk')
      have := ha k p.sched[k] l[k] (List.getElem?_eq_getElem hk') (List.getElem?_eq_getElem hk)
      generalize l[k] = y at this ⊢
      generalize p.sched[k] = w at this hb
      cases this with
      | same => exact hb
      | react io' h => exact ih.io h
      | sync io' h => exact ih.io h
      | check q1 q2 h => exact fun q txs hq t ht => ih.gifts t (h q txs hq t ht)
    · exact ih.sites j q hq

/-- **C116, no forks, no holes.**  In every network of whole processes - any bytes sent by anybody to any node at any time, any clients, any interleaving of all
tasks, processes killed at any moment and started again, failing databases, nodes that synchronise with each other at any time - in which the consensus commits
one epoch for each height and requests of synchronising nodes are answered by nodes: at any two moments any two nodes show the same epoch for one height (also
if they are asked for the latest, and among those they recorded), and if both can tell a balance at it, the same balance; and whatever epoch a node shows, it
has all its transactions and their receipts. -/
theorem C116_network {cfg : Nat → NodeCfg} (hs : OneScheme cfg) (hc : ∀ i j, OneChain (cfg i) (cfg j)) {g : Genesis} {chain : UInt64 → Epoch} {N M : PNet}
    (hN : PNet.Reach z cfg g chain N) (hM : PNet.Reach z cfg g chain M) (i j : Nat) (p q : PSite) (hp : N.sites i = some p) (hq : M.sites j = some q) :
    (∀ h e e', (p.node z (cfg i)).queryEpoch (some h) = some e → (q.node z (cfg j)).queryEpoch (some h) = some e' → e = e') ∧
    (∀ e e', (p.node z (cfg i)).queryEpoch none = some e → (q.node z (cfg j)).queryEpoch none = some e' → e.header.epochId = e'.header.epochId → e = e') ∧
    (∀ d ∈ (p.node z (cfg i)).log ++ p.older, ∀ d' ∈ (q.node z (cfg j)).log ++ q.older, d.height = d'.height → d.epoch = d'.epoch) ∧
    (NoClash (cfg i) (p.node z (cfg i)) (q.node z (cfg j)) → ∀ h x id v v', (p.node z (cfg i)).queryBalance (cfg i) x id (some h) = some v →
      (q.node z (cfg j)).queryBalance (cfg j) x id (some h) = some v' → v = v') ∧
    (p.node z (cfg i)).store.Whole := by
  have lp := ((hN.inv hs).sites i p hp).fine
  have lq := ((hM.inv hs).sites j q hq).fine
  obtain ⟨h1, h2, h3⟩ := C111_epochs (hc i j) (lp.imp fun _ _ h => fine_decided h) (lq.imp fun _ _ h => fine_decided h)
  refine ⟨h1, h2, h3, fun hnc h x id v v' hv hv' => ?_, C110_partial (lp.imp fun _ _ h => fine_bodies h)⟩
  have known {c : NodeCfg} {n : Node} {y : Nat} (hy : n.queryBalance c x id (some h) = some y) : ∃ e, n.queryEpoch (some h) = some e := by
    unfold Node.queryBalance at hy
    cases he : n.queryEpoch (some h) with
    | none => rw [he] at hy; cases hy
    | some e => exact ⟨e, rfl⟩
  obtain ⟨e, he⟩ := known hv
  obtain ⟨e', he'⟩ := known hv'
  obtain rfl := h1 h e e' he he'
  exact same_balance (hc i j) lp.rooted lq.rooted hnc he he' hv hv'

/-- **C116, only what was authorised.**  In every such network, whoever sends whatever bytes: a transaction that a node stores, has in its pool, executed in an
epoch it recorded, gave to another node or names in a proposal came in from a client or in a frame, and is signed with the key of the account it
spends from.  Whatever any node shows of any account at any epoch is explained exactly by such transactions. -/
theorem C116_authorised {cfg : Nat → NodeCfg} (hs : OneScheme cfg) {g : Genesis} {chain : UInt64 → Epoch} {N : PNet} (hN : PNet.Reach z cfg g chain N)
    (i : Nat) (p : PSite) (hp : N.sites i = some p) :
    (∀ t, (p.node z (cfg i)).Gives t → N.came t ∧ Authorised (cfg i) t) ∧
    (∀ d ∈ (p.node z (cfg i)).log ++ p.older, ∀ t ∈ d.txs, N.came t ∧ Authorised (cfg i) t) ∧
    (∀ now id pill ha, ((p.node z (cfg i)).getEpoch (cfg i) now id).1 = .ok (pill, ha) →
      ∀ x ∈ pill.epoch.orderedTxHashes ++ pill.proposeHashes, ∃ t, N.came t ∧ Authorised (cfg i) t ∧ t.txHash = x) ∧
    ∀ q, (∀ a id, (p.node z (cfg i)).apiBalance (cfg i) a id q = 0) ∨
      ∃ (start : Address → AssetID → Nat) (xs : List (SignedTx × Receipt)), (start = allocated g ∨ start = fun _ _ => 0) ∧
        (∀ x ∈ xs, N.came x.1 ∧ Authorised (cfg i) x.1) ∧
        ∀ a id, (p.node z (cfg i)).apiBalance (cfg i) a id q + (xs.map (spent (cfg i) a id)).sum = start a id + (xs.map (incoming a id)).sum := by
  have hl := ((hN.inv hs).sites i p hp).mono (Q := NodeNetEvent.Fine z chain N.came fun t => N.came t ∧ Authorised (cfg i) t)
    fun e h => h.mono (fun _ => _root_.id) fun t ht => ⟨ht.1, ht.2 i⟩
  obtain ⟨hinv, hold⟩ := hl.cinv fun t h1 h2 => ⟨h1, h2⟩
  have hdata : HandedData (fun t => N.came t ∧ Authorised (cfg i) t) (p.node z (cfg i)) p.older := by
    refine ⟨hinv.stored, fun d hd => ?_⟩
    rcases List.mem_append.1 hd with hd | hd
    · exact hinv.log d hd
    · exact hold d hd
  obtain ⟨-, a2, -, -, a5⟩ := handed_of_data (cfg := cfg i) hinv.pool hdata hinv.good
  refine ⟨fun t hg => ?_, a2, fun now id pill ha hg x hx => ?_, fun q => balances_of_worlds (fun t ht => ht.2) hinv.tries q⟩
  · rcases hg with ⟨k, hk⟩ | ⟨hs, txs, h1, h2⟩
    · exact hinv.stored k t hk
    · exact hinv.pool.getFull h1 t h2
  · obtain ⟨t, ⟨h1, h2⟩, h3⟩ := a5 now id pill ha hg x hx
    exact ⟨t, h1, h2, h3⟩

end

theorem PNet.set_self (N : PNet) (i : Nat) (s : PSite) : (N.set i s).sites i = some s := if_pos rfl

/-- A process does one thing after another. -/
theorem PNet.Reach.events {z : Compression} {cfg : Nat → NodeCfg} {g : Genesis} {chain : UInt64 → Epoch} {N : PNet} {i : Nat} {p : PSite}
    (h : PNet.Reach z cfg g chain N) (hp : N.sites i = some p) (evs : List NodeNetEvent)
    (he : ∀ e ∈ evs, ∀ M : PNet, M.epochs = N.epochs → M.bodies = N.bodies → e.Told chain M) :
    ∃ M, PNet.Reach z cfg g chain M ∧ M.sites i = some { p with sched := p.sched ++ evs } ∧
      (∀ j, j ≠ i → M.sites j = N.sites j) ∧ M.epochs = N.epochs ∧ M.bodies = N.bodies := by
  induction evs generalizing N p with
  | nil => exact ⟨N, h, by rw [List.append_nil]; exact hp, fun _ _ => rfl, rfl, rfl⟩
  | cons e evs ih =>
    have h1 := PNet.Reach.step h (.event i e hp (he e (.head _) N rfl rfl))
    obtain ⟨M, m1, m2, m3, m4, m5⟩ := ih h1 (PNet.set_self ..) fun x hx => he x (.tail _ hx)
    refine ⟨M, m1, ?_, fun j hj => ?_, m4, m5⟩
    · rw [m2, List.append_assoc]; rfl
    · rw [m3 j hj]; exact if_neg hj

namespace Demo

/-- The same call in the task with twice the number: the tasks of handlers have the odd ones. -/
def twice : Event → Event
  | .callInsert t o b tx => .callInsert (2 * t) o b tx
  | .callPropose t now id => .callPropose (2 * t) now id
  | .callCommit t io id pill proof => .callCommit (2 * t) io id pill proof
  | .run t => .run (2 * t)
  | e => e

/-- Garbage, and a payment that the sender did not sign, arrive at the first node, and are handled while it commits three epochs. -/
def procLead : List NodeNetEvent :=
  [.net (.arrive 6 [255]), .net (.arrive 6 (demoZip.compress (pbEncode (NetMsg.mk endNewTxs (encMulti [{ npay 1 2 10 with signature := [] }]))))),
    .net .routerTake, .net .routerTake, .net (.route 1), .net (.route 0), .net (.reactorTake .newTxs), .net (.react 0 silentIo), .own (.run 1)] ++
  netLead.map (fun e => .own (twice e)) ++ List.replicate 8 (.own (.run 1))

/-- The announcement of a height, as anybody may send it. -/
def richRaw : Bytes := demoZip.compress (pbEncode (NetMsg.mk (richMessage 4).1 (richMessage 4).2))

/-- The second node commits the first epoch; then a frame with an announcement arrives, and the node synchronises with the first one. -/
def procOther : List NodeNetEvent :=
  agree1.map (fun e => .own (twice e)) ++
  [.net (.arrive 7 richRaw), .net .routerTake, .net (.route 0), .net (.reactorTake .richEpochId), .net (.react 0 netIo)] ++ List.replicate 24 (.own (.run 1))

def procGives : Bool :=
  let n := (nodeNet demoZip ncfg n0 procLead).node.conf.node
  decide (n.store.epochs 2 = some calmPill.epoch) && decide (n.store.epochs 3 = some netPill.epoch) &&
  decide (calmPill.epoch.orderedTxHashes.mapM n.store.txs = some [other]) && decide (netPill.epoch.orderedTxHashes.mapM n.store.txs = some [])

/-- The commits are of these epochs, and the answers are those of the first node or none. -/
def procCheck (l : List NodeNetEvent) : Bool := l.all fun e => match e with
  | .own (.callCommit _ _ id pill _) => decide (id ≠ 0) && decide (pill.epoch = netChain id) && decide (pill.epoch.header.epochId = id)
  | .own (.callInsert ..) => true
  | .own (.callPropose ..) => true
  | .own (.run _) => true
  | .own _ => false
  | .net (.react ..) => false
  | .net _ => true

theorem procCheck_told {l : List NodeNetEvent} (h : procCheck l = true) (N : PNet) : ∀ e ∈ l, e.Told netChain N := by
  simp only [procCheck, List.all_eq_true] at h
  intro e hm
  have := h _ hm
  cases e with
  | net e =>
    cases e with
    | react => cases this
    | _ => trivial
  | own e =>
    cases e with
    | callCommit t io id pill proof =>
      simp only [Bool.and_eq_true, decide_eq_true_eq] at this
      exact ⟨this.1.1, this.1.2, this.2⟩
    | callInsert => trivial
    | callPropose => trivial
    | run => trivial
    | _ => cases this

theorem silentIo_answered (N : PNet) : silentIo.AnsweredBy N := ⟨fun _ _ _ h => (by cases h), fun _ _ _ h => (by cases h)⟩

theorem netIo_answered (N : PNet) (h1 : N.epochs = [(3, netPill.epoch), (2, calmPill.epoch)])
    (h2 : N.bodies = [(netPill.epoch.orderedTxHashes, []), (calmPill.epoch.orderedTxHashes, [other])]) : netIo.AnsweredBy N :=
  netIo_told ⟨fun _ => none, N.epochs, N.bodies⟩ h1 h2 0 []

theorem psite_epoch {cfg : NodeCfg} {n : Node} {l : List NodeNetEvent} {i : UInt64} {e : Epoch}
    (h : (nodeNet demoZip cfg n l).node.conf.node.store.epochs i = some e) : ((⟨n, l, []⟩ : PSite).node demoZip cfg).store.epochs i = some e := h

theorem psite_tx {cfg : NodeCfg} {n : Node} {l : List NodeNetEvent} {k : Hash} {t : SignedTx}
    (h : (nodeNet demoZip cfg n l).node.conf.node.store.txs k = some t) : ((⟨n, l, []⟩ : PSite).node demoZip cfg).store.txs k = some t := h

theorem psite_txs {cfg : NodeCfg} {n : Node} {l : List NodeNetEvent} {hs : List Hash} {txs : List SignedTx}
    (h : hs.mapM (nodeNet demoZip cfg n l).node.conf.node.store.txs = some txs) : hs.mapM ((⟨n, l, []⟩ : PSite).node demoZip cfg).store.txs = some txs := h

theorem procStart_lead : PNet.Reach demoZip netCfg ngenesis netChain ((⟨fun _ => none, [], [], [], fun _ => False⟩ : PNet).set 0 ⟨n0, [], []⟩) := by
  obtain ⟨s, t, i1, i2⟩ := n0_start
  exact .step .init (.first (cfg := netCfg) 0 rfl i1 i2)

theorem procStart_other {N : PNet} (h : PNet.Reach demoZip netCfg ngenesis netChain N) (hn : N.sites 1 = none) :
    PNet.Reach demoZip netCfg ngenesis netChain (N.set 1 ⟨n0, [], []⟩) := by
  obtain ⟨s, t, i1, i2⟩ := n0_first_other
  exact .step h (.first (cfg := netCfg) 1 hn i1 i2)

/-- Checks of all events but those that answer. -/
def notReact : NodeNetEvent → Bool
  | .net (.react ..) => false
  | _ => true

theorem told_of {l : List NodeNetEvent} (h : procCheck (l.filter notReact) = true) {N : PNet} (hr : ∀ k io, NodeNetEvent.net (.react k io) ∈ l → io.AnsweredBy N) :
    ∀ e ∈ l, e.Told netChain N := by
  intro e he
  by_cases hn : notReact e = true
  · exact procCheck_told h N e (List.mem_filter.2 ⟨he, hn⟩)
  · cases e with
    | net e =>
      cases e with
      | react k io => exact hr k io he
      | _ => exact absurd rfl hn
    | own e => exact absurd rfl hn

theorem no_react {f : Event → NodeNetEvent} (hf : ∀ e, ∃ x, f e = .own x) {l : List Event} {k : Nat} {io : SyncIo} (h : NodeNetEvent.net (.react k io) ∈ l.map f) : False := by
  obtain ⟨e, -, he⟩ := List.mem_map.1 h
  obtain ⟨x, hx⟩ := hf e
  rw [hx] at he
  cases he

theorem lead_reacts {k : Nat} {io : SyncIo} (h : NodeNetEvent.net (.react k io) ∈ procLead) : io = silentIo := by
  unfold procLead at h
  rcases List.mem_append.1 h with h | h
  · rcases List.mem_append.1 h with h | h
    · simp only [List.mem_cons, NodeNetEvent.net.injEq, reduceCtorEq, MailEvent.react.injEq, List.not_mem_nil, or_false, false_or] at h
      exact h.2
    · exact (no_react (fun e => ⟨_, rfl⟩) h).elim
  · cases (List.mem_replicate.1 h).2

theorem other_reacts {k : Nat} {io : SyncIo} (h : NodeNetEvent.net (.react k io) ∈ procOther) : io = netIo := by
  unfold procOther at h
  rcases List.mem_append.1 h with h | h
  · rcases List.mem_append.1 h with h | h
    · exact (no_react (fun e => ⟨_, rfl⟩) h).elim
    · simp only [List.mem_cons, NodeNetEvent.net.injEq, reduceCtorEq, MailEvent.react.injEq, List.not_mem_nil, or_false, false_or] at h
      exact h.2
  · cases (List.mem_replicate.1 h).2

/-- What the first node did, and answers. -/
theorem procLead_reach : ∃ N, PNet.Reach demoZip netCfg ngenesis netChain N ∧ N.sites 0 = some ⟨n0, procLead, []⟩ ∧ N.sites 1 = none ∧
    N.epochs = [(3, netPill.epoch), (2, calmPill.epoch)] ∧
    N.bodies = [(netPill.epoch.orderedTxHashes, []), (calmPill.epoch.orderedTxHashes, [other])] := by
  have hA : procGives = true := by decide +kernel
  have hC : procCheck (procLead.filter notReact) = true := by decide +kernel
  have hr := @lead_reacts
  have htold : ∀ M, ∀ e ∈ procLead, e.Told netChain M := fun M => told_of hC fun k io hm => by rw [hr hm]; exact silentIo_answered M
  clear hC hr
  simp only [procGives, Bool.and_eq_true, decide_eq_true_eq] at hA
  generalize procLead = evs at *
  generalize netPill.epoch = b at *
  obtain ⟨⟨⟨a1, a2⟩, a3⟩, a4⟩ := hA
  obtain ⟨M, m1, m2, m3, m4, m5⟩ := procStart_lead.events (PNet.set_self ..) evs (fun e he M _ _ => htold M e he)
  have m2 : M.sites 0 = some ⟨n0, evs, []⟩ := m2
  have m3 : M.sites 1 = none := m3 1 (by decide)
  have h2 := PNet.Reach.step m1 (.giveEpoch (cfg := netCfg) 0 m2 (psite_epoch a1))
  have h3 := PNet.Reach.step h2 (.giveEpoch (cfg := netCfg) 0 m2 (psite_epoch a2))
  have h4 := PNet.Reach.step h3 (.giveTxs (cfg := netCfg) 0 m2 (psite_txs a3))
  have h5 := PNet.Reach.step h4 (.giveTxs (cfg := netCfg) 0 m2 (psite_txs a4))
  refine ⟨_, h5, m2, m3, ?_, ?_⟩
  · show _ :: _ :: M.epochs = _
    rw [m4]; rfl
  · show _ :: _ :: M.bodies = _
    rw [m5]; rfl

def procShows : Bool :=
  let n := (nodeNet demoZip ncfg n0 procLead).node.conf.node
  let m := (nodeNet demoZip bcfg n0 procOther).node.conf.node
  decide (n.store.epochs 3 = some netPill.epoch) && decide (m.store.epochs 3 = some netPill.epoch) &&
  decide (n.store.epochs 2 = some calmPill.epoch) && decide (m.store.epochs 2 = some calmPill.epoch) && decide (m.store.txs other.txHash = some other)

end Demo

open Demo in
/-- A network as in `C116_network`: garbage and a payment that nobody signed arrive at one node, which commits three epochs; another one, that committed the
first only, synchronises with it because a frame announces a height; both show the third epoch, and the second with its payment. -/
example : OneScheme netCfg ∧ (∀ i j, OneChain (netCfg i) (netCfg j)) ∧ ∃ N p q, PNet.Reach demoZip netCfg ngenesis netChain N ∧ N.sites 0 = some p ∧ N.sites 1 = some q ∧
    (p.node demoZip ncfg).store.epochs 3 = some netPill.epoch ∧ (q.node demoZip bcfg).store.epochs 3 = some netPill.epoch ∧
    (p.node demoZip ncfg).store.epochs 2 = some calmPill.epoch ∧ (q.node demoZip bcfg).store.epochs 2 = some calmPill.epoch ∧
    (q.node demoZip bcfg).store.txs other.txHash = some other := by
  refine ⟨fun i j => ?_, fun i j => ?_, ?_⟩
  · unfold netCfg
    split <;> split <;> exact ⟨rfl, rfl⟩
  · unfold netCfg
    split <;> split <;> exact ⟨rfl, rfl, rfl, rfl, rfl, rfl⟩
  have hB : procShows = true := by decide +kernel
  have hC : procCheck (procOther.filter notReact) = true := by decide +kernel
  have hr := @other_reacts
  simp only [procShows, Bool.and_eq_true, decide_eq_true_eq] at hB
  obtain ⟨N, h1, h2, h3, h4, h5⟩ := procLead_reach
  have h6 := procStart_other h1 h3
  have told := netIo_answered
  have htold : ∀ M : PNet, M.epochs = _ → M.bodies = _ → ∀ e ∈ procOther, e.Told netChain M :=
    fun M e1 e2 => told_of hC fun k io hm => by rw [hr hm]; exact told M e1 e2
  obtain ⟨K, k1, k2, k3, k4, k5⟩ := h6.events (PNet.set_self ..) procOther (fun e he L l1 l2 => htold L (l1.trans h4) (l2.trans h5) e he)
  obtain ⟨⟨⟨⟨b1, b2⟩, b3⟩, b4⟩, b5⟩ := hB
  have h0 : K.sites 0 = some ⟨n0, procLead, []⟩ := (k3 0 (by decide)).trans h2
  exact ⟨K, ⟨n0, procLead, []⟩, ⟨n0, procOther, []⟩, k1, h0, k2, psite_epoch b1, psite_epoch b2, psite_epoch b3, psite_epoch b4, psite_tx b5⟩

end Huobi
