import Verif.Model.NodeNet
import Verif.Props.Mail
import Verif.Props.NodeConc
import Verif.Props.Origin
import Verif.Props.WaitFree
import Verif.Props.Server2
/-
C115: messages are handled exactly once also while handlers, consensus and clients overlap; so what is proved of overlapping calls holds of what arrives as bytes.
-/
namespace Huobi

/-! ### Specification -/

/-- The messages that arrive in a schedule. -/
def netArrived (l : List NodeNetEvent) : List (Nat × Bytes) :=
  l.filterMap fun e => match e with
    | .net (.arrive sid raw) => some (sid, raw)
    | _ => none

/-- The calls of the consensus and of clients in a schedule, and the accesses of tasks. -/
def ownEvents (l : List NodeNetEvent) : List Event :=
  l.filterMap fun e => match e with
    | .own e => if e.isOwn then some e else none
    | _ => none

/-- What peers answer to the synchronisations that start in a schedule. -/
def NodeNetEvent.answers (io : SyncIo) (l : List NodeNetEvent) : Prop := ∃ i, NodeNetEvent.net (.react i io) ∈ l

/-- The bytes are a frame for this handler, with this message in it. -/
def ForHandler (z : Compression) (raw : Bytes) (h : Handler) (m : NetMsg) : Prop :=
  ∃ b, z.decompress raw = some b ∧ (pbDecode b : PDec NetMsg) = .ok m ∧ mainReactors.route m.url = .ok h

/-- How many tasks handlers started. -/
def spawnedIn (evs : List Event) : Nat := (evs.filter fun e => !e.isOwn).length

/-- `evs` are what happened at the node and `out` is what it replied, when the messages `log` were given to their handlers once each, in this order, at any
time between calls and accesses of others: a handler makes its calls in new tasks, and replies what the node has then.  `I`: what peers may answer. -/
inductive Service (z : Compression) (cfg : NodeCfg) (n : Node) (I : SyncIo → Prop) : List (Handler × Nat × NetMsg) → List Event → List (Nat × Bytes) → Prop
  | start : Service z cfg n I [] [] []
  | own {log evs out} (e : Event) : e.isOwn = true → Service z cfg n I log evs out → Service z cfg n I log (evs ++ [e]) out
  | handle {log evs out} (h : Handler) (sid : Nat) (m : NetMsg) (io : SyncIo) : I io → Service z cfg n I log evs out →
      Service z cfg n I (log ++ [(h, sid, m)]) (evs ++ handlerCalls (spawnedIn evs) h m io)
        (out ++ (handlerReplies (Conf.after cfg n evs).node h sid m).map (OutMsg.wire z))

/-- The lifetime of a node's data in terms of what arrives: initialised from a genesis, then any number of processes, each of which runs any schedule of its
tasks, with any bytes arriving at any time, and is killed at any moment; the next one starts from the stored data.  `ok` restricts the schedules. -/
inductive NHistory (z : Compression) (cfg : NodeCfg) (g : Genesis) (ok : List NodeNetEvent → Prop) : Node → List Done → Prop
  | init {s t n} (l : List NodeNetEvent) : handleInit cfg g Store.empty PMap.empty = some (s, t) → startNode cfg s t = some n → ok l →
      NHistory z cfg g ok (nodeNet z cfg n l).node.conf.node []
  | restart {n older s t n'} (l : List NodeNetEvent) : NHistory z cfg g ok n older → handleInit cfg g n.store n.tries = some (s, t) →
      startNode cfg s t = some n' → ok l → NHistory z cfg g ok (nodeNet z cfg n' l).node.conf.node (n.log ++ older)

/-- The bytes are a frame with a batch of transactions, `t` among them. -/
def Carries (z : Compression) (raw : Bytes) (t : SignedTx) : Prop :=
  ∃ m txs, ForHandler z raw .newTxs m ∧ (decMulti m.content : PDec (List SignedTx)) = .ok txs ∧ t ∈ txs

/-- The bytes are a frame with an announcement. -/
def AnnouncesMsg (z : Compression) (raw : Bytes) (msg : Bytes) : Prop :=
  ∃ m rest, ForHandler z raw .richEpochId m ∧ readBuf m.content = some (msg, rest)

/-! ### Proofs -/

section
variable {z : Compression} {cfg : NodeCfg} {n : Node}

theorem conf_after_append (evs es : List Event) : Conf.after cfg n (evs ++ es) = es.foldl (Conf.step cfg) (Conf.after cfg n evs) := by
  unfold Conf.after
  rw [List.foldl_append]

theorem calls_start {k : Nat} {h : Handler} {m : NetMsg} {io : SyncIo} {i : Nat} {e : Event} (he : (handlerCalls k h m io)[i]? = some e) :
    e.starts = some (2 * (k + i) + 1) := by
  unfold handlerCalls at he
  split at he
  · cases he
  · split at he
    · split at he
      · cases he
      · rw [List.getElem?_mapIdx] at he
        obtain ⟨tx, -, rfl⟩ := Option.map_eq_some_iff.1 he
        rfl
    · split at he
      · cases i with
        | zero => injection he with he; subst he; rfl
        | succ i => cases he
      · cases he
    · cases he

theorem calls_notOwn {k : Nat} {h : Handler} {m : NetMsg} {io : SyncIo} : ∀ e ∈ handlerCalls k h m io, e.isOwn = false := fun e he => by
  obtain ⟨i, hi⟩ := List.mem_iff_getElem?.1 he
  have := calls_start hi
  unfold Event.isOwn
  rw [this]
  simp only [beq_eq_false_iff_ne]
  omega

theorem filter_calls {k : Nat} {h : Handler} {m : NetMsg} {io : SyncIo} : (handlerCalls k h m io).filter Event.isOwn = [] ∧
    (handlerCalls k h m io).filter (fun e => !e.isOwn) = handlerCalls k h m io :=
  ⟨List.filter_eq_nil_iff.2 fun e he => by rw [calls_notOwn e he]; exact Bool.false_ne_true,
    List.filter_eq_self.2 fun e he => by rw [calls_notOwn e he]; rfl⟩

theorem spawnedIn_own {evs : List Event} {e : Event} (he : e.isOwn = true) : spawnedIn (evs ++ [e]) = spawnedIn evs := by
  unfold spawnedIn
  rw [List.filter_append, List.filter_cons, he]
  simp

theorem spawnedIn_calls {evs : List Event} {k : Nat} {h : Handler} {m : NetMsg} {io : SyncIo} :
    spawnedIn (evs ++ handlerCalls k h m io) = spawnedIn evs + (handlerCalls k h m io).length := by
  unfold spawnedIn
  rw [List.filter_append, filter_calls.2, List.length_append]

/-- What one step of a process is on the way of messages. -/
def justLog (z : Compression) : MailCfg Handler (List (Handler × Nat × NetMsg)) SyncIo := ⟨z, mainReactors, fun h sid m _ l => l ++ [(h, sid, m)]⟩

def Mail.logged (s : Mail Handler NodeTasks) : Mail Handler (List (Handler × Nat × NetMsg)) := ⟨s.raws, s.routing, s.queues, s.reacting, s.node.log⟩

def netEvents (l : List NodeNetEvent) : List (MailEvent Handler SyncIo) :=
  l.filterMap fun e => match e with
    | .net e => some e
    | _ => none

theorem logged_step (s : Mail Handler NodeTasks) (e : MailEvent Handler SyncIo) : (s.step (tasksMail z cfg) e).logged = s.logged.step (justLog z) e := by
  obtain ⟨raws, routing, queues, reacting, node⟩ := s
  cases e with
  | arrive sid raw => rfl
  | routerTake => cases raws <;> rfl
  | route i =>
    simp only [Mail.step, Mail.logged]
    have hr : ∀ x, (tasksMail z cfg).routed x = (justLog z).routed x := fun _ => rfl
    cases hx : routing[i]? with
    | none => rfl
    | some x =>
      simp only [hr]
      cases (justLog z).routed x <;> rfl
  | reactorTake r =>
    simp only [Mail.step, Mail.logged]
    cases takeFor r queues <;> rfl
  | react i io =>
    simp only [Mail.step, Mail.logged]
    cases reacting[i]? <;> rfl

theorem logged_run (l : List NodeNetEvent) : (nodeNet z cfg n l).logged = (Mail.new []).run (justLog z) (netEvents l) := by
  have key : ∀ (l : List NodeNetEvent) (s : Mail Handler NodeTasks), (l.foldl (nodeNetStep z cfg) s).logged = s.logged.run (justLog z) (netEvents l) := by
    intro l
    induction l with
    | nil => intro s; rfl
    | cons e l ih =>
      intro s
      rw [List.foldl_cons, ih]
      cases e with
      | net e =>
        show ((s.step (tasksMail z cfg) e).logged).run (justLog z) (netEvents l) = _
        rw [logged_step]
        rfl
      | own e =>
        have : (nodeNetStep z cfg s (.own e)).logged = s.logged := by
          unfold nodeNetStep
          simp only
          split <;> rfl
        rw [this]
        rfl
  exact key l _

theorem netEvents_mailed (l : List NodeNetEvent) : mailed (netEvents l) = netArrived l := by
  unfold mailed netEvents netArrived
  rw [List.filterMap_filterMap]
  congr 1
  funext e
  cases e with
  | net e => cases e <;> rfl
  | own e => rfl

theorem forall₂_snoc {α β : Type} {R : α → β → Prop} {xs : List α} {ys : List β} {x : α} {y : β} (h : List.Forall₂ R xs ys) (hxy : R x y) :
    List.Forall₂ R (xs ++ [x]) (ys ++ [y]) := by
  induction h with
  | nil => exact .cons hxy .nil
  | cons h _ ih => exact .cons h ih

/-- What was handled is what was logged. -/
theorem handles_log {xs : List (Nat × Bytes)} {t : List (Handler × Nat × NetMsg)} (h : Handles (justLog z) [] xs t) :
    List.Forall₂ (fun x y => y.2.1 = x.1 ∧ ForHandler z x.2 y.1 y.2.2) xs t := by
  generalize hs : ([] : List (Handler × Nat × NetMsg)) = s at h
  induction h with
  | nil => subst hs; exact .nil
  | snoc io _ hf ih =>
    exact forall₂_snoc ih ⟨rfl, hf⟩

/-- The node of a process. -/
theorem service_run (l : List NodeNetEvent) : ∃ evs, (nodeNet z cfg n l).node.conf = Conf.after cfg n evs ∧ (nodeNet z cfg n l).node.spawned = spawnedIn evs ∧
    Service z cfg n (fun io => NodeNetEvent.answers io l) (nodeNet z cfg n l).node.log evs (nodeNet z cfg n l).node.out ∧ evs.filter Event.isOwn = ownEvents l := by
  have mono {I J : SyncIo → Prop} (hIJ : ∀ io, I io → J io) {log evs out} (h : Service z cfg n I log evs out) : Service z cfg n J log evs out := by
    induction h with
    | start => exact .start
    | own e he _ ih => exact .own e he ih
    | handle h sid m io hi _ ih => exact .handle h sid m io (hIJ _ hi) ih
  have snoc (l : List NodeNetEvent) (e : NodeNetEvent) : nodeNet z cfg n (l ++ [e]) = nodeNetStep z cfg (nodeNet z cfg n l) e := by
    unfold nodeNet
    rw [List.foldl_append]
    rfl
  have sub (l : List NodeNetEvent) (e : NodeNetEvent) (io : SyncIo) (h : NodeNetEvent.answers io l) : NodeNetEvent.answers io (l ++ [e]) := by
    obtain ⟨i, hi⟩ := h
    exact ⟨i, List.mem_append_left _ hi⟩
  have key : ∀ r : List NodeNetEvent, ∃ evs, (nodeNet z cfg n r.reverse).node.conf = Conf.after cfg n evs ∧ (nodeNet z cfg n r.reverse).node.spawned = spawnedIn evs ∧
    Service z cfg n (fun io => NodeNetEvent.answers io r.reverse) (nodeNet z cfg n r.reverse).node.log evs (nodeNet z cfg n r.reverse).node.out ∧
      evs.filter Event.isOwn = ownEvents r.reverse := by
    intro r
    induction r with
    | nil => exact ⟨[], rfl, rfl, .start, rfl⟩
    | cons e r ih =>
      obtain ⟨evs, h1, h2, h3, h4⟩ := ih
      rw [List.reverse_cons, snoc]
      generalize hs : nodeNet z cfg n r.reverse = s at h1 h2 h3 ⊢
      have h3' := mono (sub r.reverse e) h3
      have own : ownEvents (r.reverse ++ [e]) = ownEvents r.reverse ++ ownEvents [e] := by
        unfold ownEvents
        rw [List.filterMap_append]
      rw [own, ← h4]
      cases e with
      | own e =>
        unfold nodeNetStep
        simp only
        by_cases he : e.isOwn = true
        · rw [if_pos he]
          refine ⟨evs ++ [e], ?_, ?_, .own e he h3', ?_⟩
          · simp only
            rw [h1, conf_after_append]
            rfl
          · rw [spawnedIn_own he]
            exact h2
          · rw [List.filter_append]
            unfold ownEvents
            simp [he]
        · rw [if_neg he]
          refine ⟨evs, h1, h2, h3', ?_⟩
          unfold ownEvents
          simp [he]
      | net e =>
        have same : ownEvents [NodeNetEvent.net e] = [] := rfl
        rw [same, List.append_nil]
        have keep (s' : Mail Handler NodeTasks) (he : s'.node = s.node) : ∃ evs', s'.node.conf = Conf.after cfg n evs' ∧ s'.node.spawned = spawnedIn evs' ∧
            Service z cfg n (fun io => NodeNetEvent.answers io (r.reverse ++ [.net e])) s'.node.log evs' s'.node.out ∧
            evs'.filter Event.isOwn = evs.filter Event.isOwn := by
          rw [he]
          exact ⟨evs, h1, h2, h3', rfl⟩
        have hst0 : nodeNetStep z cfg s (.net e) = s.step (tasksMail z cfg) e := rfl
        rw [hst0]
        clear hst0
        cases e with
        | arrive sid raw => exact keep _ rfl
        | routerTake =>
          refine keep _ ?_
          simp only [Mail.step]
          cases s.raws <;> rfl
        | route i =>
          refine keep _ ?_
          simp only [Mail.step]
          cases s.routing[i]? with
          | none => rfl
          | some x => simp only; cases (tasksMail z cfg).routed x <;> rfl
        | reactorTake r =>
          refine keep _ ?_
          simp only [Mail.step]
          cases takeFor r s.queues <;> rfl
        | react i io =>
          cases hi : s.reacting[i]? with
          | none =>
            refine keep _ ?_
            simp only [Mail.step, hi]
          | some y =>
            have hst : (s.step (tasksMail z cfg) (.react i io)).node = NodeTasks.handle z cfg y.1 y.2.1 y.2.2 io s.node := by
              simp only [Mail.step, hi]
              rfl
            rw [hst]
            refine ⟨evs ++ handlerCalls (spawnedIn evs) y.1 y.2.2 io, ?_, ?_, ?_, ?_⟩
            · show (handlerCalls s.node.spawned _ _ _).foldl _ s.node.conf = _
              rw [h1, h2, conf_after_append]
            · show s.node.spawned + (handlerCalls s.node.spawned _ _ _).length = _
              rw [h2, spawnedIn_calls]
            · have := Service.handle y.1 y.2.1 y.2.2 io ⟨i, List.mem_append_right _ (List.mem_singleton.2 rfl)⟩ h3'
              rw [← h1] at this
              exact this
            · rw [List.filter_append, filter_calls.1, List.append_nil]
  have := key l.reverse
  rw [List.reverse_reverse] at this
  exact this

theorem step_free {c : Conf} {e : Event} {t : Nat} (h : c.tasks t = none) (hs : e.starts ≠ some t) : (c.step cfg e).tasks t = none := by
  have start {u : Nat} {p : Prog} (hu : u ≠ t) : (c.start u p).tasks t = none := by
    unfold Conf.start
    split
    · simp only [Conf.setTask]
      rw [if_neg (Ne.symm hu)]
      exact h
    · exact h
  cases e with
  | callCommit u io id pill proof => exact start fun he => hs (congrArg some he)
  | callSync u io msg => exact start fun he => hs (congrArg some he)
  | callInsert u o b tx => exact start fun he => hs (congrArg some he)
  | callPropose u now id => exact start fun he => hs (congrArg some he)
  | callCheck u p1 p2 ha pill => exact start fun he => hs (congrArg some he)
  | run u =>
    by_cases hu : t = u
    · subst hu
      simp only [Conf.step, h]
    · simp only [Conf.step]
      split
      · exact h
      · simp only [Conf.setTask]; rw [if_neg hu]; exact h
      · simp only [Conf.setTask]; rw [if_neg hu]; exact h
      · split <;> (simp only [Conf.setTask, Conf.setLock]; rw [if_neg hu]; exact h)
      · simp only [Conf.setTask, Conf.setLock]; rw [if_neg hu]; exact h

/-- Tasks that handlers start are new. -/
theorem Service.fresh {I : SyncIo → Prop} {log : List (Handler × Nat × NetMsg)} {evs : List Event} {out : List (Nat × Bytes)} (h : Service z cfg n I log evs out) :
    (∀ j, spawnedIn evs ≤ j → (Conf.after cfg n evs).tasks (2 * j + 1) = none) ∧
    ∀ pre e post t, evs = pre ++ e :: post → e.isOwn = false → e.starts = some t → (Conf.after cfg n pre).tasks t = none := by
  induction h with
  | start => exact ⟨fun _ _ => rfl, fun pre e post t h => absurd h (by simp)⟩
  | @own log evs out e he _ ih =>
    refine ⟨fun j hj => ?_, fun pre e' post t h hn hs => ?_⟩
    · rw [spawnedIn_own he] at hj
      rw [conf_after_append]
      refine step_free (ih.1 j hj) fun hst => ?_
      unfold Event.isOwn at he
      rw [hst] at he
      simp only [beq_iff_eq] at he
      omega
    · rcases List.eq_nil_or_concat post with rfl | ⟨post', x, rfl⟩
      · have := List.append_inj' h rfl
        injection this.2 with h1 _
        rw [← h1, he] at hn
        cases hn
      · rw [List.concat_eq_append, show pre ++ e' :: (post' ++ [x]) = (pre ++ e' :: post') ++ [x] by simp] at h
        exact ih.2 pre e' post' t (List.append_inj' h rfl).1 hn hs
  | @handle log evs out h sid m io _ _ ih =>
    have part : ∀ (es done : List Event), handlerCalls (spawnedIn evs) h m io = done ++ es →
        ∀ j, spawnedIn evs + done.length ≤ j → (Conf.after cfg n (evs ++ done)).tasks (2 * j + 1) = none := by
      intro es done
      generalize hr : done.reverse = r
      obtain rfl : done = r.reverse := by rw [← hr, List.reverse_reverse]
      clear hr
      induction r generalizing es with
      | nil =>
        intro _ j hj
        rw [List.reverse_nil, List.append_nil]
        exact ih.1 j (by simpa using hj)
      | cons e r ihr =>
        intro hd j hj
        rw [List.reverse_cons, List.append_assoc] at hd
        rw [List.reverse_cons, List.length_append, List.length_singleton] at hj
        rw [List.reverse_cons, ← List.append_assoc, conf_after_append]
        refine step_free (ihr ([e] ++ es) hd j (by omega)) fun hst => ?_
        have he : (handlerCalls (spawnedIn evs) h m io)[r.reverse.length]? = some e := by
          rw [hd, List.getElem?_append_right (Nat.le_refl _), Nat.sub_self]
          rfl
        rw [calls_start he] at hst
        injection hst with hst
        omega
    refine ⟨fun j hj => ?_, fun pre e post t hd hn hs => ?_⟩
    · rw [spawnedIn_calls] at hj
      exact part [] _ (List.append_nil _).symm j hj
    · rcases List.append_eq_append_iff.1 hd with ⟨mid, h1, h2⟩ | ⟨mid, h1, h2⟩
      · rw [h1]
        have he : (handlerCalls (spawnedIn evs) h m io)[mid.length]? = some e := by
          rw [h2, List.getElem?_append_right (Nat.le_refl _), Nat.sub_self]
          rfl
        rw [calls_start he] at hs
        injection hs with hs
        rw [← hs]
        exact part _ mid h2 _ (Nat.le_refl _)
      · cases mid with
        | nil =>
          rw [List.append_nil] at h1
          have he : (handlerCalls (spawnedIn evs) h m io)[0]? = some e := by
            rw [show handlerCalls (spawnedIn evs) h m io = e :: post from h2.symm]
            rfl
          rw [calls_start he] at hs
          injection hs with hs
          rw [← hs, ← h1]
          exact ih.1 _ (Nat.le_refl _)
        | cons x mid =>
          injection h2 with h2 h2'
          subst h2
          exact ih.2 pre e mid t h1 hn hs

/-- **C115, once, with overlap.**  In every schedule of all tasks of a process - those of the network, of handlers, of the consensus and of clients, step by step
and in any interleaving - with any messages arriving at any time: the messages that arrived are those that were given to the handler of their endpoint (once
for each time they arrived), those that are for none, and those under way (none, if nothing is under way).  What happened at the node is what happens when the
calls of these handlers, each in a new task, are made in between the calls of consensus and clients, none left out; and what it replied are the replies of
these handlers. -/
theorem C115_once (z : Compression) (cfg : NodeCfg) (n : Node) (l : List NodeNetEvent) :
    ∃ handled dropped waiting log evs, (handled ++ (dropped ++ waiting)).Perm (netArrived l) ∧
      (∀ x ∈ dropped, ¬ ∃ h m, ForHandler z x.2 h m) ∧ ((nodeNet z cfg n l).Quiet → waiting = []) ∧
      List.Forall₂ (fun x y => y.2.1 = x.1 ∧ ForHandler z x.2 y.1 y.2.2) handled log ∧
      Service z cfg n (fun io => NodeNetEvent.answers io l) log evs (nodeNet z cfg n l).node.out ∧
      (nodeNet z cfg n l).node.conf = Conf.after cfg n evs ∧ evs.filter Event.isOwn = ownEvents l ∧
      ∀ pre e post t, evs = pre ++ e :: post → e.isOwn = false → e.starts = some t → (Conf.after cfg n pre).tasks t = none := by
  obtain ⟨handled, dropped, waiting, hp, hh, hd, hq⟩ := C107_once (justLog z) [] (netEvents l)
  obtain ⟨evs, h1, -, h3, h4⟩ := service_run (z := z) (cfg := cfg) (n := n) l
  rw [netEvents_mailed] at hp
  rw [← logged_run (cfg := cfg) (n := n)] at hh hq
  exact ⟨handled, dropped, waiting, _, evs, hp, hd, hq, handles_log hh, h3, h1, h4, h3.fresh.2⟩

/-- **C115, no message waits for ever.**  After any schedule, as long as a message is under way some task of the network can bring one nearer to its handler;
and however the other tasks run in between, after at most four such steps for each message that arrived none is under way. -/
theorem C115_progress (z : Compression) (cfg : NodeCfg) (n : Node) (io : SyncIo) (l : List NodeNetEvent) :
    (¬ (nodeNet z cfg n l).Quiet → ∃ e, e.Internal ∧ (nodeNet z cfg n l).Effective (tasksMail z cfg) e) ∧
    ∀ l' : List NodeNetEvent, (∀ a e b, l' = a ++ .net e :: b → e.Internal ∧ (nodeNet z cfg n (l ++ a)).Effective (tasksMail z cfg) e) →
      (netEvents l').length ≤ 4 * (netArrived l).length := by
  have eff (s : Mail Handler NodeTasks) (e : MailEvent Handler SyncIo) : s.Effective (tasksMail z cfg) e ↔ s.logged.Effective (justLog z) e := by cases e <;> exact Iff.rfl
  obtain ⟨h1, h2, -⟩ := C107_progress (justLog z) [] io (netEvents l)
  rw [← logged_run (cfg := cfg) (n := n)] at h1 h2
  refine ⟨fun h => ?_, fun l' h => ?_⟩
  · obtain ⟨e, he, hf⟩ := h1 h
    exact ⟨e, he, (eff _ e).2 hf⟩
  · rw [← netEvents_mailed]
    refine h2 _ (fun e he => ?_) ?_
    · unfold netEvents at he
      obtain ⟨x, hx, hxe⟩ := List.mem_filterMap.1 he
      obtain ⟨a, b, rfl⟩ := List.append_of_mem hx
      cases x with
      | net e' => injection hxe with hxe; subst hxe; exact (h a e' b rfl).1
      | own e' => cases hxe
    · have key : ∀ (l' : List NodeNetEvent) (s : Mail Handler NodeTasks),
          (∀ a e b, l' = a ++ .net e :: b → (a.foldl (nodeNetStep z cfg) s).Effective (tasksMail z cfg) e) → AllEffective (justLog z) s.logged (netEvents l') := by
        intro l'
        induction l' with
        | nil => intro s _; trivial
        | cons x l' ih =>
          intro s hs
          have hn := ih (nodeNetStep z cfg s x) fun a e b hab => hs (x :: a) e b (by rw [hab]; rfl)
          cases x with
          | net e =>
            refine ⟨(eff _ e).1 (hs [] e l' rfl), ?_⟩
            rw [← logged_step (cfg := cfg)]
            exact hn
          | own e =>
            have : (nodeNetStep z cfg s (.own e)).logged = s.logged := by
              unfold nodeNetStep
              simp only
              split <;> rfl
            rw [this] at hn
            exact hn
      refine key l' _ fun a e b hab => ?_
      have := (h a e b hab).2
      unfold nodeNet at this ⊢
      rw [List.foldl_append] at this
      exact this

/-- Where the calls of handlers come from. -/
theorem calls_from {k : Nat} {h : Handler} {m : NetMsg} {io : SyncIo} {e : Event} (he : e ∈ handlerCalls k h m io) :
    (∃ t txs tx, h = .newTxs ∧ (decMulti m.content : PDec (List SignedTx)) = .ok txs ∧ tx ∈ txs ∧ e = .callInsert t true true tx) ∨
    ∃ t msg rest, h = .richEpochId ∧ readBuf m.content = some (msg, rest) ∧ e = .callSync t io msg := by
  unfold handlerCalls at he
  split at he
  · cases he
  · split at he
    · split at he
      · cases he
      · rename_i txs hd
        rw [List.mem_mapIdx] at he
        obtain ⟨i, hi, rfl⟩ := he
        exact .inl ⟨_, txs, txs[i], rfl, hd, List.getElem_mem hi, rfl⟩
    · split at he
      · rename_i msg rest hd
        rw [List.mem_singleton] at he
        exact .inr ⟨_, msg, rest, rfl, hd, he⟩
      · cases he
    · cases he

/-- Whatever happened at the node is an own call, a transaction of a batch, or a synchronisation for an announcement. -/
theorem Service.from {I : SyncIo → Prop} {log : List (Handler × Nat × NetMsg)} {evs : List Event} {out : List (Nat × Bytes)} (h : Service z cfg n I log evs out) :
    ∀ e ∈ evs, (e ∈ evs.filter Event.isOwn) ∨
      (∃ y ∈ log, ∃ t txs tx, y.1 = .newTxs ∧ (decMulti y.2.2.content : PDec (List SignedTx)) = .ok txs ∧ tx ∈ txs ∧ e = .callInsert t true true tx) ∨
      ∃ y ∈ log, ∃ t io msg rest, I io ∧ y.1 = .richEpochId ∧ readBuf y.2.2.content = some (msg, rest) ∧ e = .callSync t io msg := by
  induction h with
  | start => intro e he; cases he
  | own e' he' _ ih =>
    intro e he
    rcases List.mem_append.1 he with he | he
    · rcases ih e he with h | h
      · exact .inl (by rw [List.filter_append]; exact List.mem_append_left _ h)
      · exact .inr h
    · rw [List.mem_singleton] at he
      subst he
      exact .inl (List.mem_filter.2 ⟨List.mem_append_right _ (List.mem_singleton.2 rfl), he'⟩)
  | handle h sid m io hi _ ih =>
    intro e he
    rcases List.mem_append.1 he with he | he
    · rcases ih e he with h | ⟨y, hy, h⟩ | ⟨y, hy, h⟩
      · exact .inl (by rw [List.filter_append]; exact List.mem_append_left _ h)
      · exact .inr (.inl ⟨y, List.mem_append_left _ hy, h⟩)
      · exact .inr (.inr ⟨y, List.mem_append_left _ hy, h⟩)
    · rcases calls_from he with ⟨t, txs, tx, h1, h2, h3, h4⟩ | ⟨t, msg, rest, h1, h2, h3⟩
      · exact .inr (.inl ⟨_, List.mem_append_right _ (List.mem_singleton.2 rfl), t, txs, tx, h1, h2, h3, h4⟩)
      · exact .inr (.inr ⟨_, List.mem_append_right _ (List.mem_singleton.2 rfl), t, io, msg, rest, hi, h1, h2, h3⟩)

theorem forall₂_right {α β : Type} {R : α → β → Prop} {xs : List α} {ys : List β} (h : List.Forall₂ R xs ys) : ∀ y ∈ ys, ∃ x ∈ xs, R x y := by
  induction h with
  | nil => intro y hy; cases hy
  | cons hr _ ih =>
    intro y hy
    rcases List.mem_cons.1 hy with rfl | hy
    · exact ⟨_, List.mem_cons_self .., hr⟩
    · obtain ⟨x, hx, h⟩ := ih y hy
      exact ⟨x, List.mem_cons_of_mem _ hx, h⟩

/-- A process that bytes arrive at is a process in which calls overlap: every call is one of the schedule's own, or inserts a transaction that arrived, or
synchronises for an announcement that arrived, with the answers of the schedule. -/
theorem process_calls (z : Compression) (cfg : NodeCfg) (n : Node) (l : List NodeNetEvent) : ∃ evs, (nodeNet z cfg n l).node.conf = Conf.after cfg n evs ∧
    ∀ e ∈ evs, e ∈ ownEvents l ∨ (∃ x ∈ netArrived l, ∃ t tx, Carries z x.2 tx ∧ e = .callInsert t true true tx) ∨
      ∃ x ∈ netArrived l, ∃ t io msg, NodeNetEvent.answers io l ∧ AnnouncesMsg z x.2 msg ∧ e = .callSync t io msg := by
  obtain ⟨handled, dropped, waiting, log, evs, hp, -, -, hf, hs, hc, ho, -⟩ := C115_once z cfg n l
  have arrived {y : Handler × Nat × NetMsg} (hy : y ∈ log) : ∃ x ∈ netArrived l, ForHandler z x.2 y.1 y.2.2 := by
    obtain ⟨x, hx, -, h⟩ := forall₂_right hf y hy
    exact ⟨x, hp.subset (List.mem_append_left _ hx), h⟩
  refine ⟨evs, hc, fun e he => ?_⟩
  rcases hs.from e he with h | ⟨y, hy, t, txs, tx, h1, h2, h3, h4⟩ | ⟨y, hy, t, io, msg, rest, h0, h1, h2, h3⟩
  · rw [ho] at h
    exact .inl h
  · obtain ⟨x, hx, h⟩ := arrived hy
    rw [h1] at h
    exact .inr (.inl ⟨x, hx, t, tx, ⟨_, txs, h, h2, h3⟩, h4⟩)
  · obtain ⟨x, hx, h⟩ := arrived hy
    rw [h1] at h
    exact .inr (.inr ⟨x, hx, t, io, msg, h0, ⟨_, rest, h, h2⟩, h3⟩)

/-- Lifetimes in terms of bytes are lifetimes with overlapping calls. -/
theorem NHistory.calls {g : Genesis} {ok : List NodeNetEvent → Prop} {n : Node} {older : List Done} {Q : Event → Prop} (h : NHistory z cfg g ok n older)
    (hown : ∀ l, ok l → ∀ e ∈ ownEvents l, Q e) (hins : ∀ l, ok l → ∀ x ∈ netArrived l, ∀ tx t, Carries z x.2 tx → Q (.callInsert t true true tx))
    (hsync : ∀ l, ok l → ∀ io, NodeNetEvent.answers io l → ∀ t msg, Q (.callSync t io msg)) : CHistory cfg g (fun _ evs => ∀ e ∈ evs, Q e) n older := by
  have key (n : Node) (l : List NodeNetEvent) (hl : ok l) : ∃ evs, (nodeNet z cfg n l).node.conf = Conf.after cfg n evs ∧ ∀ e ∈ evs, Q e := by
    obtain ⟨evs, h1, h2⟩ := process_calls z cfg n l
    refine ⟨evs, h1, fun e he => ?_⟩
    rcases h2 e he with h | ⟨x, hx, t, tx, hc, rfl⟩ | ⟨x, hx, t, io, msg, hi, -, rfl⟩
    · exact hown l hl e h
    · exact hins l hl x hx tx t hc
    · exact hsync l hl io hi t msg
  induction h with
  | init l h1 h2 hl =>
    obtain ⟨evs, he, hq⟩ := key _ l hl
    rw [he]
    exact .init evs h1 h2 hq
  | restart l _ h1 h2 hl ih =>
    obtain ⟨evs, he, hq⟩ := key _ l hl
    rw [he]
    exact .restart evs ih h1 h2 hq

/-- **C115, nothing is invented.**  In every lifetime of a node at which any bytes arrive: every transaction that is stored, that was executed or that the pool
has was submitted by a client, was given by a peer on request, or is one of those in a frame that arrived. -/
theorem C115_origin {g : Genesis} {P : SignedTx → Prop} {older : List Done}
    (h : NHistory z cfg g (fun l => (∀ e ∈ ownEvents l, e.Hands P) ∧ (∀ io, NodeNetEvent.answers io l → ∀ k q txs, io.pullTxs k q = some txs → ∀ t ∈ txs, P t) ∧
      ∀ x ∈ netArrived l, ∀ t, Carries z x.2 t → P t) n older) :
    (∀ k t, n.store.txs k = some t → P t) ∧ (∀ d ∈ n.log ++ older, ∀ t ∈ d.txs, P t) ∧
    (∀ hs txs, n.pool.getFullTxs hs = .ok txs → ∀ t ∈ txs, P t) := by
  obtain ⟨h1, h2, h3, -⟩ := C100_concurrent (P := P) (h.calls (Q := fun e => e.Hands P) (fun l hl => hl.1) (fun l hl x hx tx _ hc => hl.2.2 x hx tx hc)
    fun l hl io hi _ _ => hl.2.1 io hi)
  exact ⟨h1, h2, h3⟩

/-- **C115 with C93.**  Whatever bytes arrive, whatever clients submit and in whatever order the tasks run: as long as what peers give on request is authorised
by the senders, only transactions that their senders authorised are stored or executed. -/
theorem C115_authorised {g : Genesis} {older : List Done}
    (h : NHistory z cfg g (fun l => (∀ e ∈ ownEvents l, e.Brings cfg (Authorised cfg)) ∧
      ∀ io, NodeNetEvent.answers io l → ∀ k q txs, io.pullTxs k q = some txs → ∀ t ∈ txs, Authorised cfg t) n older) :
    (∀ k t, n.store.txs k = some t → Authorised cfg t) ∧ ∀ d ∈ n.log ++ older, ∀ t ∈ d.txs, Authorised cfg t := by
  obtain ⟨h1, h2, -⟩ := C93_concurrent_partial (h.calls (Q := fun e => e.Brings cfg (Authorised cfg)) (fun l hl => hl.1) (fun _ _ _ _ _ _ _ h => h)
    fun l hl io hi _ _ => hl.2 io hi)
  exact ⟨h1, h2⟩

/-- **C115 with C108.**  Whatever bytes arrive: every epoch that a process records was committed by the consensus, or given by a peer in a synchronisation that
an announcement among these bytes started. -/
theorem C115_recorded (z : Compression) (cfg : NodeCfg) (n : Node) (l : List NodeNetEvent) : ∀ d ∈ (nodeNet z cfg n l).node.conf.node.log, d ∈ n.log ∨
    (∃ t io pill proof, Event.callCommit t io d.height pill proof ∈ ownEvents l ∧ pill.epoch = d.epoch ∧ proof.toProof = some d.proof) ∨
    (∃ t io msg, Event.callSync t io msg ∈ ownEvents l) ∨
    ∃ x ∈ netArrived l, ∃ msg io k asked, AnnouncesMsg z x.2 msg ∧ NodeNetEvent.answers io l ∧ io.pullEpoch k asked = some d.epoch ∧
      io.pullTxs k d.epoch.orderedTxHashes = some d.txs := by
  intro d hd
  obtain ⟨evs, hc, he⟩ := process_calls z cfg n l
  rw [hc] at hd
  rcases given_after cfg n evs d hd with h | ⟨t, io, pill, proof, pre, post, h1, h2, h3, -, -⟩ | ⟨t, io, msg, k, asked, h1, h2, h3, -, -⟩
  · exact .inl h
  · rcases he _ h1 with h | ⟨_, _, _, _, _, h⟩ | ⟨_, _, _, _, _, _, _, h⟩
    · exact .inr (.inl ⟨t, io, pill, proof, h, h2, h3⟩)
    · cases h
    · cases h
  · rcases he _ h1 with h | ⟨_, _, _, _, _, h⟩ | ⟨x, hx, t', io', msg', ha, hn, h⟩
    · exact .inr (.inr (.inl ⟨t, io, msg, h⟩))
    · cases h
    · injection h with _ h4 h5
      subst h4 h5
      exact .inr (.inr (.inr ⟨x, hx, msg, io, k, asked, hn, ha, h2, h3⟩))

/-- **C115 with C109.**  A call of a handler runs to its end, in at most as many accesses of its task as `Event.cost` says, whatever the other tasks do in
between. -/
theorem C115_ends {I : SyncIo → Prop} {log : List (Handler × Nat × NetMsg)} {out : List (Nat × Bytes)} {pre post : List Event} {e : Event} {t : Nat}
    (h : Service z cfg n I log (pre ++ e :: post) out) (hn : e.isOwn = false) (hs : e.starts = some t) (hrun : e.cost 0 ≤ post.countP (Event.isRun t)) :
    ∃ post1 post2, post = post1 ++ post2 ∧ post1.countP (Event.isRun t) ≤ e.cost 0 ∧ (Conf.after cfg n (pre ++ e :: post1)).tasks t = none := by
  have hin : e.isCallIn t = true ∧ e.Answers 0 := by
    have := h.from e (List.mem_append_right _ (List.mem_cons_self ..))
    rcases this with hm | ⟨_, _, t', _, tx, -, -, -, rfl⟩ | ⟨_, _, t', io, msg, _, -, -, -, rfl⟩
    · rw [(List.mem_filter.1 hm).2] at hn
      cases hn
    · injection hs with hs
      exact ⟨by simpa [Event.isCallIn] using hs, trivial⟩
    · injection hs with hs
      exact ⟨by simpa [Event.isCallIn] using hs, trivial⟩
  exact C109_ends cfg n pre post e t 0 hin.1 hin.2 (h.fresh.2 pre e post t rfl hn hs) hrun

/-- **C115, what is sent is what is called.**  The frame of a batch of transactions has each of them inserted, in a task of its own; the frame of the announcement of
an epoch has a synchronisation to the height after it started. -/
theorem C115_calls (hz : z.Lossless) (k : Nat) (io : SyncIo) :
    (∀ txs : List SignedTx, (∀ t ∈ txs, t.raw.action.deploysNonAsset = false) → (encMulti txs).length < 2 ^ 63 →
      ∃ raw m, packageGossip z endNewTxs (encMulti txs) = .ok raw ∧ ForHandler z raw .newTxs m ∧
        handlerCalls k .newTxs m io = txs.mapIdx fun i tx => .callInsert (2 * (k + i) + 1) true true tx) ∧
    ∀ id : UInt64, id.toNat + 1 < 2 ^ 64 →
      ∃ raw m, packageGossip z (richMessage id).1 (richMessage id).2 = .ok raw ∧ ForHandler z raw .richEpochId m ∧
        handlerCalls k .richEpochId m io = [.callSync (2 * k + 1) io (u64LE (id.toNat + 1))] := by
  have hfor {raw : Bytes} {m : NetMsg} {h : Handler} (hu : unframe z raw = some m) (hr : mainReactors.route m.url = .ok h) : ForHandler z raw h m := by
    unfold unframe at hu
    cases hd : z.decompress raw with
    | none => rw [hd] at hu; cases hu
    | some b =>
      rw [hd] at hu
      simp only at hu
      cases hp : (pbDecode b : PDec NetMsg) with
      | error e => rw [hp] at hu; cases hu
      | ok m' =>
        rw [hp] at hu
        injection hu with hu
        subst hu
        exact ⟨b, hd, hp, hr⟩
  constructor
  · intro txs hc hl
    have he : Endpoint.parse endNewTxs = .ok ⟨endNewTxs⟩ := (Extensible.mk' (by decide +kernel) (by decide +kernel) (by decide +kernel)).ok
    obtain ⟨raw, h1, h2⟩ := (C82_gossip_arrives hz _ _ hl).1 _ he
    refine ⟨raw, _, h1, hfor h2 ?_, ?_⟩
    · unfold Reactors.route
      simp only [he]
      have : mainReactors.find? (fun x => x.1.root == Endpoint.root ⟨endNewTxs⟩) = some (⟨endNewTxs⟩, .newTxs) := by decide +kernel
      simp only [this]
    · have hid : contextId endNewTxs = some none := by
        unfold contextId
        rw [he]
        have h3 : Endpoint.scheme ⟨endNewTxs⟩ = some .gossip := by decide +kernel
        simp only [h3]
      unfold handlerCalls
      simp only [hid]
      rw [C50_mempool_messages_partial.2.1 txs hc (by omega)]
      rfl
  · intro id hid
    have hnat : (id + 1).toNat = id.toNat + 1 := by
      rw [UInt64.toNat_add]; exact Nat.mod_eq_of_lt hid
    have he : Endpoint.parse endRichEpochId = .ok ⟨endRichEpochId⟩ := (Extensible.mk' (by decide +kernel) (by decide +kernel) (by decide +kernel)).ok
    have hl : (encBuf (u64LE (id.toNat + 1))).length < 2 ^ 63 := by
      have := rich_length id
      unfold richMessage at this
      rw [hnat] at this
      have h16 : (encBuf (u64LE (id.toNat + 1))).length = 16 := this
      rw [h16]
      decide
    obtain ⟨raw, h1, h2⟩ := (C82_gossip_arrives hz endRichEpochId _ hl).1 _ he
    refine ⟨raw, _, ?_, hfor h2 ?_, ?_⟩
    · unfold richMessage
      rw [hnat]
      exact h1
    · unfold Reactors.route
      simp only [he]
      have : mainReactors.find? (fun x => x.1.root == Endpoint.root ⟨endRichEpochId⟩) = some (⟨endRichEpochId⟩, .richEpochId) := by decide +kernel
      simp only [this]
    · have hid : contextId endRichEpochId = some none := by
        unfold contextId
        rw [he]
        have h3 : Endpoint.scheme ⟨endRichEpochId⟩ = some .gossip := by decide +kernel
        simp only [h3]
      have h4 : readBuf (encBuf (u64LE (id.toNat + 1))) = some (u64LE (id.toNat + 1), []) := by
        have := readBuf_encBuf (u64LE (id.toNat + 1)) [] (by rw [u64LE_length]; decide)
        rwa [List.append_nil] at this
      unfold handlerCalls
      simp only [hid, h4]

end

/-! ### The hypotheses are met -/

namespace Demo

/-- No peer gives anything. -/
def silentIo : SyncIo := { peer n0 with pullEpoch := fun _ _ => none, pullTxs := fun _ _ => none }

def batchRaw : Bytes := demoZip.compress (pbEncode (NetMsg.mk endNewTxs (encMulti [npay 1 2 10, npay 2 1 5 1])))

def batchMsg : NetMsg := ⟨endNewTxs, encMulti [npay 1 2 10, npay 2 1 5 1]⟩

/-- A batch of two payments and garbage arrive, while a client submits a third payment; the three insertions overlap. -/
def mixRun : List NodeNetEvent :=
  [.net (.arrive 5 batchRaw), .net (.arrive 6 [255]), .net .routerTake, .own (.callInsert 0 false true (npay 1 2 7 2)), .net .routerTake, .net (.route 0),
    .own (.run 0), .net (.reactorTake .newTxs), .net (.route 0), .own (.run 0), .net (.react 0 silentIo)] ++
  (List.replicate 8 [NodeNetEvent.own (.run 3), .own (.run 0), .own (.run 1)]).flatten

def mixCheck : Bool :=
  let s := nodeNet demoZip ncfg n0 mixRun
  (s.node.conf.node.pool.cache.get (npay 1 2 10).txHash).isSome && (s.node.conf.node.pool.cache.get (npay 2 1 5 1).txHash).isSome &&
    (s.node.conf.node.pool.cache.get (npay 1 2 7 2).txHash).isSome && s.raws.isEmpty && s.routing.isEmpty && s.queues.isEmpty && s.reacting.isEmpty &&
    (s.node.conf.tasks 0).isNone && (s.node.conf.tasks 1).isNone && (s.node.conf.tasks 3).isNone

end Demo

open Demo in
/-- Three overlapping insertions, two of them from a frame: all three payments are in the pool, nothing is under way and the tasks have ended. -/
example : mixCheck = true := by decide +kernel

open Demo in
/-- The hypothesis of `C115_authorised` is met by that schedule at the first process of the demonstration node. -/
example : ∃ n, NHistory demoZip ncfg ngenesis (fun l => (∀ e ∈ ownEvents l, e.Brings ncfg (Authorised ncfg)) ∧
      ∀ io, NodeNetEvent.answers io l → ∀ k q txs, io.pullTxs k q = some txs → ∀ t ∈ txs, Authorised ncfg t) n [] := by
  obtain ⟨s, t, h1, h2⟩ := n0_start
  refine ⟨_, .init mixRun h1 h2 ⟨?_, ?_⟩⟩
  · have key : ∀ l : List NodeNetEvent, (l.all fun e => match e with
        | .own (.callInsert ..) => true
        | .own (.run _) => true
        | .own _ => false
        | _ => true) = true → ∀ e ∈ ownEvents l, e.Brings ncfg (Authorised ncfg) := by
      intro l hl e he
      unfold ownEvents at he
      obtain ⟨x, hx, hxe⟩ := List.mem_filterMap.1 he
      have hx := List.all_eq_true.1 hl x hx
      cases x with
      | net _ => cases hxe
      | own e' =>
        simp only at hxe
        split at hxe
        · injection hxe with hxe
          subst hxe
          cases e' with
          | callInsert => exact _root_.id
          | run => trivial
          | _ => cases hx
        · cases hxe
    exact key _ (by decide +kernel)
  · have key : ∀ l : List NodeNetEvent, (∀ x ∈ l, ∀ i io, x = .net (.react i io) → io.pullTxs = fun _ _ => none) →
        ∀ io, NodeNetEvent.answers io l → ∀ k q txs, io.pullTxs k q = some txs → ∀ t ∈ txs, Authorised ncfg t := by
      intro l hl io ⟨i, hi⟩ k q txs hq
      rw [hl _ hi i io rfl] at hq
      cases hq
    refine key _ fun x hx i io hxe => ?_
    subst hxe
    unfold mixRun at hx
    rcases List.mem_append.1 hx with hx | hx
    · simp only [List.mem_cons, NodeNetEvent.net.injEq, reduceCtorEq, MailEvent.react.injEq, List.not_mem_nil, or_false, false_or] at hx
      rw [hx.2]
      rfl
    · obtain ⟨y, hy, hx⟩ := List.mem_flatten.1 hx
      rw [(List.mem_replicate.1 hy).2] at hx
      simp at hx

open Demo in
/-- The hypotheses of `C115_ends` are met: the second payment of the batch, inserted in task 3. -/
example : ∃ log out, Service demoZip ncfg n0 (fun _ => True) log ([] ++ [Event.callInsert 1 true true (npay 1 2 10)] ++ Event.callInsert 3 true true (npay 2 1 5 1) ::
      List.replicate 7 (.run 3)) out ∧ (Event.callInsert 3 true true (npay 2 1 5 1)).isOwn = false ∧
    (Event.callInsert 3 true true (npay 2 1 5 1)).cost 0 ≤ (List.replicate 7 (Event.run 3)).countP (Event.isRun 3) := by
  have hcalls : handlerCalls 0 .newTxs batchMsg silentIo = [Event.callInsert 1 true true (npay 1 2 10), Event.callInsert 3 true true (npay 2 1 5 1)] := by
    have h := (C115_calls demoZip_lossless 0 silentIo).1 [npay 1 2 10, npay 2 1 5 1] (by decide) (by decide +kernel)
    obtain ⟨raw, m, h1, h2, h3⟩ := h
    have he : m = batchMsg := by
      have hr : packageGossip demoZip endNewTxs (encMulti [npay 1 2 10, npay 2 1 5 1]) = .ok batchRaw := by rfl
      rw [hr] at h1
      injection h1 with h1
      subst h1
      obtain ⟨b, hb, hm, -⟩ := h2
      have hb' : b = pbEncode batchMsg := by injection hb with hb; exact hb.symm
      subst hb'
      rw [netMsg_round _ (by decide +kernel)] at hm
      injection hm with hm
      exact hm.symm
    rw [he] at h3
    rw [h3]
    rfl
  have h0 := Service.handle (z := demoZip) (cfg := ncfg) (n := n0) (I := fun _ => True) .newTxs 5 batchMsg silentIo trivial .start
  rw [show spawnedIn [] = 0 from rfl, hcalls] at h0
  have runs : ∀ (k : Nat) {log : List (Handler × Nat × NetMsg)} {evs : List Event} {out : List (Nat × Bytes)}, Service demoZip ncfg n0 (fun _ => True) log evs out →
      Service demoZip ncfg n0 (fun _ => True) log (evs ++ List.replicate k (.run 3)) out := by
    intro k
    induction k with
    | zero => intro log evs out h; rw [List.replicate_zero, List.append_nil]; exact h
    | succ k ih =>
      intro log evs out h
      rw [List.replicate_succ', ← List.append_assoc]
      exact .own _ rfl (ih h)
  exact ⟨_, _, runs 7 h0, rfl, by decide⟩

end Huobi
