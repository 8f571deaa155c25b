import Verif.Props.NodeNet
/-
C115, continued: what a request is replied to; a message that is handled alone has the effect of the model in which a message is handled in one go (Frame).
-/
namespace Huobi

section
variable {z : Compression} {cfg : NodeCfg}

/-! ### Replies -/

theorem unframe_for {raw : Bytes} {m : NetMsg} {h : Handler} (hu : unframe z raw = some m) (hr : mainReactors.route m.url = .ok h) : ForHandler z raw h m := by
  unfold unframe at hu
  cases hd : z.decompress raw with
  | none => rw [hd] at hu; cases hu
  | some b =>
    rw [hd] at hu
    simp only at hu
    cases hp : (pbDecode b : PDec NetMsg) with
    | error e => rw [hp] at hu; cases hu
    | ok m' =>
      rw [hp] at hu
      injection hu with hu
      subst hu
      exact ⟨b, hd, hp, hr⟩

/-- What Server does with a message for the handler `h`. -/
def served (cfg : NodeCfg) (io : SyncIo) (n : Node) (sid : Nat) (content : Bytes) (rid : Option UInt64) : Handler → List OutMsg × Node
  | .newTxs => ([], newTxsHandler cfg n content)
  | .pullTxs => (pullTxsHandler n.pool sid rid content, n)
  | .richEpochId =>
    match readBuf content with
    | some (msg, _) => ([], (n.updateEpoch cfg io msg).2)
    | none => ([], n)
  | .rpc => (rpcHandler n sid rid content, n)
  | _ => ([], n)

theorem serve_context (cfg : NodeCfg) (io : SyncIo) (n : Node) (sid : Nat) (url : Str) (content : Bytes) {h : Handler} (hr : mainReactors.route url = .ok h) :
    n.serve cfg io sid url content = match contextId url with
      | none => ([], n)
      | some rid => served cfg io n sid content rid h := by
  unfold contextId Node.serve
  rw [hr]
  cases Endpoint.parse url with
  | error e => rfl
  | ok e =>
    simp only
    cases e.scheme with
    | none => rfl
    | some s =>
      cases s with
      | gossip => cases h <;> rfl
      | rpcCall =>
        cases e.rpcId with
        | error _ => rfl
        | ok r => cases h <;> rfl
      | rpcResp => rfl

/-- The replies of a handler are those of Server. -/
theorem replies_serve (cfg : NodeCfg) (io : SyncIo) (n : Node) (sid : Nat) (m : NetMsg) {h : Handler} (hr : mainReactors.route m.url = .ok h) :
    handlerReplies n h sid m = (n.serve cfg io sid m.url m.content).1 := by
  rw [serve_context cfg io n sid m.url m.content hr]
  unfold handlerReplies
  cases contextId m.url with
  | none => rfl
  | some rid =>
    simp only
    cases h <;> simp only [served]
    split <;> rfl

theorem reply_wire (z : Compression) (sid : Nat) (r : UInt64) (content : Bytes) :
    ∃ raw, packageRpc z rpcRespSyncPull r content = .ok raw ∧ OutMsg.wire z ⟨sid, idUrl rpcRespSyncPull r, content⟩ = (sid, raw) := by
  have key (url : Str) (e : Endpoint) (he : Extensible url e) : packageRpc z url r content = .ok (z.compress (pbEncode (NetMsg.mk (idUrl url r) content))) := by
    unfold packageRpc
    rw [he.ok]
    show (e.extend (showNat r.toNat) >>= _) = _
    rw [(he.extend r).1]
    rfl
  exact ⟨_, key _ _ ext_respSync, rfl⟩

/-- **C115, replies.**  The frame of a request, of rpc id `r`, for an epoch or for transactions is for the handler of such requests.  If the node has what is asked
for at the moment it is handled, it sends exactly one frame, to the session of the request: the response of that id with the epoch, or with the
transactions in the order asked.  If it has not, it sends nothing.  Whatever arrives, it replies only to the session it arrived on. -/
theorem C115_replies (hz : z.Lossless) (n : Node) (sid : Nat) (r : UInt64) :
    (∀ id : UInt64, ∃ raw m, packageRpc z rpcSyncPull r (RpcRequest.pullEpochs id).enc = .ok raw ∧ ForHandler z raw .rpc m ∧
      (∀ e, n.store.epochs id = some e → ∃ reply, packageRpc z rpcRespSyncPull r (RpcResponse.pullEpochs e).enc = .ok reply ∧
        (handlerReplies n .rpc sid m).map (OutMsg.wire z) = [(sid, reply)]) ∧
      (n.store.epochs id = none → handlerReplies n .rpc sid m = [])) ∧
    (∀ hs : List Hash, (RpcRequest.pullTxs hs).enc.length < 2 ^ 63 →
      ∃ raw m, packageRpc z rpcSyncPull r (RpcRequest.pullTxs hs).enc = .ok raw ∧ ForHandler z raw .rpc m ∧
      (∀ txs, List.Forall₂ (fun h tx => n.store.txs h = some tx) hs txs → ∃ reply, packageRpc z rpcRespSyncPull r (RpcResponse.pullTxs txs).enc = .ok reply ∧
        (handlerReplies n .rpc sid m).map (OutMsg.wire z) = [(sid, reply)]) ∧
      ((∃ h ∈ hs, n.store.txs h = none) → handlerReplies n .rpc sid m = [])) ∧
    ∀ raw h m, ForHandler z raw h m → ∀ x ∈ (handlerReplies n h sid m).map (OutMsg.wire z), x.1 = sid := by
  refine ⟨fun id => ?_, fun hs hl => ?_, fun raw h m hf x hx => ?_⟩
  · obtain ⟨raw, h1, h2⟩ := C82_rpc_arrives hz _ _ ext_syncPull r (RpcRequest.pullEpochs id).enc (by simp [RpcRequest.enc, u64LE_length])
    have hr := route_syncPull r
    refine ⟨raw, _, h1, unframe_for h2 hr, fun e he => ?_, fun he => ?_⟩
    · obtain ⟨reply, k1, k2⟩ := reply_wire z sid r (RpcResponse.pullEpochs e).enc
      refine ⟨reply, k1, ?_⟩
      rw [replies_serve Demo.ncfg Demo.silentIo n sid ⟨idUrl rpcSyncPull r, (RpcRequest.pullEpochs id).enc⟩ hr]
      rw [(C67_epoch _ _ n sid r id).1 e he]
      simp only [List.map_cons, List.map_nil, k2]
    · rw [replies_serve Demo.ncfg Demo.silentIo n sid ⟨idUrl rpcSyncPull r, (RpcRequest.pullEpochs id).enc⟩ hr]
      rw [(C67_epoch _ _ n sid r id).2 he]
  · obtain ⟨raw, h1, h2⟩ := C82_rpc_arrives hz _ _ ext_syncPull r (RpcRequest.pullTxs hs).enc hl
    have hr := route_syncPull r
    refine ⟨raw, _, h1, unframe_for h2 hr, fun e he => ?_, fun he => ?_⟩
    · obtain ⟨reply, k1, k2⟩ := reply_wire z sid r (RpcResponse.pullTxs e).enc
      refine ⟨reply, k1, ?_⟩
      rw [replies_serve Demo.ncfg Demo.silentIo n sid ⟨idUrl rpcSyncPull r, (RpcRequest.pullTxs hs).enc⟩ hr]
      rw [(C67_txs _ _ n sid r hs (by omega)).1 e he]
      simp only [List.map_cons, List.map_nil, k2]
    · rw [replies_serve Demo.ncfg Demo.silentIo n sid ⟨idUrl rpcSyncPull r, (RpcRequest.pullTxs hs).enc⟩ hr]
      rw [(C67_txs _ _ n sid r hs (by omega)).2 he]
  · obtain ⟨b, -, -, hr⟩ := hf
    rw [replies_serve Demo.ncfg Demo.silentIo n sid m hr] at hx
    obtain ⟨o, ho, rfl⟩ := List.mem_map.1 hx
    obtain ⟨-, -, -, -, -, h5, -⟩ := C67_quiet _ _ n sid m.url m.content o ho
    exact h5

/-! ### Tasks that run one after the other -/

/-- The process `c`, with other tasks beside `t`. -/
def Conf.beside (t : Nat) (rest : Nat → Option Prog) (c : Conf) : Conf := ⟨c.node, c.held, fun i => if i = t then c.tasks i else rest i⟩

theorem beside_setTask (t : Nat) (rest : Nat → Option Prog) (c : Conf) (p : Option Prog) : (c.beside t rest).setTask t p = (c.setTask t p).beside t rest := by
  unfold Conf.beside Conf.setTask
  simp only
  congr 1
  funext i
  by_cases h : i = t <;> simp [h]

theorem beside_run (t : Nat) (rest : Nat → Option Prog) (c : Conf) : (c.beside t rest).step cfg (.run t) = (c.step cfg (.run t)).beside t rest := by
  have ht : (c.beside t rest).tasks t = c.tasks t := by simp [Conf.beside]
  simp only [Conf.step, ht]
  cases hc : c.tasks t with
  | none => rfl
  | some p =>
    cases p with
    | ret r => exact beside_setTask ..
    | act f k => exact beside_setTask t rest { c with node := f c.node } _
    | lock l ok busy =>
      simp only
      show (if (c.held l).isNone then _ else _) = _
      split
      · exact beside_setTask t rest (c.setLock l (some t)) _
      · exact beside_setTask ..
    | unlock l k => exact beside_setTask t rest (c.setLock l none) _

theorem beside_runs (t : Nat) (rest : Nat → Option Prog) (k : Nat) : ∀ c : Conf, (List.replicate k (Event.run t)).foldl (Conf.step cfg) (c.beside t rest) =
    ((List.replicate k (Event.run t)).foldl (Conf.step cfg) c).beside t rest := by
  induction k with
  | zero => exact fun c => rfl
  | succ k ih => intro c; rw [List.replicate_succ, List.foldl_cons, List.foldl_cons, beside_run, ih]

/-- A task that was started on its own runs to its end while the others wait. -/
theorem finish_one (cfg : NodeCfg) (t : Nat) (op : NodeOp) (ho : op.unlocked) (n : Node) (T : Nat → Option Prog) (hT : T t = some (op.prog cfg)) :
    ∃ k, (List.replicate k (Event.run t)).foldl (Conf.step cfg) ⟨n, fun _ => none, T⟩ = ⟨n.step cfg op, fun _ => none, fun i => if i = t then none else T i⟩ := by
  obtain ⟨k, hk⟩ := solo_steps cfg t (op.prog cfg) free n
  rw [solo_call cfg op ho n] at hk
  refine ⟨k + 1, ?_⟩
  have h0 : (⟨n, fun _ => none, T⟩ : Conf) = (Conf.only t (some (op.prog cfg)) free n).beside t T := by
    unfold Conf.beside Conf.only
    congr 1
    funext i
    by_cases h : i = t
    · subst h; simp [hT]
    · simp [h]
  rw [h0, List.replicate_succ', List.foldl_append, beside_runs, hk]
  simp only [List.foldl_cons, List.foldl_nil]
  rw [beside_run]
  unfold Conf.beside Conf.only
  simp only [Conf.step, if_true, Conf.setTask]
  congr 1
  funext i
  by_cases h : i = t <;> simp [h]

/-- The tasks of a list of calls. -/
def pendingCalls (cfg : NodeCfg) : List (Nat × NodeOp) → Nat → Option Prog
  | [], _ => none
  | x :: L, i => if i = x.1 then some (x.2.prog cfg) else pendingCalls cfg L i

theorem pending_none (cfg : NodeCfg) {L : List (Nat × NodeOp)} {i : Nat} (h : i ∉ L.map Prod.fst) : pendingCalls cfg L i = none := by
  induction L with
  | nil => rfl
  | cons x L ih =>
    simp only [List.map_cons, List.mem_cons, not_or] at h
    unfold pendingCalls
    rw [if_neg h.1, ih h.2]

/-- Calls that were started run one after the other. -/
theorem finish_all (cfg : NodeCfg) (L : List (Nat × NodeOp)) : ∀ (n : Node), (∀ x ∈ L, x.2.unlocked) → (L.map Prod.fst).Nodup →
    ∃ runs : List Event, (∀ e ∈ runs, ∃ t, e = .run t) ∧ runs.foldl (Conf.step cfg) ⟨n, fun _ => none, pendingCalls cfg L⟩ =
      ⟨n.run cfg (L.map Prod.snd), fun _ => none, fun _ => none⟩ := by
  induction L with
  | nil => exact fun n _ _ => ⟨[], (fun _ h => by cases h), rfl⟩
  | cons x L ih =>
    intro n ho hd
    rw [List.map_cons, List.nodup_cons] at hd
    obtain ⟨k, hk⟩ := finish_one cfg x.1 x.2 (ho x (.head _)) n (pendingCalls cfg (x :: L)) (by simp [pendingCalls])
    obtain ⟨runs, h1, h2⟩ := ih (n.step cfg x.2) (fun y hy => ho y (.tail _ hy)) hd.2
    refine ⟨List.replicate k (.run x.1) ++ runs, fun e he => ?_, ?_⟩
    · rcases List.mem_append.1 he with he | he
      · exact ⟨_, (List.mem_replicate.1 he).2⟩
      · exact h1 e he
    · rw [List.foldl_append, hk]
      have : (fun i => if i = x.1 then none else pendingCalls cfg (x :: L) i) = pendingCalls cfg L := by
        funext i
        by_cases h : i = x.1
        · rw [if_pos h, pending_none cfg (h ▸ hd.1)]
        · rw [if_neg h]; simp [pendingCalls, h]
      rw [this, h2]
      rfl

/-- Calls are started one after the other. -/
theorem start_all (cfg : NodeCfg) (L : List (Nat × NodeOp)) : ∀ (n : Node) (done : List (Nat × NodeOp)), ((done ++ L).map Prod.fst).Nodup →
    (L.map fun x => x.2.event x.1).foldl (Conf.step cfg) ⟨n, fun _ => none, pendingCalls cfg done⟩ = ⟨n, fun _ => none, pendingCalls cfg (done ++ L)⟩ := by
  have app (L' : List (Nat × NodeOp)) (x : Nat × NodeOp) (hx : x.1 ∉ L'.map Prod.fst) : (fun i => if i = x.1 then some (x.2.prog cfg) else pendingCalls cfg L' i) =
      pendingCalls cfg (L' ++ [x]) := by
    induction L' with
    | nil => rfl
    | cons y L' ih =>
      simp only [List.map_cons, List.mem_cons, not_or] at hx
      funext i
      have := congrFun (ih hx.2) i
      simp only [List.cons_append, pendingCalls]
      by_cases hy : i = y.1
      · rw [if_neg (by rw [hy]; exact fun h => hx.1 h.symm), if_pos hy, if_pos hy]
      · rw [if_neg hy, if_neg hy, ← this]
  induction L with
  | nil => intro n done _; rw [List.append_nil]; rfl
  | cons x L ih =>
    intro n done hd
    have hx : x.1 ∉ done.map Prod.fst := by
      rw [List.map_append, List.nodup_append] at hd
      intro h
      exact hd.2.2 _ h _ (by simp) rfl
    have hs : Conf.step cfg ⟨n, fun _ => none, pendingCalls cfg done⟩ (x.2.event x.1) = ⟨n, fun _ => none, pendingCalls cfg (done ++ [x])⟩ := by
      have hn : (pendingCalls cfg done x.1).isNone = true := by rw [pending_none cfg hx]; rfl
      rw [← app done x hx]
      obtain ⟨t, op⟩ := x
      cases op <;> (simp only [NodeOp.event, Conf.step, Conf.start, NodeOp.prog] at hn ⊢; rw [if_pos hn]; rfl)
    rw [List.map_cons, List.foldl_cons, hs, ih n (done ++ [x]) (by simpa using hd)]
    simp

theorem map_mapIdx' {α β γ : Type} (f : β → γ) (g : Nat → α → β) (l : List α) : (l.mapIdx g).map f = l.mapIdx fun i x => f (g i x) := by
  apply List.ext_getElem?
  intro i
  rw [List.getElem?_map, List.getElem?_mapIdx, List.getElem?_mapIdx]
  cases l[i]? <;> rfl

theorem mapIdx_const {α β : Type} (g : α → β) (l : List α) : (l.mapIdx fun _ x => g x) = l.map g := by
  apply List.ext_getElem?
  intro i
  rw [List.getElem?_map, List.getElem?_mapIdx]

/-- The calls of a handler, with the number of the task of each. -/
def handlerOps (k : Nat) (io : SyncIo) (m : NetMsg) (h : Handler) : List (Nat × NodeOp) :=
  match contextId m.url with
  | none => []
  | some _ =>
    match h with
    | .newTxs =>
      match (decMulti m.content : PDec (List SignedTx)) with
      | .error _ => []
      | .ok txs => txs.mapIdx fun i tx => (2 * (k + i) + 1, .insertTx newTxsOrigin true tx)
    | .richEpochId =>
      match readBuf m.content with
      | some (msg, _) => [(2 * k + 1, .sync io msg)]
      | none => []
    | _ => []

theorem calls_ops (k : Nat) (io : SyncIo) (m : NetMsg) (h : Handler) : handlerCalls k h m io = (handlerOps k io m h).map fun x => x.2.event x.1 := by
  unfold handlerCalls handlerOps
  cases contextId m.url with
  | none => rfl
  | some rid =>
    simp only
    cases h <;> try rfl
    · simp only
      cases (decMulti m.content : PDec (List SignedTx)) with
      | error e => rfl
      | ok txs => simp only [map_mapIdx']; rfl
    · simp only
      cases readBuf m.content <;> rfl

theorem run_inserts (cfg : NodeCfg) (o : Bool) (txs : List SignedTx) : ∀ n : Node, n.run cfg (txs.map fun tx => .insertTx o true tx) =
    { n with pool := txs.foldl (fun p tx => (p.insert cfg.mem (n.view cfg (fun _ => none) true) o tx).2) n.pool } := by
  induction txs with
  | nil => exact fun n => rfl
  | cons tx txs ih =>
    intro n
    show Node.run cfg (n.step cfg (.insertTx o true tx)) _ = _
    rw [ih]
    rfl

theorem ops_served (cfg : NodeCfg) (k : Nat) (io : SyncIo) (n : Node) (sid : Nat) (m : NetMsg) {h : Handler} (hr : mainReactors.route m.url = .ok h) :
    n.run cfg ((handlerOps k io m h).map Prod.snd) = (n.serve cfg io sid m.url m.content).2 := by
  rw [serve_context cfg io n sid m.url m.content hr]
  unfold handlerOps
  cases contextId m.url with
  | none => rfl
  | some rid =>
    simp only
    cases h <;> try rfl
    · simp only [served, newTxsHandler]
      cases (decMulti m.content : PDec (List SignedTx)) with
      | error e => rfl
      | ok txs =>
        simp only [map_mapIdx', mapIdx_const]
        rw [run_inserts]
    · simp only [served]
      cases readBuf m.content <;> rfl

theorem ops_fine (k : Nat) {io : SyncIo} (hio : io.lock = true) (m : NetMsg) (h : Handler) :
    (∀ x ∈ handlerOps k io m h, x.2.unlocked) ∧ ((handlerOps k io m h).map Prod.fst).Nodup := by
  unfold handlerOps
  cases contextId m.url with
  | none => exact ⟨(fun _ h => by cases h), List.nodup_nil⟩
  | some rid =>
    simp only
    cases h <;> try exact ⟨(fun _ h => by cases h), List.nodup_nil⟩
    · simp only
      cases (decMulti m.content : PDec (List SignedTx)) with
      | error e => exact ⟨(fun _ h => by cases h), List.nodup_nil⟩
      | ok txs =>
        refine ⟨fun x hx => ?_, ?_⟩
        · obtain ⟨i, hi, rfl⟩ := List.mem_mapIdx.1 hx
          trivial
        · rw [map_mapIdx']
          rw [List.nodup_iff_getElem?_ne_getElem?]
          intro i j hij hj
          simp only [List.length_mapIdx] at hj
          simp only [List.getElem?_mapIdx]
          rw [List.getElem?_eq_getElem (by omega), List.getElem?_eq_getElem hj]
          simp only [Option.map_some, ne_eq, Option.some.injEq]
          omega
    · simp only
      split
      · refine ⟨fun x hx => ?_, by simp⟩
        rw [List.mem_singleton.1 hx]
        exact hio
      · exact ⟨(fun _ h => by cases h), List.nodup_nil⟩

/-- **C115, a message alone.**  At a process where no message is under way and no call is running, any bytes arrive on a session: the steps on the way of this message
and of the tasks it starts can be taken so that nothing is under way and nothing is running again, and then the node, and what it sent, is what the
model that handles a message in one go says (`Node.receive`, which the properties C67 to C82 are about). -/
theorem C115_alone (z : Compression) (cfg : NodeCfg) (n : Node) (l : List NodeNetEvent) (hq : (nodeNet z cfg n l).Quiet) {n' : Node}
    (hc : (nodeNet z cfg n l).node.conf = ⟨n', fun _ => none, fun _ => none⟩) (io : SyncIo) (hio : io.lock = true) (sid : Nat) (raw : Bytes) :
    ∃ l', netArrived l' = [(sid, raw)] ∧ (∀ e ∈ ownEvents l', ∃ t, e = .run t) ∧ (nodeNet z cfg n (l ++ l')).Quiet ∧
      (nodeNet z cfg n (l ++ l')).node.conf = ⟨(n'.receive z cfg io sid raw).2, fun _ => none, fun _ => none⟩ ∧
      (nodeNet z cfg n (l ++ l')).node.out = (nodeNet z cfg n l).node.out ++ (n'.receive z cfg io sid raw).1 := by
  have happ (l' : List NodeNetEvent) : nodeNet z cfg n (l ++ l') = l'.foldl (nodeNetStep z cfg) (nodeNet z cfg n l) := by
    unfold nodeNet; rw [List.foldl_append]
  generalize nodeNet z cfg n l = s at *
  obtain ⟨raws, routing, queues, reacting, node⟩ := s
  obtain ⟨rfl, rfl, rfl, rfl⟩ := hq
  obtain ⟨conf, spawned, log, out⟩ := node
  simp only at hc
  subst hc
  unfold Node.receive
  cases hu : (tasksMail z cfg).routed (sid, raw) with
  | none =>
    refine ⟨[.net (.arrive sid raw), .net .routerTake, .net (.route 0)], rfl, (fun e he => by cases he), ?_⟩
    rw [happ]
    simp only [List.foldl_cons, List.foldl_nil, nodeNetStep, Mail.step, List.nil_append, List.getElem?_cons_zero, hu]
    refine ⟨⟨rfl, rfl, rfl, rfl⟩, ?_⟩
    unfold MailCfg.routed at hu
    show _ ∧ _
    cases hf : unframe z raw with
    | none => exact ⟨rfl, (List.append_nil _).symm⟩
    | some m =>
      simp only [tasksMail] at hu
      rw [hf] at hu
      simp only at hu
      cases hr : mainReactors.route m.url with
      | ok h => rw [hr] at hu; cases hu
      | error e =>
        have : n'.serve cfg io sid m.url m.content = ([], n') := by unfold Node.serve; rw [hr]
        simp only [this]
        exact ⟨trivial, (List.append_nil _).symm⟩
  | some y =>
    have hy : ∃ h m, y = (h, sid, m) ∧ unframe z raw = some m ∧ mainReactors.route m.url = .ok h := by
      unfold MailCfg.routed at hu
      simp only [tasksMail] at hu
      cases hf : unframe z raw with
      | none => rw [hf] at hu; cases hu
      | some m =>
        rw [hf] at hu
        simp only at hu
        cases hr : mainReactors.route m.url with
        | error e => rw [hr] at hu; cases hu
        | ok h =>
          rw [hr] at hu
          injection hu with hu
          exact ⟨h, m, hu.symm, rfl, hr⟩
    obtain ⟨h, m, rfl, hf, hr⟩ := hy
    obtain ⟨h1, h2⟩ := ops_fine spawned hio m h
    obtain ⟨runs, hruns, hend⟩ := finish_all cfg (handlerOps spawned io m h) n' h1 h2
    rw [ops_served cfg spawned io n' sid m hr] at hend
    have hstart := start_all cfg (handlerOps spawned io m h) n' [] (by simpa using h2)
    rw [← calls_ops] at hstart
    refine ⟨[.net (.arrive sid raw), .net .routerTake, .net (.route 0), .net (.reactorTake h), .net (.react 0 io)] ++ runs.map .own, ?_, ?_, ?_⟩
    · have : ∀ runs : List Event, netArrived (runs.map .own) = [] := by
        intro runs
        unfold netArrived
        rw [List.filterMap_eq_nil_iff]
        intro e he
        obtain ⟨x, -, rfl⟩ := List.mem_map.1 he
        rfl
      show (sid, raw) :: netArrived (runs.map .own) = _
      rw [this]
    · intro e he
      have he' : e ∈ ownEvents (runs.map .own) := he
      unfold ownEvents at he'
      obtain ⟨x, hx, hxe⟩ := List.mem_filterMap.1 he'
      obtain ⟨w, hw, rfl⟩ := List.mem_map.1 hx
      simp only at hxe
      split at hxe
      · injection hxe with hxe; subst hxe; exact hruns w hw
      · cases hxe
    · have hown : ∀ (runs : List Event) (s : Mail Handler NodeTasks), (∀ e ∈ runs, ∃ t, e = .run t) →
          (runs.map NodeNetEvent.own).foldl (nodeNetStep z cfg) s = { s with node := { s.node with conf := runs.foldl (Conf.step cfg) s.node.conf } } := by
        intro runs
        induction runs with
        | nil => exact fun s _ => rfl
        | cons e runs ih =>
          intro s hr
          obtain ⟨t, rfl⟩ := hr e (.head _)
          rw [List.map_cons, List.foldl_cons, ih _ (fun e he => hr e (.tail _ he))]
          rfl
      rw [happ, List.foldl_append, hown _ _ hruns]
      have hmail : ([.net (.arrive sid raw), .net .routerTake, .net (.route 0), .net (.reactorTake h), .net (.react 0 io)] : List NodeNetEvent).foldl (nodeNetStep z cfg)
          ⟨[], [], [], [], ⟨⟨n', fun _ => none, fun _ => none⟩, spawned, log, out⟩⟩ =
          ⟨[], [], [], [], NodeTasks.handle z cfg h sid m io ⟨⟨n', fun _ => none, fun _ => none⟩, spawned, log, out⟩⟩ := by
        simp only [List.foldl_cons, List.foldl_nil, nodeNetStep, Mail.step, List.nil_append, List.getElem?_cons_zero, hu, takeFor, if_true, List.eraseIdx_cons_zero]
        rfl
      rw [hmail]
      refine ⟨⟨rfl, rfl, rfl, rfl⟩, ?_, ?_⟩
      · simp only [NodeTasks.handle, hf]
        have e0 : (⟨n', fun _ => none, fun _ => none⟩ : Conf) = ⟨n', fun _ => none, pendingCalls cfg []⟩ := rfl
        rw [e0, hstart, List.nil_append, hend]
      · simp only [NodeTasks.handle, hf]
        rw [replies_serve cfg io n' sid m hr]
        rfl

end
open Demo in
/-- C115 on a real case: a process that just started on the demonstration node receives a frame with two payments; handled alone, both are in its pool. -/
example : (nodeNet demoZip ncfg n0 []).Quiet ∧ (nodeNet demoZip ncfg n0 []).node.conf = ⟨n0, fun _ => none, fun _ => none⟩ ∧ silentIo.lock = true ∧
    ((n0.receive demoZip ncfg silentIo 5 batchRaw).2.pool.cache.get (npay 1 2 10).txHash).isSome = true ∧
    ((n0.receive demoZip ncfg silentIo 5 batchRaw).2.pool.cache.get (npay 2 1 5 1).txHash).isSome = true :=
  ⟨⟨rfl, rfl, rfl, rfl⟩, rfl, rfl, by decide +kernel, by decide +kernel⟩

open Demo in
/-- C115 on a real case: a node that has the epoch of height one, and the payment in it, and none of height two. -/
example : demoZip.Lossless ∧ (n1.store.epochs 1).isSome = true ∧ (n1.store.epochs 2).isNone = true ∧ (n1.store.txs (npay 1 2 10).txHash).isSome = true ∧
    (RpcRequest.pullTxs [(npay 1 2 10).txHash]).enc.length < 2 ^ 63 :=
  ⟨demoZip_lossless, by decide +kernel, by decide +kernel, by decide +kernel, by decide +kernel⟩

end Huobi
