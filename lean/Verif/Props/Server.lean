import Verif.Model.Server
import Verif.Props.Rpc
import Verif.Props.Messages
import Verif.Props.Mempool2
import Verif.Spec.DemoNode
/-
C30 and C67: requests of peers.
-/
namespace Huobi

/-- A url with an rpc id. -/
def idUrl (url : Str) (r : UInt64) : Str := url ++ '/' :: showNat r.toNat

theorem showNat_short (r : UInt64) : (showNat r.toNat).length ≤ 20 := by
  have hl : ∀ k n, n < 10 ^ (k + 1) → (showNat n).length ≤ k + 1 := by
    intro k
    induction k with
    | zero => intro n hn; rw [showNat, if_pos (by omega)]; simp
    | succ k ih =>
      intro n hn
      rw [showNat]
      split
      · simp
      · have := ih (n / 10) (by rw [Nat.pow_succ] at hn; omega)
        simp; omega
  exact hl 19 r.toNat (Nat.lt_of_lt_of_le r.toNat_lt (by decide))

/-- An endpoint of three components with room for an id. -/
structure Extensible (url : Str) (e : Endpoint) : Prop where
  ok : Endpoint.parse url = .ok e
  three : (urlComps url).length = 3
  room : strLen url ≤ 99

theorem Extensible.mk' {url : Str} (h : (gossipScheme.isPrefixOf url || rpcCallScheme.isPrefixOf url || rpcRespScheme.isPrefixOf url) = true)
    (h3 : (urlComps url).length = 3) (hr : strLen url ≤ 99) : Extensible url ⟨url⟩ := by
  refine ⟨parse_ok (by omega) ?_ (by omega) (by omega), h3, hr⟩
  simp only [Bool.or_eq_true] at h
  rcases h with (h | h) | h
  · exact .inl h
  · exact .inr (.inl h)
  · exact .inr (.inr h)

theorem Extensible.extend {url : Str} {e : Endpoint} (h : Extensible url e) (r : UInt64) :
    e.extend (showNat r.toNat) = .ok ⟨idUrl url r⟩ ∧ Endpoint.parse (idUrl url r) = .ok ⟨idUrl url r⟩ ∧
    Endpoint.root ⟨idUrl url r⟩ = e.root ∧ Endpoint.scheme ⟨idUrl url r⟩ = e.scheme ∧ Endpoint.rpcId ⟨idUrl url r⟩ = .ok r := by
  have hx := C54_extend url e r h.ok
  have hs := showNat_short r
  obtain ⟨e', he'⟩ := hx.2.mpr ⟨h.three, by have := h.room; omega⟩
  have he2 : e' = ⟨idUrl url r⟩ := by
    have h1 : e.extend (showNat r.toNat) = Endpoint.parse (idUrl url r) := by
      obtain ⟨rfl, -⟩ := parse_spec h.ok
      unfold Endpoint.extend idUrl
      rw [dropWhile_showNat]
    rw [h1] at he'
    exact (parse_spec he').1
  subst he2
  obtain ⟨h1, h2, h3, h4⟩ := hx.1 _ he'
  exact ⟨he', h4, h1, h2, h3⟩

theorem ext_respPull : Extensible endRespPullTxs ⟨endRespPullTxs⟩ := .mk' (by decide +kernel) (by decide +kernel) (by decide +kernel)
theorem ext_syncPull : Extensible rpcSyncPull ⟨rpcSyncPull⟩ := .mk' (by decide +kernel) (by decide +kernel) (by decide +kernel)
theorem ext_respSync : Extensible rpcRespSyncPull ⟨rpcRespSyncPull⟩ := .mk' (by decide +kernel) (by decide +kernel) (by decide +kernel)
theorem ext_pull : Extensible endPullTxs ⟨endPullTxs⟩ := .mk' (by decide +kernel) (by decide +kernel) (by decide +kernel)

theorem respond_ext {url : Str} {e : Endpoint} (h : Extensible url e) (sid : Nat) (r : UInt64) (content : Bytes) :
    respond sid (some r) url content = [⟨sid, idUrl url r, content⟩] := by
  unfold respond
  rw [h.ok]
  simp only
  rw [(h.extend r).1]

theorem mainReactors_eq : mainReactors = [(⟨rpcRespSyncPull⟩, .respSync), (⟨rpcSyncPull⟩, .rpc), (⟨endRichEpochId⟩, .richEpochId), (⟨endVote⟩, .vote),
    (⟨endQC⟩, .qc), (⟨endProposal⟩, .proposal), (⟨endRespPullTxs⟩, .respPushTxs), (⟨endPullTxs⟩, .newTxs), (⟨endNewTxs⟩, .newTxs)] := by
  decide +kernel

theorem route_mem {R : Type} {m : Reactors R} {url : Str} {h : R} (hr : m.route url = .ok h) :
    ∃ e e0, Endpoint.parse url = .ok e ∧ (e0, h) ∈ m ∧ e0.root = e.root := by
  unfold Reactors.route at hr
  split at hr
  · cases hr
  · rename_i e he
    split at hr
    · rename_i e0 r hf
      injection hr with hr; subst hr
      exact ⟨e, e0, he, List.mem_of_find?_eq_some hf, by simpa using List.find?_some hf⟩
    · cases hr

theorem route_rpc {url : Str} (hr : mainReactors.route url = .ok .rpc) : ∃ e, Endpoint.parse url = .ok e ∧ e.root = Endpoint.root ⟨rpcSyncPull⟩ := by
  obtain ⟨e, e0, h1, h2, h3⟩ := route_mem hr
  rw [mainReactors_eq] at h2
  simp only [List.mem_cons, Prod.mk.injEq, reduceCtorEq, and_false, and_true, false_or, List.not_mem_nil, or_false] at h2
  subst h2
  exact ⟨e, h1, h3.symm⟩

theorem route_pull {url : Str} : mainReactors.route url ≠ .ok .pullTxs := by
  intro hr
  obtain ⟨e, e0, h1, h2, h3⟩ := route_mem hr
  rw [mainReactors_eq] at h2
  simp at h2

theorem route_syncPull (r : UInt64) : mainReactors.route (idUrl rpcSyncPull r) = .ok .rpc := by
  obtain ⟨-, h1, h2, -, -⟩ := ext_syncPull.extend r
  unfold Reactors.route
  rw [h1]
  simp only [h2]
  have : mainReactors.find? (fun x => x.1.root == Endpoint.root ⟨rpcSyncPull⟩) = some (⟨rpcSyncPull⟩, .rpc) := by decide +kernel
  rw [this]

/-! ### Which messages are answered -/

/-- Every reply of a node is to a message on the sync_pull endpoint that carries an id; it goes to the same session and carries the
same id. -/
theorem C67_quiet (cfg : NodeCfg) (io : SyncIo) (n : Node) (sid : Nat) (url : Str) (content : Bytes) (o : OutMsg) (ho : o ∈ (n.serve cfg io sid url content).1) :
    ∃ e r, Endpoint.parse url = .ok e ∧ e.root = Endpoint.root ⟨rpcSyncPull⟩ ∧ e.rpcId = .ok r ∧ o.sid = sid ∧ o.url = idUrl rpcRespSyncPull r := by
  unfold Node.serve at ho
  split at ho
  · rename_i h e hr he
    simp only at ho
    split at ho
    · cases ho
    · rename_i rid hrid
      cases h with
      | newTxs => cases ho
      | pullTxs => exact absurd hr route_pull
      | proposal => cases ho
      | vote => cases ho
      | qc => cases ho
      | richEpochId => simp only at ho; split at ho <;> cases ho
      | respPushTxs => cases ho
      | respSync => cases ho
      | rpc =>
        simp only at ho
        obtain ⟨e', he', hroot⟩ := route_rpc hr
        rw [he] at he'; injection he' with he'; subst he'
        -- an id is present
        have hresp : ∀ c, o ∈ respond sid rid rpcRespSyncPull c → ∃ r, rid = some r ∧ o.sid = sid ∧ o.url = idUrl rpcRespSyncPull r := by
          intro c hc
          cases rid with
          | none => unfold respond at hc; rw [ext_respSync.ok] at hc; cases hc
          | some r =>
            rw [respond_ext ext_respSync] at hc
            simp only [List.mem_singleton] at hc
            subst hc
            exact ⟨r, rfl, rfl, rfl⟩
        have hthis : ∃ r, rid = some r ∧ o.sid = sid ∧ o.url = idUrl rpcRespSyncPull r := by
          unfold rpcHandler at ho
          split at ho
          · cases ho
          · split at ho
            · cases ho
            · exact hresp _ ho
          · split at ho
            · cases ho
            · exact hresp _ ho
        obtain ⟨r, rfl, h1, h2⟩ := hthis
        refine ⟨e, r, he, hroot, ?_, h1, h2⟩
        split at hrid
        · cases hrid
        · split at hrid
          · rename_i r' hr'
            injection hrid with hrid; injection hrid with hrid; subst hrid
            exact hr'
          · cases hrid
        · cases hrid
  · cases ho

/-- C30 is false: a node never answers a request for transactions of the memory pool: src/main.rs:218-224 registers the handler for
new transactions on that endpoint. -/
theorem C30_refuted (cfg : NodeCfg) (io : SyncIo) (n : Node) (sid : Nat) (url : Str) (content : Bytes)
    (h : (urlComps url).take 3 = ["rpc_call".toList, "mempool".toList, "pull_txs".toList]) : (n.serve cfg io sid url content).1 = [] := by
  cases hs : (n.serve cfg io sid url content).1 with
  | nil => rfl
  | cons o os =>
    obtain ⟨e, r, h1, h2, -⟩ := C67_quiet cfg io n sid url content o (by rw [hs]; simp)
    have h3 := (C54_root url rpcSyncPull e ⟨rpcSyncPull⟩ h1 ext_syncPull.ok).1.mp h2
    rw [h] at h3
    exact absurd h3 (by decide +kernel)

/-- The requests of the memory pool have such urls, whatever their id. -/
theorem pull_url (r : UInt64) : (urlComps (idUrl endPullTxs r)).take 3 = ["rpc_call".toList, "mempool".toList, "pull_txs".toList] := by
  have h := (ext_pull.extend r)
  have := (C54_root _ endPullTxs _ ⟨endPullTxs⟩ h.2.1 ext_pull.ok).1.mp h.2.2.1
  rw [this]
  decide +kernel

/-- C30, what the handler that is not registered would do: it answers a request whose hashes are all known to the pool with the
transactions in the order of the request, and no other. -/
theorem C30_partial (cr : MemCrypto) (size : Nat) (gap : UInt64) (ops : List MemOp) (p : MemPool) (hp : MemPool.after cr size gap ops = p)
    (sid : Nat) (r : UInt64) (hs : List Hash) (hl : (encMulti hs).length < 2 ^ 64) :
    (∀ txs, List.Forall₂ p.Knows hs txs → txs.map SignedTx.txHash = hs ∧
      pullTxsHandler p sid (some r) (encMulti hs) = [⟨sid, idUrl endRespPullTxs r, encMulti txs⟩]) ∧
    ((∃ h ∈ hs, ∀ tx, ¬ p.Knows h tx) → pullTxsHandler p sid (some r) (encMulti hs) = []) := by
  obtain ⟨h1, h2, h3⟩ := C26_full_txs_exact cr size gap ops hp hs
  have hd := C50_mempool_messages_partial.1 hs hl
  unfold pullTxsHandler
  rw [hd]
  simp only
  constructor
  · intro txs ht
    have hg := (h1 txs).mpr ht
    refine ⟨h2 txs hg, ?_⟩
    rw [hg]
    exact respond_ext ext_respPull _ _ _
  · intro hn
    obtain ⟨e, he⟩ := h3.mpr hn
    rw [he]

/-! ### C67 -/

theorem u64_round (id : UInt64) : readU64LE (u64LE id.toNat) = some (id.toNat, []) := by
  have := readU64LE_u64LE id.toNat id.toNat_lt []
  rwa [List.append_nil] at this

theorem RpcRequest.dec_enc (q : RpcRequest) (hl : q.enc.length < 2 ^ 64) : RpcRequest.dec q.enc = some q := by
  cases q with
  | pullEpochs id =>
    have ht : (RpcRequest.pullEpochs id).enc.take 4 = [0, 0, 0, 0] := rfl
    have hdr : (RpcRequest.pullEpochs id).enc.drop 4 = u64LE id.toNat := rfl
    unfold RpcRequest.dec
    rw [if_pos ht, hdr, u64_round]
    simp
  | pullTxs hs =>
    have ht : (RpcRequest.pullTxs hs).enc.take 4 = [1, 0, 0, 0] := rfl
    have hdr : (RpcRequest.pullTxs hs).enc.drop 4 = encMulti hs := rfl
    have hlen : (RpcRequest.pullTxs hs).enc.length = 4 + (encMulti hs).length := by simp [RpcRequest.enc]; omega
    unfold RpcRequest.dec
    rw [if_neg (by rw [ht]; decide), if_pos ht, hdr, C50_mempool_messages_partial.1 hs (by omega)]

theorem mapM_forall2 {A B : Type} (f : A → Option B) (l : List A) (l' : List B) (h : List.Forall₂ (fun a b => f a = some b) l l') : l.mapM f = some l' := by
  induction h with
  | nil => rfl
  | cons h _ ih => rw [List.mapM_cons, h, ih]; rfl

theorem mapM_none {A B : Type} (f : A → Option B) (l : List A) (h : ∃ a ∈ l, f a = none) : l.mapM f = none := by
  induction l with
  | nil => obtain ⟨a, ha, -⟩ := h; cases ha
  | cons a l ih =>
    rw [List.mapM_cons]
    obtain ⟨b, hb, hn⟩ := h
    rcases List.mem_cons.mp hb with rfl | hb
    · rw [hn]; rfl
    · cases f a with
      | none => rfl
      | some x => rw [ih ⟨b, hb, hn⟩]; rfl

theorem serve_sync (cfg : NodeCfg) (io : SyncIo) (n : Node) (sid : Nat) (r : UInt64) (content : Bytes) :
    n.serve cfg io sid (idUrl rpcSyncPull r) content = (rpcHandler n sid (some r) content, n) := by
  obtain ⟨-, h1, -, h2, h3⟩ := ext_syncPull.extend r
  unfold Node.serve
  rw [route_syncPull, h1]
  simp only [h2, h3]
  have : Endpoint.scheme ⟨rpcSyncPull⟩ = some .rpcCall := by decide +kernel
  rw [this]

/-- C67: a request for an epoch is answered with the stored epoch of that id, on the session it came from and with its id; if there is
none, it is not answered.  The node does not change. -/
theorem C67_epoch (cfg : NodeCfg) (io : SyncIo) (n : Node) (sid : Nat) (r id : UInt64) :
    (∀ e, n.store.epochs id = some e → n.serve cfg io sid (idUrl rpcSyncPull r) (RpcRequest.pullEpochs id).enc =
      ([⟨sid, idUrl rpcRespSyncPull r, (RpcResponse.pullEpochs e).enc⟩], n)) ∧
    (n.store.epochs id = none → n.serve cfg io sid (idUrl rpcSyncPull r) (RpcRequest.pullEpochs id).enc = ([], n)) := by
  have hd : RpcRequest.dec (RpcRequest.pullEpochs id).enc = some (.pullEpochs id) := RpcRequest.dec_enc _ (by simp [RpcRequest.enc, u64LE_length])
  rw [serve_sync]
  unfold rpcHandler
  rw [hd]
  simp only
  constructor
  · intro e he
    rw [he]
    simp only
    rw [respond_ext ext_respSync]
  · intro he
    rw [he]

/-- C67: a request for committed transactions is answered with all of them in the order of the request, or not at all if one is not
stored. -/
theorem C67_txs (cfg : NodeCfg) (io : SyncIo) (n : Node) (sid : Nat) (r : UInt64) (hs : List Hash) (hl : (RpcRequest.pullTxs hs).enc.length < 2 ^ 64) :
    (∀ txs, List.Forall₂ (fun h tx => n.store.txs h = some tx) hs txs → n.serve cfg io sid (idUrl rpcSyncPull r) (RpcRequest.pullTxs hs).enc =
      ([⟨sid, idUrl rpcRespSyncPull r, (RpcResponse.pullTxs txs).enc⟩], n)) ∧
    ((∃ h ∈ hs, n.store.txs h = none) → n.serve cfg io sid (idUrl rpcSyncPull r) (RpcRequest.pullTxs hs).enc = ([], n)) := by
  rw [serve_sync]
  unfold rpcHandler
  rw [RpcRequest.dec_enc _ hl]
  simp only
  constructor
  · intro txs ht
    rw [mapM_forall2 _ _ _ ht]
    simp only
    rw [respond_ext ext_respSync]
  · intro hn
    rw [mapM_none _ _ hn]

/-! ### Both ends of a call -/

/-- The message types of a node. -/
def Handler.ty : Handler → Nat
  | .newTxs => 0
  | .pullTxs => 1
  | .proposal => 2
  | .vote => 3
  | .qc => 4
  | .richEpochId => 5
  | .rpc => 6
  | .respPushTxs => 7
  | .respSync => 8

/-- The calls of a node: its reactors, and how the two kinds of responses are decoded. -/
def mainRpc : RpcCfg (RpcResponse ⊕ List SignedTx) where
  reactors := mainReactors.map (fun x => (x.1, x.2.ty))
  decode ty content :=
    if ty = Handler.respSync.ty then
      match RpcResponse.dec content with
      | .ok r => some (.inl r)
      | .error _ => none
    else if ty = Handler.respPushTxs.ty then
      match (decMulti content : PDec (List SignedTx)) with
      | .ok txs => some (.inr txs)
      | .error _ => none
    else none

theorem route_respSync (r : UInt64) : mainRpc.reactors.route (idUrl rpcRespSyncPull r) = .ok Handler.respSync.ty := by
  obtain ⟨-, h1, h2, -, -⟩ := ext_respSync.extend r
  unfold Reactors.route
  rw [h1]
  simp only [h2]
  have : mainRpc.reactors.find? (fun x => x.1.root == Endpoint.root ⟨rpcRespSyncPull⟩) = some (⟨rpcRespSyncPull⟩, Handler.respSync.ty) := by decide +kernel
  rw [this]

/-- The answers of `C67_epoch` and `C67_txs` are responses to the call with the same id. -/
theorem served_isResponse (r : UInt64) (a : RpcResponse) (hc : a.clean) (hl : a.enc.length < 2 ^ 64) :
    IsResponse mainRpc (idUrl rpcRespSyncPull r) a.enc r Handler.respSync.ty (.inl a) := by
  obtain ⟨-, h1, -, h3, h4⟩ := ext_respSync.extend r
  refine ⟨_, h1, ?_, h4, route_respSync r, ?_⟩
  · rw [h3]; decide +kernel
  · simp only [mainRpc, if_true]
    rw [C50_round_trip_partial a hc hl]

/-- C67, from end to end: a node that asks a peer for an epoch the peer has stored returns this epoch from the call, once the answer
of the peer has arrived, whatever else goes on at both nodes. -/
theorem C67_end_to_end (evs : List RpcEvent) (hn : (RpcState.after mainRpc evs).next ≤ 2 ^ 64) (c k : Nat) (x : RpcCall (RpcResponse ⊕ List SignedTx))
    (hw : Waiting (RpcState.after mainRpc evs) c x) (hty : x.ty = Handler.respSync.ty) (hk : (RpcState.after mainRpc evs).takes k = none)
    (cfg : NodeCfg) (io : SyncIo) (peer : Node) (sid : Nat) (id : UInt64) (e : Epoch) (he : peer.store.epochs id = some e) (hl : (RpcResponse.pullEpochs e).enc.length < 2 ^ 64) :
    ∃ o, (peer.serve cfg io sid (idUrl rpcSyncPull x.rid) (RpcRequest.pullEpochs id).enc).1 = [o] ∧ o.sid = sid ∧
      (RpcState.after mainRpc (evs ++ [.receive k x.sid o.url o.content, .take k, .wake c])).calls c = some { x with phase := .finished (.ok (.inl (.pullEpochs e))) } := by
  refine ⟨⟨sid, idUrl rpcRespSyncPull x.rid, (RpcResponse.pullEpochs e).enc⟩, ?_, rfl, ?_⟩
  · rw [(C67_epoch cfg io peer sid x.rid id).1 e he]
  · apply C53_answered mainRpc evs hn c k x _ _ _ hw hk
    rw [hty]
    exact served_isResponse x.rid (.pullEpochs e) trivial hl

/-- C30, the consequence: a node that asks an honest peer for transactions of its pool waits for ever.  If all messages that arrive on
the session are replies of the peer, and the only request that carried the id of this call was the one for transactions, the call never ends. -/
theorem C30_hangs (evs more : List RpcEvent) (hn : (RpcState.after mainRpc (evs ++ more)).next ≤ 2 ^ 64) (c : Nat) (x : RpcCall (RpcResponse ⊕ List SignedTx))
    (hw : Waiting (RpcState.after mainRpc evs) c x) (hno : ∀ k t, (RpcState.after mainRpc evs).takes k = some t → ¬ (t.key.sid = x.sid ∧ t.key.rid = x.rid))
    (honest : ∀ k url content, RpcEvent.receive k x.sid url content ∈ more → ∃ cfg io peer sid req body,
      (∃ o ∈ (Node.serve cfg io peer sid req body).1, o.url = url ∧ o.content = content) ∧
      ∀ e, Endpoint.parse req = .ok e → e.rpcId = .ok x.rid → (urlComps req).take 3 = ["rpc_call".toList, "mempool".toList, "pull_txs".toList]) :
    Waiting (RpcState.after mainRpc (evs ++ more)) c x := by
  refine C66_refuted mainRpc evs more hn c x hw ⟨hno, ?_⟩
  intro k url content ty m hm hr
  obtain ⟨cfg, io, peer, sid, req, body, ⟨o, ho, rfl, rfl⟩, hreq⟩ := honest k url content hm
  obtain ⟨e, r, h1, h2, h3, -, h5⟩ := C67_quiet cfg io peer sid req body o ho
  obtain ⟨e', g1, -, g3, -, -⟩ := hr
  rw [h5, (ext_respSync.extend r).2.1] at g1
  injection g1 with g1; subst g1
  rw [(ext_respSync.extend r).2.2.2.2] at g3
  injection g3 with g3; subst g3
  have h6 := C30_refuted cfg io peer sid req body (hreq e h1 h3)
  rw [h6] at ho
  cases ho

/-! ### Concrete cases -/

/-- A call for an epoch on session 5. -/
def syncCall : List RpcEvent := [.start 0 5 8, .insert 0, .send 0 true]

/-- The hypotheses of `C67_end_to_end` are met by this call and by the node of `Spec/DemoNode.lean` after two blocks. -/
example : Waiting (RpcState.after mainRpc syncCall) 0 ⟨5, Handler.respSync.ty, 0, .sent⟩ ∧ (RpcState.after mainRpc syncCall).takes 0 = none ∧
    (RpcState.after mainRpc syncCall).next ≤ 2 ^ 64 ∧
    ∃ e, Demo.n2.store.epochs 1 = some e ∧ e.orderedTxHashes ≠ [] ∧ (RpcResponse.pullEpochs e).enc.length < 2 ^ 64 := by
  refine ⟨⟨rfl, rfl, rfl⟩, rfl, by decide +kernel, ?_⟩
  have h : (Demo.n2.store.epochs 1).any (fun e => !e.orderedTxHashes.isEmpty && decide ((RpcResponse.pullEpochs e).enc.length < 2 ^ 64)) = true := by decide +kernel
  rw [Option.any_eq_true] at h
  obtain ⟨e, he, h⟩ := h
  rw [Bool.and_eq_true, decide_eq_true_eq] at h
  refine ⟨e, he, ?_, h.2⟩
  intro hn; rw [hn] at h; simp at h

/-- A stored transaction, and one that is not. -/
example : (∃ txs, List.Forall₂ (fun h tx => Demo.n2.store.txs h = some tx) [(Demo.npay 1 2 10).txHash, (Demo.npay 2 1 5 1).txHash] txs) ∧
    ∃ h ∈ [(Demo.npay 1 2 10).txHash, (Demo.npay 1 2 11).txHash], Demo.n2.store.txs h = none := by
  have h1 : Demo.n2.store.txs (Demo.npay 1 2 10).txHash = some (Demo.npay 1 2 10) := by decide +kernel
  have h2 : Demo.n2.store.txs (Demo.npay 2 1 5 1).txHash = some (Demo.npay 2 1 5 1) := by decide +kernel
  have h3 : Demo.n2.store.txs (Demo.npay 1 2 11).txHash = none := by decide +kernel
  exact ⟨⟨_, .cons h1 (.cons h2 .nil)⟩, _, by simp, h3⟩

/-- A request of the memory pool for a known transaction: the handler that is not registered answers it, the node does not. -/
example : (Demo.n2.serve Demo.ncfg ⟨true, fun _ _ => none, fun _ _ => none, fun _ => .ok, true⟩ 5 (idUrl endPullTxs 3) (encMulti [(Demo.npay 1 2 10).txHash])).1 = [] ∧
    pullTxsHandler (MemPool.after Demo.ncfg.mem 10 20 [.insert (Demo.n2.view Demo.ncfg (fun _ => none) true) true (Demo.npay 1 2 11)]) 5 (some 3) (encMulti [(Demo.npay 1 2 11).txHash]) =
      [⟨5, "/rpc_resp/mempool/pull_txs/3".toList, encMulti [Demo.npay 1 2 11]⟩] :=
  ⟨C30_refuted _ _ _ _ _ _ (pull_url 3), by decide +kernel⟩

end Huobi
