import Verif.Model.Frame
import Verif.Props.Server2
import Verif.Props.Protobuf
/-
C82: what is sent is what arrives.
-/
namespace Huobi

/-- Decompressing gives back what was compressed. -/
def Compression.Lossless (z : Compression) : Prop := ∀ b, z.decompress (z.compress b) = some b

theorem netMsg_tags (m : NetMsg) : Tags m.pb := by unfold NetMsg.pb; ptags

theorem netMsg_prt (m : NetMsg) : NetMsg.ofPb m.pb = .ok m := by
  unfold NetMsg.ofPb
  rw [getString_rt (s := String.ofList m.url) (by unfold NetMsg.pb; pocc), pok_bind, getBytes_rt (b := m.content) (by unfold NetMsg.pb; pocc), pok_bind]
  simp only [String.toList_ofList]
  rfl

theorem netMsg_round (m : NetMsg) (hl : (pbEncode m).length < 2 ^ 64) : (pbDecode (pbEncode m) : PDec NetMsg) = .ok m := by
  show parse (encFields m.pb) >>= NetMsg.ofPb = _
  rw [parse_encFields (netMsg_tags m) hl, pok_bind, netMsg_prt]

theorem utf8_ofList (l : List Char) : (utf8 (String.ofList l)).length = strLen l := by
  simp [utf8, strLen, List.utf8Encode]
theorem encVarint_le (c n : Nat) : (encVarint c n).length ≤ c := by
  induction c generalizing n with
  | zero => simp [encVarint]
  | succ c ih => 
    rw [encVarint]
    split
    · simp
    · have := ih (n / 128); simp; exact this
theorem frame_length (m : NetMsg) : (pbEncode m).length ≤ strLen m.url + m.content.length + 40 := by
  show (encFields m.pb).length ≤ _
  have h : ∀ t b, (encFields (fBytes t b)).length ≤ b.length + 20 := by
    intro t b
    unfold fBytes
    split
    · simp [encFields]
    · have h1 := encVarint_le 10 (t * 8 + 2)
      have h2 := encVarint_le 10 b.length
      simp [encFields, encField]; omega
  unfold NetMsg.pb
  rw [encFields_append, List.length_append]
  have h1 := h 1 (utf8 (String.ofList m.url))
  have h2 := h 2 m.content
  rw [utf8_ofList] at h1
  omega

/-- The frame of a message whose url is an endpoint, with fewer than 2^63 bytes of content, is short enough to be decoded. -/
theorem frame_fits {url : Str} {e : Endpoint} (he : Endpoint.parse url = .ok e) {content : Bytes} (hl : content.length < 2 ^ 63) :
    (pbEncode (NetMsg.mk url content)).length < 2 ^ 64 := by
  have h1 := (parse_spec he).2.1
  have h2 := frame_length ⟨url, content⟩
  simp only at h2
  omega

theorem unframe_frame {z : Compression} (hz : z.Lossless) (m : NetMsg) (hl : (pbEncode m).length < 2 ^ 64) :
    unframe z (z.compress (pbEncode m)) = some m := by
  unfold unframe
  rw [hz]
  simp only
  rw [netMsg_round m hl]

/-- C82: what a node gossips is accepted for sending exactly if the url is an endpoint, and a peer that receives the bytes sees the url
and the content that were sent. -/
theorem C82_gossip_arrives {z : Compression} (hz : z.Lossless) (url : Str) (content : Bytes) (hl : content.length < 2 ^ 63) :
    (∀ e, Endpoint.parse url = .ok e → ∃ raw, packageGossip z url content = .ok raw ∧ unframe z raw = some ⟨url, content⟩) ∧
    (∀ err, Endpoint.parse url = .error err → packageGossip z url content = .error err) := by
  constructor
  · intro e he
    obtain ⟨rfl, -⟩ := parse_spec he
    refine ⟨z.compress (pbEncode (NetMsg.mk url content)), ?_, unframe_frame hz _ (frame_fits he hl)⟩
    unfold packageGossip
    rw [he]
    rfl
  · intro err he
    unfold packageGossip
    rw [he]
    rfl

/-- C82: a request or response on an endpoint of three components arrives with its id and its content. -/
theorem C82_rpc_arrives {z : Compression} (hz : z.Lossless) (url : Str) (e : Endpoint) (he : Extensible url e) (r : UInt64) (content : Bytes)
    (hl : content.length < 2 ^ 63) :
    ∃ raw, packageRpc z url r content = .ok raw ∧ unframe z raw = some ⟨idUrl url r, content⟩ := by
  refine ⟨z.compress (pbEncode (NetMsg.mk (idUrl url r) content)), ?_, unframe_frame hz _ (frame_fits (he.extend r).2.1 hl)⟩
  unfold packageRpc
  rw [he.ok]
  show (e.extend (showNat r.toNat) >>= _) = _
  rw [(he.extend r).1]
  rfl

/-- C82: different messages are different on the wire. -/
theorem C82_distinct {z : Compression} (hz : z.Lossless) (url url' : Str) (content content' : Bytes) (hl : content.length < 2 ^ 63) (hl' : content'.length < 2 ^ 63)
    (raw : Bytes) (h : packageGossip z url content = .ok raw) (h' : packageGossip z url' content' = .ok raw) : url = url' ∧ content = content' := by
  have key : ∀ (url : Str) (content : Bytes), content.length < 2 ^ 63 → packageGossip z url content = .ok raw → unframe z raw = some ⟨url, content⟩ := by
    intro url content hl h
    cases he : Endpoint.parse url with
    | error err => rw [(C82_gossip_arrives hz url content hl).2 err he] at h; cases h
    | ok e =>
      obtain ⟨raw', h1, h2⟩ := (C82_gossip_arrives hz url content hl).1 e he
      rw [h1] at h; injection h with h; subst h
      exact h2
  have h1 := key url content hl h
  rw [key url' content' hl' h'] at h1
  injection h1 with h1
  injection h1 with h1 h2
  exact ⟨h1.symm, h2.symm⟩

/-- C82: bytes that do not decompress, or are no network message once decompressed, change nothing and are not answered; and no bytes
make the unpacking panic. -/
theorem C82_garbage (z : Compression) (cfg : NodeCfg) (io : SyncIo) (n : Node) (sid k : Nat) (raw : Bytes) :
    ((z.decompress raw = none ∨ ∃ b e, z.decompress raw = some b ∧ (pbDecode b : PDec NetMsg) = .error e) →
      n.receive z cfg io sid raw = ([], n) ∧ rawEvent z k sid raw = []) ∧
    ∀ b, (pbDecode b : PDec NetMsg) ≠ .error .panic := by
  constructor
  · intro h
    have hu : unframe z raw = none := by
      unfold unframe
      rcases h with h | ⟨b, e, h, he⟩
      · rw [h]
      · rw [h]; simp only; rw [he]
    unfold Node.receive rawEvent
    rw [hu]
    exact ⟨rfl, rfl⟩
  · intro b
    refine PNoPanic.bind (PNoPanic.parse b) (fun fs => ?_)
    show PNoPanic (NetMsg.ofPb fs)
    unfold NetMsg.ofPb
    exact PNoPanic.bind (PNoPanic.getString _ _) (fun _ => PNoPanic.bind (PNoPanic.getBytes _ _) (fun _ => PNoPanic.ok _))

theorem parse_rich (id : UInt64) : Endpoint.parse (richMessage id).1 = .ok ⟨endRichEpochId⟩ := by
  have h : Endpoint.parse endRichEpochId = .ok ⟨endRichEpochId⟩ := (Extensible.mk' (by decide +kernel) (by decide +kernel) (by decide +kernel)).ok
  have hu : (richMessage id).1 = endRichEpochId := rfl
  rw [hu, h]

theorem rich_length (id : UInt64) : (richMessage id).2.length = 16 := by
  unfold richMessage
  simp only [encBuf, List.length_append, u64LE_length]

/-- C82 with C81: the announcement of an epoch, from the bytes that the network layer of the announcing node makes to the effect on a
node that receives them. -/
theorem C82_announcement {z : Compression} (hz : z.Lossless) (cfg : NodeCfg) (io : SyncIo) (n : Node) (sid : Nat) (id : UInt64) (h0 : id ≠ 0) (hlt : id.toNat + 1 < 2 ^ 64) :
    ∃ raw, packageGossip z (richMessage id).1 (richMessage id).2 = .ok raw ∧
      n.receive z cfg io sid raw = ([], n.step cfg (.sync io (u64LE (id.toNat + 1)))) := by
  have hs := (C81_heard cfg io n sid id h0 hlt).1
  have he := parse_rich id
  have hl := rich_length id
  generalize richMessage id = m at hs he hl ⊢
  obtain ⟨raw, h1, h2⟩ := (C82_gossip_arrives hz m.1 m.2 (by omega)).1 _ he
  refine ⟨raw, h1, ?_⟩
  unfold Node.receive
  rw [h2]
  simp only
  rw [hs]
  simp only [List.map_nil]

/-- C82 with C81: a batch of gossiped transactions, likewise. -/
theorem C82_new_txs {z : Compression} (hz : z.Lossless) (cfg : NodeCfg) (io : SyncIo) (n : Node) (sid : Nat) (txs : List SignedTx)
    (hc : ∀ t ∈ txs, t.raw.action.deploysNonAsset = false) (hl : (encMulti txs).length < 2 ^ 63) :
    ∃ raw, packageGossip z endNewTxs (encMulti txs) = .ok raw ∧ n.receive z cfg io sid raw = ([], n.run cfg (txs.map (.insertTx true true))) := by
  have he : Endpoint.parse endNewTxs = .ok ⟨endNewTxs⟩ := (Extensible.mk' (by decide +kernel) (by decide +kernel) (by decide +kernel)).ok
  obtain ⟨raw, h1, h2⟩ := (C82_gossip_arrives hz _ _ hl).1 _ he
  refine ⟨raw, h1, ?_⟩
  unfold Node.receive
  rw [h2]
  simp only
  rw [C81_new_txs_partial cfg io n sid txs hc (by omega)]
  rfl

/-- C82 with C53 and C67: a request for an epoch or for transactions that a node sends to a peer makes the peer hand exactly one message
to the transport, on the session the request came from, and when these bytes arrive the call that made the request returns the answer `a`
of the peer, whatever else goes on at both nodes.  Here for any answer that the peer's handler gives. -/
theorem C82_call {z : Compression} (hz : z.Lossless) (evs : List RpcEvent) (hn : (RpcState.after mainRpc evs).next ≤ 2 ^ 64) (c k : Nat)
    (x : RpcCall (RpcResponse ⊕ List SignedTx)) (hw : Waiting (RpcState.after mainRpc evs) c x) (hty : x.ty = Handler.respSync.ty)
    (hk : (RpcState.after mainRpc evs).takes k = none) (cfg : NodeCfg) (io : SyncIo) (peer : Node) (sid : Nat) (req : RpcRequest) (hreq : req.enc.length < 2 ^ 63)
    (a : RpcResponse) (hc : a.clean) (hl : a.enc.length < 2 ^ 63)
    (ha : match req with
      | .pullEpochs id => ∃ e, peer.store.epochs id = some e ∧ a = .pullEpochs e
      | .pullTxs hs => ∃ txs, List.Forall₂ (fun h tx => peer.store.txs h = some tx) hs txs ∧ a = .pullTxs txs) :
    ∃ raw raw', packageRpc z rpcSyncPull x.rid req.enc = .ok raw ∧ peer.receive z cfg io sid raw = ([(sid, raw')], peer) ∧
      (RpcState.after mainRpc (evs ++ rawEvent z k x.sid raw' ++ [.take k, .wake c])).calls c = some { x with phase := .finished (.ok (.inl a)) } := by
  obtain ⟨raw, h1, h2⟩ := C82_rpc_arrives hz rpcSyncPull _ ext_syncPull x.rid req.enc hreq
  have hs : peer.serve cfg io sid (idUrl rpcSyncPull x.rid) req.enc = ([⟨sid, idUrl rpcRespSyncPull x.rid, a.enc⟩], peer) := by
    cases req with
    | pullEpochs id => obtain ⟨e, he, rfl⟩ := ha; exact (C67_epoch cfg io peer sid x.rid id).1 e he
    | pullTxs l => obtain ⟨txs, he, rfl⟩ := ha; exact (C67_txs cfg io peer sid x.rid l (by omega)).1 txs he
  refine ⟨raw, z.compress (pbEncode (NetMsg.mk (idUrl rpcRespSyncPull x.rid) a.enc)), h1, ?_, ?_⟩
  · unfold Node.receive
    rw [h2]
    simp only
    rw [hs]
    rfl
  · have hu := unframe_frame hz (NetMsg.mk (idUrl rpcRespSyncPull x.rid) a.enc) (frame_fits (ext_respSync.extend x.rid).2.1 hl)
    have hr : rawEvent z k x.sid (z.compress (pbEncode (NetMsg.mk (idUrl rpcRespSyncPull x.rid) a.enc))) =
        [.receive k x.sid (idUrl rpcRespSyncPull x.rid) a.enc] := by
      unfold rawEvent; rw [hu]
    rw [hr, List.append_assoc]
    apply C53_answered mainRpc evs hn c k x _ _ _ hw hk
    rw [hty]
    exact served_isResponse x.rid a hc (by omega)

/-! ### Concrete cases -/

/-- A compression that is lossless: a byte in front, and only such strings can be decompressed. -/
def demoZip : Compression := ⟨fun b => 7 :: b, fun b => match b with | 7 :: b => some b | _ => none⟩

theorem demoZip_lossless : demoZip.Lossless := fun _ => rfl

/-- Garbage of both kinds, and a url that is no endpoint. -/
example : demoZip.decompress [1, 2] = none ∧
    (∃ b e, demoZip.decompress [7, 255] = some b ∧ (pbDecode b : PDec NetMsg) = .error e) ∧
    (packageGossip demoZip "/gossip/x".toList [1]).toOption = none ∧ (packageGossip demoZip endNewTxs [1]).toOption.isSome := by
  refine ⟨rfl, ⟨[255], .malformed, rfl, by rfl⟩, by decide +kernel, by decide +kernel⟩

open Demo in
/-- The bytes of the announcement of epoch 3 bring a node that stopped after epoch 1 to the state of the node that committed it. -/
example : ∃ raw, packageGossip demoZip (richMessage 3).1 (richMessage 3).2 = .ok raw ∧
    (e1.receive demoZip ncfg (peer e3) 5 raw).2.status.stateRoot = e3.status.stateRoot ∧ (e1.receive demoZip ncfg (peer e3) 5 raw).2.status.epochId = 4 := by
  obtain ⟨raw, h1, h2⟩ := C82_announcement demoZip_lossless ncfg (peer e3) e1 5 3 (by decide) (by decide)
  refine ⟨raw, h1, ?_⟩
  rw [h2]
  decide +kernel

open Demo in
/-- The hypotheses of `C82_call` are met by a call on session 5 for two transactions that the demonstration node has stored. -/
example : Waiting (RpcState.after mainRpc syncCall) 0 ⟨5, Handler.respSync.ty, 0, .sent⟩ ∧ (RpcState.after mainRpc syncCall).takes 0 = none ∧
    (RpcState.after mainRpc syncCall).next ≤ 2 ^ 64 ∧ (RpcResponse.pullTxs [npay 1 2 10, npay 2 1 5 1]).clean ∧
    List.Forall₂ (fun h tx => n2.store.txs h = some tx) [(npay 1 2 10).txHash, (npay 2 1 5 1).txHash] [npay 1 2 10, npay 2 1 5 1] := by
  have h1 : n2.store.txs (npay 1 2 10).txHash = some (npay 1 2 10) := by decide +kernel
  have h2 : n2.store.txs (npay 2 1 5 1).txHash = some (npay 2 1 5 1) := by decide +kernel
  refine ⟨⟨rfl, rfl, rfl⟩, rfl, by decide +kernel, ?_, .cons h1 (.cons h2 .nil)⟩
  intro t ht
  rcases List.mem_cons.mp ht with rfl | ht
  · rfl
  · rw [List.mem_singleton.mp ht]; rfl

end Huobi
