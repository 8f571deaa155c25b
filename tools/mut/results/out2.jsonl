{"id": "ep01", "definition": "maxEndpointLength", "edit": "120 becomes 121", "claim": "C66: urls longer than 120 bytes are rejected", "rc": 1, "secs": 4, "failed": ["Props/Endpoint:parse_spec", "Props/Endpoint:parse_ok"], "model_error": []}
{"id": "ep02", "definition": "Endpoint.parse", "edit": "four components no longer allowed", "claim": "C66", "rc": 1, "secs": 4, "failed": ["Props/Endpoint:parse_ok"], "model_error": []}
{"id": "ep03", "definition": "Endpoint.root", "edit": "root made of two components", "claim": "C66: endpoints differing in the third component are different", "rc": 1, "secs": 4, "failed": ["Props/Endpoint:C54_root"], "model_error": []}
{"id": "ep04", "definition": "Endpoint.parse", "edit": "scheme not checked", "claim": "C66", "rc": 1, "secs": 3, "failed": ["Props/Endpoint:parse_spec", "Props/Endpoint:parse_ok"], "model_error": []}
{"id": "ep05", "definition": "readDec", "edit": "overflow not detected", "claim": "C66: an id is read exactly or rejected", "rc": 1, "secs": 4, "failed": ["Props/Endpoint:readDec_append", "Props/Endpoint:readDec_showNat"], "model_error": []}
{"id": "ep06", "definition": "showNat", "edit": "digits reversed", "claim": "C66: rpc id round trip", "rc": 1, "secs": 3, "failed": ["Props/Endpoint:showNat_digits", "Props/Endpoint:readDec_showNat"], "model_error": []}
{"id": "ep07", "definition": "Reactors.register", "edit": "an earlier registration of the endpoint is kept first", "claim": "C67: last registration wins", "rc": 1, "secs": 4, "failed": ["Props/Endpoint:C54_register"], "model_error": []}
{"id": "ep08", "definition": "strLen", "edit": "counts characters instead of bytes", "claim": "C66", "rc": 1, "secs": 4, "failed": ["Props/Endpoint:strLen_showNat", "Props/Endpoint:C54_extend"], "model_error": []}
{"id": "rp01", "definition": "RpcState.take", "edit": "entry not removed", "claim": "C53: at most one response per call", "rc": 1, "secs": 5, "failed": ["Props/Rpc:RpcInv.step", "Props/Rpc:C53_answered", "Props/Rpc:example"], "model_error": []}
{"id": "rp02", "definition": "RpcState.take", "edit": "type not compared", "claim": "C53: a response of another type is not delivered", "rc": 1, "secs": 5, "failed": ["Props/Rpc:next_mono", "Props/Rpc:RpcInv.step", "Props/Rpc:chan_step", "Props/Rpc:C53_undisturbed", "Props/Rpc:C53_answered", "Props/Rpc:takes_step"], "model_error": []}
{"id": "rp03", "definition": "RpcState.step", "edit": "ids not incremented", "claim": "C53: two calls never share an id", "rc": 1, "secs": 5, "failed": ["Props/Rpc:RpcInv.step", "Props/Rpc:example"], "model_error": []}
{"id": "rp04", "definition": "RpcCall.key", "edit": "session ignored in the key", "claim": "C53: only the called session can answer", "rc": 1, "secs": 5, "failed": ["Props/Rpc:C53_genuine", "Props/Rpc:C53_one", "Props/Rpc:C53_undisturbed", "Props/Rpc:C53_answered", "Props/Rpc:C66_leak", "Props/Rpc:example"], "model_error": []}
{"id": "rp05", "definition": "RpcState.insert", "edit": "the overwritten sender is not dropped", "claim": "C53/C54", "rc": 0, "secs": 28, "failed": [], "model_error": []}
{"id": "rp06", "definition": "RpcCfg.response", "edit": "any scheme is taken for a response", "claim": "C53", "rc": 1, "secs": 5, "failed": ["Props/Rpc:response_spec"], "model_error": []}
{"id": "rp07", "definition": "RpcState.step", "edit": "a failed send leaves the call waiting", "claim": "C54: a call whose message cannot be sent returns an error", "rc": 0, "secs": 30, "failed": [], "model_error": []}
{"id": "rp08", "definition": "RpcState.take", "edit": "delivered to the wrong call", "claim": "C53", "rc": 1, "secs": 4, "failed": ["Props/Rpc:RpcInv.step", "Props/Rpc:chan_step", "Props/Rpc:C53_answered", "Props/Rpc:example"], "model_error": []}
{"id": "sv01", "definition": "respond", "edit": "rpc id not appended", "claim": "C30: the answer reaches the call it belongs to", "rc": 1, "secs": 23, "failed": ["Props/Server:respond_ext", "Props/Server:example"], "model_error": []}
{"id": "sv02", "definition": "rpcHandler", "edit": "answers with the latest epoch", "claim": "C30: the epoch asked for is returned", "rc": 1, "secs": 21, "failed": ["Props/Server:C67_epoch"], "model_error": []}
{"id": "sv03", "definition": "rpcHandler", "edit": "missing transactions are skipped", "claim": "C30: all transactions or no answer", "rc": 1, "secs": 20, "failed": ["Props/Server:C67_txs"], "model_error": []}
{"id": "sv04", "definition": "mainReactors", "edit": "sync requests registered for the push handler", "claim": "C30", "rc": 1, "secs": 23, "failed": ["Props/Server:mainReactors_eq", "Props/Server:route_syncPull"], "model_error": []}
{"id": "sv05", "definition": "RpcRequest.enc", "edit": "case numbers swapped in the encoder", "claim": "C30", "rc": 1, "secs": 21, "failed": ["Props/Server:RpcRequest.dec_enc"], "model_error": []}
{"id": "sv06", "definition": "newTxsHandler", "edit": "transactions inserted without the network-origin flag", "claim": "a received transaction is not broadcast again", "rc": 0, "secs": 22, "failed": [], "model_error": []}
{"id": "sv07", "definition": "mainReactors", "edit": "pull_txs registered for its own handler (the intended program)", "claim": "C30_refuted: the code registers the wrong handler", "rc": 1, "secs": 20, "failed": ["Props/Server:mainReactors_eq"], "model_error": []}
{"id": "sv08", "definition": "Node.serve", "edit": "an update message is ignored", "claim": "C67: messages reach their handler", "rc": 0, "secs": 29, "failed": [], "model_error": []}
{"id": "sv09", "definition": "pullTxsHandler", "edit": "answers to another session", "claim": "C30", "rc": 1, "secs": 24, "failed": ["Props/Server:C30_partial", "Props/Server:example"], "model_error": []}
{"id": "cn01", "definition": "ConnSvc.single", "edit": "a busy command is dropped", "claim": "C60: a command is not lost while the transport is open", "rc": 1, "secs": 3, "failed": ["Props/Connection:process_spec", "Props/Connection:example"], "model_error": []}
{"id": "cn02", "definition": "ConnSvc.receive", "edit": "keeps receiving although something is pending", "claim": "C60: commands are not reordered", "rc": 1, "secs": 3, "failed": ["Props/Connection:receive_inv", "Props/Connection:receive_progress", "Props/Connection:example"], "model_error": []}
{"id": "cn03", "definition": "ConnSvc.dials", "edit": "a busy address is forgotten", "claim": "C60", "rc": 1, "secs": 3, "failed": ["Props/Connection:dials_spec", "Props/Connection:C60_refuted", "Props/Connection:example"], "model_error": []}
{"id": "cn04", "definition": "ConnSvc.poll", "edit": "pending commands are not retried", "claim": "C60", "rc": 1, "secs": 5, "failed": ["Props/Connection:poll_inv", "Props/Connection:C60_progress_partial", "Props/Connection:C60_eventually_issued_partial", "Props/Connection:C60_refuted", "Props/Connection:example"], "model_error": []}
{"id": "cn05", "definition": "ConnSvc.poll", "edit": "pending commands are kept and retried: executed twice", "claim": "C60: a command is executed once", "rc": 1, "secs": 3, "failed": ["Props/Connection:poll_inv", "Props/Connection:C60_progress_partial", "Props/Connection:C60_eventually_issued_partial", "Props/Connection:example"], "model_error": []}
{"id": "cn06", "definition": "usersSend", "edit": "missed users not reported", "claim": "C55", "rc": 1, "secs": 3, "failed": ["Props/Connection:PM.C55_users_send"], "model_error": []}
{"id": "cn07", "definition": "ConnSvc.process", "edit": "left-over addresses: all addresses retried", "claim": "C60: an accepted address is dialled once", "rc": 1, "secs": 3, "failed": ["Props/Connection:process_spec", "Props/Connection:C60_refuted"], "model_error": []}
{"id": "cn08", "definition": "DialError.event", "edit": "a time-out is reported as unconnectable", "claim": "C68: a peer is not forgotten because of a time-out", "rc": 0, "secs": 5, "failed": [], "model_error": []}
{"id": "pe01", "definition": "PM.attach", "edit": "sessionPeer not updated", "claim": "C57: the two session tables agree", "rc": 1, "secs": 5, "failed": ["Props/PeerManager:attach_tables", "Props/PeerManager:C56_refuted", "Props/PeerManager:C56_refuted_kicks_live_peer", "Props/PeerManager:example"], "model_error": []}
{"id": "pe02", "definition": "PM.closeSession", "edit": "session of the peer not removed", "claim": "C57", "rc": 1, "secs": 5, "failed": ["Props/PeerManager:close_peerSession", "Props/PeerManager:example", "Props/PeerManager:C56_refuted", "Props/PeerManager:C56_refuted_kicks_live_peer"], "model_error": []}
{"id": "pe03", "definition": "PM.cleanlyRemove", "edit": "bootstrap peers are removed too", "claim": "C58: bootstrap peers are never forgotten", "rc": 1, "secs": 4, "failed": ["Props/PeerManager:Kept.cleanlyRemove", "Props/PeerManager:cleanlyRemove_closes", "Props/PeerManager:bootKeep_cleanlyRemove", "Props/PeerManager:example", "Props/PeerManager:cleanlyRemove_unknown", "Props/PeerManager:NoRetry.step", "Props/PeerManager:Dialling.removeOther"], "model_error": []}
{"id": "pe04", "definition": "PM.unconnectable", "edit": "bootstrap addresses are removed", "claim": "C58", "rc": 1, "secs": 4, "failed": ["Props/PeerManager:quiet_unconnectable", "Props/PeerManager:bootKeep_step", "Props/PeerManager:example", "Props/PeerManager:NoRetry.step", "Props/PeerManager:Dialling.step"], "model_error": []}
{"id": "pe05", "definition": "PM.connectPeer", "edit": "a connected peer is also marked connecting", "claim": "C56: connected and connecting are disjoint", "rc": 1, "secs": 4, "failed": ["Props/PeerManager:CountInv.dial", "Props/PeerManager:C58_round_partial"], "model_error": []}
{"id": "pe06", "definition": "PM.setConnected", "edit": "stays in connecting", "claim": "C56", "rc": 1, "secs": 4, "failed": ["Props/PeerManager:attach_tables"], "model_error": []}
{"id": "pe07", "definition": "PM.routeUsers", "edit": "users without a peer are not reported", "claim": "C55: every user is reached or reported", "rc": 1, "secs": 4, "failed": ["Props/PeerManager:routeUsers_spec", "Props/PeerManager:example"], "model_error": []}
{"id": "pe08", "definition": "PM.route", "edit": "only users without a session are reported", "claim": "C55", "rc": 1, "secs": 4, "failed": ["Props/PeerManager:C55_each_addressee_sent_or_missed", "Props/PeerManager:example"], "model_error": []}
{"id": "pe09", "definition": "PM.qualified", "edit": "a connecting peer is dialled again", "claim": "C59: no peer is dialled twice at a time", "rc": 1, "secs": 4, "failed": ["Props/PeerManager:C58_round_partial", "Props/PeerManager:C58_refuted_rounds", "Props/PeerManager:connecting_not_chosen"], "model_error": []}
{"id": "pe10", "definition": "PM.routine", "edit": "limit not looked at", "claim": "C59: dialling stops at the maximum", "rc": 1, "secs": 4, "failed": ["Props/PeerManager:C58_round_partial"], "model_error": []}
{"id": "pe11", "definition": "PM.disconnectPeer", "edit": "stays connected", "claim": "C56", "rc": 1, "secs": 4, "failed": ["Props/PeerManager:close_connected", "Props/PeerManager:C58_refuted"], "model_error": []}
{"id": "pe12", "definition": "PM.removePeer", "edit": "addresses of the peer stay mapped", "claim": "C57: every mapped address belongs to a known peer", "rc": 0, "secs": 8, "failed": [], "model_error": []}
{"id": "pe13", "definition": "PM.removePeer", "edit": "user mapping stays", "claim": "C57", "rc": 1, "secs": 4, "failed": ["Props/PeerManager:remove_userPid"], "model_error": []}
{"id": "pe14", "definition": "PM.reachMaxRetry", "edit": "one retry too early", "claim": "C68: forgotten only after 6 retries", "rc": 1, "secs": 5, "failed": ["Props/PeerManager:Dialling.increase"], "model_error": []}
{"id": "pe15", "definition": "Peer.increaseRetry", "edit": "counts attempts within the interval", "claim": "C68", "rc": 0, "secs": 9, "failed": [], "model_error": []}
{"id": "pe16", "definition": "Peer.increaseRetry", "edit": "no backoff", "claim": "C59: a failed peer is not dialled before its backoff", "rc": 0, "secs": 8, "failed": [], "model_error": []}
{"id": "pe17", "definition": "PM.detach", "edit": "a short session is not counted", "claim": "C68", "rc": 1, "secs": 4, "failed": ["Props/PeerManager:Kept.detach", "Props/PeerManager:detach_closes", "Props/PeerManager:bootKeep_step", "Props/PeerManager:NoRetry.step"], "model_error": []}
{"id": "pe18", "definition": "PM.route", "edit": "message sent to nobody", "claim": "C55", "rc": 1, "secs": 4, "failed": ["Props/PeerManager:C55_each_addressee_sent_or_missed", "Props/PeerManager:example"], "model_error": []}
{"id": "pe19", "definition": "PM.matchPid", "edit": "peer id of the address not compared", "claim": "C57/C59: an address with another peer id does not count for the peer", "rc": 0, "secs": 9, "failed": [], "model_error": []}
{"id": "pe20", "definition": "PM.identifyAddr", "edit": "address of an unconnected known peer added to the unknown ones", "claim": "C59", "rc": 1, "secs": 5, "failed": ["Props/PeerManager:quiet_identifyAddr", "Props/PeerManager:NoRetry.step"], "model_error": []}
{"id": "pe21", "definition": "PM.addSessionAddr", "edit": "the address stays unknown", "claim": "C59", "rc": 1, "secs": 4, "failed": ["Props/PeerManager:bootKeep_step", "Props/PeerManager:NoRetry.step"], "model_error": []}
{"id": "pe22", "definition": "PM.step retryLater", "edit": "session not closed", "claim": "C56", "rc": 0, "secs": 9, "failed": [], "model_error": []}
{"id": "pe23", "definition": "PM.new", "edit": "we are not in the connected set", "claim": "C59/C56: the own id counts as connected", "rc": 1, "secs": 4, "failed": ["Props/PeerManager:CountInv.keptStart", "Props/PeerManager:C58_refuted_rounds"], "model_error": []}
{"id": "oc01", "definition": "OverlordCrypto.verifySignature", "edit": "signature and hash swapped", "claim": "C44/C45", "rc": 1, "secs": 22, "failed": ["Props/OverlordCrypto:C42_partial"], "model_error": []}
{"id": "oc02", "definition": "OverlordCrypto.verifySignature", "edit": "32 bytes of public key", "claim": "C44", "rc": 1, "secs": 21, "failed": ["Props/OverlordCrypto:C42_partial"], "model_error": []}
{"id": "oc03", "definition": "OverlordCrypto.sign", "edit": "public key after the signature", "claim": "C44: what is signed verifies", "rc": 1, "secs": 22, "failed": ["Props/OverlordCrypto:C42_partial"], "model_error": []}
{"id": "oc04", "definition": "OverlordCrypto.verifySignature", "edit": "bound < 33 becomes < 32", "claim": "C44: short signatures abort exactly below 33 bytes", "rc": 1, "secs": 19, "failed": ["Props/OverlordCrypto:C42_crash_refuted"], "model_error": []}
{"id": "me01", "definition": "merkleMerge", "edit": "arguments swapped", "claim": "C46: the root of two leaves is digest(left ++ right)", "rc": 1, "secs": 6, "failed": ["Props/Merkle:IdxTree.eval_inj", "Props/Merkle:C52_refuted", "Props/Merkle:example"], "model_error": []}
{"id": "me02", "definition": "merkleMerge", "edit": "right child ignored", "claim": "C46: changing a leaf changes the root", "rc": 1, "secs": 7, "failed": ["Props/Merkle:IdxTree.eval_inj", "Props/Merkle:C52_refuted", "Props/Merkle:example"], "model_error": []}
{"id": "me03", "definition": "merkleRoot", "edit": "empty input has a root", "claim": "C46", "rc": 1, "secs": 7, "failed": ["Props/Merkle:C52_merkle_partial"], "model_error": []}
{"id": "ap01", "definition": "fromStrRadix16", "edit": "overflow wraps", "claim": "C47", "rc": 1, "secs": 9, "failed": ["Props/Api:C51_u64_accepts_partial"], "model_error": []}
{"id": "ap02", "definition": "coverRaw", "edit": "nonce and chain id swapped", "claim": "C48", "rc": 1, "secs": 10, "failed": ["Props/Api:coverSigned_writes", "Props/Api:C62_fields_determine"], "model_error": []}
{"id": "ap03", "definition": "coverRaw", "edit": "timeout and cycle swapped", "claim": "C48", "rc": 1, "secs": 8, "failed": ["Props/Api:coverSigned_writes", "Props/Api:C62_fields_determine"], "model_error": []}
{"id": "ap04", "definition": "coverSigned", "edit": "signature and public key swapped", "claim": "C48", "rc": 1, "secs": 9, "failed": ["Props/Api:coverSigned_writes", "Props/Api:C62_fields_determine"], "model_error": []}
{"id": "ap05", "definition": "coverTransfer", "edit": "fee asset carried", "claim": "C48", "rc": 1, "secs": 8, "failed": ["Props/Api:C62_submitted_transaction"], "model_error": []}
{"id": "ap06", "definition": "showU64", "edit": "little endian", "claim": "C47", "rc": 1, "secs": 8, "failed": ["Props/Api:C51_round_trip", "Props/Api:example"], "model_error": []}
{"id": "ap07", "definition": "stripPlus", "edit": "+ not accepted", "claim": "C47", "rc": 1, "secs": 8, "failed": ["Props/Api:C51_round_trip", "Props/Api:C51_u64_accepts_partial", "Props/Api:C51_malformed_refuted"], "model_error": []}
{"id": "ms01", "definition": "u64LE", "edit": "big endian", "claim": "C49/C50: message bodies round trip", "rc": 1, "secs": 158, "failed": ["Props/Messages:natOfLE_u64LE", "Props/Messages:C50_refuted"], "model_error": []}
{"id": "ms02", "definition": "readBuf", "edit": "`<` becomes `\u2264`", "claim": "C50", "rc": 1, "secs": 132, "failed": ["Props/Messages:readBuf_encBuf", "Props/Messages:C50_refuted"], "model_error": []}
{"id": "ms03", "definition": "flagTxs", "edit": "same flag for both", "claim": "C50", "rc": 1, "secs": 98, "failed": ["Props/Messages:C50_round_trip_partial", "Props/Messages:C50_kind", "Props/Messages:C50_refuted"], "model_error": []}
{"id": "ms04", "definition": "readElems", "edit": "only the first element", "claim": "C50", "rc": 1, "secs": 102, "failed": ["Props/Messages:readElems_enc"], "model_error": []}
{"id": "ms05", "definition": "RpcResponse.dec", "edit": "an unknown flag is an error instead of an abort", "claim": "C51 (refuted): a malformed answer aborts", "rc": 1, "secs": 90, "failed": ["Props/Messages:C50_panic_iff", "Props/Messages:C50_refuted"], "model_error": []}
{"id": "hx01", "definition": "hexDigit", "edit": "upper case", "claim": "C47: shown as lower case digits", "rc": 1, "secs": 358, "failed": ["Props/Api:toLower_hexDigit"], "model_error": []}
{"id": "hx02", "definition": "hexVal", "edit": "g accepted", "claim": "C47", "rc": 1, "secs": 319, "failed": ["Props/Api:hexDecode_some"], "model_error": []}
{"id": "hx03", "definition": "hexEncode", "edit": "nibbles swapped", "claim": "C47", "rc": 1, "secs": 53, "failed": ["Proof/Hex:hexDecode_hexEncode"], "model_error": []}
{"id": "hx04", "definition": "hexDecode", "edit": "odd trailing digit ignored", "claim": "C47", "rc": 1, "secs": 344, "failed": ["Props/Api:hexDecode_some", "Props/Api:C51_malformed_refuted"], "model_error": []}
{"id": "hx05", "definition": "clean0x", "edit": "0X prefix instead of 0x", "claim": "C47", "rc": 1, "secs": 44, "failed": ["Proof/Hex:clean0x_hexEncode"], "model_error": []}
