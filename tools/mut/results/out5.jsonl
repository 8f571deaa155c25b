{"id": "mp14", "definition": "MemPool.ensureOrderTxs", "edit": "count of the answer not compared", "claim": "C28", "rc": 1, "secs": 197, "failed": ["Props/Mempool2:C27_incomplete_answer_rejected"], "model_error": []}
{"id": "rp05", "definition": "RpcState.insert", "edit": "the overwritten sender is not dropped", "claim": "C53/C54", "rc": 1, "secs": 5, "failed": ["Props/Rpc:C66_reused_id"], "model_error": []}
{"id": "rp07", "definition": "RpcState.step", "edit": "a failed send leaves the call waiting", "claim": "C54: a call whose message cannot be sent returns an error", "rc": 1, "secs": 5, "failed": ["Props/Rpc:C66_unsent", "Props/Rpc:example"], "model_error": []}
{"id": "sv08", "definition": "Node.serve", "edit": "an update message is ignored", "claim": "C67: messages reach their handler", "rc": 1, "secs": 37, "failed": ["Props/Server2:serve_rich", "Props/Server2:example"], "model_error": []}
{"id": "cn08", "definition": "DialError.event", "edit": "a time-out is reported as unconnectable", "claim": "C68: a peer is not forgotten because of a time-out", "rc": 1, "secs": 6, "failed": ["Props/PeerManager2:C74_timed_out_dial_keeps_address"], "model_error": []}
{"id": "pe12", "definition": "PM.removePeer", "edit": "addresses of the peer stay mapped", "claim": "C57: every mapped address belongs to a known peer", "rc": 1, "secs": 11, "failed": ["Props/PeerManager2:AddrInv.removePeer", "Props/PeerManager2:example"], "model_error": []}
{"id": "pe15", "definition": "Peer.increaseRetry", "edit": "counts attempts within the interval", "claim": "C68", "rc": 1, "secs": 12, "failed": ["Props/PeerManager2:Counted.after", "Props/PeerManager2:forgotten_after", "Props/PeerManager2:C75_round_waits_partial", "Props/PeerManager2:C77_refuted"], "model_error": []}
{"id": "pe16", "definition": "Peer.increaseRetry", "edit": "no backoff", "claim": "C59: a failed peer is not dialled before its backoff", "rc": 1, "secs": 11, "failed": ["Props/PeerManager2:pause_kept", "Props/PeerManager2:C75_round_waits_partial", "Props/PeerManager2:example"], "model_error": []}
{"id": "pe19", "definition": "PM.matchPid", "edit": "peer id of the address not compared", "claim": "C57/C59: an address with another peer id does not count for the peer", "rc": 1, "secs": 11, "failed": ["Props/PeerManager2:matchPid_some", "Props/PeerManager2:example"], "model_error": []}
{"id": "pe22", "definition": "PM.step retryLater", "edit": "session not closed", "claim": "C56", "rc": 1, "secs": 11, "failed": ["Props/Keeper:hear_table", "Props/Keeper:example", "Props/PeerManager2:C77_session_closed_partial", "Props/PeerManager2:example"], "model_error": []}
{"id": "co03", "definition": "Node.getEpoch", "edit": "own hash not exempted", "claim": "C37: own proposals are not checked again", "rc": 1, "secs": 297, "failed": ["Props/Proposal:getEpoch_ok", "Props/Proposal:exempt_step"], "model_error": []}
{"id": "co04", "definition": "Node.getEpoch", "edit": "order root over the proposed hashes", "claim": "C36: header matches body", "rc": 1, "secs": 324, "failed": ["Props/Proposal:getEpoch_ok"], "model_error": []}
{"id": "co26", "definition": "Node.exec", "edit": "failed execution reported as success is impossible: panic becomes an error", "claim": "C10", "rc": 1, "secs": 283, "failed": ["Props/Poison:C10_commit_panics_refuted"], "model_error": []}
