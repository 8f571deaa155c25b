{"id": "au01", "definition": "authorityOf", "edit": "not sorted", "claim": "C69: all nodes hand the same list to the consensus", "rc": 1, "secs": 30, "failed": ["Props/Authority:authorityOf_perm", "Props/Authority:authorityOf_sorted", "Props/Authority:example"], "model_error": []}
{"id": "au02", "definition": "OvNode.ofValidator", "edit": "weights swapped", "claim": "C69: each validator with its weights", "rc": 1, "secs": 30, "failed": ["Props/Authority:C69_authorities", "Props/Authority:handsOver_authority"], "model_error": []}
{"id": "au03", "definition": "Node.commitOvStatus", "edit": "status with the old height", "claim": "C69: the status after a commit names the next height", "rc": 1, "secs": 28, "failed": ["Props/Authority:example"], "model_error": []}
{"id": "au04", "definition": "Node.syncOvStatus", "edit": "the status before the synchronisation is sent", "claim": "C64/C69", "rc": 1, "secs": 27, "failed": ["Props/Authority:C69_authorities", "Props/Authority:example"], "model_error": []}
{"id": "au05", "definition": "Node.getAuthorityList", "edit": "list of the epoch before", "claim": "C70: the list of the height asked for", "rc": 1, "secs": 31, "failed": ["Props/Authority:C70_partial", "Props/Authority:C70_refuted", "Props/Authority:example"], "model_error": []}
{"id": "au06", "definition": "configValidators", "edit": "weights 0", "claim": "C69", "rc": 1, "secs": 28, "failed": ["Props/Authority:configValidators_weight", "Props/Authority:configValidators_perm", "Props/Authority:example"], "model_error": []}
{"id": "au07", "definition": "configValidators", "edit": "bad entries are skipped", "claim": "C69: a bad configuration is refused", "rc": 1, "secs": 31, "failed": ["Props/Authority:configValidators_weight", "Props/Authority:configValidators_perm"], "model_error": []}
{"id": "au08", "definition": "Node.ovStatus", "edit": "interval not sent", "claim": "C69", "rc": 1, "secs": 31, "failed": ["Props/Authority:C69_authorities", "Props/Authority:example"], "model_error": []}
{"id": "au09", "definition": "relayTarget", "edit": "first twenty bytes of anything", "claim": "C69: a vote goes to the validator named", "rc": 1, "secs": 32, "failed": ["Props/Authority:C69_relay"], "model_error": []}
{"id": "as01", "definition": "HeaderView.of", "edit": "previous hash shows the state root", "claim": "C71", "rc": 1, "secs": 29, "failed": ["Props/ApiServer:shows_of"], "model_error": []}
{"id": "as02", "definition": "HeaderView.of", "edit": "cycles and timestamp swapped", "claim": "C71", "rc": 1, "secs": 30, "failed": ["Props/ApiServer:shows_of"], "model_error": []}
{"id": "as03", "definition": "EpochView.of", "edit": "transaction hashes reversed", "claim": "C71: the hashes in the order of the epoch", "rc": 1, "secs": 32, "failed": ["Props/ApiServer:shows_of"], "model_error": []}
{"id": "as04", "definition": "Api.readOptU64", "edit": "an unreadable height means the latest", "claim": "C71: an unreadable height is an error", "rc": 1, "secs": 33, "failed": ["Props/ApiServer:C71_epoch", "Props/ApiServer:example"], "model_error": []}
{"id": "as05", "definition": "Node.apiEpoch", "edit": "height ignored", "claim": "C71", "rc": 1, "secs": 32, "failed": ["Props/ApiServer:C71_epoch", "Props/ApiServer:example"], "model_error": []}
{"id": "as06", "definition": "Node.apiGetBalance", "edit": "arguments swapped is ill-typed: height ignored", "claim": "C73/C16: balance at the height asked for", "rc": 1, "secs": 34, "failed": ["Props/ApiServer:C73_refuted", "Props/ApiServer:C73_refuted_root", "Props/ApiServer:C73_refuted_witness", "Props/ApiServer:C73_partial"], "model_error": []}
{"id": "as07", "definition": "Node.apiGetBalance", "edit": "one too many", "claim": "C73", "rc": 1, "secs": 30, "failed": ["Props/ApiServer:C73_refuted_witness", "Props/ApiServer:C73_partial"], "model_error": []}
{"id": "as08", "definition": "Node.apiInsert", "edit": "error reported as success", "claim": "C72", "rc": 1, "secs": 69, "failed": [], "model_error": []}
{"id": "as09", "definition": "Node.apiInsert", "edit": "the pool is not updated", "claim": "C72: the transaction is in the pool", "rc": 1, "secs": 84, "failed": [], "model_error": []}
{"id": "as10", "definition": "Node.apiInsert", "edit": "marked as coming from the network", "claim": "C80: a submitted transaction is gossiped", "rc": 1, "secs": 31, "failed": ["Props/ApiServer:C72_unsafe_accepted"], "model_error": []}
{"id": "as11", "definition": "Node.apiSend", "edit": "returns an empty answer", "claim": "C72: the returned hash", "rc": 1, "secs": 27, "failed": ["Props/ApiServer:C72_send", "Props/ApiServer:example"], "model_error": []}
{"id": "as12", "definition": "Api.genSig", "edit": "public key and signature swapped", "claim": "C72: carries that key's public key and signature", "rc": 1, "secs": 25, "failed": ["Props/ApiServer:genSig_some", "Props/ApiServer:C72_unsafe_accepted"], "model_error": []}
{"id": "as13", "definition": "Node.apiSendUnsafe", "edit": "hash of something else", "claim": "C72", "rc": 1, "secs": 28, "failed": ["Props/ApiServer:C72_unsafe_accepted", "Props/ApiServer:example"], "model_error": []}
{"id": "as14", "definition": "Node.sendDeploy", "edit": "ill-typed variant: refused deploys reported as done", "claim": "C72", "rc": 1, "secs": 31, "failed": ["Props/ApiServer:C72_send"], "model_error": []}
{"id": "fr01", "definition": "NetMsg.ofPb", "edit": "reads the content from field 3", "claim": "C82", "rc": 1, "secs": 12, "failed": ["Props/Frame:netMsg_prt"], "model_error": []}
{"id": "fr02", "definition": "NetMsg.pb", "edit": "content left out", "claim": "C82", "rc": 1, "secs": 12, "failed": ["Props/Frame:netMsg_prt", "Props/Frame:frame_length"], "model_error": []}
{"id": "fr03", "definition": "packageRpc", "edit": "call number not put into the url", "claim": "C82: the call number arrives", "rc": 1, "secs": 12, "failed": ["Props/Frame:C82_rpc_arrives"], "model_error": []}
{"id": "fr04", "definition": "packageGossip", "edit": "not compressed", "claim": "C82", "rc": 1, "secs": 12, "failed": ["Props/Frame:C82_gossip_arrives"], "model_error": []}
{"id": "fr05", "definition": "unframe", "edit": "a message that does not decompress is read as it is", "claim": "C82: garbage is not handled", "rc": 1, "secs": 11, "failed": ["Props/Frame:C82_garbage"], "model_error": []}
{"id": "fr06", "definition": "Node.receive", "edit": "replies go to session 0", "claim": "C82/C67: the reply goes to the session of the request", "rc": 1, "secs": 9, "failed": ["Props/Frame:C82_call"], "model_error": []}
{"id": "fr07", "definition": "Node.receive", "edit": "replies not framed", "claim": "C82", "rc": 1, "secs": 13, "failed": ["Props/Frame:C82_call"], "model_error": []}
{"id": "fr08", "definition": "rawEvent", "edit": "session not passed on", "claim": "C82/C66: an answer counts only from the peer asked", "rc": 1, "secs": 12, "failed": ["Props/Frame:C82_call"], "model_error": []}
{"id": "fr09", "definition": "Node.receive", "edit": "node not updated", "claim": "C82/C81: a received message takes effect", "rc": 1, "secs": 11, "failed": ["Props/Frame:C82_announcement", "Props/Frame:C82_new_txs"], "model_error": []}
{"id": "fr10", "definition": "packageGossip", "edit": "endpoint not checked", "claim": "C82: a bad endpoint is an error", "rc": 1, "secs": 10, "failed": ["Props/Frame:C82_gossip_arrives", "Props/Frame:example"], "model_error": []}
{"id": "ke01", "definition": "SvcEvent.report", "edit": "closed sessions not reported", "claim": "C83: a closed session is not used again", "rc": 1, "secs": 1, "failed": ["Props/Keeper:Heard.open", "Props/Keeper:example"], "model_error": []}
{"id": "ke02", "definition": "SvcEvent.report", "edit": "opened sessions not reported", "claim": "C83/C55: a connected user is reached", "rc": 1, "secs": 2, "failed": ["Props/Keeper:Heard.open", "Props/Keeper:C84_refuted", "Props/Keeper:example"], "model_error": []}
{"id": "ke03", "definition": "SvcEvent.report", "edit": "direction of the session swapped", "claim": "C76: the address of an inbound session is not taken for the address of the peer", "rc": 1, "secs": 2, "failed": ["Props/Keeper:Heard.open"], "model_error": []}
{"id": "ke04", "definition": "PingEvent.report", "edit": "a ping time-out counts as a sign of life", "claim": "C74/C77: a peer that times out is retried later", "rc": 1, "secs": 2, "failed": ["Props/Keeper:example"], "model_error": []}
{"id": "ke05", "definition": "PingEvent.report", "edit": "a ping counts as a failure", "claim": "C74: a peer that answers is not forgotten", "rc": 0, "secs": 4, "failed": [], "model_error": []}
{"id": "ke06", "definition": "SvcError.report", "edit": "session time-out removes the peer", "claim": "C74: a peer is not forgotten because of a time-out", "rc": 0, "secs": 4, "failed": [], "model_error": []}
{"id": "ke07", "definition": "SvcError.report", "edit": "a blocked session is ignored", "claim": "C84: an offender is cut off", "rc": 1, "secs": 2, "failed": ["Props/Keeper:offence_effect"], "model_error": []}
{"id": "ke08", "definition": "SvcError.report", "edit": "protocol errors ignored", "claim": "C84", "rc": 1, "secs": 2, "failed": ["Props/Keeper:offence_effect", "Props/Keeper:example"], "model_error": []}
{"id": "ke09", "definition": "SvcError.report", "edit": "listen errors handled as dial errors", "claim": "C68/C74: own listening address", "rc": 0, "secs": 4, "failed": [], "model_error": []}
{"id": "ke10", "definition": "SvcError.report", "edit": "muxer error removes the peer", "claim": "C74", "rc": 0, "secs": 4, "failed": [], "model_error": []}
{"id": "ke11", "definition": "NetIn.report", "edit": "misbehaving peers tolerated", "claim": "C84", "rc": 0, "secs": 4, "failed": [], "model_error": []}
{"id": "ke12", "definition": "NetIn.report", "edit": "discovered addresses dropped", "claim": "C76: discovered addresses are not lost", "rc": 0, "secs": 3, "failed": [], "model_error": []}
{"id": "ke13", "definition": "SvcError.report", "edit": "unnamed protocol mismatch removes the peer", "claim": "C74", "rc": 0, "secs": 3, "failed": [], "model_error": []}
{"id": "sg01", "definition": "richMessage", "edit": "the committed height is announced instead of the next", "claim": "C81", "rc": 1, "secs": 35, "failed": ["Props/Server2:C81_heard", "Props/Server2:example"], "model_error": []}
{"id": "sg02", "definition": "richMessage", "edit": "raw bytes without length", "claim": "C81: the announcement can be read", "rc": 1, "secs": 59, "failed": ["Props/Server2:C81_heard", "Props/Server2:example"], "model_error": []}
{"id": "sg03", "definition": "Node.commitSends", "edit": "announced also if the commit failed", "claim": "C81: a failed commit announces nothing", "rc": 1, "secs": 39, "failed": ["Props/Server2:C81_announces"], "model_error": []}
{"id": "sg04", "definition": "Node.commitSends", "edit": "announced twice", "claim": "C81: announced once", "rc": 1, "secs": 39, "failed": ["Props/Server2:C81_announces"], "model_error": []}
{"id": "sg05", "definition": "newTxsOrigin", "edit": "received transactions are taken for local ones", "claim": "C80: gossip does not circulate", "rc": 1, "secs": 42, "failed": ["Props/Server2:C80_received_not_gossiped"], "model_error": []}
{"id": "sg06", "definition": "gossips", "edit": "rejected transactions are gossiped", "claim": "C80", "rc": 1, "secs": 333, "failed": ["Props/Server2:gossips_network", "Props/Server2:C80_local_gossiped", "Props/Server2:example"], "model_error": []}
{"id": "sg07", "definition": "gossips", "edit": "nothing is gossiped", "claim": "C80", "rc": 1, "secs": 293, "failed": ["Props/Server2:C80_local_gossiped", "Props/Server2:example"], "model_error": []}
{"id": "sg08", "definition": "newTxsHandler", "edit": "first transaction only", "claim": "C81: every transaction of a batch", "rc": 1, "secs": 37, "failed": ["Props/Server2:C81_new_txs_partial"], "model_error": []}
{"id": "sg09", "definition": "Node.serve", "edit": "announcements not acted on", "claim": "C81", "rc": 1, "secs": 34, "failed": ["Props/Server2:serve_rich", "Props/Server2:example"], "model_error": []}
{"id": "sg10", "definition": "pullTxsHandler", "edit": "answers with no transactions when some are missing", "claim": "C30: all or nothing", "rc": 1, "secs": 24, "failed": ["Props/Server:C30_partial"], "model_error": []}
{"id": "cc11", "definition": "Sys.stepPk", "edit": "omitted transactions are dropped instead of moved", "claim": "C21: an accepted transaction is not lost", "rc": 1, "secs": 4, "failed": ["Proof/TxCacheConc:Inv.stepPk"], "model_error": []}
{"id": "cc12", "definition": "Sys.stepPk", "edit": "does not wait for insertions under way", "claim": "C21", "rc": 1, "secs": 4, "failed": ["Proof/TxCacheConc:Inv.stepPk"], "model_error": []}
{"id": "cc13", "definition": "Sys.stepIns", "edit": "reads the role before counting itself", "claim": "C21", "rc": 1, "secs": 4, "failed": ["Proof/TxCacheConc:Inv.stepIns"], "model_error": []}
{"id": "cc14", "definition": "Sys.stepIns", "edit": "pushes before entering the map", "claim": "C18/C21", "rc": 1, "secs": 4, "failed": ["Proof/TxCacheConc:Inv.stepIns"], "model_error": []}
{"id": "cc15", "definition": "Sys.stepPk", "edit": "expired ones stay in the map", "claim": "C21/C25: expired transactions leave the pool", "rc": 1, "secs": 5, "failed": ["Proof/TxCacheConc:Inv.stepPk"], "model_error": []}
{"id": "cc16", "definition": "Sys.stepIns", "edit": "map entry kept after a failed push", "claim": "C21: a rejected transaction leaves no trace", "rc": 1, "secs": 164, "failed": ["Props/TxCacheConc2:Owned.step", "Props/TxCacheConc2:Bound.step"], "model_error": []}
{"id": "cc17", "definition": "Sys.stepIns", "edit": "limit not compared", "claim": "C25: concurrent bound", "rc": 1, "secs": 158, "failed": ["Props/TxCacheConc2:Bound.step", "Props/TxCacheConc2:example"], "model_error": []}
{"id": "cc18", "definition": "Sys.stepIns", "edit": "limit compared one too late", "claim": "C25", "rc": 1, "secs": 39, "failed": ["Props/TxCacheConc:example"], "model_error": []}
{"id": "pm01", "definition": "Peer.resetRetry", "edit": "nothing reset", "claim": "C74: a sign of life starts the count afresh", "rc": 1, "secs": 10, "failed": ["Props/PeerManager2:forgotten_after", "Props/PeerManager2:C74_fresh"], "model_error": []}
{"id": "pm02", "definition": "Peer.retryReady", "edit": "ready at once", "claim": "C75", "rc": 1, "secs": 6, "failed": ["Props/PeerManager:C58_round_partial"], "model_error": []}
{"id": "pm03", "definition": "PM.addPeer", "edit": "user not registered", "claim": "C55/C56", "rc": 1, "secs": 6, "failed": ["Props/PeerManager:UserInv.kept", "Props/PeerManager:UserInv.keptStart", "Props/PeerManager:example"], "model_error": []}
{"id": "pm04", "definition": "PM.addPeerAddr", "edit": "address not mapped", "claim": "C76", "rc": 1, "secs": 12, "failed": ["Props/PeerManager2:AddrInv.addPeerAddr", "Props/PeerManager2:identify_facts", "Props/PeerManager2:identify_addrPid", "Props/PeerManager2:example"], "model_error": []}
{"id": "pm05", "definition": "PM.identifyAddr", "edit": "unknown address not kept", "claim": "C76: an address is neither known nor lost", "rc": 1, "secs": 7, "failed": ["Props/PeerManager:C58_refuted_rounds", "Props/PeerManager:NoRetry.step", "Props/PeerManager:example"], "model_error": []}
{"id": "pm06", "definition": "PM.cleanlyRemove", "edit": "session left open in the tables", "claim": "C56/C83", "rc": 1, "secs": 6, "failed": ["Props/PeerManager:Kept.cleanlyRemove", "Props/PeerManager:cleanlyRemove_closes", "Props/PeerManager:C56_refuted_kicks_live_peer", "Props/PeerManager:bootKeep_cleanlyRemove", "Props/PeerManager:cleanlyRemove_unknown", "Props/PeerManager:Dialling.removeOther"], "model_error": []}
{"id": "pm07", "definition": "PM.step alive", "edit": "counts as failure", "claim": "C74", "rc": 1, "secs": 8, "failed": ["Props/PeerManager:Kept.step", "Props/PeerManager:bootKeep_step", "Props/PeerManager:NoRetry.step"], "model_error": []}
{"id": "pm08", "definition": "PM.routine", "edit": "unknown addresses dialled again while being dialled", "claim": "C58/C59", "rc": 1, "secs": 6, "failed": ["Props/PeerManager:example"], "model_error": []}
{"id": "pm09", "definition": "PM.routine", "edit": "peers chosen are not marked", "claim": "C58: no peer dialled twice", "rc": 1, "secs": 5, "failed": ["Props/PeerManager:Kept.routine", "Props/PeerManager:bootKeep_step", "Props/PeerManager:C58_round_partial", "Props/PeerManager:Dialling.step"], "model_error": []}
{"id": "pm10", "definition": "PM.bootstrap", "edit": "bootstrap peers are not dialled", "claim": "C57", "rc": 0, "secs": 13, "failed": [], "model_error": []}
{"id": "pm11", "definition": "PM.reconnectLater", "edit": "a connected peer is counted too", "claim": "C74", "rc": 1, "secs": 5, "failed": ["Props/PeerManager:Kept.reconnectLater", "Props/PeerManager:bootKeep_step", "Props/PeerManager:reconnectLater_unknown", "Props/PeerManager:Dialling.step"], "model_error": []}
{"id": "pm12", "definition": "PM.insertPeers", "edit": "loaded peers have no addresses", "claim": "C76/C57: saved peers are known after a restart", "rc": 1, "secs": 10, "failed": ["Props/PeerManager2:AddrInv.insertPeers"], "model_error": []}
{"id": "pm13", "definition": "PM.attach", "edit": "address of an inbound session recorded", "claim": "C76", "rc": 1, "secs": 6, "failed": ["Props/PeerManager:attach_tables", "Props/PeerManager:UserInv.kept", "Props/PeerManager:example", "Props/PeerManager:C57_bootstrap_peers_stay", "Props/PeerManager:bootKeep_step", "Props/PeerManager:NoRetry.step"], "model_error": []}
{"id": "pm14", "definition": "PM.detach", "edit": "short sessions: removed at once", "claim": "C74", "rc": 1, "secs": 6, "failed": ["Props/PeerManager:Kept.detach", "Props/PeerManager:detach_closes", "Props/PeerManager:bootKeep_step", "Props/PeerManager:NoRetry.step"], "model_error": []}
{"id": "pm15", "definition": "PM.removePeerAddr", "edit": "mapping stays", "claim": "C76: a removed address is free again", "rc": 1, "secs": 11, "failed": ["Props/PeerManager2:AddrInv.removePeerAddr", "Props/Connection:PM.C68_refuted_refused_once_forgotten"], "model_error": []}
