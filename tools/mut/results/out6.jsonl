{"id": "ke04r", "definition": "PingEvent.report", "edit": "a ping time-out counts as a sign of life", "claim": "C74/C77: a peer that times out is retried later", "rc": 1, "secs": 1, "failed": ["Props/Keeper:example"], "model_error": []}
{"id": "ke05r", "definition": "PingEvent.report", "edit": "a ping counts as a failure", "claim": "C74: a peer that answers is not forgotten", "rc": 1, "secs": 2, "failed": ["Props/Keeper2:failure_net", "Props/Keeper2:C74_ping_clears"], "model_error": []}
{"id": "ke06r", "definition": "SvcError.report", "edit": "session time-out removes the peer", "claim": "C74: a peer is not forgotten because of a time-out", "rc": 1, "secs": 2, "failed": ["Props/Keeper2:removal_complaint", "Props/Keeper2:failure_net", "Props/Keeper2:example", "Props/Keeper2:C77_network_partial"], "model_error": []}
{"id": "ke09r", "definition": "SvcError.report", "edit": "listen errors handled as dial errors", "claim": "C68/C74: own listening address", "rc": 1, "secs": 2, "failed": ["Props/Keeper2:C76_repeated"], "model_error": []}
{"id": "ke10r", "definition": "SvcError.report", "edit": "muxer error removes the peer", "claim": "C74", "rc": 1, "secs": 2, "failed": ["Props/Keeper2:removal_complaint", "Props/Keeper2:failure_net", "Props/Keeper2:example", "Props/Keeper2:C77_network_partial"], "model_error": []}
{"id": "ke11r", "definition": "NetIn.report", "edit": "misbehaving peers tolerated", "claim": "C84", "rc": 1, "secs": 2, "failed": ["Props/Keeper2:removal_complaint", "Props/Keeper2:failure_net", "Props/Keeper2:C84_misbehaving_forgotten"], "model_error": []}
{"id": "ke12r", "definition": "NetIn.report", "edit": "discovered addresses dropped", "claim": "C76: discovered addresses are not lost", "rc": 1, "secs": 2, "failed": ["Props/Keeper2:removal_complaint", "Props/Keeper2:failure_net", "Props/Keeper2:C76_network"], "model_error": []}
{"id": "ke13r", "definition": "SvcError.report", "edit": "unnamed protocol mismatch removes the peer", "claim": "C74", "rc": 1, "secs": 2, "failed": ["Props/Keeper2:removal_complaint", "Props/Keeper2:failure_net", "Props/Keeper2:example", "Props/Keeper2:C77_network_partial"], "model_error": []}
{"id": "au03r", "definition": "Node.commitOvStatus", "edit": "status with the old height", "claim": "C69: the status after a commit names the next height", "rc": 1, "secs": 23, "failed": ["Props/Authority:C69_height", "Props/Authority:example"], "model_error": []}
{"id": "pm08r", "definition": "PM.routine", "edit": "unknown addresses dialled again while being dialled", "claim": "C58/C59", "rc": 1, "secs": 3, "failed": ["Props/PeerManager:example"], "model_error": []}
{"id": "pm10r", "definition": "PM.bootstrap", "edit": "bootstrap peers are not dialled", "claim": "C57", "rc": 1, "secs": 9, "failed": ["Props/Keeper2:C57_dialled_at_start"], "model_error": []}
{"id": "as08r", "definition": "Node.apiInsert", "edit": "error reported as success", "claim": "C72", "rc": 1, "secs": 78, "failed": [], "model_error": []}
{"id": "as09r", "definition": "Node.apiInsert", "edit": "the pool is not updated", "claim": "C72: the transaction is in the pool", "rc": 1, "secs": 80, "failed": [], "model_error": []}
{"id": "be01", "definition": "Adapter.commitTrie", "edit": "stashed changes are not written to the trie", "claim": "C85: the state on disk is the state computed with", "rc": 1, "secs": 5, "failed": ["Proof/ByteExecutor:Rep.commit"], "model_error": []}
{"id": "be02", "definition": "Adapter.commitTrie", "edit": "the stash is not cleared", "claim": "C85", "rc": 1, "secs": 4, "failed": ["Proof/ByteExecutor:Rep.commit"], "model_error": []}
{"id": "be03", "definition": "BSt.commit", "edit": "roots of the two contracts swapped in the top trie", "claim": "C85: a root reopened shows its state", "rc": 1, "secs": 20, "failed": ["Props/ByteExecutor:commit_sim", "Props/ByteExecutor:example"], "model_error": []}
{"id": "be04", "definition": "bFromRoot", "edit": "the bank is opened at the account contract", "claim": "C85", "rc": 1, "secs": 19, "failed": ["Props/ByteExecutor:fromRoot_sim", "Props/ByteExecutor:example"], "model_error": []}
{"id": "be05", "definition": "BSt.commit", "edit": "the bank trie is not committed", "claim": "C85", "rc": 1, "secs": 18, "failed": ["Props/ByteExecutor:commit_sim", "Props/ByteExecutor:example"], "model_error": []}
{"id": "be06", "definition": "accountSchema", "edit": "key of an account without its type byte", "claim": "C85: user and contract accounts are kept apart", "rc": 1, "secs": 0, "failed": ["Model/ByteExecutor:accountSchema"], "model_error": [["Verif/Model/ByteExecutor.lean", "accountSchema", "Unknown constant `Huobi.Item.str`"]]}
{"id": "be07", "definition": "bankContract", "edit": "bank and account contract share an address", "claim": "C85", "rc": 1, "secs": 17, "failed": ["Props/ByteExecutor:contracts_ne", "Props/ByteExecutor:example"], "model_error": []}
{"id": "be08", "definition": "Adapter.write", "edit": "one byte too large values are silently dropped", "claim": "C85: nothing is lost", "rc": 1, "secs": 4, "failed": ["Proof/ByteExecutor:Rep.write"], "model_error": []}
{"id": "be09", "definition": "BSt.revert", "edit": "revert forgets the bank", "claim": "C85/C03", "rc": 1, "secs": 5, "failed": ["Proof/ByteExecutor:SimR.revert"], "model_error": []}
{"id": "be10", "definition": "BSt.stash", "edit": "stash forgets the bank", "claim": "C85", "rc": 1, "secs": 4, "failed": ["Proof/ByteExecutor:SimR.stash"], "model_error": []}
{"id": "be11", "definition": "bFindOrCreate", "edit": "a contract account is created as a user account", "claim": "C85", "rc": 1, "secs": 4, "failed": ["Proof/ByteExecutor:findOrCreate_sim"], "model_error": []}
{"id": "be12", "definition": "bExec", "edit": "the coinbase reward is stashed before the commit", "claim": "C85: same answers as the typed executor", "rc": 1, "secs": 24, "failed": ["Props/ByteExecutor:bExec_grows", "Props/ByteExecutor:exec_sim"], "model_error": []}
{"id": "be13", "definition": "bCreateGenesis", "edit": "genesis not stashed before the commit", "claim": "C85/C13", "rc": 1, "secs": 22, "failed": ["Props/ByteExecutor:bCreateGenesis_grows", "Props/ByteExecutor:createGenesis_sim", "Props/ByteExecutor:example"], "model_error": []}
{"id": "be14", "definition": "openContract", "edit": "an unreadable root is taken for an empty contract", "claim": "C85", "rc": 0, "secs": 23, "failed": [], "model_error": []}
{"id": "be15", "definition": "Adapter.read", "edit": "a decoding error reads as absent", "claim": "C85", "rc": 0, "secs": 26, "failed": [], "model_error": []}
{"id": "be16", "definition": "bHandleTransfer", "edit": "the balance after is read before the transfer", "claim": "C85/C02", "rc": 1, "secs": 4, "failed": ["Proof/ByteExecutor:handleTransfer_sim"], "model_error": []}
{"id": "be17", "definition": "TrieStore.open", "edit": "the database keeps only the latest three tries", "claim": "C85: every root returned can be reopened later", "rc": 1, "secs": 19, "failed": ["Props/ByteExecutor:open_of_mem", "Props/ByteExecutor:example"], "model_error": []}
{"id": "ps01", "definition": "FilePeer.enc", "edit": "addresses not saved", "claim": "C86: known again with all addresses", "rc": 1, "secs": 19, "failed": ["Props/Persist:readPeer_enc", "Props/Persist:readPeers_enc", "Props/Persist:example"], "model_error": []}
{"id": "ps02", "definition": "PM.boot", "edit": "an error while loading is ignored and the part read used", "claim": "C87", "rc": 1, "secs": 4, "failed": ["Props/Persist:C87_torn_file_rejected", "Props/Persist:example"], "model_error": []}
{"id": "ps03", "definition": "readPeers", "edit": "reads as many as are there", "claim": "C87: a torn file is not used", "rc": 1, "secs": 4, "failed": ["Props/Persist:mono_peers", "Props/Persist:example"], "model_error": []}
{"id": "ps04", "definition": "encIp", "edit": "v6 written with the variant of v4", "claim": "C86", "rc": 1, "secs": 4, "failed": ["Props/Persist:readIp_encIp"], "model_error": []}
{"id": "ps05", "definition": "FilePeer.enc", "edit": "connect and disconnect time exchanged", "claim": "C86", "rc": 1, "secs": 4, "failed": ["Props/Persist:readPeer_enc", "Props/Persist:example"], "model_error": []}
{"id": "ps06", "definition": "PM.boot", "edit": "peers loaded without their addresses", "claim": "C86", "rc": 1, "secs": 5, "failed": ["Props/Persist:C87_start", "Props/Persist:C86_peers_survive_restart_partial", "Props/Persist:example"], "model_error": []}
{"id": "ps07", "definition": "PM.dropFile", "edit": "nothing written on shutdown", "claim": "C86", "rc": 1, "secs": 5, "failed": ["Props/Persist:C86_peers_survive_restart_partial", "Props/Persist:example"], "model_error": []}
{"id": "ps08", "definition": "PM.insertPeers", "edit": "a loaded peer keeps waiting", "claim": "C86: can be dialled at once", "rc": 1, "secs": 5, "failed": ["Props/PeerManager:UserInv.keptStart"], "model_error": []}
{"id": "ps09", "definition": "PM.insertPeers", "edit": "addresses of loaded peers dropped", "claim": "C86", "rc": 1, "secs": 5, "failed": ["Props/PeerManager:UserInv.keptStart"], "model_error": []}
