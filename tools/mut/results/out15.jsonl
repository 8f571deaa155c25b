{"id": "ml01", "definition": "Mail.step", "edit": "a message that arrives while the router is busy is dropped", "claim": "C107: handled as often as it arrived", "rc": 1, "secs": 20, "failed": ["Props/Mail:accounted_step", "Props/Mail:step_work_le"], "examples": [], "model_error": []}
{"id": "ml02", "definition": "Mail.step", "edit": "the router keeps the message in its queue", "claim": "C107: handled exactly as often as it arrived", "rc": 1, "secs": 15, "failed": ["Props/Mail:accounted_step", "Props/Mail:work_step", "Props/Mail:C107_order_not_kept"], "examples": ["Props/Mail"], "model_error": []}
{"id": "ml03", "definition": "Mail.step", "edit": "an error of routing is fatal: all messages being routed are lost", "claim": "C107: messages that are for a reactor are handled", "rc": 1, "secs": 20, "failed": ["Props/Mail:accounted_step", "Props/Mail:work_step", "Props/Mail:C107_order_not_kept"], "examples": [], "model_error": []}
{"id": "ml04", "definition": "Mail.step", "edit": "a routed message is handed on twice", "claim": "C107: handled once", "rc": 1, "secs": 19, "failed": ["Props/Mail:accounted_step", "Props/Mail:work_step", "Props/Mail:C107_order_not_kept"], "examples": ["Props/Mail"], "model_error": []}
{"id": "ml05", "definition": "takeFor", "edit": "a reactor takes the first message of any reactor", "claim": "C107: handled by the reactor of its endpoint (each reactor only waits for its own)", "rc": 1, "secs": 18, "failed": ["Props/Mail:takeFor_perm", "Props/Mail:takeFor_some"], "examples": [], "model_error": []}
{"id": "ml06", "definition": "takeFor", "edit": "messages before the one taken are lost", "claim": "C107: handled as often as it arrived", "rc": 1, "secs": 17, "failed": ["Props/Mail:takeFor_perm"], "examples": [], "model_error": []}
{"id": "ml07", "definition": "MailCfg.routed", "edit": "the session is not handed on", "claim": "C107: handled with its session", "rc": 1, "secs": 17, "failed": ["Props/Mail:routed_some", "Props/Mail:C107_order_not_kept"], "examples": ["Props/Mail"], "model_error": []}
{"id": "ml08", "definition": "Mail.step", "edit": "the handler of the first waiting message runs, another one is removed", "claim": "C107: each handled once", "rc": 1, "secs": 15, "failed": ["Props/Mail:accounted_step", "Props/Mail:work_step"], "examples": [], "model_error": []}
{"id": "ml09", "definition": "Mail.step", "edit": "a message that cannot be decoded blocks its task for ever", "claim": "C107: no message waits for ever", "rc": 1, "secs": 20, "failed": ["Props/Mail:accounted_step", "Props/Mail:work_step", "Props/Mail:C107_order_not_kept"], "examples": ["Props/Mail"], "model_error": []}
{"id": "ml10", "definition": "Node.handle", "edit": "replies go to session 0", "claim": "C107/C67: replies go to the session that asked", "rc": 1, "secs": 19, "failed": ["Props/Mail:receive_handle"], "examples": [], "model_error": []}
{"id": "ml11", "definition": "Node.handle", "edit": "earlier replies are overwritten", "claim": "C107: the bytes sent in reply are those of all messages", "rc": 1, "secs": 19, "failed": ["Props/Mail:receive_handle"], "examples": [], "model_error": []}
{"id": "ml12", "definition": "Node.handle", "edit": "a batch that was pulled is also inserted on a response", "claim": "C107: node as after receiving the messages", "rc": 1, "secs": 18, "failed": ["Props/Mail:receive_handle"], "examples": [], "model_error": []}
{"id": "apeerma03r", "definition": "identifyAddr", "edit": "the address an identified peer listens at is recorded only if it is not connected", "claim": "C76: a connected peer that tells its address is recorded with it", "rc": 1, "secs": 11, "failed": ["Props/PeerManager2:identify_offline", "Props/PeerManager2:C76_connected_recorded"], "examples": ["Props/PeerManager2"], "model_error": []}
{"id": "pr01", "definition": "Prog.propose", "edit": "the state root of the proposal is read after packaging, the rest before", "claim": "C78 (overlapping calls): the proposal describes one recorded epoch in all fields", "rc": 1, "secs": 214, "failed": ["Props/Proposal2:C78_concurrent_partial"], "examples": [], "model_error": []}
{"id": "pr02", "definition": "Prog.propose", "edit": "the height asked for is compared with the status at a second look", "claim": "C78 (overlapping calls): it is one higher than the epoch it describes", "rc": 1, "secs": 179, "failed": ["Props/Timeout2:fine_propose"], "examples": [], "model_error": []}
{"id": "pr03", "definition": "Prog.updateStatus", "edit": "the guard is dropped before the status is updated", "claim": "C78/C41 (overlapping calls)", "rc": 1, "secs": 39, "failed": ["Props/ConsensusLock:runs_updateStatus", "Props/ConsensusLock:section_updateStatus", "Props/ConsensusLock:C63_refuted"], "examples": [], "model_error": []}
{"id": "pr04", "definition": "Prog.propose", "edit": "the proof of the proposal is read after packaging", "claim": "C78 (overlapping calls): the proposal carries the proof of the epoch it describes", "rc": 1, "secs": 184, "failed": ["Props/Proposal2:C78_concurrent_partial"], "examples": [], "model_error": []}
