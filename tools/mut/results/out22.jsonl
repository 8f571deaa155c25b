{"id": "nn01", "definition": "handlerCalls", "edit": "the handler drops the first transaction of a batch", "claim": "C115: every transaction of a batch is inserted", "rc": 1, "secs": 12, "failed": ["Props/NodeNet:calls_from", "Props/NodeNet:C115_calls"], "examples": ["Props/NodeNet"], "model_error": []}
{"id": "nn02", "definition": "handlerCalls", "edit": "the tasks of a batch get one number each per batch only (slots of earlier batches are reused)", "claim": "C115: each call runs in a task of its own", "rc": 1, "secs": 14, "failed": ["Props/NodeNet:calls_start", "Props/NodeNet:C115_calls"], "examples": [], "model_error": []}
{"id": "nn03", "definition": "contextId", "edit": "messages of scheme rpc-call are not processed", "claim": "C115: a request is replied to with what the node has then", "rc": 1, "secs": 31, "failed": ["Props/NodeNet2:serve_context"], "examples": [], "model_error": []}
{"id": "nn04", "definition": "NodeTasks.handle", "edit": "the number of started tasks is not advanced", "claim": "C115: each call runs in a task of its own", "rc": 1, "secs": 14, "failed": ["Props/NodeNet:service_run"], "examples": [], "model_error": []}
{"id": "nn05", "definition": "OutMsg.wire", "edit": "a reply goes to the next session", "claim": "C115: what is replied goes to who asked", "rc": 1, "secs": 33, "failed": ["Props/NodeNet2:reply_wire", "Props/NodeNet2:C115_replies", "Props/NodeNet2:C115_alone"], "examples": [], "model_error": []}
{"id": "nn06", "definition": "Event.isOwn", "edit": "calls may take the number of a task of a handler", "claim": "C115: each call runs in a task of its own", "rc": 1, "secs": 13, "failed": ["Props/NodeNet:calls_notOwn", "Props/NodeNet:Service.fresh"], "examples": ["Props/NodeNet"], "model_error": []}
{"id": "nn07", "definition": "handlerCalls", "edit": "transactions of a batch are inserted as if a client had submitted them", "claim": "C115: what is sent is what is called (origin of gossiped transactions)", "rc": 1, "secs": 13, "failed": ["Props/NodeNet:calls_from", "Props/NodeNet:C115_calls"], "examples": [], "model_error": []}
{"id": "nn08", "definition": "handlerCalls", "edit": "an announcement starts two synchronisations", "claim": "C115: an announcement starts one synchronisation", "rc": 1, "secs": 13, "failed": ["Props/NodeNet:calls_start", "Props/NodeNet:calls_from", "Props/NodeNet:C115_calls"], "examples": [], "model_error": []}
{"id": "nn09", "definition": "NodeTasks.handle", "edit": "a handler runs also if nothing was decoded: the replies are those of the old replies doubled", "claim": "C115: what it replied are the replies of these handlers", "rc": 1, "secs": 16, "failed": ["Props/NodeNet:service_run"], "examples": [], "model_error": []}
{"id": "nn10", "definition": "NodeTasks.handle", "edit": "the calls of the handler are not made", "claim": "C115: every transaction of a batch is inserted", "rc": 1, "secs": 15, "failed": ["Props/NodeNet:service_run"], "examples": ["Props/NodeNet"], "model_error": []}
{"id": "nn12", "definition": "handlerReplies", "edit": "a request for epochs or transactions of the store is not answered", "claim": "C115: a request is replied to with what the node has then", "rc": 1, "secs": 35, "failed": ["Props/NodeNet2:replies_serve"], "examples": [], "model_error": []}
{"id": "nn13", "definition": "handlerReplies", "edit": "the reply carries the id 0 instead of that of the request", "claim": "C115: the reply is for the request", "rc": 1, "secs": 36, "failed": ["Props/NodeNet2:replies_serve"], "examples": [], "model_error": []}
{"id": "nn14", "definition": "handlerReplies", "edit": "the reply to a request goes to session 0", "claim": "C115: what is replied goes to who asked", "rc": 1, "secs": 30, "failed": ["Props/NodeNet2:replies_serve"], "examples": [], "model_error": []}
{"id": "nn15", "definition": "nodeNetStep", "edit": "a call of the consensus is skipped while messages are under way", "claim": "C115: none of the calls of consensus and clients is left out", "rc": 1, "secs": 11, "failed": ["Props/NodeNet:service_run"], "examples": ["Props/NodeNet"], "model_error": []}
{"id": "u15r", "definition": "NodeCfg.merkle", "edit": "an empty list has the root of one zero hash", "claim": "C52/C78: roots of empty lists", "rc": 1, "secs": 340, "failed": ["Props/Proposal:C78_root"], "examples": [], "model_error": []}
{"id": "u31r", "definition": "secsBetween", "edit": "the time since is negative counts as zero", "claim": "C75: waiting times", "rc": 1, "secs": 7, "failed": ["Props/PeerManager2:step_counters", "Props/PeerManager2:C75_round_waits_partial", "Props/PeerManager2:C77_refuted"], "examples": [], "model_error": []}
