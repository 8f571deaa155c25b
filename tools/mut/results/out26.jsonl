{"id": "y01", "definition": "target", "edit": "dials do not open the transmitter", "claim": "C121_opened, C121_messages", "rc": 1, "secs": 12, "failed": ["Props/CoreProtocol:opened_eq"], "examples": ["Props/CoreProtocol"], "model_error": []}
{"id": "y02", "definition": "messageId", "edit": "messages go on the discovery protocol", "claim": "C121_messages", "rc": 1, "secs": 14, "failed": ["Props/CoreProtocol:C121_messages"], "examples": ["Props/CoreProtocol"], "model_error": []}
{"id": "y03", "definition": "discoveryId", "edit": "discovery and transmitter have one number", "claim": "C121_opened", "rc": 1, "secs": 10, "failed": ["Props/CoreProtocol:setUp_ok", "Props/CoreProtocol:opened_eq"], "examples": ["Props/CoreProtocol"], "model_error": []}
{"id": "y04", "definition": "Builder.build", "edit": "a missing discovery is no error", "claim": "C121_set_up: all four are needed", "rc": 1, "secs": 11, "failed": ["Props/CoreProtocol:setUp_ok", "Props/CoreProtocol:C121_set_up", "Props/CoreProtocol:C121_missing"], "examples": ["Props/CoreProtocol"], "model_error": []}
{"id": "y05", "definition": "Builder.give", "edit": "what was given first stays", "claim": "C121: what was given last", "rc": 1, "secs": 11, "failed": ["Props/CoreProtocol:Builder.get_give"], "examples": ["Props/CoreProtocol"], "model_error": []}
{"id": "y06", "definition": "Builder.build", "edit": "the handler of ping is used for identify", "claim": "C121_opened: each with what was given for it", "rc": 1, "secs": 14, "failed": ["Props/CoreProtocol:setUp_ok"], "examples": [], "model_error": []}
{"id": "y07", "definition": "pingName", "edit": "ping and identify have one name and the names carry no number", "claim": "C121_opened", "rc": 1, "secs": 3, "failed": ["Props/CoreProtocol:setUp_ok"], "examples": [], "model_error": []}
{"id": "y08", "definition": "discoveryVersions", "edit": "no version of discovery", "claim": "C121_opened", "rc": 1, "secs": 19, "failed": ["Props/CoreProtocol:setUp_ok"], "examples": [], "model_error": []}
{"id": "y09", "definition": "nodeCalls", "edit": "the node does not set up identify", "claim": "C121_node", "rc": 1, "secs": 10, "failed": ["Props/CoreProtocol:C121_node"], "examples": ["Props/CoreProtocol"], "model_error": []}
{"id": "y10", "definition": "Builder.build", "edit": "the transmitter is set up under the number of ping", "claim": "C121_messages", "rc": 1, "secs": 20, "failed": ["Props/CoreProtocol:setUp_ok"], "examples": ["Props/CoreProtocol"], "model_error": []}
{"id": "y11", "definition": "Builder.build", "edit": "the wrong name in the panic", "claim": "C121_missing", "rc": 1, "secs": 12, "failed": ["Props/CoreProtocol:C121_missing"], "examples": [], "model_error": []}
