{"id": "ns01", "definition": "NetService.addReactor", "edit": "the scheme of the url is not checked", "claim": "C114: a registration succeeds exactly if its scheme is that of its kind", "rc": 1, "secs": 3, "failed": ["Props/NetService:before", "Props/NetService:afterStart"], "examples": [], "model_error": []}
{"id": "ns02", "definition": "NetService.addReactor", "edit": "the check of the scheme is inverted", "claim": "C114: a registration succeeds exactly if its scheme is that of its kind", "rc": 1, "secs": 3, "failed": ["Props/NetService:before", "Props/NetService:afterStart", "Props/NetService:C114_refuted"], "examples": ["Props/NetService"], "model_error": []}
{"id": "ns03", "definition": "NetService.addReactor", "edit": "the router forgets the reactors registered before", "claim": "C114: a message goes to the handler registered for its endpoint", "rc": 1, "secs": 3, "failed": ["Props/NetService:before"], "examples": [], "model_error": []}
{"id": "ns04", "definition": "NetService.addReactor", "edit": "the reactor is not put into the router", "claim": "C114: a message goes to the handler registered for its endpoint", "rc": 1, "secs": 3, "failed": ["Props/NetService:before", "Props/NetService:C114_refuted"], "examples": ["Props/NetService"], "model_error": []}
{"id": "ns05", "definition": "NetService.startRouter", "edit": "the router is cloned, not taken, so every poll spawns it again", "claim": "C114: each part runs once", "rc": 1, "secs": 3, "failed": ["Props/NetService:C114_partial"], "examples": [], "model_error": []}
{"id": "ns06", "definition": "NetService.startMgr", "edit": "the peer manager is not taken: every poll spawns it again", "claim": "C114: each part runs once", "rc": 1, "secs": 4, "failed": ["Props/NetService:C114_partial"], "examples": [], "model_error": []}
{"id": "ns07", "definition": "NetService.startBeat", "edit": "the heart beat is never started", "claim": "C114: each part runs once", "rc": 1, "secs": 3, "failed": ["Props/NetService:C114_partial"], "examples": [], "model_error": []}
{"id": "ns08", "definition": "NetService.startConn", "edit": "the service listens at the default address also if it was told another", "claim": "C114: it listens where it was told", "rc": 1, "secs": 3, "failed": ["Props/NetService:C114_partial", "Props/NetService:C114_refuted"], "examples": ["Props/NetService"], "model_error": []}
{"id": "ns09", "definition": "NetService.startMgr", "edit": "the default address is announced in every case", "claim": "C114: it announces the address where it listens", "rc": 1, "secs": 3, "failed": ["Props/NetService:C114_partial"], "examples": [], "model_error": []}
{"id": "ns10", "definition": "NetService.startConn", "edit": "without an address the service starts without listening", "claim": "C114: it listens where it was told, or at the default address", "rc": 1, "secs": 3, "failed": ["Props/NetService:C114_partial"], "examples": [], "model_error": []}
{"id": "ns11", "definition": "NetService.listen", "edit": "listen moves a service that already runs", "claim": "C114: nothing after the start has an effect (the address is that told before)", "rc": 1, "secs": 3, "failed": ["Props/NetService:afterStart", "Props/NetService:C114_refuted"], "examples": ["Props/NetService"], "model_error": []}
