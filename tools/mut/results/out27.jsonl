{"id": "z01", "definition": "State.beat", "edit": "the heart beat does not wake the service", "claim": "C122_awake", "rc": 1, "secs": 1, "failed": ["Props/HeartBeat:Beat.Inv.step"], "examples": [], "model_error": []}
{"id": "z02", "definition": "State.beat", "edit": "the delay is not set again", "claim": "C122_spaced", "rc": 1, "secs": 1, "failed": ["Props/HeartBeat:Beat.Inv.step", "Props/HeartBeat:C122_time", "Props/HeartBeat:C122_spaced"], "examples": [], "model_error": []}
{"id": "z03", "definition": "State.poll", "edit": "the service registers its waker only when the heart beat had not woken it", "claim": "C122_awake: every poll registers", "rc": 1, "secs": 1, "failed": ["Props/HeartBeat:Beat.Inv.step"], "examples": [], "model_error": []}
{"id": "z04", "definition": "start", "edit": "the heart beat is created without an interval", "claim": "C122_spaced/awake: first interval", "rc": 1, "secs": 1, "failed": ["Props/HeartBeat:Beat.Inv.start"], "examples": ["Props/HeartBeat"], "model_error": []}
{"id": "z05", "definition": "start", "edit": "the first poll does not register", "claim": "C122_awake", "rc": 1, "secs": 1, "failed": ["Props/HeartBeat:Beat.Inv.start"], "examples": [], "model_error": []}
{"id": "z06", "definition": "State.beat", "edit": "the delay is set to twice the interval", "claim": "C122_awake", "rc": 1, "secs": 1, "failed": ["Props/HeartBeat:Beat.Inv.step"], "examples": [], "model_error": []}
{"id": "z07", "definition": "State.beat", "edit": "the waker is not taken", "claim": "C122 (equivalent: an additional wake)", "rc": 1, "secs": 1, "failed": ["Props/HeartBeat:Beat.Inv.step"], "examples": [], "model_error": []}
{"id": "z08", "definition": "State.beat", "edit": "the delay is set again from the old deadline", "claim": "C122_spaced", "rc": 1, "secs": 1, "failed": ["Props/HeartBeat:Beat.Inv.step", "Props/HeartBeat:C122_time", "Props/HeartBeat:C122_spaced"], "examples": [], "model_error": []}
