{"id": "ad01", "definition": "Db.del", "edit": "deletes the key in every column", "claim": "C106: one map per schema", "rc": 1, "secs": 3, "failed": ["Props/Adapter:HoldsMaps.modify"], "examples": [], "model_error": []}
{"id": "ad02", "definition": "Db.call", "edit": "a batch of unequal lengths is cut to the shorter list", "claim": "C106: a call with unequal numbers of keys and values changes nothing", "rc": 1, "secs": 3, "failed": ["Props/Adapter:call_refused"], "examples": ["Props/Adapter"], "model_error": []}
{"id": "ad03", "definition": "Db.call", "edit": "entries of a batch are applied last first", "claim": "C106: a batch is its entries in order", "rc": 1, "secs": 3, "failed": ["Props/Adapter:call_served", "Props/Adapter:C106_atomic"], "examples": ["Props/Adapter"], "model_error": []}
{"id": "ad04", "definition": "StoreSchema.pairs", "edit": "a key that cannot be encoded is skipped", "claim": "C106: a call that a codec refuses changes nothing", "rc": 1, "secs": 3, "failed": ["Props/Adapter:pairs_none", "Props/Adapter:HoldsMaps.pairs"], "examples": [], "model_error": []}
{"id": "ad05", "definition": "Db.call", "edit": "contains is true of removed keys (a tombstone counts)", "claim": "C106: contains tells whether get gives anything", "rc": 1, "secs": 3, "failed": ["Props/Adapter:call_served"], "examples": ["Props/Adapter"], "model_error": []}
{"id": "ad06", "definition": "Db.call", "edit": "an insert that RocksDB refuses is reported as done", "claim": "C106: a failed call is reported", "rc": 1, "secs": 3, "failed": ["Props/Adapter:call_refused"], "examples": [], "model_error": []}
{"id": "ad07", "definition": "Db.call", "edit": "insert keeps an old value", "claim": "C106: get gives what was last put", "rc": 1, "secs": 3, "failed": ["Props/Adapter:call_served", "Props/Adapter:C106_refuted"], "examples": [], "model_error": []}
{"id": "ad08", "definition": "StoreSchema.read", "edit": "a value that does not decode is read as absent", "claim": "C106/C31: (needs codecs that do not keep values)", "rc": 0, "secs": 4, "failed": [], "examples": [], "model_error": []}
{"id": "ad09", "definition": "StoreSchema.encodeMod", "edit": "a removal writes an empty value", "claim": "C106: removed keys are absent", "rc": 1, "secs": 3, "failed": ["Props/Adapter:HoldsMaps.modify", "Props/Adapter:call_served"], "examples": [], "model_error": []}
{"id": "ad10", "definition": "Db.call", "edit": "get_batch drops absent values", "claim": "C106: get_batch gives one answer per key", "rc": 1, "secs": 4, "failed": ["Props/Adapter:call_served"], "examples": [], "model_error": []}
{"id": "ad11", "definition": "Db.call", "edit": "remove does nothing", "claim": "C106: removed keys are absent", "rc": 1, "secs": 4, "failed": ["Props/Adapter:call_served"], "examples": [], "model_error": []}
{"id": "ad12", "definition": "Db.call", "edit": "get_batch reads the last key first", "claim": "C106: get_batch answers in order", "rc": 1, "secs": 4, "failed": ["Props/Adapter:call_served", "Props/Adapter:call_refused"], "examples": [], "model_error": []}
{"id": "ad13", "definition": "Db.seen", "edit": "a batch of RocksAdapter is written entry by entry", "claim": "C106: nobody sees a part of a batch", "rc": 1, "secs": 3, "failed": ["Props/Adapter:C106_atomic"], "examples": [], "model_error": []}
{"id": "fs01", "definition": "initCut", "edit": "the writes come before the state is committed", "claim": "C103: an interrupted first start does no harm", "rc": 1, "secs": 5, "failed": ["Props/FirstStart:cutStarts_data"], "examples": [], "model_error": []}
{"id": "fs02", "definition": "initWrites", "edit": "the proof is not written", "claim": "C103", "rc": 1, "secs": 3, "failed": ["Props/FirstStart:cutStarts_data", "Props/FirstStart:handleInit_cut"], "examples": [], "model_error": []}
{"id": "fs03", "definition": "initWrites", "edit": "the proof is written first", "claim": "C103", "rc": 1, "secs": 6, "failed": ["Props/FirstStart:cutStarts_data", "Props/FirstStart:handleInit_cut"], "examples": ["Props/FirstStart"], "model_error": []}
{"id": "fs04", "definition": "initCut", "edit": "an existing chain is initialised again", "claim": "C103/C13", "rc": 1, "secs": 4, "failed": ["Props/FirstStart:cutStarts_data"], "examples": [], "model_error": []}
{"id": "fs05", "definition": "StoreOp.writes", "edit": "insert_epoch makes the epoch the latest one first", "claim": "C103/C32: a crash leaves a latest epoch that can be read", "rc": 1, "secs": 11, "failed": ["Props/Storage:latestStored_crash", "Props/Storage:latest_crash", "Props/Storage:latestComplete_commit"], "examples": ["Props/Storage"], "model_error": []}
{"id": "to01", "definition": "Wrapper.isTimeout", "edit": "a transaction at its time-out is packaged", "claim": "C104: not executed after (C20: never packaged at) its time-out", "rc": 1, "secs": 177, "failed": ["Proof/TxCache:isTimeout_eq"], "examples": [], "model_error": []}
{"id": "to02", "definition": "Wrapper.isTimeout", "edit": "expired transactions are packaged", "claim": "C104: not executed after its time-out", "rc": 1, "secs": 167, "failed": ["Proof/TxCache:isTimeout_eq"], "examples": [], "model_error": []}
{"id": "to03", "definition": "packageLoop", "edit": "expired transactions are taken, not only recorded as expired", "claim": "C104/C20", "rc": 1, "secs": 186, "failed": ["Proof/TxCache:packageLoop_eq"], "examples": [], "model_error": []}
