{"id": "cz01", "definition": "Prog.insert", "edit": "the store is not asked for the transaction", "claim": "C101: a transaction is executed at most once, whatever calls overlap", "rc": 1, "secs": 37, "failed": ["Props/ConsensusLock:pooly_insert"], "examples": [], "model_error": []}
{"id": "cz02", "definition": "Prog.insert", "edit": "transactions in the pool are not rejected before the insertion", "claim": "C41: the calls in sequence are among the schedules", "rc": 1, "secs": 33, "failed": ["Props/ConsensusLock:pooly_insert"], "examples": [], "model_error": []}
{"id": "cz03", "definition": "Prog.commitTail", "edit": "the pool is not flushed", "claim": "C101: a transaction is executed at most once, whatever calls overlap", "rc": 1, "secs": 32, "failed": ["Props/ConsensusLock:runs_commitTail"], "examples": [], "model_error": []}
{"id": "cz04", "definition": "Prog.commit", "edit": "the engine lock is not taken", "claim": "C41: only the holder of the lock changes the chain", "rc": 1, "secs": 35, "failed": ["Props/ConsensusLock:LockInv.step", "Props/ConsensusLock:C63_refuted"], "examples": [], "model_error": []}
{"id": "cz05", "definition": "Prog.updateStatus", "edit": "the transactions are not stored", "claim": "C102/C101: as if in sequence; executed once", "rc": 1, "secs": 33, "failed": ["Props/ConsensusLock:runs_updateStatus", "Props/ConsensusLock:section_updateStatus"], "examples": [], "model_error": []}
{"id": "cz06", "definition": "Prog.updateStatus", "edit": "transactions are stored before the receipts", "claim": "C102: at every crash point the data is that of calls in sequence", "rc": 1, "secs": 36, "failed": ["Props/ConsensusLock:runs_updateStatus"], "examples": [], "model_error": []}
{"id": "cz07", "definition": "Prog.endCommit", "edit": "the lock is not released", "claim": "C41/C63: tasks go on in any order", "rc": 1, "secs": 32, "failed": ["Props/ConsensusLock:runs_commitTail", "Props/ConsensusLock:runs_commit", "Props/ConsensusLock:section_commitTail", "Props/ConsensusLock:section_commit", "Props/ConsensusLock:C63_refuted"], "examples": [], "model_error": []}
{"id": "cz08", "definition": "Prog.sync", "edit": "the engine lock is not taken", "claim": "C41: only the holder of the lock changes the chain", "rc": 1, "secs": 29, "failed": ["Props/ConsensusLock:LockInv.step", "Props/ConsensusLock:C63_refuted"], "examples": ["Props/ConsensusLock"], "model_error": []}
{"id": "cz09", "definition": "Prog.propose", "edit": "the proposal is not remembered as checked", "claim": "C41: the calls in sequence are among the schedules", "rc": 1, "secs": 36, "failed": ["Props/ConsensusLock:pooly_propose"], "examples": [], "model_error": []}
{"id": "cz10", "definition": "Prog.check", "edit": "an own proposal is synchronised like any other", "claim": "C41: the calls in sequence are among the schedules", "rc": 1, "secs": 38, "failed": ["Props/ConsensusLock:pooly_check"], "examples": [], "model_error": []}
{"id": "cz11", "definition": "Prog.ensure", "edit": "the number of transactions pulled is not compared", "claim": "C41/C27: incomplete answers are refused", "rc": 1, "secs": 34, "failed": ["Props/ConsensusLock:pooly_check"], "examples": [], "model_error": []}
{"id": "cz12", "definition": "Prog.commitTail", "edit": "the epoch is executed on the root its header names", "claim": "C102/C99: as if in sequence", "rc": 1, "secs": 33, "failed": ["Props/ConsensusLock:runs_commitTail"], "examples": ["Props/ConsensusLock"], "model_error": []}
{"id": "cz13", "definition": "Prog.write", "edit": "a failed write is not reported", "claim": "C41/C102: a commit whose writes fail fails", "rc": 1, "secs": 34, "failed": ["Props/ConsensusLock:runs_write", "Props/ConsensusLock:runs_failed", "Props/ConsensusLock:runs_updateStatus", "Props/ConsensusLock:section_write"], "examples": [], "model_error": []}
{"id": "cz14", "definition": "Conf.step", "edit": "a lock is granted although it is held", "claim": "C41: only one task at a time works on the chain", "rc": 1, "secs": 32, "failed": ["Props/ConsensusLock:LockInv.step", "Props/ConsensusLock:C41_serialised"], "examples": ["Props/ConsensusLock"], "model_error": []}
{"id": "cz15", "definition": "Prog.commit", "edit": "the transactions are taken before the lock", "claim": "C41/C102: as if in sequence", "rc": 1, "secs": 31, "failed": ["Props/ConsensusLock:runs_commit", "Props/ConsensusLock:section_commit", "Props/ConsensusLock:LockInv.step", "Props/ConsensusLock:C63_refuted"], "examples": ["Props/ConsensusLock"], "model_error": []}
{"id": "cz16", "definition": "Prog.updateStatus", "edit": "the status is set before the epoch is recorded", "claim": "C102: as if in sequence", "rc": 1, "secs": 32, "failed": ["Props/ConsensusLock:runs_updateStatus"], "examples": [], "model_error": []}
{"id": "cz17", "definition": "Prog.syncOne", "edit": "the proof of the epoch is not stored", "claim": "C41/C102: as if in sequence", "rc": 1, "secs": 0, "failed": ["Model/ConsensusLock:Prog.syncOne"], "examples": [], "model_error": ["Model/ConsensusLock:Prog.syncOne"]}
{"id": "cz18", "definition": "Prog.syncPropose", "edit": "proposed transactions are kept as ordered ones", "claim": "C41: the calls in sequence are among the schedules", "rc": 1, "secs": 44, "failed": ["Props/NodeConc:solo_syncPropose", "Props/NodeConc:keeps_check"], "examples": [], "model_error": []}
{"id": "cz19", "definition": "Prog.insert", "edit": "an inserted transaction counts as proposed", "claim": "C41: the calls in sequence are among the schedules", "rc": 1, "secs": 38, "failed": ["Props/NodeConc:solo_insert", "Props/NodeConc:keeps_insert"], "examples": [], "model_error": []}
{"id": "cz20", "definition": "Prog.syncLoop", "edit": "the root is not passed on", "claim": "C41/C102: as if in sequence", "rc": 1, "secs": 37, "failed": ["Props/ConsensusLock:runs_syncLoop"], "examples": [], "model_error": []}
{"id": "cz21", "definition": "Prog.commit", "edit": "an unreadable proof counts as no error", "claim": "C41: results of the tasks are those of the serial order", "rc": 1, "secs": 35, "failed": ["Props/ConsensusLock:runs_commit"], "examples": [], "model_error": []}
{"id": "cz22", "definition": "Prog.commitTail", "edit": "the commit goes on although the execution failed", "claim": "C102/C41: as if in sequence", "rc": 1, "secs": 42, "failed": ["Props/ConsensusLock:runs_commitTail"], "examples": [], "model_error": []}
