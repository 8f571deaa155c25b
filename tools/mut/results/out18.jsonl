{"id": "nf01", "definition": "Prog.updateStatus", "edit": "the epoch kept as the latest has lost its transaction list", "claim": "C111: latest epochs of one height are the same as those by height on any node", "rc": 1, "secs": 36, "failed": ["Props/ConsensusLock:runs_updateStatus"], "examples": [], "model_error": []}
{"id": "nf02", "definition": "Prog.updateStatus", "edit": "the epoch is stored with the address of the node as proposer", "claim": "C111: two nodes show the same epoch for a height", "rc": 1, "secs": 39, "failed": ["Props/ConsensusLock:runs_updateStatus"], "examples": [], "model_error": []}
{"id": "nf03", "definition": "Prog.commitTail", "edit": "the fees of a committed epoch go to the committing node", "claim": "C111: receipts/balances are the same on all nodes", "rc": 1, "secs": 34, "failed": ["Props/ConsensusLock:runs_commitTail"], "examples": [], "model_error": []}
{"id": "nf04", "definition": "Prog.updateStatus", "edit": "the epoch is recorded under the next height", "claim": "C111: recorded epochs of one height agree with the chain", "rc": 1, "secs": 31, "failed": ["Props/ConsensusLock:runs_updateStatus", "Props/ConsensusLock:C63_refuted"], "examples": ["Props/ConsensusLock"], "model_error": []}
{"id": "nf05", "definition": "Prog.updateStatus", "edit": "the status is not updated", "claim": "C111: nodes that have recorded equally many epochs agree on their next proposals", "rc": 1, "secs": 36, "failed": ["Props/ConsensusLock:runs_updateStatus", "Props/ConsensusLock:C63_refuted"], "examples": [], "model_error": []}
{"id": "nf06", "definition": "handleInit", "edit": "every start runs the genesis and overwrites the latest epoch", "claim": "C111: the epochs a node shows are those of the chain over restarts", "rc": 1, "secs": 7, "failed": ["Props/Consensus:handleInit_some"], "examples": [], "model_error": []}
{"id": "nf07", "definition": "Prog.commitTail", "edit": "execution uses the state root of the epoch header", "claim": "C111: states of nodes that recorded equally many epochs agree", "rc": 1, "secs": 34, "failed": ["Props/ConsensusLock:runs_commitTail"], "examples": ["Props/ConsensusLock"], "model_error": []}
{"id": "nf08", "definition": "NodeCfg.genesisEpoch", "edit": "the genesis epoch names the node that created it as proposer", "claim": "C111: the genesis epoch is the same on all nodes", "rc": 1, "secs": 275, "failed": ["Props/Agreement:handleInit_self", "Props/Agreement:firstStart_agree", "Props/Agreement:C13_genesis_epoch"], "examples": [], "model_error": []}
{"id": "nw01", "definition": "Prog.insert", "edit": "the signature is checked of transactions of peers only", "claim": "C112: every executed transaction in the network is signed", "rc": 1, "secs": 48, "failed": ["Props/NodeConc:solo_insert", "Props/NodeConc:keeps_insert"], "examples": [], "model_error": []}
{"id": "nw02", "definition": "gossips", "edit": "transactions are gossiped before they are checked", "claim": "C112: what a node sends it holds in its pool or store", "rc": 1, "secs": 808, "failed": ["Props/Server2:C80_local_gossiped", "Props/Network:C112_sends"], "examples": ["Props/Server2"], "model_error": []}
{"id": "nw03", "definition": "Prog.insert", "edit": "an insertion keeps the transaction with an empty signature", "claim": "C112: transactions are those that were submitted, signed", "rc": 1, "secs": 39, "failed": ["Props/NodeConc:solo_insert", "Props/NodeConc:keeps_insert"], "examples": [], "model_error": []}
{"id": "nw04", "definition": "rpcHandler", "edit": "a request for transactions is answered with the latest ones of a fixed list", "claim": "C112: replies carry stored transactions", "rc": 1, "secs": 28, "failed": ["Props/Network:C112_sends", "Props/Server:C67_txs"], "examples": [], "model_error": []}
