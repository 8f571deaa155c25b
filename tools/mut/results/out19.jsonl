{"id": "u01", "definition": "Node.sendUnsafeTransfer", "edit": "an unsafe transfer builds the action of a call without the asset", "claim": "C72: what the API says is sent", "rc": 1, "secs": 156, "failed": ["Props/ApiServer:?"], "examples": [], "model_error": []}
{"id": "u02", "definition": "Node.sendUnsafeDeploy", "edit": "the deployed type is always asset", "claim": "C72", "rc": 1, "secs": 30, "failed": ["Props/ApiServer:C72_send_unsafe"], "examples": [], "model_error": []}
{"id": "u03", "definition": "coverDeploy", "edit": "the code is read as text", "claim": "C51/C72: arguments are converted as the API says", "rc": 1, "secs": 9, "failed": ["Props/Api:C62_submitted_transaction"], "examples": [], "model_error": []}
{"id": "u04", "definition": "readUser", "edit": "contract addresses are accepted as users", "claim": "C51", "rc": 1, "secs": 9, "failed": ["Props/Api:C62_submitted_transaction"], "examples": [], "model_error": []}
{"id": "u05", "definition": "asHex", "edit": "the prefix is not removed", "claim": "C51: hex numbers round-trip", "rc": 1, "secs": 8, "failed": ["Props/Api:writes_vals", "Props/Api:C51_u64_accepts_partial", "Props/Api:C51_malformed_refuted"], "examples": [], "model_error": []}
{"id": "u06", "definition": "Node.startOvStatus", "edit": "the consensus starts one height later", "claim": "C70/C43: the consensus starts at the next height", "rc": 1, "secs": 26, "failed": ["Props/Authority:C69_height"], "examples": [], "model_error": []}
{"id": "u07", "definition": "bAddBalance", "edit": "balances are overwritten", "claim": "C85: the byte executor does what the typed one does", "rc": 1, "secs": 25, "failed": ["Proof/ByteExecutor:addBalance_sim", "Proof/ByteExecutor:accTransfer_sim", "Proof/ByteExecutor:rewardCoinbase_sim", "Proof/ByteExecutor:genesisAssets_sim"], "examples": [], "model_error": []}
{"id": "u08", "definition": "bSubBalance", "edit": "debit of an empty account creates it first", "claim": "C85", "rc": 1, "secs": 12, "failed": ["Proof/ByteExecutor:subBalance_sim"], "examples": [], "model_error": []}
{"id": "u09", "definition": "bAccTransfer", "edit": "cycles are charged before the transfer only", "claim": "C85", "rc": 1, "secs": 4, "failed": ["Proof/ByteExecutor:accTransfer_sim"], "examples": [], "model_error": []}
{"id": "u10", "definition": "bSettle", "edit": "a codec error fails the block", "claim": "C85: a transaction that meets a malformed value fails alone", "rc": 1, "secs": 24, "failed": ["Proof/MptStore:bSettle_fine"], "examples": [], "model_error": []}
{"id": "u11", "definition": "bRewardCoinbase", "edit": "only the first fee is paid", "claim": "C85", "rc": 1, "secs": 3, "failed": ["Proof/ByteExecutor:rewardCoinbase_sim"], "examples": [], "model_error": []}
{"id": "u12", "definition": "bHandleDeploy", "edit": "the nonce is not used for the address", "claim": "C85/C05", "rc": 1, "secs": 4, "failed": ["Proof/ByteExecutor:handleDeploy_sim"], "examples": [], "model_error": []}
{"id": "u13", "definition": "bGenesisAllocs", "edit": "accounts without assets are skipped silently", "claim": "C85/C13", "rc": 1, "secs": 4, "failed": ["Proof/ByteExecutor:genesisAllocs_sim"], "examples": [], "model_error": []}
{"id": "u14", "definition": "bQueryBalance", "edit": "a missing account has balance zero", "claim": "C85/C73", "rc": 1, "secs": 23, "failed": ["Props/ByteExecutor:call_sim", "Props/ByteExecutor:C85_roots_reopen"], "examples": [], "model_error": []}
{"id": "u15", "definition": "NodeCfg.merkle", "edit": "an empty list has the root of one zero hash", "claim": "C52/C78: roots of empty lists", "rc": 0, "secs": 558, "failed": [], "examples": [], "model_error": []}
{"id": "u16", "definition": "NodeCfg.epochHash", "edit": "the hash of an epoch leaves out its transactions", "claim": "C35: the link commits to the whole epoch", "rc": 1, "secs": 34, "failed": ["Props/Consensus:C35_pre_hash", "Props/Consensus:linked_all", "Props/Consensus:Lives.chained"], "examples": [], "model_error": []}
{"id": "u17", "definition": "Prog.each", "edit": "only the first transaction of an answer is taken", "claim": "C102: a check that overlaps nothing is the sequential one", "rc": 1, "secs": 33, "failed": ["Props/ConsensusLock:Prog.Pooly.each"], "examples": [], "model_error": []}
{"id": "u18", "definition": "Conf.start", "edit": "a call replaces the task that runs under its number", "claim": "C41 (no theorem depends on reuse of numbers?)", "rc": 1, "secs": 32, "failed": ["Props/ConsensusLock:LockInv.step", "Props/ConsensusLock:start_same"], "examples": [], "model_error": []}
{"id": "u19", "definition": "Write.tooLong", "edit": "the limit is 2^32", "claim": "C98: writes succeed unless the value has 2^64 bytes", "rc": 1, "secs": 4, "failed": ["Proof/Disk:good_of"], "examples": [], "model_error": []}
{"id": "u20", "definition": "Endpoint.extend", "edit": "the component is appended without a separator", "claim": "C54: extended endpoints carry the rpc id", "rc": 1, "secs": 21, "failed": ["Props/Endpoint:C54_extend"], "examples": [], "model_error": []}
{"id": "u21", "definition": "Endpoint.scheme", "edit": "rpc responses are taken for calls", "claim": "C54", "rc": 1, "secs": 20, "failed": ["Props/Startup:C92_registers"], "examples": ["Props/Rpc"], "model_error": []}
{"id": "u22", "definition": "parseU64", "edit": "a plus sign is not accepted", "claim": "C54 (characterisation of accepted rpc ids)", "rc": 1, "secs": 20, "failed": ["Props/Endpoint:parseU64_showNat"], "examples": [], "model_error": []}
{"id": "u23", "definition": "OverlordCrypto.verifyAggregated", "edit": "aggregated signatures are refused", "claim": "C42 (the refutation: always accepted)", "rc": 1, "secs": 15, "failed": ["Props/OverlordCrypto:C42_aggregate_refuted"], "examples": [], "model_error": []}
{"id": "u24", "definition": "connectionCount", "edit": "the node itself is counted", "claim": "C58: the connection count is well defined", "rc": 1, "secs": 3, "failed": ["Props/PeerManager:C58_count_partial", "Props/PeerManager:C58_refuted_rounds"], "examples": ["Props/PeerManager"], "model_error": []}
{"id": "u25", "definition": "addNewPeer", "edit": "the address stays unknown", "claim": "C57: an identified address is no longer unknown", "rc": 1, "secs": 4, "failed": ["Props/PeerManager:attachPool_cases", "Props/PeerManager:NoRetry.step"], "examples": [], "model_error": []}
{"id": "u26", "definition": "attachPool", "edit": "the listen address of a known peer is not recorded", "claim": "C76: told addresses of connected peers", "rc": 1, "secs": 4, "failed": ["Props/PeerManager:attachPool_cases", "Props/PeerManager:bootKeep_step", "Props/PeerManager:NoRetry.step"], "examples": [], "model_error": []}
{"id": "u27", "definition": "detachSession", "edit": "the session of the peer stays in the table", "claim": "C56: tables are inverse", "rc": 0, "secs": 12, "failed": [], "examples": [], "model_error": []}
{"id": "u28", "definition": "increasePeerRetry", "edit": "the peer is not removed at the maximum", "claim": "C68: the sixth failure frees the slot", "rc": 1, "secs": 4, "failed": ["Props/PeerManager:Kept.increasePeerRetry", "Props/PeerManager:bootKeep_increase", "Props/PeerManager:increase_unknown", "Props/PeerManager:NoRetry.step", "Props/PeerManager:Dialling.increase"], "examples": [], "model_error": []}
{"id": "u29", "definition": "reconnectUnknown", "edit": "an unknown address is kept for ever", "claim": "C59", "rc": 1, "secs": 4, "failed": ["Props/PeerManager:NoRetry.reconnectUnknown"], "examples": [], "model_error": []}
{"id": "u30", "definition": "setInsert", "edit": "elements are added twice", "claim": "C58/C56: counts are of distinct peers", "rc": 1, "secs": 4, "failed": ["Props/PeerManager:mem_setInsert", "Props/PeerManager:nodup_setInsert", "Props/PeerManager:dials_others"], "examples": [], "model_error": []}
{"id": "u31", "definition": "secsBetween", "edit": "the time since is negative counts as zero", "claim": "C75: waiting times", "rc": 0, "secs": 13, "failed": [], "examples": [], "model_error": []}
{"id": "u32", "definition": "backoffBase", "edit": "the base of the waiting time is 1", "claim": "C75: waiting times grow", "rc": 1, "secs": 6, "failed": ["Props/PeerManager2:C75_round_waits_partial"], "examples": ["Props/PeerManager2"], "model_error": []}
{"id": "u33", "definition": "tryRemoveAddr", "edit": "the address is removed from the first peer only if it is connected", "claim": "C61: unusable addresses are dropped", "rc": 1, "secs": 4, "failed": ["Props/PeerManager:quiet_tryRemoveAddr", "Props/PeerManager:bootKeep_step", "Props/PeerManager:NoRetry.step", "Props/PeerManager:Dialling.step"], "examples": [], "model_error": []}
{"id": "u34", "definition": "readIp", "edit": "IPv6 addresses are read as IPv4", "claim": "C86: peers known at shutdown are known after", "rc": 1, "secs": 3, "failed": ["Props/Persist:readIp_encIp", "Props/Persist:mono_ip"], "examples": [], "model_error": []}
{"id": "u35", "definition": "readPeer", "edit": "connect and disconnect times are exchanged", "claim": "C86", "rc": 1, "secs": 4, "failed": ["Props/Persist:readPeer_enc"], "examples": ["Props/Persist"], "model_error": []}
{"id": "u36", "definition": "u32LE", "edit": "big endian", "claim": "C86", "rc": 1, "secs": 4, "failed": ["Props/Persist:readIp_encIp"], "examples": [], "model_error": []}
{"id": "u37", "definition": "PM.start", "edit": "saved peers are not dialled or inserted", "claim": "C86", "rc": 1, "secs": 4, "failed": ["Props/PeerManager:KeptStart.start", "Props/PeerManager:demoRun_hist"], "examples": [], "model_error": []}
{"id": "u38", "definition": "allCyclesUsed", "edit": "fees of the first receipt are counted twice", "claim": "C07/C79", "rc": 1, "secs": 312, "failed": ["Proof/ExecSums:allCyclesUsed_spec"], "examples": [], "model_error": []}
{"id": "u39", "definition": "rewardCoinbase", "edit": "the reward is paid in one asset", "claim": "C07 (the committed state does not depend on it)", "rc": 1, "secs": 1020, "failed": ["Proof/ByteExecutor:rewardCoinbase_sim"], "examples": [], "model_error": []}
{"id": "u40", "definition": "incNonce", "edit": "an unknown sender is created", "claim": "C10: an unknown sender makes the block fail", "rc": 1, "secs": 90, "failed": ["Proof/ByteExecutor:incNonce_sim", "Proof/ExecFlat:incNonce_eq"], "examples": [], "model_error": []}
{"id": "u41", "definition": "addBalanceContract", "edit": "an existing balance of a contract is overwritten", "claim": "C02: credits add up", "rc": 1, "secs": 82, "failed": ["Proof/ExecEffects:balance_credit"], "examples": [], "model_error": []}
