{
 "claims": [
  {
   "property": "C01",
   "status": "proved",
   "theorems": [
    "Huobi.C01_conservation",
    "Huobi.C01_conservation_chain",
    "Huobi.totalIs_unique",
    "Huobi.reachable_wellTyped"
   ],
   "note": ""
  },
  {
   "property": "C02",
   "status": "proved",
   "theorems": [
    "Huobi.C02_transfer_exact",
    "Huobi.C02_overdraw_fails",
    "Huobi.C02_ledger",
    "Huobi.executes_prefix"
   ],
   "note": ""
  },
  {
   "property": "C03",
   "status": "partial",
   "theorems": [
    "Huobi.C03_failed_no_effect_partial",
    "Huobi.C03_failed_removable_partial",
    "Huobi.C03_other_nonce_refuted"
   ],
   "note": "False for nonces: a failed transaction also discards the nonce increment of the transaction before it (witness). Proved: nothing committed changes, and (without later deploys) other receipts, balances, approvals and assets do not change."
  },
  {
   "property": "C04",
   "status": "proved",
   "theorems": [
    "Huobi.C04_receipts"
   ],
   "note": ""
  },
  {
   "property": "C05",
   "status": "proved",
   "theorems": [
    "Huobi.C05_cycle_limit"
   ],
   "note": "fee = cycles * price as u64 (wrapping)"
  },
  {
   "property": "C06",
   "status": "proved",
   "theorems": [
    "Huobi.C06_fee_summary",
    "Huobi.C06_fee_summary_exact"
   ],
   "note": "as u64; exact when the sum fits"
  },
  {
   "property": "C07",
   "status": "partial",
   "theorems": [
    "Huobi.C07_coinbase_irrelevant_refuted",
    "Huobi.C07_reward_refuted",
    "Huobi.C07_coinbase_ledger_partial"
   ],
   "note": "False: the reward is written to the cache after the last stash and is not committed. Proved: committed state independent of the coinbase."
  },
  {
   "property": "C08",
   "status": "partial",
   "theorems": [
    "Huobi.C08_nonce_exact_partial",
    "Huobi.C08_nonce_bound_partial",
    "Huobi.C08_nonce_refuted"
   ],
   "note": "False: the increment is only kept if the next transaction of the block succeeds. The exact rule is proved."
  },
  {
   "property": "C09",
   "status": "partial",
   "theorems": [
    "Huobi.C09_fee_charged_refuted",
    "Huobi.C02_ledger"
   ],
   "note": "False: no fee is ever deducted (ledger equation and witness)."
  },
  {
   "property": "C10",
   "status": "partial",
   "theorems": [
    "Huobi.C10_executable_partial",
    "Huobi.C10_unknown_sender_refuted",
    "Huobi.C10_poison_refuted",
    "Huobi.C10_unsupported_panics_refuted",
    "Huobi.C10_commit_panics_refuted"
   ],
   "note": "False: unknown sender fails the whole block, unsupported actions panic. Proved: executable when all senders exist and actions are supported."
  },
  {
   "property": "C11",
   "status": "proved",
   "theorems": [
    "Huobi.C11_adapter_refines",
    "Huobi.C11_revert_undoes",
    "Huobi.C11_unstashed_not_persistent"
   ],
   "note": ""
  },
  {
   "property": "C12",
   "status": "proved",
   "theorems": [
    "Huobi.C12_asset_permanent",
    "Huobi.C12_deploy_fresh",
    "Huobi.C12_asset_ids_step",
    "Huobi.reachable_wellTyped"
   ],
   "note": ""
  },
  {
   "property": "C13",
   "status": "partial",
   "theorems": [
    "Huobi.C13_genesis_balances",
    "Huobi.C13_genesis_token",
    "Huobi.C13_genesis_accounts",
    "Huobi.C13_first_start",
    "Huobi.C13_genesis_epoch",
    "Huobi.C13_supply_refuted"
   ],
   "note": "Balances and token proved; the supply clause is false (supply credited to nobody)."
  },
  {
   "property": "C14",
   "status": "partial",
   "theorems": [
    "Huobi.C14_withdraw_user",
    "Huobi.C14_withdraw_contract_partial",
    "Huobi.C14_withdraw_contract_refuted"
   ],
   "note": "Proved for user accounts; false for contract accounts (absent asset is credited, too low balance panics)."
  },
  {
   "property": "C15",
   "status": "partial",
   "theorems": [
    "Huobi.C15_history_independent",
    "Huobi.C15_failed_execution_leaves_db",
    "Huobi.C15_other_roots_kept",
    "Huobi.C15_reuse_refuted"
   ],
   "note": "Proved for executors opened from a root; false for reusing one executor object for two blocks."
  },
  {
   "property": "C17",
   "status": "proved",
   "theorems": [
    "Huobi.C17_sharded_map_is_one_map",
    "Huobi.C17_spec_deterministic"
   ],
   "note": ""
  },
  {
   "property": "C18",
   "status": "partial",
   "theorems": [
    "Huobi.C18_package_distinct_and_pooled",
    "Huobi.C18_concurrent_package",
    "Huobi.C18_flush_race_refuted"
   ],
   "note": "Proved for calls that do not overlap, and under overlapping inserts and flushes for hashes no flush names; false when a flush races with a package and the transaction is inserted again."
  },
  {
   "property": "C19",
   "status": "partial",
   "theorems": [
    "Huobi.C19_cycle_limit_partial",
    "Huobi.C19_order_limit_refuted",
    "Huobi.C19_propose_limit_refuted"
   ],
   "note": "False: u64 overflow of the counter, and a single transaction above the limit is proposed. Proved for values below 2^63 with the exact exception."
  },
  {
   "property": "C20",
   "status": "proved",
   "theorems": [
    "Huobi.C20_window"
   ],
   "note": ""
  },
  {
   "property": "C21",
   "status": "partial",
   "theorems": [
    "Huobi.C21_not_lost_partial",
    "Huobi.C21_quiescent_is_pool",
    "Huobi.C21_not_lost_refuted",
    "Huobi.roomy_of_few_inserts",
    "Huobi.C21_rejected_leaves_nothing"
   ],
   "note": "False when the candidate queue is full during a package. Proved for every interleaving as long as the queues have room."
  },
  {
   "property": "C22",
   "status": "proved",
   "theorems": [
    "Huobi.C22_flush_exact"
   ],
   "note": ""
  },
  {
   "property": "C23",
   "status": "partial",
   "theorems": [
    "Huobi.C23_violation_rejected",
    "Huobi.C23_admission_partial",
    "Huobi.C23_admission_rest",
    "Huobi.C23_full_queue_refuted",
    "Huobi.C23_broadcast_refuted"
   ],
   "note": "False in two corner cases (all queue slots held by flushed transactions; broadcaster error after insertion). Proved otherwise, and the corner cases are characterised."
  },
  {
   "property": "C24",
   "status": "partial",
   "theorems": [
    "Huobi.C24_pooled_is_packaged",
    "Huobi.C24_admitted_is_packaged_partial",
    "Huobi.C24_packaged_if_all_fit",
    "Huobi.C24_timeout_boundary_refuted"
   ],
   "note": "False for a time-out equal to the latest epoch. Proved for later time-outs when everything pooled fits."
  },
  {
   "property": "C25",
   "status": "partial",
   "theorems": [
    "Huobi.C25_pool_size_partial",
    "Huobi.C25_concurrent_partial",
    "Huobi.C25_pool_size_refuted",
    "Huobi.C25_proposals_refuted"
   ],
   "note": "False under concurrent inserts and for proposal synchronisation. Proved for non-overlapping calls without it; with at most k overlapping inserts the excess is at most k-1."
  },
  {
   "property": "C26",
   "status": "proved",
   "theorems": [
    "Huobi.C26_full_txs_exact"
   ],
   "note": ""
  },
  {
   "property": "C27",
   "status": "partial",
   "theorems": [
    "Huobi.C27_ensured_is_available_partial",
    "Huobi.C27_wrong_answer_refuted",
    "Huobi.C27_package_between_refuted",
    "Huobi.C27_incomplete_answer_rejected"
   ],
   "note": "False: only the number of transactions is compared. Proved when the peer's answer covers the request."
  },
  {
   "property": "C28",
   "status": "partial",
   "theorems": [
    "Huobi.C28_pooled_checked_partial",
    "Huobi.C28_proposed_unchecked_refuted"
   ],
   "note": "False for transactions received by proposal synchronisation. Proved without it."
  },
  {
   "property": "C61",
   "status": "proved",
   "theorems": [
    "Huobi.C61_cache_is_fifo_pool",
    "Huobi.C61_order_list_is_longest_prefix"
   ],
   "note": ""
  },
  {
   "property": "C29",
   "status": "proved",
   "theorems": [
    "Huobi.C29_batches_are_submissions",
    "Huobi.C29_tick_sends_all",
    "Huobi.C29_drain_sends_all",
    "Huobi.C29_errors_reported_once"
   ],
   "note": ""
  },
  {
   "property": "C43",
   "status": "proved",
   "theorems": [
    "Huobi.C43_tree_round_trip",
    "Huobi.C43_prefix_free",
    "Huobi.C43_lists_injective",
    "Huobi.C43_readers"
   ],
   "note": "The rlp crate is a dependency; it is modelled from its documented behaviour."
  },
  {
   "property": "C44",
   "status": "partial",
   "theorems": [
    "Huobi.C44_round_trip_partial",
    "Huobi.C44_approve_refuted"
   ],
   "note": "False for Approve transactions and receipts, which are encoded as nothing. Proved for all other values of all types."
  },
  {
   "property": "C45",
   "status": "partial",
   "theorems": [
    "Huobi.C45_preimage_injective_partial",
    "Huobi.C45_hash_collision_partial",
    "Huobi.C45_approve_refuted"
   ],
   "note": "False for Approve transactions, which all share one hash. Proved for all other pairs."
  },
  {
   "property": "C46",
   "status": "partial",
   "theorems": [
    "Huobi.C46_canonical_form_partial",
    "Huobi.C46_epoch_id_partial",
    "Huobi.C46_canonical_refuted"
   ],
   "note": "False: trailing items and long-form lengths are accepted. Proved for all types: whatever bytes a value was decoded from, its coding decodes to the same value and no other decoded value has it; the accepted codings of an epoch id are characterised."
  },
  {
   "property": "C47",
   "status": "partial",
   "theorems": [
    "Huobi.C47_no_panic_partial",
    "Huobi.C47_list_panics_iff",
    "Huobi.C47_raw_tx_panic_cause",
    "Huobi.C47_panic_refuted",
    "Huobi.C47_protobuf_no_panic_partial",
    "Huobi.C47_protobuf_refuted",
    "Huobi.C47_protobuf_header_panic_exact"
   ],
   "note": "False for every type with an embedded list (fixed codec) or a log bloom (protobuf). Proved for the other types; the exact cause is characterised for list decoding and for raw transactions."
  },
  {
   "property": "C48",
   "status": "partial",
   "theorems": [
    "Huobi.C48_round_trip_partial",
    "Huobi.C48_deploy_exact",
    "Huobi.C48_refuted",
    "Huobi.C48_injective_partial"
   ],
   "note": "False for transactions deploying, and receipts of deploying, a contract other than an asset (App and Library are exchanged, Native does not decode). Proved for all other values of all types."
  },
  {
   "property": "C49",
   "status": "proved",
   "theorems": [
    "Huobi.C49_bytes_exact",
    "Huobi.C49_bytes_round_trip",
    "Huobi.C49_unambiguous",
    "Huobi.C49_hex_round_trip",
    "Huobi.C49_hex_exact",
    "Huobi.C49_derived"
   ],
   "note": "The invariant that the first byte of an address is its tag is part of the model's address types, as the private fields of the Rust types guarantee."
  },
  {
   "property": "C50",
   "status": "partial",
   "theorems": [
    "Huobi.C50_round_trip_partial",
    "Huobi.C50_kind",
    "Huobi.C50_panic_iff",
    "Huobi.C50_refuted",
    "Huobi.C50_mempool_messages_partial"
   ],
   "note": "False for batches with App/Library/Native deployments and for malformed responses, which abort the node; exactly which ones is characterised. Proved for all other responses."
  },
  {
   "property": "C51",
   "status": "partial",
   "theorems": [
    "Huobi.C51_round_trip",
    "Huobi.C51_u64_accepts_partial",
    "Huobi.C51_malformed_refuted"
   ],
   "note": "Round trip proved for all numbers. 'Malformed numbers are rejected' is false (+1, the ligature U+FB00, the empty amount); what is accepted as u64 is characterised."
  },
  {
   "property": "C62",
   "status": "proved",
   "theorems": [
    "Huobi.C62_submitted_transaction",
    "Huobi.C62_fields_determine"
   ],
   "note": ""
  },
  {
   "property": "C31",
   "status": "partial",
   "theorems": [
    "Huobi.C31_rocks_partial",
    "Huobi.C31_read_your_write_partial",
    "Huobi.C31_refuted"
   ],
   "note": "False with MemoryAdapter (all kinds share one keyspace) and for non-asset deployments (C48). Proved for RocksAdapter and all other records, over all histories of writes."
  },
  {
   "property": "C32",
   "status": "proved",
   "theorems": [
    "Huobi.C32_latest_readable",
    "Huobi.C32_contents",
    "Huobi.C32_contents_partial"
   ],
   "note": "A crash keeps a prefix of the atomic writes. Assumes no collision between header digests and the two reserved keys (apart_or_collision shows that anything else is a collision). C32_contents_partial adds that the records read back carry the right hash, except non-asset deployments."
  },
  {
   "property": "C33",
   "status": "partial",
   "theorems": [
    "Huobi.C33_batch_exact",
    "Huobi.C33_all_stored_partial",
    "Huobi.C33_refuted"
   ],
   "note": "False: hashes that are not stored are silently left out. The exact answer is proved; position by position correct if all are stored."
  },
  {
   "property": "C34",
   "status": "partial",
   "theorems": [
    "Huobi.C34_refuted",
    "Huobi.C34_refuted_witness",
    "Huobi.C34_by_header_hash_partial"
   ],
   "note": "False for every chain: the index uses the digest of the protobuf coding of the header, the link the digest of the RLP coding of the epoch; a successful lookup by the link exhibits a collision with a recorded header or a reserved name. Lookup by the indexed digest is proved."
  },
  {
   "property": "C52",
   "status": "partial",
   "theorems": [
    "Huobi.C52_merkle_partial",
    "Huobi.C52_distinct_partial",
    "Huobi.C52_refuted"
   ],
   "note": "False across lengths in general (a list of inner nodes has the root of its leaves). Proved for lists of equal length, up to an explicit collision among the byte strings hashed for the two roots."
  },
  {
   "property": "C35",
   "status": "partial",
   "theorems": [
    "Huobi.C35_pre_hash",
    "Huobi.C35_chain_partial",
    "Huobi.C35_concurrent_partial",
    "Huobi.C35_refuted"
   ],
   "note": "Proposals: proved for all lifetimes. The chain: false for arbitrary commits, because neither check_epoch nor commit looks at the header; proved if commits and peers continue the chain, over crashes and restarts."
  },
  {
   "property": "C36",
   "status": "partial",
   "theorems": [
    "Huobi.C36_roots_partial",
    "Huobi.C36_replay_partial",
    "Huobi.C36_concurrent_partial",
    "Huobi.C36_refuted"
   ],
   "note": "False when the node synchronises (the first fetched epoch is executed on the root before the latest epoch). Proved for all processes without synchronisation."
  },
  {
   "property": "C37",
   "status": "partial",
   "theorems": [
    "Huobi.C37_partial",
    "Huobi.C37_concurrent_partial",
    "Huobi.C37_refuted"
   ],
   "note": "False: the root after a restart is the one before the latest epoch, the proof that of the epoch before. Height and previous hash are proved right; the root is right exactly if the latest epoch did not change it."
  },
  {
   "property": "C16",
   "status": "partial",
   "theorems": [
    "Huobi.C16_partial",
    "Huobi.C16_refuted",
    "Huobi.C16_concurrent_partial"
   ],
   "note": "False: the answer is the state before the queried epoch. That the answer is exactly this state, also after later epochs, is proved."
  },
  {
   "property": "C38",
   "status": "partial",
   "theorems": [
    "Huobi.C38_partial",
    "Huobi.C38_refuted"
   ],
   "note": "False in three ways (stale root, fresh node, gap of one). Proved when the root in the header of the node's latest epoch is the root after it."
  },
  {
   "property": "C39",
   "status": "partial",
   "theorems": [
    "Huobi.C39_header_ignored",
    "Huobi.C39_refuted",
    "Huobi.C39_partial"
   ],
   "note": "False for every node: the answer does not depend on the header. Proved: an accepted epoch comes with exactly the transactions it orders, in order."
  },
  {
   "property": "C40",
   "status": "partial",
   "theorems": [
    "Huobi.C40_partial",
    "Huobi.C40_refuted"
   ],
   "note": "False: after a failed execution the transactions are gone from the pool and every retry fails. Proved: what every error leaves unchanged, and that a commit that failed early can be repeated."
  },
  {
   "property": "C42",
   "status": "partial",
   "theorems": [
    "Huobi.C42_partial",
    "Huobi.C42_crash_refuted",
    "Huobi.C42_aggregate_refuted"
   ],
   "note": "False for byte strings shorter than 33 bytes (panic) and for aggregated signatures and proofs (always accepted). Proved for single signatures of 33 or more bytes; the signature scheme itself is abstract."
  },
  {
   "property": "C64",
   "status": "partial",
   "theorems": [
    "Huobi.C64_partial",
    "Huobi.C64_refuted"
   ],
   "note": "False for an announced height of 1 (u64 arithmetic wraps; release build). Proved for announced heights from 2 on and peers that answer with the epochs asked for."
  },
  {
   "property": "C65",
   "status": "partial",
   "theorems": [
    "Huobi.C65_partial",
    "Huobi.C65_restarts_partial",
    "Huobi.C65_replay_refuted",
    "Huobi.C65_twice_refuted",
    "Huobi.C65_sync_refuted"
   ],
   "note": "False: check_epoch and commit do not look at stored transactions, nor for duplicates in an epoch; synchronisation does not flush the pool. Proved for lifetimes without synchronisation in which peers send no committed transaction."
  },
  {
   "property": "C41",
   "status": "proved",
   "theorems": [
    "Huobi.C41_serialised",
    "Huobi.C41_sequential",
    "Huobi.lockInv"
   ],
   "note": "Any number of tasks running commit and update_epoch, cut at every access to shared data, interleaved with each other and with pool operations in any way: only the holder of the engine lock changes the chain part of the node, and every reachable state with a free lock is that of the operations done one after the other; results of the tasks are those of the serial order. C41_sequential: every history of calls that do not overlap, as the other theorems about nodes have them, is one of the schedules."
  },
  {
   "property": "C63",
   "status": "partial",
   "theorems": [
    "Huobi.C63_refuted",
    "Huobi.C63_partial"
   ],
   "note": "Refuted as stated (bug): the latest height is read before the engine lock is taken, so a commit in between is executed again and the latest epoch can go back. Proved when no commit holds the engine lock during a synchronisation of another task."
  },
  {
   "property": "C30",
   "status": "partial",
   "theorems": [
    "Huobi.C30_refuted",
    "Huobi.C30_hangs",
    "Huobi.C30_partial"
   ],
   "note": "False (bug): src/main.rs registers the handler for new transactions on the pull_txs endpoint, so no such request is ever answered, and the asking node waits for ever. C30_partial: the handler that exists but is not registered would answer correctly."
  },
  {
   "property": "C53",
   "status": "proved",
   "theorems": [
    "Huobi.C53_ids",
    "Huobi.C53_genuine",
    "Huobi.C53_once",
    "Huobi.C53_one",
    "Huobi.C53_undisturbed",
    "Huobi.C53_answered",
    "Huobi.C53_request",
    "Huobi.rpcInv"
   ],
   "note": "For fewer than 2^64 calls per process. A response with the right session and id but of another message type ends the call with an error."
  },
  {
   "property": "C54",
   "status": "partial",
   "theorems": [
    "Huobi.C54_extend",
    "Huobi.C54_total",
    "Huobi.C54_root",
    "Huobi.C54_route",
    "Huobi.C54_register",
    "Huobi.C54_refuted"
   ],
   "note": "Proved except for one point: a first component that only begins with the name of a scheme is accepted (C54_refuted)."
  },
  {
   "property": "C66",
   "status": "partial",
   "theorems": [
    "Huobi.C66_refuted",
    "Huobi.C66_partial",
    "Huobi.C66_leak",
    "Huobi.C66_unsent",
    "Huobi.C66_reused_id"
   ],
   "note": "False (bug): there is no timeout and closing a session does not end its calls; a call whose peer does not answer waits for ever. Proved: a call that was answered ends, one whose request cannot be sent ends at once with an error, and so does one whose id is given out again."
  },
  {
   "property": "C67",
   "status": "proved",
   "theorems": [
    "Huobi.C67_epoch",
    "Huobi.C67_txs",
    "Huobi.C67_quiet",
    "Huobi.C67_end_to_end"
   ],
   "note": "Transactions that deploy contracts other than assets are changed by the coding (C50)."
  },
  {
   "property": "C55",
   "status": "proved",
   "theorems": [
    "Huobi.PM.C55_each_addressee_sent_or_missed",
    "Huobi.PM.C55_session_belongs_to_user",
    "Huobi.PM.C55_users_send"
   ],
   "note": "For every history of the peer manager. Assumes that peer id and user address tell keys apart equally well, and that configured ids belong to their keys (GoodCfg, met by demoCfg)."
  },
  {
   "property": "C56",
   "status": "partial",
   "theorems": [
    "Huobi.PM.C56_session_means_connected",
    "Huobi.PM.C56_session_maps_back",
    "Huobi.PM.C56_tables_inverse_partial",
    "Huobi.PM.C56_refuted",
    "Huobi.PM.C56_refuted_stale",
    "Huobi.PM.C56_refuted_kicks_live_peer"
   ],
   "note": "Connected: every history. Peer to session and back: session ids not reused. Inverse tables: in addition a peer is attached only while it has no session; refuted without that, with a consequence."
  },
  {
   "property": "C57",
   "status": "proved",
   "theorems": [
    "Huobi.PM.C57_bootstrap_peers_stay",
    "Huobi.PM.C57_bootstrap_addresses_stay",
    "Huobi.PM.C57_dialled_at_start"
   ],
   "note": "Every history; the second theorem: also their configured addresses stay (bootstrap ids distinct, not the node itself)."
  },
  {
   "property": "C58",
   "status": "partial",
   "theorems": [
    "Huobi.PM.C58_count_partial",
    "Huobi.PM.C58_round_partial",
    "Huobi.PM.C58_refuted",
    "Huobi.PM.C58_refuted_unknown_not_counted",
    "Huobi.PM.C58_refuted_rounds",
    "Huobi.PM.C58_no_repeated_dial"
   ],
   "note": "Proved as long as no event is about the node itself (the transport reports dials to itself separately). Refuted: with such an event the count underflows; unknown addresses being dialled are not counted, so several rounds together dial beyond the limit."
  },
  {
   "property": "C59",
   "status": "partial",
   "theorems": [
    "Huobi.PM.C59_refuted",
    "Huobi.PM.C59_kept_partial",
    "Huobi.PM.C59_once_partial",
    "Huobi.PM.C59_told_again_partial"
   ],
   "note": "Refuted for every history: a discovered address is dropped after its first temporary failure, because reach_max_retry compares the wrong way round. What holds: the address stays known through every event other than the outcome of its own dial, after a failure it is not dialled until told of again, and being told of it again makes it dialable."
  },
  {
   "property": "C60",
   "status": "partial",
   "theorems": [
    "Huobi.ConnSvc.C60_in_order_exactly_once_partial",
    "Huobi.ConnSvc.C60_nothing_lost_partial",
    "Huobi.ConnSvc.C60_progress_partial",
    "Huobi.ConnSvc.C60_eventually_issued_partial",
    "Huobi.ConnSvc.C60_exact_order_of_single_calls",
    "Huobi.ConnSvc.C60_refuted"
   ],
   "note": "Every schedule of commands, polls and answers without 'closed'. Order across commands is kept; the dials inside one command may be reordered (C60_refuted). That the service is polled again is assumed."
  },
  {
   "property": "C68",
   "status": "partial",
   "theorems": [
    "Huobi.PM.C68_sixth_failure_partial",
    "Huobi.PM.C68_refuted",
    "Huobi.PM.C68_refuted_refused_once_forgotten"
   ],
   "note": "Refuted: a peer whose dial failed stays marked as being dialled, keeps its slot and is not dialled again, and a refused dial makes the node forget the address. What holds: the sixth counted temporary failure frees the slot; a configured peer keeps its addresses and is a candidate again after its waiting time, another is forgotten."
  },
  {
   "property": "C69",
   "status": "proved",
   "theorems": [
    "Huobi.C69_authorities",
    "Huobi.C69_agree",
    "Huobi.C69_relay",
    "Huobi.C69_height"
   ],
   "note": "overlord::Node is taken to be ordered by address, as its documentation says."
  },
  {
   "property": "C70",
   "status": "partial",
   "theorems": [
    "Huobi.C70_partial",
    "Huobi.C70_proposal",
    "Huobi.C70_refuted"
   ],
   "note": "Refuted for height 0: the genesis header carries no validators, so the list is empty. Proved for every other height whose header carries the configured validators, as every own proposal does."
  },
  {
   "property": "C71",
   "status": "proved",
   "theorems": [
    "Huobi.C71_epoch",
    "Huobi.C71_unambiguous",
    "Huobi.C71_walk",
    "Huobi.C71_concurrent_walk"
   ],
   "note": "The GraphQL layer itself is not modelled. C71_walk: lifetimes in which commits and peers continue the chain (as C35)."
  },
  {
   "property": "C72",
   "status": "proved",
   "theorems": [
    "Huobi.C72_send",
    "Huobi.C72_send_unsafe",
    "Huobi.C72_unsafe_accepted"
   ],
   "note": "secp256k1 is abstract; that signatures made with a key verify is a hypothesis of C72_unsafe_accepted."
  },
  {
   "property": "C73",
   "status": "partial",
   "theorems": [
    "Huobi.C73_refuted",
    "Huobi.C73_refuted_root",
    "Huobi.C73_refuted_witness",
    "Huobi.C73_partial"
   ],
   "note": "False (bug): the resolver turns every failure into balance zero. Proved: a query that can be answered is answered correctly and unreadable arguments give an error."
  },
  {
   "property": "C74",
   "status": "proved",
   "theorems": [
    "Huobi.PM.C74_forgotten_only_after_six_failures",
    "Huobi.PM.C74_fresh",
    "Huobi.PM.C74_exactly_six",
    "Huobi.PM.C74_timed_out_dial_keeps_address",
    "Huobi.PM.C74_network",
    "Huobi.PM.C74_ping_clears"
   ],
   "note": "From every state, reachable or not, and every sequence of events."
  },
  {
   "property": "C75",
   "status": "partial",
   "theorems": [
    "Huobi.PM.C75_round_waits_partial",
    "Huobi.PM.C75_refuted"
   ],
   "note": "Proved for the dial rounds. Refuted for messages: a message to the user of a peer without a session has the peer dialled at once."
  },
  {
   "property": "C76",
   "status": "proved",
   "theorems": [
    "Huobi.PM.C76_recorded_addresses_known",
    "Huobi.PM.C76_discovered_addresses_placed",
    "Huobi.PM.C76_not_attributed_to_others",
    "Huobi.PM.C76_connected_recorded",
    "Huobi.PM.C76_offline_untouched",
    "Huobi.PM.C76_network",
    "Huobi.PM.C76_repeated"
   ],
   "note": "Started managers whose saved peers have distinct ids, as a saved pool has."
  },
  {
   "property": "C77",
   "status": "partial",
   "theorems": [
    "Huobi.PM.C77_session_closed_partial",
    "Huobi.PM.C77_network_partial",
    "Huobi.PM.C77_refuted"
   ],
   "note": "Refuted on the sixth counted failure: the session leaves the tables before the command would be made, so the transport keeps it open while the node has forgotten it."
  },
  {
   "property": "C78",
   "status": "partial",
   "theorems": [
    "Huobi.C78_header_partial",
    "Huobi.C78_concurrent_partial",
    "Huobi.C78_root",
    "Huobi.C78_proof",
    "Huobi.C78_restart_refuted",
    "Huobi.C78_own_proposal_accepted",
    "Huobi.C78_never_asks_again"
   ],
   "note": "Proved for proposals after an epoch recorded by the same process, and the acceptance of own proposals in every lifetime. Refuted after a restart: transaction root, receipt root, proof and state root of the last epoch are not restored."
  },
  {
   "property": "C79",
   "status": "partial",
   "theorems": [
    "Huobi.C79_frozen",
    "Huobi.C79_refuted"
   ],
   "note": "Refuted: update_status never touches the two fields; every proposal of a process repeats those of the header that was the latest when it started."
  },
  {
   "property": "C80",
   "status": "proved",
   "theorems": [
    "Huobi.C80_received_not_gossiped",
    "Huobi.C80_local_gossiped"
   ],
   "note": "The batches of the broadcaster itself are C29."
  },
  {
   "property": "C81",
   "status": "partial",
   "theorems": [
    "Huobi.C81_announces",
    "Huobi.C81_heard",
    "Huobi.C81_catches_up_partial",
    "Huobi.C81_new_txs_partial",
    "Huobi.C81_one_behind",
    "Huobi.C81_refuted"
   ],
   "note": "Refuted (C81_refuted): a node one epoch behind does nothing, and a batch with a deployment of a native contract is lost as a whole. Catching up has the restrictions of C38 (a node one epoch behind does nothing, etc.); batches with a deployment of a contract other than an asset cannot be decoded. The message frame is C82."
  },
  {
   "property": "C82",
   "status": "proved",
   "theorems": [
    "Huobi.C82_gossip_arrives",
    "Huobi.C82_rpc_arrives",
    "Huobi.C82_distinct",
    "Huobi.C82_garbage",
    "Huobi.C82_announcement",
    "Huobi.C82_new_txs",
    "Huobi.C82_call"
   ],
   "note": "That decompression undoes compression (snappy) is a hypothesis; contents below 2^63 bytes."
  },
  {
   "property": "C83",
   "status": "proved",
   "theorems": [
    "Huobi.PM.C83_sent_on_open_sessions",
    "Huobi.PM.C83_commands_name_open_sessions",
    "Huobi.PM.C83_closed_not_used"
   ],
   "note": "For transports that close only what they opened and do not open a session number twice without closing it."
  },
  {
   "property": "C84",
   "status": "partial",
   "theorems": [
    "Huobi.PM.C84_forgotten_partial",
    "Huobi.PM.C84_misbehaving_forgotten",
    "Huobi.PM.C84_refuted"
   ],
   "note": "Refuted: no command to close the session is ever made, so the transport keeps it open. Proved: the peer manager forgets the session and the peer."
  },
  {
   "property": "C85",
   "status": "proved",
   "theorems": [
    "Huobi.C85_bytes_refine",
    "Huobi.C85_roots_reopen"
   ],
   "note": "Unless a buffer of 2^64 bytes would be needed or two different tries with one root are committed in the run. The Patricia trie of cita_trie is its contents with an abstract root function; calls on roots that name no state are not compared."
  },
  {
   "property": "C86",
   "status": "partial",
   "theorems": [
    "Huobi.C86_file_round_trip",
    "Huobi.PM.C86_peers_survive_restart_partial",
    "Huobi.PM.C86_default_refuted",
    "Huobi.PM.C86_bootstrap_refuted"
   ],
   "note": "Refuted for the shipped node, which never enables persistence, and for learned addresses of bootstrap peers. Proved with persistence for all other peers. bincode as documented; the codings of keys and addresses are abstract and assumed to lose nothing."
  },
  {
   "property": "C87",
   "status": "proved",
   "theorems": [
    "Huobi.C87_torn_file_rejected",
    "Huobi.PM.C87_start"
   ],
   "note": "bincode as documented; files below 2^64 bytes."
  },
  {
   "property": "C88",
   "status": "partial",
   "theorems": [
    "Huobi.C88_agreement_partial",
    "Huobi.C88_refuted",
    "Huobi.C88_concurrent_partial"
   ],
   "note": "Refuted: the transaction hash covers neither public key nor signature, but the sender is computed from the public key; one payment signed with two keys of one owner and submitted to two nodes makes them commit the same epoch with different states, nobody else misbehaving. Proved for transactions that their hash identifies (same hash, same raw transaction and public key), without synchronisation and restart, which C37 and C38 treat."
  },
  {
   "property": "C89",
   "status": "partial",
   "theorems": [
    "Huobi.C89_receipts_partial",
    "Huobi.C89_receipts_genuine",
    "Huobi.C89_receipt_root",
    "Huobi.C89_concurrent_partial",
    "Huobi.C89_refuted"
   ],
   "note": "Refuted when the database fails between writing the receipts and the epoch: the API shows a receipt of an epoch that was never recorded. Proved without failures that the receipt shown is the one of the execution of the recorded epoch; with failures, every recorded transaction has a receipt and each receipt shown was produced by executing that transaction."
  },
  {
   "property": "C90",
   "status": "proved",
   "theorems": [
    "Huobi.C90_no_money_from_nothing",
    "Huobi.C90_supply_exact",
    "Huobi.C90_concurrent"
   ],
   "note": "The bound holds in any lifetime including synchronisation, failures and restarts, and whatever calls overlap (C90_concurrent); the equality for regular runs from a first start."
  },
  {
   "property": "C91",
   "status": "partial",
   "theorems": [
    "Huobi.C91_progress_partial",
    "Huobi.C91_blocked",
    "Huobi.C91_refuted"
   ],
   "note": "Refuted (bug): admission does not compare the cycles a transaction asks for with the limit of an epoch, and packaging stops at the first transaction that does not fit; one transaction above the limit at the head of the pool keeps every order list empty until it expires. Proved when no pooled transaction asks for more than the limit."
  },
  {
   "property": "C92",
   "status": "partial",
   "theorems": [
    "Huobi.C92_as_configured_partial",
    "Huobi.C92_starts_iff",
    "Huobi.C92_genesis_file_ignored",
    "Huobi.C92_announced_partial",
    "Huobi.C92_addr_faithful",
    "Huobi.C92_multiaddr",
    "Huobi.C92_listen_once",
    "Huobi.C92_registers",
    "Huobi.C92_register_kinds",
    "Huobi.C92_chain_id_refuted",
    "Huobi.C92_bootstrap_key_refuted",
    "Huobi.C92_port_refuted"
   ],
   "note": "Refuted (bugs): the chain id of the configuration is not compared with that of the stored chain, so a node proposes an epoch of another chain on top of it; the key of a bootstrap peer is not checked to be a public key; with port 0 the node tells its peers port 0. Proved: every entry is used as written, a node starts exactly if each is well-formed, and the announced address is the bound one when the transport listens where told."
  },
  {
   "property": "C93",
   "status": "partial",
   "theorems": [
    "Huobi.C93_partial",
    "Huobi.C93_concurrent_partial",
    "Huobi.C93_exact",
    "Huobi.C93_proposal_refuted",
    "Huobi.C93_sync_refuted"
   ],
   "note": "Refuted (bugs): transactions fetched from peers for a proposal or a synchronised epoch are executed without checking their signatures. Proved for lifetimes in which the transactions that peers send on request are authorised; the exact ledger over the recorded epochs for regular runs from a first start."
  },
  {
   "property": "C94",
   "status": "partial",
   "theorems": [
    "Huobi.C94_messages_partial",
    "Huobi.C94_nothing_evicted",
    "Huobi.C94_unlinked_ignored",
    "Huobi.C94_refuted",
    "Huobi.C94_mail_partial",
    "Huobi.C94_mail_nothing_evicted"
   ],
   "note": "Refuted for every node with an epoch after the genesis and for any two headers (bugs): neither proof nor height of a fetched epoch is checked, so one announcement and the answers of one peer make the node record epochs with any headers, over any height. Proved: all other messages leave the chain alone, and announcements too unless an answer links to the latest epoch. Messages for the Overlord library are handed over and not modelled."
  },
  {
   "property": "C95",
   "status": "partial",
   "theorems": [
    "Huobi.C95_executed_partial",
    "Huobi.C95_refuted"
   ],
   "note": "Refuted (bug): anybody can submit a transaction from an account that does not exist; the epoch that contains it fails to commit after its transactions were removed from the pool, so the good ones with it are lost. Proved, with the bound, when every commit of an epoch containing the transaction succeeds and no pooled transaction asks for more cycles than an epoch may have (else C91_blocked). Within one process: the pool is not stored."
  },
  {
   "property": "C96",
   "status": "proved",
   "theorems": [
    "Huobi.C96_map",
    "Huobi.C96_root",
    "Huobi.C96_commits",
    "Huobi.C96_world",
    "Huobi.C96_not_empty",
    "Huobi.C96_executor",
    "Huobi.C96_reachable"
   ],
   "note": "The Patricia trie of cita_trie is modelled from its documentation (paths of nibbles, hex-prefix and RLP coding, embedded nodes). Collisions are named: two explicit nodes of the tries in question. C96_executor is C85 with the abstract root function replaced by the Patricia root."
  },
  {
   "property": "C97",
   "status": "partial",
   "theorems": [
    "Huobi.C97_kept",
    "Huobi.C97_exact",
    "Huobi.C97_one",
    "Huobi.C97_executor",
    "Huobi.C97_light_refuted"
   ],
   "note": "Proved for a full database (light = false, the default). Refuted for a light one: every root whose trie contains a node reported stale by a later commit becomes unreadable, though the node asks for such roots (execution of pending epochs after a restart, balance queries at old epochs). Which nodes the crate reports as stale is a parameter."
  },
  {
   "property": "C98",
   "status": "proved",
   "theorems": [
    "Huobi.C98_disk_refines",
    "Huobi.C98_patricia",
    "Huobi.C98_proper",
    "Huobi.C98_lives",
    "Huobi.C98_no_money_from_nothing",
    "Huobi.C98_room"
   ],
   "note": "The exceptions of the statement are hypotheses about the run itself. C98_lives transfers the properties of nodes to the machine at every crash point; after the one between the third and the fourth write of the initialisation the record of the latest proof, which nothing reads, may be missing. Calls that open a root that is of no state are not compared; C98_proper: there are none if the peers behave."
  },
  {
   "property": "C99",
   "status": "partial",
   "theorems": [
    "Huobi.C99_partial",
    "Huobi.C99_concurrent_partial",
    "Huobi.C99_disk_partial",
    "Huobi.C99_patricia_partial",
    "Huobi.C99_refuted",
    "Huobi.C65_replay_refuted",
    "Huobi.C65_twice_refuted",
    "Huobi.C65_sync_refuted"
   ],
   "note": "C99_disk_partial and C99_patricia_partial state it of the answers of a machine that holds only bytes, where nothing is assumed of states but that no hashes clash. Proved for every history (with crashes and restarts) in which peers hand over, on request, only signed and not yet committed transactions, committed epochs order no transaction twice and name the root of the node, and nothing is synchronised. Without these conditions it is false: C65_replay_refuted, C65_twice_refuted, C65_sync_refuted are runs in which a payer pays the same payment twice."
  },
  {
   "property": "C100",
   "status": "proved",
   "theorems": [
    "Huobi.C100_no_invented_transactions",
    "Huobi.C100_concurrent"
   ],
   "note": "C100_concurrent: whatever calls overlap. The set of transactions handed to the node is any predicate that holds of what each call hands over."
  },
  {
   "property": "C101",
   "status": "partial",
   "theorems": [
    "Huobi.C101_partial",
    "Huobi.C101_refuted"
   ],
   "note": "Refuted (bug): commit takes the transactions of the epoch out of the pool before it executes them and stores them after, and insert looks for a transaction only in the pool and in the store; a copy that arrives in between (gossip of a second peer) is taken for new, proposed again and executed again, with everybody honest. Proved for all schedules without synchronisation in which peers send on request only transactions not committed and no transaction is given to the node during a call that commits it."
  },
  {
   "property": "C102",
   "status": "partial",
   "theorems": [
    "Huobi.C102_partial",
    "Huobi.C63_refuted"
   ],
   "note": "False when a commit runs between the reading of the height and the taking of the lock in a synchronisation of another task: C63_refuted is such a schedule; no order of the two calls makes the data it leaves. Proved for all other schedules. The sequential lifetime is explained call by call (CJustified): its commits and synchronisations are the calls of the schedule, on the data and status at the moment the lock was taken, with the same or more failures. C35, C36, C37, C71, C89 and C99 are carried over to schedules with it (the theorems with _concurrent)."
  },
  {
   "property": "C103",
   "status": "proved",
   "theorems": [
    "Huobi.C103_cut_first_start"
   ],
   "note": "The commit of the genesis state to the state database is one step (C97, C98 are about its writes). The genesis is the same in all attempts."
  },
  {
   "property": "C104",
   "status": "partial",
   "theorems": [
    "Huobi.C104_proposed",
    "Huobi.C104_concurrent_partial",
    "Huobi.C104_partial",
    "Huobi.C104_executed_concurrent_partial",
    "Huobi.C104_refuted"
   ],
   "note": "Refuted: check and commit of an epoch do not look at the time-out of transactions in the pool, and fetched transactions pass at the height after their time-out; a proposer that does not follow the code gets an expired payment executed by all. Proved: nodes that follow the code propose in time only (also while other calls overlap with the proposing one, C104_concurrent_partial), and if all epochs come from such nodes, nothing is executed late, with any failures, restarts and synchronisations, also when calls overlap and processes are killed in the middle of them (C104_executed_concurrent_partial)."
  },
  {
   "property": "C105",
   "status": "partial",
   "theorems": [
    "Huobi.C105_epochs_partial",
    "Huobi.C105_balances_partial",
    "Huobi.C105_transactions_partial",
    "Huobi.C105_refuted",
    "Huobi.C105_concurrent_partial",
    "Huobi.C105_balances_concurrent_partial",
    "Huobi.C105_transactions_concurrent_partial"
   ],
   "note": "Refuted: synchronisation looks neither at the height of the epoch a peer hands over nor at the hashes of its transactions, so one peer can take the latest epoch of a node back to 0 and replace old epochs, transactions and receipts (C105_refuted). Proved for every pair of moments of a lifetime: epochs, if commits and peers continue the chain; balances, if moreover no state is stored under the root of another; transactions and receipts under the conditions of C65. Epochs and balances also between any two moments of any schedule of overlapping calls, with the processes killed at any moment, and so are transactions and receipts in the absence of the races of C101 (RaceFree). Epochs stored beyond the latest one (by a commit that failed half way) are not covered: they may be replaced."
  },
  {
   "property": "C106",
   "status": "partial",
   "theorems": [
    "Huobi.C106_partial",
    "Huobi.C106_atomic",
    "Huobi.C106_transactions_receipts",
    "Huobi.C106_refuted"
   ],
   "note": "Refuted for MemoryAdapter (used by the tests of the repository): it keeps all categories in one map, and writes a batch entry by entry. Proved of both adapters for every sequence of calls if no two places (schema and key) are stored in one column under one coded key; C106_transactions_receipts shows that for the tables of transactions and receipts on RocksAdapter. That a WriteBatch of RocksDB is atomic is assumed (C106_atomic)."
  },
  {
   "property": "C107",
   "status": "proved",
   "theorems": [
    "Huobi.C107_once",
    "Huobi.C107_progress",
    "Huobi.C107_node",
    "Huobi.C107_order_not_kept"
   ],
   "note": "All schedules, without bounds. A handler runs as one step here (overlapping handlers: C41, C101, C102, C115); the channels are unbounded and stay open. C107_order_not_kept is the reason why the property does not promise the order of arrival."
  },
  {
   "property": "C108",
   "status": "proved",
   "theorems": [
    "Huobi.C108_given"
   ],
   "note": "About the programs of ConsensusLock, whose steps are single accesses to shared data. What is recorded is what the last write of insert_epoch stores; C105 and C35 say that it stays and how the recorded epochs follow each other."
  },
  {
   "property": "C109",
   "status": "proved",
   "theorems": [
    "Huobi.C109_ends",
    "Huobi.C109_fair",
    "Huobi.C109_locks",
    "Huobi.C109_admitted"
   ],
   "note": "About the programs of ConsensusLock: an access to shared data is one step that always ends, and an answer of a peer is an argument (C66 says that remote calls end). The bound for a check depends on how many transactions a peer gives for the proposed hashes (P); C109_fair needs no bound."
  },
  {
   "property": "C110",
   "status": "partial",
   "theorems": [
    "Huobi.C110_partial",
    "Huobi.C110_served_partial",
    "Huobi.C110_refuted"
   ],
   "note": "Refuted: synchronisation does not compare the transactions a peer gives with the hashes the epoch orders, so an epoch can be recorded without its transactions (C110_refuted). Proved for all lifetimes with overlapping calls and crashes in which peers give transactions with the hashes they are asked for; commits need no such condition."
  },
  {
   "property": "C111",
   "status": "partial",
   "theorems": [
    "Huobi.C111_epochs",
    "Huobi.C111_results_partial",
    "Huobi.C111_balances_partial",
    "Huobi.C111_receipts_partial",
    "Huobi.C88_refuted",
    "Huobi.C38_refuted"
   ],
   "note": "Epochs: proved for all lifetimes (the assumption about the consensus is Decided). Results, balances and receipts: first process of each node, nothing synchronised, transactions that their hash identifies (else false: C88_refuted; after a synchronisation or restart a node may compute on a stale root: C38_refuted, C37); balances: the decided epochs name the state they were proposed on; receipts: calls in sequence, no database failure (C89_refuted)."
  },
  {
   "property": "C112",
   "status": "proved",
   "theorems": [
    "Huobi.C112_network",
    "Huobi.C112_sends"
   ],
   "note": "Assumes that all nodes use one hash function and signature scheme, that every node runs this code, and that transactions arrive as they were sent (C48: the codec changes those that deploy a contract other than an asset). A node that does not run this code can have forged transactions executed: C93_proposal_refuted, C93_sync_refuted."
  },
  {
   "property": "C113",
   "status": "proved",
   "theorems": [
    "Huobi.C113_network",
    "Huobi.C113_answers"
   ],
   "note": "Assumes that all nodes have one chain configuration and genesis file, that the consensus commits one epoch for each height (what the Overlord protocol is for), and that synchronisation answers come from nodes that run this code, as they were sent (codec of epochs: C48). Balances: for nodes of which no two different worlds have one state root. Discharges the conditions of C110_partial and C111_epochs on peers."
  },
  {
   "property": "C114",
   "status": "partial",
   "theorems": [
    "Huobi.C114_partial",
    "Huobi.C114_refuted"
   ],
   "note": "Refuted for calls after the start: register_endpoint_handler, register_rpc_response and listen answer with success when the service already runs (and listen also when it already listens), but have no effect (C114_refuted). Proved for every sequence of calls, for what was registered and told before the first poll. A task that was spawned runs (scheduler of tokio)."
  },
  {
   "property": "C115",
   "status": "proved",
   "theorems": [
    "Huobi.C115_once",
    "Huobi.C115_calls",
    "Huobi.C115_replies",
    "Huobi.C115_alone",
    "Huobi.C115_progress",
    "Huobi.C115_ends",
    "Huobi.C115_origin",
    "Huobi.C115_authorised",
    "Huobi.C115_recorded"
   ],
   "note": "A reply is read from the node at one moment; channels are unbounded. C115_authorised assumes, as C93, that what peers give on request is authorised (else false: C93_proposal_refuted, C93_sync_refuted)."
  },
  {
   "property": "C116",
   "status": "proved",
   "theorems": [
    "Huobi.C116_network",
    "Huobi.C116_authorised"
   ],
   "note": "Assumes one chain configuration, hash and signature scheme, one committed epoch per height (the consensus algorithm itself is not modelled), and that requests of synchronising nodes are answered by nodes running this code as the answers were sent (C113_answers, C115_replies, C53); without the last it is false: C93_sync_refuted."
  },
  {
   "property": "C117",
   "status": "proved",
   "theorems": [
    "Huobi.C117_kept",
    "Huobi.C117_supply"
   ],
   "note": "C117_kept has the assumptions of C116; if requests of synchronising nodes are answered with lies a shown epoch can be replaced (C105_refuted). Balances are kept if worlds with one state root are one world. C117_supply assumes nothing about peers."
  },
  {
   "property": "C118",
   "status": "partial",
   "theorems": [
    "Huobi.C118_refuted",
    "Huobi.C118_stuck",
    "Huobi.C118_process",
    "Huobi.C38_partial"
   ],
   "note": "Refuted (bug): from height 0 the first epoch is executed on the empty state in place of the state of genesis, where no sender has an account. C118_stuck: if epoch 1 has transactions, in every lifetime without own commits, whatever honest peers answer and through overlapping calls and restarts, the node stays at genesis for ever; C118_process: also a process to which anybody sends any bytes. Proved for a node that has an epoch after genesis: C38_partial."
  },
  {
   "property": "C119",
   "status": "partial",
   "theorems": [
    "Huobi.C119_refuted",
    "Huobi.C119_stranger_refuted",
    "Huobi.C119_halted",
    "Huobi.C119_stranger",
    "Huobi.C10_commit_panics_refuted",
    "Huobi.C10_executable_partial"
   ],
   "note": "Refuted (bug): a transaction that calls a contract, approves, or deploys something else than an asset, or any payment by somebody without an account, is admitted and proposed; once the validators decide for an epoch with it (and for the height they decide once), no node ever shows an epoch of that height, whatever happens afterwards (C119_halted, C119_stranger; C119_refuted and C119_stranger_refuted give the networks). Assumptions as C116, and that nobody finds another transaction with the same hash. The epochs that do execute: C10_executable_partial."
  },
  {
   "property": "C120",
   "status": "partial",
   "theorems": [
    "Huobi.C120_config",
    "Huobi.C120_launch_partial",
    "Huobi.C120_started_iff",
    "Huobi.C120_unread_untouched",
    "Huobi.C120_nothing_else",
    "Huobi.C120_genesis_needed",
    "Huobi.C120_file_name_refuted",
    "Huobi.C120_status_refuted"
   ],
   "note": "Refuted: a file whose name starts with http is never read (C120_file_name_refuted), and the body of an error response is taken for the configuration, since the status is not looked at (C120_status_refuted). Proved: the configuration is that of the bytes under the name and nothing else is read; a process starts a node exactly if both files can be read and a node starts with them, and leaves the data untouched if one cannot be read. TOML, JSON and HTTP are functions of the name and the bytes."
  },
  {
   "property": "C121",
   "status": "proved",
   "theorems": [
    "Huobi.Protocols.C121_set_up",
    "Huobi.Protocols.C121_missing",
    "Huobi.Protocols.C121_opened",
    "Huobi.Protocols.C121_messages",
    "Huobi.Protocols.C121_node"
   ],
   "note": "How two services of tentacle agree on protocols (by name, greatest common version) is as that library documents; how it writes a protocol id in a name is a parameter."
  },
  {
   "property": "C122",
   "status": "proved",
   "theorems": [
    "Huobi.Beat.C122_awake",
    "Huobi.Beat.C122_time",
    "Huobi.Beat.C122_for_ever",
    "Huobi.Beat.C122_spaced"
   ],
   "note": "Assumes that the timer of the process keeps working and that the runtime runs timers that are over and tasks that were woken within a bound (lag). C122_time and C122_for_ever assume that the interval is not zero."
  }
 ]
}