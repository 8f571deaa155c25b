# Claims for C16 and later; executed by manifest.py.
c("C17", "proved", ["C17_sharded_map_is_one_map", "C17_spec_deterministic"])
c("C18", "partial", ["C18_package_distinct_and_pooled", "C18_concurrent_package", "C18_flush_race_refuted"],
  "Proved for calls that do not overlap, and under overlapping inserts and flushes for hashes no flush names; false when a flush races with a package and the transaction is inserted again.")
c("C19", "partial", ["C19_cycle_limit_partial", "C19_order_limit_refuted", "C19_propose_limit_refuted"],
  "False: u64 overflow of the counter, and a single transaction above the limit is proposed. Proved for values below 2^63 with the exact exception.")
c("C20", "proved", ["C20_window"])
c("C21", "partial", ["C21_not_lost_partial", "C21_quiescent_is_pool", "C21_not_lost_refuted", "roomy_of_few_inserts", "C21_rejected_leaves_nothing"],
  "False when the candidate queue is full during a package. Proved for every interleaving as long as the queues have room.")
c("C22", "proved", ["C22_flush_exact"])
c("C23", "partial", ["C23_violation_rejected", "C23_admission_partial", "C23_admission_rest", "C23_full_queue_refuted", "C23_broadcast_refuted"],
  "False in two corner cases (all queue slots held by flushed transactions; broadcaster error after insertion). Proved otherwise, and the corner cases are characterised.")
c("C24", "partial", ["C24_pooled_is_packaged", "C24_admitted_is_packaged_partial", "C24_packaged_if_all_fit", "C24_timeout_boundary_refuted"],
  "False for a time-out equal to the latest epoch. Proved for later time-outs when everything pooled fits.")
c("C25", "partial", ["C25_pool_size_partial", "C25_concurrent_partial", "C25_pool_size_refuted", "C25_proposals_refuted"],
  "False under concurrent inserts and for proposal synchronisation. Proved for non-overlapping calls without it; with at most k overlapping inserts the excess is at most k-1.")
c("C26", "proved", ["C26_full_txs_exact"])
c("C27", "partial", ["C27_ensured_is_available_partial", "C27_wrong_answer_refuted", "C27_package_between_refuted", "C27_incomplete_answer_rejected"],
  "False: only the number of transactions is compared. Proved when the peer's answer covers the request.")
c("C28", "partial", ["C28_pooled_checked_partial", "C28_proposed_unchecked_refuted"],
  "False for transactions received by proposal synchronisation. Proved without it.")
c("C61", "proved", ["C61_cache_is_fifo_pool", "C61_order_list_is_longest_prefix"])
c("C29", "proved", ["C29_batches_are_submissions", "C29_tick_sends_all", "C29_drain_sends_all", "C29_errors_reported_once"])
c("C43", "proved", ["C43_tree_round_trip", "C43_prefix_free", "C43_lists_injective", "C43_readers"],
  "The rlp crate is a dependency; it is modelled from its documented behaviour.")
c("C44", "partial", ["C44_round_trip_partial", "C44_approve_refuted"],
  "False for Approve transactions and receipts, which are encoded as nothing. Proved for all other values of all types.")
c("C45", "partial", ["C45_preimage_injective_partial", "C45_hash_collision_partial", "C45_approve_refuted"],
  "False for Approve transactions, which all share one hash. Proved for all other pairs.")
c("C46", "partial", ["C46_canonical_form_partial", "C46_epoch_id_partial", "C46_canonical_refuted"],
  "False: trailing items and long-form lengths are accepted. Proved for all types: whatever bytes a value was decoded from, its coding decodes to the same value and no other decoded value has it; the accepted codings of an epoch id are characterised.")
c("C47", "partial", ["C47_no_panic_partial", "C47_list_panics_iff", "C47_raw_tx_panic_cause", "C47_panic_refuted", "C47_protobuf_no_panic_partial", "C47_protobuf_refuted", "C47_protobuf_header_panic_exact"],
  "False for every type with an embedded list (fixed codec) or a log bloom (protobuf). Proved for the other types; the exact cause is characterised for list decoding and for raw transactions.")
c("C48", "partial", ["C48_round_trip_partial", "C48_deploy_exact", "C48_refuted", "C48_injective_partial"],
  "False for transactions deploying, and receipts of deploying, a contract other than an asset (App and Library are exchanged, Native does not decode). Proved for all other values of all types.")
c("C49", "proved", ["C49_bytes_exact", "C49_bytes_round_trip", "C49_unambiguous", "C49_hex_round_trip", "C49_hex_exact","C49_derived"],
  "The invariant that the first byte of an address is its tag is part of the model's address types, as the private fields of the Rust types guarantee.")
c("C50", "partial", ["C50_round_trip_partial", "C50_kind", "C50_panic_iff", "C50_refuted", "C50_mempool_messages_partial"],
  "False for batches with App/Library/Native deployments and for malformed responses, which abort the node; exactly which ones is characterised. Proved for all other responses.")
c("C51", "partial", ["C51_round_trip", "C51_u64_accepts_partial", "C51_malformed_refuted"],
  "Round trip proved for all numbers. 'Malformed numbers are rejected' is false (+1, the ligature U+FB00, the empty amount); what is accepted as u64 is characterised.")
c("C62", "proved", ["C62_submitted_transaction", "C62_fields_determine"], "")
c("C31", "partial", ["C31_rocks_partial", "C31_read_your_write_partial", "C31_refuted"],
  "False with MemoryAdapter (all kinds share one keyspace) and for non-asset deployments (C48). Proved for RocksAdapter and all other records, over all histories of writes.")
c("C32", "proved", ["C32_latest_readable", "C32_contents", "C32_contents_partial"],
  "A crash keeps a prefix of the atomic writes. Assumes no collision between header digests and the two reserved keys (apart_or_collision shows that anything else is a collision). C32_contents_partial adds that the records read back carry the right hash, except non-asset deployments.")
c("C33", "partial", ["C33_batch_exact", "C33_all_stored_partial", "C33_refuted"],
  "False: hashes that are not stored are silently left out. The exact answer is proved; position by position correct if all are stored.")
c("C34", "partial", ["C34_refuted", "C34_refuted_witness", "C34_by_header_hash_partial"],
  "False for every chain: the index uses the digest of the protobuf coding of the header, the link the digest of the RLP coding of the epoch; a successful lookup by the link exhibits a collision with a recorded header or a reserved name. Lookup by the indexed digest is proved.")
c("C52", "partial", ["C52_merkle_partial", "C52_distinct_partial", "C52_refuted"],
  "False across lengths in general (a list of inner nodes has the root of its leaves). Proved for lists of equal length, up to an explicit collision among the byte strings hashed for the two roots.")
c("C35", "partial", ["C35_pre_hash", "C35_chain_partial", "C35_concurrent_partial", "C35_refuted"],
  "Proposals: proved for all lifetimes. The chain: false for arbitrary commits, because neither check_epoch nor commit looks at the header; proved if commits and peers continue the chain, over crashes and restarts.")
c("C36", "partial", ["C36_roots_partial", "C36_replay_partial", "C36_concurrent_partial", "C36_refuted"],
  "False when the node synchronises (the first fetched epoch is executed on the root before the latest epoch). Proved for all processes without synchronisation.")
c("C37", "partial", ["C37_partial", "C37_concurrent_partial", "C37_refuted"],
  "False: the root after a restart is the one before the latest epoch, the proof that of the epoch before. Height and previous hash are proved right; the root is right exactly if the latest epoch did not change it.")
c("C16", "partial", ["C16_partial", "C16_refuted", "C16_concurrent_partial"],
  "False: the answer is the state before the queried epoch. That the answer is exactly this state, also after later epochs, is proved.")
c("C38", "partial", ["C38_partial", "C38_refuted"],
  "False in three ways (stale root, fresh node, gap of one). Proved when the root in the header of the node's latest epoch is the root after it.")
c("C39", "partial", ["C39_header_ignored", "C39_refuted", "C39_partial"],
  "False for every node: the answer does not depend on the header. Proved: an accepted epoch comes with exactly the transactions it orders, in order.")
c("C40", "partial", ["C40_partial", "C40_refuted"],
  "False: after a failed execution the transactions are gone from the pool and every retry fails. Proved: what every error leaves unchanged, and that a commit that failed early can be repeated.")
c("C42", "partial", ["C42_partial", "C42_crash_refuted", "C42_aggregate_refuted"],
  "False for byte strings shorter than 33 bytes (panic) and for aggregated signatures and proofs (always accepted). Proved for single signatures of 33 or more bytes; the signature scheme itself is abstract.")
c("C64", "partial", ["C64_partial", "C64_refuted"],
  "False for an announced height of 1 (u64 arithmetic wraps; release build). Proved for announced heights from 2 on and peers that answer with the epochs asked for.")
c("C65", "partial", ["C65_partial", "C65_restarts_partial", "C65_replay_refuted", "C65_twice_refuted", "C65_sync_refuted"],
  "False: check_epoch and commit do not look at stored transactions, nor for duplicates in an epoch; synchronisation does not flush the pool. Proved for lifetimes without synchronisation in which peers send no committed transaction.")

c("C41", "proved", ["C41_serialised", "C41_sequential", "lockInv"],
  "Any number of tasks running commit and update_epoch, cut at every access to shared data, interleaved with each other and with pool "
  "operations in any way: only the holder of the engine lock changes the chain part of the node, and every reachable state with a free "
  "lock is that of the operations done one after the other; results of the tasks are those of the serial order. C41_sequential: every history of calls that do not overlap, as the other theorems about nodes have them, is one of the schedules.")
c("C63", "partial", ["C63_refuted", "C63_partial"],
  "Refuted as stated (bug): the latest height is read before the engine lock is taken, so a commit in between is executed again and the "
  "latest epoch can go back. Proved when no commit holds the engine lock during a synchronisation of another task.")

c("C30", "partial", ["C30_refuted", "C30_hangs", "C30_partial"],
  "False (bug): src/main.rs registers the handler for new transactions on the pull_txs endpoint, so no such request is ever answered, and the "
  "asking node waits for ever. C30_partial: the handler that exists but is not registered would answer correctly.")
c("C53", "proved", ["C53_ids", "C53_genuine", "C53_once", "C53_one", "C53_undisturbed", "C53_answered", "C53_request", "rpcInv"],
  "For fewer than 2^64 calls per process. A response with the right session and id but of another message type ends the call with an error.")
c("C54", "partial", ["C54_extend", "C54_total", "C54_root", "C54_route", "C54_register", "C54_refuted"],
  "Proved except for one point: a first component that only begins with the name of a scheme is accepted (C54_refuted).")
c("C66", "partial", ["C66_refuted", "C66_partial", "C66_leak", "C66_unsent", "C66_reused_id"],
  "False (bug): there is no timeout and closing a session does not end its calls; a call whose peer does not answer waits for ever. "
  "Proved: a call that was answered ends, one whose request cannot be sent ends at once with an error, and so does one whose id is given out again.")
c("C67", "proved", ["C67_epoch", "C67_txs", "C67_quiet", "C67_end_to_end"],
  "Transactions that deploy contracts other than assets are changed by the coding (C50).")

c("C55","proved",["PM.C55_each_addressee_sent_or_missed","PM.C55_session_belongs_to_user","PM.C55_users_send"],
  "For every history of the peer manager. Assumes that peer id and user address tell keys apart equally well, and that configured ids belong to their keys (GoodCfg, met by demoCfg).")
c("C56","partial",["PM.C56_session_means_connected","PM.C56_session_maps_back","PM.C56_tables_inverse_partial","PM.C56_refuted","PM.C56_refuted_stale","PM.C56_refuted_kicks_live_peer"],
  "Connected: every history. Peer to session and back: session ids not reused. Inverse tables: in addition a peer is attached only while it has no session; refuted without that, with a consequence.")
c("C57","proved",["PM.C57_bootstrap_peers_stay","PM.C57_bootstrap_addresses_stay","PM.C57_dialled_at_start"],
  "Every history; the second theorem: also their configured addresses stay (bootstrap ids distinct, not the node itself).")
c("C58","partial",["PM.C58_count_partial","PM.C58_round_partial","PM.C58_refuted","PM.C58_refuted_unknown_not_counted","PM.C58_refuted_rounds","PM.C58_no_repeated_dial"],
  "Proved as long as no event is about the node itself (the transport reports dials to itself separately). Refuted: with such an event the count underflows; unknown addresses being dialled are not counted, so several rounds together dial beyond the limit.")
c("C59","partial",["PM.C59_refuted","PM.C59_kept_partial","PM.C59_once_partial","PM.C59_told_again_partial"],
  "Refuted for every history: a discovered address is dropped after its first temporary failure, because reach_max_retry compares the wrong way round. What holds: the address stays known through every event other than the outcome of its own dial, after a failure it is not dialled until told of again, and being told of it again makes it dialable.")
c("C60","partial",["ConnSvc.C60_in_order_exactly_once_partial","ConnSvc.C60_nothing_lost_partial","ConnSvc.C60_progress_partial","ConnSvc.C60_eventually_issued_partial","ConnSvc.C60_exact_order_of_single_calls","ConnSvc.C60_refuted"],
  "Every schedule of commands, polls and answers without 'closed'. Order across commands is kept; the dials inside one command may be reordered (C60_refuted). That the service is polled again is assumed.")
c("C68","partial",["PM.C68_sixth_failure_partial","PM.C68_refuted","PM.C68_refuted_refused_once_forgotten"],
  "Refuted: a peer whose dial failed stays marked as being dialled, keeps its slot and is not dialled again, and a refused dial makes the node forget the address. What holds: the sixth counted temporary failure frees the slot; a configured peer keeps its addresses and is a candidate again after its waiting time, another is forgotten.")

c("C69","proved",["C69_authorities","C69_agree","C69_relay","C69_height"],
  "overlord::Node is taken to be ordered by address, as its documentation says.")
c("C70","partial",["C70_partial","C70_proposal","C70_refuted"],
  "Refuted for height 0: the genesis header carries no validators, so the list is empty. Proved for every other height whose header carries the configured validators, as every own proposal does.")
c("C71","proved",["C71_epoch","C71_unambiguous","C71_walk","C71_concurrent_walk"],
  "The GraphQL layer itself is not modelled. C71_walk: lifetimes in which commits and peers continue the chain (as C35).")
c("C72","proved",["C72_send","C72_send_unsafe","C72_unsafe_accepted"],
  "secp256k1 is abstract; that signatures made with a key verify is a hypothesis of C72_unsafe_accepted.")
c("C73","partial",["C73_refuted","C73_refuted_root","C73_refuted_witness","C73_partial"],
  "False (bug): the resolver turns every failure into balance zero. Proved: a query that can be answered is answered correctly and unreadable arguments give an error.")

c("C74","proved",["PM.C74_forgotten_only_after_six_failures","PM.C74_fresh","PM.C74_exactly_six","PM.C74_timed_out_dial_keeps_address","PM.C74_network","PM.C74_ping_clears"],
  "From every state, reachable or not, and every sequence of events.")
c("C75","partial",["PM.C75_round_waits_partial","PM.C75_refuted"],
  "Proved for the dial rounds. Refuted for messages: a message to the user of a peer without a session has the peer dialled at once.")
c("C76","proved",["PM.C76_recorded_addresses_known","PM.C76_discovered_addresses_placed","PM.C76_not_attributed_to_others","PM.C76_connected_recorded","PM.C76_offline_untouched","PM.C76_network","PM.C76_repeated"],
  "Started managers whose saved peers have distinct ids, as a saved pool has.")
c("C77","partial",["PM.C77_session_closed_partial","PM.C77_network_partial","PM.C77_refuted"],
  "Refuted on the sixth counted failure: the session leaves the tables before the command would be made, so the transport keeps it open while the node has forgotten it.")

c("C78","partial",["C78_header_partial","C78_concurrent_partial","C78_root","C78_proof","C78_restart_refuted","C78_own_proposal_accepted","C78_never_asks_again"],
  "Proved for proposals after an epoch recorded by the same process, and the acceptance of own proposals in every lifetime. Refuted after a restart: transaction root, receipt root, proof and state root of the last epoch are not restored.")
c("C79","partial",["C79_frozen","C79_refuted"],
  "Refuted: update_status never touches the two fields; every proposal of a process repeats those of the header that was the latest when it started.")
c("C80","proved",["C80_received_not_gossiped","C80_local_gossiped"],
  "The batches of the broadcaster itself are C29.")
c("C81","partial",["C81_announces","C81_heard","C81_catches_up_partial","C81_new_txs_partial","C81_one_behind","C81_refuted"],
  "Refuted (C81_refuted): a node one epoch behind does nothing, and a batch with a deployment of a native contract is lost as a whole. Catching up has the restrictions of C38 (a node one epoch behind does nothing, etc.); batches with a deployment of a contract other than an asset cannot be decoded. The message frame is C82.")

c("C82","proved",["C82_gossip_arrives","C82_rpc_arrives","C82_distinct","C82_garbage","C82_announcement","C82_new_txs","C82_call"],
  "That decompression undoes compression (snappy) is a hypothesis; contents below 2^63 bytes.")
c("C83","proved",["PM.C83_sent_on_open_sessions","PM.C83_commands_name_open_sessions","PM.C83_closed_not_used"],
  "For transports that close only what they opened and do not open a session number twice without closing it.")
c("C84","partial",["PM.C84_forgotten_partial","PM.C84_misbehaving_forgotten","PM.C84_refuted"],
  "Refuted: no command to close the session is ever made, so the transport keeps it open. Proved: the peer manager forgets the session and the peer.")

c("C85","proved",["C85_bytes_refine","C85_roots_reopen"],
  "Unless a buffer of 2^64 bytes would be needed or two different tries with one root are committed in the run. The Patricia trie of cita_trie is its contents with an abstract root function; calls on roots that name no state are not compared.")

c("C86","partial",["C86_file_round_trip","PM.C86_peers_survive_restart_partial","PM.C86_default_refuted","PM.C86_bootstrap_refuted"],
  "Refuted for the shipped node, which never enables persistence, and for learned addresses of bootstrap peers. Proved with persistence for all other peers. bincode as documented; the codings of keys and addresses are abstract and assumed to lose nothing.")
c("C87","proved",["C87_torn_file_rejected","PM.C87_start"],
  "bincode as documented; files below 2^64 bytes.")

c("C88","partial",["C88_agreement_partial","C88_refuted","C88_concurrent_partial"],
  "Refuted: the transaction hash covers neither public key nor signature, but the sender is computed from the public key; one payment signed with two keys of one owner and submitted to two nodes makes them commit the same epoch with different states, nobody else misbehaving. Proved for transactions that their hash identifies (same hash, same raw transaction and public key), without synchronisation and restart, which C37 and C38 treat.")

c("C89","partial",["C89_receipts_partial","C89_receipts_genuine","C89_receipt_root","C89_concurrent_partial","C89_refuted"],
  "Refuted when the database fails between writing the receipts and the epoch: the API shows a receipt of an epoch that was never recorded. Proved without failures that the receipt shown is the one of the execution of the recorded epoch; with failures, every recorded transaction has a receipt and each receipt shown was produced by executing that transaction.")
c("C90","proved",["C90_no_money_from_nothing","C90_supply_exact","C90_concurrent"],
  "The bound holds in any lifetime including synchronisation, failures and restarts, and whatever calls overlap (C90_concurrent); the equality for regular runs from a first start.")
c("C91","partial",["C91_progress_partial","C91_blocked","C91_refuted"],
  "Refuted (bug): admission does not compare the cycles a transaction asks for with the limit of an epoch, and packaging stops at the first transaction that does not fit; one transaction above the limit at the head of the pool keeps every order list empty until it expires. Proved when no pooled transaction asks for more than the limit.")
c("C92","partial",["C92_as_configured_partial","C92_starts_iff","C92_genesis_file_ignored","C92_announced_partial","C92_addr_faithful","C92_multiaddr","C92_listen_once","C92_registers","C92_register_kinds","C92_chain_id_refuted","C92_bootstrap_key_refuted","C92_port_refuted"],
  "Refuted (bugs): the chain id of the configuration is not compared with that of the stored chain, so a node proposes an epoch of another chain on top of it; the key of a bootstrap peer is not checked to be a public key; with port 0 the node tells its peers port 0. Proved: every entry is used as written, a node starts exactly if each is well-formed, and the announced address is the bound one when the transport listens where told.")
c("C93","partial",["C93_partial","C93_concurrent_partial","C93_exact","C93_proposal_refuted","C93_sync_refuted"],
  "Refuted (bugs): transactions fetched from peers for a proposal or a synchronised epoch are executed without checking their signatures. Proved for lifetimes in which the transactions that peers send on request are authorised; the exact ledger over the recorded epochs for regular runs from a first start.")
c("C94","partial",["C94_messages_partial","C94_nothing_evicted","C94_unlinked_ignored","C94_refuted","C94_mail_partial","C94_mail_nothing_evicted"],
  "Refuted for every node with an epoch after the genesis and for any two headers (bugs): neither proof nor height of a fetched epoch is checked, so one announcement and the answers of one peer make the node record epochs with any headers, over any height. Proved: all other messages leave the chain alone, and announcements too unless an answer links to the latest epoch. Messages for the Overlord library are handed over and not modelled.")
c('C95','partial',['C95_executed_partial','C95_refuted'],'Refuted (bug): anybody can submit a transaction from an account that does not exist; the epoch that contains it fails to commit after its transactions were removed from the pool, so the good ones with it are lost. Proved, with the bound, when every commit of an epoch containing the transaction succeeds and no pooled transaction asks for more cycles than an epoch may have (else C91_blocked). Within one process: the pool is not stored.')
c('C96','proved',['C96_map','C96_root','C96_commits','C96_world','C96_not_empty','C96_executor','C96_reachable'],'The Patricia trie of cita_trie is modelled from its documentation (paths of nibbles, hex-prefix and RLP coding, embedded nodes). Collisions are named: two explicit nodes of the tries in question. C96_executor is C85 with the abstract root function replaced by the Patricia root.')
c('C97','partial',['C97_kept','C97_exact','C97_one','C97_executor','C97_light_refuted'],'Proved for a full database (light = false, the default). Refuted for a light one: every root whose trie contains a node reported stale by a later commit becomes unreadable, though the node asks for such roots (execution of pending epochs after a restart, balance queries at old epochs). Which nodes the crate reports as stale is a parameter.')
c('C98','proved',['C98_disk_refines','C98_patricia','C98_proper','C98_lives','C98_no_money_from_nothing','C98_room'],'The exceptions of the statement are hypotheses about the run itself. C98_lives transfers the properties of nodes to the machine at every crash point; after the one between the third and the fourth write of the initialisation the record of the latest proof, which nothing reads, may be missing. Calls that open a root that is of no state are not compared; C98_proper: there are none if the peers behave.')
c('C99','partial',['C99_partial','C99_concurrent_partial','C99_disk_partial','C99_patricia_partial','C99_refuted','C65_replay_refuted','C65_twice_refuted','C65_sync_refuted'],'C99_disk_partial and C99_patricia_partial state it of the answers of a machine that holds only bytes, where nothing is assumed of states but that no hashes clash. Proved for every history (with crashes and restarts) in which peers hand over, on request, only signed and not yet committed transactions, committed epochs order no transaction twice and name the root of the node, and nothing is synchronised. Without these conditions it is false: C65_replay_refuted, C65_twice_refuted, C65_sync_refuted are runs in which a payer pays the same payment twice.')
c('C100','proved',['C100_no_invented_transactions','C100_concurrent'],'C100_concurrent: whatever calls overlap. The set of transactions handed to the node is any predicate that holds of what each call hands over.')

c('C101','partial',['C101_partial','C101_refuted'],'Refuted (bug): commit takes the transactions of the epoch out of the pool before it executes them and stores them after, and insert looks for a transaction only in the pool and in the store; a copy that arrives in between (gossip of a second peer) is taken for new, proposed again and executed again, with everybody honest. Proved for all schedules without synchronisation in which peers send on request only transactions not committed and no transaction is given to the node during a call that commits it.')
c('C102','partial',['C102_partial','C63_refuted'],'False when a commit runs between the reading of the height and the taking of the lock in a synchronisation of another task: C63_refuted is such a schedule; no order of the two calls makes the data it leaves. Proved for all other schedules. The sequential lifetime is explained call by call (CJustified): its commits and synchronisations are the calls of the schedule, on the data and status at the moment the lock was taken, with the same or more failures. C35, C36, C37, C71, C89 and C99 are carried over to schedules with it (the theorems with _concurrent).')
c('C103','proved',['C103_cut_first_start'],'The commit of the genesis state to the state database is one step (C97, C98 are about its writes). The genesis is the same in all attempts.')

c("C104","partial",["C104_proposed","C104_concurrent_partial","C104_partial","C104_executed_concurrent_partial","C104_refuted"],
  "Refuted: check and commit of an epoch do not look at the time-out of transactions in the pool, and fetched transactions pass at the height after their time-out; a proposer that does not follow the code gets an expired payment executed by all. Proved: nodes that follow the code propose in time only (also while other calls overlap with the proposing one, C104_concurrent_partial), and if all epochs come from such nodes, nothing is executed late, with any failures, restarts and synchronisations, also when calls overlap and processes are killed in the middle of them (C104_executed_concurrent_partial).")

c("C105","partial",["C105_epochs_partial","C105_balances_partial","C105_transactions_partial","C105_refuted","C105_concurrent_partial","C105_balances_concurrent_partial","C105_transactions_concurrent_partial"],
  "Refuted: synchronisation looks neither at the height of the epoch a peer hands over nor at the hashes of its transactions, so one peer can take the latest epoch of a node back to 0 and replace old epochs, transactions and receipts (C105_refuted). Proved for every pair of moments of a lifetime: epochs, if commits and peers continue the chain; balances, if moreover no state is stored under the root of another; transactions and receipts under the conditions of C65. Epochs and balances also between any two moments of any schedule of overlapping calls, with the processes killed at any moment, and so are transactions and receipts in the absence of the races of C101 (RaceFree). Epochs stored beyond the latest one (by a commit that failed half way) are not covered: they may be replaced.")
c("C106","partial",["C106_partial","C106_atomic","C106_transactions_receipts","C106_refuted"],
  "Refuted for MemoryAdapter (used by the tests of the repository): it keeps all categories in one map, and writes a batch entry by entry. Proved of both adapters for every sequence of calls if no two places (schema and key) are stored in one column under one coded key; C106_transactions_receipts shows that for the tables of transactions and receipts on RocksAdapter. That a WriteBatch of RocksDB is atomic is assumed (C106_atomic).")
c("C107","proved",["C107_once","C107_progress","C107_node","C107_order_not_kept"],
  "All schedules, without bounds. A handler runs as one step here (overlapping handlers: C41, C101, C102, C115); the channels are unbounded and stay open. C107_order_not_kept is the reason why the property does not promise the order of arrival.")
c("C108","proved",["C108_given"],
  "About the programs of ConsensusLock, whose steps are single accesses to shared data. What is recorded is what the last write of insert_epoch stores; C105 and C35 say that it stays and how the recorded epochs follow each other.")

c("C109","proved",["C109_ends","C109_fair","C109_locks","C109_admitted"],
  "About the programs of ConsensusLock: an access to shared data is one step that always ends, and an answer of a peer is an argument (C66 says that remote calls end). The bound for a check depends on how many transactions a peer gives for the proposed hashes (P); C109_fair needs no bound.")

c("C110","partial",["C110_partial","C110_served_partial","C110_refuted"],
  "Refuted: synchronisation does not compare the transactions a peer gives with the hashes the epoch orders, so an epoch can be recorded without its transactions (C110_refuted). Proved for all lifetimes with overlapping calls and crashes in which peers give transactions with the hashes they are asked for; commits need no such condition.")
c('C111','partial',['C111_epochs','C111_results_partial','C111_balances_partial','C111_receipts_partial','C88_refuted','C38_refuted'],'Epochs: proved for all lifetimes (the assumption about the consensus is Decided). Results, balances and receipts: first process of each node, nothing synchronised, transactions that their hash identifies (else false: C88_refuted; after a synchronisation or restart a node may compute on a stale root: C38_refuted, C37); balances: the decided epochs name the state they were proposed on; receipts: calls in sequence, no database failure (C89_refuted).')
c('C112','proved',['C112_network','C112_sends'],'Assumes that all nodes use one hash function and signature scheme, that every node runs this code, and that transactions arrive as they were sent (C48: the codec changes those that deploy a contract other than an asset). A node that does not run this code can have forged transactions executed: C93_proposal_refuted, C93_sync_refuted.')
c('C113','proved',['C113_network','C113_answers'],'Assumes that all nodes have one chain configuration and genesis file, that the consensus commits one epoch for each height (what the Overlord protocol is for), and that synchronisation answers come from nodes that run this code, as they were sent (codec of epochs: C48). Balances: for nodes of which no two different worlds have one state root. Discharges the conditions of C110_partial and C111_epochs on peers.')
c('C114','partial',['C114_partial','C114_refuted'],'Refuted for calls after the start: register_endpoint_handler, register_rpc_response and listen answer with success when the service already runs (and listen also when it already listens), but have no effect (C114_refuted). Proved for every sequence of calls, for what was registered and told before the first poll. A task that was spawned runs (scheduler of tokio).')
c('C115','proved',['C115_once','C115_calls','C115_replies','C115_alone','C115_progress','C115_ends','C115_origin','C115_authorised','C115_recorded'],'A reply is read from the node at one moment; channels are unbounded. C115_authorised assumes, as C93, that what peers give on request is authorised (else false: C93_proposal_refuted, C93_sync_refuted).')
c('C116','proved',['C116_network','C116_authorised'],'Assumes one chain configuration, hash and signature scheme, one committed epoch per height (the consensus algorithm itself is not modelled), and that requests of synchronising nodes are answered by nodes running this code as the answers were sent (C113_answers, C115_replies, C53); without the last it is false: C93_sync_refuted.')
c('C117','proved',['C117_kept','C117_supply'],'C117_kept has the assumptions of C116; if requests of synchronising nodes are answered with lies a shown epoch can be replaced (C105_refuted). Balances are kept if worlds with one state root are one world. C117_supply assumes nothing about peers.')
c('C118','partial',['C118_refuted','C118_stuck','C118_process','C38_partial'],'Refuted (bug): from height 0 the first epoch is executed on the empty state in place of the state of genesis, where no sender has an account. C118_stuck: if epoch 1 has transactions, in every lifetime without own commits, whatever honest peers answer and through overlapping calls and restarts, the node stays at genesis for ever; C118_process: also a process to which anybody sends any bytes. Proved for a node that has an epoch after genesis: C38_partial.')
c('C119','partial',['C119_refuted','C119_stranger_refuted','C119_halted','C119_stranger','C10_commit_panics_refuted','C10_executable_partial'],'Refuted (bug): a transaction that calls a contract, approves, or deploys something else than an asset, or any payment by somebody without an account, is admitted and proposed; once the validators decide for an epoch with it (and for the height they decide once), no node ever shows an epoch of that height, whatever happens afterwards (C119_halted, C119_stranger; C119_refuted and C119_stranger_refuted give the networks). Assumptions as C116, and that nobody finds another transaction with the same hash. The epochs that do execute: C10_executable_partial.')
c('C120','partial',['C120_config','C120_launch_partial','C120_started_iff','C120_unread_untouched','C120_nothing_else','C120_genesis_needed','C120_file_name_refuted','C120_status_refuted'],'Refuted: a file whose name starts with http is never read (C120_file_name_refuted), and the body of an error response is taken for the configuration, since the status is not looked at (C120_status_refuted). Proved: the configuration is that of the bytes under the name and nothing else is read; a process starts a node exactly if both files can be read and a node starts with them, and leaves the data untouched if one cannot be read. TOML, JSON and HTTP are functions of the name and the bytes.')
c('C121','proved',['Protocols.C121_set_up','Protocols.C121_missing','Protocols.C121_opened','Protocols.C121_messages','Protocols.C121_node'],'How two services of tentacle agree on protocols (by name, greatest common version) is as that library documents; how it writes a protocol id in a name is a parameter.')
c('C122','proved',['Beat.C122_awake','Beat.C122_time','Beat.C122_for_ever','Beat.C122_spaced'],'Assumes that the timer of the process keeps working and that the runtime runs timers that are over and tasks that were woken within a bound (lag). C122_time and C122_for_ever assume that the interval is not zero.')
