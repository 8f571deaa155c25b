#!/usr/bin/env python3
"""Source of properties.jsonl: run `python3 tools/props.py` in /verif to regenerate it."""
import json
P = []
def p(id, title, statement, quantifier, why, anchors):
    P.append(dict(id=id, title=title, statement=statement, quantifier=quantifier,
                  why_tests_cant=why, anchors=anchors))

EX = "core/executor/src/lib.rs"; AC = "core/executor/src/native_contract/account.rs"
BK = "core/executor/src/native_contract/bank.rs"; AD = "core/executor/src/adapter/contract.rs"
MP = "core/mempool/src/lib.rs"; TC = "core/mempool/src/tx_cache.rs"; MM = "core/mempool/src/map.rs"
MA = "core/mempool/src/adapter/mod.rs"; ST = "core/storage/src/lib.rs"
EN = "core/consensus/src/engine.rs"; CS = "core/consensus/src/consensus.rs"
FC = "protocol/src/fixed_codec"; PC = "protocol/src/codec"; TY = "protocol/src/types"
NW = "core/network/src"; PM = NW + "/peer_manager/mod.rs"

# ---------------------------------------------------------------- executor
p("C01", "Executing a block conserves every asset",
  "When the executor executes a list of transactions on a state root and succeeds, then for every asset id the sum of the balances of all accounts in the state named by the returned root equals the sum before the block.",
  "every starting state, every list of transfer and asset-deploy transactions (any senders, receivers incl. self-transfer, amounts, limits), every coinbase and cycle price, every asset id",
  "the sum ranges over unboundedly many accounts, amounts and transaction sequences mixing failing and succeeding transactions",
  [EX+": exec, dispatch, handle_transfer, stash, revert, commit", BK+": register", AC+": transfer, add_balance, sub_balance"])
p("C02", "A transfer moves exactly the stated amount and never overdraws",
  "A transfer transaction whose receipt is a success moved exactly carrying_amount of carrying_asset_id from the caller to the receiver, the caller had at least that much before, the receipt's before/after amounts are the caller's balances, and no other (account, asset) balance changed; if the caller holds less than the amount the receipt is a failure.",
  "every state, caller, receiver, asset, amount and cycle limit",
  "all amounts and all account/asset aliasing patterns (caller = receiver, unknown receiver, unknown asset)",
  [EX+": handle_transfer", AC+": transfer, sub_balance_with_user, add_balance"])
p("C03", "A failed transaction has no effect",
  "A transaction whose receipt is a failure leaves all balances, all registered assets, all approvals and all nonces exactly as the transactions before it left them, except for the increment of its own sender's nonce.",
  "every block, every position in the block, every failing transaction",
  "depends on what earlier transactions left in the not-yet-committed layers, so needs every history",
  [EX+": exec, revert", AD+": revert_cache, stash"])
p("C04", "Receipts correspond one to one, in order, with the transactions",
  "If exec succeeds it returns exactly one receipt per input transaction, in input order, each carrying that transaction's hash, the epoch id of the block and the final state root returned by the same call.",
  "every state, every transaction list, every epoch id and coinbase",
  "unbounded list lengths and all success/failure mixes",
  [EX+": exec"])
p("C05", "Execution never exceeds the cycle limit of a transaction",
  "A transaction that consumes more cycles than the limit in its fee is reported as failed and has no effect on balances or assets; a successful transaction consumed at most its limit, and the fee in its receipt is cycles used times cycle price in the asset the sender chose.",
  "every transaction, limit, cycle price and state",
  "all u64 limits and prices",
  [EX+": exec, gen_invoke_ctx", "core/executor/src/cycles.rs: consume_cycles"])
p("C06", "The block's fee summary is the per-asset sum of its receipts' fees",
  "all_cycles_used returned by exec contains each fee asset that occurs in the receipts exactly once, in first-occurrence order, with the sum of the fees the receipts of that asset carry.",
  "every list of receipts",
  "unbounded lists with arbitrary repetition of asset ids",
  [EX+": modify_all_cycles_used"])
p("C07", "The proposer is paid the fees of the block it proposed",
  "After a block is executed the coinbase account's balance of each fee asset, in the state named by the returned root, is larger by that asset's fee total.",
  "every state, block and coinbase",
  "needs every block content; the unit tests only look at the object that still holds the uncommitted layer",
  [EX+": exec, commit", AD+": insert_cache, commit"])
p("C08", "Every executed transaction increments its sender's nonce once",
  "In the state named by the root returned by exec, each account's nonce is larger than before by the number of transactions in the block that the account sent.",
  "every state, every block with any mix of successes and failures",
  "depends on the order of successes and failures over unbounded blocks",
  [EX+": exec", AC+": inc_nonce", AD+": revert_cache, stash, commit"])
p("C09", "Senders pay the fee their receipt states",
  "For every executed transaction the sender's balance of the fee asset decreases by the fee stated in the receipt.",
  "every state, transaction and cycle price",
  "all states and prices",
  [EX+": exec, modify_all_cycles_used, handle_transfer"])
p("C10", "No single transaction can make a block unexecutable",
  "exec never returns an error or panics because of the content of one transaction: a transaction that cannot be executed yields a failure receipt and the others are executed.",
  "every state and every list of transactions of any kind",
  "ranges over all transaction contents and all states, including senders that have no account",
  [EX+": exec, dispatch", AC+": inc_nonce, get_account"])
p("C11", "The layered contract state behaves like one transactional map",
  "For every sequence of insert, get, contains, stash, revert and commit calls on a contract's state adapter, reads return the most recent write that has not been reverted, revert undoes exactly the writes since the last stash, and commit makes persistent exactly the writes stashed so far.",
  "every operation sequence, every key and value",
  "all interleavings of the six operations over unbounded histories",
  [AD+": GeneralContractStateAdapter::get, contains, insert_cache, revert_cache, stash, commit"])
p("C12", "A registered asset is permanent and unique",
  "Once an asset id resolves to an asset, no later transaction, block or deploy makes it resolve to anything else; a deploy whose asset id is already registered fails.",
  "every state, every sequence of blocks",
  "needs induction over all later histories",
  [BK+": register, get_asset", EX+": handle_deploy"])
p("C13", "Genesis produces exactly the configured balances",
  "After genesis every account's balance of an asset is the sum of the genesis allocations for that account and asset, the system token is registered with the configured supply, and the allocated amounts of the system token equal its supply. The genesis epoch has height zero, the configured chain id, the timestamp of the genesis file, the root of that state and no transactions.",
  "every genesis description (any number of allocations, repeated accounts and assets, zero allocations)",
  "unbounded allocation lists with arbitrary repetitions",
  [EX+": create_genesis", "protocol/src/types/genesis.rs"])
p("C14", "Withdrawing never increases a balance",
  "Subtracting an amount from an account either fails, leaving the account unchanged, or decreases exactly the balance of that asset by the amount.",
  "every account (user or contract), asset and amount",
  "all amounts and both account kinds, including assets the account never held",
  [AC+": sub_balance_with_user, sub_balance_with_contract"])
p("C15", "Execution is a function of the committed state and the block",
  "Two executors opened on the same state root that execute the same transactions in the same context return the same root, receipts and fee summary, whatever either executed before; uncommitted writes never leak between executions.",
  "every pair of histories ending in the same root, every block",
  "all histories",
  [EX+": from_root, exec", "core/executor/src/trie/mod.rs"])
p("C16", "Queries observe the state after the queried epoch",
  "get_balance for an account, asset and epoch id returns the account's balance after the transactions of that epoch were executed.",
  "every chain, epoch, account and asset",
  "depends on arbitrary chains of executed epochs",
  ["core/api/src/adapter/mod.rs: get_balance", EN+": get_epoch, update_status"])
# ---------------------------------------------------------------- mempool
p("C17", "The sharded transaction map behaves like one map",
  "For every sequence of insert, get, contains_key, remove, deletes, len and clear, the 16-bucket map answers exactly as a single map from hash to value whose insert keeps an existing entry.",
  "every operation sequence over all 32-byte hashes",
  "unbounded histories and all hash values",
  [MM+": Map::insert, get, contains_key, remove, deletes, len, clear, get_index"])
p("C18", "A package contains each pooled transaction at most once and nothing else",
  "The hashes returned by one package call (order list followed by propose list) are pairwise distinct and each belongs to a transaction that was in the pool and not flushed.",
  "every history of insert, package, flush, propose and clear on the pool",
  "all histories including re-insertion after flush and after time-out",
  [TC+": package, insert_new_tx, flush"])
p("C19", "Packaged cycles respect the limit",
  "The fee cycles of the transactions in the order list of a package sum to at most cycles_limit, and so do those of the propose list.",
  "every pool content, cycles limit and fee value",
  "all u64 cycle values including overflow and single transactions above the limit",
  [TC+": package, TxPackage"])
p("C20", "A package never contains an expired or too-early transaction",
  "Every hash returned by package belongs to a transaction with current_epoch_id < timeout <= current_epoch_id + timeout_gap, and transactions outside that window that package met are removed from the pool.",
  "every pool content, epoch id and gap",
  "all u64 time-outs and histories",
  [TC+": package"])
p("C21", "An accepted transaction is not lost",
  "A transaction accepted into the pool stays retrievable, and stays in the queue that packages read, until it is flushed, expires or the pool is cleared, under every interleaving of concurrent inserts with a package call; a rejected one leaves no trace.",
  "every interleaving of the atomic steps of any number of insert calls with package calls",
  "schedules: the role switch of the two queues races with in-flight inserts",
  [TC+": insert, package, process_omission_txs, concurrent_count, is_zero"])
p("C22", "Flush removes exactly the flushed transactions",
  "After flush returns, no later package or lookup yields a flushed hash unless it is inserted again, and every other transaction is still in the pool.",
  "every pool state and every hash list (unknown and repeated hashes included)",
  "all histories",
  [TC+": flush", MP+": flush"])
p("C23", "The pool admits a transaction only if all admission rules hold",
  "insert returns Ok exactly when the pool is below its size, the transaction is new, its signature verifies, its hash is the digest of its raw encoding, its chain id matches, its time-out lies in [latest, latest + gap] and it is not already on chain; otherwise it returns the error of the first violated rule and the pool is unchanged.",
  "every transaction, pool state and chain state",
  "the full cross product of rule violations and boundary values",
  [MP+": insert", MA+": check_signature, check_transaction, check_storage_exist", TC+": check_reach_limit, check_exist"])
p("C24", "An admitted transaction can be packaged in the next epoch",
  "A transaction that insert accepts is returned by the next package call for the following epoch if it fits the limits.",
  "every accepted transaction and time-out",
  "boundary between two independently coded time-out windows",
  [MA+": check_transaction", TC+": package"])
p("C25", "The pool never holds more transactions than its configured size",
  "At every moment the number of transactions in the pool is at most pool_size.",
  "every interleaving of concurrent inserts, proposal synchronisation and packaging",
  "check-then-act schedules",
  [MP+": insert, ensure_order_txs, sync_propose_txs", TC+": check_reach_limit"])
p("C26", "get_full_txs returns exactly the requested transactions or an error",
  "get_full_txs returns the transactions whose hashes were requested, in the requested order, one per hash; if any is unknown it returns an error.",
  "every pool and callback state, every hash list",
  "unbounded lists with repetitions and both lookup sources",
  [MP+": get_full_txs"])
p("C27", "A verified epoch can be committed",
  "If ensure_order_txs(hashes) returns Ok then get_full_txs(hashes) succeeds afterwards.",
  "every pool state, hash list and answer of the remote peer",
  "adversarial peer answers",
  [MP+": ensure_order_txs, get_full_txs"])
p("C28", "Every transaction that enters the pool has passed the admission checks",
  "Every transaction in the pool or obtained through proposal or order synchronisation has a valid signature, hash, chain id and time-out.",
  "every history and every peer behaviour",
  "adversarial peers",
  [MP+": sync_propose_txs, ensure_order_txs", MA+": pull_txs"])
p("C29", "The broadcaster gossips every new local transaction exactly once, in order",
  "The transactions handed to the broadcaster are sent in batches whose concatenation is the sequence handed over so far, minus what is still buffered; a batch is sent as soon as the configured size is reached and at every tick.",
  "every sequence of submissions and ticks",
  "unbounded schedules of submissions and timer ticks",
  [MA+": IntervalTxsBroadcaster"])
p("C30", "A peer's request for transactions is answered",
  "A pull_txs rpc for known hashes is answered with these transactions.",
  "every request",
  "depends on the wiring of endpoints to handlers",
  ["src/main.rs", "core/mempool/src/adapter/message.rs: PullTxsHandler, NewTxsHandler"])
# ---------------------------------------------------------------- storage
p("C31", "Stored records are read back unchanged and records of different kinds do not interfere",
  "After a successful insert of a record under a key, reads of that kind and key return it until it is overwritten by a record of the same kind and key; records of other kinds or keys are unaffected; absent keys give the not-found error.",
  "every operation history on every schema, on both backends",
  "unbounded histories and key aliasing between schemas sharing a keyspace",
  [ST+": impl_storage_schema_for", "core/storage/src/adapter/memory.rs", "core/storage/src/adapter/rocks.rs"])
p("C32", "A crash never leaves a latest epoch that cannot be read",
  "At every crash point while epochs, receipts and transactions are being saved, the epoch reported as latest is also stored under its id, and all its transactions and receipts are stored; the latest epoch is either the one before or the one after the interrupted save.",
  "every crash point in every sequence of saves",
  "crash points",
  [ST+": insert_epoch, insert_transactions, insert_receipts", EN+": update_status"])
p("C33", "get_transactions returns one transaction per requested hash",
  "get_transactions(hashes) and get_receipts(hashes) return one record per requested hash, in order, or an error.",
  "every store and hash list", "unbounded lists",
  [ST+": get_transactions, get_receipts"])
p("C34", "An epoch can be found by the hash its successor links to",
  "get_epoch_by_hash(h) returns the stored epoch whose hash h is the pre_hash of its successor.",
  "every chain", "needs all epochs, two encodings of the same object",
  [ST+": insert_epoch, get_epoch_by_hash", EN+": update_status"])
# ---------------------------------------------------------------- consensus
p("C35", "Committed epochs form a hash-linked chain of consecutive heights",
  "Over any run of a node, the epochs it commits have consecutive ids and each epoch it proposes carries as pre_hash the hash of the epoch committed before it.",
  "every sequence of propose/commit/sync operations",
  "histories",
  [EN+": get_epoch, commit, update_status", CS+": update_epoch"])
p("C36", "The state roots of consecutive epochs chain",
  "Each committed epoch is executed on the state root produced by executing the epoch before it, and the header a node proposes next carries the root of the last execution.",
  "every run without restart", "histories",
  [EN+": commit, exec, update_status"])
p("C37", "A restarted node continues from the state of the last committed epoch",
  "After a restart, the state root on which the next epoch is executed is the root obtained by executing the latest stored epoch, and the remembered proof is that of the latest epoch.",
  "every chain and every restart point", "restart points",
  ["src/main.rs: start"])
p("C38", "A synchronising node reaches the same state as the nodes that committed",
  "A node that catches up by fetching epochs ends with the same state root, hash and height as a node that committed the same epochs directly.",
  "every chain and every gap", "histories",
  [CS+": update_epoch", "core/consensus/src/adapter.rs"])
p("C39", "A validator accepts only epochs that extend its chain",
  "check_epoch accepts an epoch only if its header matches the validator's status (chain id, height, previous hash, state root).",
  "every proposed epoch", "adversarial proposers",
  [EN+": check_epoch"])
p("C40", "A failed commit leaves the node able to retry",
  "If commit returns an error, the transactions of the epoch are still in the pool and the stored chain and status are unchanged.",
  "every error point inside commit", "error/crash points",
  [EN+": commit"])
p("C41", "Commit and synchronisation never run at the same time",
  "No two of the operations commit and synchronise update the node's chain status concurrently.",
  "every interleaving", "schedules",
  [EN+": commit", CS+": update_epoch", "core/consensus/src/engine.rs: lock"])
p("C42", "Signature checks reject what is not a valid signature and never crash",
  "Verification of a vote or proof signature returns an error for every byte string that is not a valid signature and does not panic.",
  "every byte string", "all inputs",
  ["core/consensus/src/util.rs"])
# ---------------------------------------------------------------- codecs
p("C43", "RLP coding of byte strings, integers and nested lists is lossless",
  "Decoding the encoding of any RLP tree, followed by any bytes, returns the tree; different trees have different encodings.",
  "all trees of any depth, byte strings of any length below 2^64, all u64",
  "unbounded sizes and nesting",
  [FC+"/primitive.rs", FC+"/mod.rs"])
p("C44", "The fixed codec round-trips every value",
  "decode_fixed(encode_fixed(v)) = v for every transaction, receipt, epoch, header, proof, validator, pill, genesis, account and asset.",
  "all values of the types", "unbounded nested values; the tests use a few random ones and never the Approve variant",
  [FC+"/transaction.rs", FC+"/receipt.rs", FC+"/epoch.rs", FC+"/genesis.rs", FC+"/primitive.rs"])
p("C45", "The transaction hash commits to the whole transaction",
  "Two different raw transactions have different hash preimages.",
  "all pairs of raw transactions", "injectivity over an infinite domain",
  [FC+"/transaction.rs: RawTransaction::rlp_append"])
p("C46", "The fixed codec is canonical",
  "At most one byte string decodes to a given value.",
  "all byte strings", "all inputs",
  [FC+": decode functions"])
p("C47", "Decoding untrusted bytes never crashes the node",
  "decode_fixed returns a value or an error for every byte string; it does not panic.",
  "all byte strings", "all inputs",
  [FC+"/primitive.rs", FC+"/epoch.rs"])
p("C48", "Transactions and receipts survive the protobuf codec unchanged",
  "decode(encode(v)) = v for the protobuf codec of transactions, receipts, epochs and primitives, so every node sees the transaction its author signed.",
  "all values", "all variants and values",
  [PC+"/transaction.rs", PC+"/receipt.rs", PC+"/epoch.rs", PC+"/primitive.rs"])
p("C49", "Addresses and hashes are validated and unambiguous",
  "Hash and address constructors accept exactly byte strings of the right length and tag; bytes and hex round-trip; user and contract addresses never coincide, and the kind of a contract is recoverable from its address.",
  "all byte strings", "all inputs",
  [TY+"/primitive.rs"])
p("C50", "The sync rpc response codec preserves the kind of response",
  "decode(encode(r)) = r for every pulled epoch or transaction batch, and malformed responses are rejected with an error.",
  "all responses and all byte strings", "all inputs",
  ["core/consensus/src/fixed_types.rs"])
p("C51", "API hex numbers round-trip",
  "The number a client reads from the API, sent back (with or without 0x, in either case), denotes the same number; malformed numbers are rejected.",
  "all u64 and balances, all strings", "all inputs",
  ["core/api/src/lib.rs: hex_to_u64", "core/api/src/schema/mod.rs"])
p("C52", "The Merkle root commits to the ordered list of hashes",
  "The order root and receipt root of different lists of leaves differ (given a collision-free hash), and the empty list yields no root.",
  "all lists of hashes", "unbounded lists",
  ["common/merkle/src/lib.rs"])
# ---------------------------------------------------------------- network
p("C53", "An rpc response reaches exactly the call it answers",
  "Every pending call has its own id; a response is delivered at most once, to the call registered for that session and id, and a response for an unknown id or another session is an error that disturbs no pending call.",
  "every interleaving of calls, responses (genuine, repeated, forged)",
  "histories and adversarial responses",
  [NW+"/rpc_map.rs", NW+"/outbound/rpc.rs", NW+"/reactor/mod.rs"])
p("C54", "Endpoint parsing and rpc ids are consistent",
  "A valid endpoint extended with an rpc id parses back to an endpoint with the same root and to exactly that id; malformed urls are rejected without panicking; routing depends only on the first three components.",
  "all strings and ids", "all inputs",
  [NW+"/endpoint.rs", NW+"/reactor/router.rs"])
p("C55", "A multi-user message accounts for every addressee",
  "Each addressee of a multi-user message is either sent the message on its current session or reported as missed, never both and never neither.",
  "every peer-manager state and addressee list", "unbounded lists and states",
  [PM+": route_multi_users_message"])
p("C56", "The session tables stay consistent",
  "At all times a peer's session maps back to that peer and a session's peer maps back to that session, and a peer with a session is marked connected.",
  "every sequence of peer-manager events", "histories",
  [PM+": attach_peer_session, detach_peer_session, close_peer_session, detach_session_id"])
p("C57", "Bootstrap peers are never forgotten",
  "No event sequence removes a bootstrap peer from the peer pool.",
  "every event sequence", "histories",
  [PM+": cleanly_remove_peer"])
p("C58", "The node does not dial beyond its connection limit, and the connection count is well defined",
  "The number of connected and connecting peers other than the node itself never underflows and the peers dialled in one round never exceed the free slots.",
  "every event sequence", "histories",
  [PM+": connection_count, unconnected_addrs"])
p("C59", "An unreachable discovered address is retried a bounded, positive number of times",
  "A discovered address whose connection attempt fails temporarily is kept for retry until the maximum retry count and then dropped.",
  "every event sequence", "histories and off-by-one boundaries",
  [PM+": UnknownAddr::reach_max_retry, ReconnectLater"])
p("C60", "Connection commands are never lost or reordered while the transport is busy",
  "Every dial, disconnect and send command handed to the connection service is eventually issued to the transport in order, each exactly once, as long as the transport is not closed.",
  "every schedule of busy/ready answers", "schedules",
  [NW+"/connection/mod.rs: process_event, poll"])

p("C61", "The transaction cache is a first-in first-out pool",
  "Every sequence of calls on a fresh transaction cache is answered exactly as by a list of transactions in order of arrival with at most one entry per hash: package returns the longest prefix of the transactions in the window that fits the cycle limit as order list, and then transactions in order of arrival as propose list.",
  "every sequence of calls of any length", "the two queues swap roles at every package and flushed entries stay in the queue",
  [TC+": TxCache"])

p("C62", "A transaction submitted through the API is the transaction its fields denote",
  "If the fields of sendTransferTransaction or sendDeployTransaction are the hex forms of the parts of a signed transaction (in either case, with or without 0x), the node inserts exactly that transaction; and the transaction inserted has no parts other than those the fields denote.",
  "all transactions and all ways of writing them", "all values and spellings",
  ["core/api/src/lib.rs: cover_to_raw_tx, cover_to_signed_tx, cover_transfer_action, cover_deploy_action", "core/api/src/schema/mod.rs"])

p("C63", "A synchronisation continues from the node's latest epoch",
  "The epochs a synchronisation fetches and executes start right after the epoch that is the latest one when its first effect happens.",
  "every interleaving of a synchronisation with a commit", "schedules: the latest height is read before the lock is taken",
  [CS+": update_epoch", EN+": commit"])
p("C64", "The height reported to the consensus after a synchronisation is the node's own",
  "When a synchronisation reports a new height to the consensus, it is the height of the node's status, greater than before, and the epochs in between have been recorded.",
  "every message of every peer", "all messages, including the numbers 0 and 1 on which the arithmetic wraps",
  [CS+": update_epoch"])
p("C65", "A transaction is executed at most once",
  "A node neither proposes nor records an epoch with a transaction that it already recorded, or with the same transaction twice.",
  "every lifetime of a node, any peers", "histories with synchronisation, restarts and adversarial proposers",
  [EN+": get_epoch, check_epoch, commit", CS+": update_epoch"])

p("C66", "A remote call ends",
  "A call to a peer ends, with the answer or with an error, also if the peer never answers or its session is closed; and its bookkeeping is removed.",
  "every interleaving of calls, responses and closing of sessions", "unbounded waiting and histories",
  [NW+"/rpc_map.rs", NW+"/outbound/rpc.rs: call", NW+"/peer_manager/mod.rs"])
p("C67", "A synchronising peer is served from storage",
  "A request for an epoch or for committed transactions is answered on its session, with its id, by exactly the stored records in the order asked for, or not at all if one is missing; serving changes nothing; no other message is answered; and the asking node's call returns the record.",
  "every state of the serving node and every message", "all states and messages, composition of two nodes",
  ["core/consensus/src/message.rs: RpcHandler", "src/main.rs", "core/consensus/src/fixed_types.rs"])

p("C68", "A failed dial frees its slot and the peer is dialled again",
  "After the dial of a known peer fails, the peer stops counting as being dialled and is a candidate for dialling again once its waiting time is over; and one failed dial does not make the node forget the address of a peer.",
  "every event sequence", "histories: the effect shows only in later dialling rounds",
  [PM+": unconnected_addrs, connect_peer, UnconnectableAddress, ReconnectLater", NW+"/connection/keeper.rs: process_connect_error"])

p("C69", "The validators the consensus is given are the configured ones, and all nodes agree on their order",
  "The authority list handed to the consensus when the node starts, after every commit and after every synchronisation is the configured validator list, sorted by address; two nodes configured with the same validators in any order hand over the same list; and every authority address can be the target of a consensus message.",
  "every validator list and every permutation of it", "all lists and orders",
  [EN+": covert_to_overlord_authority, get_authority_list, commit, transmit_to_relayer", "src/main.rs"])
p("C70", "The authority list for an earlier height is the one that was in use",
  "Asked by the consensus for the authority list of an epoch it has committed, the node answers the list that was in use for it.",
  "every lifetime of a node and every height", "histories; the genesis epoch is built by different code",
  [EN+": get_authority_list", "src/main.rs"])
p("C71", "The API shows exactly the stored epochs",
  "An epoch query for a height, written in any accepted way, shows the header fields and transaction hashes of the epoch stored under that height, fails if none is stored, and without a height shows the latest; walking back by height along a chain shows previous hashes that are the hashes of the epochs before.",
  "every node state, height and spelling", "all states and values",
  ["core/api/src/lib.rs: get_latest_epoch", "core/api/src/schema/epoch.rs", "core/api/src/adapter/mod.rs"])
p("C72", "A successful submission means that the transaction is in the pool under the returned hash",
  "If one of the four send mutations succeeds, the pool now holds a transaction made of the submitted fields under the returned hash, nothing else changed, and it passed every check of admission; with a private key, it carries that key's public key and signature, and such a submission succeeds whenever the node has room and no reason to refuse.",
  "every lifetime of a node and every submission", "all states and spellings",
  ["core/api/src/lib.rs: send_transfer_transaction, send_deploy_transaction, send_unsafe_transfer_transaction, send_unsafe_deploy_transaction, gen_input_tx_encryption", "core/api/src/adapter/mod.rs: insert_signed_txs"])
p("C73", "A balance query that cannot be answered reports an error",
  "A balance query for a height that is not stored, or whose state cannot be opened, fails instead of answering zero.",
  "every node state and query", "all states",
  ["core/api/src/lib.rs: get_balance", "core/api/src/adapter/mod.rs: get_balance"])

p("C74", "A peer is forgotten only after six failures in a row",
  "A known peer that is not a bootstrap peer and whose removal is not asked for is forgotten by the node only after six failures (short sessions, temporary dial failures, ping or session time-outs), each at least four seconds from the one before; a sign of life starts the count afresh, and a dial that times out costs neither the peer nor its address.",
  "every configuration, peer manager state and sequence of network events at any times", "histories of events and clock readings",
  ["core/network/src/peer_manager/mod.rs: increase_peer_retry, cleanly_remove_peer, process_event", "core/network/src/peer_manager/peer.rs: increase_retry, reset_retry", "core/network/src/connection/keeper.rs: process_connect_error"])
p("C75", "A failing peer is dialled ever more rarely",
  "After the k-th counted failure in a row of a peer (not a bootstrap peer) the node does not dial it for 5^k seconds, unless it is reported alive.",
  "every configuration, state, failure and later history of events at any times", "histories of events and clock readings",
  ["core/network/src/peer_manager/peer.rs: increase_retry, retry_ready", "core/network/src/peer_manager/mod.rs: unconnected_peers, route_multi_users_message"])
p("C76", "Discovered addresses are neither lost nor attributed to the wrong peer",
  "After the node has been told of an address, the address is taken to belong to a peer the node knows or is kept to be dialled; an address recorded for a peer by discovery names that peer; an address told of a connected peer is added to that peer's, and what is known of a peer without a session stays as it is; addresses of a forgotten peer are free again.",
  "every configuration, saved peers with distinct ids, history of events and list of addresses", "histories of events",
  ["core/network/src/peer_manager/mod.rs: identify_addr, match_pid, remove_peer, add_peer_addr"])
p("C77", "A peer that is to be retried later has its session closed",
  "When a connected peer times out or otherwise is to be retried later, the transport is told to close its session.",
  "every state and connected peer", "all states and clock readings",
  ["core/network/src/peer_manager/mod.rs: process_event (RetryPeerLater), increase_peer_retry, cleanly_remove_peer"])

p("C78", "A proposed epoch describes the epoch before it, and its proposer accepts it",
  "An epoch that a node proposes has the root of its own transactions, names the node and the clock, and carries the hash, the transaction root, the receipt root, the resulting state root and the proof of the epoch recorded before it - also if the node was restarted in between. The node accepts its own proposal without asking its peers for anything, and returns the transactions in the order of the proposal.",
  "every lifetime of a node (calls, failures, crashes, restarts) and every proposal in it; every later call; all answers of peers", "all histories; tests use a single epoch and no restart",
  ["core/consensus/src/engine.rs: get_epoch, check_epoch, update_status", "src/main.rs: start (current_consensus_status)"])

p("C79", "A proposed epoch reports what the execution before it used",
  "The header of a proposed epoch carries the cycles used and the bloom of the logs of the epoch executed before it.",
  "every lifetime of a node and every proposal in it", "all histories of executed epochs",
  ["core/consensus/src/engine.rs: get_epoch, update_status", "src/main.rs: start (current_consensus_status)"])

p("C80", "Transactions are gossiped by the node they are submitted to, once",
  "A transaction submitted to a node is handed to the gossip of that node exactly if the call put it into the pool; a transaction received from a peer is never handed on, so gossip does not circulate.",
  "every history of a pool, every view of the chain, every transaction, every received message", "all pool histories and all messages",
  ["core/mempool/src/lib.rs: insert", "core/mempool/src/adapter/message.rs: NewTxsHandler, mark_network_origin_new_txs"])

p("C81", "What a node gossips has its effect on those that receive it",
  "A committed epoch is announced once, and a commit that failed before recording its epoch announces nothing. A node that receives the announcement catches up with the announcing node; a batch of transactions received has the effect of submitting each of them. Nothing is replied to gossip.",
  "every node, message, height and batch; every lifetime of both nodes", "all states of both sides and all heights",
  ["core/consensus/src/engine.rs: commit", "core/consensus/src/message.rs: RichEpochIDMessageHandler", "core/mempool/src/adapter/message.rs: NewTxsHandler", "src/main.rs: start (registrations)"])

p("C82", "What is sent is what arrives",
  "The bytes that a node hands to the transport for a gossiped message, a request or an answer make the receiving node handle exactly the endpoint, the call number and the content that were sent; different messages have different bytes; bytes that are not a message change nothing, are not answered and crash nothing.",
  "every endpoint, call number and content; every state of both nodes; all bytes", "all byte strings and message contents",
  ["core/network/src/message/mod.rs: NetworkMessage", "core/network/src/compression/snappy.rs", "core/network/src/outbound/gossip.rs: package_message", "core/network/src/outbound/rpc.rs: call, response", "core/network/src/reactor", "core/network/src/traits.rs"])
p("C83", "Messages and commands go only to sessions that are open",
  "A message to users is sent on sessions that the transport has opened, and not closed since, with a peer that is one of the addressees; every command of the peer manager names only such open sessions; a session that was closed is not used again.",
  "every configuration and history of transport events, and every later message or event", "histories of events",
  ["core/network/src/connection/keeper.rs", "core/network/src/peer_manager/mod.rs: attach_peer_session, detach_peer_session, route_multi_users_message"])
p("C84", "A peer that breaks a protocol is cut off",
  "When the transport reports that a peer speaks no known protocol, breaks one or does not keep up, the node has its session closed.",
  "every configuration, state and connected peer", "all states and histories",
  ["core/network/src/connection/keeper.rs: process_service_error", "core/network/src/peer_manager/mod.rs: process_event (RemovePeerBySession)"])

p("C85", "The state on disk is the state the executor computes with",
  "Encoding accounts and assets to bytes, keeping them in layers of byte maps and in a trie per contract under one top trie loses and alters nothing: every answer of an executor (receipts, roots, errors, balances) is the one an executor with typed accounts and assets would give, no codec error occurs, the order in which contracts are committed does not matter, and every state root ever returned can be reopened later and shows exactly its state.",
  "every sequence of genesis, block and query calls on executors over one database, every iteration order", "all histories and all states",
  ["core/executor/src/adapter/contract.rs", "core/executor/src/fixed_types/mod.rs", "core/executor/src/lib.rs: commit, from_root, gen_contract_state", "core/executor/src/trie/mod.rs", "protocol/src/fixed_codec/primitive.rs"])

p("C86", "Peers known at shutdown are known after a restart",
  "A peer that a node knows when it is shut down is known again when it is started, with all its addresses, and can be dialled at once.",
  "every configuration, history of the node before the shutdown and clock", "all histories and all sets of peers",
  ["core/network/src/peer_manager/persist.rs", "core/network/src/peer_manager/mod.rs: package_peers, insert_peers, load_peers, Drop", "core/network/src/service.rs: new"])
p("C87", "A damaged or half-written peer file does not harm",
  "Whatever the peer file holds, the node starts; a file of which only a part was written before a crash is recognised and not used, so a start never takes over some of the saved peers or made-up ones.",
  "every set of saved peers, every point at which the write may be cut off, every contents of the file", "all crash points and all byte strings",
  ["core/network/src/peer_manager/persist.rs: save, load", "core/network/src/service.rs: new"])

p("C88", "Nodes that commit the same epochs agree",
  "Two nodes of one chain that were started from the same genesis and have committed the same epochs in the same order have computed the same receipts and the same state, whatever else happened to each of them.",
  "every pair of nodes, genesis, list of committed epochs; every history of submissions, proposals, checks and failed commits of either node", "pairs of arbitrary histories",
  ["core/consensus/src/engine.rs: check_epoch, commit, update_status", "core/mempool/src/lib.rs: get_full_txs, sync_propose_txs", "core/mempool/src/adapter/mod.rs: check_signature", "core/executor/src/lib.rs: exec, dispatch"])

p("C89", "A receipt shown for a transaction is that of its recorded execution",
  "The receipt the API shows for a transaction hash is the one that the execution of the transaction in a recorded epoch gave; every recorded transaction has one, a transaction that was not recorded has none, and the receipts of an epoch are those whose root the next proposal carries.",
  "every lifetime of a node: any calls, peers, synchronisation, failures and restarts",
  "histories over restarts and failures between the writes of an epoch",
  ["core/api/src/adapter/mod.rs: get_receipt_by_tx_hash", "core/consensus/src/engine.rs: update_status", "core/storage/src/lib.rs: insert_receipts, get_receipt"])
p("C90", "No money from nothing",
  "The balances of an asset that a node shows at any epoch never add up to more than the genesis allocated of it, and on a node started from the genesis they add up to exactly that.",
  "every lifetime of a node with any peers, every asset, every set of accounts and every epoch",
  "all histories including forged epochs from peers, failures, crashes and restarts, all accounts at once",
  ["core/executor/src/lib.rs: exec, create_genesis", "core/api/src/adapter/mod.rs: get_balance", "core/consensus/src/consensus.rs: update_epoch", "src/main.rs: handle_init"])

p("C91","A pooled transaction is eventually proposed",
  "A transaction in the pool that does not expire is put into the order list of a proposal after finitely many epochs, at most as many as there are transactions in the pool, whatever other transactions arrive.",
  "every history of the pool, every pooled transaction, every sequence of later epochs with arbitrary other calls in between",
  "A starvation needs a particular pool and never ends; a test sees finitely many epochs of a few pools.",
  ["core/mempool/src/tx_cache.rs: package","core/mempool/src/lib.rs: insert, package, flush","core/mempool/src/adapter/mod.rs: check_transaction"])

p("C92","A node starts with exactly what its configuration says, or not at all",
  "A started node has the chain id, key, address, validators, bootstrap peers, listening address and limits written in its configuration, the chain in its database is that of its chain id, the addresses it tells its peers are those it listens on, and any entry that is malformed or unusable makes the start fail instead of being skipped.",
  "every configuration file, every genesis, every content of the databases, every behaviour of the transport",
  "All texts of every entry and all database contents; a test starts a few configurations.",
  ["src/main.rs: main, handle_init, start","src/config.rs: Config","core/network/src/config.rs: bootstraps, secio_keypair","core/network/src/common.rs: socket_to_multi_addr, multi_addr_ip","core/network/src/service.rs: listen, register_endpoint_handler, register_rpc_response, poll"])

p("C93","Only the owner of an account can spend from it",
  "Every transaction a node executes, records or serves was signed with the key of the account it spends from, and whatever a node shows of any account at any epoch is explained by such transactions: allocation plus what was paid to the account minus what its owner paid. Whoever signed no payment never sees less than the allocation.",
  "every lifetime of a node, every submission, proposal, answer of peers, synchronisation, crash and restart, every account, asset and epoch asked for",
  "All histories and all behaviours of peers; a test sees a few transactions.",
  ["core/mempool/src/adapter/mod.rs: check_signature, check_transaction","core/mempool/src/lib.rs: ensure_order_txs, sync_propose_txs, get_full_txs","core/consensus/src/engine.rs: check_epoch, commit","core/consensus/src/consensus.rs: update_epoch","core/executor/src/lib.rs: handle_transfer"])

p("C94","Without the agreement of the validators no peer can extend or change a node's chain",
  "Whatever messages a node receives, from whomever and in whatever order, its recorded epochs, states and status change only by epochs that the validators agreed on; messages evict no pooled transaction and add only transactions that a user could have submitted.",
  "every node state, every sequence of received bytes on every session, all answers of peers",
  "All byte strings, all orders and all behaviours of peers; a test sends a few messages.",
  ["core/network/src/reactor/router.rs: route_raw_message","core/network/src/reactor/mod.rs: process","core/consensus/src/message.rs: RichEpochIDMessageHandler, RpcHandler","core/mempool/src/adapter/message.rs: NewTxsHandler","core/consensus/src/consensus.rs: update_epoch, check_proof"])

p('C95','A submitted transaction is executed',
 'A transaction in the pool of a running node is executed unless it expires: once as many proposals of the node have been committed as there were transactions in its pool, it is part of an epoch that the node recorded and the API shows its receipt, whatever else is submitted, proposed, committed or synchronised meanwhile.',
 'every lifetime of a node, every pooled transaction, every sequence of later calls with any peers and failures',
 'Needs a bound over all sequences of epochs with arbitrary calls in between, and a transaction of a stranger in the same epoch decides the outcome.',
 ['core/mempool/src/lib.rs: HashMemPool::{insert, package, flush, get_full_txs}','core/mempool/src/tx_cache.rs: package','core/consensus/src/engine.rs: get_epoch, commit','core/executor/src/lib.rs: exec','core/api/src/adapter/mod.rs'])

p('C96','A state root stands for one state, whatever the history',
'A trie answers every read with the last value written under that key, and its root depends only on its contents: two histories of writes and removals that leave the same contents leave the same root. Two different contents - and two different worlds of accounts, nonces, balances and assets - have different state roots, unless two nodes of their tries are different texts with one hash. No world has the root of the empty trie.',
'all sequences of writes to a trie, all pairs of such sequences, all pairs of worlds with finitely many accounts and assets, all sequences of executor calls, all hash functions',
'The unit tests insert a handful of keys; independence of the order and injectivity of roots are statements about all pairs of histories, and depend on the shape of the trie (splits, embedded nodes, collapsing branches after removals).',
['core/executor/src/trie/mod.rs: MPTTrie','core/executor/src/lib.rs: commit, from_root','protocol/src/types/primitive.rs: Hash::from_empty'])
p('C97','Committed states stay readable',
'Every state root that was ever given out can be opened later in the same database and shows exactly the contents it was given out for, whatever was committed since and wherever the process stopped; no root is given out for two contents.',
'all histories of commits on tries opened at any root given out earlier, any sets of stale nodes, process stops between the two writes of a commit, full and light databases, all hash functions',
'The unit test of the trie database stores and removes a few keys in one mode; that old roots survive is a statement about all later histories.',
['core/executor/src/trie/trie_db.rs: RocksTrieDB','core/executor/src/trie/mod.rs: commit, from','src/config.rs: ConfigExecutor.light','core/executor/src/lib.rs: from_root'])

p('C98','The node on disk behaves as the node on records',
 "Start the process on empty disks and let anything happen: transactions, proposals, checks, commits and synchronisation, each succeeding or failing anywhere, the process killed at any moment (during the initialisation, between writes to either database) and started again, queries for epochs, receipts, transactions and balances. Although the block database holds only encoded bytes and the state database only tries of encoded accounts and assets, every answer is the one of a node that keeps records and states themselves: what was stored always decodes, to what was stored, also after restarts. So what the other properties say of nodes holds of the bytes on disk; for example the balances shown for different users never add up to more than genesis issued. Exceptions: a 2^64-byte buffer, a collision of the hash function among the stored nodes or with a reserved key, a state root that names no state.",
 'every sequence of starts, kills, node calls with every failure point and every answer of the peers, and queries; every configuration and genesis; every order of committing the contracts',
 'a test stores and reloads a few records and restarts a node at a few points; whether some record, written by some run and read after some crash, decodes differently or is shadowed by another key needs an argument over all runs',
 ['core/storage/src/lib.rs','core/storage/src/adapter/rocks.rs','core/executor/src/lib.rs','core/executor/src/trie/mod.rs','core/consensus/src/engine.rs','core/consensus/src/consensus.rs','core/consensus/src/adapter.rs','core/api/src/adapter/mod.rs','src/main.rs: handle_init, start'])

p('C99','A payment is made at most once, and nobody loses more than he signed',
 "No transaction is recorded twice in the life of a node, before and after any crash and restart. What the node shows of accounts, for any epoch it has, is explained by recorded transactions, no two of them the same, each signed by the owner of the account it spends from: shown = allocation + received - paid. So whoever signed a list of payments never sees less than his allocation minus these payments, each counted once, however often they were submitted, proposed or sent again.",
 'every lifetime of a node with any calls, failed writes, crashes and restarts; every account, asset, epoch asked for and list of signed payments',
 'replays across epochs, failed commits and restarts are histories of unbounded length; a test submits a transaction twice in one of them',
 ['core/mempool/src/adapter/mod.rs: check_transaction, check_storage_exist','core/mempool/src/lib.rs: get_full_txs, flush','core/consensus/src/engine.rs: check_epoch, commit','core/executor/src/lib.rs: handle_transfer','src/main.rs: start'])

p('C100','A node invents no transactions',
 "Every transaction that a node stores and serves to peers, records in an epoch, hands out of its pool, returns for a checked proposal or names in a proposal of its own was handed to it unchanged: submitted through the API, gossiped, or sent by a peer it asked. This holds over failures, synchronisation, crashes and restarts.",
 'every lifetime of a node with any calls, failed writes, synchronisations, crashes and restarts; every set of transactions that contains what is handed to the node',
 'a test follows a few transactions through one history; that nothing else ever comes out must hold for all histories',
 ['core/mempool/src/lib.rs: insert, package, get_full_txs, ensure_order_txs, sync_propose_txs','core/consensus/src/engine.rs: get_epoch, check_epoch, commit','core/consensus/src/consensus.rs: update_epoch','core/storage/src/lib.rs: insert_transactions'])

p('C101','A transaction is executed at most once, whatever calls overlap',
 "A transaction that clients and peers hand to a node, once or many times, while the node proposes, checks and commits epochs in other tasks, is executed in at most one of the epochs the node commits, whatever the interleaving, with crashes and restarts. (The property is stated for nodes all of whose peers are honest: they ask the node to commit only what was proposed, and send on request only transactions that were not committed.)",
 'every lifetime of a node with any number of overlapping calls of insert, get_epoch, check_epoch and commit, cut at every access to shared data and interleaved in any way; every crash point and restart',
 'a test runs one interleaving; the window between taking the transactions of an epoch out of the pool and recording them lies between two accesses of one task, and only quantification over all schedules covers it',
 ['core/consensus/src/engine.rs: commit, get_epoch, check_epoch','core/consensus/src/adapter.rs: flush_mempool','core/mempool/src/lib.rs: insert, flush, package','core/mempool/src/adapter/mod.rs: check_storage_exist','core/storage/src/lib.rs: insert_transactions'])

p('C102','Overlapping calls are as if made one after the other, at every crash point',
 "Whatever calls of a node overlap - insertions, proposals, checks, commits, synchronisations - and however their accesses are interleaved, at every moment (and so at every point where the process may be killed and restarted) what the node has stored, its states and the record of its epochs are those of a lifetime in which the calls were made one after the other; that lifetime commits the epochs of the calls that took the lock, on the status the node had then.",
 'every lifetime of a node: any number of overlapping calls cut at every access to shared data and interleaved in any way, every crash point, every number of restarts',
 'the interleavings are unboundedly many, and a crash can hit each of them at each access; a test sees one',
 ['core/consensus/src/engine.rs: commit, get_epoch, check_epoch, update_status','core/consensus/src/consensus.rs: update_epoch','core/mempool/src/lib.rs: insert, package, flush','src/main.rs: start'])

p('C103','A first start that is interrupted does no harm',
 "However often the very first start of a node is killed, and at whatever write, starting it again brings it up exactly if an undisturbed first start would, and from then on, through all calls, failures, crashes and restarts, it stores, answers and does what a node does whose first start was not disturbed. All it may lack is the record of the latest proof, until the next proof is saved; nothing the node does depends on that record.",
 'every configuration and genesis, every number of interrupted starts cut at any of their writes, every lifetime afterwards',
 'a test can interrupt one start at one place; that all later behaviour is the same is a statement about all later histories',
 ['src/main.rs: handle_init, start','core/storage/src/lib.rs: insert_epoch, update_latest_proof','core/consensus/src/adapter.rs: save_proof'])

p("C104","A transaction is not executed after its time-out",
  "A transaction whose time-out is t is executed only in an epoch of height at most t; a node never proposes, or announces for later, a transaction whose time-out lies before the height of the proposed epoch or further ahead than the configured gap.",
  "every lifetime of a node, any peers, all heights and time-outs",
  "Time-outs and heights range over all 64-bit numbers, and the check is spread over admission, packaging and the check of an epoch on different nodes.",
  ["core/mempool/src/tx_cache.rs: package, is_timeout","core/mempool/src/lib.rs: package","core/mempool/src/adapter/mod.rs: check_transaction","core/consensus/src/engine.rs: get_epoch, check_epoch, commit"])

p("C105","What a node has committed is final",
  "From any moment of a node's life on, whatever calls follow, with failures, crashes and restarts: its latest epoch never goes back; for every height up to the latest one of that moment it goes on showing the same epoch, and for such an epoch the same balances; and the transactions and receipts of the recorded epochs stay the same.",
  "every lifetime of a node, every pair of moments in it, any calls, failures and restarts in between, any peers",
  "It relates any two moments of an unbounded history with crashes, and peers that answer anything.",
  [EN+": commit, update_status", CS+": update_epoch", "core/consensus/src/adapter.rs: save_epoch, save_signed_txs, save_receipts", "core/storage/src/lib.rs: insert_epoch, insert_transactions, insert_receipts", "core/api/src/adapter/mod.rs"])

p("C106","A storage adapter is a set of maps",
  "Whatever calls are made on a storage adapter, for whatever schemas, keys and values and with whatever failures of the database, it answers as one map per schema: get and get_batch give what was last put under the key and not removed since, contains tells whether get gives anything, batch_modify is its entries in order, seen by others at once or not at all; and a call that fails (a codec error, unequal numbers of keys and values, an error of the database) changes nothing.",
  "all finite sequences of calls of insert, get, get_batch, remove, contains and batch_modify, all schemas, keys, values and failures; both adapters",
  "tests put and get a few values of one schema; entries of different schemas under equal keys, failures in the middle of a batch and readers during one need every combination",
  ["core/storage/src/adapter/rocks.rs: RocksAdapter","core/storage/src/adapter/memory.rs: MemoryAdapter","protocol/src/traits/storage.rs: StorageAdapter"])

p("C107", "Every message that arrives is handled exactly once",
  "Whatever messages arrive, on whatever sessions and in whatever order the tasks of the network run: every message that is a well-formed frame for a registered endpoint is given, with its session, to the handler of this endpoint exactly once; nothing else is given to a handler; a malformed message costs no other message anything; and as long as a message is under way some task can bring it nearer to its handler, after at most four steps for each. The effect on the node is that of receiving the messages one after the other in some order, which need not be that of their arrival.",
  "every set of registered endpoints and handlers, every sequence of arriving byte strings, every interleaving of the router, the reactors and the tasks they start",
  "schedules of tasks",
  ["core/network/src/protocols/transmitter.rs: Transmitter::received", "core/network/src/reactor/router.rs: MessageRouter, route_raw_message", "core/network/src/reactor/mod.rs: Reactor, react"])

p("C108", "A node records only epochs it was given",
  "Every epoch a node has ever recorded was given to the process that recorded it: by a commit call for exactly this epoch, height and proof, the transactions executed being those the pool had at some moment for the hashes the epoch orders; or by a peer during a synchronisation, with the transactions this peer gave for these hashes and under the height and proof of its header. No overlap of calls mixes the epoch of one call with the height, proof or transactions of another.",
  "every genesis, every lifetime of processes with any calls overlapping in any way, killed at any moment, every behaviour of peers and of the disk",
  "schedules of overlapping calls and crash points",
  ["core/consensus/src/engine.rs: commit, update_status", "core/consensus/src/consensus.rs: update_epoch", "core/mempool/src/lib.rs: get_full_txs"])

p("C109", "No call on a node waits for another, and none leaves a lock behind",
  "Every commit, synchronisation, insertion, proposal and check that is called ends after a bounded number of accesses of its own, the bound depending only on its arguments and on what peers answer, whatever other calls do or fail to do meanwhile. A lock is held only while the call that took it is running, so that all are free when nothing runs, and a commit is refused because of the lock only if another commit or a synchronisation is under way.",
  "every start, every set of overlapping calls with any arguments, answers of peers and failures of the disk, every schedule, finite or infinite",
  "schedules of overlapping calls, infinite ones included",
  ["core/consensus/src/engine.rs: commit, get_epoch, check_epoch", "core/consensus/src/consensus.rs: update_epoch", "core/mempool/src/lib.rs: insert, ensure_order_txs, sync_propose_txs"])

p("C110", "What a node has of the chain is complete",
  "At every moment, also in the middle of commits and synchronisations and after a crash, every epoch that can be found in a node's storage, by height, by hash or as the latest, has its transactions and their receipts stored with it, and they stay: a peer that was given an epoch is given its transactions whenever it asks for them from then on, also after restarts.",
  "every genesis, every lifetime of processes with any calls overlapping in any way, killed at any moment, every behaviour of the disk and of peers, every stored epoch",
  "schedules of overlapping calls and crash points between the writes",
  ["core/consensus/src/engine.rs: update_status", "core/consensus/src/consensus.rs: update_epoch", "core/storage/src/lib.rs: insert_epoch, insert_transactions, insert_receipts", "core/consensus/src/message.rs: PullTxsRpc handler"])

p('C111','A network whose validators decide on one epoch for each height does not fork',
 "If the consensus never decides on two epochs for one height, and peers hand on only epochs that were decided on, then no two nodes that started from one genesis ever show different epochs for one height, whenever they are asked, whatever calls overlap on each, whatever fails and however often they are killed and started again. What two nodes have computed (receipts, state roots) is the same for every epoch that both have recorded, the one that is behind has the beginning of what the other has, and users who ask the two for a receipt, or for a balance at an epoch both have, get the same answer.",
 'every two configurations of one chain, every genesis, every sequence of decisions, every schedule of overlapping calls, every failure and crash point, every two moments',
 'a test compares two nodes after one or two epochs; nodes that are at different heights, in the middle of calls, or restarted at arbitrary points are combinations no test enumerates',
 ['core/consensus/src/engine.rs: commit, update_status','core/consensus/src/consensus.rs: update_epoch','core/consensus/src/adapter.rs','core/storage/src/lib.rs','core/executor/src/lib.rs','src/main.rs: start'])


p('C112','In a network of nodes that run this code only signed and submitted transactions are executed',
  "However many nodes run this code and whatever happens among them (clients submitting anything anywhere, crashes and restarts, overlapping calls, any proposals and epochs): a transaction that any node sends, holds in its pool, stores, executes or proposes was submitted at the API of some node and is signed with the key of the account it spends from, and every balance any node shows is explained exactly by such transactions. What no client signed and submitted has no effect anywhere.",
  'every network of any number of nodes with any configurations, every interleaving of their calls, messages in transit (delayed, repeated, lost), crash points, consensus decisions',
  'a test runs one network with one schedule; the claim is about where every transaction at every node in every history came from',
  ['core/mempool/src/lib.rs: insert, get_full_txs, ensure_order_txs, sync_propose_txs','core/mempool/src/adapter/message.rs','core/consensus/src/message.rs: RpcHandler','core/consensus/src/consensus.rs: update_epoch','core/consensus/src/engine.rs: check_epoch, commit'])

p('C113','A network of nodes that run this code does not fork, and no node of it has holes',
  "However many nodes run this code and whatever happens among them - overlapping calls, crashes and restarts, failing databases, nodes that synchronise with each other at any time, also with nodes that are themselves still behind - if the consensus commits one epoch for each height, then at any two moments any two nodes show the same epoch for one height, the same balances at an epoch whose state both have, and every epoch a node shows comes with all its transactions and their receipts. Nothing has to be assumed of the answers that synchronising nodes get except that nodes of the network gave them.",
  'every network of any number of nodes of one chain, every interleaving of their calls, answers delayed, repeated or lost, crash points, failures, every two moments',
  'what a node answers depends on what it took over from others, which took it over from others; a test runs one such chain of events',
  ['core/consensus/src/consensus.rs: update_epoch','core/consensus/src/message.rs: RpcHandler','core/consensus/src/engine.rs: commit, update_status','core/storage/src/lib.rs','src/main.rs: start'])

p('C114','A handler that was registered gets the messages of its endpoint; a service that was started runs each part once and listens where it was told',
  'For every sequence of calls to the network service (registering handlers and response endpoints, listening, starting): a registration succeeds exactly if its url is well-formed and of the scheme for its kind; a started service runs the connection service, the peer manager, the router and the heart beat once each; it listens at the address it was told, or else at the default one, and announces that address; a message for an endpoint goes to the handler whose registration for that endpoint was accepted last, and to none if there was none.',
  'all sequences of calls, all urls, addresses and transports',
  'the order of registrations, listening and polls is up to the caller; a late registration is answered like an early one',
  ['core/network/src/service.rs: NetworkService::new, register_endpoint_handler, register_rpc_response, listen, poll','core/network/src/reactor/router.rs: MessageRouter::register_reactor','src/main.rs: start'])

p('C115','Messages are handled exactly once also while handlers, consensus and clients overlap',
  'Whatever bytes arrive at a running node and however its tasks interleave - those of the network, of message handlers, of the consensus and of clients, one access to shared data at a time - every message that arrives is given to the handler of its endpoint exactly once or is for none; the handler of a batch has every transaction of it inserted, that of an announcement starts one synchronisation, each in a task of its own that runs to its end, and a request is replied to with what the node has then. So what holds of overlapping calls holds of what arrives as bytes: nothing is stored, executed or kept in the pool that was not submitted, given on request or in a frame that arrived, and only transactions that their senders authorised are executed.',
  'all bytes that arrive at any time, all interleavings of all tasks, all crash points between processes',
  'handlers run concurrently with each other and with the consensus; a test fixes one schedule and a few messages',
  ['core/network/src/protocols/transmitter.rs','core/network/src/reactor/router.rs: MessageRouter','core/network/src/reactor/mod.rs: Reactor','core/mempool/src/adapter/message.rs: NewTxsHandler, PullTxsHandler','core/consensus/src/message.rs: RichEpochIDMessageHandler, RpcHandler','src/main.rs: start'])

p('C116','A network of whole processes, to which anybody sends any bytes, does not fork, has no holes and executes only what senders authorised',
  'In a network whose nodes each run this software as a whole process, anybody may send any bytes to any node at any time, clients submit anything, tasks interleave in any way, and processes are killed at any moment and started again. If the consensus commits one epoch for each height and requests of synchronising nodes are answered by nodes of the network, then any two nodes show at any two moments the same epoch for one height and the same balances at it; whatever epoch a node shows, it has its transactions and receipts; and everything a node stores, executes, gives to others or proposes came in from a client or in a frame and is signed with the key of the account it spends from.',
  'all networks of any number of nodes, all bytes sent by anybody to any node at any time, all interleavings of all tasks, all crash points and restarts',
  'what one node accepts from an attacker reaches other nodes through proposals, synchronisations and gossip; no test runs all networks, schedules and attackers',
  ['core/network/src/protocols/transmitter.rs','core/network/src/reactor/router.rs: MessageRouter','core/network/src/reactor/mod.rs: Reactor','core/mempool/src/adapter/message.rs','core/consensus/src/message.rs','core/consensus/src/consensus.rs','core/consensus/src/engine.rs','src/main.rs: start'])

p('C117','In a network of whole processes what was shown once stays shown, and no money is made',
  'In every network as in C116, whatever a node shows once it shows at every later moment, through crashes and restarts, overlapping calls and synchronisations and whatever bytes anybody sends to it: the epoch of a height, a transaction and a receipt with a hash, the balances at an epoch, and the epochs it executed. And in every lifetime of one process, whatever peers answer it and also if they lie, the balances of an asset at an epoch are together never more than the genesis gave out of it.',
  'all networks of any number of whole processes, all pairs of moments in their life, all bytes, interleavings, crash points, restarts and answers of peers',
  'a read that changes later needs one particular crash, overwriting write or overlap between the two reads; tests take single readings of single nodes',
  ['core/storage/src/lib.rs: insert_epoch, insert_transactions, insert_receipts','core/storage/src/adapter/rocks.rs','core/consensus/src/adapter.rs','core/consensus/src/consensus.rs: update_epoch','core/api/src/adapter/mod.rs','src/main.rs: start, handle_init'])

p('C118','A node that starts later than the others can join',
  'A node that is started from the genesis of a chain whose validators have already committed epochs reaches the height of the others by synchronising with them, as long as it keeps running (or is restarted) and honest nodes answer it.',
  'all chains, all lifetimes of the late node with any synchronisations, overlapping calls, bytes sent to it, crashes and restarts, all answers of honest peers',
  'the tests start all nodes together; that no schedule of synchronisations ever helps is a statement about all of them',
  ['core/consensus/src/consensus.rs: update_epoch','core/consensus/src/adapter.rs: execute, pull_epoch','core/executor/src/lib.rs: from_root','src/main.rs: start, handle_init'])

p('C119','One transaction does not stop a network',
  'Whatever transactions clients submit, as long as the pool admits them and honest proposers order them, the nodes of the network go on to execute the epochs that the validators decide for; no submitted transaction makes an epoch impossible to commit for everybody and for ever.',
  'all networks of processes of this code, all transactions submitted, all schedules, messages, failures, kills and restarts after the decision, all synchronisations',
  'a test sees one process panic once; that no later schedule, restart or synchronisation of any node gets past the epoch is a statement about all of them',
  ['core/executor/src/lib.rs: exec, dispatch','core/mempool/src/adapter/mod.rs: check_signature, check_transaction','core/consensus/src/engine.rs: get_epoch, commit','core/consensus/src/consensus.rs: update_epoch'])

p('C120','A node runs with the configuration and the genesis that the operator names',
  'A process reads its configuration from the file or the address that it is given, and its genesis from the file that it is given (without arguments: the default files); it starts a node only with these, and does not start if one of them cannot be read or is malformed.',
  'all command lines, all contents of files, all answers of servers, all contents of the databases',
  'a test reads one file; that nothing else is ever read, and that no unusable text is taken, is about all of them',
  ['src/main.rs: main, handle_init','common/config-parser/src/lib.rs: parse, parse_file, parse_http, parse_reader'])

p('C121','Any two nodes speak the same protocols with each other',
  'A process sets up its protocols exactly if it was given all four of them, in any order. When two such processes connect, whatever each was given for them, exactly four protocols are opened, each under the same number and in the same version on both sides, and each side handles it with what it was given last for it. The messages that either node sends over the connection are handled by the transmitter of the other one.',
  'all pairs of processes, all sequences of calls by which they set up their protocols, all values given, both directions of a connection',
  'a test connects two nodes that are set up in one way; a number, a name or a target that does not match shows only as messages that never arrive',
  ['core/network/src/protocols/core.rs: CoreProtocolBuilder, build, target, message_proto_id','core/network/src/protocols/macro.rs','core/network/src/protocols/ping.rs, identify.rs, discovery.rs, transmitter.rs: NAME, SUPPORT_VERSIONS, build_meta','core/network/src/service.rs: new'])

p('C122','The network service and the peer manager never fall asleep',
  'Once started, the network service and the peer manager are polled again within one heart beat interval (up to the delays of the runtime), for ever, also if no event, command or message comes; and their heart beats are never closer than the interval.',
  'all runs of the runtime: all moments at which the timer goes off, woken tasks run, and other things wake the services, all intervals and delays',
  'a lost wake-up shows only in particular interleavings of the timer, the heart beat and the service, and only as something that never happens',
  ['core/network/src/common.rs: HeartBeat','core/network/src/service.rs: poll','core/network/src/peer_manager/mod.rs: poll'])

def main():
    with open("properties.jsonl", "w") as f:
        for x in P:
            f.write(json.dumps(x, ensure_ascii=False) + "\n")
if __name__ == "__main__":
    main()
