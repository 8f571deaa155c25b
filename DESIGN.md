# Formal model of yejiayu/huobi-chain — design

Everything is Lean 4 (v4.33.0) under `lean/Verif/`. The Rust sources in `/repo` are read as text; nothing of them
is built or run.

* `Model/*.lean` — the code, function by function; every definition cites the file and lines of `/repo` it models
  and says where it simplifies.
* `Spec/*.lean` — what the statements are written in when the model's own vocabulary is not enough (`TotalIs`,
  `Executes`, `Replays`, `RootsChain`, `Pool`, `Store`, …) and the concrete demo blocks and nodes used as witnesses.
* `Props/*.lean` — the property theorems, named after the property (`C01_…`), each with an `example` (or a
  `…_refuted` witness) that meets its hypotheses on a concrete, non-trivial case.
* `Proof/*.lean` — helper lemmas.

`properties.jsonl` is generated by `tools/props.py`, `MANIFEST.json` by `tools/manifest.py`. `seeded/LOG.jsonl` is
the record of the wrong programs the theorems were tested against (mutation lists and runner in `tools/mut/`).

## Conventions

* `u64` is Lean's `UInt64`, or `Nat` reduced mod 2^64 where stated: release profile, arithmetic wraps (no
  `overflow-checks` in any Cargo.toml). `usize` is `Nat`. `BigUint` (`Balance`) is `Nat`. Bytes are `List UInt8`.
* A `&mut self` method becomes a function returning the new state; a `Result` is data; *a panic is an explicit
  outcome*, never a totalised default value. When a method fails after having mutated something, the model returns
  the mutated state too (e.g. the executor monad keeps the state on error).
* Keccak (`Hash::digest`), signature verification and signing, the trie root function and the snappy compression
  are parameters. No theorem assumes global injectivity of a hash (it would be unsatisfiable for a 256-bit hash);
  where collision-freeness matters the hypothesis names the inputs it concerns, or the conclusion is "or here is a
  collision", and an `example` shows that the hypothesis can be met.
* What other nodes, the network and the clock do are *inputs* of the models (answers of peers, arrival order, dial
  results, times), universally quantified in the theorems.
* A property that is false of the code is *negated*: the manifest entry is `partial`, the theorems listed are the
  refutation (`…_refuted`, a concrete reachable witness, so the full statement stays in view) and the strongest
  true part found (`…_partial`, with what is missing said in its comment and in the manifest note).

## Properties: what is modelled and how it is proved

"Refuted" below means: the property as a user would state it does not hold of this commit, and the refutation is a
theorem; the "partial" is the part that does hold.

| id | model | proof |
|----|-------|-------|
| C01 conservation | Executor | invariant over the transaction loop on the flat ledger (`Proof/ExecFlat`, `ExecSums`), lifted to chains of blocks |
| C02 transfer exact | Executor | one dispatch unfolded, caller = receiver case; ledger theorem for whole blocks |
| C03 failed tx has no effect | Executor | refuted for the nonce of the previous transaction; partial: balances, approvals, assets; removability |
| C04 receipts one to one | Executor | induction over the transaction list |
| C05 cycle limit | Executor | case analysis over actions |
| C06 fee summary | Executor (`modify_all_cycles_used`) | induction over receipts, modulo 2^64 and exact below it |
| C07 proposer paid | Executor | refuted (independence of the coinbase); partial: exact ledger of the coinbase |
| C08 nonce | Executor | refuted; partial: exactly which increments survive |
| C09 fee charged | Executor | refuted; the exact ledger (C02) is the true part |
| C10 poison transaction | Executor, Consensus | refuted (unknown sender, unsupported action, commit panics); partial: executable when senders exist |
| C11 layered state | StateAdapter | refinement to a transactional map for all operation sequences |
| C12 asset permanent, unique | Executor | invariant over blocks |
| C13 genesis | Executor (`create_genesis`) | induction over allocations; supply refuted |
| C14 withdraw | Executor | user accounts proved, contract accounts refuted + exact effect |
| C15 function of state and block | Executor | history independence for reopened executors; reuse after failure refuted |
| C16 queries after epoch | Consensus | refuted (header carries the state before); partial: which state is returned |
| C17 sharded map | TxMap | refinement for all operation sequences |
| C18–C20, C22, C24, C61 | TxCache | invariants over all histories, refinement to a FIFO pool; limits and boundary refuted where false |
| C18 (concurrent), C21, C25 | TxCacheConc | invariants over all interleavings of atomic steps |
| C23, C26–C28 | Mempool | case analysis with adversarial peer answers as inputs |
| C29 broadcaster | Broadcaster | induction over events |
| C30 transaction request answered | Server | refuted from the endpoint table and the handler; partial |
| C31–C34 | Storage | two backends over byte keys; refinement; crash = any prefix of the write list |
| C35–C40, C63–C65 | Consensus | induction over all lives of a node (operations, failures, restarts); refutations by concrete runs |
| C41 serialised | ConsensusLock | invariant over all schedules of the lock |
| C42 signature checks | OverlordCrypto | refuted (panic, aggregate always accepted), partial |
| C43 RLP | Rlp | structural induction, byte level |
| C44–C47 | FixedCodec (on Rlp), Protobuf | round trip per type; exact panic conditions; refutations |
| C48, C50 | Protobuf, Messages | round trip of conversion layer and wire format |
| C49, C51 | Types, Hex, Api | case analysis, induction over digits |
| C52 Merkle root | Merkle | induction; "equal lists or a collision"; refuted for the odd-leaf duplication |
| C53, C66 | Rpc | invariant over all events of the reactor's call table |
| C54 endpoints | Endpoint | parsing lemmas |
| C55–C59, C68, C74–C77, C83 | PeerManager | invariants over all event histories; refutations by runs |
| C60 connection service | Connection | induction over schedules of the transport |
| C62, C71–C73 | Api, ApiServer | reading and showing lemmas composed with Consensus and Mempool |
| C67, C80, C81 | Server | handlers composed with the node model |
| C69, C70 | Authority | permutation and sortedness, composed with commits and synchronisations |
| C74, C76, C77, C84 (network side) | Keeper | the same peer-manager theorems for histories of network callbacks |
| C78, C79 | Consensus (`get_epoch`, `check_epoch`) | invariants over lives; refuted after restart |
| C82 frame | Frame | composition of protobuf, endpoint and (abstract, lossless) compression |
| C85 byte-level state | ByteExecutor | forward simulation between the byte-level executor (keys, encodings, stored tries) and the typed one |
| C86, C87 | Persist | byte-level bincode reader and writer; restart of the peer manager |
| C88 agreement | Consensus | two lives of two nodes compared; refuted: the hash does not cover the public key; partial |
| C89 receipts | Storage, Consensus | induction over lifetimes with an invariant on the receipt table; refuted when the database fails halfway; partial |
| C90 supply | Executor, Consensus | every resolvable root descends from genesis by executions, each preserving the total |
| C91 progress | Mempool, TxCache | position in the queue as a measure that every epoch decreases; refuted by a transaction above the limit; partial |
| C92 start | Startup | model of `main`/`start`, texts specified independently of the decoder (`HexText`, `Written`); refuted by a second start with another chain id, a bad bootstrap key, port 0; partial |
| C93 spending | Consensus, Mempool, Executor | invariants of the pool and of all stored worlds over `Lives`, ledger of C02 summed over blocks (`AuthLater`); refuted by a pulled forged payment (proposal) and by invented epochs (synchronisation); partial |
| C94 takeover | Frame, Server, Consensus | case analysis of `receive` over all bytes, induction over message lists; refuted for all nodes and headers by constructing the message and the answers; partial |
| C95 execution | Mempool, Consensus, Storage | position in the queue (C91) as a measure over all call sequences of a node (`Proposing`), with the receipt invariant of C89; refuted by a stranger's transaction in the same epoch; partial |
| C96 state root | Mpt, ByteExecutor | the trie is a map (induction over the trie for insertion and removal), well-formed tries are canonical, the coding of nodes is injective up to named clashes; finiteness of every trie the byte-level executor commits |
| C97 committed states | Mpt | invariant over all histories of a node database (genuine entries, states with their tries); loading by induction over the trie; refuted for light databases |
| C98 node on disk | Disk (Consensus over Storage and ByteExecutor) | forward simulation between a machine on bytes and one on tables, call by call; every record of a run survives its coding; Patricia version by C96 |
| C99 pay once | Consensus | invariant over all histories: the roots a node names hold states made of recorded, pairwise different, authorised transactions; on disk (DiskLife): keeping of roots from the absence of clashes |
| C100 nothing invented | Consensus, Mempool | for any predicate on transactions: invariant over all histories that pool, store and log hold only what was handed over |
| C101 once, whatever overlaps | ConsensusLock, NodeConc | invariant over all schedules with a phase for the commit under way; the race of insertion and commit is a concrete schedule |
| C102 as if in sequence | ConsensusLock, NodeConc | the sequential node is built along the schedule: it is equal when the lock is free, and while a call holds it the program so far is matched with the sequential call cut by failures at that access (`Prog.Reach`, `Mirror`); transactions are handed to the sequential node when they are needed |
| C103 first start | FirstStart, Consensus | what any number of cut starts leaves (induction); no call reads the record of the latest proof (`ProofBlind`, composed over all calls); simulation over lifetimes |
| C104 time-outs | Consensus, Mempool | C20 lifted to lifetimes; the proposer of an epoch as a second node; refuted by a proposer that orders an expired transaction; partial |
| C105 finality | Consensus | a relation between two moments of a lifetime, by induction over the calls and restarts between them, on C35 (chained), C65 (once) and C89; refuted by a lying peer; partial |
| C106 adapter | Adapter | the interface of the adapters for any schemas; simulation of one map per schema, by induction over the calls; refuted for MemoryAdapter; partial |
| C107 handled once | Mail | router, reactors and the tasks they start as a transition system; every arrived message is accounted for (handled, dropped as malformed, under way) by an invariant up to permutation; a measure for progress; `Handles` and `For` are the specification |
| C108 given epochs | ConsensusLock | what a program records depends only on its arguments and the pools it sees; invariant over schedules, lifetimes by induction |
| C109 no waiting | ConsensusLock | the number of accesses of each program by its structure, the same for every schedule; ownership of the locks as an invariant; a commit alone among pool calls |
| C110 complete | ConsensusLock, Server | every access of every program keeps an invariant of the store (each findable epoch has its body) and loses nothing; lifetimes by induction; refuted by a peer that withholds transactions; partial |
| C111 no fork | ConsensusLock | epochs: an invariant of the store kept by every access, for lifetimes; results: the record of a node is the countdown of the decisions, so the one that is behind equals an earlier moment of the other, to which C88 applies; balances by C16, receipts by C89; partial |
| C112 network of nodes | ConsensusLock, Server | `Net.Reach`: any number of places with processes (`Conf`), a set of submitted and a set of sent transactions; the answers of a call may be settled while it runs. Invariant: all that was sent is submitted and authorised, and the lifetime of each place brings only such transactions, so the invariants behind C93 and C100 apply; `C112_sends` links `Node.Gives` with what the handlers and the gossip of the model send |
| C113 network without forks | ConsensusLock, Server | `HNet.Reach`: places with processes and the answers given so far to requests of synchronising nodes; `C113_answers` links the answers to the handler. Invariant: every answer is the chain's epoch for the height that was asked for, or transactions with the hashes asked for, so each place's lifetime meets the conditions of C111_epochs and C110_partial; worlds are stored under their roots, so one header gives one balance |
| C114 life of the network service | NetService | `C114_partial`: induction over the calls before the start (the router's table is `lastFor` of the calls, through `C54_register`; the address is `firstListen`), then that nothing after the start changes the service; `C114_refuted`: late registration and second listen, answered with success, without effect |
| C115 a whole process | NodeNet (= Mail over ConsensusLock) | Mail's theorem for a node that only logs (C107) transferred by a projection; the calls of handlers as fresh tasks of `Conf.after` (`Service`, by induction over the schedule; odd task numbers are fresh); then C93, C100, C108 and C109 for what arrives as bytes |
| C116 a network of whole processes | NodeNet, Spec in Props/NodeNet3 (`PNet.Reach`) | an invariant of the network (answers given are of the chain, everything came in and is authorised), with C115's reduction of a process to overlapping calls at each place; then C110, C111, C113, C93 |
| C117 what was shown stays, no money is made | NodeNet, Spec in Props/NodeNet4 (`PNet.Later`) | no access of any task takes anything out of a database (by cases on the programs of the tasks), so by induction on the steps nothing is lost; what is there is the same by C111 and C116; the supply by C115 and C90 |
| C118 a late node can join | NodeNet, ConsensusLock, Spec in Props/Latecomer (`SyncIo.FirstFull`, `AtGenesis`) | false: invariant "at genesis" kept by every access of every task (a synchronisation from height 0 executes on the empty state, which executes no transaction: C10), for all schedules and restarts; the positive part is C38 |
| C119 one transaction does not stop a network | NodeNet, Spec in Props/NodeNet3 (`PNet.Reach`) and Props/Halt (`SignedTx.Supported`) | false: invariant "whatever is stored was executed, so it is of a supported kind" kept by every access of every task, with C110 (a stored epoch has its transactions) and C116 (one epoch per height, its transactions are those that came in): no reachable network shows an epoch with an unsupported transaction, nor one with a transaction of somebody whom nobody paid (invariant: he has no account in any state); concrete networks reach both cases |
| C120 configured as told | Launch (`parseConfig`, `launch`), Spec in Props/Launch (`Outside.Means`) | case analysis of the readers, composed with C92; two refutations by example |
| C121 common protocols | CoreProtocol (`Builder`, `agree`, `opened`), Spec in Props/CoreProtocol (`Last`) | induction over the calls, computation of the opened protocols for arbitrary handlers |
| C122 never asleep | HeartBeat (timed automaton: `Step`, `Run`) | invariant with the time of the latest poll; time can always pass |

No property in the list is outside what an executable model can express. What lives in the runtime (fairness of the
tokio scheduler, real time, atomicity of RocksDB writes, delivery by the network) is an input of the models or
listed in the trusted base.

## Trusted base

* Lean's kernel. Every theorem depends on at most the axioms `propext`, `Classical.choice` and `Quot.sound`; no
  axiom is added, and no compiled evaluation is used (`decide +kernel` is kernel reduction).
* The reading of the Rust code: the citations on each definition are what has to be compared.
* Third-party crates, by their documented behaviour:
  * `rlp` 0.4 and `prost` (wire format), `bincode`, `hex`, `static_merkle_tree`: modelled at byte level
    (`Rlp::at` without its cursor cache; `to_uppercase` of hex input restricted to ASCII);
  * `cita_trie`: in ByteExecutor a trie is its contents plus an abstract root function (equal contents, equal root; the
    inverse only where a theorem says so) and its database is the list of tries committed to it; Mpt models the
    Patricia structure, the coding of nodes and the database of nodes in full and light mode, from the crate's
    documentation, and C96, C97 relate the two.  *Which nodes the crate reports as stale is a parameter; nodes are
    loaded when a trie is opened, not when they are visited*;
  * RocksDB: a single put and a write batch are atomic, crashes lie between them;
  * `crossbeam` `ArrayQueue` (bounded FIFO, atomic push and pop), `parking_lot` / `futures` locks (mutual
    exclusion); in the concurrent cache model `len` of the map and the deletion batch are single steps;
  * `overlord`: only the interface (`Node` ordered by address, statuses, proofs); the BFT protocol is not modelled —
    commits, checks and synchronisations of a node may come in any order with any arguments;
  * `ophelia` (secp256k1), keccak: abstract functions;
  * `tentacle`: the transport is an oracle (accepts, refuses or is busy); callbacks may come in any order;
    `snap` is abstract and lossless by hypothesis of the theorems of C82.

## What of the code is modelled

| crate | modelled | not modelled |
|---|---|---|
| core/executor (`lib.rs`, `cycles.rs`, `native_contract/*`, `adapter/*`, `trie/*`, `fixed_types/*`) | all of it, twice: typed (Executor, StateAdapter) and on bytes (ByteExecutor), with the Patricia trie and its store (Mpt) | RocksDB errors; buffers of 2^64 bytes and more |
| core/mempool (`map`, `tx_cache`, `lib`, `context`, `adapter/*`) | all | tokio timers (a tick is an input) |
| core/storage | all | — |
| core/consensus (`engine`, `consensus`, `adapter`, `message`, `fixed_types`, `util`) | all | the overlord crate |
| core/network (`peer_manager/*`, `connection/*`, `rpc_map`, `reactor/*`, `message/*`, `endpoint`, `outbound/*`, `protocols/core`, `ping`, `identify`, `discovery`, `transmitter`, `service`) | as the headers of PeerManager, Keeper, Persist, Connection, Rpc, Frame, Server, CoreProtocol, HeartBeat say | wakers other than that of the heart beat; key exchange; the tentacle protocols themselves |
| core/api | conversion of arguments and results, all queries and mutations | GraphQL and HTTP layers |
| protocol (`types`, `codec`, `fixed_codec`) | all | — |
| common | `merkle`, config-parser (Launch) | logger, metrics, channel, pubsub |
| src/main.rs, src/config.rs, core/network/src/config.rs, common.rs | endpoint table and registrations, genesis, start of a node from its configuration (Startup), command line, reading of the configuration and the genesis (Launch) | clap, TOML and JSON readers, signal handling |
| devtools, benches, tests, examples | — | all |

Simplifications that matter for reading a theorem are stated in the comment of the definition concerned. The larger
ones: gossip of a batch inserts its transactions one after the other (Server); the peer manager's timers are inputs;
a message of a peer is handled as one step except in the concurrent cache model and the lock model, which split
operations into atomic steps.

Concurrency of a node: ConsensusLock gives insertions, proposals, checks, commits and synchronisations as programs cut at
every access to shared data (pool, store, tries, status, locks); `Conf.after` runs any number of them in any
interleaving.  C41, C63, C101, C102, C108, C109, C110, C111, C112, C113, C115, C116, C117, C118, C119 and the `_concurrent` versions of C16, C35, C36, C37, C71, C78, C88, C89, C90, C93, C99, C100, C104, C105 are about those schedules;
`C41_sequential` and `History.concurrent` show that the histories of calls in sequence, which the other theorems about nodes
quantify over, are among them.  *An access is one step: the insertion into the cache (split further in TxCacheConc), the
packaging, the flush, the execution of an epoch, and each database write.*
