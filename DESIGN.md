# Formal model of axon: design

Source: `/repo` (axonweb3/axon, pinned commit). Model and proofs: `/verif/lean` (Lean 4.33.0).

## Trusted base

* Lean's kernel. No axioms are added; theorems may depend on `propext`, `Classical.choice`, `Quot.sound` only.
* The transcription of the Rust code into the Lean definitions. Each definition cites file and lines and names its simplifications.
* Rust integer overflow panics also in release builds (`overflow-checks = true` in the release profile of `/repo/Cargo.toml`), so overflow is modelled as an explicit error value.

## Not modelled

Cryptography (hashes, signatures), the EVM interpreter itself, RocksDB internals, tokio scheduling below the granularity of lock-protected operations, the tentacle P2P stack, serde/JSON below the level of texts. Where these matter they appear as parameters (arbitrary functions), so theorems hold for every behaviour of them unless a hypothesis says otherwise.

Third-party code that is not in `/repo` and is modelled from its documented behaviour: `rlp` and `prost` 0.11.9 (wire format), the `Display` and `FromStr` of trace identifiers of `rustracing_jaeger`, the standard library's text and integer parsing. Parameters with stated laws: snappy (lossless), ABI codecs (round trip where a theorem says so), multiaddr parsing and printing, random choice (any value that the call may return), the stable Bloom filter of the discovery protocol, clocks (arbitrary, non-decreasing only where a theorem says so).

A theorem named `…_partial` proves part of its property or needs a hypothesis that the code does not guarantee; a theorem named `…_false` proves that the property, as stated in English, fails for the modelled code. A property with either is listed as `partial`.

## Plan per property

| id | title | what is modelled and how it is proved |
|----|-------|----------------------------------------|
| C01 | RLP item codec is lossless | `Rlp.Item` trees, `encode`, `decode` (eager version of the lazy `rlp` crate reader). Structural induction on items. |
| C02 | Raw transaction codec round trip | Item layouts of the three kinds plus the type byte; round trip by computation on top of C01. |
| C03 | Legacy replay protection: v determines chain id and recovery id | Nat arithmetic with explicit u64 overflow; omega. |
| C04 | Signing payloads of different transactions differ | Payload function per kind; injectivity from C01 prefix-freeness and disjoint first bytes. |
| C05 | Block and header codec round trip | `toItem`/`ofItem` for proof, extra data, header, block; round trip on top of C01. |
| C06 | Proposal bytes determine the proposal | Same technique. Expected to fail for two fields that the codec does not write: negation with witness plus a `_partial` theorem. |
| C07 | Receipt and execution response codec round trip | Receipt: round trip. Execution response: stream level model of `begin_list(7)` with eight appends; expected negation. |
| C08 | Hex text codec | Char lists; round trip by induction on bytes; rejection lemmas; doubled prefix as negation if confirmed. |
| C09 | Database keys are injective and ordered by block number | Big-endian fixed width integers; lexicographic order by induction. |
| C10 | Storage returns what was stored | Database as finite map, cache as arbitrary sub-map (evictions are a nondeterministic operation); coherence invariant by induction on histories. |
| C11 | Removing a block makes it unreadable | Same model; expected negation (cache and index entries survive). |
| C12 | Transaction WAL: recovery returns the saved transactions | Directory as finite map from (number, hash) to bytes; save without truncation; expected `_partial`. |
| C13 | Consensus WAL survives a crash at any write | Directory of timestamped files; crash = arbitrary prefix of the write. load modelled with its loop; expected negation for short files. |
| C14 | Compressed network messages are received unchanged | Compressor abstract with a losslessness hypothesis; sizes explicit. |
| C15 | Sync RPC responses decode safely | Byte level; decoding total with explicit panic outcome; expected negation for panics. |
| C16 | Packaging respects the limit and only returns live transactions | Pool state machine over atomic operations; invariant by induction. |
| C17 | Packaged transactions of a sender have gapless nonces | Pending queue invariant by induction. |
| C18 | Replacement needs a strictly higher gas price | Fold over offered transactions; induction. |
| C19 | Committed transactions leave the pool for good | Pool invariant plus flush postcondition, preserved by later operations. |
| C20 | Pool size accounting | Pool invariant on the counter; expected negation with system script buckets. |
| C21 | Transactions expire only after the configured number of blocks | Trace theorem over flush sequences. |
| C22 | Packaging order | The comparison function; negation of transitivity/ordering with witnesses; what does hold as `_partial`. |
| C23 | Full transactions are returned in the proposed order | List function; negation with witness if order is lost; `_partial` permutation theorem. |
| C24 | Transaction admission limits | Decision logic against a small specification. |
| C25 | Quorum: two accepted proofs share more than a third of the voting weight | Weights as Nat sums over lists; intersection by inclusion-exclusion. |
| C26 | Node and light client agree on what a valid proof is | Both criteria modelled; expected negation; agreement for equal weights as `_partial`. |
| C27 | Blocks are committed strictly one after another | Two-writer transition system under the commit lock; invariant by induction. |
| C28 | Timestamps of accepted proposals | Decision logic plus induction over chains. |
| C29 | Sync requests terminate and stay within the batch bound | Loop function with arbitrary failure oracle; induction. |
| C30 | Transaction execution: nonce and fee accounting | The virtual machine is an arbitrary function returning exit reason, gas and changes; wrapper code modelled exactly. |
| C31 | Block totals add up | Fold over transactions; induction. |
| C32 | Fee distribution never creates money | Nat division lemmas. |
| C33 | State writes are read back | State as finite maps; apply as fold; induction. |
| C34 | BLOCKHASH window | Nat arithmetic. |
| C35 | Calls to reserved addresses | Decision logic over 20-byte lists. |
| C36 | Native token mint and burn accounting | Account map; case analysis. |
| C37 | Epoch segments partition the chain | List of ends; invariant by induction on appends; codec round trip. |
| C38 | Metadata history is contiguous | Store state machine; invariant by induction. |
| C39 | Hardfork activation lookup | List lookup; induction. |
| C40 | Image cell update and rollback are inverse and atomic | Cell map; inverse law by induction on blocks. |
| C41 | Trie database cache is coherent | DB map plus cache sub-map; random eviction as arbitrary choice. |
| C42 | Revert reason decoding is total | Byte level with explicit panic; expected negation for huge length words. |
| C43 | MODEXP gas follows EIP-2565 | Byte level with explicit overflow; equality with independent EIP formula. |
| C44 | RPC responses reach their caller at most once | Transition system; invariant by induction. |
| C45 | Address book indexes stay consistent | State machine over the indexes; invariant by induction where it holds, negation with witness for the stale peer id. |
| C46 | Ban list | Map of networks with expiry; induction. |
| C47 | Block filters report each new block exactly once | Poll sequence; induction. |
| C48 | Log filters report each matching log exactly once | Poll sequence; induction. |
| C49 | Log matching | Decision logic against positional specification. |
| C50 | Bloom filters have no false negatives | Bit sets with an abstract hash; induction. |
| C51 | Block identifiers survive JSON round trip | Char lists; expected negation. |
| C52 | Fee history range | Nat arithmetic; expected negation near genesis. |
| C53 | Lookup by block hash returns the block with that hash | Hash-to-height index shared by blocks, transactions and receipts; invariant over histories of stores. |
| C54 | Batch reads answer in request order | Batch reads of the RocksDB and the in-memory adapter; list functions, induction on requests. |
| C55 | The transaction pool never panics | Pool state machine with explicit panics; invariant over all histories. |
| C56 | A verified proposal's transactions are all in the pool | `ensure_order_txs` with an arbitrary peer answer; list inclusion. |
| C57 | Received transaction bytes never crash the node | Byte-level decoding with explicit panics; exact panic condition. |
| C58 | Authorisation follows the latest account state | Authorisation cache and state as a transition system in which a commit may fall between read and write of the cache; invariant. |
| C59 | The pool after a restart | WAL replay into an empty pool; fold, induction. |
| C60 | A restarted node can propose the next block | Node state (storage, WAL, metadata) under commit, synchronise, crash and restart; invariant by induction. |
| C61 | A synchronised block is the block that was agreed | `check_block`/commit of fetched blocks against the agreed proposal; executor is a parameter. |
| C62 | An accepted block can be built upon | Same chain model; decision logic plus invariant. |
| C63 | A fetched block is assembled completely and in order | Chunked pull of transactions with arbitrary peers; induction on chunks. |
| C64 | Checking a proposal never panics | Decision logic with explicit panics; exact condition. |
| C65 | A node told to stop at a height does not go past it | Chain model with two writers; invariant by induction. |
| C66 | Touched empty accounts are removed | Account map and the emptiness test; for every state. |
| C67 | Executing a block creates no money | Sum of balances over a block; interpreter is a parameter that conserves; induction on transactions. |
| C68 | Stored consensus configuration reads back | ABI-shaped configuration slots of the metadata contract; round trip and exact panic condition. |
| C69 | Block execution does not abort at an epoch boundary | After-block hook over the store; decision logic. |
| C70 | Propose counter counts proposed blocks | Hook folded over blocks; counting, induction. |
| C71 | Only current validators change the metadata | Decision logic of the metadata contract; ABI decoding is a parameter. |
| C72 | Cells offered to scripts are live | Cell store behind the CKB-VM calls; read-over-write. |
| C73 | CKB header store | Header map; update and rollback folds; ABI codec is a parameter with its round-trip law. |
| C74 | The two CKB contracts share one root and honour the read switch | Both contracts over one root; invariant over histories. |
| C75 | Cell keys and cell records round-trip | RLP layout of cells and keys on top of C01. |
| C76 | Precompiled contracts charge their price | Price functions of the ten contracts with the gas limit; cryptographic cores are parameters. |
| C77 | BLAKE2F computes the compression function of RFC 7693 | The compression function word by word, equal to an independent transcription of RFC 7693 for all inputs. |
| C78 | Precompiled contracts accept the inputs of the protocol | Input padding and decoding; cores are parameters. `C78_values` for inputs laid out as the contracts expect. |
| C79 | CKB-VM calls are paid for | Gas to cycles arithmetic with overflow; the virtual machine is a parameter bounded by its cycle limit. |
| C80 | Table of precompiled contracts | Address table; exact membership. |
| C81 | Receipts of an executed block | Receipt construction folded over the block; induction. |
| C82 | What eth_getTransactionReceipt reports | The two receipt methods as functions of block, receipt and transaction; field by field. |
| C83 | eth_getLogs returns the matching logs of the range | Range and hash queries over stored chains; list of logs equal to a specification. |
| C84 | No JSON-RPC request aborts the node | The filter hub as a transition system with explicit aborts; invariant over all histories. |
| C85 | A method with a block parameter answers about that block | Block selectors resolved by each method, against one specification of what a selector means. |
| C86 | Reward percentiles of eth_feeHistory | Percentile check and reward rows as list functions. |
| C87 | The pending transaction count is the next free nonce | Pending count over the pool of C16; invariant. |
| C88 | What the peer store admits, evicts and offers | Peer store with admission, eviction and the three offers; choices are oracles restricted to what the code may draw. |
| C89 | A message reaches the handler its endpoint was registered for | Endpoint texts parsed by splitting; induction on texts. |
| C90 | Received bytes never abort the node, and handlers get what was sent | Message reaction with explicit aborts; trace headers modelled on bytes; handlers are parameters. |
| C91 | Network messages survive the wire | prost 0.11.9 varints, keys, maps and strings on bytes; round trip, skipping and size by induction on fuel. |
| C92 | Gossip goes to two of every three other sessions and never back | Gossip target selection by index; counting by induction. |
| C93 | Sessions are admitted, counted and dialled within the configured limits | Registry, dialling and bans as a transition system over the peer store; refinement to a set of sessions, by induction on histories. |
| C94 | Messages of the control protocols arrive as they were sent and hold no more than their bytes | The three control messages on bytes over C91; round trip and size bounds. |
| C95 | The ping protocol closes the sessions that do not answer, and only those | Ping handler with timers; history functions as specification, invariant. |
| C96 | Discovery: requests, answers, beliefs and announcements keep to the rules of the protocol | Discovery handler with effects; reachability, parsing, random choice and the stable Bloom filter are parameters. |
| C97 | Identify: no session goes on without the identity of a node of the same chain | Identify handler with effects; invariant over all executions. |
| C98 | A transaction is known everywhere by the same hash | Hash field added to the transaction codec and admission models; composed with the models of proposal checking (C56) and synchronisation (C63). |
| C99 | A reported transaction is the transaction | Conversion to the JSON object modelled field by field; specification is a reader by the Ethereum JSON-RPC meaning, composed with the codec (C02), the receipts (C81) and the hash field (C98). |
| C100 | A reported block is the block | Conversion of blocks and headers to their JSON objects, field by field; composed with the header codec (C05) and the transactions of C99. |
| C101 | A subscriber is told of every new block and of every matching log | The notification task as a state machine over subscriptions and ticks; messages are futures that may or may not be awaited; induction over executions with a growing chain. |
| C102 | A call and an estimate predict the transaction | The two methods with the header they prepare; the machine is a parameter given everything it can read, so that calls and transactions are compared by what they hand to it. |
| C103 | A node serves what a lagging peer needs to catch up | `pullBlock`, `pullProof`, `pullTxs`, `announced` over the engine state, `fetchFrom`/`catchUp` as steps of the requester. Invariant `ServeInv` by induction over all steps: header proofs, stored latest proof and the proof in the status vouch for the block with their number. `C103_catch_up_partial` runs a whole batch against a server. Negations: `C103_synced_false`, `C103_announced_false`, `C103_between_false`. |
| C104 | Consensus messages reach the other node's Overlord unchanged, and only they do | `broadcastToOther`/`transmitToRelayer`, the registration table, the message decoders and `submit`, on top of the message routing of C90; the Overlord codec is a parameter. `C104_delivered_partial` (all kinds), `C104_submitted_partial` (iff, for every received byte string), requests, heights and replies. Negation: `C104_codec_false`. |
| C105 | A light client's verify_proof means that a quorum voted for this block | Both `verify_proof` functions with all hashes and encodings; keccak and the BLS check are parameters (the latter insensitive to the order of keys). `C105_accept_iff` against an independent quorum, `C105_agree_partial`, `C105_binding` by injectivity of the codec (C06). Negations: `C105_unbound_false`, `C105_header_false`, `C105_height_false`. |
| C106 | The methods for light clients serve a verifiable chain and the true hardfork status | All methods of `AxonRpcImpl` that feed light clients over the adapter model of C53 and the verification of C105; hardfork masks as 32-byte hashes with bit-level lemmas. `C106_verify_partial` composes the answers with `toolsVerify`; `C106_hardforks` against an independent statement over `forkAt`. Negations: `C106_own_proof_false`, `C106_proof_by_id_false`, `C106_truncated_false`. |
| C107 | A hardfork is enabled only by agreement, from its start number on, and equally on all nodes | Transition system of one node: command, start, stop, proposing, committing, synchronising, refused blocks; the registered list is that of C39, the chain is the list of extra data. Invariants by induction over all operation lists (`C107_flags_partial`, `C107_agreed`), finality by induction over the chain. Negations: `C107_refused_false`, `C107_stale_false`, `C107_lost_false`. |
| C108 | Overlord accepts exactly the votes signed by the validators of the next block | BLS signatures are a parameter with four laws (`Laws`: correctness, additivity, cancellation, round trip of the bytes), shown satisfiable by a toy scheme; the checks of `OverlordCrypto` are modelled call by call and the table of keys as a transition system over start, stop, commit and synchronisation. `C108_vote_iff` and `C108_aggregate` by induction over lists, `C108_current_partial` by induction over events. Negations: `C108_rogue_false`, `C108_restart_false`, `C108_sync_false`, `C108_badkey_false`. |
| C109 | State proofs verify against the header and report what the virtual machine reads | `get_proof` and `get_storage_at` over the state model of C33; making and checking Merkle proofs is a parameter with soundness and completeness (`Prover.Good`, inhabited by a toy). What a client checks is a separate specification (`AnswerOk`). Case analysis on the account, induction over positions and change lists. Negations: `C109_missing_false`, `C109_genesis_false`. |
| C110 | The Merkle proof contract accepts exactly the true statements about CKB blocks | The queue algorithm of `MerkleProof` over an arbitrary hash; a tree is specified by its nodes (`IsTree`). Soundness by induction over the rounds from the root downwards, with collisions named per hashed pair; completeness by running checker and builder in lockstep with the invariant that the queue is one level (`Level`). Negations: `C110_inner_false`, `C110_child_false`, `C110_output_false`. |
| C111 | eth_syncing describes the synchronisation batch that is running | `SYNC_STATUS` beside the engine/synchroniser system of C27: `note` gives what each step does to the global (start, add one, finish, restart). Every step is shown to be one of five moves of the pair (batch, global); exactness and idleness follow by induction over runs, the newest stored block from the invariant of C27. Negations: `C111_stale_false` (a failing `update_status` skips `finish`), `C111_highest_false` (the highest number is the bound of the batch, not the announced height). |
| C112 | Every RPC method is served under its name, alike over HTTP and WebSocket | Method tables as association lists with jsonrpsee's `merge` (from its published source), the complete tables of the code, and the limits set by the server builders. Dispatch by induction over the merges; the published names are a separate list. Negations: `C112_submit_false` (a blank in the registered name), `C112_ws_limit_false` (the WebSocket server never sets the limit of responses). |
| C113 | No log record is lost when log files are rolled | `Verif/Logger/Roller.lean`: `str::replace`/`contains`, `build`, archive names, `roll_file` with every outcome of the file system, and the appender of log4rs (from its published source). Injectivity of archive names by parsing the pattern into pieces; records kept by induction over appends. Partial: see the findings. Not modelled: the JSON encoder, concurrent appends (log4rs holds a lock), external deletion of files. |
| C114 | The logger's switches and levels decide where records go | `Verif/Logger/Routing.lean`: the configuration made by `init`, its check by log4rs, and the choice of the logger of a record (longest prefix, from the published source of log4rs). Proofs by induction over the loggers. Partial: see the findings. Not modelled: encoders, names with single colons, failing appenders. |
| C115 | Clients read from JSON what the node wrote | `Verif/Tools/Json.lean`: JSON trees; what the derived serialisers of the node write and what the derived and hand-written readers of axon-tools accept, with slicing panics; impl-serde and faster_hex from their published sources. Numbers by induction over pairs of digits, structures by composition. Partial: see the findings. Not modelled: the JSON parser, white space within hex numbers, the order in which fields are read. |
| C116 | Roots commit to transactions, receipts and state, and proofs tell the truth | Trie/Trie.lean (nodes, get, insert, remove), Trie/Canon.lean (canonical shape, uniqueness), Trie/Root.lean (encoding, roots, proofs), Trie/Lists.lean (TrieMerkle, MPTTrie). Induction over nodes and writes; commitment from soundness and completeness of proofs. The crate is modelled from its published source; decoding of nodes off the path of the key is left out; whether a missing node is an error is a parameter. |
| C117 | The receipts root says what every transaction of the block did | Trie/Receipts.lean (encode_receipt and the root the executor makes of the leaves). Round trip through an independent EIP-2718 reader; commitment from C116_receipts; reports from the model of C50. Outcomes of execution are reduced to success or failure; the cumulative gas is false of the code. |
| C118 | Every transaction let into the pool is relayed exactly once | Mempool/Broadcast.lean (insert_tx, broadcast_tx, the task IntervalTxsBroadcaster, the counters of NewTxsHandler). Invariant over runs: accepted = gossiped ++ cached ++ queued, by origin. Verdicts of checks, pool and gossip are parameters, the drain order is any permutation; the end of the task when all senders are gone is not modelled. |
| C119 | Addresses as text are EIP-55, one text each, and keys have one address | Codec/Address.lean (checksum, Address, deserialize_address with parse_checksummed of ethers-core). Against an independent EIP-55; ASCII texts; hash and decompression of keys are parameters. |
| C120 | A new data directory holds exactly the specified chain | `Run/Genesis.lean`: `init` as a computation that lists its writes (state trie, storage tries, metadata tries, block, latest pointer) over the executor model of `Executor/` and the metadata store of `Metadata/`; `start` reads the directory as `run` does. Proved by composing the refinement lemmas for `apply` and `append_metadata`; interruption is a prefix of the writes. |
| C121 | The database is a set of independent typed tables, whichever adapter holds it | Storage/Adapter(+Lemmas,Props): both adapters byte by byte with all twelve schemas and their key and value codecs; simulation of each adapter by raw contents per category and key, injectivity of key encodings across key types, decode after encode for every schema, then simulation of raw contents by typed tables; iterators sorted by merge sort and bridged to C54. |
| C122 | Concurrent calls of the pool act as if made one after another | Mempool/Concurrent(+Lemmas,Sim,Props): calls as threads over the atomic steps of the counter, the lock-free queue, the maps and the two locks, any number and any interleaving. Invariants by induction over reachable states (lock counts, reservations against the counter, entries made but not pushed); linearisation by a ghost log of effects with the remaining elements of a drain replayed ahead (a new wrapper commutes with the drain), refinement to the sequential pool of `Pool.lean`. |
| C123 | Call data of the system contracts mean exactly the call they encode | `Codec/Abi.lean` (types, tokens, encoder, decoder with explicit panics), `Executor/SystemAbi.lean` (structs and calls of the three contracts, dispatch, the contracts and precompiles on bytes). One induction on tokens: what the encoder wrote at an offset is what the decoder finds there. The header codec discharges the assumption of C73. False: bound on all lists together (shared tails), refusal of values out of range. |
| C124 | What a node knows of its peers survives a restart | The JSON writer and reader (`Util/JsonText.lean`), the texts of multiaddresses and networks, the records, the two files with their `tmp` copies, every call of a dump with its failures and every byte of a write as a step at which the process may be killed (`Network/PeerFiles.lean`). Proved by induction over the texts (reading inverts writing; no proper prefix is readable) and over the history of dumps (the files in place are always whole). The names with a slash, the torn copy and the missing dump at the stop are counterexamples. |
| C125 | Only the holder of an account's key can send from it | `Mempool/Forge.lean` fills in the parameters of `Mempool/Admission.lean`: the RLP of `CellDepWithPubKey`, addresses as the last 20 bytes of a digest, the message signed, the program looked up in the cell store of C40 and run with key and witness, its result dropped as in the code. An ideal signature (what recovers to the key was signed by its holder) is the only assumption of the positive theorems; the negations hold for every curve. With C02 (round trip) the forged transaction is shown to survive encoding, decoding and all checks. |
| C126 | A node works at each height with the validators, timings and limits of the chain | `Verif/Consensus/Params.lean` models what start, commit and synchronisation read from the metadata (epochs by the segment of C37, one configuration) and hand to Overlord, status, pool and tags; proofs by an invariant over all histories, with the chain as a function from blocks to registered metadata that only adds epochs. Negations for limits, late registration, alarm and tags with concrete chains. |
| C127 | The metadata trie gives back what was written | `Metadata/Records.lean` is the metadata contract once more, now on the bytes: derived RLP of every record, the four fixed keys and the 8-byte epoch keys, the trie of C58. `Metadata/TrieStore.lean` shows by induction over histories that it refines the record-level store of C38, C39 and C68 to C71 (same success, failure or panic at every step) and keeps every field the record level leaves out; the root theorem is C58 for canonical tries. |
| C128 | Every committed state can be opened again by its root and reads as it was | `Trie/Nodes.lean` adds the node database to the trie of C58: committing writes the nodes that are not inlined, `openAt` reads a trie back from its root through the RLP of its nodes. `Executor/WorldDb.lean` is the executor backend on those bytes. By induction over histories every account in the trie represents its view in the specification, every storage root named by an account of the current or any committed state has its nodes in the database, and databases only grow. |
| C129 | The metadata of every committed block can be read from its state root | `Metadata/ChainDb.lean` puts the byte-level metadata store of C127 on top of the node database of C128: the root in the slot of the contract, the thread-local root and flags, opening by root for every call, the changes of the state after it, restarts. An invariant over histories ties root, slot, database and a store held in memory together for the current and every committed state; the histories of the stores in memory are histories in the sense of C127, whose theorems then apply at every root. |
| C130 | The CKB headers and cells of every committed block can be read from its state root | `Cells/TrieDb.lean` runs the calls of both contracts on trie nodes, related to the association lists of C40 and C73 by a simulation; `Cells/ChainDb.lean` adds the database, the slots of both accounts, the thread-local root, the state of C128 and restarts. An invariant over histories ties them to the calls that took effect, for the current and every committed state; what is read is stated by a fold over those calls. |
| C131 | Proofs of the accounts and slots of every past block check out against its state root, and nothing else does | `Api/ProofDb.lean` has `get_proof` and `get_storage_at` on the node database of C128, with the prover and verifier of the trie of C58; the client is a separate specification (verify the account against the state root, decode, verify each slot against its storage hash). By the invariant of C128 every committed root opens to a canonical trie that represents its state, so completeness and soundness of the verifier give both directions. |
| C132 | The node reports the CKB headers and cells that were submitted, with their hashes | `Cells/Provider.lean` has `DataProvider` and the light client RPC on the database of C130, with the packed header, `HeaderView`, `CellMeta` and the JSON conversions. The specification names the slices of the 208-byte packed header and compares fields; headers and cells come from C130's invariant. Negations with a concrete history. |
| C133 | A signed CKB transaction unlocks the cells of the key and is otherwise the one prepared | `Cells/Sign.lean` has `sign` with the molecule accessors it uses, on bytes, with their aborts. The default lock is specified apart (`Unlocks`, with the hashed string described by its lengths and parts). Induction over the actions; the last action for an index decides. |
| C134 | An error answer of the RPC tells what went wrong | `Api/Errors.lean` has `RpcError` with code, message and error object, `vm_err` with the printing of exit reasons, and the ends of the two calls. The specification is injectivity of the answer, and reading the data with C08's decoder. Case analysis with separate lemmas on names, digits and separators; the stop is characterised with C42. |
| C135 | The key pairs the command line generates are what nodes run with | `Run/Keypair.lean` has the two commands on a file system with failing and partial writes, the loading of keys by the configuration, the identity the node makes of them and the validators of the chain spec. The specification gives the paths as texts and derives the values from the secrets. Induction over the loop: the paths of different pairs differ. |
| C136 | The metadata cell data the tool writes is read back as the validators given | The builders and the strict readers of the cell (`Tools/MetadataCell`) are modelled byte by byte, with the hex text and the forms of numbers in files; the reader of tables is shown to invert the builder for any fields, and the entries are located by their offsets. The model reproduces `data.example.hex`. The schema of axon-types is taken from that file. |
| C137 | A validator gets the transactions of a proposal from the proposer | `Mempool/Pull.lean` joins the request and its RLP codec, the handler on the peer (pool, then the block of the number asked for) and `ensure_order_txs` on the asking node. Two pools with arbitrary histories; the content of a pool after insertions is followed by induction over them, and an index invariant shows that packed system-script transactions are found by hash. |

## Findings

Where the English property is false of the code, the negation is proved with a concrete witness and named `…_false`; what does hold is proved beside it. The notes are those of `MANIFEST.json`.

| id | status | note | negations |
|----|--------|------|-----------|
| C01 | proved | Round trip with arbitrary suffix, prefix-freeness, injectivity, canonical decoding. |  |
| C02 | proved | Round trip for all submittable transactions, converse (canonicity), first-byte dispatch, exact panic conditions. |  |
| C03 | proved | v is a bijection between (recovery id, chain id) pairs and accepted wire values. |  |
| C04 | proved | Injective for every transaction that can come from the wire; the value-level collision None / Some 0 of typed transactions is stated as its own theorem. |  |
| C05 | proved | Round trips and injectivity for proofs, headers and blocks, and injectivity of the hash preimage. |  |
| C06 | partial | False of the code: the encoding drops base fee and chain id. Proved: exact set of proposals that survive (C06_roundtrip_iff, C06_same_bytes_iff) and a counterexample (C06_false). | `C06_false` |
| C07 | partial | Receipt codec proved, with the bincode codec of exit reasons as it is (C07_exit, C07_receipt_exit_partial; variant order from evm-core 0.37, which is not in /repo); the execution response never decodes (negation proved for every input). |  |
| C08 | partial | Decoding is exact for decode/encode and keys; text parsing additionally accepts a doubled 0x prefix, proved as negation C08_one_prefix_false. | `C08_one_prefix_false` |
| C09 | proved | Key codec, injectivity, disjoint shapes, order, contiguity and prefix lookups. |  |
| C10 | partial | Every history: reads never return values that were not saved under the key; after a restart reads return the last saved value. Most-recent reads proved for write-once histories; false otherwise (C10_false: stale cache). | `C10_false` |
| C11 | partial | False of the code (C11_false: header, hash index, latest block and cached block survive). Proved: after removal and restart the block is gone by height; other heights are untouched. | `C11_false` |
| C12 | partial | Proved for every history of complete and torn saves and removals, when the abbreviated file names of one block do not collide; false otherwise (C12_name_collision_false: H256 display abbreviates). | `C12_name_collision_false` |
| C13 | partial | Whenever loading ends it recovers the newest complete payload; it ends unless a torn file has fewer than 32 bytes (C13_false: endless loop). Needs a forward clock (C13_clock_back_false). | `C13_false`, `C13_clock_back_false` |
| C14 | partial | Unchanged up to 8 MiB and never altered; larger messages are compressed but rejected by the receiver (C14_too_large). Messages of 1024 bytes and more are sent compressed unless the codec fails (C14_large_compressed). |  |
| C15 | partial | Round trips proved; decoding untrusted bytes can abort (C15_never_aborts_false), exact set of aborting inputs in C15_panic_iff. | `C15_never_aborts_false` |
| C16 | partial | Every history: ordinary part within the limit, no hash twice, all stored and inserted, no two with the same sender and nonce. The limit does not cover system-script transactions (C16_limit_false). | `C16_limit_false` |
| C17 | partial | Histories without flush: packaged nonces of a sender form a maximal interval from the account nonce. Missing: histories with flush, where the claim is false (C17_expiry_false, C17_hole_stays_false, C17_not_woken_false). | `C17_expiry_false`, `C17_hole_stays_false`, `C17_not_woken_false` |
| C18 | partial | Every history of inserts, packages and flushes: among the transactions in contention for a place (offered and accepted; after a flush only those that it left alive) exactly the first with the highest price is alive. Missing because false: when a sender's queue is full a dearer transaction is dropped (C18_full_queue_false); and nothing is said of places below the account nonce known to the pool, where offers are dropped as stale. | `C18_full_queue_false` |
| C19 | proved | Every history: committed hashes and outdated transactions of the same sender leave the pool; a committed hash is packaged again only after a new insertion. |  |
| C20 | partial | Exact when no two system-script transactions share call data; upper bound and absence of underflow in all histories. False in general: C20_leak_false. | `C20_leak_false` |
| C21 | partial | Never removed early, gone by n+gap, gap 0 never expires. False for re-inserted transactions: C21_reinserted_false. | `C21_reinserted_false` |
| C22 | partial | Sender order proved whenever the sort returns a sorted list. Price order is ascending, not descending (C22_price_order_false); the comparison is not an order and some reachable pools cannot be sorted (C22_not_sortable_false). | `C22_price_order_false`, `C22_not_sortable_false` |
| C23 | partial | get_full_txs returns exactly the requested transactions when it succeeds (content); order is the requested order when all of them come from one source; with a height given, storage answers for that block. The order claim in general is false (C23_order_false: pool hits are listed before storage hits), and a repeated hash read by height fails (C23_repeated_false). | `C23_order_false`, `C23_repeated_false` |
| C24 | proved | checkTransaction accepts exactly the admissible transactions with a verifying signature (secp256k1/CKB-VM verification abstract); each error names a violated limit. The RPC entry uses > instead of >= for the maximal price, so the pool is the stricter one (C24_rpc_boundary). |  |
| C25 | partial | Exact acceptance condition, only-listed-signers, and quorum intersection are proved for validator lists with distinct keys (hypothesis Distinct). The node never checks distinctness: C25_repeated_validator_false gives a list repeating a key on which a minority is accepted. BLS aggregate verification is a parameter. | `C25_repeated_validator_false` |
| C26 | partial | Equal vote weights: the light client tool and the node accept the same bitmaps (C26_equal_weights_partial, C26_same_signers). With unequal weights they disagree in both directions (C26_weights_false), so the full claim is false of the code. | `C26_weights_false` |
| C27 | partial | Proved for every interleaving, storage failure and crash under Disciplined; two of its clauses are not enforced by the code and the claim is false without them: the proposal's number is never compared with the height (C27_number_unchecked_false: a stale proposal rolls the node back) and a failure after save_block leaves the status behind (C27_retry_false). Mutual exclusion and refusal of gaps hold unconditionally. | `C27_number_unchecked_false`, `C27_retry_false` |
| C28 | partial | Checked proposals: exact bounds. Chains: monotone for a steady clock without synchronisation; synchronised blocks are not checked (C28_sync_false) and own proposals are exempt (C28_own_false). | `C28_own_false`, `C28_sync_false` |
| C29 | proved | Batch function for every failure pattern, catching up by repetition, and the bound in the interleaved system. |  |
| C30 | partial | Nonce, gas limit, fee and frame proved for every VM outcome; exact charge proved when affordable and without refund. False in general: C30_refund_false, C30_overdraft_false, C30_system_revert_false, C30_native_nonce_false. System contract calls: an accepted one uses no gas and costs nothing, a refused one reports all gas but one and a fee of one (C30_system_partial); the machine only runs with the sender as origin and the transaction's gas price (C30_context_partial). C30_logs_taken: a transaction leaves no logs to the next one. | `C30_refund_false`, `C30_overdraft_false`, `C30_system_revert_false`, `C30_native_nonce_false` |
| C31 | proved |  |  |
| C32 | proved |  |  |
| C33 | proved | Refinement: for every well-formed state and every change list the reads after apply equal the abstract specification (all accounts, all fields, all slots). Hash collision-freeness is an explicit hypothesis with a concrete instance. |  |
| C34 | proved | Window arithmetic for all 256-bit numbers, block numbers below 2^64. |  |
| C35 | partial | Routing and admission characterised for all actions; execution itself does not refuse reserved unregistered addresses (C35_execution_false). The root an accepted call leaves, and the root the end-of-block hook leaves, stand in the slots the next block reads (C35_root_kept, C35_hook_kept). | `C35_execution_false` |
| C36 | proved |  |  |
| C37 | proved | Every sequence of offered ends; block numbers unbounded; codec for u64 ends. |  |
| C38 | partial | Contiguity, lookup and exact acceptance for every history. Negations: start of epoch 0 unchecked; appending after an epoch ending at u64::MAX aborts the node. | `C38_first_start_false`, `C38_overflow_false` |
| C39 | proved | Flags as 32-byte strings with bitwise or. C39_retroactive records that entries may start before the current block. |  |
| C40 | partial | update and rollback characterised for every store and list of blocks, failing calls change nothing, rollback in any order restores the stored bytes for fresh distinct outputs and unconsumed inputs; without these conditions false (C40_spent_false, C40_overwrite_false). Tries are modelled by their contents; database failures not modelled. | `C40_spent_false`, `C40_overwrite_false` |
| C41 | partial | A read equals the newest accepted write for every history, enumeration order and eviction choice; the cache stays within twice the configured size. False of the code and proved so: after a refused batch the cache serves values RocksDB does not hold (C41_refused_false); contains caches without a flush, without bound (C41_contains_false); cache size 0 aborts on the first read (C41_zero_false). | `C41_refused_false`, `C41_contains_false`, `C41_zero_false` |
| C42 | partial | Exact characterisation of the inputs that yield a message (C42_total_partial) and the exact text for ASCII reasons (C42_text_partial). The full statement is false: a length word of 2^64-68 or more panics (C42_overflow_false), and no reason with a non-ASCII character is printed as written (C42_unicode_false). | `C42_overflow_false`, `C42_unicode_false` |
| C43 | partial | For every input and every gas limit below 2^60 the whole behaviour of a call is stated: EIP-2565 price, EIP-198 value in exactly modulus-length bytes, exhaustion iff the limit is below the price, or an abort when the iteration count overflows. The abort is a defect of the code: C43_overflow_false (any limit), and the price saturates too early (C43_saturated_false). | `C43_overflow_false`, `C43_saturated_false` |
| C44 | partial | Proved for up to 2^64 calls. False beyond: call ids wrap after 2^64 calls and may collide (C44_wrap_false). The reactor ignores an unknown response with a warning; take itself reports UnknownRpc. | `C44_wrap_false` |
| C45 | partial | Refinement of the three indexes to a plain map, random fetch, removal, counting and dump/load proved for all histories. False: a socket address added with a second peer id and a later connection time leaves a dangling number, and looking up the first peer id aborts (C45_stale_false); an address without peer id deletes the known entry (C45_anonymous_false). | `C45_stale_false`, `C45_anonymous_false` |
| C46 | partial | Proved for all histories with non-decreasing times. False: a shorter ban of the same network replaces a longer one (C46_shorten_false); an IPv4 ban does not cover the mapped IPv6 address (C46_mapped_false); the expiry time overflows u64 (C46_overflow). | `C46_shorten_false`, `C46_mapped_false` |
| C47 | proved | Filter hub as a command loop over a growing chain: for every history the answers of the polls of a block filter concatenate to the hashes of the blocks after its creation up to its last poll, each once; when a filter goes away is stated exactly (C47_kept). |  |
| C48 | partial | Same for log filters whose start is not older than the latest block; which filters are created is stated exactly (C48_created_partial). False: a start in the past is ignored (C48_past_false), a poll over too many new blocks answers an error and drops the filter (C48_range_false), eth_getFilterLogs consumes like a poll (C48_getfilterlogs_false). | `C48_past_false`, `C48_range_false`, `C48_getfilterlogs_false` |
| C49 | partial | A filter accepts exactly the logs of the specification when it has at most four topic positions; C49_long_false: further positions are ignored. | `C49_long_false` |
| C50 | partial | Blooms of logs and receipts hold exactly the bits of their addresses and topics; the header bloom is the digest of something else (C50_header_false). | `C50_header_false` |
| C51 | partial | Exact characterisation of the accepted JSON values (C51_accepts_partial), tags survive, the usual notation of numbers and hashes is read correctly. False for every number and every hash: they are written without the prefix the reader requires. | `C51_number_false`, `C51_hash_false` |
| C52 | partial | Range, oldest block and ratios right for 1 <= k <= n, everything right for a single block and for earliest. False: genesis is left out when the range reaches it; base fees come in pairs, so too many for two blocks or more. f64 modelled by exact rationals. | `C52_genesis_false`, `C52_base_fees_false` |
| C53 | partial | False of the code (C53_false: block and transaction hashes share one index). Proved: any returned block has the hash unless the hash is that of a transaction or receipt saved at its height. | `C53_false` |
| C54 | partial | Exact answers for RocksDB ordering; false with duplicate hashes and with the memory adapter (counterexamples proved). | `C54_duplicates_false`, `C54_memory_false` |
| C55 | partial | Every history with nonces below 2^64-1. False for nonce 2^64-1: C55_commit_max_nonce_false, C55_restart_max_nonce_false. | `C55_commit_max_nonce_false`, `C55_restart_max_nonce_false` |
| C56 | partial | Ensured provided the peer answers with the transactions that were asked for; the code compares only the number of returned transactions, so a peer that substitutes others makes ensure_order_txs return Ok with ordered hashes still unknown (C56_substituted_false). Duplicate orders are always refused (C56_dup_refused). | `C56_substituted_false` |
| C57 | partial | False: the empty byte string, and any transaction with a non-Ethereum signature and empty r, panic (C57_empty_false, C57_empty_r_false). C57_panic_iff_partial shows these are the only cases; C57_checks_total: no panic in the later checks. | `C57_empty_r_false`, `C57_empty_false` |
| C58 | partial | Decision on the state proved for account nonces below 2^64; cached answers equal fresh ones as long as no commit overlaps an authorisation. With overlap a stale entry survives the clearing (C58_overlap_false); an account nonce of 2^64 or more panics (C58_wide_nonce_false). | `C58_overlap_false`, `C58_wide_nonce_false` |
| C59 | partial | Content proved when the log fits the pool. Packaging after restart differs: wrong order loses a transaction (C59_descending_false), holes are ignored (C59_hole_false), system scripts come back as ordinary transactions (C59_system_false). | `C59_descending_false`, `C59_hole_false`, `C59_system_false` |
| C60 | partial | Holds for nodes that only commit through consensus; false after synchronisation (C60_sync_false) and for a crash between two writes (C60_crash_false). | `C60_sync_false`, `C60_crash_false` |
| C61 | partial | Proposal fields, transactions, state and receipt roots agree; gas_used and log_bloom are not verified, so the claim is false (C61_results_false). C61_agrees_partial also fixes every field the block built from the result takes over. | `C61_results_false` |
| C62 | partial | Holds if the proposal's previous state root is right; check_block does not compare it, so the claim is false (C62_state_root_false). | `C62_state_root_false` |
| C63 | partial | Proved for pairwise distinct hashes; with a repeated hash the list is shorter (C63_repeated_false); chunk size zero panics (C63_chunk_zero). | `C63_repeated_false` |
| C64 | partial | Exact characterisation of panicking inputs (C64_panics_iff); the claim itself is false (C64_zero_false). | `C64_zero_false` |
| C65 | partial | Holds without synchronisation; false with it (C65_sync_false). | `C65_sync_false` |
| C66 | partial | False of the code: the emptiness test compares the code hash with zero instead of the hash of empty code, so delete_empty never removes an account (C66_kept_false, for every state). Only explicit deletion works (C66_delete_partial). | `C66_kept_false` |
| C67 | partial | Holds when every ordinary transaction is affordable in its turn, system calls are accepted and no native token call occurs; false without (C67_overdraft_false, C67_revert_false). | `C67_overdraft_false`, `C67_revert_false` |
| C68 | partial | Round trip for all configurations and flags; exact panic condition. Negation: the configuration is shared by all epochs, so appending a future epoch changes the one reported for the current block. | `C68_epoch_config_false` |
| C69 | partial | Exact condition: the hook aborts the node for a block behind the last registered end. | `C69_halt_false` |
| C70 | partial | The counter equals the number of blocks credited to the last transaction's sender (proposer for empty blocks). Negation with a one-transaction block. | `C70_proposer_false` |
| C71 | proved | Call data decoding abstract; trie failures not modelled. |  |
| C72 | partial | contents and totality proved; liveness false: consumed cells are offered as live (C72_consumed_false) | `C72_consumed_false` |
| C73 | partial | lookup, rollback, inverse for fresh hashes and totality proved; restoring an overwritten header false (C73_overwrite_false); ABI codec of headers is a parameter with its round-trip law | `C73_overwrite_false` |
| C74 | partial | equality of roots proved for all histories; the read switch is never consulted (C74_switch_false) | `C74_switch_false` |
| C75 | partial | round trips proved for outputs with at most one type script; further type scripts are dropped (C75_types_false) | `C75_types_false` |
| C76 | partial | Price and limit for every contract, input and limit; the empty pairing ignores the limit (C76_pairing_false). The price of MODEXP is C43. | `C76_pairing_false` |
| C77 | proved |  |  |
| C78 | partial | Recovery padding and recovery word proved; false of the code and proved so: unrecoverable signatures fail instead of returning nothing, short curve inputs fail instead of being padded, leftover bytes of pairing inputs are ignored. What recovery, addition and multiplication read and answer: C78_values. | `C78_recover_false`, `C78_short_false`, `C78_leftover_false`, `C78_junk_false` |
| C79 | partial | Cycles and charge bounded by the limit for limits from 500 to 2^64/6000; below, a program runs unpaid (C79_minimum_false), above, the node aborts (C79_overflow_false). | `C79_minimum_false`, `C79_overflow_false` |
| C80 | partial | Exact table; the existing cell-reading contract at 0x103 is not in it (C80_getcell_false). | `C80_getcell_false` |
| C81 | proved | Every receipt of a block described field by field, for every block below the counters' limits. |  |
| C82 | partial | All fields but three are those of the transaction, and both methods agree; log index, cumulative gas and price are wrong (C82_log_index_false, C82_cumulative_false, C82_price_false). | `C82_log_index_false`, `C82_cumulative_false`, `C82_price_false` |
| C83 | partial | Exactly the matching logs within the range for well-formed chains; C83_truncated_false. | `C83_truncated_false` |
| C84 | partial | Filter commands with known or short identifiers and waiting callers never stop the node, in every reachable hub; positions below 2^64 are looked up. False: polling an unknown filter with an id over 64 bits panics (C84_unknown_filter_false; reached by an idle client, C84_idle_false), a caller that went away panics the hub (C84_gone_caller_false), positions over 64 bits panic (C84_position_false). Other methods are modelled only where they have their own property. | `C84_unknown_filter_false`, `C84_gone_caller_false`, `C84_position_false`, `C84_idle_false` |
| C85 | partial | For selectors that stand for a block the answers are about that block; numbers beyond the chain are errors for calls, storage and code. False: unknown hashes read the latest state, unknown numbers give zero balance and nonce, hashes are ignored by methods by number, estimateGas ignores earliest and hashes. | `C85_unknown_hash_false`, `C85_unknown_number_false`, `C85_hash_ignored_false`, `C85_estimate_false` |
| C86 | partial | Accepted lists characterised exactly (all but the last percentile are checked); one row per block, one entry per percentile, zero rows for empty blocks. False: last percentile unchecked, rewards are gas used less base fee, not sorted. | `C86_last_false`, `C86_gas_false`, `C86_sorted_false` |
| C87 | partial | For every reachable pool without queued insertions: right if the account's waiting nonces have no gap. False with any gap and for transactions just inserted. | `C87_gap_false`, `C87_queued_false` |
| C88 | partial | Admission, limit for learnt addresses, refusal, eviction and the three offers proved for every reachable store. False: outbound addresses ignore the limit (C88_outbound_false); a full book of one network group evicts nothing and refuses everything (C88_one_group_false); other ports of a banned host stay and are offered (C88_ban_port_false); report never changes a score nor bans (C88_report_false). | `C88_outbound_false`, `C88_one_group_false`, `C88_ban_port_false`, `C88_report_false` |
| C89 | partial | Parsing, roots, schemes, extension by a call number and registration are proved for all texts, for every endpoint of the node and every number. Negations: the scheme is only a prefix test (C89_scheme_false), and the call number has several spellings (C89_id_false). C89_rpc: endpoints of calls and responses, and no others, are read together with their number. | `C89_scheme_false`, `C89_id_false` |
| C90 | partial | False as stated: C90_abort gives the exact condition, C90_stranger_false shows that any peer can stop the node with a short span header or a malformed trace header on any registered endpoint. Proved: delivery of gossip, calls and responses, and no abort without trace headers (C90_no_abort_partial). Handlers themselves are not part of this model. | `C90_stranger_false` |
| C91 | proved | Round trip, unknown fields, size and validity of decoded messages are proved. prost's behaviour is modelled from its documentation; map iteration order is the order of the list. |  |
| C92 | partial | Proved in full except that somebody is always sent the message: true from two other sessions on (C92_somebody_partial), false for one (C92_nobody_false). | `C92_nobody_false` |
| C93 | partial | Registry refinement, exact admission rule, dial exclusion, protocol errors, dialling rounds and multicast targets proved for all histories. Limits and bans are false of the code: strangers that are not banned pass every limit (C93_limit_false), banned hosts are served below the limits (C93_banned_false), the tag Ban never disconnects and adds a point in time to the clock (C93_tag_ban_false, C93_until_false), inbound sessions suppress outbound dialling (C93_eclipse_false, C93_overdial_false), multicast can abort (C93_multicast_false). tentacle's own connection limit and session handling are not modelled. C93_handler: the host of a session whose handler panics is banned for five minutes before the node quits. | `C93_limit_false`, `C93_banned_false`, `C93_tag_ban_false`, `C93_until_false`, `C93_eclipse_false`, `C93_overdial_false`, `C93_multicast_false` |
| C94 | partial | Round trips and size bounds are proved for all messages and bytes; that distinct byte strings are distinct messages is false (C94_unique_false: unknown fields are skipped). prost is modelled from its documented behaviour. | `C94_unique_false` |
| C95 | partial | Exactly when a session is pinged, answered, kept and closed is proved over all histories. False: closing when the ping is as old as the timeout (C95_delay_false: only at the next check), holding junk against the sender (C95_junk_false), limiting pings received (C95_flood_false). | `C95_delay_false`, `C95_junk_false`, `C95_flood_false` |
| C96 | partial | Proved for all executions of the handler with the store as effects; C96_flood_false: announcements are not limited in number; C96_outbound_false: an inbound peer enters any port of its host, reachable or not, as an address connected to; C96_day_false: a peer that introduces itself after a timer is announced only after a day. The stable Bloom filter is a parameter. C96_listening: which first requests make the address of a session one that is announced. | `C96_flood_false`, `C96_outbound_false`, `C96_day_false` |
| C97 | partial | Proved for all executions of the handler, with store and registry as effects. C97_opened_false: a peer that names too many addresses has protocols opened before it is refused; C97_foreign_false: a dialled peer of another chain stays in the store as connected to, and no ban follows; C97_observed_false: observed addresses are never dialled. | `C97_opened_false`, `C97_foreign_false`, `C97_observed_false` |
| C98 | partial | False of the code for transactions received from peers: the hash field is the digest of all received bytes, trailing ones included, and only eth_sendRawTransaction compares it with the digest of the encoding. C98_many_hashes_false / C98_one_hash_false: one accepted transaction can be delivered under any number of further hashes; C98_unsyncable_false / C98_unpullable_false: a block or proposal naming such a hash cannot be completed by nodes that did not receive these very bytes. Proved: submissions by clients (C98_rpc, C98_rpc_one_hash, C98_rpc_junk, C98_relay_rpc), and that every transaction agrees everywhere after one hop (C98_relay, C98_relay_iff, C98_relayed_one_hash). Statements name the collision of digests they would need; the rlp crate's lazy reader is modelled as a strict one (Verif/Codec/Rlp.lean). | `C98_many_hashes_false`, `C98_one_hash_false`, `C98_unsyncable_false`, `C98_unpullable_false` |
| C99 | partial | False of typed transactions: v is reported as if they were legacy ones (C99_v_false: a client cannot read any of them), maxFeePerGas is always 1337 (C99_fee_false), a chain id of 64 bits makes the answer panic (C99_panic_false), and a block naming an unreadable transaction panics (C99_missing_false); a transaction received with trailing bytes is reported under another hash (C99_hash_false). Proved: legacy transactions are read back exactly (C99_legacy), all other fields of typed ones (C99_fields_partial, C99_typed_partial), exactly when an answer exists (C99_total_iff), and the place in the chain (C99_place, C99_pending, C99_unknown). | `C99_v_false`, `C99_fee_false`, `C99_panic_false`, `C99_missing_false`, `C99_hash_false` |
| C100 | partial | False of size (that of the header only, C100_size_false), total difficulty (C100_difficulty_false) and newHeads (no hash and several headers with the same object, C100_head_false). Proved: objects identify blocks up to a collision (C100_identifies), all other fields (C100_fields_partial), agreement of both requests (C100_agree), linkage (C100_linked), full transactions (C100_rich, C100_rich_hashes) and agreement of newHeads with the block (C100_head_agrees). | `C100_head_false`, `C100_size_false`, `C100_difficulty_false` |
| C101 | partial | False of the code: SubscriptionSink::send of jsonrpsee 0.20.3 is async and none of its futures is awaited, so nothing is ever delivered (C101_never_false; that send is async is taken from the crate's interface, the crate not being in the repository); logs are made with the number of preceding logs as the position of the transaction (C101_position_false); changes of the synchronisation status wait for a block (C101_sync_false). Proved of the messages made: headers (C101_heads_partial, C101_from_start_partial) and logs but for the position (C101_logs_partial), exactly once, in order, without panics, over all executions; identifiers are unique (C101_ids). | `C101_never_false`, `C101_position_false`, `C101_sync_false` |
| C102 | partial | False of the code in four ways: estimates of runs above 24 million gas exceed the limit of 30 million and are refused when used (C102_cap_false); a quarter more gas does not satisfy contracts that insist on an amount being left (C102_guard_false); the access list of a request is dropped, so its cost is not estimated (C102_access_false, C102_access_short_false); base fee, block gas limit and chain id seen by the run are those the request names (C102_env_false). Proved: eth_call answers exactly the served requests with the run asked for (C102_call_partial); the estimate is at least the gas before refunds and at most a quarter above (C102_estimate_partial); the estimate suffices for contracts that do not look at gas (C102_suffices_partial). The machine is a parameter. | `C102_cap_false`, `C102_guard_false`, `C102_access_false`, `C102_access_short_false`, `C102_env_false` |
| C103 | partial | Proved over the transition system of the engine and the synchroniser (commits, batches, crashes at every point): answers that are given are accepted by every peer with the same earlier blocks; exactly which numbers are answered; a node that lives through consensus serves everything up to its height; a lagging peer that talks to it ends with the same chain (induction over the batch). False: after synchronisation the proof of the latest block is refused although the height is announced, and between the two writes of a commit the proof of the previous block is refused. Missing: network failures and timeouts, the metadata lookups inside verify_proof, failing databases. | `C103_synced_false`, `C103_announced_false`, `C103_between_false` |
| C104 | partial | Delivery and exact characterisation of what reaches Overlord are proved for all messages and all received bytes, over the codec of the Overlord crate as a parameter (external). Partial: the network layer between packing and routing (tentacle, compression and size limits) is that of C90; the pool handlers' payloads are left as bytes. C104_codec_false: the encode of the message types does not match their decode (no caller uses it). The feedback of the handlers is dropped by the reactor. | `C104_codec_false` |
| C105 | partial | Acceptance is characterised exactly (C105_accept_iff), agreement with the node holds for equal vote weights and a proof of the block's number (C105_agree_partial), and a proof binds the parent state root and all voted fields (C105_binding). False in general: a proof does not cover state root, receipts root, bloom, gas used, base fee and chain id of its block (C105_unbound_false, C105_header_false), and the light client does not compare the number of the block with that of the proof (C105_height_false); unequal weights are counted differently (C26). | `C105_unbound_false`, `C105_header_false`, `C105_height_false` |
| C106 | partial | Proved: block n, proposal n and the proof served under n+1 pass the light client's check on every sealed chain (C106_verify_partial), the hardfork report is exact for every history (C106_hardforks) and agrees with the executor (C106_enabled_iff), no panic. False: the proof served for an identifier is that of the parent, so it never proves the block served for the same identifier (C106_own_proof_false, C106_proof_by_id_false), and the proof of the latest block is not served at all (C106_latest); numbers are truncated to 64 bits (C106_truncated_false). That stored chains are sealed is the invariant of the engine model (C103); reading metadata below a state root is a parameter. Which metadata is answered for a number and as current: C106_metadata. | `C106_own_proof_false`, `C106_truncated_false`, `C106_proof_by_id_false` |
| C107 | partial | Proved over all sequences of events of a node: origin and agreement (C107_agreed), proposals look ahead (C107_propose), registration (C107_registered_partial, for start numbers not below the last one), finality for chains whose blocks look ahead (C107_final), flags determined by the chain as long as no synchronised block is refused after execution (C107_flags_partial), repair by a restart. False in general: a block served with a wrong state root (not covered by any proof) is executed and refused but leaves its flags in HARDFORK_INFO, so the right block is then executed under other flags (C107_refused_false); check_block does not compare the start number with the height (C107_stale_false); a hardfork below the last registered start number is carried by blocks but never registered (C107_lost_false). C107_checked: a proposal accepted asks for no hardfork or exactly the one the node itself would ask for. | `C107_refused_false`, `C107_lost_false`, `C107_stale_false` |
| C108 | partial | Proved: a vote is accepted iff it is signed with the key of the member it names, own votes are accepted, accepted votes aggregate, refused cases, and the table is that of the next block's validators for all histories without a start at, or a synchronised block at, the end of an epoch and with parsable keys. False of the code and proved so: a rogue key makes an aggregate of two with one secret; a restart at the end of an epoch and a synchronised last block leave the old keys; a BLS key that does not parse leaves the status behind the stored block and prevents starts. BLS itself is a parameter with the laws of aggregation. | `C108_rogue_false`, `C108_restart_false`, `C108_sync_false`, `C108_badkey_false` |
| C109 | partial | Proved: reported values equal what the virtual machine reads (C109_values_partial) and the answer passes the checks of a client (C109_verifies_partial) when the storage trie of the account is stored; an answer that passes the checks tells the truth (C109_truth); eth_getStorageAt agrees with the virtual machine in all well-formed states (C109_storage); eth_getProof answers for every address once an empty storage trie is stored (C109_total, C109_first_change, C109_stays). False of the code and proved so: accounts of the genesis block have no proof before that (C109_genesis_false), and answers for addresses without an account claim zero hashes and carry unproved storage entries (C109_missing_false). Merkle proofs are a parameter (sound and complete). | `C109_missing_false`, `C109_genesis_false` |
| C110 | partial | Proved: accepted payloads have consistent roots and true leaves for all indices of leaves, up to a collision made in the check itself (C110_sound_partial); built proofs are accepted for all sets of leaves (C110_complete); agreement with axon-tools (C110_agree); exact conditions and price of success (C110_exec_iff). False of the code and proved so: the root and inner nodes are accepted as leaves, since the number of leaves is not checked (C110_inner_false, C110_child_false), and the answer is one byte instead of a 32-byte bool (C110_output_false). The algorithm of merkle-cbt is modelled as published, its source being absent; the hash and the ABI decoding are parameters. | `C110_inner_false`, `C110_child_false`, `C110_output_false` |
| C111 | partial | Exact while a batch runs (unconditional). False otherwise: if update_status fails at the end of a batch the global stays and eth_syncing reports a batch that is over while consensus commits blocks; the highest number is at most 50 ahead whatever peers announced. | `C111_stale_false`, `C111_highest_false` |
| C112 | partial | Dispatch and the tables are proved. False: eth_submitWork is registered with a trailing blank and unreachable under its name; the WebSocket server ignores the configured payload for responses (10 MiB whatever is configured). The node's own methods are reachable under their names and nothing else is served (C112_own). | `C112_submit_false`, `C112_ws_limit_false` |
| C113 | partial | Kept exactly once and in order for checked patterns if no two rolls that move the file fall in one second (C113_kept_partial). False otherwise: a second roll within the second overwrites the archive (C113_second_false, C113_overwritten), and a pattern from a configuration file is not checked (C113_unchecked_false). | `C113_second_false`, `C113_unchecked_false` |
| C114 | partial | Holds for records outside configured modules, metrics and cli (C114_switches_partial), for metrics (C114_metrics); the level of the closest module decides (C114_module). False: configured modules and cli ignore the switches (C114_switch_false), a level for metrics or cli stops the node (C114_reserved_false), names in capitals mean info (C114_capitals_false). | `C114_reserved_false`, `C114_switch_false`, `C114_capitals_false` |
| C115 | partial | Blocks, headers, proofs and proposals arrive exactly (C115_block, C115_header, C115_proof, C115_proposal); numbers are read back (C115_uint, C115_digits_partial). False: metadata lose the counters and the contract limit (C115_metadata_partial, C115_metadata_false); numbers too large are truncated (C115_truncated_false), signs and empty numbers are accepted (C115_signs_false), hostile texts make the client panic (C115_panics_false); neither side can read back what it writes (C115_tools_metadata_false, C115_node_false). C115_node_proof: the node's own reader takes each field of a proof from the one of its name. | `C115_truncated_false`, `C115_signs_false`, `C115_panics_false`, `C115_metadata_false`, `C115_tools_metadata_false`, `C115_node_false` |
| C116 | partial | Tries of the crate cita_trie modelled from its published source with the hash function as a parameter. Proved: reads are those of the map written, the root is independent of the order of writes, equal roots mean equal maps, lists of transactions and of receipts; hashed keys; proofs by position verify for lists that are not empty; no list of nodes verifies to another entry. False: proofs for the empty trie are rejected; if the crate counts missing nodes as empty, the root node alone proves entries absent. | `C116_proofs_false`, `C116_forgery_false` |
| C117 | partial | Leaves read as type, status, gas of the transaction itself, bloom and logs (C117_reads_partial); equal roots mean equal outcomes (C117_commits); reported receipts hash to the root of the header (C117_reported). False: the gas in a leaf is not the cumulative gas that the comment and the EIPs ask for, whenever an earlier transaction of the block used gas (C117_cumulative_false). | `C117_cumulative_false` |
| C118 | partial | Exactly once, by origin and in order (C118_exactly_once, C118_relayed_once), complete with the next tick (C118_tick), batches within a size of at least one (C118_batch_partial), one error per failed call (C118_errors). False: a batch size of 0 is no limit (C118_batch_false); the error of a batch is answered to the sender of another transaction that was accepted (C118_blamed_false); a failed batch is dropped for good (C118_lost_false); the handler counts every failure as a success, too (C118_counters_false). | `C118_batch_false`, `C118_blamed_false`, `C118_lost_false`, `C118_counters_false` |
| C119 | partial | EIP-55 is written (C119_writes) and read back (C119_round_trip); texts of 42 characters are canonical (C119_canonical_partial); JSON accepts the text with or without prefix and nothing else (C119_json); keys have one address (C119_pubkey). False: about every second address has another text of 44 characters with a doubled prefix that from_str accepts (C119_two_texts_false); texts with more than 64 characters abort from_str (C119_panics_false, C119_no_panic_partial); any 65 bytes have an address (C119_unchecked_false). | `C119_two_texts_false`, `C119_panics_false`, `C119_unchecked_false` |
| C120 | partial | Proved for every specification: exactly when init succeeds (C120_init), what the started node holds (C120_start), the balances when no address is repeated (C120_balances_partial), the two epochs (C120_epochs_partial), every interruption (C120_interrupted) and what the genesis header determines (C120_identity). The full statement is false: a repeated address silently loses the earlier balance (C120_duplicates_false); the metadata is encoded before the hardforks are in force, so the contract size limit of the specification is replaced by 0x6000 although Andromeda is active (C120_limit_false); the first block of epoch 0 is not compared with anything and epoch 1 has as many blocks as the last block's number (C120_first_block_false); a failed init leaves a directory that makes every later init fail while the node does not start (C120_retry_false). Transactions of the genesis block (always none) and key files are not modelled. | `C120_duplicates_false`, `C120_limit_false`, `C120_first_block_false`, `C120_retry_false` |
| C121 | partial | Both adapters agree on every sequence of calls, and equal typed tables for every well-typed sequence in which no hash is a key of both tables of a pair sharing a column family; batches are all or nothing; reads of many by height agree with the tables (RocksDB, distinct hashes). Full statement false: code and code-address tables share column c7 and one key form, so an address entry is served as code (C121_shared_false); the memory adapter's iterator ignores the prefix (C121_iter_false). | `C121_shared_false`, `C121_iter_false` |
| C122 | partial | Proved for every interleaving: the queue is never popped when empty, no deadlock, each call takes effect exactly once within its interval, and if every insertion is a limited one the pool equals the sequential run of the log, counter included, and never exceeds its capacity. With unlimited insertions the same holds as long as no push met a full queue. Full statement false: the check for a full co_queue and the push are two steps and the failed push is ignored, so a transaction answered as inserted can be held without ever being packaged (C122_lost_false); the counter is raised before the duplicate check, so an insertion can be refused by a pool that was never full (C122_refused_false). | `C122_lost_false`, `C122_refused_false` |
| C123 | partial | The codec (ethabi, ethers: dependencies) is modelled from its documentation; round trip, dispatch by selector, no panic, trailing bytes, acceptance, the bound on each list, the contracts on call data and the two precompiles are proved. Two parts are false: C123_together_false (array elements may share their tails, so about 12 MB of call data decode to 2^34 out points, and 96196 bytes to a million) and C123_range_false (a bool word 2 is read as false, high bits of integers and addresses are dropped). | `C123_together_false`, `C123_range_false` |
| C124 | partial | Proved: both files are read as they were written (JSON with escapes, multiaddresses, networks), a dump returns Ok exactly when nothing hindered it, after any history of failures and kills the files in place hold one of the admissible contents and a start makes the store of it, a reachable store is dumped and loaded unchanged, any bytes load without panic. Missing because false: when rename fails and the process is killed during the copy, the file in place is cut and the whole book is lost; an announced address with a dns name that holds a slash is written but cannot be read, so that the next start loads an empty book and overwrites the file; dumps come at the start and every 24 hours and never at the stop, so a ban of less than a day is forgotten by a restart. Loss of power is not modelled; the texts of IP addresses and peer ids are parameters that are read as they were written. | `C124_torn_false`, `C124_poison_false`, `C124_unsaved_false` |
| C125 | partial | Proved for Ethereum signatures (C125_eth_partial, C125_log_partial) and for all transactions as long as no program among the cells stops on a key of the account (C125_authentic_partial); interoperation signatures are decided exactly (C125_interop); the chain is checked if there is one (C125_chain). False of the code and proved so: the sender of an interoperation transaction is the address of whatever public key it names, the program that checks it is chosen by the transaction, is not shown the transaction, and its exit code is dropped, so anybody who knows the public key of an account sends from it (C125_takeover, C125_false, C125_exit_code_false, C125_unbound_false), spends its funds (C125_funds_false) or acts as a validator (C125_validator_false); the check may run 2^64-1 cycles unpaid (C125_unpaid_false); transactions without chain id are admitted on every chain (C125_any_chain_false). The curve, the digest and the CKB machine are parameters. | `C125_false`, `C125_exit_code_false`, `C125_unbound_false`, `C125_funds_false`, `C125_validator_false`, `C125_any_chain_false`, `C125_unpaid_false` |
| C126 | partial | Proved for all histories: at every height Overlord has exactly the registered validators and weights, in the same order on all nodes; the timings of the state after the stored block while the next epoch is registered; a commit moves on exactly one height; the list for the block before is that of its epoch. False of the code and proved so: commits never change the limits on transactions, synchronisation changes those of the status but not that of the pool, so nodes with the same chain admit different transactions; an epoch registered in the last block of the one before comes too late for committing nodes, which stall for good while synchronising ones go on; a node at the end of the registered epochs does not start again; the warning about missing metadata never sounds; synchronisation leaves the old consensus tags. | `C126_alert_false`, `C126_admission_false`, `C126_limits_false`, `C126_stall_false`, `C126_timing_false`, `C126_tags_false` |
| C127 | proved | The keys in use must have different digests (Apart) and values must be shorter than 2^63 bytes (Held); failures of the database are not modelled. The counter follows C70: what is counted is what C70's partial statement says is counted. |  |
| C128 | proved | On the bytes: RLP accounts in the state trie, storage tries by root in the same node database, codes under their hashes. C128_reads: nothing fails and every read is the last write; C128_reopen: the root of any earlier commit opens that state after any further history; C128_same: two histories end in the same root iff all accounts are equal. The hypothesis names exactly the strings the history hashes (keys, codes, nodes) and asks that they do not collide and none hashes to zero; examples check it for a concrete hash. Touched empty accounts stay (C66). Failures of RocksDB are not modelled; the node cache is C41. |  |
| C129 | proved | All four parts proved for all histories of the model that reach their end without a panic; the assumptions are that the strings hashed in the history do not collide and do not hash to zero, that nothing but the contract writes the slot of the root, and that no value is 4 GB long. The intermediate trie the hook commits when a hardfork is registered is left out of the database of the model (it only adds nodes). |  |
| C130 | proved | C130_past: the slots, the store in use and the store behind every committed root, for all histories; C130_total: calls do not panic; C130_restart. Assumptions: the strings hashed in the history do not collide and do not hash to zero, nothing but the two contracts writes the slots of the root, the cells given to update have room for their encodings, no value is 4 GB long. The codec of the headers is a parameter with its round trip as a law; the examples use the concrete one of C123. The permission to call and the decoding of calls are C40 and C123. |  |
| C131 | proved | eth_getProof and eth_getStorageAt on the trie nodes in the database, over the histories of C128. C131_answers (accounts with storage, any positions), C131_plain (accounts without storage), C131_nobody (addresses without account), C131_truth (whatever passes strict checks is true), C131_absent and C131_storage. What cannot be asked - proofs for positions of an account without storage - and the hashes reported for an address without account are in C109 and C116. |  |
| C132 | partial | Proved for all histories and every committed root: a header last accepted under a hash is reported field by field, with its extension and the hash of its packed form (C132_header; C132_packed says the packed form is unique), and one submitted under that hash is reported with the hash asked for (C132_hash_partial); a cell whose scripts have known hash types is reported with the output and data it was created with, and everything else is not found (C132_cell_partial). False of the code and proved so: the contract takes the hash of a header on trust, so another hash than the one asked for can be reported (C132_hash_false); a cell whose script has an unknown hash type is accepted and asking for it stops the node (C132_cell_false); the hash of empty data is zero for scripts but the hash of the empty string in the RPC (C132_data_false). Assumptions are those of C130; the JSON and packed types of ckb-types 0.111 are modelled from their definitions. | `C132_hash_false`, `C132_cell_false`, `C132_data_false` |
| C133 | proved | C133_frame: success, what stays and what is signed; C133_place: the signature is at byte 20; C133_unlocks: the signed transaction passes the default lock, which is specified separately, for every group; C133_fed: what is hashed is determined by its description; C133_offset: the offset named in an action is not looked at, so only 20 is right. Hash and signature are parameters; the key's signatures are assumed valid and 65 bytes long. The witnesses are on the bytes of molecule, packed into less than 4 GB. Indices that are out of range, which molecule reads past the end (get_unchecked), are in the model but not in the claim; the address named in an action is not compared with the key. |  |
| C134 | partial | Codes, values, reverted data and reasons proved (the printing of block ids, floats and quoted texts is a parameter; Debug names are those of evm-core 0.37, which is not in /repo). Negations: every failed run is reported as reverted, an error and a fatal error with the same text are reported alike, and a reverted run can stop the node (C134_stop_partial says exactly when). | `C134_message_false`, `C134_reason_false`, `C134_stop_false` |
| C135 | proved | Total success, files, recovery, identity of the node, validator entry, other files and failures. The curves, Keccak, peer ids and Base58 are functions with the lengths of the libraries as hypothesis (Lawful); paths are texts, without links. |  |
| C136 | partial | Proved: the round trip of the cell and of its text, the layout, that only cells in this layout are accepted and nothing may follow them, when writing aborts, the numbers in files, and the round trip of files for counts below 2^63. False: a count of 2^63 or more is written but parse-data cannot show it; what --binary writes is not read by parse-data; the address in a cell is not compared with the key; a run that fails empties the output file. The schema of axon-types is taken from the example data; TOML and JSON parsing is not modelled. | `C136_count_false`, `C136_binary_false`, `C136_address_false`, `C136_emptied_false` |
| C137 | proved | The way of the messages through the network, the codec of the transactions in the answer (C91, C98) and errors of the database are not part of this model; the checks of the validator are a parameter. C137_other_block: a transaction the proposer committed in another block than the one asked for is not served. |  |
