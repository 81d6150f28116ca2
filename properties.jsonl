{"id": "C01", "title": "RLP item codec is lossless", "statement": "Encoding any RLP item (arbitrarily nested lists of byte strings) and decoding the bytes gives back exactly that item and consumes exactly the encoded bytes, whatever follows them; therefore two different items never have the same encoding and no encoding is a proper prefix of another.", "quantifier": "every finite tree of byte strings whose encoded parts are shorter than 2^64 bytes, and every byte suffix", "why_tests_cant": "There are infinitely many nestings and length-class boundaries (0/1/55/56 bytes, short/long lists); unit tests only sample a few.", "anchors": ["protocol/src/codec/mod.rs: ProtocolCodec", "protocol/src/codec/transaction.rs", "protocol/src/codec/block.rs", "protocol/src/codec/receipt.rs"]}
{"id": "C02", "title": "Raw transaction codec round trip", "statement": "For a legacy, EIP-2930 or EIP-1559 transaction with a 65-byte Ethereum signature, decoding the bytes produced by encoding it returns the same transaction (kind, fields, access list, signature, chain id), and the first byte alone decides which kind is decoded.", "quantifier": "every transaction of the three kinds with field values inside their integer widths", "why_tests_cant": "The three layouts, the optional chain id and the signature normalisation give an unbounded product of cases; a single field order slip on one side only shows on inputs where the fields differ.", "anchors": ["protocol/src/codec/transaction.rs: UnverifiedTransaction, SignatureComponents, LegacyTransaction, Eip2930Transaction, Eip1559Transaction", "protocol/src/types/transaction.rs"]}
{"id": "C03", "title": "Legacy replay protection: v determines chain id and recovery id", "statement": "For a legacy transaction the v value put on the wire determines both the recovery id (0 or 1) and the optional chain id: extracting them from v gives back what was encoded, and different (recovery id, chain id) pairs never share a v.", "quantifier": "every recovery id in {0,1} and every chain id for which 35 + 2*id + 1 fits in 64 bits, as well as no chain id", "why_tests_cant": "The mapping is an arithmetic bijection over 2^63 chain ids; tests check a handful.", "anchors": ["protocol/src/codec/transaction.rs: add_chain_replay_protection, extract_standard_v, extract_chain_id"]}
{"id": "C04", "title": "Signing payloads of different transactions differ", "statement": "The byte string that is hashed and signed for a transaction determines the transaction kind, every field and the chain id it was signed for, so a signature made for one transaction (or one chain) can never be presented with another transaction or another chain.", "quantifier": "every pair of unsigned transactions of any of the three kinds with any optional chain id", "why_tests_cant": "It is a statement about all pairs of inputs; a test can only compare pairs it has thought of.", "anchors": ["protocol/src/types/transaction.rs: UnsignedTransaction::encode, signature_hash", "protocol/src/codec/transaction.rs: rlp_encode"]}
{"id": "C05", "title": "Block and header codec round trip", "statement": "Decoding the encoding of a block (header with proof, extra data and the ordered transaction hash list) returns the same block, so a block read from storage or received from a peer is the block that was written.", "quantifier": "every block with arbitrary field values, arbitrary extra data and an arbitrary number of transaction hashes", "why_tests_cant": "17 header fields with nested lists; only a universally quantified statement excludes a dropped or swapped field.", "anchors": ["protocol/src/codec/block.rs", "protocol/src/types/block.rs: Header, Block, Proof"]}
{"id": "C06", "title": "Proposal bytes determine the proposal", "statement": "Decoding the encoding of a block proposal returns the same proposal, i.e. the bytes on which validators vote determine every field of the proposed block including base fee and chain id.", "quantifier": "every proposal", "why_tests_cant": "Tests compare decoded proposals built with default base fee and chain id, so a field that is dropped by the codec goes unnoticed.", "anchors": ["protocol/src/codec/block.rs: Proposal rlp_append/decode", "protocol/src/types/block.rs: Proposal"]}
{"id": "C07", "title": "Receipt and execution response codec round trip", "statement": "Decoding the encoding of a receipt (including all logs) or of a transaction execution response returns the same value.", "quantifier": "every receipt, every log list, every execution response", "why_tests_cant": "Item counts written in list headers must agree with the number of appended fields for every value; a wrong count only shows when the decoder reaches the shifted field.", "anchors": ["protocol/src/codec/receipt.rs", "protocol/src/codec/executor.rs: TxResp"]}
{"id": "C08", "title": "Hex text codec", "statement": "Hex text produced from bytes parses back to the same bytes, with and without the 0x prefix; parsing rejects odd lengths and non hex digits, and a 0x-prefixed parse accepts exactly one prefix.", "quantifier": "every byte string and every text", "why_tests_cant": "All byte strings and all texts; acceptance of malformed input (e.g. a doubled prefix) is not visible from round-trip tests.", "anchors": ["protocol/src/codec/mod.rs: hex_encode, hex_decode", "protocol/src/types/primitive.rs: Hex"]}
{"id": "C09", "title": "Database keys are injective and ordered by block number", "statement": "Storage keys for different (block number, hash) pairs differ, all keys of a block are contiguous and share exactly that block's prefix, and byte order of keys is the numeric order of block numbers.", "quantifier": "every pair of 64-bit block numbers and 32-byte hashes", "why_tests_cant": "Range scans rely on byte order of big-endian prefixes for all 2^64 numbers.", "anchors": ["core/storage/src/hash_key.rs", "core/storage/src/schema.rs"]}
{"id": "C10", "title": "Storage returns what was stored", "statement": "After blocks, receipts and transactions have been saved through the storage API, reading a block, header, transaction or receipt by number or hash returns the most recently saved value for that key, regardless of whether the answer comes from the cache or from the database and of any cache evictions in between.", "quantifier": "every history of insert and get operations, every cache content reachable by evictions", "why_tests_cant": "Cache state depends on the entire interleaving of reads, writes and evictions.", "anchors": ["core/storage/src/lib.rs: ImplStorage", "core/storage/src/cache.rs"]}
{"id": "C11", "title": "Removing a block makes it unreadable", "statement": "After a block has been removed from storage, looking it up by number or by hash, or looking up its header, reports that it does not exist.", "quantifier": "every history of saves, reads and removals", "why_tests_cant": "Depends on what reads happened before the removal (cache content) and on secondary indexes.", "anchors": ["core/storage/src/lib.rs: remove_block"]}
{"id": "C12", "title": "Transaction WAL: recovery returns the saved transactions", "statement": "After saving the ordered transactions of a block, loading that block's entry returns exactly this list in order, other entries are unaffected, and removal up to a number deletes exactly the entries at or below it.", "quantifier": "every sequence of save, load and remove operations over all block numbers and hashes", "why_tests_cant": "Overwrites with shorter content and removals at boundaries depend on the sequence of operations.", "anchors": ["core/consensus/src/wal.rs: SignedTxsWAL"]}
{"id": "C13", "title": "Consensus WAL survives a crash at any write", "statement": "After any sequence of WAL updates and a crash at any point during an update (leaving the file being written missing, truncated at any byte, or complete), loading returns either the last completed payload or the interrupted one, and always terminates.", "quantifier": "every payload sequence, every crash point and every truncation length", "why_tests_cant": "Crash points and torn writes cannot be enumerated by tests.", "anchors": ["core/consensus/src/wal.rs: ConsensusWal::update, ConsensusWal::load"]}
{"id": "C14", "title": "Compressed network messages are received unchanged", "statement": "A peer that decompresses what the sender compressed obtains exactly the sent bytes, for every message size, provided the general purpose compressor is lossless.", "quantifier": "every message and every lossless compressor", "why_tests_cant": "Message size boundaries (1 KiB threshold, 8 MiB limit) interact with the flag byte.", "anchors": ["core/network/src/compress.rs"]}
{"id": "C15", "title": "Sync RPC responses decode safely", "statement": "Encoding a sync RPC response (block or transactions) and decoding it returns the same response, and decoding any byte string received from a peer returns a value or an error and never aborts the process.", "quantifier": "every response and every byte string", "why_tests_cant": "Malformed input space is unbounded.", "anchors": ["core/consensus/src/message.rs: ConsensusRpcResponse"]}
{"id": "C16", "title": "Packaging respects the limit and only returns live transactions", "statement": "The list of transaction hashes packaged for a block never exceeds the requested limit, contains no hash twice, and every ordinary transaction in it has been inserted and neither replaced, committed nor expired.", "quantifier": "every sequence of inserts, packages and flushes from an empty pool", "why_tests_cant": "The pool is a state machine over three queues; the statement is about all reachable states.", "anchors": ["core/mempool/src/pool.rs: PriorityPool::package", "core/mempool/src/tx_wrapper.rs"]}
{"id": "C17", "title": "Packaged transactions of a sender have gapless nonces", "statement": "For each sender, the nonces that became available for packaging form a contiguous interval starting at the account nonce known to the pool: no transaction becomes packageable before all smaller nonces of that sender from the account nonce on are packageable.", "quantifier": "every sequence of inserts for every sender, any arrival order of nonces", "why_tests_cant": "Arrival orders grow factorially and interact with replacement.", "anchors": ["core/mempool/src/tx_wrapper.rs: PendingQueue::insert, try_search_package_list"]}
{"id": "C18", "title": "Replacement needs a strictly higher gas price", "statement": "Among the transactions of one sender with one nonce offered to the pool, the pool keeps exactly one live transaction: the first one offered with the highest gas price; an equally or lower priced later one is dropped.", "quantifier": "every sequence of offered transactions with the same sender and nonce", "why_tests_cant": "Every permutation of prices of every length.", "anchors": ["core/mempool/src/tx_wrapper.rs: PendingQueue::insert"]}
{"id": "C19", "title": "Committed transactions leave the pool for good", "statement": "After a flush with a list of committed hashes, none of these transactions and no transaction of their senders with a nonce not above the committed one is ever packaged again (unless it is inserted anew), and the pool no longer reports it as contained.", "quantifier": "every pool state, every flushed hash list and all later packages", "why_tests_cant": "Depends on the history that put transactions into different queues.", "anchors": ["core/mempool/src/pool.rs: PriorityPool::flush, flush_inner"]}
{"id": "C20", "title": "Pool size accounting", "statement": "The number the pool reports as its length equals the number of transactions it stores, so that a limited insert is refused exactly when the pool already holds its configured capacity.", "quantifier": "every sequence of inserts (ordinary and system), packages and flushes", "why_tests_cant": "Counter drift accumulates over histories.", "anchors": ["core/mempool/src/pool.rs: insert, insert_system_script_tx, flush_inner, reach_limit"]}
{"id": "C21", "title": "Transactions expire only after the configured number of blocks", "statement": "A transaction that stays in the pool across flushes is removed by timeout exactly at the flush for block n + gap when it was first seen surviving the flush of block n, never earlier.", "quantifier": "every sequence of flushes with consecutive block numbers and every timeout gap", "why_tests_cant": "The interval is a parameter and the history is unbounded.", "anchors": ["core/mempool/src/pool.rs: flush_inner, timeout_gap"]}
{"id": "C22", "title": "Packaging order", "statement": "Packaged transactions are ordered so that a sender's transactions appear in increasing nonce order and, between different senders, a higher gas price goes first.", "quantifier": "every multiset of packageable transactions", "why_tests_cant": "The comparison is only meaningful if it is a total order; tests look at lists where it happens to be one.", "anchors": ["core/mempool/src/tx_wrapper.rs: Ord for TxWrapper", "core/mempool/src/pool.rs: package"]}
{"id": "C23", "title": "Full transactions are returned in the proposed order", "statement": "Asking the mempool for the full transactions of an ordered hash list either fails or returns exactly the transactions with these hashes, in the same order.", "quantifier": "every hash list, every split of its members between pool and storage", "why_tests_cant": "All interleavings of pool hits and storage hits.", "anchors": ["core/mempool/src/lib.rs: get_full_txs"]}
{"id": "C24", "title": "Transaction admission limits", "statement": "A transaction is admitted by the stateless checks iff its gas price is non-zero and below the maximum, its gas limit lies between 21000 and the block maximum, its encoded size does not exceed the configured size and its chain id, if any, is this chain's.", "quantifier": "every transaction and every configuration", "why_tests_cant": "Boundary values of every field in combination.", "anchors": ["core/mempool/src/adapter/mod.rs: verify_gas_price, verify_gas_limit, verify_tx_size, verify_chain_id", "core/api/src/jsonrpc/impl/web3.rs: send_raw_transaction"]}
{"id": "C25", "title": "Quorum: two accepted proofs share more than a third of the voting weight", "statement": "A block proof's voter set is accepted only if all voters are validators and their weight is more than two thirds of the total weight; consequently two accepted voter sets for the same validator set have common members of weight more than one third of the total.", "quantifier": "every validator weight assignment and every pair of voter sets", "why_tests_cant": "Quorum intersection is a statement about all pairs of subsets.", "anchors": ["core/consensus/src/adapter.rs: verify_proof_weight, verify_proof"]}
{"id": "C26", "title": "Node and light client agree on what a valid proof is", "statement": "The stand-alone proof verifier shipped for light clients accepts a signer set iff the node accepts it.", "quantifier": "every validator list with arbitrary vote weights and every signer bitmap", "why_tests_cant": "Test fixtures use equal weights, where both criteria coincide.", "anchors": ["devtools/axon-tools/src/proof.rs: extract_pks", "core/consensus/src/adapter.rs: verify_proof_weight"]}
{"id": "C27", "title": "Blocks are committed strictly one after another", "statement": "Whatever sequence of commit requests, sync batches and status updates arrives, each block number is committed at most once and block n+1 is only committed when the last committed block is n and its hash is the block's previous hash.", "quantifier": "every interleaving of consensus commits and synchronisation batches", "why_tests_cant": "Interleavings of two writers and failures at each step.", "anchors": ["core/consensus/src/engine.rs: commit, inner_commit", "core/consensus/src/synchronization.rs: start_sync, commit_block", "core/consensus/src/status.rs"]}
{"id": "C28", "title": "Timestamps of accepted proposals", "statement": "A proposal is only accepted if its timestamp is not before its parent's and not after the local time; along any chain of accepted blocks timestamps never decrease.", "quantifier": "every chain length and all clock readings", "why_tests_cant": "Chains are unbounded.", "anchors": ["core/consensus/src/engine.rs: validate_timestamp, check_block"]}
{"id": "C29", "title": "Sync requests terminate and stay within the batch bound", "statement": "Synchronisation to a remote height advances the local height by one per committed block, stops at the first failing block, never goes beyond the remote height and never fetches more than the batch limit before re-evaluating.", "quantifier": "every local and remote height and every failure pattern", "why_tests_cant": "Failure patterns are exponentially many.", "anchors": ["core/consensus/src/synchronization.rs"]}
{"id": "C30", "title": "Transaction execution: nonce and fee accounting", "statement": "Executing a transaction increases the sender's nonce by exactly one whether it succeeds or fails, charges the sender exactly gas used times gas price (plus transferred value on success), reports gas used at most the gas limit and touches no other account's balance except the recipient's.", "quantifier": "every sender state, gas limit, gas price and every outcome of the virtual machine", "why_tests_cant": "All outcomes of an arbitrary contract cannot be enumerated; only an abstract VM covers them.", "anchors": ["core/executor/src/lib.rs: AxonExecutor::evm_exec, exec"]}
{"id": "C31", "title": "Block totals add up", "statement": "The gas used and fees reported for a block are the sums over its transactions, one response per transaction in block order, and the receipt root is computed from exactly these responses.", "quantifier": "every transaction list", "why_tests_cant": "Unbounded lists and mixtures of system and ordinary calls.", "anchors": ["core/executor/src/lib.rs: exec"]}
{"id": "C32", "title": "Fee distribution never creates money", "statement": "The sum of the shares paid to validators never exceeds the collected fee, the undistributed rest is smaller than the total weight, each share is proportional to weight, and nothing is paid for block zero or a zero fee.", "quantifier": "every fee, every validator list with a non-zero total weight", "why_tests_cant": "Rounding behaviour over all values.", "anchors": ["core/executor/src/utils.rs: DefaultFeeAllocator"]}
{"id": "C33", "title": "State writes are read back", "statement": "After applying a set of account changes, reading balance, nonce, code and storage of any account returns the written value for written keys, the previous value for all others, and zero for storage slots written with zero.", "quantifier": "every prior state and every change list", "why_tests_cant": "Frame property over all untouched keys.", "anchors": ["core/executor/src/adapter/backend/apply.rs", "core/executor/src/adapter/backend/read_only.rs"]}
{"id": "C34", "title": "BLOCKHASH window", "statement": "Inside block n the BLOCKHASH of number m is the stored hash of block m iff n-256 <= m < n, and zero otherwise.", "quantifier": "every pair of block numbers", "why_tests_cant": "Boundary arithmetic near zero and near the window edges for all heights.", "anchors": ["core/executor/src/adapter/backend/read_only.rs: block_hash"]}
{"id": "C35", "title": "Calls to reserved addresses", "statement": "A transaction addressed to a reserved system address is executed by the matching native contract if one is registered, is refused if none is registered, and no other transaction is ever routed to a native contract.", "quantifier": "every action and every 20-byte address", "why_tests_cant": "2^160 addresses.", "anchors": ["core/executor/src/system_contract/mod.rs: is_call_system_script, system_contract_dispatch, is_system_contract_address_format"]}
{"id": "C36", "title": "Native token mint and burn accounting", "statement": "A successful mint (burn) of value v raises (lowers) the named account's balance by exactly v and changes no other account's balance; a burn above the balance and malformed input are reverted without any balance change.", "quantifier": "every account state, value and call data", "why_tests_cant": "All call data strings and balances.", "anchors": ["core/executor/src/system_contract/native_token.rs"]}
{"id": "C37", "title": "Epoch segments partition the chain", "statement": "Each block number up to the last registered epoch end belongs to exactly one epoch, epochs are consecutive and ordered, numbers beyond the last end are reported as future, and the segment survives serialisation; an end not larger than the last one is refused.", "quantifier": "every sequence of appended epoch ends and every block number", "why_tests_cant": "Unbounded sequences with arbitrary gaps.", "anchors": ["core/executor/src/system_contract/metadata/segment.rs: EpochSegment"]}
{"id": "C38", "title": "Metadata history is contiguous", "statement": "After any sequence of append-metadata calls, accepted metadata have epochs 0,1,2,..., each starts at the block after the previous one ends, and the metadata returned for a block number is the one whose range contains it.", "quantifier": "every sequence of accepted and rejected appends", "why_tests_cant": "Histories are unbounded.", "anchors": ["core/executor/src/system_contract/metadata/store.rs: append_metadata, get_metadata_by_block_number"]}
{"id": "C39", "title": "Hardfork activation lookup", "statement": "The hardfork flags in force at a block are those of the latest registered entry whose start number is not above the block; adding an entry never changes the flags in force before its start number, adds its flags from there on, and flags are never switched off.", "quantifier": "every sequence of hardfork registrations and every block number", "why_tests_cant": "Unbounded sequences.", "anchors": ["core/executor/src/system_contract/metadata/store.rs: hardfork_info, set_hardfork_info", "protocol/src/types/primitive.rs: HardforkInfo::push"]}
{"id": "C40", "title": "Image cell update and rollback are inverse and atomic", "statement": "Rolling back the blocks of a successful update restores the previous set of live and consumed cells, and a failing call leaves the stored cells unchanged.", "quantifier": "every cell state and every list of blocks with fresh outputs and live inputs", "why_tests_cant": "Sequences of blocks and cells are unbounded.", "anchors": ["core/executor/src/system_contract/image_cell/store.rs", "core/executor/src/system_contract/image_cell/mod.rs"]}
{"id": "C41", "title": "Trie database cache is coherent", "statement": "A read from the trie node database returns the stored value whether or not it is cached, and after any operation the cache obeys its size bound.", "quantifier": "every history of get, contains, insert and batch insert operations and every random eviction choice", "why_tests_cant": "Evictions are random.", "anchors": ["core/executor/src/adapter/trie/db.rs: RocksTrieDB"]}
{"id": "C42", "title": "Revert reason decoding is total", "statement": "Decoding the return data of a reverted call yields a message for every byte string and, for a standard Error(string) payload, exactly the contained text.", "quantifier": "every byte string of any length", "why_tests_cant": "Return data is attacker controlled and unbounded.", "anchors": ["core/executor/src/utils.rs: decode_revert_msg"]}
{"id": "C43", "title": "MODEXP gas follows EIP-2565", "statement": "The gas charged by the modular exponentiation precompile equals the EIP-2565 formula for every input and the computation never aborts.", "quantifier": "every input byte string", "why_tests_cant": "Length words are attacker controlled 256-bit numbers.", "anchors": ["core/executor/src/precompiles/modexp.rs"]}
{"id": "C44", "title": "RPC responses reach their caller at most once", "statement": "Every network RPC call gets an id never used before, a response is delivered only to the call with this id, at most once, and unknown or repeated responses are reported as errors.", "quantifier": "every interleaving of calls, responses and cancellations", "why_tests_cant": "Concurrent interleavings.", "anchors": ["core/network/src/reactor/rpc_map.rs: RpcMap"]}
{"id": "C45", "title": "Address book indexes stay consistent", "statement": "In the peer address book, looking up, sampling and removing addresses agree: every known address is found by its socket address and its peer id, removed addresses are found by neither, and no sequence of operations aborts the process.", "quantifier": "every sequence of add, remove, lookup and random fetch operations", "why_tests_cant": "Three indexes with swap-removal; histories are unbounded.", "anchors": ["core/network/src/peer_manager/peer_store/addr_manager.rs (Manager)"]}
{"id": "C46", "title": "Ban list", "statement": "A banned network address stays banned until its expiry time and not afterwards, an address is banned iff it lies in a banned network, and periodic cleaning never changes the answer.", "quantifier": "every sequence of bans, unbans and queries with non-decreasing time", "why_tests_cant": "Time and histories are unbounded.", "anchors": ["core/network/src/peer_manager/peer_store/ban_list.rs"]}
{"id": "C47", "title": "Block filters report each new block exactly once", "statement": "The concatenated answers of successive polls of a block filter are exactly the hashes of the blocks after the filter's creation up to the last poll, in order, without gaps or duplicates.", "quantifier": "every sequence of chain growth and polls", "why_tests_cant": "All interleavings of growth and polls.", "anchors": ["core/api/src/jsonrpc/impl/filter.rs: filter_block"]}
{"id": "C48", "title": "Log filters report each matching log exactly once", "statement": "The concatenated answers of successive polls of a log filter are exactly the matching logs of the blocks in its range up to the last poll, in chain order, without gaps or duplicates.", "quantifier": "every range, sequence of chain growth and polls", "why_tests_cant": "All interleavings of growth and polls.", "anchors": ["core/api/src/jsonrpc/impl/filter.rs: filter_logs"]}
{"id": "C49", "title": "Log matching", "statement": "A log is returned by a log query iff its address is in the (possibly empty) address list and its topics match the topic pattern positionally with null as wildcard and lists as alternatives.", "quantifier": "every log, address list and topic pattern", "why_tests_cant": "All patterns.", "anchors": ["core/api/src/jsonrpc/impl/web3.rs: from_receipt_to_web3_log, get_logs"]}
{"id": "C50", "title": "Bloom filters have no false negatives", "statement": "Every address and topic of every log in a block is contained in the block's log bloom.", "quantifier": "every list of logs and every hash function", "why_tests_cant": "All logs.", "anchors": ["protocol/src/types/bloom / core/executor/src/lib.rs: logs_bloom"]}
{"id": "C51", "title": "Block identifiers survive JSON round trip", "statement": "A block identifier (number, hash or tag) that is serialised by the node parses back as the same identifier.", "quantifier": "every block identifier", "why_tests_cant": "All numbers and hashes.", "anchors": ["core/api/src/jsonrpc/web3_types.rs: BlockId"]}
{"id": "C52", "title": "Fee history range", "statement": "eth_feeHistory with block count k and newest block n describes exactly the blocks max(0, n-k+1)..n and returns one more base fee than blocks.", "quantifier": "every n and k", "why_tests_cant": "Boundary cases around genesis.", "anchors": ["core/api/src/jsonrpc/impl/web3.rs: inner_fee_history, fee_history"]}
{"id": "C53", "title": "Lookup by block hash returns the block with that hash", "statement": "If a block lookup by hash returns a block, that block has the requested hash.", "quantifier": "every history of storage writes, reads, cache evictions and restarts, every hash", "why_tests_cant": "Requires all histories; the hash index is shared with transactions.", "anchors": ["core/storage/src/lib.rs: get_block_by_hash, get_block_number_by_hash, batch_insert_stxs", "core/storage/src/schema.rs: BlockHashNumberSchema, TxHashNumberSchema"]}
{"id": "C54", "title": "Batch reads answer in request order", "statement": "Reading several transactions (or receipts) of a block by hash returns, at each position, exactly what a single read of that hash in that block would return.", "quantifier": "every stored column, every height, every list of requested hashes, both database adapters", "why_tests_cant": "Depends on iteration order, early exit of the loop and duplicates for all request lists.", "anchors": ["core/storage/src/lib.rs: get_transactions, get_receipts", "core/db/src/rocks.rs: prepare_iter", "core/db/src/memory.rs: prepare_iter"]}
{"id": "C55", "title": "The transaction pool never panics", "statement": "No sequence of pool operations - inserting transactions that passed authorisation, packaging, background refresh, committing blocks - makes the pool panic (a panic terminates the node).", "quantifier": "every history of inserts, packagings, refreshes and flushes, every nonce", "why_tests_cant": "The panics hide in arithmetic on extreme nonces combined with particular queue states.", "anchors": ["core/mempool/src/tx_wrapper.rs: PendingQueue::insert, try_search_package_list, set_drop_by_nonce_tip", "core/mempool/src/pool.rs: flush_inner, BuiltInContractTxBucket::package"]}
{"id": "C56", "title": "A verified proposal's transactions are all in the pool", "statement": "If ensuring the ordered transactions of a proposal succeeds then the ordered hashes are pairwise distinct and every one of them can be looked up in the pool by hash; an order with a repeated hash is always refused.", "quantifier": "every pool history, every list of ordered hashes, every response of the peer asked for unknown transactions", "why_tests_cant": "The response of the remote peer is arbitrary, and the pool content and capacity at that moment are arbitrary.", "anchors": ["core/mempool/src/lib.rs: ensure_order_txs, check_dup_order_hashes, show_unknown_txs", "core/mempool/src/pool.rs: insert, insert_system_script_tx"]}
{"id": "C57", "title": "Received transaction bytes never crash the node", "statement": "Decoding a transaction received from a peer or by eth_sendRawTransaction and determining its sender ends with a signed transaction or an error, never with a panic (which terminates the process); afterwards the stateless pool checks do not panic on it either.", "quantifier": "every byte string", "why_tests_cant": "The set of byte strings is unbounded and the crashing ones need an unusual signature shape.", "anchors": ["protocol/src/codec/transaction.rs: UnverifiedTransaction::decode, SignedTransaction::decode", "protocol/src/types/transaction.rs: from_unverified, extract_interoperation_tx_sender", "core/api/src/jsonrpc/impl/web3.rs: send_raw_transaction", "core/mempool/src/adapter/mod.rs: verify_signature"]}
{"id": "C58", "title": "Authorisation follows the latest account state", "statement": "A non-system transaction is authorised iff its nonce is at least the sender's current nonce and the sender's balance covers gas price times gas limit plus value; the reported nonce difference is relative to the current nonce; answers from the nonce cache are the same as answers from the state. Calls to the four system addresses are system scripts, other addresses of that range are refused.", "quantifier": "every transaction, account state and interleaving of authorisations with block commits", "why_tests_cant": "Needs all interleavings of the asynchronous check with commits, and all values of nonces and balances.", "anchors": ["core/mempool/src/adapter/mod.rs: check_authorization, clear_nonce_cache, set_args", "protocol/src/types/transaction.rs: may_cost", "core/executor/src/system_contract/mod.rs: is_call_system_script"]}
{"id": "C59", "title": "The pool after a restart", "statement": "After a restart the pool contains exactly the transactions of the log that are not committed, and it proposes those of them that continue each account's nonce, system scripts first.", "quantifier": "every log content and pool size", "why_tests_cant": "All orders and nonce patterns of the logged transactions.", "anchors": ["core/mempool/src/lib.rs: MemPoolImpl::new, initial_insert", "core/run/src/lib.rs: load_by_number(current_block.header.number + 1)"]}
{"id": "C60", "title": "A restarted node can propose the next block", "statement": "After a restart at any point the stored latest proof belongs to the stored latest block, so that the node can propose the block after its last one.", "quantifier": "every history of commits, synchronisation batches and crashes", "why_tests_cant": "Depends on where between two storage writes the process stops and on which of two writers stored the last block.", "anchors": ["core/consensus/src/engine.rs: update_status, get_block", "core/consensus/src/synchronization.rs: save_chain_data", "core/run/src/lib.rs: get_status_agent"]}
{"id": "C61", "title": "A synchronised block is the block that was agreed", "statement": "A block obtained from a peer and stored is identical, including its hash, to the block that the validators agreed on and executed.", "quantifier": "every answer of a peer", "why_tests_cant": "Peers answer with arbitrary headers; the property compares what is verified with all header fields.", "anchors": ["core/consensus/src/synchronization.rs: verify_block, commit_block", "core/consensus/src/adapter.rs: verify_proof", "protocol/src/types/block.rs: Block::new, Proposal::new_with_state_root"]}
{"id": "C62", "title": "An accepted block can be built upon", "statement": "If a proposal is accepted and committed, the proof that consensus produced for it is accepted by verify_proof for the stored block, so the next proposal can be accepted and other nodes can synchronise it.", "quantifier": "every proposal that check_block accepts", "why_tests_cant": "Tests propose honest blocks; the property quantifies over all field values of accepted proposals.", "anchors": ["core/consensus/src/engine.rs: check_block, inner_check_block", "core/consensus/src/adapter.rs: verify_proof"]}
{"id": "C63", "title": "A fetched block is assembled completely and in order", "statement": "When assembling a block from the pool and a peer succeeds, its transactions are exactly those named by the block's hashes in the same order, and every missing hash is requested once in requests of bounded size, whatever the peer answers.", "quantifier": "every block, pool content, chunk size and every sequence of answers", "why_tests_cant": "Answers are arbitrary lists in arbitrary order.", "anchors": ["core/consensus/src/synchronization.rs: get_rich_block_from_remote"]}
{"id": "C64", "title": "Checking a proposal never panics", "statement": "check_block ends with acceptance or an error for every proposal and hash received from the network.", "quantifier": "every proposal, hash and node state", "why_tests_cant": "Overflowing arithmetic on attacker-chosen numbers.", "anchors": ["core/consensus/src/engine.rs: check_block", "core/consensus/src/adapter.rs: verify_block_header"]}
{"id": "C65", "title": "A node told to stop at a height does not go past it", "statement": "A node started with a stop height stores no block above it, and after the stop signal no commit starts.", "quantifier": "every sequence of commits, synchronisation batches and crashes", "why_tests_cant": "Depends on how two writers advance the height.", "anchors": ["core/consensus/src/stop_signal.rs", "core/consensus/src/engine.rs: commit", "core/run/src/lib.rs: start"]}
{"id": "C66", "title": "Touched empty accounts are removed", "statement": "After a successful transaction no account it touched is left in the state with zero balance, zero nonce and no code (EIP-161), so that existence tests and the state root do not depend on accounts that hold nothing.", "quantifier": "every state and every list of changes the virtual machine asks for", "why_tests_cant": "The rule has to hold for every account content, including the special code hashes.", "anchors": ["core/executor/src/adapter/backend/apply.rs: apply (is_empty, delete_empty)"]}
{"id": "C67", "title": "Executing a block creates no money", "statement": "The sum of all balances after a block is at most the sum before it: fees paid to validators are covered by what senders were charged, and returned gas by what was prepaid (mint calls of the native token contract aside).", "quantifier": "every state, every list of transactions, every behaviour of a virtual machine that itself creates no money, every validator list", "why_tests_cant": "An arbitrary sequence of transactions with arbitrary outcomes; the code's own saturating arithmetic hides the loss in any single-transaction test.", "anchors": ["core/executor/src/lib.rs: exec, evm_exec", "core/executor/src/utils.rs: DefaultFeeAllocator", "core/executor/src/system_contract/utils.rs: revert_resp"]}
{"id": "C68", "title": "Stored consensus configuration reads back", "statement": "The consensus configuration reported for a block is the one accepted for its epoch: what was stored reads back unchanged (with the default contract size limit before Andromeda) and reading never aborts.", "quantifier": "every configuration, every set of hardfork flags and every history of metadata calls", "why_tests_cant": "All field values and histories.", "anchors": ["core/executor/src/system_contract/metadata/store.rs: encode_consensus_config, decode_consensus_config, get_metadata"]}
{"id": "C69", "title": "Block execution does not abort at an epoch boundary", "statement": "The end-of-block hook of the metadata contract succeeds for every block that has been agreed on, in particular when no metadata for the next epoch has been registered.", "quantifier": "every history of metadata calls and every block number", "why_tests_cant": "Depends on the relation between the whole registered history and the current block.", "anchors": ["core/executor/src/system_contract/metadata/mod.rs: after_block_hook", "core/executor/src/system_contract/metadata/store.rs: update_propose_count"]}
{"id": "C70", "title": "Propose counter counts proposed blocks", "statement": "For every epoch and validator the stored propose counter equals the number of blocks of the epoch proposed by this validator.", "quantifier": "every history of blocks and metadata calls", "why_tests_cant": "Histories are unbounded; the tests use blocks without transactions.", "anchors": ["core/executor/src/system_contract/metadata/store.rs: update_propose_count", "core/executor/src/system_contract/metadata/mod.rs: after_block_hook", "core/executor/src/lib.rs: exec"]}
{"id": "C71", "title": "Only current validators change the metadata", "statement": "After genesis a call of the metadata contract has an effect only if its sender is a validator of the epoch containing the current block; a failed call changes nothing.", "quantifier": "every history, block number, sender and call", "why_tests_cant": "All histories and senders.", "anchors": ["core/executor/src/system_contract/metadata/mod.rs: exec_", "core/executor/src/system_contract/metadata/handle.rs: is_validator"]}
{"id": "C72", "title": "Cells offered to scripts are live", "statement": "The interoperation module and the cell precompile return exactly the stored output and data of a known cell, report unknown cells as unknown, never abort, and offer a cell to scripts as live only while it is not consumed.", "quantifier": "every history of contract calls and every out point", "why_tests_cant": "Histories and cell contents are unbounded.", "anchors": ["core/executor/src/system_contract/mod.rs: DataProvider", "core/executor/src/precompiles/get_cell.rs"]}
{"id": "C73", "title": "CKB header store", "statement": "After a header update a lookup by block hash returns the last header saved under this hash; a rollback succeeds iff its hashes are distinct and known and removes exactly these; rolling back an update restores the store; the header precompile never aborts; header and cell entries never interfere.", "quantifier": "every store, every list of headers and hashes, every history of calls", "why_tests_cant": "Histories are unbounded and both contracts share one trie.", "anchors": ["core/executor/src/system_contract/ckb_light_client/store.rs", "core/executor/src/precompiles/get_header.rs"]}
{"id": "C74", "title": "The two CKB contracts share one root and honour the read switch", "statement": "After every call the accounts of the light client and image cell contracts hold the same root, equal to the one the executor works with, and while reading is switched off by setState no reader returns a cell.", "quantifier": "every history of calls", "why_tests_cant": "Histories are unbounded.", "anchors": ["core/executor/src/system_contract/utils.rs: generate_mpt_root_changes", "core/executor/src/system_contract/image_cell/mod.rs"]}
{"id": "C75", "title": "Cell keys and cell records round-trip", "statement": "Cell keys are injective and decode to exactly the out point they encode; stored cell records and packed outputs read back unchanged.", "quantifier": "every out point, record and output", "why_tests_cant": "The test tries ten random keys.", "anchors": ["core/executor/src/system_contract/image_cell/store.rs: CellKey, CellInfo, save_cells", "core/executor/src/system_contract/image_cell/abi/mod.rs"]}
{"id": "C76", "title": "Precompiled contracts charge their price", "statement": "A finished call to a precompiled contract is charged exactly the price of the protocol for its input and never more than its gas limit, and a call runs out of gas exactly if the limit is below the price.", "quantifier": "every standard precompiled contract, input and gas limit", "why_tests_cant": "Tests call each contract without a limit on one or two inputs.", "anchors": ["core/executor/src/precompiles/*.rs: gas_cost, exec_fn"]}
{"id": "C77", "title": "BLAKE2F computes the compression function of RFC 7693", "statement": "For every 213-byte input the BLAKE2F precompile returns the RFC 7693 compression function of the parsed state, message, counters and flag with the given number of rounds, charges one gas per round, and refuses other lengths and flags.", "quantifier": "every input, round count and gas limit", "why_tests_cant": "Tests check 0 and 12 rounds of one message.", "anchors": ["core/executor/src/precompiles/blake2_f.rs"]}
{"id": "C78", "title": "Precompiled contracts accept the inputs of the protocol", "statement": "Precompiled contracts treat short, long and malformed inputs as the EVM specification demands.", "quantifier": "every input", "why_tests_cant": "Malformed inputs of every length.", "anchors": ["core/executor/src/precompiles/{ecrecover,ec_add,ec_mul,ec_pairing,identity,sha256,ripemd160}.rs", "core/executor/src/precompiles/mod.rs: read_point, read_fr"]}
{"id": "C79", "title": "CKB-VM calls are paid for", "statement": "A program run by the CKB-VM precompile never uses more cycles than its gas pays for, is charged for the cycles used, and no gas limit aborts the node.", "quantifier": "every program, input and gas limit", "why_tests_cant": "No test runs it; limits are attacker controlled.", "anchors": ["core/executor/src/precompiles/call_ckb_vm.rs", "core/interoperation/src/lib.rs"]}
{"id": "C80", "title": "Table of precompiled contracts", "statement": "Every precompiled contract is reached by its own address and by no other; no other address leads to one.", "quantifier": "every address", "why_tests_cant": "All addresses.", "anchors": ["core/executor/src/precompiles/mod.rs: build_precompile_set, addresses"]}
{"id": "C81", "title": "Receipts of an executed block", "statement": "A block with as many responses as transactions gets one receipt per transaction, in order; receipt i holds the hash and sender of transaction i, position i, the position in the block of its first log, the gas it used, its result, created address and logs, and a bloom made of exactly its logs; and the logs gathered for the header are those of the responses in order.", "quantifier": "every block, every list of responses", "why_tests_cant": "Running positions depend on everything executed before in the block.", "anchors": ["core/consensus/src/engine.rs: generate_receipts_and_logs", "protocol/src/types/receipt.rs"]}
{"id": "C82", "title": "What eth_getTransactionReceipt reports", "statement": "The reported receipt of transaction i of a block has its hash, sender, target, type and position, the block it is in, the gas it used, the gas used in the block up to it, the price it paid, its status, the created contract, and its logs in order, each with its position in the block; eth_getLogs reports the same logs with the same positions.", "quantifier": "every executed block, every transaction in it", "why_tests_cant": "Positions and running totals depend on the other transactions of the block.", "anchors": ["core/api/src/jsonrpc/web3_types.rs: Web3Receipt::new", "core/api/src/jsonrpc/impl/web3.rs: get_transaction_receipt, from_receipt_to_web3_log"]}
{"id": "C83", "title": "eth_getLogs returns the matching logs of the range", "statement": "For a range of blocks within the permitted size, eth_getLogs returns exactly the logs of the blocks of the range that match the filter, in chain order, each once, with their block, transaction and position; a query by block hash returns those of that block.", "quantifier": "every chain, range and filter", "why_tests_cant": "All chains and filters.", "anchors": ["core/api/src/jsonrpc/impl/web3.rs: get_logs, get_block_range"]}
{"id": "C84", "title": "No JSON-RPC request aborts the node", "statement": "Whatever parameters a client sends to a JSON-RPC method, and whether or not it waits for the answer, the method answers with a result or an error; the node process goes on.", "quantifier": "every request in every state the node can get into", "why_tests_cant": "All parameter values and all histories of filters.", "anchors": ["core/api/src/jsonrpc/impl/filter.rs", "core/api/src/jsonrpc/impl/web3.rs: get_transaction_by_block_hash_and_index", "core/run/src/components/system.rs: set_hook"]}
{"id": "C85", "title": "A method with a block parameter answers about that block", "statement": "eth_getBalance, eth_getTransactionCount, eth_getCode, eth_getStorageAt, eth_call, eth_estimateGas and the methods by block number report the state after the block that the parameter stands for, and an error or null if it stands for no block.", "quantifier": "every chain and block parameter", "why_tests_cant": "All chains, all numbers and hashes.", "anchors": ["core/api/src/jsonrpc/impl/web3.rs: get_block_number_by_id, get_balance, get_transaction_count, get_code, get_storage_at, call, estimate_gas"]}
{"id": "C86", "title": "Reward percentiles of eth_feeHistory", "statement": "eth_feeHistory accepts exactly ascending lists of percentiles between 0 and 100, and reports for each block and each percentile the priority fee at this percentile of the block's transactions sorted by priority fee, zeros for empty blocks.", "quantifier": "every list of percentiles, chain and range", "why_tests_cant": "All lists and all chains.", "anchors": ["core/api/src/jsonrpc/impl/web3.rs: check_reward_percentiles, calculate_rewards, calculate_effective_priority_fees_index"]}
{"id": "C87", "title": "The pending transaction count is the next free nonce", "statement": "eth_getTransactionCount with the tag pending reports the first nonce, from the account's nonce on, that no transaction of the account waiting in the pool has.", "quantifier": "every reachable pool, account and account nonce", "why_tests_cant": "All sequences of insertions, packagings and flushes.", "anchors": ["core/mempool/src/pool.rs: get_tx_count_by_address", "core/mempool/src/tx_wrapper.rs: PendingQueue::count", "core/api/src/jsonrpc/impl/web3.rs: get_transaction_count"]}
{"id": "C88", "title": "What the peer store admits, evicts and offers", "statement": "An address enters the peer store only with a peer id and while its IP address is not banned; the book stays within 16384 entries, eviction hits only entries not worth connecting to or crowded network groups, and an address is refused only when nothing can be evicted; offers for dialling, feelers and discovery respect their connection-time windows; banned addresses are forgotten and no longer offered, and reported peers get banned.", "quantifier": "every history of additions, connections, dial attempts, fetches, bans and reports, every random choice", "why_tests_cant": "Eviction needs 16384 entries and random choices; histories and clock values are unbounded.", "anchors": ["core/network/src/peer_manager/peer_store/peer_store_impl.rs (PeerStore)", "core/network/src/peer_manager/peer_store/mod.rs (Group)"]}
{"id": "C89", "title": "A message reaches the handler its endpoint was registered for", "statement": "A text is accepted as an endpoint exactly if it has at most 120 bytes, three or four words and one of the three scheme prefixes; reading the scheme or root of an accepted endpoint never aborts; endpoints are the same to the router exactly if their first three words agree, and then they have the same scheme; a call number appended by the sender is read back by the receiver, at the handler registered for the endpoint, for every endpoint of the node and every 64-bit number.", "quantifier": "every text, every endpoint, every call number, every table of handlers", "why_tests_cant": "The set of texts and call numbers is unbounded; equality by root and prefix checks interact at boundaries no sample covers.", "anchors": ["core/network/src/endpoint.rs (Endpoint, RpcEndpoint)", "core/network/src/reactor/router.rs (register_reactor, route_message)", "protocol/src/constants/endpoints.rs"]}
{"id": "C90", "title": "Received bytes never abort the node, and handlers get what was sent", "statement": "No byte string received on the transmitter protocol aborts the node; a gossiped message, a call and a response packed by one node are given to the handler or the waiting call of the other with the same content, call number and trace; messages for endpoints without a handler have no effect.", "quantifier": "every byte string, every set of handlers, every message, trace and call number", "why_tests_cant": "The input is any byte string chosen by any peer; the node's panic hook turns every panic on this path into a shutdown.", "anchors": ["core/network/src/reactor/mod.rs (react)", "core/network/src/reactor/router.rs (route_message)", "core/network/src/message/mod.rs (trace_id, span_id)", "common/apm/src/tracing.rs (str_to_trace)"]}
{"id": "C91", "title": "Network messages survive the wire", "statement": "Encoding a message and decoding it gives the same message, whatever the order of headers, also through the compression frame for messages of at most 8 MB; unknown fields are skipped; decoding any bytes gives only valid texts, no repeated header, and a message no larger than the bytes.", "quantifier": "every message, every byte string, every lossless compressor", "why_tests_cant": "Map order is random, inputs are unbounded and chosen by peers.", "anchors": ["core/network/src/message/mod.rs (NetworkMessage::encode, NetworkMessage::decode)"]}
{"id": "C92", "title": "Gossip goes to two of every three other sessions and never back", "statement": "A gossiped message is never sent to the session it came from, at most once to any session, to all other sessions but every third, counted from a random start; every other session is hit by two of the three starts; and somebody is always sent the message.", "quantifier": "every list of sessions, every origin, every start", "why_tests_cant": "The start is random and the sessions arbitrary; the unit test only looks at the bare iterator.", "anchors": ["core/network/src/outbound/gossip.rs (gossip, RandomGossip)"]}
{"id": "C93", "title": "Sessions are admitted, counted and dialled within the configured limits", "statement": "After every history of sessions opening and closing, failed dials, protocol errors, bans and tags, the registry holds exactly the sessions the node serves (neither its own feelers nor told to disconnect), one per peer, and its counts of inbound, outbound and all sessions are the true ones. A session is closed on arrival exactly when the limits are used up for its direction, its host is banned and its peer is neither a bootstrap node nor a validator; sessions beyond max_connections, beyond the inbound limit, or from banned hosts are not served. An address is dialled only if its peer has no served session and no earlier dial of it is pending. A protocol error closes the session and bans the host for five minutes; tagging a peer as banned closes its session and bans it until the given time. A dialling round dials at most the number of free outbound slots. A multicast reaches exactly the served sessions of the named peers.", "quantifier": "for all configurations with inbound limit below the maximum, all bootstrap lists, all finite event histories that respect one open session per peer, all clocks and random choices", "why_tests_cant": "The counts and the admission decision depend on the whole history of sessions, bans and tags; unit tests exercise single calls on an empty registry and never the interaction of always_allow with the limits, the direction counted by the dialling round or the meaning of the ban time.", "anchors": ["core/network/src/service.rs:119-190", "core/network/src/service.rs:349-487", "core/network/src/service.rs:555-686", "core/network/src/peer_manager/mod.rs:32-271", "core/network/src/peer_manager/registry.rs:1-91"]}
{"id": "C94", "title": "Messages of the control protocols arrive as they were sent and hold no more than their bytes", "statement": "Every ping, discovery and identify message is read back by the receiver exactly as the sender built it. Whatever bytes a peer sends, the message read from them holds no more items, addresses and bytes than the input pays for (two bytes per item, two per address, and the address bytes). Distinct byte strings are distinct messages.", "quantifier": "for all messages whose numbers fit 32 bits and whose text is UTF-8, and for all received byte strings", "why_tests_cant": "The repository has no test of these codecs; sampled round trips cannot exclude a value of some length or nesting that is read back differently, nor an input whose decoding outgrows it.", "anchors": ["core/network/src/protocols/ping.rs:223-257", "core/network/src/protocols/discovery/proto.rs:1-84", "core/network/src/protocols/identify/protocol.rs:1-57"]}
{"id": "C95", "title": "The ping protocol closes the sessions that do not answer, and only those", "statement": "Each open session that owes no answer gets exactly one ping per ping timer. A session is closed by the ping protocol exactly if it sends a pong that does not answer the ping it owes, or owes an answer when a check finds its ping at least the timeout old. A session that answers every ping in time is never closed; one that stops answering is closed when its ping is as old as the timeout. Every ping received is answered by one pong with the same nonce; bytes that are no message are held against the sender.", "quantifier": "for all timeouts, all clocks and all interleavings of session openings, closings, received byte strings and timers", "why_tests_cant": "The claim is about unbounded histories of several sessions; there is no test of the handler, and a unit test would fix one order of timers and messages.", "anchors": ["core/network/src/protocols/ping.rs:19-221", "core/network/src/config.rs:33-34"]}
{"id": "C96", "title": "Discovery: requests, answers, beliefs and announcements keep to the rules of the protocol", "statement": "For every execution of the discovery handler: a session is closed exactly on a malformed message, a list beyond the limits (10 announced or 1000 other items, 3 addresses each), a second GetNodes or a second first Nodes, and such a message has no other effect; the first GetNodes is answered once, to that session, with min(1000, count) reachable addresses of those the store offers; every address entered in the store is reachable and named by the message, or is that of the session on the port its peer names; what the node itself sends keeps to these rules, so two nodes running the protocol never close their session over it; announcements hold between one and ten addresses of validators or listening sessions and are those whose lot fell on the session; no message aborts the node.", "quantifier": "all interleavings of sessions, messages and timers, all message bytes, all random choices, all answers of the Bloom filters", "why_tests_cant": "the rules relate whole conversations of two nodes and all messages, including malformed ones; the lots and the lossy filters are random", "anchors": ["core/network/src/protocols/discovery/mod.rs:61-297", "core/network/src/protocols/discovery/state.rs:40-163", "core/network/src/protocols/discovery/proto.rs:22-49"]}
{"id": "C97", "title": "Identify: no session goes on without the identity of a node of the same chain", "statement": "For every execution of the identify handler: other protocols are opened on a session exactly when the node opened it and its peer presents itself for the first time with the chain id of the node (the feeler protocol alone on feeler sessions), at most once per session; a session is closed exactly on a message that is no identity, repeats it, names another chain or more than ten addresses, or when a timer finds that the peer has been silent for eight seconds; listen addresses are believed only from a peer of the same chain, if reachable, at most ten; the identity that a node sends is accepted by every node of the same chain; no message of a known session aborts the node.", "quantifier": "all interleavings of sessions, messages and timers, all message bytes", "why_tests_cant": "the claim is about all byte strings a stranger may send and all orders of events; there is no test of the handler", "anchors": ["core/network/src/protocols/identify/mod.rs:100-385", "core/network/src/protocols/identify/protocol.rs:8-57"]}
{"id": "C98", "title": "A transaction is known everywhere by the same hash", "statement": "Any two nodes holding the same signed transaction, however it reached them, know it by the same hash: the digest of its canonical encoding. Passing a transaction on, answering a pull with it or storing it and reading it back therefore never changes its hash, eth_sendRawTransaction accepts a transaction only under that hash, and a proposal or block naming it can be completed by any node that obtains the transaction from a peer.", "quantifier": "every byte string received, every digest function, every further hop, every pool history and every answer of peers", "why_tests_cant": "Tests use bytes produced by the encoder; the property is about all other byte strings that decode to the same transaction and about what happens one hop later.", "anchors": ["protocol/src/codec/transaction.rs: LegacyTransaction::rlp_decode, Eip2930Transaction::rlp_decode, Eip1559Transaction::rlp_decode, Decodable for SignedTransaction", "protocol/src/types/transaction.rs: calc_hash, get_hash, check_hash, from_unverified", "core/api/src/jsonrpc/impl/web3.rs: send_raw_transaction", "core/mempool/src/adapter/message.rs: NewTxsHandler", "core/consensus/src/synchronization.rs: get_rich_block_from_remote"]}
{"id": "C99", "title": "A reported transaction is the transaction", "statement": "A client reading an object returned by eth_getTransactionByHash, or contained in a block requested with full transactions, by the Ethereum JSON-RPC meaning of its fields recovers exactly the signed transaction: type, nonce, fees, gas, target, amount, input, access list, chain id and signature including the recovery id; its hash is the one it is known by, raw decodes to it, and block number, block hash and index are absent while it is pending and otherwise those of the block and position it was executed at, the same whichever of the two requests is used. Neither request can stop the node.", "quantifier": "every byte string received as a transaction, every chain id, every block and position, every content of pool and storage", "why_tests_cant": "The conversion is only tested on fixed samples without reading the object back; faithfulness is a round trip over all transactions and the agreement of the two requests quantifies over blocks and receipts.", "anchors": ["core/api/src/jsonrpc/web3_types.rs: Web3Transaction::from, update_with_receipt", "core/api/src/jsonrpc/impl/web3.rs: get_transaction_by_hash, get_block_by_number, get_block_by_hash", "protocol/src/types/transaction.rs: add_chain_replay_protection", "core/api/src/adapter.rs: get_transaction_by_hash"]}
{"id": "C100", "title": "A reported block is the block", "statement": "The object returned by eth_getBlockByNumber or eth_getBlockByHash identifies its block: two blocks with equal objects are equal unless the digest collides. Hash, parent, number, time, proposer, roots, bloom, gas, base fee and extra data are those of the block, size is the size of the block and total difficulty the sum of the difficulties; the transactions are listed completely and in order, as hashes or in full at their place; the object of a block names the hash in the object of its parent; both requests give the same object; and the object sent to newHeads subscribers is the header with its hash.", "quantifier": "every block, chain, digest function and selector, with and without full transactions", "why_tests_cant": "Identification and linkage are relations between the objects of all pairs of blocks; tests compare single fields of single blocks.", "anchors": ["core/api/src/jsonrpc/web3_types.rs: Web3Block::from, Web3Header::from", "core/api/src/jsonrpc/impl/web3.rs: get_block_by_number, get_block_by_hash", "protocol/src/types/block.rs: Header::hash, Header::size"]}
{"id": "C101", "title": "A subscriber is told of every new block and of every matching log", "statement": "A client subscribed with eth_subscribe receives, from the moment of its subscription until it closes the connection, the header of every block added to the chain, or every log matching its filter with the position eth_getLogs reports, each exactly once and in chain order, and a subscriber to syncing every change of the status; what other clients subscribe to or close has no influence, and no tick of the notification task stops the node.", "quantifier": "every sequence of subscriptions and ticks, every set of closed connections, every growth of the chain between ticks", "why_tests_cant": "The task is a loop over time with a cursor, several kinds of subscribers and a chain that grows by any number of blocks between ticks; exactly-once delivery is an invariant over all such executions.", "anchors": ["core/api/src/jsonrpc/ws_subscription.rs: Subscription::notify, Subscription::run, subscription_callback, HexIdProvider", "core/api/src/jsonrpc/impl/web3.rs: from_receipt_to_web3_log"]}
{"id": "C102", "title": "A call and an estimate predict the transaction", "statement": "eth_call answers exactly the requests within the chain's limits that name a caller or a target and no reserved address, with what the run of that request on the selected block's state and environment returns, and reports a failed run as such. eth_estimateGas answers a gas limit with which the same request, sent as a transaction, is admitted and succeeds: at least the gas the run takes before refunds, counting the access list, and not above the chain's limit.", "quantifier": "every request, block selector, chain, state and behaviour of the virtual machine", "why_tests_cant": "The relation is between two entry points over every behaviour of the machine (gas taken, refunds, dependence on gas and environment); a test fixes one contract and one request.", "anchors": ["core/api/src/jsonrpc/impl/web3.rs: call, estimate_gas, call_evm, mock_header_by_call_req", "core/api/src/adapter.rs: evm_call", "core/executor/src/lib.rs: Executor::call, AxonExecutor::evm_exec"]}
{"id": "C103", "title": "A node serves what a lagging peer needs to catch up", "statement": "For every number from 1 up to the height a node announces, its answers to the block and proof requests are the stored block and a quorum proof of that block which any peer holding the same earlier blocks accepts; so a lagging peer that follows the announcement and gets all answers ends up with the same chain up to the announced height or 50 blocks further.", "quantifier": "for all executions of commits, synchronisation and crashes of the serving node, all numbers, all states of the requesting peer that agree on the earlier blocks", "why_tests_cant": "The answers depend on how the latest proof, the latest block and the headers relate after every interleaving of commit, synchronisation and crash; tests serve a fixed chain.", "anchors": ["core/consensus/src/message.rs:241-341", "core/consensus/src/synchronization.rs:114-203", "core/consensus/src/engine.rs:302-362", "core/consensus/src/adapter.rs:188-246"]}
{"id": "C104", "title": "Consensus messages reach the other node's Overlord unchanged, and only they do", "statement": "What the consensus engine of a node broadcasts or sends to the relayer is submitted, as the same message of the same kind, to the Overlord of every node that the bytes reach; conversely Overlord is given a message of a kind only if a well-formed network message arrived at the endpoint of that kind carrying an RLP string which decodes to it. Sync requests, height announcements and replies reach the handler or call they belong to.", "quantifier": "for all codecs of the Overlord messages that decode what they encode, all messages, kinds, trace contexts, call numbers, heights and lists of hashes, and for the converse all byte strings received", "why_tests_cant": "The path runs through five layers of codecs, the endpoint table and the reactor; the converse quantifies over all byte strings a peer may send.", "anchors": ["core/consensus/src/engine.rs:371-436", "core/consensus/src/consensus.rs:35-103", "core/consensus/src/message.rs:20-341", "core/run/src/components/network.rs:65-145", "protocol/src/constants/endpoints.rs:1-15"]}
{"id": "C105", "title": "A light client's verify_proof means that a quorum voted for this block", "statement": "The verify_proof of the light client library accepts a block, parent state root, validator set and proof exactly if the proof names the digest of the proposal made of the block and more than two thirds of the validators signed the precommit that the proof describes; for every block after genesis it gives the answer of the node's own verify_proof, and a proof accepted for two blocks proves the same header.", "quantifier": "for all digests, signature checks, validator sets with distinct keys, blocks, state roots, proofs and bitmaps", "why_tests_cant": "Two separately written encoders, sorters and threshold computations have to agree on every block, every bitmap and every set of validators; the tests compare one recorded block.", "anchors": ["devtools/axon-tools/src/proof.rs:28-104", "devtools/axon-tools/src/rlp_codec.rs:22-53", "core/consensus/src/adapter.rs:472-571", "protocol/src/types/block.rs:86-109"]}
{"id": "C106", "title": "The methods for light clients serve a verifiable chain and the true hardfork status", "statement": "axon_getBlockById, axon_getProofById and axon_getProposalByNumber answer the stored block, a proof of the block asked for and its proposal, so that a light client that feeds them to verify_proof accepts every block of a sealed chain; requests with an impossible number are refused; axon_getHardforkInfo reports a name as enabled, determined or proposed exactly when it is in force, will be in force at a later height of the registered list, or is only proposed by this node.", "quantifier": "for all stored chains whose blocks are proved by their children, all block identifiers and numbers, all histories of registered hardforks, all heights and flags", "why_tests_cant": "The relation between a block and the proof in another header ranges over all chains; the status depends on the whole history of registered entries, of which the unit test has four lists.", "anchors": ["core/api/src/jsonrpc/impl/axon.rs:28-205", "core/api/src/adapter.rs:84-100", "protocol/src/types/block.rs:86-109", "core/executor/src/lib.rs:502-507"]}
{"id": "C107", "title": "A hardfork is enabled only by agreement, from its start number on, and equally on all nodes", "statement": "A hardfork enters a block only if the operators of the proposer and of every node that accepted the block asked for exactly this hardfork before its start number; committing the block puts its flags in force from the start number on without changing those of executed blocks, after which the nodes forget the proposal; and a running node executes each block under the flags that its chain determines.", "quantifier": "for all sequences of operator commands, starts, stops, proposed, committed, synchronised and refused blocks, all flags and start numbers", "why_tests_cant": "The flags live in a process-wide variable, a database entry and the state, which have to stay consistent over arbitrary sequences of events on a node; no test covers the interplay.", "anchors": ["core/run/src/lib.rs:530-616", "core/consensus/src/engine.rs:89-111", "core/consensus/src/engine.rs:170-194", "core/consensus/src/engine.rs:681-708", "core/executor/src/system_contract/metadata/mod.rs:109-137", "core/consensus/src/synchronization.rs:302-375", "common/config-parser/src/types/spec.rs:219-282"]}
{"id": "C108", "title": "Overlord accepts exactly the votes signed by the validators of the next block", "statement": "With the table of keys that a node makes of a validator list, a vote is accepted exactly when it is signed with the BLS key of the validator it names; votes accepted one by one aggregate to a signature accepted for the same voters, while missing keys, different lengths and empty voter lists are refused; an aggregate accepted for a set of voters needs the signature of each of them; and the table in use is always that of the validators for the next block.", "quantifier": "for all validator lists, votes, hashes and voter lists; all sequences of starts, stops, committed and synchronised blocks; all assignments of validators to epochs", "why_tests_cant": "The table is kept by three separate pieces of code (start, commit, synchronisation) that must agree over arbitrary sequences of events and epochs; the aggregation ranges over arbitrary sets of voters and keys chosen by adversaries.", "anchors": ["core/consensus/src/util.rs:45-176", "core/consensus/src/engine.rs:709-726", "core/consensus/src/engine.rs:759-762", "core/consensus/src/engine.rs:789-800", "core/run/src/lib.rs:214-226", "core/run/src/lib.rs:377-396", "core/consensus/src/synchronization.rs:302-375"]}
{"id": "C109", "title": "State proofs verify against the header and report what the virtual machine reads", "statement": "eth_getProof answers for every address and list of positions with the balance, nonce and storage that the virtual machine reads in the state of the chosen block, with proofs that a client who knows only the state root of the header can check; no answer that passes these checks reports anything else; and eth_getStorageAt reports the same storage.", "quantifier": "for all well-formed states, addresses, lists of positions, and all answers of possibly dishonest servers; all executed change lists", "why_tests_cant": "Agreement between the proof service and the virtual machine ranges over all states and histories, including accounts written by the genesis block only and addresses without an account; forged answers cannot be enumerated.", "anchors": ["core/api/src/adapter.rs:232-331", "core/api/src/jsonrpc/impl/web3.rs:969-995", "core/api/src/jsonrpc/impl/web3.rs:1030-1054", "core/executor/src/adapter/backend/read_only.rs:160-187", "core/executor/src/adapter/trie/wrapped.rs:13-43", "core/run/src/components/storage.rs:91-103"]}
{"id": "C110", "title": "The Merkle proof contract accepts exactly the true statements about CKB blocks", "statement": "The contract for CKB Merkle proofs accepts a payload only if the two roots hash to the transactions root and every given leaf is the transaction (or witness) at its index in the tree of the chosen root; for every set of leaves the proof built from the tree is accepted; the check for clients in axon-tools agrees with it; and success is reported as a boolean.", "quantifier": "for all trees of any size, all payloads, indices, lemmas and leaves, all gas limits", "why_tests_cant": "The unit test checks one tree; soundness is about all proofs an adversary may write, completeness about all subsets of leaves of trees of any size.", "anchors": ["core/executor/src/precompiles/ckb_mbt_verify.rs:15-113", "devtools/axon-tools/src/precompile.rs:7-92"]}
{"id": "C111", "title": "eth_syncing describes the synchronisation batch that is running", "statement": "eth_syncing answers false exactly when no batch of blocks is being fetched from peers. While one is, the answer's starting number is where the batch began, its current number is the number of the newest stored block, its highest number is what the peers announced, starting <= current <= highest, and current never goes back within a batch.", "quantifier": "for all interleavings of consensus commits, proposals, synchronisation steps, storage failures, panics and restarts, from any genesis block", "why_tests_cant": "The global is written by one task and read by others at any moment; whether it can be left behind depends on which of the awaits at the end of a batch fails, and the unit tests only call start, add_one and finish in order.", "anchors": ["core/consensus/src/synchronization.rs:20-97", "core/consensus/src/synchronization.rs:138-206", "core/consensus/src/synchronization.rs:501-566", "core/api/src/jsonrpc/impl/node.rs:44-46", "core/api/src/jsonrpc/web3_types.rs:647-692"]}
{"id": "C112", "title": "Every RPC method is served under its name, alike over HTTP and WebSocket", "statement": "Merging the RPC modules never panics and never lets one module shadow another; every Ethereum method the node implements answers under its published name on both servers; both servers serve the same methods with the same handlers apart from the subscriptions, and refuse exactly the requests and responses larger than the configured payload.", "quantifier": "for all module tables merged in any sequence, all method names, all configured payload sizes, all sizes of requests and responses", "why_tests_cant": "No test starts the servers; the table is assembled at run time from macros and the limits are set by builder calls whose effect shows only with payloads above them.", "anchors": ["core/api/src/jsonrpc/mod.rs:29-253", "core/api/src/jsonrpc/mod.rs:255-316", "core/api/src/jsonrpc/ws_subscription.rs:27-45"]}
{"id": "C113", "title": "No log record is lost when log files are rolled", "statement": "After any sequence of log records, reading the archives in the order in which they were made and then the current file gives every record exactly once, in order; the names of archives made at different seconds differ; and a roller is only made from a pattern with both marks.", "quantifier": "for all patterns, calendars, size limits, sequences of records, clock readings and outcomes of the file system calls at every roll", "why_tests_cant": "The unit test rolls one file; loss depends on when rolls happen relative to each other and on which file system call fails.", "anchors": ["common/logger/src/date_fixed_roller.rs:10-103", "common/logger/src/lib.rs:60-92"]}
{"id": "C114", "title": "The logger's switches and levels decide where records go", "statement": "A record reaches the console only if log_to_console is set and the file only if log_to_file is set, and then exactly when its level passes the level configured for its module, or the filter if there is none; metrics records reach only the metrics file and only if metrics are on; every configuration of module levels lets the node start; and level names mean what they say.", "quantifier": "for all arguments of init, any number of configured modules with any names and levels, all targets and levels of records", "why_tests_cant": "The logger is a process-wide global that can be set once, so tests see one configuration; routing depends on the prefix relation between arbitrary module names.", "anchors": ["common/logger/src/lib.rs:40-154"]}
{"id": "C115", "title": "Clients read from JSON what the node wrote", "statement": "For every block, header, proof, proposal and metadata, what axon-tools reads from the node's JSON is what the node had, every text is either read with its value or refused, and both sides can read back what they write.", "quantifier": "for all blocks, headers, proofs, proposals, metadata and all JSON texts, including those of a hostile server", "why_tests_cant": "The tests read three recorded files; the two type definitions are kept in step by hand, and the number parser slices texts at byte positions and drops upper bits, which shows only for unusual texts.", "anchors": ["devtools/axon-tools/src/types.rs:93-131", "devtools/axon-tools/src/types.rs:163-345", "devtools/axon-tools/src/types.rs:386-545", "devtools/axon-tools/src/types.rs:582-693", "protocol/src/types/block.rs:64-85", "protocol/src/types/block.rs:268-366", "protocol/src/types/primitive.rs:285-549"]}
{"id": "C116", "title": "Roots commit to transactions, receipts and state, and proofs tell the truth", "statement": "The root of a trie depends on its contents only, whatever the order of insertions and removals; lists of transactions or receipts with the same root are equal; a proof by position verifies against the root to exactly the entry at this position, or to its absence, and no list of nodes verifies to anything else.", "quantifier": "every history of writes, every pair of lists, every position and every list of nodes, for every hash function without collisions among the strings that occur", "why_tests_cant": "Tests compare a few roots with reference values; commitment and unforgeability speak about all pairs of contents and all lists of nodes an adversary may send.", "anchors": ["common/merkle/src/lib.rs:58-107", "core/consensus/src/engine.rs:79-87", "core/consensus/src/engine.rs:608-641", "core/executor/src/lib.rs:192-200", "core/executor/src/adapter/trie/wrapped.rs:11-65", "devtools/axon-tools/src/proof.rs:17-26", "protocol/src/types/primitive.rs:35-40"]}
{"id": "C117", "title": "The receipts root says what every transaction of the block did", "statement": "Every leaf under the receipts root of a block reads, by the rules of EIP-2718, as the type, status, cumulative gas, bloom and logs of the transaction at its position; blocks with the same receipts root have equally many transactions with the same of these; and the root a client recomputes from the receipts reported by eth_getTransactionReceipt is the root in the header.", "quantifier": "every executed block, every pair of blocks and every hash function without collisions among the strings that occur", "why_tests_cant": "Tests check the root of a fixed block; that no other block has this root, and that every report agrees with it, speaks about all blocks.", "anchors": ["protocol/src/types/transaction.rs:475-516", "core/executor/src/lib.rs:137-200", "core/api/src/jsonrpc/web3_types.rs:159-231"]}
{"id": "C118", "title": "Every transaction let into the pool is relayed exactly once", "statement": "Every transaction that the pool accepts from a client or a peer is handed to gossip exactly once, with the session it came from as its origin and in the order of arrival, in batches of at most the configured size and at the latest with the next tick; the answer to an insertion tells of that insertion only; a batch that could not be sent is sent later; the counters of the handler count failures and successes apart.", "quantifier": "every sequence of insertions, commits, evictions and turns of the broadcasting task, every verdict of checks, pool and network, and every order of draining the cache", "why_tests_cant": "The test of the broadcaster sends a few transactions on a fixed schedule; loss, repetition and blame depend on the interleaving of callers, the task, ticks and failures.", "anchors": ["core/mempool/src/adapter/mod.rs:42-115", "core/mempool/src/adapter/mod.rs:366-384", "core/mempool/src/lib.rs:95-136", "core/mempool/src/adapter/message.rs:17-79"]}
{"id": "C119", "title": "Addresses as text are EIP-55, one text each, and keys have one address", "statement": "The text written for an address is its EIP-55 form; reading it gives the address; no other text reads as this address, and no text aborts the reader; a public key has the same address in its compressed and its full form, and what is no public key has none.", "quantifier": "every address, every text, every public key and every hash function", "why_tests_cant": "The tests check one address; that no second text is accepted is a statement about all texts.", "anchors": ["protocol/src/types/primitive.rs:192-289", "protocol/src/types/primitive.rs:650-688", "protocol/src/codec/mod.rs:142-151"]}
{"id": "C120", "title": "A new data directory holds exactly the specified chain", "statement": "Running init with a chain specification succeeds exactly when the genesis metadata fits (epoch 0, version and last block acceptable), refuses an existing directory, and afterwards the node starts at block 0 with the specification's time stamp, base fee, chain identifier, hardforks, validators and configuration; every listed account has its listed balance and every other account is empty; epochs 0 and 1 have the specified length and validators and no later epoch exists; stopping init at any write leaves a directory that either does not start or starts as if init had completed; two specifications with the same genesis header describe the same chain.", "quantifier": "every chain specification (accounts, metadata, hardforks, times, fees), every state and metadata root function that does not yield zero metadata roots, and every point of interruption", "why_tests_cant": "The existing test compares one state root for one specification; lists of accounts, epoch parameters near the u64 limit, all interruption points and pairs of specifications are unbounded.", "anchors": ["core/run/src/lib.rs:51-111", "core/run/src/lib.rs:134-222", "core/run/src/lib.rs:447-528", "core/run/src/components/storage.rs:60-103", "core/run/src/components/chain_spec.rs:13-23", "core/executor/src/system_contract/mod.rs:146-203", "common/config-parser/src/types/spec.rs:195-260"]}
{"id": "C121", "title": "The database is a set of independent typed tables, whichever adapter holds it", "statement": "For every sequence of inserts, reads, removals, membership tests and batches on the twelve schemas of the storage layer, the RocksDB adapter and the memory adapter give the same replies, and these are the replies of independent typed tables: a read returns exactly the value written last under that key of that table, a removed key is absent, a batch changes all its keys or, when it is refused or a value cannot be encoded, none. Reading many transactions or receipts of one height by their hashes returns for each hash what its table holds under the height and the hash.", "quantifier": "for all sequences of adapter calls, all keys and values of every schema, all heights and lists of hashes", "why_tests_cant": "Separation of tables depends on no two keys of one column family having the same bytes, on every codec being inverted by its decoder, and on the byte order of keys that an iterator relies on; tests store a few rows.", "anchors": ["core/db/src/rocks.rs", "core/db/src/memory.rs", "core/storage/src/schema.rs:23-46", "core/storage/src/hash_key.rs", "core/storage/src/lib.rs:246-345"]}
{"id": "C122", "title": "Concurrent calls of the pool act as if made one after another", "statement": "Whatever insertions, insertions of system calls, packages, rounds of the background task and flushes run concurrently on one pool, and however their accesses to the shared counter, queue, maps and locks interleave: nobody pops an empty queue, some call can always go on, and the pool equals (up to the order of packageable transactions) what the calls lead to when made one after another, in an order in which each takes effect exactly once between its begin and its return; the size counter agrees once all calls have returned; a package lists at most the asked number of different transactions that the pool holds. Every transaction answered as inserted is queued, and an insertion is refused only when the pool is full.", "quantifier": "for all capacities above zero, all finite sets of calls started at any time, and all interleavings of their atomic steps", "why_tests_cant": "The number of interleavings is unbounded and the interesting ones need a thread to stop between two particular instructions; tests run one schedule at a time.", "anchors": ["core/mempool/src/pool.rs:64-88", "core/mempool/src/pool.rs:103-205", "core/mempool/src/pool.rs:238-248", "core/mempool/src/pool.rs:386-394"]}
{"id": "C123", "title": "Call data of the system contracts mean exactly the call they encode", "statement": "For each of the three system contracts (metadata, image cells, light client): the encoding of a call, followed by any further bytes, decodes to that call; the first four bytes of accepted call data are those of the decoded method, so the order in which the methods are tried does not matter, and data with another selector change nothing; no call data, precompile input or stored header makes the decoder panic; each decoded list is at most as long as its words in the data, and so are all lists together; values outside the range of their type are refused. The input and output of the precompiles that read cells and headers are encodings of the out point or hash and of what is stored.", "quantifier": "all calls with all argument lists, all call data and all trailing bytes (less than 4 GiB), all states of the contracts", "why_tests_cant": "The code has one test that encodes and decodes one call with static members. Arrays of dynamic tuples nest three deep, offsets in the data are under the control of the sender, and that none of them panics or confuses the methods is a statement about all byte strings.", "anchors": ["core/executor/src/system_contract/metadata/abi/metadata_abi.rs:59-201", "core/executor/src/system_contract/image_cell/abi/image_cell_abi.rs:59-306", "core/executor/src/system_contract/ckb_light_client/abi/ckb_light_client_abi.rs:59-224", "core/executor/src/system_contract/ckb_light_client/store.rs:90-109", "core/executor/src/precompiles/get_cell.rs:20-80", "core/executor/src/precompiles/get_header.rs:18-58"]}
{"id": "C124", "title": "What a node knows of its peers survives a restart", "statement": "When a node starts, its address book and its ban list say what the last successful dump wrote, or a later dump that was interrupted: whatever calls of the operating system failed and whenever the process was killed, each of the two files in place is whole, and it is read as it was written: every address with its score, times and attempts under its socket address, and every ban with its network and its end, whatever order the hash maps had. Whatever bytes the files hold, the node starts, with a well-formed store that knows nothing the files do not say. Nothing that the node learnt is lost by a stop and a start.", "quantifier": "for all sequences of dumps with arbitrary contents, arbitrary failures of the calls and kills at any step, over any number of lives of the process, all addresses, ban lists and times, and all contents of the files", "why_tests_cant": "The unit tests dump and load one store in a temporary directory; they cannot kill the process at every byte of every write after every earlier history, nor try all texts of addresses and reasons, nor all contents of a damaged file.", "anchors": ["core/network/src/peer_manager/peer_store/peer_store_db.rs:20-151", "core/network/src/peer_manager/peer_store/types.rs:36-118", "core/network/src/service.rs:517-536", "core/network/src/peer_manager/mod.rs:46"]}
{"id": "C125", "title": "Only the holder of an account's key can send from it", "statement": "If signatures cannot be forged, every transaction that a node admits as sent by an account, from a peer or by eth_sendRawTransaction, was signed, with this very content and for this chain, by the holder of a key of the account; this holds for Ethereum signatures and for interoperation signatures, whose check succeeds only if the program they name approves, and costs no more than the transaction pays for.", "quantifier": "for all byte strings received, all keys, curves and digests, all contents of the cell store, all programs and all limits", "why_tests_cant": "Forgery is a statement about all byte strings an adversary may send; the tests only present well-formed signatures made by the test's own key and never look at the exit code of a program.", "anchors": ["protocol/src/types/transaction.rs:318-461", "protocol/src/types/interoperation.rs:56-110", "core/interoperation/src/lib.rs:42-66", "core/mempool/src/adapter/mod.rs:293-321"]}
{"id": "C126", "title": "A node works at each height with the validators, timings and limits of the chain", "statement": "Whatever sequence of starts, stops, commits and synchronisation rounds brought a node to a height, Overlord works there with exactly the validators and weights registered for this height, with the interval and the ratios of the configuration in force, the pool and the proposals obey the limits of this configuration, and the node goes on to the next height whenever the chain holds metadata for it.", "quantifier": "for all chains that register epochs in order and change the configuration at any block; all sequences of starts, stops, commits and synchronisation rounds of any length", "why_tests_cant": "Three pieces of code read the metadata at different moments and for different block numbers; their agreement is about all histories across epoch boundaries, which unit tests of one function do not reach.", "anchors": ["core/run/src/lib.rs: start, get_status_agent, run_overlord_consensus", "core/consensus/src/consensus.rs: OverlordConsensus::new, run, gen_overlord_status", "core/consensus/src/engine.rs: commit, update_status, get_authority_list, alert_missing_next_metadata, convert_to_overlord_authority", "core/consensus/src/synchronization.rs: commit_block, update_status", "core/mempool/src/adapter/mod.rs: set_args"]}
{"id": "C127", "title": "The metadata trie gives back what was written", "statement": "Everything the metadata contract keeps - epochs with their ranges, validators with keys, addresses and weights, counters of proposals, the configuration, the CKB information and the table of hardforks - is kept as bytes in one trie, and everything read from that trie is what was submitted: for each block the full metadata accepted for its epoch with the configuration submitted last, for each validator the blocks credited to it, the CKB information submitted last, the flags announced by the executed headers. Blocks and epochs that have no metadata give an error, never another epoch's data. Two nodes whose metadata tries have the same root read the same.", "quantifier": "for all histories of transactions to the metadata contract and block ends, all contents of the records, all epochs and blocks, under the assumption that the keys in use and the pieces of the two tries do not collide under the hash", "why_tests_cant": "The tests write one or two records and read them back; that no write disturbs any other record, at every key and after every history, and that the bytes determine the records, is a statement about all of them.", "anchors": ["core/executor/src/system_contract/metadata/store.rs:26-262", "core/executor/src/system_contract/metadata/mod.rs:46-200", "core/executor/src/system_contract/metadata/handle.rs", "core/executor/src/system_contract/metadata/segment.rs", "protocol/src/types/primitive.rs:324-470"]}
{"id": "C128", "title": "Every committed state can be opened again by its root and reads as it was", "statement": "The state trie and the storage tries of all accounts live as encoded nodes in one database, the codes beside it. Whatever sequence of changes, account updates, commits and re-openings is run: no operation fails, every read of an address (existence, balance, nonce, code, slots) gives what was written last, the root a commit returned opens the state that was committed however much was written since, and two nodes that commit get the same root exactly if all their accounts, codes and slots are equal, however differently they got there.", "quantifier": "for all histories of changes, account updates, commits and re-openings, all addresses, slots, codes and values, under the assumption that the strings hashed in the history do not collide and none of them hashes to zero", "why_tests_cant": "Tests commit a handful of accounts and read them back; that no later write, deletion or storage reset ever damages a node that an older root needs, and that equal roots mean equal contents, are statements about all histories.", "anchors": ["core/executor/src/adapter/backend/apply.rs:128-300", "core/executor/src/adapter/backend/read_only.rs:36-226", "core/executor/src/adapter/trie/wrapped.rs:12-69", "core/executor/src/adapter/trie/db.rs"]}
{"id": "C129", "title": "The metadata of every committed block can be read from its state root", "statement": "The metadata contract keeps its trie in a database of its own, opens it for every call by a root kept in a slot of the state, and commits it after every call. Whatever transactions, block ends, other changes of the state, commits and restarts happen: the store opened is always the one the last successful operation left; the root in use is the one in the state; the state root of any committed block leads to the validators, configuration, CKB information and hardforks submitted by then, whatever was submitted later; and stopping after a commit and starting again at that state, with the hardfork flags recomputed for its block, changes nothing.", "quantifier": "for all histories of metadata transactions, block ends, other state changes that leave the slot of the root alone, commits and restarts, and all committed roots in them, under the assumption that the strings hashed in the history do not collide and none of them hashes to zero", "why_tests_cant": "The tests of the contract run a few calls in one process over one store; that every old root keeps its nodes, that the thread-local root, the slot and the trie never disagree, and that a restart at any committed state is invisible, are statements about all histories.", "anchors": ["core/executor/src/lib.rs:398-407", "core/executor/src/system_contract/metadata/mod.rs:48-137", "core/executor/src/system_contract/metadata/store.rs:48-72", "core/executor/src/system_contract/metadata/handle.rs", "core/executor/src/system_contract/utils.rs:39-101", "core/run/src/lib.rs:203-213"]}
{"id": "C130", "title": "The CKB headers and cells of every committed block can be read from its state root", "statement": "The CKB light client and the image cell contract share one trie in a database of their own, open it for every call by a root that both keep in a slot of the state, and commit it after every call. Whatever calls (accepted, reverted or refused), other changes of the state, commits and restarts happen: the slots of both contracts hold the root in use; from the state root of any committed block one reads, through either contract, exactly the headers and cells that the accepted calls up to that block left, whatever was called later; no call panics as long as the nonce of its sender can be increased; and stopping after a commit and starting again at that state changes nothing.", "quantifier": "for all histories of calls, other state changes that leave the slots of the root alone, commits and restarts, all committed roots in them and all headers and cells asked for, under the assumption that the strings hashed in the history do not collide and none of them hashes to zero", "why_tests_cant": "The tests of the two contracts make a few calls in one process; that two contracts writing one trie never lose each other's root, that every old root keeps its nodes and that a restart at any committed state is invisible are statements about all histories.", "anchors": ["core/executor/src/lib.rs:398-403", "core/executor/src/system_contract/mod.rs:144-180", "core/executor/src/system_contract/image_cell/mod.rs:30-77", "core/executor/src/system_contract/image_cell/store.rs:60-228", "core/executor/src/system_contract/ckb_light_client/mod.rs:30-86", "core/executor/src/system_contract/ckb_light_client/store.rs:53-140", "core/executor/src/system_contract/utils.rs:39-101"]}
{"id": "C131", "title": "Proofs of the accounts and slots of every past block check out against its state root, and nothing else does", "statement": "Whatever changes, commits and restarts the state has gone through: for the state root of any committed block and any account that existed in it, eth_getProof answers with the nonce, balance and code hash of the account in that block and the values of the positions asked for, and a client who knows the state root only accepts the account proof and all storage proofs. Conversely, an answer made by anybody that passes these checks (strictly, as a client does that refuses incomplete proofs) reports exactly what the state of that block held, and an accepted proof of absence belongs to an address without an account. eth_getStorageAt answers for every committed root, address and position with the value the slot had in that block, zero when there is no account or no storage.", "quantifier": "for all histories of the state database, all committed roots in them, all accounts and positions and, for the converse, all answers; positions are asked for of accounts that have storage, accounts without storage are asked for without positions once an empty storage trie has been written, under the assumption that the strings hashed in history and answer do not collide", "why_tests_cant": "The tests prove a few keys of one fresh trie; that the nodes of all older states are kept, that every proof made from them is accepted and that no forged answer is are statements about all histories and all byte strings.", "anchors": ["core/api/src/adapter.rs:232-331", "core/api/src/jsonrpc/impl/web3.rs:969-995", "core/api/src/jsonrpc/impl/web3.rs:1030-1054", "core/executor/src/adapter/trie/wrapped.rs:11-65", "core/executor/src/adapter/backend/read_only.rs:119-160", "core/executor/src/adapter/backend/apply.rs:1-140"]}
{"id": "C132", "title": "The node reports the CKB headers and cells that were submitted, with their hashes", "statement": "For every committed block, asking the light client RPC (or, from a script, the data provider) for a CKB header or cell gives the header last accepted under this hash, field by field and with its extension, or the output and data with which the cell was created; what was never accepted or was rolled back is not found. The hash reported for a header is the hash of its packed CKB form and is the hash asked for; the hash reported for the data of a cell is the one CKB uses, and the same for the RPC and for scripts. No request makes the node stop.", "quantifier": "for all histories of calls, other state changes, commits and restarts, all committed roots in them and all hashes and out points asked for", "why_tests_cant": "The tests look up a header and a cell right after writing them, with well-formed values; which fields survive, that the hash matches and that no accepted value is fatal to a reader are statements about all histories and values.", "anchors": ["core/api/src/jsonrpc/impl/ckb_light_client.rs:21-60", "core/api/src/adapter.rs:356-366", "core/executor/src/system_contract/mod.rs:237-319", "core/executor/src/system_contract/image_cell/store.rs:150-196", "core/executor/src/system_contract/image_cell/store.rs:282-301", "core/executor/src/system_contract/ckb_light_client/mod.rs:77-86"]}
{"id": "C133", "title": "A signed CKB transaction unlocks the cells of the key and is otherwise the one prepared", "statement": "Signing a prepared transaction succeeds whenever the witnesses named are witness arguments and the others exist. It changes nothing but the locks of the witnesses named: raw part and transaction hash, number of witnesses, the other witnesses and the input and output types stay. Each lock becomes the signature, at byte 20 of its witness, for the hash of the transaction hash and of the prepared witness and the others of its action, each with its length. If the transaction was prepared for the default lock (65 zero bytes in the lock, the others being the rest of the group and the witnesses beyond the inputs), every group of the signed transaction passes that lock, in whatever order the groups are given.", "quantifier": "for all transactions, all lists of signature actions, all hashes and all keys whose signatures are valid and 65 bytes long", "why_tests_cant": "There is no test of sign in the repository; a test would sign one transaction with one group, while the order of groups, groups with several inputs, extra witnesses and other fields of the witness are statements about all transactions.", "anchors": ["protocol/src/types/ckb_client.rs:20-99", "protocol/src/types/ckb_client.rs:102-131", "core/rpc-client/src/client.rs:175-203"]}
{"id": "C134", "title": "An error answer of the RPC tells what went wrong", "statement": "Errors of different kinds have different codes, and from code, message and data of an error answer the client can tell the values of the error (numbers, ranges, texts). eth_call and eth_estimateGas answer with the result exactly if the run succeeded. If the contract reverted, the data of the error decode to exactly what it returned; if it failed otherwise, they name the reason, and different reasons are named differently. The message says that a run reverted only if it did, and no returned data stop the node.", "quantifier": "for all errors with all their values, all exit reasons and all return data", "why_tests_cant": "Tests compare single messages; that codes never coincide, that printing is injective over all values and exit reasons and that decoding succeeds for all return data are statements about all pairs of errors and all byte strings.", "anchors": ["core/api/src/jsonrpc/error.rs:10-148", "core/api/src/jsonrpc/impl/web3.rs:416-494", "core/executor/src/utils.rs:51-73"]}
{"id": "C135", "title": "The key pairs the command line generates are what nodes run with", "statement": "generate-keypair prints as many pairs as asked for, and afterwards the files net_i.key and bls_i.key of the directory hold exactly the secrets of pair i, so that recover-keypair on them prints the same pair (with index 0). The printed texts can be read back. A node configured with these files has the printed public key as its name in consensus, proposes with the printed address, signs with the secret of the printed BLS key and, unless another key provider is given, has the printed peer id. If the printed keys are entered as a validator in the chain spec, the validator has name, address and peer id of the node, and its signatures are checked with the node's BLS key. No other file is touched. If generation fails, nothing is printed, the pairs before can be recovered from their files, and the files of later pairs are as before.", "quantifier": "for all numbers of pairs, directories, secrets, file contents before, failures to create or write files, and all curves and hashes with keys of the lengths of the libraries", "why_tests_cant": "The tests generate one pair in memory and never write or read it back; that no two pairs share a file, that partial failures leave the others alone and that four places derive the same identity are statements about all runs.", "anchors": ["core/cli/src/args/generate_keypair.rs:34-148", "core/cli/src/args/recover_keypair.rs:28-51", "common/config-parser/src/types/config.rs:132-179", "core/run/src/lib.rs:229-251", "core/run/src/lib.rs:316-328", "core/run/src/lib.rs:377-396", "core/run/src/components/network.rs:56-63", "protocol/src/types/primitive.rs:543-556"]}
{"id": "C136", "title": "The metadata cell data the tool writes is read back as the validators given", "statement": "For every list of fewer than 2^24 validators whose keys have addresses, get-data writes 857 + 149 n bytes in which the keys, address, weights and count of each validator are at fixed positions, and parse-data, on the hex text with or without its prefix and with white space around it, finds the same validators in the same order and prints a file from which get-data writes the same text; get-data aborts exactly when some key has no address; missing numbers are 0, integers out of range are refused and texts are hex numbers.", "quantifier": "all lists of validators, all keys, weights and counts, all surrounding white space, all forms of numbers in files", "why_tests_cant": "The example files are four validators with small numbers; layouts with other counts of validators, numbers near the limits, and files read back and written again for every list are not settled by an example.", "anchors": ["devtools/metadata-cli/src/main.rs:16-77", "devtools/metadata-cli/src/main.rs:118-213", "devtools/metadata-cli/src/serde_helpers.rs:6-70", "devtools/metadata-cli/data.example.hex"]}
{"id": "C137", "title": "A validator gets the transactions of a proposal from the proposer", "statement": "For every proposal packed from the pool of a proposer, system-script transactions included, a validator that lacks any of its transactions asks the proposer for exactly those and, as long as the proposer holds them in the pool (which it does until it commits a block) or in its block of that number, receives each of them once, as the proposer holds it; if they pass the validator's checks the proposal passes and the validator then holds all its transactions. The validator's pool gains nothing but transactions of the proposal that it lacked. If the proposer lacks one of them there, the proposal is refused and the pool is unchanged, even if another block of the proposer has it. The request is read as it was sent.", "quantifier": "all histories of both pools, all proposals without repetitions of fewer than 2^32 transactions, all block numbers, all contents of the stored blocks", "why_tests_cant": "The tests of the pool mock the peer and answer with prepared transactions; which requests are answered after arbitrary histories of two pools, partly from a stored block, and what the asking pool ends with is a statement about all of them.", "anchors": ["core/mempool/src/adapter/message.rs:81-129", "core/mempool/src/adapter/mod.rs:346-364", "core/mempool/src/adapter/mod.rs:472-487", "core/mempool/src/lib.rs:242-324", "core/consensus/src/adapter.rs:114-122"]}
