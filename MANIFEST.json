{
 "claims": [
  {
   "property": "C01",
   "status": "proved",
   "theorems": [
    "Axon.Rlp.C01_decode_encode",
    "Axon.Rlp.C01_prefix_free",
    "Axon.Rlp.C01_injective",
    "Axon.Rlp.C01_encodeMany_injective",
    "Axon.Rlp.C01_canonical"
   ],
   "note": "Round trip with arbitrary suffix, prefix-freeness, injectivity, canonical decoding."
  },
  {
   "property": "C02",
   "status": "proved",
   "theorems": [
    "Axon.Tx.C02_roundtrip",
    "Axon.Tx.C02_first_byte_decides",
    "Axon.Tx.C02_canonical",
    "Axon.Tx.C02_panic_only_on_empty",
    "Axon.Tx.C02_encode_defined"
   ],
   "note": "Round trip for all submittable transactions, converse (canonicity), first-byte dispatch, exact panic conditions."
  },
  {
   "property": "C03",
   "status": "proved",
   "theorems": [
    "Axon.Tx.C03_extract_inverse",
    "Axon.Tx.C03_injective",
    "Axon.Tx.C03_eip155",
    "Axon.Tx.C03_surjective"
   ],
   "note": "v is a bijection between (recovery id, chain id) pairs and accepted wire values."
  },
  {
   "property": "C04",
   "status": "proved",
   "theorems": [
    "Axon.Tx.C04_payload_injective",
    "Axon.Tx.C04_typed_without_chain_id"
   ],
   "note": "Injective for every transaction that can come from the wire; the value-level collision None / Some 0 of typed transactions is stated as its own theorem."
  },
  {
   "property": "C05",
   "status": "proved",
   "theorems": [
    "Axon.Block.C05_block_roundtrip",
    "Axon.Block.C05_header_roundtrip",
    "Axon.Block.C05_proof_roundtrip",
    "Axon.Block.C05_hash_preimage_injective",
    "Axon.Block.C05_block_injective"
   ],
   "note": "Round trips and injectivity for proofs, headers and blocks, and injectivity of the hash preimage."
  },
  {
   "property": "C06",
   "status": "partial",
   "theorems": [
    "Axon.Block.C06_roundtrip_partial",
    "Axon.Block.C06_roundtrip_iff",
    "Axon.Block.C06_same_bytes_iff",
    "Axon.Block.C06_false"
   ],
   "note": "False of the code: the encoding drops base fee and chain id. Proved: exact set of proposals that survive (C06_roundtrip_iff, C06_same_bytes_iff) and a counterexample (C06_false)."
  },
  {
   "property": "C07",
   "status": "partial",
   "theorems": [
    "Axon.Block.C07_receipt_roundtrip_partial",
    "Axon.Block.C07_receipt_injective",
    "Axon.Block.C07_txresp_never_decodes",
    "Axon.Block.C07_txresp_decoder_rejects_everything",
    "Axon.Exit.C07_exit",
    "Axon.Exit.C07_exit_prefix",
    "Axon.Exit.C07_receipt_exit_partial"
   ],
   "note": "Receipt codec proved, with the bincode codec of exit reasons as it is (C07_exit, C07_receipt_exit_partial; variant order from evm-core 0.37, which is not in /repo); the execution response never decodes (negation proved for every input)."
  },
  {
   "property": "C08",
   "status": "partial",
   "theorems": [
    "Axon.Hex.C08_decode_encode",
    "Axon.Hex.C08_decode_encode_prefixed",
    "Axon.Hex.C08_from_str_as_string",
    "Axon.Hex.C08_decode_iff",
    "Axon.Hex.C08_rejects_odd",
    "Axon.Hex.C08_from_str_requires_prefix",
    "Axon.Hex.C08_from_str_iff_partial",
    "Axon.Hex.C08_one_prefix_false",
    "Axon.Hex.C08_key_iff",
    "Axon.Hex.C08_uint_text",
    "Axon.Hex.C08_uint_injective"
   ],
   "note": "Decoding is exact for decode/encode and keys; text parsing additionally accepts a doubled 0x prefix, proved as negation C08_one_prefix_false."
  },
  {
   "property": "C09",
   "status": "proved",
   "theorems": [
    "Axon.Storage.C09_decode_encode",
    "Axon.Storage.C09_hash_key_injective",
    "Axon.Storage.C09_block_key_injective",
    "Axon.Storage.C09_shapes_disjoint",
    "Axon.Storage.C09_order",
    "Axon.Storage.C09_contiguous",
    "Axon.Storage.C09_prefix"
   ],
   "note": "Key codec, injectivity, disjoint shapes, order, contiguity and prefix lookups."
  },
  {
   "property": "C10",
   "status": "partial",
   "theorems": [
    "Axon.Storage.C10_block_was_saved",
    "Axon.Storage.C10_number_was_saved",
    "Axon.Storage.C10_tx_was_saved",
    "Axon.Storage.C10_receipt_was_saved",
    "Axon.Storage.C10_after_restart",
    "Axon.Storage.C10_block_partial",
    "Axon.Storage.C10_number_partial",
    "Axon.Storage.C10_header_partial",
    "Axon.Storage.C10_tx_partial",
    "Axon.Storage.C10_receipt_partial",
    "Axon.Storage.C10_by_hash_partial",
    "Axon.Storage.C10_saved_block_readable_partial",
    "Axon.Storage.C10_saved_tx_readable_partial",
    "Axon.Storage.C10_latest",
    "Axon.Storage.C10_false"
   ],
   "note": "Every history: reads never return values that were not saved under the key; after a restart reads return the last saved value. Most-recent reads proved for write-once histories; false otherwise (C10_false: stale cache)."
  },
  {
   "property": "C11",
   "status": "partial",
   "theorems": [
    "Axon.Storage.C11_removed_after_restart_partial",
    "Axon.Storage.C11_other_heights",
    "Axon.Storage.C11_false"
   ],
   "note": "False of the code (C11_false: header, hash index, latest block and cached block survive). Proved: after removal and restart the block is gone by height; other heights are untouched."
  },
  {
   "property": "C12",
   "status": "partial",
   "theorems": [
    "Axon.TxsWal.C12_load_partial",
    "Axon.TxsWal.C12_available",
    "Axon.TxsWal.C12_available_after_remove",
    "Axon.TxsWal.C12_load_by_number_sound",
    "Axon.TxsWal.C12_load_by_number_complete",
    "Axon.TxsWal.C12_name_collision_false"
   ],
   "note": "Proved for every history of complete and torn saves and removals, when the abbreviated file names of one block do not collide; false otherwise (C12_name_collision_false: H256 display abbreviates)."
  },
  {
   "property": "C13",
   "status": "partial",
   "theorems": [
    "Axon.ConsensusWal.C13_result",
    "Axon.ConsensusWal.C13_recovers_partial",
    "Axon.ConsensusWal.C13_next_crash_partial",
    "Axon.ConsensusWal.C13_false",
    "Axon.ConsensusWal.C13_clock_back_false"
   ],
   "note": "Whenever loading ends it recovers the newest complete payload; it ends unless a torn file has fewer than 32 bytes (C13_false: endless loop). Needs a forward clock (C13_clock_back_false)."
  },
  {
   "property": "C14",
   "status": "partial",
   "theorems": [
    "Axon.Compress.C14_roundtrip_partial",
    "Axon.Compress.C14_never_altered",
    "Axon.Compress.C14_too_large",
    "Axon.Compress.C14_small_uncompressed",
    "Axon.Compress.C14_large_compressed"
   ],
   "note": "Unchanged up to 8 MiB and never altered; larger messages are compressed but rejected by the receiver (C14_too_large). Messages of 1024 bytes and more are sent compressed unless the codec fails (C14_large_compressed)."
  },
  {
   "property": "C15",
   "status": "partial",
   "theorems": [
    "Axon.RpcResponse.C15_block_roundtrip",
    "Axon.RpcResponse.C15_txs_roundtrip",
    "Axon.RpcResponse.C15_txs_signed",
    "Axon.RpcResponse.C15_panic_iff",
    "Axon.RpcResponse.C15_never_aborts_false",
    "Axon.RpcResponse.C15_safe_partial"
   ],
   "note": "Round trips proved; decoding untrusted bytes can abort (C15_never_aborts_false), exact set of aborting inputs in C15_panic_iff."
  },
  {
   "property": "C16",
   "status": "partial",
   "theorems": [
    "Axon.Pool.C16_package_partial",
    "Axon.Pool.C16_limit_false"
   ],
   "note": "Every history: ordinary part within the limit, no hash twice, all stored and inserted, no two with the same sender and nonce. The limit does not cover system-script transactions (C16_limit_false)."
  },
  {
   "property": "C17",
   "status": "partial",
   "theorems": [
    "Axon.Pool.C17_gapless_partial",
    "Axon.Pool.C17_maximal_partial",
    "Axon.Pool.C17_expiry_false",
    "Axon.Pool.C17_hole_stays_false",
    "Axon.Pool.C17_not_woken_false"
   ],
   "note": "Histories without flush: packaged nonces of a sender form a maximal interval from the account nonce. Missing: histories with flush, where the claim is false (C17_expiry_false, C17_hole_stays_false, C17_not_woken_false)."
  },
  {
   "property": "C18",
   "status": "partial",
   "theorems": [
    "Axon.Pool.C18_state_partial",
    "Axon.Pool.C18_first_highest_partial",
    "Axon.Pool.C18_history_partial",
    "Axon.Pool.C18_full_queue_false"
   ],
   "note": "Every history of inserts, packages and flushes: among the transactions in contention for a place (offered and accepted; after a flush only those that it left alive) exactly the first with the highest price is alive. Missing because false: when a sender's queue is full a dearer transaction is dropped (C18_full_queue_false); and nothing is said of places below the account nonce known to the pool, where offers are dropped as stale."
  },
  {
   "property": "C19",
   "status": "proved",
   "theorems": [
    "Axon.Pool.C19_flush_removes",
    "Axon.Pool.C19_committed_never_repackaged"
   ],
   "note": "Every history: committed hashes and outdated transactions of the same sender leave the pool; a committed hash is packaged again only after a new insertion."
  },
  {
   "property": "C20",
   "status": "partial",
   "theorems": [
    "Axon.Pool.C20_exact_partial",
    "Axon.Pool.C20_upper_bound",
    "Axon.Pool.C20_no_underflow",
    "Axon.Pool.C20_leak_false"
   ],
   "note": "Exact when no two system-script transactions share call data; upper bound and absence of underflow in all histories. False in general: C20_leak_false."
  },
  {
   "property": "C21",
   "status": "partial",
   "theorems": [
    "Axon.Pool.C21_never_early_partial",
    "Axon.Pool.C21_at_gap_partial",
    "Axon.Pool.C21_gap_zero",
    "Axon.Pool.C21_reinserted_false"
   ],
   "note": "Never removed early, gone by n+gap, gap 0 never expires. False for re-inserted transactions: C21_reinserted_false."
  },
  {
   "property": "C22",
   "status": "partial",
   "theorems": [
    "Axon.Pool.C22_sender_order_partial",
    "Axon.Pool.C22_price_order_false",
    "Axon.Pool.C22_not_sortable_false"
   ],
   "note": "Sender order proved whenever the sort returns a sorted list. Price order is ascending, not descending (C22_price_order_false); the comparison is not an order and some reachable pools cannot be sorted (C22_not_sortable_false)."
  },
  {
   "property": "C23",
   "status": "partial",
   "theorems": [
    "Axon.Pool.C23_content_partial",
    "Axon.Pool.C23_order_partial",
    "Axon.Pool.C23_height_partial",
    "Axon.Pool.C23_order_false",
    "Axon.Pool.C23_repeated_false"
   ],
   "note": "get_full_txs returns exactly the requested transactions when it succeeds (content); order is the requested order when all of them come from one source; with a height given, storage answers for that block. The order claim in general is false (C23_order_false: pool hits are listed before storage hits), and a repeated hash read by height fails (C23_repeated_false)."
  },
  {
   "property": "C24",
   "status": "proved",
   "theorems": [
    "Axon.Admission.C24_limits",
    "Axon.Admission.C24_eth",
    "Axon.Admission.C24_reason",
    "Axon.Admission.C24_rpc_boundary"
   ],
   "note": "checkTransaction accepts exactly the admissible transactions with a verifying signature (secp256k1/CKB-VM verification abstract); each error names a violated limit. The RPC entry uses > instead of >= for the maximal price, so the pool is the stricter one (C24_rpc_boundary)."
  },
  {
   "property": "C25",
   "status": "partial",
   "theorems": [
    "Axon.Proof.C25_accept_iff",
    "Axon.Proof.C25_accept_only",
    "Axon.Proof.C25_only_validators",
    "Axon.Proof.C25_intersection",
    "Axon.Proof.C25_correct_signed_both",
    "Axon.Proof.C25_repeated_validator_false"
   ],
   "note": "Exact acceptance condition, only-listed-signers, and quorum intersection are proved for validator lists with distinct keys (hypothesis Distinct). The node never checks distinctness: C25_repeated_validator_false gives a list repeating a key on which a minority is accepted. BLS aggregate verification is a parameter."
  },
  {
   "property": "C26",
   "status": "partial",
   "theorems": [
    "Axon.Proof.C26_equal_weights_partial",
    "Axon.Proof.C26_same_signers",
    "Axon.Proof.C26_weights_false"
   ],
   "note": "Equal vote weights: the light client tool and the node accept the same bitmaps (C26_equal_weights_partial, C26_same_signers). With unequal weights they disagree in both directions (C26_weights_false), so the full claim is false of the code."
  },
  {
   "property": "C27",
   "status": "partial",
   "theorems": [
    "Axon.Chain.C27_follows_partial",
    "Axon.Chain.C27_once_partial",
    "Axon.Chain.C27_status_partial",
    "Axon.Chain.C27_exclusive",
    "Axon.Chain.C27_gap_refused",
    "Axon.Chain.C27_number_unchecked_false",
    "Axon.Chain.C27_retry_false"
   ],
   "note": "Proved for every interleaving, storage failure and crash under Disciplined; two of its clauses are not enforced by the code and the claim is false without them: the proposal's number is never compared with the height (C27_number_unchecked_false: a stale proposal rolls the node back) and a failure after save_block leaves the status behind (C27_retry_false). Mutual exclusion and refusal of gaps hold unconditionally."
  },
  {
   "property": "C28",
   "status": "partial",
   "theorems": [
    "Axon.Chain.C28_checked",
    "Axon.Chain.C28_chain_partial",
    "Axon.Chain.C28_own_false",
    "Axon.Chain.C28_sync_false"
   ],
   "note": "Checked proposals: exact bounds. Chains: monotone for a steady clock without synchronisation; synchronised blocks are not checked (C28_sync_false) and own proposals are exempt (C28_own_false)."
  },
  {
   "property": "C29",
   "status": "proved",
   "theorems": [
    "Axon.Sync.C29_target",
    "Axon.Sync.C29_batch",
    "Axon.Sync.C29_catches_up",
    "Axon.Sync.C29_terminates",
    "Axon.Sync.C29_interleaved"
   ],
   "note": "Batch function for every failure pattern, catching up by repetition, and the bound in the interleaved system."
  },
  {
   "property": "C30",
   "status": "partial",
   "theorems": [
    "Axon.Exec.C30_account_partial",
    "Axon.Exec.C30_charge_partial",
    "Axon.Exec.C30_refund_false",
    "Axon.Exec.C30_overdraft_false",
    "Axon.Exec.C30_system_revert_false",
    "Axon.Exec.C30_system_partial",
    "Axon.Exec.C30_context_partial",
    "Axon.Exec.C30_logs_taken",
    "Axon.Exec.C30_native_nonce_false"
   ],
   "note": "Nonce, gas limit, fee and frame proved for every VM outcome; exact charge proved when affordable and without refund. False in general: C30_refund_false, C30_overdraft_false, C30_system_revert_false, C30_native_nonce_false. System contract calls: an accepted one uses no gas and costs nothing, a refused one reports all gas but one and a fee of one (C30_system_partial); the machine only runs with the sender as origin and the transaction's gas price (C30_context_partial). C30_logs_taken: a transaction leaves no logs to the next one."
  },
  {
   "property": "C31",
   "status": "proved",
   "theorems": [
    "Axon.Exec.C31_totals",
    "Axon.Exec.C31_overflow"
   ],
   "note": ""
  },
  {
   "property": "C32",
   "status": "proved",
   "theorems": [
    "Axon.Exec.C32_shares",
    "Axon.Exec.C32_nothing",
    "Axon.Exec.C32_panic",
    "Axon.Exec.C32_payment"
   ],
   "note": ""
  },
  {
   "property": "C33",
   "status": "proved",
   "theorems": [
    "Axon.Exec.C33_read_back",
    "Axon.Exec.C33_untouched",
    "Axon.Exec.C33_slot"
   ],
   "note": "Refinement: for every well-formed state and every change list the reads after apply equal the abstract specification (all accounts, all fields, all slots). Hash collision-freeness is an explicit hypothesis with a concrete instance."
  },
  {
   "property": "C34",
   "status": "proved",
   "theorems": [
    "Axon.Exec.C34_window",
    "Axon.Exec.C34_nonzero"
   ],
   "note": "Window arithmetic for all 256-bit numbers, block numbers below 2^64."
  },
  {
   "property": "C35",
   "status": "partial",
   "theorems": [
    "Axon.Exec.C35_routing",
    "Axon.Exec.C35_admission",
    "Axon.Exec.C35_agree",
    "Axon.Exec.C35_execution_false",
    "Axon.Exec.C35_root_kept",
    "Axon.Exec.C35_hook_kept"
   ],
   "note": "Routing and admission characterised for all actions; execution itself does not refuse reserved unregistered addresses (C35_execution_false). The root an accepted call leaves, and the root the end-of-block hook leaves, stand in the slots the next block reads (C35_root_kept, C35_hook_kept)."
  },
  {
   "property": "C36",
   "status": "proved",
   "theorems": [
    "Axon.Exec.C36_token",
    "Axon.Exec.C36_overflow"
   ],
   "note": ""
  },
  {
   "property": "C37",
   "status": "proved",
   "theorems": [
    "Axon.Meta.C37_segment",
    "Axon.Meta.C37_refused",
    "Axon.Meta.C37_epoch",
    "Axon.Meta.C37_partition",
    "Axon.Meta.C37_ordered",
    "Axon.Meta.C37_last_block",
    "Axon.Meta.C37_codec"
   ],
   "note": "Every sequence of offered ends; block numbers unbounded; codec for u64 ends."
  },
  {
   "property": "C38",
   "status": "partial",
   "theorems": [
    "Axon.Meta.C38_contiguous",
    "Axon.Meta.C38_lookup_partial",
    "Axon.Meta.C38_accepted",
    "Axon.Meta.C38_first_start_false",
    "Axon.Meta.C38_overflow_false"
   ],
   "note": "Contiguity, lookup and exact acceptance for every history. Negations: start of epoch 0 unchecked; appending after an epoch ending at u64::MAX aborts the node."
  },
  {
   "property": "C39",
   "status": "proved",
   "theorems": [
    "Axon.Meta.C39_lookup",
    "Axon.Meta.C39_stable",
    "Axon.Meta.C39_activation",
    "Axon.Meta.C39_past_ignored",
    "Axon.Meta.C39_monotone",
    "Axon.Meta.C39_retroactive",
    "Axon.Meta.C39_inforce"
   ],
   "note": "Flags as 32-byte strings with bitwise or. C39_retroactive records that entries may start before the current block."
  },
  {
   "property": "C40",
   "status": "partial",
   "theorems": [
    "Axon.Cells.C40_update",
    "Axon.Cells.C40_rollback",
    "Axon.Cells.C40_inverse_partial",
    "Axon.Cells.C40_atomic",
    "Axon.Cells.C40_total",
    "Axon.Cells.C40_spent_false",
    "Axon.Cells.C40_overwrite_false"
   ],
   "note": "update and rollback characterised for every store and list of blocks, failing calls change nothing, rollback in any order restores the stored bytes for fresh distinct outputs and unconsumed inputs; without these conditions false (C40_spent_false, C40_overwrite_false). Tries are modelled by their contents; database failures not modelled."
  },
  {
   "property": "C41",
   "status": "partial",
   "theorems": [
    "Axon.TrieDb.C41_stored",
    "Axon.TrieDb.C41_read_partial",
    "Axon.TrieDb.C41_bound_partial",
    "Axon.TrieDb.C41_flush",
    "Axon.TrieDb.C41_total",
    "Axon.TrieDb.C41_addressed",
    "Axon.TrieDb.C41_refused_false",
    "Axon.TrieDb.C41_contains_false",
    "Axon.TrieDb.C41_zero_false"
   ],
   "note": "A read equals the newest accepted write for every history, enumeration order and eviction choice; the cache stays within twice the configured size. False of the code and proved so: after a refused batch the cache serves values RocksDB does not hold (C41_refused_false); contains caches without a flush, without bound (C41_contains_false); cache size 0 aborts on the first read (C41_zero_false)."
  },
  {
   "property": "C42",
   "status": "partial",
   "theorems": [
    "Axon.Revert.C42_text_partial",
    "Axon.Revert.C42_total_partial",
    "Axon.Revert.C42_overflow_false",
    "Axon.Revert.C42_unicode_false"
   ],
   "note": "Exact characterisation of the inputs that yield a message (C42_total_partial) and the exact text for ASCII reasons (C42_text_partial). The full statement is false: a length word of 2^64-68 or more panics (C42_overflow_false), and no reason with a non-ASCII character is printed as written (C42_unicode_false)."
  },
  {
   "property": "C43",
   "status": "partial",
   "theorems": [
    "Axon.Modexp.C43_gas_partial",
    "Axon.Modexp.C43_call_partial",
    "Axon.Modexp.C43_overflow_false",
    "Axon.Modexp.C43_saturated_false"
   ],
   "note": "For every input and every gas limit below 2^60 the whole behaviour of a call is stated: EIP-2565 price, EIP-198 value in exactly modulus-length bytes, exhaustion iff the limit is below the price, or an abort when the iteration count overflows. The abort is a defect of the code: C43_overflow_false (any limit), and the price saturates too early (C43_saturated_false)."
  },
  {
   "property": "C44",
   "status": "partial",
   "theorems": [
    "Axon.Rpc.C44_ids",
    "Axon.Rpc.C44_fresh_ids_partial",
    "Axon.Rpc.C44_wrap_false",
    "Axon.Rpc.C44_delivered",
    "Axon.Rpc.C44_at_most_once",
    "Axon.Rpc.C44_final",
    "Axon.Rpc.C44_not_dropped_partial",
    "Axon.Rpc.C44_repeated_partial",
    "Axon.Rpc.C44_unknown",
    "Axon.Rpc.C44_race",
    "Axon.Rpc.C44_answered",
    "Axon.Rpc.C44_registered_partial",
    "Axon.Rpc.C44_no_leak",
    "Axon.Rpc.C44_codec",
    "Axon.Rpc.C44_content",
    "Axon.Rpc.C44_verdict"
   ],
   "note": "Proved for up to 2^64 calls. False beyond: call ids wrap after 2^64 calls and may collide (C44_wrap_false). The reactor ignores an unknown response with a warning; take itself reports UnknownRpc."
  },
  {
   "property": "C45",
   "status": "partial",
   "theorems": [
    "Axon.Peers.C45_no_abort_partial",
    "Axon.Peers.C45_get",
    "Axon.Peers.C45_remove",
    "Axon.Peers.C45_count",
    "Axon.Peers.C45_fetch",
    "Axon.Peers.C45_peer_partial",
    "Axon.Peers.C45_stale_false",
    "Axon.Peers.C45_anonymous_false",
    "Axon.Peers.C45_dump_load",
    "Axon.Peers.C45_connectable"
   ],
   "note": "Refinement of the three indexes to a plain map, random fetch, removal, counting and dump/load proved for all histories. False: a socket address added with a second peer id and a later connection time leaves a dangling number, and looking up the first peer id aborts (C45_stale_false); an address without peer id deletes the known entry (C45_anonymous_false)."
  },
  {
   "property": "C46",
   "status": "partial",
   "theorems": [
    "Axon.Bans.C46_banned",
    "Axon.Bans.C46_cleaning",
    "Axon.Bans.C46_stays_partial",
    "Axon.Bans.C46_expires",
    "Axon.Bans.C46_host",
    "Axon.Bans.C46_shorten_false",
    "Axon.Bans.C46_overflow",
    "Axon.Bans.C46_mapped_false"
   ],
   "note": "Proved for all histories with non-decreasing times. False: a shorter ban of the same network replaces a longer one (C46_shorten_false); an IPv4 ban does not cover the mapped IPv6 address (C46_mapped_false); the expiry time overflows u64 (C46_overflow)."
  },
  {
   "property": "C47",
   "status": "proved",
   "theorems": [
    "Axon.Api.C47_blocks_once",
    "Axon.Api.C47_kept"
   ],
   "note": "Filter hub as a command loop over a growing chain: for every history the answers of the polls of a block filter concatenate to the hashes of the blocks after its creation up to its last poll, each once; when a filter goes away is stated exactly (C47_kept)."
  },
  {
   "property": "C48",
   "status": "partial",
   "theorems": [
    "Axon.Api.C48_logs_once_partial",
    "Axon.Api.C48_created_partial",
    "Axon.Api.C48_past_false",
    "Axon.Api.C48_range_false",
    "Axon.Api.C48_getfilterlogs_false"
   ],
   "note": "Same for log filters whose start is not older than the latest block; which filters are created is stated exactly (C48_created_partial). False: a start in the past is ignored (C48_past_false), a poll over too many new blocks answers an error and drops the filter (C48_range_false), eth_getFilterLogs consumes like a poll (C48_getfilterlogs_false)."
  },
  {
   "property": "C49",
   "status": "partial",
   "theorems": [
    "Axon.Api.C49_match_partial",
    "Axon.Api.C49_long_false"
   ],
   "note": "A filter accepts exactly the logs of the specification when it has at most four topic positions; C49_long_false: further positions are ignored."
  },
  {
   "property": "C50",
   "status": "partial",
   "theorems": [
    "Axon.Bloom.C50_logs_bits_partial",
    "Axon.Bloom.C50_receipts_partial",
    "Axon.Bloom.C50_header_bits",
    "Axon.Bloom.C50_header_false"
   ],
   "note": "Blooms of logs and receipts hold exactly the bits of their addresses and topics; the header bloom is the digest of something else (C50_header_false)."
  },
  {
   "property": "C51",
   "status": "partial",
   "theorems": [
    "Axon.Api.C51_accepts_partial",
    "Axon.Api.C51_tags_partial",
    "Axon.Api.C51_usual_partial",
    "Axon.Api.C51_number_false",
    "Axon.Api.C51_hash_false"
   ],
   "note": "Exact characterisation of the accepted JSON values (C51_accepts_partial), tags survive, the usual notation of numbers and hashes is read correctly. False for every number and every hash: they are written without the prefix the reader requires."
  },
  {
   "property": "C52",
   "status": "partial",
   "theorems": [
    "Axon.Api.C52_range_partial",
    "Axon.Api.C52_single_partial",
    "Axon.Api.C52_earliest_partial",
    "Axon.Api.C52_refused_partial",
    "Axon.Api.C52_genesis_false",
    "Axon.Api.C52_base_fees_false",
    "Axon.Api.C52_gap_partial"
   ],
   "note": "Range, oldest block and ratios right for 1 <= k <= n, everything right for a single block and for earliest. False: genesis is left out when the range reaches it; base fees come in pairs, so too many for two blocks or more. f64 modelled by exact rationals."
  },
  {
   "property": "C53",
   "status": "partial",
   "theorems": [
    "Axon.Storage.C53_by_hash_partial",
    "Axon.Storage.C53_false"
   ],
   "note": "False of the code (C53_false: block and transaction hashes share one index). Proved: any returned block has the hash unless the hash is that of a transaction or receipt saved at its height."
  },
  {
   "property": "C54",
   "status": "partial",
   "theorems": [
    "Axon.Storage.C54_rocks_answers",
    "Axon.Storage.C54_rocks_partial",
    "Axon.Storage.C54_duplicates_false",
    "Axon.Storage.C54_memory_false"
   ],
   "note": "Exact answers for RocksDB ordering; false with duplicate hashes and with the memory adapter (counterexamples proved)."
  },
  {
   "property": "C55",
   "status": "partial",
   "theorems": [
    "Axon.Pool.C55_no_panic_partial",
    "Axon.Pool.C55_commit_max_nonce_false",
    "Axon.Pool.C55_restart_max_nonce_false"
   ],
   "note": "Every history with nonces below 2^64-1. False for nonce 2^64-1: C55_commit_max_nonce_false, C55_restart_max_nonce_false."
  },
  {
   "property": "C56",
   "status": "partial",
   "theorems": [
    "Axon.Pool.C56_ensured_partial",
    "Axon.Pool.C56_dup_refused",
    "Axon.Pool.C56_substituted_false"
   ],
   "note": "Ensured provided the peer answers with the transactions that were asked for; the code compares only the number of returned transactions, so a peer that substitutes others makes ensure_order_txs return Ok with ordered hashes still unknown (C56_substituted_false). Duplicate orders are always refused (C56_dup_refused)."
  },
  {
   "property": "C57",
   "status": "partial",
   "theorems": [
    "Axon.Admission.C57_panic_iff_partial",
    "Axon.Admission.C57_empty_r_false",
    "Axon.Admission.C57_empty_false",
    "Axon.Admission.C57_checks_total"
   ],
   "note": "False: the empty byte string, and any transaction with a non-Ethereum signature and empty r, panic (C57_empty_false, C57_empty_r_false). C57_panic_iff_partial shows these are the only cases; C57_checks_total: no panic in the later checks."
  },
  {
   "property": "C58",
   "status": "partial",
   "theorems": [
    "Axon.Admission.C58_fresh_partial",
    "Axon.Admission.C58_latest_state_partial",
    "Axon.Admission.C58_overlap_false",
    "Axon.Admission.C58_wide_nonce_false",
    "Axon.Admission.C58_system",
    "Axon.Admission.C58_decision_partial"
   ],
   "note": "Decision on the state proved for account nonces below 2^64; cached answers equal fresh ones as long as no commit overlaps an authorisation. With overlap a stale entry survives the clearing (C58_overlap_false); an account nonce of 2^64 or more panics (C58_wide_nonce_false)."
  },
  {
   "property": "C59",
   "status": "partial",
   "theorems": [
    "Axon.Pool.C59_content_partial",
    "Axon.Pool.C59_descending_false",
    "Axon.Pool.C59_hole_false",
    "Axon.Pool.C59_system_false"
   ],
   "note": "Content proved when the log fits the pool. Packaging after restart differs: wrong order loses a transaction (C59_descending_false), holes are ignored (C59_hole_false), system scripts come back as ordinary transactions (C59_system_false)."
  },
  {
   "property": "C60",
   "status": "partial",
   "theorems": [
    "Axon.Chain.C60_can_propose_partial",
    "Axon.Chain.C60_sync_false",
    "Axon.Chain.C60_crash_false"
   ],
   "note": "Holds for nodes that only commit through consensus; false after synchronisation (C60_sync_false) and for a crash between two writes (C60_crash_false)."
  },
  {
   "property": "C61",
   "status": "partial",
   "theorems": [
    "Axon.Chain.C61_agrees_partial",
    "Axon.Chain.C61_results_false"
   ],
   "note": "Proposal fields, transactions, state and receipt roots agree; gas_used and log_bloom are not verified, so the claim is false (C61_results_false). C61_agrees_partial also fixes every field the block built from the result takes over."
  },
  {
   "property": "C62",
   "status": "partial",
   "theorems": [
    "Axon.Chain.C62_proof_fits_partial",
    "Axon.Chain.C62_state_root_false"
   ],
   "note": "Holds if the proposal's previous state root is right; check_block does not compare it, so the claim is false (C62_state_root_false)."
  },
  {
   "property": "C63",
   "status": "partial",
   "theorems": [
    "Axon.Sync.C63_order",
    "Axon.Sync.C63_requests",
    "Axon.Sync.C63_repeated_false",
    "Axon.Sync.C63_chunk_zero"
   ],
   "note": "Proved for pairwise distinct hashes; with a repeated hash the list is shorter (C63_repeated_false); chunk size zero panics (C63_chunk_zero)."
  },
  {
   "property": "C64",
   "status": "partial",
   "theorems": [
    "Axon.Chain.C64_panics_iff",
    "Axon.Chain.C64_zero_false"
   ],
   "note": "Exact characterisation of panicking inputs (C64_panics_iff); the claim itself is false (C64_zero_false)."
  },
  {
   "property": "C65",
   "status": "partial",
   "theorems": [
    "Axon.Chain.C65_stops_partial",
    "Axon.Chain.C65_stopped",
    "Axon.Chain.C65_sync_false"
   ],
   "note": "Holds without synchronisation; false with it (C65_sync_false)."
  },
  {
   "property": "C66",
   "status": "partial",
   "theorems": [
    "Axon.Exec.C66_delete_partial",
    "Axon.Exec.C66_kept_false"
   ],
   "note": "False of the code: the emptiness test compares the code hash with zero instead of the hash of empty code, so delete_empty never removes an account (C66_kept_false, for every state). Only explicit deletion works (C66_delete_partial)."
  },
  {
   "property": "C67",
   "status": "partial",
   "theorems": [
    "Axon.Exec.C67_no_creation_partial",
    "Axon.Exec.C67_overdraft_false",
    "Axon.Exec.C67_revert_false"
   ],
   "note": "Holds when every ordinary transaction is affordable in its turn, system calls are accepted and no native token call occurs; false without (C67_overdraft_false, C67_revert_false)."
  },
  {
   "property": "C68",
   "status": "partial",
   "theorems": [
    "Axon.Meta.C68_roundtrip",
    "Axon.Meta.C68_panic_iff",
    "Axon.Meta.C68_latest",
    "Axon.Meta.C68_epoch_config_false"
   ],
   "note": "Round trip for all configurations and flags; exact panic condition. Negation: the configuration is shared by all epochs, so appending a future epoch changes the one reported for the current block."
  },
  {
   "property": "C69",
   "status": "partial",
   "theorems": [
    "Axon.Meta.C69_hook_partial",
    "Axon.Meta.C69_halt_false"
   ],
   "note": "Exact condition: the hook aborts the node for a block behind the last registered end."
  },
  {
   "property": "C70",
   "status": "partial",
   "theorems": [
    "Axon.Meta.C70_counter_partial",
    "Axon.Meta.C70_empty_blocks_partial",
    "Axon.Meta.C70_proposer_false"
   ],
   "note": "The counter equals the number of blocks credited to the last transaction's sender (proposer for empty blocks). Negation with a one-transaction block."
  },
  {
   "property": "C71",
   "status": "proved",
   "theorems": [
    "Axon.Meta.C71_authorised",
    "Axon.Meta.C71_failed"
   ],
   "note": "Call data decoding abstract; trie failures not modelled."
  },
  {
   "property": "C72",
   "status": "partial",
   "theorems": [
    "Axon.Cells.C72_read_partial",
    "Axon.Cells.C72_consumed_false"
   ],
   "note": "contents and totality proved; liveness false: consumed cells are offered as live (C72_consumed_false)"
  },
  {
   "property": "C73",
   "status": "partial",
   "theorems": [
    "Axon.Cells.C73_update",
    "Axon.Cells.C73_rollback",
    "Axon.Cells.C73_inverse_partial",
    "Axon.Cells.C73_precompile",
    "Axon.Cells.C73_overwrite_false"
   ],
   "note": "lookup, rollback, inverse for fresh hashes and totality proved; restoring an overwritten header false (C73_overwrite_false); ABI codec of headers is a parameter with its round-trip law"
  },
  {
   "property": "C74",
   "status": "partial",
   "theorems": [
    "Axon.Cells.C74_roots",
    "Axon.Cells.C74_switch_false"
   ],
   "note": "equality of roots proved for all histories; the read switch is never consulted (C74_switch_false)"
  },
  {
   "property": "C75",
   "status": "partial",
   "theorems": [
    "Axon.Cells.C75_output_partial",
    "Axon.Cells.C75_key",
    "Axon.Cells.C75_cell",
    "Axon.Cells.C75_types_false"
   ],
   "note": "round trips proved for outputs with at most one type script; further type scripts are dropped (C75_types_false)"
  },
  {
   "property": "C76",
   "status": "partial",
   "theorems": [
    "Axon.Precompiles.C76_price_partial",
    "Axon.Precompiles.C76_pairing_false"
   ],
   "note": "Price and limit for every contract, input and limit; the empty pairing ignores the limit (C76_pairing_false). The price of MODEXP is C43."
  },
  {
   "property": "C77",
   "status": "proved",
   "theorems": [
    "Axon.Blake2F.C77_blake2f",
    "Axon.Blake2F.C77_iv",
    "Axon.Blake2F.C77_sigma"
   ],
   "note": ""
  },
  {
   "property": "C78",
   "status": "partial",
   "theorems": [
    "Axon.Precompiles.C78_hashes",
    "Axon.Precompiles.C78_recover_padding",
    "Axon.Precompiles.C78_recover_v",
    "Axon.Precompiles.C78_values",
    "Axon.Precompiles.C78_recover_false",
    "Axon.Precompiles.C78_short_false",
    "Axon.Precompiles.C78_leftover_false",
    "Axon.Precompiles.C78_junk_false"
   ],
   "note": "Recovery padding and recovery word proved; false of the code and proved so: unrecoverable signatures fail instead of returning nothing, short curve inputs fail instead of being padded, leftover bytes of pairing inputs are ignored. What recovery, addition and multiplication read and answer: C78_values."
  },
  {
   "property": "C79",
   "status": "partial",
   "theorems": [
    "Axon.Precompiles.C79_paid_partial",
    "Axon.Precompiles.C79_minimum_false",
    "Axon.Precompiles.C79_overflow_false"
   ],
   "note": "Cycles and charge bounded by the limit for limits from 500 to 2^64/6000; below, a program runs unpaid (C79_minimum_false), above, the node aborts (C79_overflow_false)."
  },
  {
   "property": "C80",
   "status": "partial",
   "theorems": [
    "Axon.Precompiles.C80_table",
    "Axon.Precompiles.C80_addresses",
    "Axon.Precompiles.C80_getcell_false"
   ],
   "note": "Exact table; the existing cell-reading contract at 0x103 is not in it (C80_getcell_false)."
  },
  {
   "property": "C81",
   "status": "proved",
   "theorems": [
    "Axon.Bloom.C81_receipts"
   ],
   "note": "Every receipt of a block described field by field, for every block below the counters' limits."
  },
  {
   "property": "C82",
   "status": "partial",
   "theorems": [
    "Axon.Api.C82_reported_partial",
    "Axon.Api.C82_log_index_false",
    "Axon.Api.C82_cumulative_false",
    "Axon.Api.C82_price_false",
    "Axon.Api.C82_agree"
   ],
   "note": "All fields but three are those of the transaction, and both methods agree; log index, cumulative gas and price are wrong (C82_log_index_false, C82_cumulative_false, C82_price_false)."
  },
  {
   "property": "C83",
   "status": "partial",
   "theorems": [
    "Axon.Api.C83_range_partial",
    "Axon.Api.C83_hash_partial",
    "Axon.Api.C83_truncated_false"
   ],
   "note": "Exactly the matching logs within the range for well-formed chains; C83_truncated_false."
  },
  {
   "property": "C84",
   "status": "partial",
   "theorems": [
    "Axon.Api.C84_unknown_filter_false",
    "Axon.Api.C84_gone_caller_false",
    "Axon.Api.C84_position_false",
    "Axon.Api.C84_position_partial",
    "Axon.Api.C84_filters_partial",
    "Axon.Api.C84_idle_false"
   ],
   "note": "Filter commands with known or short identifiers and waiting callers never stop the node, in every reachable hub; positions below 2^64 are looked up. False: polling an unknown filter with an id over 64 bits panics (C84_unknown_filter_false; reached by an idle client, C84_idle_false), a caller that went away panics the hub (C84_gone_caller_false), positions over 64 bits panic (C84_position_false). Other methods are modelled only where they have their own property."
  },
  {
   "property": "C85",
   "status": "partial",
   "theorems": [
    "Axon.Api.C85_selected_partial",
    "Axon.Api.C85_beyond_partial",
    "Axon.Api.C85_unknown_hash_false",
    "Axon.Api.C85_unknown_number_false",
    "Axon.Api.C85_hash_ignored_false",
    "Axon.Api.C85_estimate_false",
    "Axon.Api.C85_pending_partial",
    "Axon.Api.C85_system_partial",
    "Axon.Api.C85_count_partial"
   ],
   "note": "For selectors that stand for a block the answers are about that block; numbers beyond the chain are errors for calls, storage and code. False: unknown hashes read the latest state, unknown numbers give zero balance and nonce, hashes are ignored by methods by number, estimateGas ignores earliest and hashes."
  },
  {
   "property": "C86",
   "status": "partial",
   "theorems": [
    "Axon.Api.C86_accepted_partial",
    "Axon.Api.C86_sensible_partial",
    "Axon.Api.C86_last_false",
    "Axon.Api.C86_rows_partial",
    "Axon.Api.C86_gas_false",
    "Axon.Api.C86_sorted_false",
    "Axon.Api.C86_asked_partial"
   ],
   "note": "Accepted lists characterised exactly (all but the last percentile are checked); one row per block, one entry per percentile, zero rows for empty blocks. False: last percentile unchecked, rewards are gas used less base fee, not sorted."
  },
  {
   "property": "C87",
   "status": "partial",
   "theorems": [
    "Axon.Pool.C87_contiguous_partial",
    "Axon.Pool.C87_gap_false",
    "Axon.Pool.C87_queued_false"
   ],
   "note": "For every reachable pool without queued insertions: right if the account's waiting nonces have no gap. False with any gap and for transactions just inserted."
  },
  {
   "property": "C88",
   "status": "partial",
   "theorems": [
    "Axon.Peers.C88_enter",
    "Axon.Peers.C88_limit_partial",
    "Axon.Peers.C88_refused",
    "Axon.Peers.C88_evicts",
    "Axon.Peers.C88_outbound_false",
    "Axon.Peers.C88_one_group_false",
    "Axon.Peers.C88_attempt",
    "Axon.Peers.C88_feeler",
    "Axon.Peers.C88_random",
    "Axon.Peers.C88_disjoint",
    "Axon.Peers.C88_ban",
    "Axon.Peers.C88_ban_port_false",
    "Axon.Peers.C88_report_false"
   ],
   "note": "Admission, limit for learnt addresses, refusal, eviction and the three offers proved for every reachable store. False: outbound addresses ignore the limit (C88_outbound_false); a full book of one network group evicts nothing and refuses everything (C88_one_group_false); other ports of a banned host stay and are offered (C88_ban_port_false); report never changes a score nor bans (C88_report_false)."
  },
  {
   "property": "C89",
   "status": "partial",
   "theorems": [
    "Axon.Endpoint.C89_parse",
    "Axon.Endpoint.C89_url",
    "Axon.Endpoint.C89_no_abort",
    "Axon.Endpoint.C89_same",
    "Axon.Endpoint.C89_call",
    "Axon.Endpoint.C89_four",
    "Axon.Endpoint.C89_register",
    "Axon.Endpoint.C89_known",
    "Axon.Endpoint.C89_known_distinct",
    "Axon.Endpoint.C89_delivered",
    "Axon.Endpoint.C89_scheme_false",
    "Axon.Endpoint.C89_id_false",
    "Axon.Endpoint.C89_kind",
    "Axon.Endpoint.C89_rpc"
   ],
   "note": "Parsing, roots, schemes, extension by a call number and registration are proved for all texts, for every endpoint of the node and every number. Negations: the scheme is only a prefix test (C89_scheme_false), and the call number has several spellings (C89_id_false). C89_rpc: endpoints of calls and responses, and no others, are read together with their number."
  },
  {
   "property": "C90",
   "status": "partial",
   "theorems": [
    "Axon.Message.C90_abort",
    "Axon.Message.C90_no_abort_partial",
    "Axon.Message.C90_stranger_false",
    "Axon.Message.C90_gossip",
    "Axon.Message.C90_call",
    "Axon.Message.C90_response",
    "Axon.Message.C90_no_handler"
   ],
   "note": "False as stated: C90_abort gives the exact condition, C90_stranger_false shows that any peer can stop the node with a short span header or a malformed trace header on any registered endpoint. Proved: delivery of gossip, calls and responses, and no abort without trace headers (C90_no_abort_partial). Handlers themselves are not part of this model."
  },
  {
   "property": "C91",
   "status": "proved",
   "theorems": [
    "Axon.Proto.C91_roundtrip",
    "Axon.Proto.C91_unknown",
    "Axon.Proto.C91_total",
    "Axon.Proto.C91_bounded",
    "Axon.Proto.C91_sent"
   ],
   "note": "Round trip, unknown fields, size and validity of decoded messages are proved. prost's behaviour is modelled from its documentation; map iteration order is the order of the list."
  },
  {
   "property": "C92",
   "status": "partial",
   "theorems": [
    "Axon.Gossip.C92_targets",
    "Axon.Gossip.C92_origin",
    "Axon.Gossip.C92_once",
    "Axon.Gossip.C92_count",
    "Axon.Gossip.C92_somebody_partial",
    "Axon.Gossip.C92_nobody_false",
    "Axon.Gossip.C92_fair"
   ],
   "note": "Proved in full except that somebody is always sent the message: true from two other sessions on (C92_somebody_partial), false for one (C92_nobody_false)."
  },
  {
   "property": "C93",
   "status": "partial",
   "theorems": [
    "Axon.Sessions.C93_registry",
    "Axon.Sessions.C93_open",
    "Axon.Sessions.C93_validators",
    "Axon.Sessions.C93_validator_open",
    "Axon.Sessions.C93_dial",
    "Axon.Sessions.C93_no_abort_partial",
    "Axon.Sessions.C93_limit_false",
    "Axon.Sessions.C93_limit_partial",
    "Axon.Sessions.C93_error",
    "Axon.Sessions.C93_handler",
    "Axon.Sessions.C93_banned_false",
    "Axon.Sessions.C93_tag_ban_false",
    "Axon.Sessions.C93_until_false",
    "Axon.Sessions.C93_eclipse_false",
    "Axon.Sessions.C93_overdial_false",
    "Axon.Sessions.C93_round_partial",
    "Axon.Sessions.C93_multicast",
    "Axon.Sessions.C93_multicast_false"
   ],
   "note": "Registry refinement, exact admission rule, dial exclusion, protocol errors, dialling rounds and multicast targets proved for all histories. Limits and bans are false of the code: strangers that are not banned pass every limit (C93_limit_false), banned hosts are served below the limits (C93_banned_false), the tag Ban never disconnects and adds a point in time to the clock (C93_tag_ban_false, C93_until_false), inbound sessions suppress outbound dialling (C93_eclipse_false, C93_overdial_false), multicast can abort (C93_multicast_false). tentacle's own connection limit and session handling are not modelled. C93_handler: the host of a session whose handler panics is banned for five minutes before the node quits."
  },
  {
   "property": "C94",
   "status": "partial",
   "theorems": [
    "Axon.Wire.C94_ping",
    "Axon.Wire.C94_discovery",
    "Axon.Wire.C94_identity",
    "Axon.Wire.C94_nodes_bounded",
    "Axon.Wire.C94_identity_bounded",
    "Axon.Wire.C94_unique_false"
   ],
   "note": "Round trips and size bounds are proved for all messages and bytes; that distinct byte strings are distinct messages is false (C94_unique_false: unknown fields are skipped). prost is modelled from its documented behaviour."
  },
  {
   "property": "C95",
   "status": "partial",
   "theorems": [
    "Axon.PingProto.C95_closed",
    "Axon.PingProto.C95_pinged",
    "Axon.PingProto.C95_answered",
    "Axon.PingProto.C95_silent",
    "Axon.PingProto.C95_kept",
    "Axon.PingProto.C95_settled",
    "Axon.PingProto.C95_delay_false",
    "Axon.PingProto.C95_junk_false",
    "Axon.PingProto.C95_flood_false"
   ],
   "note": "Exactly when a session is pinged, answered, kept and closed is proved over all histories. False: closing when the ping is as old as the timeout (C95_delay_false: only at the next check), holding junk against the sender (C95_junk_false), limiting pings received (C95_flood_false)."
  },
  {
   "property": "C96",
   "status": "partial",
   "theorems": [
    "Axon.Discovery.C96_closed",
    "Axon.Discovery.C96_refused",
    "Axon.Discovery.C96_answer",
    "Axon.Discovery.C96_introduced",
    "Axon.Discovery.C96_believed",
    "Axon.Discovery.C96_only",
    "Axon.Discovery.C96_polite",
    "Axon.Discovery.C96_peers",
    "Axon.Discovery.C96_announced",
    "Axon.Discovery.C96_queued",
    "Axon.Discovery.C96_total",
    "Axon.Discovery.C96_flood_false",
    "Axon.Discovery.C96_outbound_false",
    "Axon.Discovery.C96_day_false",
    "Axon.Discovery.C96_listening"
   ],
   "note": "Proved for all executions of the handler with the store as effects; C96_flood_false: announcements are not limited in number; C96_outbound_false: an inbound peer enters any port of its host, reachable or not, as an address connected to; C96_day_false: a peer that introduces itself after a timer is announced only after a day. The stable Bloom filter is a parameter. C96_listening: which first requests make the address of a session one that is announced."
  },
  {
   "property": "C97",
   "status": "partial",
   "theorems": [
    "Axon.Identify.C97_closed",
    "Axon.Identify.C97_gate",
    "Axon.Identify.C97_learnt",
    "Axon.Identify.C97_hello",
    "Axon.Identify.C97_peers",
    "Axon.Identify.C97_listens",
    "Axon.Identify.C97_once",
    "Axon.Identify.C97_total",
    "Axon.Identify.C97_opened_false",
    "Axon.Identify.C97_foreign_false",
    "Axon.Identify.C97_observed_false"
   ],
   "note": "Proved for all executions of the handler, with store and registry as effects. C97_opened_false: a peer that names too many addresses has protocols opened before it is refused; C97_foreign_false: a dialled peer of another chain stays in the store as connected to, and no ban follows; C97_observed_false: observed addresses are never dialled."
  },
  {
   "property": "C98",
   "status": "partial",
   "theorems": [
    "Axon.Admission.C98_rpc",
    "Axon.Admission.C98_rpc_one_hash",
    "Axon.Admission.C98_rpc_junk",
    "Axon.Admission.C98_peer_partial",
    "Axon.Admission.C98_many_hashes_false",
    "Axon.Admission.C98_one_hash_false",
    "Axon.Admission.C98_relay",
    "Axon.Admission.C98_relay_iff",
    "Axon.Admission.C98_relay_rpc",
    "Axon.Admission.C98_relayed_one_hash",
    "Axon.Admission.C98_unsyncable_false",
    "Axon.Admission.C98_unpullable_false"
   ],
   "note": "False of the code for transactions received from peers: the hash field is the digest of all received bytes, trailing ones included, and only eth_sendRawTransaction compares it with the digest of the encoding. C98_many_hashes_false / C98_one_hash_false: one accepted transaction can be delivered under any number of further hashes; C98_unsyncable_false / C98_unpullable_false: a block or proposal naming such a hash cannot be completed by nodes that did not receive these very bytes. Proved: submissions by clients (C98_rpc, C98_rpc_one_hash, C98_rpc_junk, C98_relay_rpc), and that every transaction agrees everywhere after one hop (C98_relay, C98_relay_iff, C98_relayed_one_hash). Statements name the collision of digests they would need; the rlp crate's lazy reader is modelled as a strict one (Verif/Codec/Rlp.lean)."
  },
  {
   "property": "C99",
   "status": "partial",
   "theorems": [
    "Axon.Api.C99_legacy",
    "Axon.Api.C99_fields_partial",
    "Axon.Api.C99_typed_partial",
    "Axon.Api.C99_v_false",
    "Axon.Api.C99_fee_false",
    "Axon.Api.C99_total_iff",
    "Axon.Api.C99_panic_false",
    "Axon.Api.C99_place",
    "Axon.Api.C99_pending",
    "Axon.Api.C99_unknown",
    "Axon.Api.C99_missing_false",
    "Axon.Api.C99_hash_false"
   ],
   "note": "False of typed transactions: v is reported as if they were legacy ones (C99_v_false: a client cannot read any of them), maxFeePerGas is always 1337 (C99_fee_false), a chain id of 64 bits makes the answer panic (C99_panic_false), and a block naming an unreadable transaction panics (C99_missing_false); a transaction received with trailing bytes is reported under another hash (C99_hash_false). Proved: legacy transactions are read back exactly (C99_legacy), all other fields of typed ones (C99_fields_partial, C99_typed_partial), exactly when an answer exists (C99_total_iff), and the place in the chain (C99_place, C99_pending, C99_unknown)."
  },
  {
   "property": "C100",
   "status": "partial",
   "theorems": [
    "Axon.Api.C100_identifies",
    "Axon.Api.C100_fields_partial",
    "Axon.Api.C100_agree",
    "Axon.Api.C100_linked",
    "Axon.Api.C100_rich",
    "Axon.Api.C100_rich_hashes",
    "Axon.Api.C100_head_agrees",
    "Axon.Api.C100_head_false",
    "Axon.Api.C100_size_false",
    "Axon.Api.C100_difficulty_false"
   ],
   "note": "False of size (that of the header only, C100_size_false), total difficulty (C100_difficulty_false) and newHeads (no hash and several headers with the same object, C100_head_false). Proved: objects identify blocks up to a collision (C100_identifies), all other fields (C100_fields_partial), agreement of both requests (C100_agree), linkage (C100_linked), full transactions (C100_rich, C100_rich_hashes) and agreement of newHeads with the block (C100_head_agrees)."
  },
  {
   "property": "C101",
   "status": "partial",
   "theorems": [
    "Axon.Api.Sub.C101_never_false",
    "Axon.Api.Sub.C101_heads_partial",
    "Axon.Api.Sub.C101_logs_partial",
    "Axon.Api.Sub.C101_from_start_partial",
    "Axon.Api.Sub.C101_position_false",
    "Axon.Api.Sub.C101_sync_false",
    "Axon.Api.Sub.C101_ids"
   ],
   "note": "False of the code: SubscriptionSink::send of jsonrpsee 0.20.3 is async and none of its futures is awaited, so nothing is ever delivered (C101_never_false; that send is async is taken from the crate's interface, the crate not being in the repository); logs are made with the number of preceding logs as the position of the transaction (C101_position_false); changes of the synchronisation status wait for a block (C101_sync_false). Proved of the messages made: headers (C101_heads_partial, C101_from_start_partial) and logs but for the position (C101_logs_partial), exactly once, in order, without panics, over all executions; identifiers are unique (C101_ids)."
  },
  {
   "property": "C102",
   "status": "partial",
   "theorems": [
    "Axon.Api.Calls.C102_call_partial",
    "Axon.Api.Calls.C102_estimate_partial",
    "Axon.Api.Calls.C102_suffices_partial",
    "Axon.Api.Calls.C102_cap_false",
    "Axon.Api.Calls.C102_guard_false",
    "Axon.Api.Calls.C102_access_false",
    "Axon.Api.Calls.C102_access_short_false",
    "Axon.Api.Calls.C102_env_false"
   ],
   "note": "False of the code in four ways: estimates of runs above 24 million gas exceed the limit of 30 million and are refused when used (C102_cap_false); a quarter more gas does not satisfy contracts that insist on an amount being left (C102_guard_false); the access list of a request is dropped, so its cost is not estimated (C102_access_false, C102_access_short_false); base fee, block gas limit and chain id seen by the run are those the request names (C102_env_false). Proved: eth_call answers exactly the served requests with the run asked for (C102_call_partial); the estimate is at least the gas before refunds and at most a quarter above (C102_estimate_partial); the estimate suffices for contracts that do not look at gas (C102_suffices_partial). The machine is a parameter."
  },
  {
   "property": "C103",
   "status": "partial",
   "theorems": [
    "Axon.Chain.C103_accepted_partial",
    "Axon.Chain.C103_answers_partial",
    "Axon.Chain.C103_serves_partial",
    "Axon.Chain.C103_catch_up_partial",
    "Axon.Chain.C103_synced_false",
    "Axon.Chain.C103_announced_false",
    "Axon.Chain.C103_between_false",
    "Axon.Chain.C103_txs_partial"
   ],
   "note": "Proved over the transition system of the engine and the synchroniser (commits, batches, crashes at every point): answers that are given are accepted by every peer with the same earlier blocks; exactly which numbers are answered; a node that lives through consensus serves everything up to its height; a lagging peer that talks to it ends with the same chain (induction over the batch). False: after synchronisation the proof of the latest block is refused although the height is announced, and between the two writes of a commit the proof of the previous block is refused. Missing: network failures and timeouts, the metadata lookups inside verify_proof, failing databases."
  },
  {
   "property": "C104",
   "status": "partial",
   "theorems": [
    "Axon.Handlers.C104_submitted_partial",
    "Axon.Handlers.C104_delivered_partial",
    "Axon.Handlers.C104_sendable",
    "Axon.Handlers.C104_refused",
    "Axon.Handlers.C104_requests_partial",
    "Axon.Handlers.C104_height_partial",
    "Axon.Handlers.C104_replies_partial",
    "Axon.Handlers.C104_codec_false"
   ],
   "note": "Delivery and exact characterisation of what reaches Overlord are proved for all messages and all received bytes, over the codec of the Overlord crate as a parameter (external). Partial: the network layer between packing and routing (tentacle, compression and size limits) is that of C90; the pool handlers' payloads are left as bytes. C104_codec_false: the encode of the message types does not match their decode (no caller uses it). The feedback of the handlers is dropped by the reactor."
  },
  {
   "property": "C105",
   "status": "partial",
   "theorems": [
    "Axon.Light.C105_accept_iff",
    "Axon.Light.C105_agree_partial",
    "Axon.Light.C105_node_partial",
    "Axon.Light.C105_binding",
    "Axon.Light.C105_unbound_false",
    "Axon.Light.C105_genesis",
    "Axon.Light.C105_header_false",
    "Axon.Light.C105_height_false"
   ],
   "note": "Acceptance is characterised exactly (C105_accept_iff), agreement with the node holds for equal vote weights and a proof of the block's number (C105_agree_partial), and a proof binds the parent state root and all voted fields (C105_binding). False in general: a proof does not cover state root, receipts root, bloom, gas used, base fee and chain id of its block (C105_unbound_false, C105_header_false), and the light client does not compare the number of the block with that of the proof (C105_height_false); unequal weights are counted differently (C26)."
  },
  {
   "property": "C106",
   "status": "partial",
   "theorems": [
    "Axon.AxonRpc.C106_proposal",
    "Axon.AxonRpc.C106_verify_partial",
    "Axon.AxonRpc.C106_own_proof_false",
    "Axon.AxonRpc.C106_latest",
    "Axon.AxonRpc.C106_tags",
    "Axon.AxonRpc.C106_no_panic",
    "Axon.AxonRpc.C106_truncated_false",
    "Axon.AxonRpc.C106_metadata",
    "Axon.AxonRpc.C106_status",
    "Axon.AxonRpc.C106_hardforks",
    "Axon.AxonRpc.C106_enabled_iff",
    "Axon.AxonRpc.C106_proof_by_id_false"
   ],
   "note": "Proved: block n, proposal n and the proof served under n+1 pass the light client's check on every sealed chain (C106_verify_partial), the hardfork report is exact for every history (C106_hardforks) and agrees with the executor (C106_enabled_iff), no panic. False: the proof served for an identifier is that of the parent, so it never proves the block served for the same identifier (C106_own_proof_false, C106_proof_by_id_false), and the proof of the latest block is not served at all (C106_latest); numbers are truncated to 64 bits (C106_truncated_false). That stored chains are sealed is the invariant of the engine model (C103); reading metadata below a state root is a parameter. Which metadata is answered for a number and as current: C106_metadata."
  },
  {
   "property": "C107",
   "status": "partial",
   "theorems": [
    "Axon.Chain.C107_checked",
    "Axon.Fork.C107_flags_partial",
    "Axon.Fork.C107_restart",
    "Axon.Fork.C107_refused_false",
    "Axon.Fork.C107_final",
    "Axon.Fork.C107_propose",
    "Axon.Fork.C107_agreed",
    "Axon.Fork.C107_registered_partial",
    "Axon.Fork.C107_lost_false",
    "Axon.Fork.C107_stale_false",
    "Axon.Fork.C107_input"
   ],
   "note": "Proved over all sequences of events of a node: origin and agreement (C107_agreed), proposals look ahead (C107_propose), registration (C107_registered_partial, for start numbers not below the last one), finality for chains whose blocks look ahead (C107_final), flags determined by the chain as long as no synchronised block is refused after execution (C107_flags_partial), repair by a restart. False in general: a block served with a wrong state root (not covered by any proof) is executed and refused but leaves its flags in HARDFORK_INFO, so the right block is then executed under other flags (C107_refused_false); check_block does not compare the start number with the height (C107_stale_false); a hardfork below the last registered start number is carried by blocks but never registered (C107_lost_false). C107_checked: a proposal accepted asks for no hardfork or exactly the one the node itself would ask for."
  },
  {
   "property": "C108",
   "status": "partial",
   "theorems": [
    "Axon.Bls.C108_vote_iff",
    "Axon.Bls.C108_own",
    "Axon.Bls.C108_aggregate",
    "Axon.Bls.C108_refused",
    "Axon.Bls.C108_rogue_false",
    "Axon.Bls.C108_current_partial",
    "Axon.Bls.C108_unchanged",
    "Axon.Bls.C108_restart_false",
    "Axon.Bls.C108_sync_false",
    "Axon.Bls.C108_unknown",
    "Axon.Bls.C108_badkey_false",
    "Axon.Bls.C108_badkey_start"
   ],
   "note": "Proved: a vote is accepted iff it is signed with the key of the member it names, own votes are accepted, accepted votes aggregate, refused cases, and the table is that of the next block's validators for all histories without a start at, or a synchronised block at, the end of an epoch and with parsable keys. False of the code and proved so: a rogue key makes an aggregate of two with one secret; a restart at the end of an epoch and a synchronised last block leave the old keys; a BLS key that does not parse leaves the status behind the stored block and prevents starts. BLS itself is a parameter with the laws of aggregation."
  },
  {
   "property": "C109",
   "status": "partial",
   "theorems": [
    "Axon.StateProof.C109_values_partial",
    "Axon.StateProof.C109_verifies_partial",
    "Axon.StateProof.C109_truth",
    "Axon.StateProof.C109_storage",
    "Axon.StateProof.C109_missing_false",
    "Axon.StateProof.C109_genesis_false",
    "Axon.StateProof.C109_total",
    "Axon.StateProof.C109_first_change",
    "Axon.StateProof.C109_stays"
   ],
   "note": "Proved: reported values equal what the virtual machine reads (C109_values_partial) and the answer passes the checks of a client (C109_verifies_partial) when the storage trie of the account is stored; an answer that passes the checks tells the truth (C109_truth); eth_getStorageAt agrees with the virtual machine in all well-formed states (C109_storage); eth_getProof answers for every address once an empty storage trie is stored (C109_total, C109_first_change, C109_stays). False of the code and proved so: accounts of the genesis block have no proof before that (C109_genesis_false), and answers for addresses without an account claim zero hashes and carry unproved storage entries (C109_missing_false). Merkle proofs are a parameter (sound and complete)."
  },
  {
   "property": "C110",
   "status": "partial",
   "theorems": [
    "Axon.Cbmt.C110_sound_partial",
    "Axon.Cbmt.C110_inner_false",
    "Axon.Cbmt.C110_child_false",
    "Axon.Cbmt.C110_complete",
    "Axon.Cbmt.C110_agree",
    "Axon.Cbmt.C110_exec_iff",
    "Axon.Cbmt.C110_output_false"
   ],
   "note": "Proved: accepted payloads have consistent roots and true leaves for all indices of leaves, up to a collision made in the check itself (C110_sound_partial); built proofs are accepted for all sets of leaves (C110_complete); agreement with axon-tools (C110_agree); exact conditions and price of success (C110_exec_iff). False of the code and proved so: the root and inner nodes are accepted as leaves, since the number of leaves is not checked (C110_inner_false, C110_child_false), and the answer is one byte instead of a 32-byte bool (C110_output_false). The algorithm of merkle-cbt is modelled as published, its source being absent; the hash and the ABI decoding are parameters."
  },
  {
   "property": "C111",
   "status": "partial",
   "theorems": [
    "Axon.Progress.C111_running",
    "Axon.Progress.C111_report_partial",
    "Axon.Progress.C111_monotone",
    "Axon.Progress.C111_stale_false",
    "Axon.Progress.C111_stale_stays",
    "Axon.Progress.C111_highest",
    "Axon.Progress.C111_highest_false"
   ],
   "note": "Exact while a batch runs (unconditional). False otherwise: if update_status fails at the end of a batch the global stays and eth_syncing reports a batch that is over while consensus commits blocks; the highest number is at most 50 ahead whatever peers announced."
  },
  {
   "property": "C112",
   "status": "partial",
   "theorems": [
    "Axon.Methods.C112_merge_iff",
    "Axon.Methods.C112_dispatch",
    "Axon.Methods.C112_tables",
    "Axon.Methods.C112_published_partial",
    "Axon.Methods.C112_submit_false",
    "Axon.Methods.C112_own",
    "Axon.Methods.C112_http",
    "Axon.Methods.C112_ws",
    "Axon.Methods.C112_agree_iff",
    "Axon.Methods.C112_ws_limit_false"
   ],
   "note": "Dispatch and the tables are proved. False: eth_submitWork is registered with a trailing blank and unreachable under its name; the WebSocket server ignores the configured payload for responses (10 MiB whatever is configured). The node's own methods are reachable under their names and nothing else is served (C112_own)."
  },
  {
   "property": "C113",
   "status": "partial",
   "theorems": [
    "Axon.Roller.C113_names",
    "Axon.Roller.C113_build",
    "Axon.Roller.C113_kept_partial",
    "Axon.Roller.C113_overwritten",
    "Axon.Roller.C113_second_false",
    "Axon.Roller.C113_unchecked_false",
    "Axon.Roller.C113_bound"
   ],
   "note": "Kept exactly once and in order for checked patterns if no two rolls that move the file fall in one second (C113_kept_partial). False otherwise: a second roll within the second overwrites the archive (C113_second_false, C113_overwritten), and a pattern from a configuration file is not checked (C113_unchecked_false)."
  },
  {
   "property": "C114",
   "status": "partial",
   "theorems": [
    "Axon.Routing.C114_start_iff",
    "Axon.Routing.C114_reserved_false",
    "Axon.Routing.C114_module",
    "Axon.Routing.C114_switch_false",
    "Axon.Routing.C114_switches_partial",
    "Axon.Routing.C114_metrics",
    "Axon.Routing.C114_levels",
    "Axon.Routing.C114_capitals_false"
   ],
   "note": "Holds for records outside configured modules, metrics and cli (C114_switches_partial), for metrics (C114_metrics); the level of the closest module decides (C114_module). False: configured modules and cli ignore the switches (C114_switch_false), a level for metrics or cli stops the node (C114_reserved_false), names in capitals mean info (C114_capitals_false)."
  },
  {
   "property": "C115",
   "status": "partial",
   "theorems": [
    "Axon.ToolsJson.C115_digits_partial",
    "Axon.ToolsJson.C115_truncated_false",
    "Axon.ToolsJson.C115_signs_false",
    "Axon.ToolsJson.C115_panics_false",
    "Axon.ToolsJson.C115_uint",
    "Axon.ToolsJson.C115_proof",
    "Axon.ToolsJson.C115_header",
    "Axon.ToolsJson.C115_block",
    "Axon.ToolsJson.C115_proposal",
    "Axon.ToolsJson.C115_metadata_partial",
    "Axon.ToolsJson.C115_metadata_false",
    "Axon.ToolsJson.C115_tools_proof",
    "Axon.ToolsJson.C115_tools_metadata_false",
    "Axon.ToolsJson.C115_node_false",
    "Axon.ToolsJson.C115_node_proof"
   ],
   "note": "Blocks, headers, proofs and proposals arrive exactly (C115_block, C115_header, C115_proof, C115_proposal); numbers are read back (C115_uint, C115_digits_partial). False: metadata lose the counters and the contract limit (C115_metadata_partial, C115_metadata_false); numbers too large are truncated (C115_truncated_false), signs and empty numbers are accepted (C115_signs_false), hostile texts make the client panic (C115_panics_false); neither side can read back what it writes (C115_tools_metadata_false, C115_node_false). C115_node_proof: the node's own reader takes each field of a proof from the one of its name."
  },
  {
   "property": "C116",
   "status": "partial",
   "theorems": [
    "Axon.Trie.C116_reads",
    "Axon.Trie.C116_order",
    "Axon.Trie.C116_commits",
    "Axon.Trie.C116_transactions",
    "Axon.Trie.C116_receipts",
    "Axon.Trie.C116_hashed_keys",
    "Axon.Trie.C116_proofs_partial",
    "Axon.Trie.C116_proofs_false",
    "Axon.Trie.C116_forgery_partial",
    "Axon.Trie.C116_forgery_false"
   ],
   "note": "Tries of the crate cita_trie modelled from its published source with the hash function as a parameter. Proved: reads are those of the map written, the root is independent of the order of writes, equal roots mean equal maps, lists of transactions and of receipts; hashed keys; proofs by position verify for lists that are not empty; no list of nodes verifies to another entry. False: proofs for the empty trie are rejected; if the crate counts missing nodes as empty, the root node alone proves entries absent."
  },
  {
   "property": "C117",
   "status": "partial",
   "theorems": [
    "Axon.ReceiptRoot.C117_reads_partial",
    "Axon.ReceiptRoot.C117_commits",
    "Axon.ReceiptRoot.C117_reported",
    "Axon.ReceiptRoot.C117_cumulative_false"
   ],
   "note": "Leaves read as type, status, gas of the transaction itself, bloom and logs (C117_reads_partial); equal roots mean equal outcomes (C117_commits); reported receipts hash to the root of the header (C117_reported). False: the gas in a leaf is not the cumulative gas that the comment and the EIPs ask for, whenever an earlier transaction of the block used gas (C117_cumulative_false)."
  },
  {
   "property": "C118",
   "status": "partial",
   "theorems": [
    "Axon.Broadcast.C118_exactly_once",
    "Axon.Broadcast.C118_tick",
    "Axon.Broadcast.C118_relayed_once",
    "Axon.Broadcast.C118_batch_partial",
    "Axon.Broadcast.C118_batch_false",
    "Axon.Broadcast.C118_errors",
    "Axon.Broadcast.C118_blamed_false",
    "Axon.Broadcast.C118_lost_false",
    "Axon.Broadcast.C118_counters_false"
   ],
   "note": "Exactly once, by origin and in order (C118_exactly_once, C118_relayed_once), complete with the next tick (C118_tick), batches within a size of at least one (C118_batch_partial), one error per failed call (C118_errors). False: a batch size of 0 is no limit (C118_batch_false); the error of a batch is answered to the sender of another transaction that was accepted (C118_blamed_false); a failed batch is dropped for good (C118_lost_false); the handler counts every failure as a success, too (C118_counters_false)."
  },
  {
   "property": "C119",
   "status": "partial",
   "theorems": [
    "Axon.Addr.C119_writes",
    "Axon.Addr.C119_round_trip",
    "Axon.Addr.C119_canonical_partial",
    "Axon.Addr.C119_json",
    "Axon.Addr.C119_two_texts_false",
    "Axon.Addr.C119_panics_false",
    "Axon.Addr.C119_no_panic_partial",
    "Axon.Addr.C119_pubkey",
    "Axon.Addr.C119_unchecked_false"
   ],
   "note": "EIP-55 is written (C119_writes) and read back (C119_round_trip); texts of 42 characters are canonical (C119_canonical_partial); JSON accepts the text with or without prefix and nothing else (C119_json); keys have one address (C119_pubkey). False: about every second address has another text of 44 characters with a doubled prefix that from_str accepts (C119_two_texts_false); texts with more than 64 characters abort from_str (C119_panics_false, C119_no_panic_partial); any 65 bytes have an address (C119_unchecked_false)."
  },
  {
   "property": "C120",
   "status": "partial",
   "theorems": [
    "Axon.Genesis.C120_init",
    "Axon.Genesis.C120_start",
    "Axon.Genesis.C120_balances_partial",
    "Axon.Genesis.C120_epochs_partial",
    "Axon.Genesis.C120_interrupted",
    "Axon.Genesis.C120_identity",
    "Axon.Genesis.C120_duplicates_false",
    "Axon.Genesis.C120_limit_false",
    "Axon.Genesis.C120_first_block_false",
    "Axon.Genesis.C120_retry_false"
   ],
   "note": "Proved for every specification: exactly when init succeeds (C120_init), what the started node holds (C120_start), the balances when no address is repeated (C120_balances_partial), the two epochs (C120_epochs_partial), every interruption (C120_interrupted) and what the genesis header determines (C120_identity). The full statement is false: a repeated address silently loses the earlier balance (C120_duplicates_false); the metadata is encoded before the hardforks are in force, so the contract size limit of the specification is replaced by 0x6000 although Andromeda is active (C120_limit_false); the first block of epoch 0 is not compared with anything and epoch 1 has as many blocks as the last block's number (C120_first_block_false); a failed init leaves a directory that makes every later init fail while the node does not start (C120_retry_false). Transactions of the genesis block (always none) and key files are not modelled."
  },
  {
   "property": "C121",
   "status": "partial",
   "theorems": [
    "Axon.Adapter.C121_adapters",
    "Axon.Adapter.C121_tables_partial",
    "Axon.Adapter.C121_many_partial",
    "Axon.Adapter.C121_shared_false",
    "Axon.Adapter.C121_iter_false"
   ],
   "note": "Both adapters agree on every sequence of calls, and equal typed tables for every well-typed sequence in which no hash is a key of both tables of a pair sharing a column family; batches are all or nothing; reads of many by height agree with the tables (RocksDB, distinct hashes). Full statement false: code and code-address tables share column c7 and one key form, so an address entry is served as code (C121_shared_false); the memory adapter's iterator ignores the prefix (C121_iter_false)."
  },
  {
   "property": "C122",
   "status": "partial",
   "theorems": [
    "Axon.Pool.C122_no_empty_pop",
    "Axon.Pool.C122_progress",
    "Axon.Pool.C122_order_partial",
    "Axon.Pool.C122_settled_partial",
    "Axon.Pool.C122_reads_partial",
    "Axon.Pool.C122_panics_partial",
    "Axon.Pool.C122_effects",
    "Axon.Pool.C122_answers",
    "Axon.Pool.C122_limited",
    "Axon.Pool.C122_order_limited",
    "Axon.Pool.C122_package_partial",
    "Axon.Pool.C122_lost_false",
    "Axon.Pool.C122_refused_false"
   ],
   "note": "Proved for every interleaving: the queue is never popped when empty, no deadlock, each call takes effect exactly once within its interval, and if every insertion is a limited one the pool equals the sequential run of the log, counter included, and never exceeds its capacity. With unlimited insertions the same holds as long as no push met a full queue. Full statement false: the check for a full co_queue and the push are two steps and the failed push is ignored, so a transaction answered as inserted can be held without ever being packaged (C122_lost_false); the counter is raised before the duplicate check, so an insertion can be refused by a pool that was never full (C122_refused_false)."
  },
  {
   "property": "C123",
   "status": "partial",
   "theorems": [
    "Axon.SysAbi.C123_round",
    "Axon.SysAbi.C123_no_panic",
    "Axon.SysAbi.C123_dispatch",
    "Axon.SysAbi.C123_accepted",
    "Axon.SysAbi.C123_trailing",
    "Axon.SysAbi.C123_bounded_partial",
    "Axon.SysAbi.C123_room",
    "Axon.SysAbi.C123_exec",
    "Axon.SysAbi.C123_get_cell",
    "Axon.SysAbi.C123_get_header",
    "Axon.SysAbi.C123_layout",
    "Axon.SysAbi.C123_members",
    "Axon.SysAbi.C123_methods",
    "Axon.SysAbi.C123_shared_tails",
    "Axon.SysAbi.C123_together_false",
    "Axon.SysAbi.C123_range_false"
   ],
   "note": "The codec (ethabi, ethers: dependencies) is modelled from its documentation; round trip, dispatch by selector, no panic, trailing bytes, acceptance, the bound on each list, the contracts on call data and the two precompiles are proved. Two parts are false: C123_together_false (array elements may share their tails, so about 12 MB of call data decode to 2^34 out points, and 96196 bytes to a million) and C123_range_false (a bool word 2 is read as false, high bits of integers and addresses are dropped)."
  },
  {
   "property": "C124",
   "status": "partial",
   "theorems": [
    "Axon.PeerFiles.C124_book_text",
    "Axon.PeerFiles.C124_bans_text",
    "Axon.PeerFiles.C124_address",
    "Axon.PeerFiles.C124_result",
    "Axon.PeerFiles.C124_crash_partial",
    "Axon.PeerFiles.C124_restart_partial",
    "Axon.PeerFiles.C124_last",
    "Axon.PeerFiles.C124_entries",
    "Axon.PeerFiles.C124_any",
    "Axon.PeerFiles.C124_sound",
    "Axon.PeerFiles.C124_round",
    "Axon.PeerFiles.C124_tick",
    "Axon.PeerFiles.C124_torn_false",
    "Axon.PeerFiles.C124_poison_false",
    "Axon.PeerFiles.C124_unsaved_false"
   ],
   "note": "Proved: both files are read as they were written (JSON with escapes, multiaddresses, networks), a dump returns Ok exactly when nothing hindered it, after any history of failures and kills the files in place hold one of the admissible contents and a start makes the store of it, a reachable store is dumped and loaded unchanged, any bytes load without panic. Missing because false: when rename fails and the process is killed during the copy, the file in place is cut and the whole book is lost; an announced address with a dns name that holds a slash is written but cannot be read, so that the next start loads an empty book and overwrites the file; dumps come at the start and every 24 hours and never at the stop, so a ban of less than a day is forgotten by a restart. Loss of power is not modelled; the texts of IP addresses and peer ids are parameters that are read as they were written."
  },
  {
   "property": "C125",
   "status": "partial",
   "theorems": [
    "Axon.Forge.C125_eth_partial",
    "Axon.Forge.C125_log_partial",
    "Axon.Forge.C125_interop",
    "Axon.Forge.C125_authentic_partial",
    "Axon.Forge.C125_takeover",
    "Axon.Forge.C125_false",
    "Axon.Forge.C125_exit_code_false",
    "Axon.Forge.C125_unbound_false",
    "Axon.Forge.C125_funds_false",
    "Axon.Forge.C125_validator_false",
    "Axon.Forge.C125_chain",
    "Axon.Forge.C125_any_chain_false",
    "Axon.Forge.C125_unpaid_false"
   ],
   "note": "Proved for Ethereum signatures (C125_eth_partial, C125_log_partial) and for all transactions as long as no program among the cells stops on a key of the account (C125_authentic_partial); interoperation signatures are decided exactly (C125_interop); the chain is checked if there is one (C125_chain). False of the code and proved so: the sender of an interoperation transaction is the address of whatever public key it names, the program that checks it is chosen by the transaction, is not shown the transaction, and its exit code is dropped, so anybody who knows the public key of an account sends from it (C125_takeover, C125_false, C125_exit_code_false, C125_unbound_false), spends its funds (C125_funds_false) or acts as a validator (C125_validator_false); the check may run 2^64-1 cycles unpaid (C125_unpaid_false); transactions without chain id are admitted on every chain (C125_any_chain_false). The curve, the digest and the CKB machine are parameters."
  },
  {
   "property": "C126",
   "status": "partial",
   "theorems": [
    "Axon.Params.C126_members",
    "Axon.Params.C126_timing_partial",
    "Axon.Params.C126_agree",
    "Axon.Params.C126_commit",
    "Axon.Params.C126_previous",
    "Axon.Params.C126_limits_partial",
    "Axon.Params.C126_limits_frozen",
    "Axon.Params.C126_limits_sync",
    "Axon.Params.C126_limits_commit",
    "Axon.Params.C126_tags_partial",
    "Axon.Params.C126_stall",
    "Axon.Params.C126_stall_sync",
    "Axon.Params.C126_no_start",
    "Axon.Params.C126_alert_false",
    "Axon.Params.C126_admission_false",
    "Axon.Params.C126_limits_false",
    "Axon.Params.C126_stall_false",
    "Axon.Params.C126_timing_false",
    "Axon.Params.C126_tags_false"
   ],
   "note": "Proved for all histories: at every height Overlord has exactly the registered validators and weights, in the same order on all nodes; the timings of the state after the stored block while the next epoch is registered; a commit moves on exactly one height; the list for the block before is that of its epoch. False of the code and proved so: commits never change the limits on transactions, synchronisation changes those of the status but not that of the pool, so nodes with the same chain admit different transactions; an epoch registered in the last block of the one before comes too late for committing nodes, which stall for good while synchronising ones go on; a node at the end of the registered epochs does not start again; the warning about missing metadata never sounds; synchronisation leaves the old consensus tags."
  },
  {
   "property": "C127",
   "status": "proved",
   "theorems": [
    "Axon.MetaTrie.C127_records",
    "Axon.MetaTrie.C127_refines",
    "Axon.MetaTrie.C127_epoch",
    "Axon.MetaTrie.C127_counts",
    "Axon.MetaTrie.C127_config",
    "Axon.MetaTrie.C127_block",
    "Axon.MetaTrie.C127_genesis",
    "Axon.MetaTrie.C127_validator",
    "Axon.MetaTrie.C127_ckb",
    "Axon.MetaTrie.C127_forks",
    "Axon.MetaTrie.C127_announced",
    "Axon.MetaTrie.C127_root"
   ],
   "note": "The keys in use must have different digests (Apart) and values must be shorter than 2^63 bytes (Held); failures of the database are not modelled. The counter follows C70: what is counted is what C70's partial statement says is counted."
  },
  {
   "property": "C128",
   "status": "proved",
   "theorems": [
    "Axon.WorldDb.C128_reads",
    "Axon.WorldDb.C128_reopen",
    "Axon.WorldDb.C128_same"
   ],
   "note": "On the bytes: RLP accounts in the state trie, storage tries by root in the same node database, codes under their hashes. C128_reads: nothing fails and every read is the last write; C128_reopen: the root of any earlier commit opens that state after any further history; C128_same: two histories end in the same root iff all accounts are equal. The hypothesis names exactly the strings the history hashes (keys, codes, nodes) and asks that they do not collide and none hashes to zero; examples check it for a concrete hash. Touched empty accounts stay (C66). Failures of RocksDB are not modelled; the node cache is C41."
  },
  {
   "property": "C129",
   "status": "proved",
   "theorems": [
    "Axon.MetaChain.C129_opens",
    "Axon.MetaChain.C129_history",
    "Axon.MetaChain.C129_past",
    "Axon.MetaChain.C129_restart"
   ],
   "note": "All four parts proved for all histories of the model that reach their end without a panic; the assumptions are that the strings hashed in the history do not collide and do not hash to zero, that nothing but the contract writes the slot of the root, and that no value is 4 GB long. The intermediate trie the hook commits when a hardfork is registered is left out of the database of the model (it only adds nodes)."
  },
  {
   "property": "C130",
   "status": "proved",
   "theorems": [
    "Axon.CkbChain.C130_past",
    "Axon.CkbChain.C130_total",
    "Axon.CkbChain.C130_restart"
   ],
   "note": "C130_past: the slots, the store in use and the store behind every committed root, for all histories; C130_total: calls do not panic; C130_restart. Assumptions: the strings hashed in the history do not collide and do not hash to zero, nothing but the two contracts writes the slots of the root, the cells given to update have room for their encodings, no value is 4 GB long. The codec of the headers is a parameter with its round trip as a law; the examples use the concrete one of C123. The permission to call and the decoding of calls are C40 and C123."
  },
  {
   "property": "C131",
   "status": "proved",
   "theorems": [
    "Axon.ProofDb.C131_answers",
    "Axon.ProofDb.C131_plain",
    "Axon.ProofDb.C131_truth",
    "Axon.ProofDb.C131_absent",
    "Axon.ProofDb.C131_nobody",
    "Axon.ProofDb.C131_storage"
   ],
   "note": "eth_getProof and eth_getStorageAt on the trie nodes in the database, over the histories of C128. C131_answers (accounts with storage, any positions), C131_plain (accounts without storage), C131_nobody (addresses without account), C131_truth (whatever passes strict checks is true), C131_absent and C131_storage. What cannot be asked - proofs for positions of an account without storage - and the hashes reported for an address without account are in C109 and C116."
  },
  {
   "property": "C132",
   "status": "partial",
   "theorems": [
    "Axon.CkbData.C132_packed",
    "Axon.CkbData.C132_header",
    "Axon.CkbData.C132_hash_partial",
    "Axon.CkbData.C132_cell_partial",
    "Axon.CkbData.C132_hash_false",
    "Axon.CkbData.C132_cell_false",
    "Axon.CkbData.C132_data_false"
   ],
   "note": "Proved for all histories and every committed root: a header last accepted under a hash is reported field by field, with its extension and the hash of its packed form (C132_header; C132_packed says the packed form is unique), and one submitted under that hash is reported with the hash asked for (C132_hash_partial); a cell whose scripts have known hash types is reported with the output and data it was created with, and everything else is not found (C132_cell_partial). False of the code and proved so: the contract takes the hash of a header on trust, so another hash than the one asked for can be reported (C132_hash_false); a cell whose script has an unknown hash type is accepted and asking for it stops the node (C132_cell_false); the hash of empty data is zero for scripts but the hash of the empty string in the RPC (C132_data_false). Assumptions are those of C130; the JSON and packed types of ckb-types 0.111 are modelled from their definitions."
  },
  {
   "property": "C133",
   "status": "proved",
   "theorems": [
    "Axon.CkbSign.C133_frame",
    "Axon.CkbSign.C133_place",
    "Axon.CkbSign.C133_fed",
    "Axon.CkbSign.C133_unlocks",
    "Axon.CkbSign.C133_offset"
   ],
   "note": "C133_frame: success, what stays and what is signed; C133_place: the signature is at byte 20; C133_unlocks: the signed transaction passes the default lock, which is specified separately, for every group; C133_fed: what is hashed is determined by its description; C133_offset: the offset named in an action is not looked at, so only 20 is right. Hash and signature are parameters; the key's signatures are assumed valid and 65 bytes long. The witnesses are on the bytes of molecule, packed into less than 4 GB. Indices that are out of range, which molecule reads past the end (get_unchecked), are in the model but not in the claim; the address named in an action is not compared with the key."
  },
  {
   "property": "C134",
   "status": "partial",
   "theorems": [
    "Axon.RpcErr.C134_code",
    "Axon.RpcErr.C134_values",
    "Axon.RpcErr.C134_revert",
    "Axon.RpcErr.C134_reason_partial",
    "Axon.RpcErr.C134_stop_partial",
    "Axon.RpcErr.C134_message_false",
    "Axon.RpcErr.C134_reason_false",
    "Axon.RpcErr.C134_stop_false"
   ],
   "note": "Codes, values, reverted data and reasons proved (the printing of block ids, floats and quoted texts is a parameter; Debug names are those of evm-core 0.37, which is not in /repo). Negations: every failed run is reported as reverted, an error and a fatal error with the same text are reported alike, and a reverted run can stop the node (C134_stop_partial says exactly when)."
  },
  {
   "property": "C135",
   "status": "proved",
   "theorems": [
    "Axon.Keypair.C135_total",
    "Axon.Keypair.C135_recover",
    "Axon.Keypair.C135_identity",
    "Axon.Keypair.C135_printed",
    "Axon.Keypair.C135_validator",
    "Axon.Keypair.C135_others",
    "Axon.Keypair.C135_failed"
   ],
   "note": "Total success, files, recovery, identity of the node, validator entry, other files and failures. The curves, Keccak, peer ids and Base58 are functions with the lengths of the libraries as hypothesis (Lawful); paths are texts, without links."
  },
  {
   "property": "C136",
   "status": "partial",
   "theorems": [
    "Axon.MetaCell.C136_round_trip",
    "Axon.MetaCell.C136_text",
    "Axon.MetaCell.C136_layout",
    "Axon.MetaCell.C136_panic",
    "Axon.MetaCell.C136_accepts",
    "Axon.MetaCell.C136_whole",
    "Axon.MetaCell.C136_number",
    "Axon.MetaCell.C136_files_partial",
    "Axon.MetaCell.C136_count_false",
    "Axon.MetaCell.C136_binary_false",
    "Axon.MetaCell.C136_address_false",
    "Axon.MetaCell.C136_emptied_false"
   ],
   "note": "Proved: the round trip of the cell and of its text, the layout, that only cells in this layout are accepted and nothing may follow them, when writing aborts, the numbers in files, and the round trip of files for counts below 2^63. False: a count of 2^63 or more is written but parse-data cannot show it; what --binary writes is not read by parse-data; the address in a cell is not compared with the key; a run that fails empties the output file. The schema of axon-types is taken from the example data; TOML and JSON parsing is not modelled."
  },
  {
   "property": "C137",
   "status": "proved",
   "theorems": [
    "Axon.Pull.C137_message",
    "Axon.Pull.C137_message_inj",
    "Axon.Pull.C137_served",
    "Axon.Pull.C137_complete",
    "Axon.Pull.C137_content",
    "Axon.Pull.C137_missing",
    "Axon.Pull.C137_proposal",
    "Axon.Pull.C137_committed",
    "Axon.Pull.C137_other_block"
   ],
   "note": "The way of the messages through the network, the codec of the transactions in the answer (C91, C98) and errors of the database are not part of this model; the checks of the validator are a parameter. C137_other_block: a transaction the proposer committed in another block than the one asked for is not served."
  }
 ]
}