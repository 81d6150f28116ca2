/-!
# The table of RPC methods and the limits of the two servers

`run_jsonrpc_server` merges five modules into one table, hands a copy of it to the HTTP server, merges
the subscriptions and hands the result to the WebSocket server.  The table and the limits of the servers
belong to jsonrpsee 0.20.3 and are modelled from its published source.
-/

namespace Axon.Methods

/-- A module: method names with their handlers.  A table of jsonrpsee is a hash map, so a lookup does
not depend on the order. -/
abbrev Table (α : Type) := List (String × α)

/-- `Methods::method`. -/
def find {α : Type} (t : Table α) (name : String) : Option α :=
  (t.find? (fun e => e.1 == name)).map (·.2)

/-- `Methods::merge` (jsonrpsee): refuses before any change when a name is taken. -/
def merge {α : Type} (t other : Table α) : Option (Table α) :=
  if other.any (fun e => (find t e.1).isSome) then none else some (t ++ other)

/-- `rpc.merge(…).unwrap()` in sequence (core/api/src/jsonrpc/mod.rs:270-273, 310): `none` is the
panic. -/
def mergeAll {α : Type} (t : Table α) : List (Table α) → Option (Table α)
  | [] => some t
  | m :: ms => (merge t m).bind fun t => mergeAll t ms

/-- `ServerBuilder` (jsonrpsee): limits of the sizes of requests and responses; both default to ten
megabytes. -/
structure Limits where
  request : Nat
  response : Nat
deriving DecidableEq, Repr

/-- `Settings::default` (jsonrpsee). -/
def Limits.default : Limits := ⟨10 * 1024 * 1024, 10 * 1024 * 1024⟩

/-- `ServerBuilder::max_request_body_size`. -/
def Limits.maxRequest (l : Limits) (n : Nat) : Limits := { l with request := n }

/-- `ServerBuilder::max_response_body_size`. -/
def Limits.maxResponse (l : Limits) (n : Nat) : Limits := { l with response := n }

/-- core/api/src/jsonrpc/mod.rs:282-291: the HTTP server. -/
def httpLimits (maxPayload : Nat) : Limits :=
  (Limits.default.maxRequest maxPayload).maxResponse maxPayload

/-- core/api/src/jsonrpc/mod.rs:297-306: the WebSocket server sets the limit of requests twice. -/
def wsLimits (maxPayload : Nat) : Limits :=
  (Limits.default.maxRequest maxPayload).maxRequest maxPayload

/-- What a client observes for one call. -/
inductive Answer where
  | done (payload : Nat)
  | unknownMethod
  | requestTooBig
  | responseTooBig
deriving DecidableEq, Repr

/-- A call: the request is measured, the method looked up, and the response measured.  A handler maps
parameters to the response; both are represented by their sizes and an opaque `Nat`. -/
def serve {α : Type} (l : Limits) (t : Table (α → Nat × Nat)) (name : String) (params : α)
    (size : Nat) : Answer :=
  if size > l.request then .requestTooBig
  else match find t name with
    | none => .unknownMethod
    | some h =>
      let r := h params
      if r.1 > l.response then .responseTooBig else .done r.2

/-- The handlers, by the names of the Rust functions (core/api/src/jsonrpc/mod.rs:29-253). -/
inductive Handler where
  | send_raw_transaction | get_transaction_by_hash | get_block_by_number | get_block_by_hash
  | block_number | get_transaction_count | get_block_transaction_count_by_number | get_balance
  | call | estimate_gas | get_code | get_transaction_receipt | gas_price | get_logs | fee_history
  | accounts | get_block_transaction_count_by_hash | get_transaction_by_block_hash_and_index
  | get_transaction_by_block_number_and_index | peer_count | get_storage_at | protocol_version
  | get_uncle_by_block_hash_and_index | get_uncle_by_block_number_and_index
  | get_uncle_count_by_block_hash | get_uncle_count_by_block_number | get_proof
  | new_filter | block_filter | get_filter_logs | get_filter_changes | uninstall_filter
  | chain_id | net_version | client_version | listening | syncing | mining | coinbase | hashrate
  | submit_work | submit_hashrate | sha3 | pprof
  | get_block_by_id | get_proof_by_id | get_metadata_by_number | get_proposal_by_number
  | get_current_metadata | get_ckb_related_info | hardfork_infos
  | get_block_header_by_hash | get_cell_info
  | subscribe | unsubscribe
deriving DecidableEq, Repr

/-- core/api/src/jsonrpc/mod.rs:29-156 `Web3Rpc`. -/
def web3Rpc : Table Handler :=
  [("eth_sendRawTransaction", .send_raw_transaction),
   ("eth_getTransactionByHash", .get_transaction_by_hash),
   ("eth_getBlockByNumber", .get_block_by_number),
   ("eth_getBlockByHash", .get_block_by_hash),
   ("eth_blockNumber", .block_number),
   ("eth_getTransactionCount", .get_transaction_count),
   ("eth_getBlockTransactionCountByNumber", .get_block_transaction_count_by_number),
   ("eth_getBalance", .get_balance),
   ("eth_call", .call),
   ("eth_estimateGas", .estimate_gas),
   ("eth_getCode", .get_code),
   ("eth_getTransactionReceipt", .get_transaction_receipt),
   ("eth_gasPrice", .gas_price),
   ("eth_getLogs", .get_logs),
   ("eth_feeHistory", .fee_history),
   ("eth_accounts", .accounts),
   ("eth_getBlockTransactionCountByHash", .get_block_transaction_count_by_hash),
   ("eth_getTransactionByBlockHashAndIndex", .get_transaction_by_block_hash_and_index),
   ("eth_getTransactionByBlockNumberAndIndex", .get_transaction_by_block_number_and_index),
   ("net_peerCount", .peer_count),
   ("eth_getStorageAt", .get_storage_at),
   ("eth_protocolVersion", .protocol_version),
   ("eth_getUncleByBlockHashAndIndex", .get_uncle_by_block_hash_and_index),
   ("eth_getUncleByBlockNumberAndIndex", .get_uncle_by_block_number_and_index),
   ("eth_getUncleCountByBlockHash", .get_uncle_count_by_block_hash),
   ("eth_getUncleCountByBlockNumber", .get_uncle_count_by_block_number),
   ("eth_getProof", .get_proof)]

/-- core/api/src/jsonrpc/mod.rs:158-174 `Web3Filter`. -/
def filterRpc : Table Handler :=
  [("eth_newFilter", .new_filter),
   ("eth_newBlockFilter", .block_filter),
   ("eth_getFilterLogs", .get_filter_logs),
   ("eth_getFilterChanges", .get_filter_changes),
   ("eth_uninstallFilter", .uninstall_filter)]

/-- core/api/src/jsonrpc/mod.rs:176-213 `AxonNodeRpc`, with the blank in the name of line 203. -/
def nodeRpc : Table Handler :=
  [("eth_chainId", .chain_id),
   ("net_version", .net_version),
   ("web3_clientVersion", .client_version),
   ("net_listening", .listening),
   ("eth_syncing", .syncing),
   ("eth_mining", .mining),
   ("eth_coinbase", .coinbase),
   ("eth_hashrate", .hashrate),
   ("eth_submitWork ", .submit_work),
   ("eth_submitHashrate", .submit_hashrate),
   ("web3_sha3", .sha3),
   ("pprof", .pprof)]

/-- core/api/src/jsonrpc/mod.rs:215-237 `AxonRpc`. -/
def axonRpc : Table Handler :=
  [("axon_getBlockById", .get_block_by_id),
   ("axon_getProofById", .get_proof_by_id),
   ("axon_getMetadataByNumber", .get_metadata_by_number),
   ("axon_getProposalByNumber", .get_proposal_by_number),
   ("axon_getCurrentMetadata", .get_current_metadata),
   ("axon_getCkbRelatedInfo", .get_ckb_related_info),
   ("axon_getHardforkInfo", .hardfork_infos)]

/-- core/api/src/jsonrpc/mod.rs:239-251 `CkbLightClientRpc`. -/
def ckbRpc : Table Handler :=
  [("ckb_getBlockHeaderByHash", .get_block_header_by_hash),
   ("ckb_getLiveCell", .get_cell_info)]

/-- core/api/src/jsonrpc/ws_subscription.rs:27-45 `ws_subscription_module`. -/
def wsRpc : Table Handler :=
  [("eth_subscribe", .subscribe),
   ("eth_unsubscribe", .unsubscribe)]

/-- core/api/src/jsonrpc/mod.rs:255-273: the table of the HTTP server. -/
def httpTable : Option (Table Handler) :=
  mergeAll web3Rpc [nodeRpc, axonRpc, filterRpc, ckbRpc]

/-- core/api/src/jsonrpc/mod.rs:308: … and of the WebSocket server. -/
def wsTable : Option (Table Handler) :=
  httpTable.bind fun t => merge t wsRpc

/-! ## Lemmas -/

theorem find_append {α : Type} (t u : Table α) (n : String) :
    find (t ++ u) n = (find t n).or (find u n) := by
  unfold find
  rw [List.find?_append]
  cases t.find? (fun e => e.1 == n) <;> simp

theorem find_isSome {α : Type} (t : Table α) (n : String) :
    (find t n).isSome = true ↔ ∃ e ∈ t, e.1 = n := by
  unfold find
  rw [Option.isSome_map, List.find?_isSome]
  simp

theorem merge_some {α : Type} {t u v : Table α} (h : merge t u = some v) :
    v = t ++ u ∧ ∀ e ∈ u, find t e.1 = none := by
  unfold merge at h
  split at h
  · cases h
  next hn =>
    refine ⟨(Option.some.inj h).symm, ?_⟩
    intro e he
    have := hn
    simp only [List.any_eq_true, not_exists, not_and] at this
    have h1 := this e he
    cases hf : find t e.1 with
    | none => rfl
    | some x => rw [hf] at h1; exact absurd rfl h1

end Axon.Methods
