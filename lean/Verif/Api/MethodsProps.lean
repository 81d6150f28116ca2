import Verif.Api.Methods

/-!
# C112: which method answers which call, and how large it may be
-/

namespace Axon.Methods

/-! ## Merging modules -/

/-- Merging succeeds exactly when no name of the new module is taken. -/
theorem C112_merge_iff {α : Type} (t u : Table α) :
    (merge t u).isSome = true ↔ ∀ e ∈ u, ∀ d ∈ t, d.1 ≠ e.1 := by
  unfold merge
  split
  next h =>
    simp only [Option.isSome_none, Bool.false_eq_true, false_iff]
    intro hn
    rw [List.any_eq_true] at h
    obtain ⟨e, he, hs⟩ := h
    obtain ⟨d, hd, hde⟩ := (find_isSome t e.1).1 hs
    exact hn e he d hd hde
  next h =>
    simp only [Option.isSome_some, true_iff]
    intro e he d hd hde
    apply h
    rw [List.any_eq_true]
    exact ⟨e, he, (find_isSome t e.1).2 ⟨d, hd, hde⟩⟩

/-- After merging any modules in sequence, a name that a module serves is served by exactly that
module: an earlier one never loses a method, a later one never shadows one. -/
theorem C112_dispatch {α : Type} (t : Table α) (ms : List (Table α)) (v : Table α)
    (h : mergeAll t ms = some v) (n : String) :
    (∀ x, find t n = some x → find v n = some x ∧ ∀ m ∈ ms, find m n = none) ∧
    (∀ m ∈ ms, ∀ x, find m n = some x → find v n = some x) ∧
    (find t n = none → (∀ m ∈ ms, find m n = none) → find v n = none) := by
  induction ms generalizing t with
  | nil =>
    simp only [mergeAll, Option.some.injEq] at h
    subst h
    refine ⟨fun x hx => ⟨hx, ?_⟩, ?_, fun hx _ => hx⟩
    · intro m hm; cases hm
    · intro m hm; cases hm
  | cons m ms ih =>
    simp only [mergeAll] at h
    cases hm : merge t m with
    | none => rw [hm] at h; cases h
    | some t' =>
      rw [hm] at h
      obtain ⟨rfl, hfree⟩ := merge_some hm
      obtain ⟨i1, i2, i3⟩ := ih (t ++ m) h
      have hmn : ∀ x, find t n = some x → find m n = none := by
        intro x hx
        cases hf : find m n with
        | none => rfl
        | some y =>
          obtain ⟨e, he, hen⟩ := (find_isSome m n).1 (by rw [hf]; rfl)
          have := hfree e he
          rw [hen, hx] at this; cases this
      refine ⟨?_, ?_, ?_⟩
      · intro x hx
        have ha : find (t ++ m) n = some x := by rw [find_append, hx]; rfl
        obtain ⟨j1, j2⟩ := i1 x ha
        refine ⟨j1, ?_⟩
        intro m' hm'
        rcases List.mem_cons.1 hm' with rfl | hm'
        · exact hmn x hx
        · exact j2 m' hm'
      · intro m' hm' x hx
        rcases List.mem_cons.1 hm' with rfl | hm'
        · have : find t n = none := by
            cases hf : find t n with
            | none => rfl
            | some y => rw [hmn y hf] at hx; cases hx
          have ha : find (t ++ m') n = some x := by rw [find_append, this, hx]; rfl
          exact (i1 x ha).1
        · exact i2 m' hm' x hx
      · intro hx hall
        apply i3
        · rw [find_append, hx, hall m (List.mem_cons_self ..)]; rfl
        · intro m' hm'; exact hall m' (List.mem_cons_of_mem _ hm')

example : (mergeAll [("a", 1)] [[("b", 2)], [("c", 3)]]).map (find · "b") = some (some 2) ∧
    mergeAll [("a", 1)] [[("b", 2)], [("a", 3)]] = none := by decide +kernel

/-! ## The table of the node -/

/-- The five modules and the subscriptions have no name in common, so building the servers does not
panic, and both servers answer the same methods alike; the WebSocket server has two more. -/
theorem C112_tables : ∃ t u, httpTable = some t ∧ wsTable = some u ∧
    (∀ n x, find t n = some x → find u n = some x) ∧
    (∀ n x, find u n = some x → find t n = some x ∨
      (n = "eth_subscribe" ∧ x = .subscribe) ∨ (n = "eth_unsubscribe" ∧ x = .unsubscribe)) := by
  have h1 : httpTable = some (web3Rpc ++ nodeRpc ++ axonRpc ++ filterRpc ++ ckbRpc) := by
    decide +kernel
  have h2 : wsTable = some (web3Rpc ++ nodeRpc ++ axonRpc ++ filterRpc ++ ckbRpc ++ wsRpc) := by
    decide +kernel
  refine ⟨_, _, h1, h2, ?_, ?_⟩
  · intro n x hx
    rw [find_append, hx]; rfl
  · intro n x hx
    rw [find_append] at hx
    cases hf : find (web3Rpc ++ nodeRpc ++ axonRpc ++ filterRpc ++ ckbRpc) n with
    | some y => rw [hf] at hx; exact .inl hx
    | none =>
      rw [hf] at hx
      have hx : find wsRpc n = some x := hx
      right
      unfold find wsRpc at hx
      simp only [List.find?] at hx
      split at hx
      next h => exact .inl ⟨(beq_iff_eq.1 h).symm, by simpa using hx.symm⟩
      · split at hx
        next h => exact .inr ⟨(beq_iff_eq.1 h).symm, by simpa using hx.symm⟩
        · simp at hx

/-- The methods of Ethereum's JSON-RPC interface that the node has a handler for, by their published
names, with the handler that belongs to each. -/
def published : Table Handler :=
  [("web3_clientVersion", .client_version), ("web3_sha3", .sha3), ("net_version", .net_version),
   ("net_listening", .listening), ("net_peerCount", .peer_count),
   ("eth_protocolVersion", .protocol_version), ("eth_syncing", .syncing),
   ("eth_coinbase", .coinbase), ("eth_chainId", .chain_id), ("eth_mining", .mining),
   ("eth_hashrate", .hashrate), ("eth_gasPrice", .gas_price), ("eth_accounts", .accounts),
   ("eth_blockNumber", .block_number), ("eth_getBalance", .get_balance),
   ("eth_getStorageAt", .get_storage_at), ("eth_getTransactionCount", .get_transaction_count),
   ("eth_getBlockTransactionCountByHash", .get_block_transaction_count_by_hash),
   ("eth_getBlockTransactionCountByNumber", .get_block_transaction_count_by_number),
   ("eth_getUncleCountByBlockHash", .get_uncle_count_by_block_hash),
   ("eth_getUncleCountByBlockNumber", .get_uncle_count_by_block_number),
   ("eth_getCode", .get_code), ("eth_sendRawTransaction", .send_raw_transaction),
   ("eth_call", .call), ("eth_estimateGas", .estimate_gas),
   ("eth_getBlockByHash", .get_block_by_hash), ("eth_getBlockByNumber", .get_block_by_number),
   ("eth_getTransactionByHash", .get_transaction_by_hash),
   ("eth_getTransactionByBlockHashAndIndex", .get_transaction_by_block_hash_and_index),
   ("eth_getTransactionByBlockNumberAndIndex", .get_transaction_by_block_number_and_index),
   ("eth_getTransactionReceipt", .get_transaction_receipt),
   ("eth_getUncleByBlockHashAndIndex", .get_uncle_by_block_hash_and_index),
   ("eth_getUncleByBlockNumberAndIndex", .get_uncle_by_block_number_and_index),
   ("eth_newFilter", .new_filter), ("eth_newBlockFilter", .block_filter),
   ("eth_uninstallFilter", .uninstall_filter), ("eth_getFilterChanges", .get_filter_changes),
   ("eth_getFilterLogs", .get_filter_logs), ("eth_getLogs", .get_logs),
   ("eth_submitWork", .submit_work), ("eth_submitHashrate", .submit_hashrate),
   ("eth_feeHistory", .fee_history), ("eth_getProof", .get_proof)]

/-- Every published method the node implements is reachable under its name, except `eth_submitWork`
(see `C112_submit_false`). -/
theorem C112_published_partial (n : String) (x : Handler) (h : (n, x) ∈ published)
    (hn : n ≠ "eth_submitWork") : httpTable.bind (find · n) = some x := by
  have hall : ∀ e ∈ published, e.1 = "eth_submitWork" ∨ httpTable.bind (find · e.1) = some e.2 := by
    decide +kernel
  rcases hall _ h with h | h
  · exact absurd h hn
  · exact h

/-- False for `eth_submitWork`: it is registered as `"eth_submitWork "` with a blank at the end, so
the call is answered "method not found" by both servers, while the name with the blank is served. -/
theorem C112_submit_false :
    ("eth_submitWork", Handler.submit_work) ∈ published ∧
    httpTable.bind (find · "eth_submitWork") = none ∧ wsTable.bind (find · "eth_submitWork") = none ∧
    httpTable.bind (find · "eth_submitWork ") = some .submit_work := by decide +kernel

/-- The node's own methods: those of `core/api/README.md` with the prefix `axon_`, and the two about
cells and headers of CKB, which the README leaves out. -/
def own : Table Handler :=
  [("axon_getBlockById", .get_block_by_id), ("axon_getProofById", .get_proof_by_id),
   ("axon_getMetadataByNumber", .get_metadata_by_number),
   ("axon_getProposalByNumber", .get_proposal_by_number),
   ("axon_getCkbRelatedInfo", .get_ckb_related_info),
   ("axon_getCurrentMetadata", .get_current_metadata), ("axon_getHardforkInfo", .hardfork_infos),
   ("ckb_getBlockHeaderByHash", .get_block_header_by_hash), ("ckb_getLiveCell", .get_cell_info)]

/-- The node's own methods are reachable under their names, over HTTP and over WebSocket, and over HTTP
nothing is served but the published methods, these, `pprof` and the misspelt one. -/
theorem C112_own :
    (∀ n x, (n, x) ∈ own → httpTable.bind (find · n) = some x ∧ wsTable.bind (find · n) = some x) ∧
    (∀ n x, httpTable.bind (find · n) = some x → (n, x) ∈ published ∨ (n, x) ∈ own ∨
      (n = "pprof" ∧ x = .pprof) ∨ (n = "eth_submitWork " ∧ x = .submit_work)) := by
  have h1 : ∀ e ∈ own, httpTable.bind (find · e.1) = some e.2 ∧
      wsTable.bind (find · e.1) = some e.2 := by decide +kernel
  have h2 : httpTable = some (web3Rpc ++ nodeRpc ++ axonRpc ++ filterRpc ++ ckbRpc) := by
    decide +kernel
  have h3 : ∀ e ∈ web3Rpc ++ nodeRpc ++ axonRpc ++ filterRpc ++ ckbRpc,
      e ∈ published ∨ e ∈ own ∨ e = ("pprof", .pprof) ∨ e = ("eth_submitWork ", .submit_work) := by
    decide +kernel
  refine ⟨fun n x h => h1 _ h, ?_⟩
  intro n x h
  rw [h2, Option.bind_some] at h
  unfold find at h
  rw [Option.map_eq_some_iff] at h
  obtain ⟨e, he, rfl⟩ := h
  have hn : e.1 = n := by simpa using List.find?_some he
  subst hn
  rcases h3 e (List.mem_of_find?_eq_some he) with h | h | h | h
  · exact .inl h
  · exact .inr (.inl h)
  · subst h; exact .inr (.inr (.inl ⟨rfl, rfl⟩))
  · subst h; exact .inr (.inr (.inr ⟨rfl, rfl⟩))

/-! ## Sizes -/

/-- Over HTTP a call is answered exactly when request and response fit into the configured payload and
the method exists. -/
theorem C112_http {α : Type} (max : Nat) (t : Table (α → Nat × Nat)) (name : String) (params : α)
    (size out : Nat) :
    serve (httpLimits max) t name params size = .done out ↔
      size ≤ max ∧ ∃ h, find t name = some h ∧ (h params).1 ≤ max ∧ (h params).2 = out := by
  unfold serve httpLimits Limits.maxResponse Limits.maxRequest
  dsimp only
  by_cases h1 : size > max
  · rw [if_pos h1]
    constructor
    · intro h; cases h
    · rintro ⟨h, _⟩; omega
  · rw [if_neg h1]
    cases hf : find t name with
    | none =>
      constructor
      · intro h; cases h
      · rintro ⟨_, _, h, _⟩; cases h
    | some g =>
      dsimp only
      by_cases h2 : (g params).1 > max
      · rw [if_pos h2]
        constructor
        · intro h; cases h
        · rintro ⟨_, g', hg, h3, _⟩; cases hg; omega
      · rw [if_neg h2]
        constructor
        · intro h; exact ⟨by omega, g, rfl, by omega, by simpa using h⟩
        · rintro ⟨_, g', hg, _, h4⟩; cases hg; rw [h4]

/-- Over a WebSocket the limit of responses is ten megabytes whatever is configured. -/
theorem C112_ws {α : Type} (max : Nat) (t : Table (α → Nat × Nat)) (name : String) (params : α)
    (size out : Nat) :
    serve (wsLimits max) t name params size = .done out ↔
      size ≤ max ∧ ∃ h, find t name = some h ∧ (h params).1 ≤ 10485760 ∧ (h params).2 = out := by
  unfold serve wsLimits Limits.maxRequest Limits.default
  dsimp only
  by_cases h1 : size > max
  · rw [if_pos h1]
    constructor
    · intro h; cases h
    · rintro ⟨h, _⟩; omega
  · rw [if_neg h1]
    cases hf : find t name with
    | none =>
      constructor
      · intro h; cases h
      · rintro ⟨_, _, h, _⟩; cases h
    | some g =>
      dsimp only
      by_cases h2 : (g params).1 > 10 * 1024 * 1024
      · rw [if_pos h2]
        constructor
        · intro h; cases h
        · rintro ⟨_, g', hg, h3, _⟩; cases hg; omega
      · rw [if_neg h2]
        constructor
        · intro h; exact ⟨by omega, g, rfl, by omega, by simpa using h⟩
        · rintro ⟨_, g', hg, _, h4⟩; cases hg; rw [h4]

/-- So both servers agree on every call exactly for the configuration that equals the default. -/
theorem C112_agree_iff (max : Nat) :
    (∀ (t : Table (Unit → Nat × Nat)) (name : String) (size : Nat),
      serve (httpLimits max) t name () size = serve (wsLimits max) t name () size) ↔
    max = 10485760 := by
  constructor
  · intro h
    have e : find [("m", fun _ : Unit => (Nat.min max 10485760 + 1, 0))] "m" =
        some (fun _ : Unit => (Nat.min max 10485760 + 1, 0)) := rfl
    have h0 := h [("m", fun _ => (Nat.min max 10485760 + 1, 0))] "m" 0
    have hle1 : Nat.min max 10485760 ≤ max := Nat.min_le_left _ _
    have hle2 : Nat.min max 10485760 ≤ 10485760 := Nat.min_le_right _ _
    have hor : Nat.min max 10485760 = max ∨ Nat.min max 10485760 = 10485760 := by
      have : Nat.min max 10485760 = min max 10485760 := rfl
      omega
    rcases Nat.lt_trichotomy max 10485760 with hlt | heq | hgt
    · have := (C112_ws max [("m", fun _ : Unit => (Nat.min max 10485760 + 1, 0))] "m" () 0 0).2
        ⟨Nat.zero_le _, _, e, by dsimp only; omega, rfl⟩
      rw [← h0] at this
      obtain ⟨_, g, hg, h3, _⟩ :=
        (C112_http max [("m", fun _ : Unit => (Nat.min max 10485760 + 1, 0))] "m" () 0 0).1 this
      rw [e] at hg; cases hg
      dsimp only at h3
      omega
    · exact heq
    · have := (C112_http max [("m", fun _ : Unit => (Nat.min max 10485760 + 1, 0))] "m" () 0 0).2
        ⟨Nat.zero_le _, _, e, by dsimp only; omega, rfl⟩
      rw [h0] at this
      obtain ⟨_, g, hg, h3, _⟩ :=
        (C112_ws max [("m", fun _ : Unit => (Nat.min max 10485760 + 1, 0))] "m" () 0 0).1 this
      rw [e] at hg; cases hg
      dsimp only at h3
      omega
  · intro h
    subst h
    intros
    rfl

/-- False that the configured payload bounds responses: with one megabyte configured, a response of
five is refused over HTTP and sent over a WebSocket; with twenty configured, one of fifteen is sent
over HTTP and refused over a WebSocket. -/
theorem C112_ws_limit_false :
    let mb := 1024 * 1024
    let big : Nat → Table (Unit → Nat × Nat) := fun k => [("eth_getLogs", fun _ => (k * mb, 7))]
    serve (httpLimits mb) (big 5) "eth_getLogs" () 100 = .responseTooBig ∧
    serve (wsLimits mb) (big 5) "eth_getLogs" () 100 = .done 7 ∧
    serve (httpLimits (20 * mb)) (big 15) "eth_getLogs" () 100 = .done 7 ∧
    serve (wsLimits (20 * mb)) (big 15) "eth_getLogs" () 100 = .responseTooBig := by decide +kernel

end Axon.Methods
