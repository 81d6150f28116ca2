import Verif.Api.Select
import Verif.Api.LogsProps
import Verif.Api.FilterProps

/-!
# C84 and C85: block selectors, and requests that stop the node

Specification of C85: `Means` gives the block a selector stands for; a method answers about the state
after this block, and with an error if there is none.
-/

namespace Axon.Api

open Axon Axon.Block Axon.Assoc

/-! ## Specification -/

/-- The adapter reads a chain, the state `world n` after every block `n`, and finds blocks by their
hash. -/
structure ReadsState (A : StateAdapter) (hashOf : Block → H256) (chain : List Full)
    (world : Nat → H160 → Acct) : Prop where
  serves : Serves A.toAdapter chain
  byHash : ∀ h, A.numberByHash h = some (chain.findIdx? fun f => hashOf f.block = h)
  account : ∀ a n, A.account a (some n) = if n < chain.length then some (world n a) else none
  accountLatest : ∀ a, A.account a none = some (world (chain.length - 1) a)
  header : ∀ n, A.headerAt (some n) = some (chain[n]?.map (·.block.header))
  headerLatest : A.headerAt none = some (chain[chain.length - 1]?.map (·.block.header))

/-- The block a selector stands for. -/
def Means (hashOf : Block → H256) (chain : List Full) : Option BlockId → Option Nat
  | some (.num n) => if n.val < chain.length then some n.val else none
  | some (.hash h) => chain.findIdx? fun f => hashOf f.block = h
  | some .earliest => some 0
  | _ => some (chain.length - 1)

/-! ## C85 -/

theorem numberById_spec {A : StateAdapter} {hashOf : Block → H256} {chain : List Full}
    {world : Nat → H160 → Acct} (hA : ReadsState A hashOf chain world) (id : Option BlockId) (n : Nat)
    (h : Means hashOf chain id = some n) :
    ∃ o, numberById A id = .ok o ∧ (o = some n ∨ (o = none ∧ n = chain.length - 1)) ∧
      n < chain.length := by
  have hpos : 0 < chain.length := List.length_pos_iff.2 hA.serves.wf.nonempty
  unfold numberById
  cases id with
  | none =>
    simp only [Means, Option.some.injEq] at h
    exact ⟨none, rfl, .inr ⟨rfl, by omega⟩, by omega⟩
  | some b =>
    cases b with
    | num m =>
      simp only [Means] at h
      split at h
      · cases h
        exact ⟨some m.val, rfl, .inl rfl, by omega⟩
      · simp at h
    | hash x =>
      simp only [Means] at h
      refine ⟨some n, by simp only [hA.byHash, h]; rfl, .inl rfl, ?_⟩
      exact (List.findIdx?_eq_some_iff_getElem.1 h).1
    | latest =>
      simp only [Means, Option.some.injEq] at h
      exact ⟨none, rfl, .inr ⟨rfl, by omega⟩, by omega⟩
    | earliest =>
      simp only [Means, Option.some.injEq] at h
      subst h
      exact ⟨some 0, rfl, .inl rfl, hpos⟩
    | pending =>
      simp only [Means, Option.some.injEq] at h
      exact ⟨none, rfl, .inr ⟨rfl, by omega⟩, by omega⟩

theorem account_spec {A : StateAdapter} {hashOf : Block → H256} {chain : List Full}
    {world : Nat → H160 → Acct} (hA : ReadsState A hashOf chain world) (a : H160) (o : Option Nat)
    (n : Nat) (ho : o = some n ∨ (o = none ∧ n = chain.length - 1)) (hn : n < chain.length) :
    A.account a o = some (world n a) := by
  rcases ho with rfl | ⟨rfl, rfl⟩
  · rw [hA.account, if_pos hn]
  · exact hA.accountLatest a

theorem header_spec {A : StateAdapter} {hashOf : Block → H256} {chain : List Full}
    {world : Nat → H160 → Acct} (hA : ReadsState A hashOf chain world) (o : Option Nat)
    (n : Nat) (f : Full) (ho : o = some n ∨ (o = none ∧ n = chain.length - 1))
    (hf : chain[n]? = some f) : A.headerAt o = some (some f.block.header) := by
  rcases ho with rfl | ⟨rfl, rfl⟩
  · rw [hA.header, hf]; rfl
  · rw [hA.headerLatest, hf]; rfl

/-- **C85 (part).** When the selector stands for block `n`, the balance, the transaction count, the
code and the storage reported are those after block `n`, and calls are run on block `n`.  Missing:
selectors that stand for no block (`C85_unknown_hash_false`, `C85_unknown_number_false`), hashes
given to methods by number (`C85_hash_ignored_false`) and `eth_estimateGas`
(`C85_estimate_false`). -/
theorem C85_selected_partial {A : StateAdapter} {hashOf : Block → H256} {chain : List Full}
    {world : Nat → H160 → Acct} (hA : ReadsState A hashOf chain world) (id : Option BlockId) (n : Nat)
    (f : Full) (h : Means hashOf chain id = some n) (hf : chain[n]? = some f) (a : H160) :
    getBalance A a id = .ok (world n a).balance ∧
    (id ≠ some .pending → getTransactionCount A a id = .ok (world n a).nonce) ∧
    (∀ c, A.code (world n a).codeHash = some c → getCode A a id = .ok (c.getD [])) ∧
    callOn A id = .ok f.block.header ∧
    (∀ system pos v, system a = false → A.storageAt a pos f.block.header.stateRoot = some v →
      getStorageAt A system a pos id = .ok v) ∧
    ((∀ x, id ≠ some (.hash x)) → blockByNumber A.toAdapter (id.getD .latest) = .ok (some f.block)) := by
  obtain ⟨o, ho, hon, hn⟩ := numberById_spec hA id n h
  have hacc := account_spec hA a o n hon hn
  have hhd := header_spec hA o n f hon hf
  refine ⟨?_, ?_, ?_, ?_, ?_, ?_⟩
  · simp only [getBalance, ho, Reply.bind, hacc]
  · intro hp
    unfold getTransactionCount
    cases hid : id.getD .latest with
    | pending =>
      cases id with
      | none => simp at hid
      | some b => simp only [Option.getD_some] at hid; exact absurd (by rw [hid]) hp
    | hash x =>
      have hid' : id = some (.hash x) := by
        cases id with
        | none => simp at hid
        | some b => simp only [Option.getD_some] at hid; rw [hid]
      subst hid'
      simp only [numberById] at ho
      simp only [ho, Reply.bind, nonceAt, hacc]
    | num m =>
      have hid' : id = some (.num m) := by
        cases id with
        | none => simp at hid
        | some b => simp only [Option.getD_some] at hid; rw [hid]
      subst hid'
      simp only [numberById, Option.getD_some, Reply.ok.injEq] at ho
      simp only [ho, nonceAt, hacc]
    | latest =>
      have ho' : o = none := by
        cases id with
        | none => simpa [numberById, BlockId.toNumber] using ho.symm
        | some b =>
          simp only [Option.getD_some] at hid
          subst hid
          simpa [numberById, BlockId.toNumber] using ho.symm
      subst ho'
      simp only [BlockId.toNumber, nonceAt, hacc]
    | earliest =>
      have hid' : id = some .earliest := by
        cases id with
        | none => simp at hid
        | some b => simp only [Option.getD_some] at hid; rw [hid]
      subst hid'
      simp only [numberById, Option.getD_some, Reply.ok.injEq] at ho
      simp only [ho, nonceAt, hacc]
  · intro c hc
    simp only [getCode, ho, Reply.bind, hacc, Reply.internal, hc]
  · simp only [callOn, ho, Reply.bind, callHeader, hhd]
  · intro system pos v hs hv
    simp only [getStorageAt, hs, Bool.false_eq_true, if_false, headerOf, ho, Reply.bind, hhd,
      Reply.internal, hv, Option.getD_some]
  · intro hx
    have hb : ∀ o : Option Nat, (o = some n ∨ (o = none ∧ n = chain.length - 1)) →
        A.toAdapter.blockAt o = some (some f.block) := by
      intro o ho
      rcases ho with rfl | ⟨rfl, rfl⟩
      · simp only [Adapter.blockAt, hA.serves.block, hf]; rfl
      · obtain ⟨g, h1, h2, _⟩ := latest_of_serves hA.serves
        rw [hf] at h1
        cases h1
        simp only [Adapter.blockAt, h2]; rfl
    have ho' : o = (id.getD .latest).toNumber := by
      cases id with
      | none => simpa [numberById] using ho.symm
      | some b =>
        cases b with
        | hash x => exact absurd rfl (hx x)
        | _ => simpa [numberById] using ho.symm
    rw [blockByNumber, ← ho', hb o hon]
    rfl

/-- **C85 (part).** A number beyond the chain is an error for calls, storage and code. -/
theorem C85_beyond_partial {A : StateAdapter} {hashOf : Block → H256} {chain : List Full}
    {world : Nat → H160 → Acct} (hA : ReadsState A hashOf chain world) (n : U64)
    (hn : chain.length ≤ n.val) (a : H160) :
    Means hashOf chain (some (.num n)) = none ∧ callOn A (some (.num n)) = .err .internal ∧
    estimateOn A (some (.num n)) = .err .internal ∧
    getCode A a (some (.num n)) = .err .internal ∧
    headerOf A (some (.num n)) = .err .cannotFindBlock ∧
    blockByNumber A.toAdapter (.num n) = .ok none := by
  have hnone : chain[n.val]? = none := List.getElem?_eq_none hn
  refine ⟨?_, ?_, ?_, ?_, ?_, ?_⟩
  · simp only [Means]; rw [if_neg (by omega)]
  · simp only [callOn, numberById, Option.getD_some, BlockId.toNumber, Reply.bind, callHeader,
      hA.header, hnone, Option.map_none]
  · simp only [estimateOn, callHeader, hA.header, hnone, Option.map_none]
  · simp only [getCode, numberById, Option.getD_some, BlockId.toNumber, Reply.bind, Reply.internal,
      hA.account]
    rw [if_neg (by omega)]
  · simp only [headerOf, numberById, Option.getD_some, BlockId.toNumber, Reply.bind, Reply.internal,
      hA.header, hnone, Option.map_none]
  · simp only [blockByNumber, BlockId.toNumber, Adapter.blockAt, hA.serves.block, hnone,
      Option.map_none, Reply.internal]

/-- **C85, the full statement is false.** The hash of no block: balance, transaction count, calls and
storage are those of the latest block. -/
theorem C85_unknown_hash_false {A : StateAdapter} {hashOf : Block → H256} {chain : List Full}
    {world : Nat → H160 → Acct} (hA : ReadsState A hashOf chain world) (h : H256) (f : Full)
    (hh : Means hashOf chain (some (.hash h)) = none) (hf : chain[chain.length - 1]? = some f)
    (a : H160) :
    getBalance A a (some (.hash h)) = .ok (world (chain.length - 1) a).balance ∧
    getTransactionCount A a (some (.hash h)) = .ok (world (chain.length - 1) a).nonce ∧
    callOn A (some (.hash h)) = .ok f.block.header ∧
    headerOf A (some (.hash h)) = .ok f.block.header := by
  simp only [Means] at hh
  have hnum : A.numberByHash h = some none := by rw [hA.byHash, hh]
  have hl := hA.headerLatest
  rw [hf] at hl
  simp only [Option.map_some] at hl
  refine ⟨?_, ?_, ?_, ?_⟩
  · simp only [getBalance, numberById, hnum, Reply.internal, Reply.bind, hA.accountLatest]
  · simp only [getTransactionCount, Option.getD_some, hnum, Reply.internal, Reply.bind, nonceAt,
      hA.accountLatest]
  · simp only [callOn, numberById, hnum, Reply.internal, Reply.bind, callHeader, hl]
  · simp only [headerOf, numberById, hnum, Reply.internal, Reply.bind, hl]

/-- **C85, the full statement is false.** The number of no block: the balance and the transaction
count are reported as zero, not as an error. -/
theorem C85_unknown_number_false {A : StateAdapter} {hashOf : Block → H256} {chain : List Full}
    {world : Nat → H160 → Acct} (hA : ReadsState A hashOf chain world) (n : U64)
    (hn : chain.length ≤ n.val) (a : H160) :
    Means hashOf chain (some (.num n)) = none ∧
    getBalance A a (some (.num n)) = .ok ⟨0, by decide⟩ ∧
    getTransactionCount A a (some (.num n)) = .ok ⟨0, by decide⟩ := by
  have hacc : A.account a (some n.val) = none := by rw [hA.account, if_neg (by omega)]
  refine ⟨by simp only [Means]; rw [if_neg (by omega)], ?_, ?_⟩
  · simp only [getBalance, numberById, Option.getD_some, BlockId.toNumber, Reply.bind, hacc]
  · simp only [getTransactionCount, Option.getD_some, BlockId.toNumber, nonceAt, hacc]

/-- **C85, the full statement is false.** The methods by number accept a block given by hash, and
answer with the latest block whatever the hash. -/
theorem C85_hash_ignored_false {A : StateAdapter} {hashOf : Block → H256} {chain : List Full}
    {world : Nat → H160 → Acct} (hA : ReadsState A hashOf chain world) (h : H256) (f : Full)
    (hf : chain[chain.length - 1]? = some f) :
    blockByNumber A.toAdapter (.hash h) = .ok (some f.block) ∧
    countByNumber A.toAdapter (.hash h) = .ok f.block.txHashes.length := by
  obtain ⟨g, h1, h2, _⟩ := latest_of_serves hA.serves
  rw [hf] at h1
  cases h1
  have : blockByNumber A.toAdapter (.hash h) = .ok (some f.block) := by
    simp only [blockByNumber, BlockId.toNumber, Adapter.blockAt, h2, Option.map_some, Reply.internal]
  exact ⟨this, by simp only [countByNumber, this, Reply.bind, Option.map_some, Option.getD_some]⟩

/-- **C85, the full statement is false.** `eth_estimateGas` on `earliest` or on any hash runs on the
latest block. -/
theorem C85_estimate_false {A : StateAdapter} {hashOf : Block → H256} {chain : List Full}
    {world : Nat → H160 → Acct} (hA : ReadsState A hashOf chain world) (f : Full)
    (hf : chain[chain.length - 1]? = some f) :
    estimateOn A (some .earliest) = .ok f.block.header ∧
    ∀ h, estimateOn A (some (.hash h)) = .ok f.block.header := by
  have hl := hA.headerLatest
  rw [hf] at hl
  simp only [Option.map_some] at hl
  exact ⟨by simp only [estimateOn, callHeader, hl], fun h => by simp only [estimateOn, callHeader, hl]⟩

/-- **C85 (part).** With `pending`, the transaction count is the nonce after the latest block — or the
one the pool was last updated for — plus the number of the account's transactions in the pool.  What
this number is worth is the subject of C87. -/
theorem C85_pending_partial {A : StateAdapter} {hashOf : Block → H256} {chain : List Full}
    {world : Nat → H160 → Acct} (hA : ReadsState A hashOf chain world) (a : H160) (c : Nat)
    (o : Option Nat) (hp : A.pendingCount a = some (c, o)) (n : Nat) (hn : n < chain.length)
    (ho : o = some n ∨ (o = none ∧ n = chain.length - 1)) (v : U256)
    (hv : v.val = (world n a).nonce.val + c) :
    getTransactionCount A a (some .pending) = .ok v := by
  simp only [getTransactionCount, Option.getD_some, hp, Reply.internal, Reply.bind,
    account_spec hA a o n ho hn, ← hv]
  rw [UIntN.ofNat?_val]
  rfl

/-- **C85 (part).** The storage of system contracts is refused, whatever the block. -/
theorem C85_system_partial (A : StateAdapter) (system : H160 → Bool) (a : H160) (pos : U256)
    (id : Option BlockId) (h : system a = true) :
    getStorageAt A system a pos id = .err .callSystemContract := by
  simp [getStorageAt, h]

/-- **C85 (part).** The number of transactions of a block, given by number or by hash; that of an
unknown block is zero. -/
theorem C85_count_partial {A : StateAdapter} {hashOf : Block → H256} {chain : List Full}
    {world : Nat → H160 → Acct} (hA : ReadsState A hashOf chain world)
    (hb : ∀ h, A.blockByHash h = some ((chain.find? fun f => hashOf f.block = h).map (·.block)))
    (n : U64) (h : H256) :
    countByNumber A.toAdapter (.num n) =
        .ok (match chain[n.val]? with | some f => f.receipts.length | none => 0) ∧
      countByHash A.toAdapter h =
        .ok (match chain.find? fun f => hashOf f.block = h with
          | some f => f.receipts.length
          | none => 0) := by
  constructor
  · simp only [countByNumber, blockByNumber, BlockId.toNumber, Adapter.blockAt, hA.serves.block,
      Reply.internal, Reply.bind]
    cases hf : chain[n.val]? with
    | none => rfl
    | some f => simp [hA.serves.wf.receipts f (List.mem_of_getElem? hf)]
  · simp only [countByHash, hb, Reply.internal, Reply.bind]
    cases hf : chain.find? fun f => hashOf f.block = h with
    | none => rfl
    | some f => simp [hA.serves.wf.receipts f (List.mem_of_find?_eq_some hf)]

/-! ## C84 -/

/-- **C84, the full statement is false.** A poll of a filter that does not exist (any more), under an
identifier of more than 64 bits — as nearly all identifiers are —, stops the node. -/
theorem C84_unknown_filter_false (hash : Block → H256) (maxRange : Nat) (h : Hub) (e : Event)
    (id : U256) (he : e.cmd = .request id) (hid : 2 ^ 64 ≤ id.val) (hb : get h.blocks id = none)
    (hl : get h.logs id = none) : step hash maxRange h e = .panic := by
  simp only [step, handle, he, implFilter, hb, hl, unknownId]
  rw [if_neg (by omega)]
  rfl

/-- **C84, the full statement is false.** When the caller of a filter method has gone before the
answer, the node stops (or the command itself has stopped it). -/
theorem C84_gone_caller_false (hash : Block → H256) (maxRange : Nat) (h : Hub) (e : Event)
    (hs : sent e = true) (hw : e.waiting = false) (hok : ∀ err, handle hash maxRange h e ≠ .err err) :
    step hash maxRange h e = .panic := by
  unfold step
  cases hh : handle hash maxRange h e with
  | ok r => simp [Reply.bind, hs, hw]
  | err x => exact absurd hh (hok x)
  | panic => rfl

/-- **C84, the full statement is false.** A position of more than 64 bits stops the node, for every
block. -/
theorem C84_position_false (block : Reply (Option Block)) (position : U256)
    (h : 2 ^ 64 ≤ position.val) : hashAtPosition block position = .panic := by
  unfold hashAtPosition
  rw [if_pos (by omega), if_neg (by omega)]

/-- **C84 (part).** Positions of up to 64 bits are looked up in the block. -/
theorem C84_position_partial (b : Option Block) (position : U256) (h : position.val < 2 ^ 64) :
    hashAtPosition (.ok b) position = .ok (b.bind fun b => b.txHashes[position.val]?) := by
  unfold hashAtPosition
  rw [if_neg (by omega)]
  rfl

theorem ofNat?_lt {k m : Nat} (h : m < 2 ^ k) : ∃ n, UIntN.ofNat? k m = some n := by
  unfold UIntN.ofNat?
  rw [dif_pos h]
  exact ⟨_, rfl⟩

/-- A log filter as the hub stores it: made from a request, and standing at a number. -/
def Made (f : LoggerFilter) : Prop :=
  ∃ (raw : Filter) (n : U64), (raw.topics.getD []).length ≤ 4 ∧
    f = { LoggerFilter.ofRaw raw with fromBlock := some (.num n) }

/-- The states of the task: it starts without filters and handles commands on served chains. -/
inductive Reachable (hash : Block → H256) (maxRange : Nat) : Hub → Prop
  | start : Reachable hash maxRange {}
  | next {h h' : Hub} {e : Event} {a : Answer} {c : List Full} : Reachable hash maxRange h →
      Serves e.adapter c → step hash maxRange h e = .ok (h', a) → Reachable hash maxRange h'

theorem reachable_made {hash : Block → H256} {maxRange : Nat} {h : Hub}
    (hr : Reachable hash maxRange h) : h.Ok ∧ ∀ id st, get h.logs id = some st → Made st.1 := by
  induction hr with
  | start => exact ⟨⟨List.Pairwise.nil, List.Pairwise.nil⟩, fun id st hg => by simp [get_nil] at hg⟩
  | @next h h' e a c _ hA hs ih =>
    obtain ⟨hn, hm⟩ := ih
    have hh := step_handle hs
    refine ⟨handle_nodup hn hh, ?_⟩
    intro id st hg
    unfold handle at hh
    split at hh
    · rename_i raw i hc
      split at hh
      · simp only [Reply.ok.injEq, Prod.mk.injEq] at hh
        rw [← hh.1] at hg
        exact hm id st hg
      · obtain ⟨latest, _, hh⟩ := bind_ok hh
        obtain ⟨s, hs', hh⟩ := bind_ok hh
        simp only [Reply.ok.injEq, Prod.mk.injEq] at hh
        rw [← hh.1] at hg
        simp only [get_put] at hg
        split at hg
        · cases hso : startOf latest.header.number raw.fromBlock with
          | none => rw [hso] at hs'; simp [Reply.unwrap] at hs'
          | some s' =>
            rw [hso] at hs'
            simp only [Reply.unwrap, Reply.ok.injEq] at hs'
            subst hs'
            obtain ⟨n, rfl, _⟩ := startOf_eq _ _ _ hso
            simp only [Option.some.injEq] at hg
            rw [← hg]
            refine ⟨{ raw with topics := some ((raw.topics.getD []).take 4) }, n, ?_, ?_⟩
            · simp only [Option.getD_some, List.length_take]; omega
            · simp [LoggerFilter.ofRaw, compile, List.take_take]
        · exact hm id st hg
    · obtain ⟨_, _, hh⟩ := bind_ok hh
      simp only [Reply.ok.injEq, Prod.mk.injEq] at hh
      rw [← hh.1] at hg
      exact hm id st hg
    · rcases implFilter_ok hh with ⟨_, _, _, _, _, rfl, _⟩ | ⟨_, st0, l, st', h3, h4, rfl, _⟩ |
        ⟨_, _, _, _, _, rfl, _⟩ | ⟨_, _, rfl, _⟩
      · exact hm id st hg
      · simp only [get_put] at hg
        split at hg
        · simp only [Option.some.injEq] at hg
          subst hg
          obtain ⟨raw, n, ht, hst⟩ := hm _ st0 h3
          rw [show st0 = (st0.1, st0.2) from rfl, hst, filterLogs_spec hA _ _ _ raw ht] at h4
          split at h4
          · simp only [Reply.ok.injEq, Prod.mk.injEq] at h4
            rw [← h4.2]
            exact ⟨raw, n, ht, rfl⟩
          · split at h4
            · simp at h4
            · split at h4
              · simp at h4
              · rename_i m _
                simp only [Reply.ok.injEq, Prod.mk.injEq] at h4
                rw [← h4.2]
                exact ⟨raw, m, ht, rfl⟩
        · exact hm id st hg
      · simp only [get_del] at hg
        split at hg
        · simp at hg
        · exact hm id st hg
      · exact hm id st hg
    · split at hh
      · simp only [Reply.ok.injEq, Prod.mk.injEq] at hh
        rw [← hh.1] at hg
        exact hm id st hg
      · simp only [Reply.ok.injEq, Prod.mk.injEq] at hh
        rw [← hh.1] at hg
        simp only [get_del] at hg
        split at hg
        · simp at hg
        · exact hm id st hg
    · simp only [Reply.ok.injEq, Prod.mk.injEq] at hh
      rw [← hh.1] at hg
      simp only [checkHubs, get_filter hn.logs] at hg
      exact hm id st (Option.filter_eq_some_iff.1 hg).1

/-- **C84 (part).** In every state the filters can get into, and on a served chain shorter than
2^64 blocks, a filter command whose caller waits and whose identifier is known or has at most 64 bits never stops the node.  Missing: the cases of
`C84_unknown_filter_false`, `C84_gone_caller_false`, `C84_position_false`. -/
theorem C84_filters_partial (hash : Block → H256) (maxRange : Nat) (h : Hub) (e : Event)
    (c : List Full) (hA : Serves e.adapter c) (hc : c.length < 2 ^ 64) (hw : e.waiting = true)
    (hreach : Reachable hash maxRange h)
    (hid : ∀ id, e.cmd = .request id → get h.blocks id = none → get h.logs id = none →
      id.val < 2 ^ 64) :
    ∃ h' a, step hash maxRange h e = .ok (h', a) := by
  have hpos : 0 < c.length := List.length_pos_iff.2 hA.wf.nonempty
  have hmade := (reachable_made hreach).2
  obtain ⟨f, _, h2, h3⟩ := latest_of_serves hA
  have key : ∃ h' a, handle hash maxRange h e = .ok (h', a) := by
    unfold handle
    cases hcmd : e.cmd with
    | newLogs raw id =>
      simp only
      cases newFilterTest raw with
      | some err => exact ⟨_, _, rfl⟩
      | none =>
        simp only [h2, Reply.unwrap, Reply.bind]
        obtain ⟨m, hm⟩ := ofNat?_lt (k := 64) (m := f.block.header.number.val + 1) (by omega)
        have : ∃ s, startOf f.block.header.number raw.fromBlock = some s := by
          unfold startOf
          rw [hm]
          split
          · split <;> exact ⟨_, rfl⟩
          · exact ⟨_, rfl⟩
        obtain ⟨s, hs⟩ := this
        rw [hs]
        exact ⟨_, _, rfl⟩
    | newBlocks id => simp only [h2, Reply.unwrap, Reply.bind]; exact ⟨_, _, rfl⟩
    | request id =>
      simp only
      unfold implFilter
      cases hb : get h.blocks id with
      | some st =>
        simp only
        rw [show st = (st.1, st.2) from rfl, filterBlock_spec hash hA]
        split <;> exact ⟨_, _, rfl⟩
      | none =>
        simp only
        cases hl : get h.logs id with
        | some st =>
          simp only
          obtain ⟨raw, n, ht, hst⟩ := hmade id st hl
          rw [show st = (st.1, st.2) from rfl, hst, filterLogs_spec hA _ _ _ raw ht]
          have hle : lastBlock raw.toBlock c.length ≤ c.length - 1 := Nat.min_le_right _ _
          obtain ⟨m, hm⟩ := ofNat?_lt (k := 64) (m := lastBlock raw.toBlock c.length + 1) (by omega)
          rw [hm]
          split
          · exact ⟨_, _, rfl⟩
          · exact ⟨_, _, rfl⟩
          · rename_i hp
            exfalso
            split at hp
            · simp at hp
            · split at hp <;> simp at hp
        | none =>
          simp only [unknownId]
          rw [if_pos (hid id hcmd hb hl)]
          exact ⟨_, _, rfl⟩
    | uninstall id =>
      simp only
      split <;> exact ⟨_, _, rfl⟩
    | tick => exact ⟨_, _, rfl⟩
  obtain ⟨h', a, hh⟩ := key
  refine ⟨h', a, ?_⟩
  simp [step, hh, Reply.bind, hw]

/-- **C84, the full statement is false.** A client that installs a block filter and polls it within
40 seconds on a chain that stands still: the filter is dropped, because only polls that bring
something count, and its next poll stops the node. -/
theorem C84_idle_false (hash : Block → H256) (maxRange : Nat) (c : List Full) (A : Adapter)
    (hA : Serves A c) (id : U256) (hid : 2 ^ 64 ≤ id.val) :
    run hash maxRange {} [⟨0, A, .newBlocks id, true⟩, ⟨39, A, .request id, true⟩,
      ⟨40, A, .tick, true⟩, ⟨41, A, .request id, true⟩] = .panic := by
  obtain ⟨f, _, h2, h3⟩ := latest_of_serves hA
  have hfb : ∀ now t, filterBlock hash A now (c.length - 1, t) = .ok ([], (c.length - 1, t)) := by
    intro now t
    rw [filterBlock_spec hash hA, if_pos (Nat.le_refl _)]
  have s1 : step hash maxRange {} ⟨0, A, .newBlocks id, true⟩ =
      .ok ({ blocks := [(id, (c.length - 1, 0))] }, .id id) := by
    simp [step, handle, h2, h3, Reply.unwrap, Reply.bind, put]
  have s2 : step hash maxRange { blocks := [(id, (c.length - 1, 0))] } ⟨39, A, .request id, true⟩ =
      .ok ({ blocks := [(id, (c.length - 1, 0))] }, .blocks []) := by
    simp [step, handle, implFilter, get_cons, hfb, Reply.bind, put]
  have s3 : step hash maxRange { blocks := [(id, (c.length - 1, 0))] } ⟨40, A, .tick, true⟩ =
      .ok ({}, .none) := by
    simp [step, handle, checkHubs, Reply.bind]
  have s4 : step hash maxRange {} ⟨41, A, .request id, true⟩ = .panic :=
    C84_unknown_filter_false hash maxRange {} _ id rfl hid rfl rfl
  simp only [run, s1, s2, s3, s4, Reply.bind]

/-! ## Examples -/

namespace Sample

theorem wf0 : Wf [block0] where
  number n f h := by
    match n with
    | 0 => simp at h; subst h; rfl
    | n + 1 => simp at h
  receipts f h := by simp at h; subst h; rfl
  nonempty := by simp

def hashOf (b : Block) : H256 := b.header.stateRoot

def fid : U256 := ⟨2 ^ 200 + 5, by decide⟩

def created : Event := ⟨0, ofChain [block0], .newLogs { address := .single (h20 3) } fid, true⟩

def later : List (Event × List Full) :=
  [(⟨1, ofChain [block0], .request fid, true⟩, [block0]),
   (⟨2, ofChain chain, .request fid, true⟩, chain),
   (⟨3, ofChain chain, .tick, true⟩, chain),
   (⟨4, ofChain chain, .request fid, true⟩, chain)]

/-- The hypotheses of `C48_logs_once_partial` and the reported logs. -/
example : Grows [block0] later :=
  ⟨List.prefix_refl _, serves_ofChain wf0, ⟨⟨[block1], rfl⟩, serves_ofChain wf, List.prefix_refl _,
    serves_ofChain wf, List.prefix_refl _, serves_ofChain wf, trivial⟩⟩

def runLater : List Answer :=
  match run hashOf 100 {} (created :: later.map (·.1)) with
  | .ok (_, _ :: as) => as
  | _ => []

example : runLater.length = 4 := by decide +kernel

example : (polled (gotLogs fid) later runLater).map (fun g => (g.blockNumber, g.transactionIndex,
    g.logIndex)) = [(1, 0, 1), (1, 1, 0)] := by decide +kernel

/-- The same for a block filter, `C47_blocks_once`. -/
example : (match run hashOf 100 {} (⟨0, ofChain [block0], .newBlocks fid, true⟩ :: later.map (·.1)) with
    | .ok (_, _ :: as) => polled (gotBlocks fid) later as
    | _ => []) = [h32 1] := by decide +kernel

/-- A reader of the state. -/
def world (n : Nat) (_ : H160) : Acct :=
  ⟨⟨n % 2 ^ 256, Nat.mod_lt _ (by decide)⟩, ⟨(n + 7) % 2 ^ 256, Nat.mod_lt _ (by decide)⟩, h32 0⟩

def state : StateAdapter where
  toAdapter := { ofChain chain with
    numberByHash := fun h => some (chain.findIdx? fun f => hashOf f.block = h) }
  account a o := match o with
    | some n => if n < chain.length then some (world n a) else none
    | none => some (world 1 a)
  pendingCount _ := some (0, none)
  headerAt o := match o with
    | some n => some (chain[n]?.map (·.block.header))
    | none => some (chain[1]?.map (·.block.header))
  code _ := some none
  storageAt _ _ _ := none

theorem reads : ReadsState state hashOf chain world where
  serves :=
    { wf := wf, block := fun _ => rfl, latest := rfl,
      receipts := fun n f h => (serves_ofChain wf).receipts n f h }
  byHash _ := rfl
  account _ _ := rfl
  accountLatest _ := rfl
  header _ := rfl
  headerLatest := rfl

example : Means hashOf chain (some (.hash (h32 0))) = some 0 ∧
    Means hashOf chain (some (.hash (h32 9))) = none ∧
    getBalance state (h20 1) (some (.hash (h32 0))) = .ok ⟨7, by decide⟩ ∧
    getBalance state (h20 1) (some (.hash (h32 9))) = .ok ⟨8, by decide⟩ := by decide +kernel

example : estimateOn state (some .earliest) = .ok block1.block.header :=
  (C85_estimate_false reads block1 rfl).1

end Sample

end Axon.Api
