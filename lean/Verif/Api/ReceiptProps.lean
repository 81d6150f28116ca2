import Verif.Api.Receipt
import Verif.Api.LogsProps
import Verif.Executor.ReceiptProps

/-!
# C82: the reported receipt of a transaction

Specification: the Ethereum JSON-RPC meaning of the fields of `eth_getTransactionReceipt` for
transaction `i` of a block with the given responses.
-/

namespace Axon.Api

open Axon Axon.Block Axon.Admission
open Axon.Bloom (Ctx TxId generateReceipts logCount)

/-- A block as executed: transactions, their identities and responses. -/
structure Executed where
  ctx : Ctx
  stxs : List SignedTx
  ids : List TxId
  resps : List (TxResp Bool)
  lenIds : ids.length = stxs.length
  lenResps : resps.length = stxs.length
  fewTxs : stxs.length < 2 ^ 32
  fewLogs : logCount resps < 2 ^ 32

/-- What the node answers for transaction `i`: its receipt is generated with the block
(`Bloom.generateReceipts`), stored, and reported with the transaction. -/
def reported (H : Bytes → H256) (e : Executed) (i : Nat) : Option Web3Receipt :=
  match generateReceipts H e.ctx e.ids e.resps with
  | .ok (rs, _) =>
    match rs[i]?, e.stxs[i]? with
    | some r, some stx => some (web3Receipt r stx)
    | _, _ => none
  | _ => none

/-- The receipt behind the answer. -/
theorem reported_eq (H : Bytes → H256) (e : Executed) (i : Nat) (stx : SignedTx) (id : TxId)
    (resp : TxResp Bool) (hs : e.stxs[i]? = some stx) (hi : e.ids[i]? = some id)
    (hr : e.resps[i]? = some resp) :
    ∃ r, reported H e i = some (web3Receipt r stx) ∧
      Bloom.Describes H e.ctx i (logCount (e.resps.take i)) id resp r := by
  have h1 := e.lenIds
  have h2 := e.lenResps
  have h3 := e.fewTxs
  obtain ⟨rs, ls, hg, _, _, hall⟩ := Bloom.C81_receipts H e.ctx e.ids e.resps (by omega)
    (by omega) e.fewLogs
  obtain ⟨r, hr1, hd⟩ := hall i id resp hi hr
  refine ⟨r, ?_, hd⟩
  unfold reported
  rw [hg]
  simp only [hr1, hs]

/-- **C82 (part).** For every transaction of a block the reported receipt has its hash, sender, target
and type, its position, the block's number, hash and state root, the gas the transaction used,
status 1 exactly when it succeeded, the created address, and its logs in order with this position.
Missing: the position of the logs in the block, the cumulative gas and the price
(`C82_log_index_false`, `C82_cumulative_false`, `C82_price_false`). -/
theorem C82_reported_partial (H : Bytes → H256) (e : Executed) (i : Nat) (stx : SignedTx)
    (id : TxId) (resp : TxResp Bool) (hs : e.stxs[i]? = some stx) (hi : e.ids[i]? = some id)
    (hr : e.resps[i]? = some resp) :
    ∃ w, reported H e i = some w ∧
      w.transactionHash = id.hash ∧ w.sender = id.sender ∧
      w.to = (match action stx.transaction.unsigned with | .call a => some a | .create => none) ∧
      w.transactionType = (match stx.transaction.unsigned with
        | .legacy _ => 0 | .eip2930 _ => 1 | .eip1559 _ => 2) ∧
      w.transactionIndex = i ∧ w.blockNumber = e.ctx.number.val ∧ w.blockHash = e.ctx.hash ∧
      w.stateRoot = e.ctx.stateRoot ∧ w.gasUsed = resp.gasUsed.val ∧
      (w.status = 1 ↔ resp.exitReason = true) ∧ (w.status = 0 ↔ resp.exitReason = false) ∧
      w.contractAddress.map (·.bytes) = resp.codeAddress.map (fun h => h.bytes.drop 12) ∧
      w.logs.map (fun g => (Log.mk g.address g.topics g.data)) = resp.logs ∧
      ∀ g ∈ w.logs, g.transactionIndex = i ∧ g.transactionHash = id.hash ∧
        g.blockHash = e.ctx.hash ∧ g.blockNumber = e.ctx.number.val ∧ g.removed = false := by
  obtain ⟨r, hrep, hd⟩ := reported_eq H e i stx id resp hs hi hr
  refine ⟨_, hrep, hd.txHash, hd.sender, ?_, ?_, hd.txIndex, ?_, hd.blockHash, hd.stateRoot, ?_,
    ?_, ?_, ?_, ?_, ?_⟩
  · simp only [web3Receipt, toOf]
    cases action stx.transaction.unsigned <;> rfl
  · simp only [web3Receipt, typeOf]
    cases stx.transaction.unsigned <;> rfl
  · simp only [web3Receipt, hd.blockNumber]
  · simp only [web3Receipt, hd.usedGas]
  · simp only [web3Receipt, hd.ret]
    cases resp.exitReason <;> simp
  · simp only [web3Receipt, hd.ret]
    cases resp.exitReason <;> simp
  · simp only [web3Receipt, hd.codeAddress]
    cases resp.codeAddress <;> rfl
  · simp only [web3Receipt, hd.logs, List.map_map]
    have : ∀ (l : List Log) (k : Nat),
        (l.zipIdx k).map (fun p : Log × Nat => Log.mk p.1.address p.1.topics p.1.data) = l := by
      intro l
      induction l with
      | nil => intro k; rfl
      | cons g l ih => intro k; rw [List.zipIdx_cons, List.map_cons, ih]
    exact this resp.logs 0
  · intro g hg
    simp only [web3Receipt, List.mem_map] at hg
    obtain ⟨⟨log, k⟩, _, rfl⟩ := hg
    exact ⟨hd.txIndex, hd.txHash, hd.blockHash, by simp [hd.blockNumber], rfl⟩

theorem first_log (r : Rcpt) (stx : SignedTx) (a : Log) (l : List Log) (h : r.logs = a :: l) :
    ∃ g, (web3Receipt r stx).logs[0]? = some g ∧ g.logIndex = 0 := by
  simp only [web3Receipt, h, List.zipIdx_cons, List.map_cons, List.getElem?_cons_zero]
  exact ⟨_, rfl, rfl⟩

/-- **C82, the full statement is false.** The log index is counted within the transaction, not
within the block: the first logs of any two transactions of a block that have logs are reported
with the same block and the same log index, although they are different logs of the block. -/
theorem C82_log_index_false (H : Bytes → H256) (e : Executed) (i j : Nat) (stx stx' : SignedTx)
    (id id' : TxId) (resp resp' : TxResp Bool) (hij : i < j)
    (hs : e.stxs[i]? = some stx) (hi : e.ids[i]? = some id) (hr : e.resps[i]? = some resp)
    (hs' : e.stxs[j]? = some stx') (hi' : e.ids[j]? = some id') (hr' : e.resps[j]? = some resp')
    (hl : resp.logs ≠ []) (hl' : resp'.logs ≠ []) :
    ∃ w w' g g', reported H e i = some w ∧ reported H e j = some w' ∧
      w.logs[0]? = some g ∧ w'.logs[0]? = some g' ∧ w.blockHash = w'.blockHash ∧
      g.logIndex = g'.logIndex ∧
      logCount (e.resps.take i) + 0 ≠ logCount (e.resps.take j) + 0 := by
  obtain ⟨r, hrep, hd⟩ := reported_eq H e i stx id resp hs hi hr
  obtain ⟨r', hrep', hd'⟩ := reported_eq H e j stx' id' resp' hs' hi' hr'
  obtain ⟨a, l, ha⟩ := List.exists_cons_of_ne_nil hl
  obtain ⟨b, l', hb⟩ := List.exists_cons_of_ne_nil hl'
  obtain ⟨g, hg, hg0⟩ := first_log r stx a l (hd.logs.trans ha)
  obtain ⟨g', hg', hg0'⟩ := first_log r' stx' b l' (hd'.logs.trans hb)
  refine ⟨_, _, g, g', hrep, hrep', hg, hg', ?_, hg0.trans hg0'.symm, ?_⟩
  · simp only [web3Receipt, hd.blockHash, hd'.blockHash]
  · have key : logCount (e.resps.take i) + resp.logs.length ≤ logCount (e.resps.take j) := by
      have hlt := (List.getElem?_eq_some_iff.1 hr).1
      have h1 : e.resps.take (i + 1) = e.resps.take i ++ [resp] := by
        rw [List.take_add_one, hr]; rfl
      have h2 : logCount (e.resps.take (i + 1)) = logCount (e.resps.take i) + resp.logs.length := by
        rw [h1]; simp [logCount]
      have h3 : e.resps.take j = e.resps.take (i + 1) ++ (e.resps.drop (i + 1)).take (j - (i + 1)) := by
        rw [← List.take_add]
        congr 1
        omega
      rw [← h2, h3]
      simp only [logCount, List.map_append, List.sum_append]
      omega
    have : 0 < resp.logs.length := List.length_pos_iff.2 hl
    omega

/-- **C82, the full statement is false.** The cumulative gas reported for a transaction is its own
gas: it differs from the gas used in the block up to it whenever an earlier transaction used
gas. -/
theorem C82_cumulative_false (H : Bytes → H256) (e : Executed) (i : Nat) (stx : SignedTx)
    (id : TxId) (resp : TxResp Bool) (hs : e.stxs[i]? = some stx) (hi : e.ids[i]? = some id)
    (hr : e.resps[i]? = some resp) (hg : 0 < ((e.resps.take i).map (·.gasUsed.val)).sum) :
    ∃ w, reported H e i = some w ∧
      w.cumulativeGasUsed ≠ ((e.resps.take (i + 1)).map (·.gasUsed.val)).sum := by
  obtain ⟨r, hrep, hd⟩ := reported_eq H e i stx id resp hs hi hr
  refine ⟨_, hrep, ?_⟩
  have h1 : e.resps.take (i + 1) = e.resps.take i ++ [resp] := by
    rw [List.take_add_one, hr]; rfl
  rw [h1]
  simp only [web3Receipt, hd.usedGas, List.map_append, List.sum_append, List.map_cons,
    List.map_nil, List.sum_cons, List.sum_nil]
  omega

/-- **C82, the full statement is false.** The reported price is the gas used: it is the price of the
transaction only when the two happen to be equal. -/
theorem C82_price_false (H : Bytes → H256) (e : Executed) (i : Nat) (stx : SignedTx)
    (id : TxId) (resp : TxResp Bool) (hs : e.stxs[i]? = some stx) (hi : e.ids[i]? = some id)
    (hr : e.resps[i]? = some resp)
    (hg : (gasPrice stx.transaction.unsigned).val ≠ resp.gasUsed.val) :
    ∃ w, reported H e i = some w ∧
      w.effectiveGasPrice ≠ (gasPrice stx.transaction.unsigned).val := by
  obtain ⟨r, hrep, hd⟩ := reported_eq H e i stx id resp hs hi hr
  refine ⟨_, hrep, ?_⟩
  simp only [web3Receipt, hd.usedGas]
  exact fun h => hg h.symm

/-- **C82 (part).** A log is reported alike by `eth_getLogs` and by `eth_getTransactionReceipt`. -/
theorem C82_agree (H : Bytes → H256) (e : Executed) (i : Nat) (stx : SignedTx) (id : TxId)
    (resp : TxResp Bool) (hs : e.stxs[i]? = some stx) (hi : e.ids[i]? = some id)
    (hr : e.resps[i]? = some resp) :
    ∃ r w, reported H e i = some w ∧
      (∃ rs ls, generateReceipts H e.ctx e.ids e.resps = .ok (rs, ls) ∧ rs[i]? = some r) ∧
      (fromReceipt i (compile none) (MultiAddr.null.toOption.getD []) r).map (fun g =>
          (g.address, g.topics, g.data, g.blockHash, g.blockNumber, g.transactionHash,
            g.transactionIndex, g.logIndex, g.removed)) =
        w.logs.map (fun g => (g.address, g.topics, g.data, g.blockHash, g.blockNumber,
          g.transactionHash, g.transactionIndex, g.logIndex, g.removed)) := by
  have h1 := e.lenIds
  have h2 := e.lenResps
  have h3 := e.fewTxs
  obtain ⟨rs, ls, hg, _, _, hall⟩ := Bloom.C81_receipts H e.ctx e.ids e.resps (by omega)
    (by omega) e.fewLogs
  obtain ⟨r, hr1, hd⟩ := hall i id resp hi hr
  refine ⟨r, web3Receipt r stx, ?_, ⟨rs, ls, hg, hr1⟩, ?_⟩
  · unfold reported
    rw [hg]
    simp only [hr1, hs]
  · rw [C49_match_partial .null none (by simp)]
    unfold entries
    have hf : (fun (p : Log × Nat) => match p with | (g, _) => selects .null none g) =
        fun _ => true := by
      funext p
      simp [selects, addrMatch, topicsMatch]
    rw [hf, List.filter_eq_self.2 (by simp)]
    simp only [web3Receipt, List.map_map]
    apply List.map_congr_left
    intro p _
    simp only [Function.comp, hd.txIndex]

/-! ## A block with two transactions -/

namespace Sample

def stx (price : Nat) (h : price < 2 ^ 64) : SignedTx :=
  { transaction :=
      { unsigned := .legacy { nonce := u64 0, gasPrice := ⟨price, h⟩, gasLimit := u64 100000,
                              action := .call (h20 9), value := ⟨0, by decide⟩, data := [] },
        signature := none, chainId := some (u64 2022) },
    sender := h20 1, pub := none }

def executed : Executed where
  ctx := Bloom.blk
  stxs := [stx 8 (by decide), stx 9 (by decide)]
  ids := [Bloom.id1, Bloom.id2]
  resps := [Bloom.resp1, Bloom.resp2]
  lenIds := rfl
  lenResps := rfl
  fewTxs := by decide
  fewLogs := by decide

example : (reported Bloom.toy executed 0).map (fun w => (w.status, w.gasUsed, w.logs.length)) =
    some (1, 21000, 2) := by decide +kernel

example : (reported Bloom.toy executed 1).map (fun w =>
    (w.status, w.cumulativeGasUsed, w.effectiveGasPrice, w.logs.map (·.logIndex))) =
    some (0, 30000, 30000, [0]) := by decide +kernel

example : Bloom.resp1.logs ≠ [] ∧ Bloom.resp2.logs ≠ [] ∧
    0 < ((executed.resps.take 1).map (·.gasUsed.val)).sum ∧
    (gasPrice (stx 9 (by decide)).transaction.unsigned).val ≠ Bloom.resp2.gasUsed.val := by
  refine ⟨List.cons_ne_nil _ _, List.cons_ne_nil _ _, by decide, by decide⟩

end Sample

end Axon.Api
