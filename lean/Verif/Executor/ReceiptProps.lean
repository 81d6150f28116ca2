import Verif.Executor.BloomProps

/-!
# C81: the receipts of a block

Specification: the receipt at position `i` describes transaction `i` and response `i`, and its log
index is the number of logs of the earlier responses.
-/

namespace Axon.Bloom

open Axon Axon.Block

variable {ρ : Type}

/-- What the receipt at position `i` has to say; `before` is the number of logs of the earlier
transactions of the block. -/
structure Describes (H : Bytes → H256) (b : Ctx) (i before : Nat) (tx : TxId) (resp : TxResp ρ)
    (r : Receipt ρ) : Prop where
  txHash : r.txHash = tx.hash
  sender : r.sender = tx.sender
  blockNumber : r.blockNumber = b.number
  blockHash : r.blockHash = b.hash
  stateRoot : r.stateRoot = b.stateRoot
  txIndex : r.txIndex.val = i
  logIndex : r.logIndex.val = before
  usedGas : r.usedGas = resp.gasUsed
  logs : r.logs = resp.logs
  codeAddress : r.codeAddress = resp.codeAddress
  ret : r.ret = resp.exitReason
  removed : r.removed = resp.removed

/-- Number of logs of some responses. -/
def logCount (l : List (TxResp ρ)) : Nat := (l.map fun r => r.logs.length).sum

theorem receiptsFrom_spec (H : Bytes → H256) (b : Ctx) (l : List (TxId × TxResp ρ)) :
    ∀ (idx : Nat) (li : U32), idx + l.length < 2 ^ 32 →
      li.val + logCount (l.map (·.2)) < 2 ^ 32 →
      ∃ rs, receiptsFrom H b idx li l = .ok rs ∧ rs.length = l.length ∧
        ∀ i r p, rs[i]? = some r → l[i]? = some p →
          Describes H b (idx + i) (li.val + logCount ((l.take i).map (·.2))) p.1 p.2 r := by
  induction l with
  | nil => intro idx li _ _; exact ⟨[], rfl, rfl, by simp⟩
  | cons p l ih =>
    intro idx li hi hl
    obtain ⟨tx, resp⟩ := p
    simp only [List.map_cons, logCount, List.sum_cons, List.length_cons] at hl hi
    have ha : (asU32 resp.logs.length).val = resp.logs.length := by
      simp only [asU32]
      exact Nat.mod_eq_of_lt (by omega)
    have hlt : li.val + resp.logs.length < 2 ^ 32 := by omega
    obtain ⟨rs, hrs, hlen, hall⟩ := ih (idx + 1) ⟨li.val + resp.logs.length, hlt⟩ (by omega)
      (by simp only [logCount]; omega)
    refine ⟨receiptOf H b idx li tx resp :: rs, ?_, by simp [hlen], ?_⟩
    · simp only [receiptsFrom, ha]
      rw [show UIntN.ofNat? 32 (li.val + resp.logs.length) = some ⟨_, hlt⟩ by
        simp [UIntN.ofNat?, hlt]]
      simp only [Outcome.orPanic, Outcome.bind, hrs]
    · intro i r q hr hq
      cases i with
      | zero =>
        simp only [List.getElem?_cons_zero, Option.some.injEq] at hr hq
        subst hr; subst hq
        exact { txHash := rfl, sender := rfl, blockNumber := rfl, blockHash := rfl,
                stateRoot := rfl,
                txIndex := by simp only [receiptOf, asU32]; exact Nat.mod_eq_of_lt (by omega),
                logIndex := by simp [receiptOf, logCount], usedGas := rfl, logs := rfl,
                codeAddress := rfl, ret := rfl, removed := rfl }
      | succ i =>
        simp only [List.getElem?_cons_succ] at hr hq
        have h := hall i r q hr hq
        have e1 : idx + 1 + i = idx + (i + 1) := by omega
        have e2 : (li.val + resp.logs.length) + logCount ((l.take i).map (·.2)) =
            li.val + logCount ((((tx, resp) :: l).take (i + 1)).map (·.2)) := by
          simp only [logCount, List.take_succ_cons, List.map_cons, List.sum_cons]
          omega
        rw [e1] at h
        simp only at h
        rw [e2] at h
        exact h

/-- **C81.** A block whose transactions and logs are fewer than 2^32 has exactly one receipt for
each executed transaction, in order; each describes its transaction, response and block, and its
log index is the number of logs before it in the block. -/
theorem C81_receipts (H : Bytes → H256) (b : Ctx) (txs : List TxId) (resps : List (TxResp ρ))
    (hlen : txs.length = resps.length) (hn : txs.length < 2 ^ 32)
    (hl : logCount resps < 2 ^ 32) :
    ∃ rs ls, generateReceipts H b txs resps = .ok (rs, ls) ∧ rs.length = txs.length ∧
      ls = resps.map (·.logs) ∧
      ∀ (i : Nat) (tx : TxId) (resp : TxResp ρ), txs[i]? = some tx → resps[i]? = some resp →
        ∃ r, rs[i]? = some r ∧ Describes H b i (logCount (resps.take i)) tx resp r := by
  have hz : (txs.zip resps).map (·.2) = resps := by
    rw [List.map_snd_zip]; omega
  obtain ⟨rs, hrs, hrl, hall⟩ := receiptsFrom_spec H b (txs.zip resps) 0 ⟨0, by decide⟩
    (by simp [hlen]; omega) (by rw [hz]; simpa using hl)
  have hzl : (txs.zip resps).length = txs.length := by simp [hlen]
  have hdesc : ∀ (i : Nat) (tx : TxId) (resp : TxResp ρ), txs[i]? = some tx →
      resps[i]? = some resp →
      ∃ r, rs[i]? = some r ∧ Describes H b i (logCount (resps.take i)) tx resp r := by
    intro i tx resp ht hr
    have hp : (txs.zip resps)[i]? = some (tx, resp) := List.getElem?_zip_eq_some.2 ⟨ht, hr⟩
    have hi : i < rs.length := by
      have := (List.getElem?_eq_some_iff.1 ht).1
      omega
    refine ⟨rs[i], List.getElem?_eq_getElem hi, ?_⟩
    have := hall i rs[i] (tx, resp) (List.getElem?_eq_getElem hi) hp
    have e : ((txs.zip resps).take i).map (·.2) = resps.take i := by
      rw [List.map_take, hz]
    rw [e] at this
    simpa using this
  refine ⟨rs, rs.map (·.logs), ?_, by omega, ?_, hdesc⟩
  · simp only [generateReceipts, hrs, Outcome.bind]
  · apply List.ext_getElem?
    intro i
    simp only [List.getElem?_map]
    cases ht : txs[i]? with
    | none =>
      have h1 := List.getElem?_eq_none_iff.1 ht
      rw [List.getElem?_eq_none (by omega), List.getElem?_eq_none (by omega)]
      rfl
    | some tx =>
      have h1 := (List.getElem?_eq_some_iff.1 ht).1
      have h2 : resps[i]? = some resps[i] := List.getElem?_eq_getElem (by omega)
      obtain ⟨r, hr, hd⟩ := hdesc i tx _ ht h2
      rw [hr, h2]
      simp [hd.logs]

/-- Two transactions with three logs. -/
def resp1 : TxResp Bool := ⟨true, [], ⟨21000, by decide⟩, ⟨0, by decide⟩, ⟨0, by decide⟩,
  [log1, log2], none, false⟩

def resp2 : TxResp Bool := ⟨false, [], ⟨30000, by decide⟩, ⟨0, by decide⟩, ⟨0, by decide⟩,
  [log2], none, false⟩

def blk : Ctx := ⟨⟨5, by decide⟩, ⟨List.replicate 32 5, rfl⟩, ⟨List.replicate 32 6, rfl⟩⟩

def id1 : TxId := ⟨⟨List.replicate 32 1, rfl⟩, ⟨List.replicate 20 1, rfl⟩⟩

def id2 : TxId := ⟨⟨List.replicate 32 2, rfl⟩, ⟨List.replicate 20 2, rfl⟩⟩

example : ((generateReceipts toy blk [id1, id2] [resp1, resp2]) matches .ok ([r1, r2], _)) = true ∧
    logCount [resp1, resp2] = 3 := by decide +kernel

example : (match generateReceipts toy blk [id1, id2] [resp1, resp2] with
    | .ok (rs, _) => rs.map fun r => (r.txIndex.val, r.logIndex.val)
    | _ => []) = [(0, 0), (1, 2)] := by decide +kernel

end Axon.Bloom
