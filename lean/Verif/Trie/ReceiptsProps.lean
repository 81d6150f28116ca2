import Verif.Trie.Receipts
import Verif.Trie.ListsProps

/-!
# C117: what the receipts root says of a block

Specification: the reader of EIP-2718 receipts, and the leaf a client makes of a reported receipt.
-/

namespace Axon.ReceiptRoot

open Axon Axon.Rlp Axon.Block Axon.Admission Axon.Api
open Axon.Trie (NoCollision pieces build receiptsRoot)

/-- A receipt as EIP-2718 defines it. -/
structure Eip2718 where
  type : Nat
  status : Nat
  gas : Nat
  bloom : Bytes
  logs : List Log
deriving DecidableEq

/-- The payload: four items. -/
def readPayload (type : Nat) (x : Item) : Option Eip2718 :=
  match x with
  | .list [s, g, b, l] => do
    let status ← toUint 64 s
    let gas ← toUint 256 g
    let bloom ← toFixed 256 b
    let logs ← toList itemLog l
    some ⟨type, status.val, gas.val, bloom.bytes, logs⟩
  | _ => none

/-- Receipts start with their type, or with a list if they are legacy. -/
def readReceipt : Bytes → Option Eip2718
  | [] => none
  | b :: bs =>
    if b.toNat = 1 ∨ b.toNat = 2 then (decode bs).bind (readPayload b.toNat)
    else (decode (b :: bs)).bind (readPayload 0)

/-- What a transaction did. -/
def outcomeOf (H : Bytes → H256) (stx : SignedTx) (resp : TxResp Bool) : Eip2718 :=
  ⟨match stx.transaction.unsigned with
    | .legacy _ => 0
    | .eip2930 _ => 1
    | .eip1559 _ => 2,
   if resp.exitReason then 1 else 0, resp.gasUsed.val, (Bloom.logsBloom H resp.logs).bytes, resp.logs⟩

theorem readPayload_fields (type : Nat) (ok : Bool) (gas : U64) (bloom : Bloom) (logs : List Log) :
    readPayload type (fields ok gas bloom logs) =
      some ⟨type, if ok then 1 else 0, gas.val, bloom.bytes, logs⟩ := by
  simp only [readPayload, fields, toUint_ofUint, toFixed_ofFixed]
  rw [toList_map itemLog logItem itemLog_logItem]
  cases ok <;> rfl

/-- The receipt of a transaction reads as what the transaction did, with its own gas. -/
theorem C117_reads_partial (H : Bytes → H256) (stx : SignedTx) (resp : TxResp Bool)
    (hlen : (leaf H stx resp).length < 2 ^ 64) :
    readReceipt (leaf H stx resp) = some (outcomeOf H stx resp) := by
  unfold leaf encodeReceipt at hlen ⊢
  generalize hf : fields resp.exitReason resp.gasUsed (Bloom.logsBloom H resp.logs) resp.logs = x at hlen ⊢
  have rd : ∀ t, readPayload t x = some ⟨t, if resp.exitReason then 1 else 0, resp.gasUsed.val,
      (Bloom.logsBloom H resp.logs).bytes, resp.logs⟩ := by
    intro t; rw [← hf]; exact readPayload_fields _ _ _ _ _
  have typed : ∀ n : Nat, n = 1 ∨ n = 2 → (encode x).length < 2 ^ 64 →
      readReceipt (UInt8.ofNat n :: encode x) = some ⟨n, if resp.exitReason then 1 else 0, resp.gasUsed.val,
        (Bloom.logsBloom H resp.logs).bytes, resp.logs⟩ := by
    intro n hn hl
    have e : (UInt8.ofNat n).toNat = n := u8_ofNat_toNat (by omega)
    simp only [readReceipt]
    rw [e, if_pos hn, decode_encode_item x hl, Option.bind_some, rd]
  have ho : outcomeOf H stx resp = ⟨typeOf stx.transaction.unsigned, if resp.exitReason then 1 else 0,
      resp.gasUsed.val, (Bloom.logsBloom H resp.logs).bytes, resp.logs⟩ := by
    unfold outcomeOf typeOf
    cases stx.transaction.unsigned <;> rfl
  have ht := typeOf_le stx.transaction.unsigned
  rw [ho]
  generalize typeOf stx.transaction.unsigned = ty at hlen ht
  by_cases h : ty = 1 ∨ ty = 2
  · rw [if_pos h] at hlen ⊢
    exact typed ty h (by simp only [List.length_cons] at hlen; omega)
  · rw [if_neg h] at hlen ⊢
    have h0 : ty = 0 := by omega
    subst h0
    have hx : ∃ l, x = .list l := ⟨_, hf.symm⟩
    obtain ⟨l, rfl⟩ := hx
    obtain ⟨b, t', hb⟩ := encode_list_head l
    rcases hb with ⟨hb, hge⟩ | hbig
    · have hd := decode_encode_item (.list l) hlen
      rw [hb] at hd ⊢
      simp only [readReceipt]
      rw [if_neg (by omega), hd, Option.bind_some, rd]
    · have h1 : (encodeMany l).length < (encode (.list l)).length := by
        rw [encode]; exact encPayload_length _
      omega

/-- Blocks with the same receipts root have equally many transactions, and these have the same types, status,
gas, blooms and logs. -/
theorem C117_commits (H : Bytes → H256) (e e' : Executed)
    (hs : ∀ b ∈ leaves H e ++ leaves H e', b.length < 2 ^ 32)
    (hc : NoCollision (bytesOf H) (pieces (bytesOf H) (build (leaves H e)) ++
      pieces (bytesOf H) (build (leaves H e'))))
    (h : headerRoot H e = headerRoot H e') :
    e.stxs.length = e'.stxs.length ∧
    ∀ (i : Nat) stx resp stx' resp', e.stxs[i]? = some stx → e.resps[i]? = some resp → e'.stxs[i]? = some stx' →
      e'.resps[i]? = some resp' → outcomeOf H stx resp = outcomeOf H stx' resp' := by
  have f1 := e.fewTxs
  have f2 := e'.fewTxs
  have heq : leaves H e = leaves H e' := by
    refine Trie.C116_receipts (bytesOf H) (bytesOf_length H) _ _ (by rw [length_leaves]; omega)
      (by rw [length_leaves]; omega) (fun b hb => ⟨?_, hs b hb⟩) hc h
    rcases List.mem_append.1 hb with hb | hb
    · obtain ⟨stx, resp, rfl⟩ := mem_leaves hb
      exact encodeReceipt_ne _ _ _ _ _
    · obtain ⟨stx, resp, rfl⟩ := mem_leaves hb
      exact encodeReceipt_ne _ _ _ _ _
  refine ⟨by rw [← length_leaves H e, heq, length_leaves], ?_⟩
  intro i stx resp stx' resp' h1 h2 h3 h4
  have g1 := leaves_get H e h1 h2
  have g2 := leaves_get H e' h3 h4
  rw [heq, g2] at g1
  have g3 := Option.some.inj g1
  have m1 : (leaf H stx resp).length < 2 ^ 64 := by
    have := hs (leaf H stx resp) (List.mem_append_left _ (List.mem_of_getElem? (leaves_get H e h1 h2)))
    omega
  have r1 := C117_reads_partial H stx resp m1
  rw [← g3] at r1
  have r2 := C117_reads_partial H stx' resp' (by rw [g3]; exact m1)
  rw [r1] at r2
  exact Option.some.inj r2

/-- The leaf a client makes of a reported receipt, taking the field named for it. -/
def clientLeaf (w : Web3Receipt) : Bytes :=
  let payload := encode (.list [.str (beBytes w.status), .str (beBytes w.cumulativeGasUsed), .str w.logsBloom.bytes,
    .list (w.logs.map fun g => .list [.str g.address.bytes, .list (g.topics.map fun t => .str t.bytes), .str g.data])])
  match w.transactionType with
  | 0 => payload
  | n => UInt8.ofNat n :: payload

/-- The receipts that the node reports for a block verify against the root in its header. -/
theorem C117_reported (H : Bytes → H256) (e : Executed) (ws : List Web3Receipt)
    (hw : ∀ i, i < e.stxs.length → ∃ w, reported H e i = some w ∧ ws[i]? = some w)
    (hl : ws.length = e.stxs.length) :
    receiptsRoot (bytesOf H) (ws.map clientLeaf) = headerRoot H e := by
  unfold headerRoot
  congr 1
  refine List.ext_getElem? fun i => ?_
  by_cases hi : i < e.stxs.length
  · have h1 := e.lenIds
    have h2 := e.lenResps
    obtain ⟨w, hrep, hwi⟩ := hw i hi
    have es : e.stxs[i]? = some e.stxs[i] := List.getElem?_eq_getElem hi
    have ei : e.ids[i]? = some (e.ids[i]'(by omega)) := List.getElem?_eq_getElem _
    have er : e.resps[i]? = some (e.resps[i]'(by omega)) := List.getElem?_eq_getElem _
    rw [List.getElem?_map, hwi, leaves_get H e es er]
    obtain ⟨r, hrep', hd⟩ := reported_eq H e i _ _ _ es ei er
    rw [hrep'] at hrep
    have hbloom : r.logsBloom = Bloom.logsBloom H r.logs := by
      obtain ⟨rs, ls, hg, _, _, hall⟩ := Bloom.C81_receipts H e.ctx e.ids e.resps (by omega)
        (by have := e.fewTxs; omega) e.fewLogs
      obtain ⟨r', hr', _⟩ := hall i _ _ ei er
      have : reported H e i = some (web3Receipt r' e.stxs[i]) := by
        unfold reported
        rw [hg]
        simp only [hr', es]
      rw [hrep'] at this
      have hb' := generate_bloom hg r' (List.mem_of_getElem? hr')
      have e1 := congrArg Web3Receipt.logsBloom (Option.some.inj this)
      have e2 := congrArg (fun w : Web3Receipt => w.logs.map fun g => Log.mk g.address g.topics g.data)
        (Option.some.inj this)
      have hz : ∀ (x : Rcpt) (s : SignedTx),
          (web3Receipt x s).logs.map (fun g => Log.mk g.address g.topics g.data) = x.logs := by
        intro x s
        simp only [web3Receipt, List.map_map]
        have : ∀ (l : List Log) (k : Nat),
            (l.zipIdx k).map (fun p : Log × Nat => Log.mk p.1.address p.1.topics p.1.data) = l := by
          intro l
          induction l with
          | nil => intro k; rfl
          | cons g l ih => intro k; rw [List.zipIdx_cons, List.map_cons, ih]
        exact this x.logs 0
      rw [hz, hz] at e2
      rw [e2, ← hb']
      exact e1
    rw [← Option.some.inj hrep]
    refine congrArg some ?_
    rw [hd.logs] at hbloom
    generalize e.resps[i]'(by omega) = resp at *
    generalize e.stxs[i] = stx at *
    have hlogs : ((web3Receipt r stx).logs.map fun g => Item.list [.str g.address.bytes,
        .list (g.topics.map fun t => .str t.bytes), .str g.data]) = resp.logs.map logItem := by
      simp only [web3Receipt, hd.logs, List.map_map]
      have : ∀ (l : List Log) (k : Nat), (l.zipIdx k).map (fun p : Log × Nat => Item.list [.str p.1.address.bytes,
          .list (p.1.topics.map fun t => .str t.bytes), .str p.1.data]) = l.map logItem := by
        intro l
        induction l with
        | nil => intro k; rfl
        | cons g l ih => intro k; rw [List.zipIdx_cons, List.map_cons, ih, List.map_cons]; rfl
      exact this resp.logs 0
    unfold clientLeaf
    rw [hlogs]
    unfold leaf encodeReceipt fields
    simp only [web3Receipt, hd.usedGas, hd.ret, hbloom]
    have hst : (ofUint (if resp.exitReason = true then ⟨1, by decide⟩ else ⟨0, by decide⟩ : U64)) =
        Item.str (beBytes (if resp.exitReason = true then 1 else 0)) := by
      cases resp.exitReason <;> rfl
    rw [hst]
    cases stx.transaction.unsigned <;> rfl
  · rw [List.getElem?_eq_none (by simp; omega), List.getElem?_eq_none (by rw [length_leaves]; omega)]

/-- The gas in a receipt is not the gas used in the block so far, which the comment of the function and the
EIPs it names ask for: they differ for every transaction after one that used gas. -/
theorem C117_cumulative_false (H : Bytes → H256) (e : Executed) (i : Nat) (stx : SignedTx) (resp : TxResp Bool)
    (hs : e.stxs[i]? = some stx) (hr : e.resps[i]? = some resp) (hlen : (leaf H stx resp).length < 2 ^ 64)
    (hg : 0 < ((e.resps.take i).map (·.gasUsed.val)).sum) :
    ∃ b x, (leaves H e)[i]? = some b ∧ readReceipt b = some x ∧
      x.gas ≠ ((e.resps.take (i + 1)).map (·.gasUsed.val)).sum := by
  refine ⟨_, _, leaves_get H e hs hr, C117_reads_partial H stx resp hlen, ?_⟩
  have h1 : e.resps.take (i + 1) = e.resps.take i ++ [resp] := by
    rw [List.take_add_one, hr]; rfl
  rw [h1]
  simp only [outcomeOf, List.map_append, List.sum_append, List.map_cons, List.map_nil, List.sum_cons, List.sum_nil]
  omega

/-! ## Examples -/

example : (leaves Bloom.toy Api.Sample.executed).length = 2 ∧
    ∀ b ∈ leaves Bloom.toy Api.Sample.executed, b.length < 2 ^ 32 := by decide +kernel

example : readReceipt (leaf Bloom.toy (Api.Sample.stx 9 (by decide)) Bloom.resp2) =
    some (outcomeOf Bloom.toy (Api.Sample.stx 9 (by decide)) Bloom.resp2) := by
  refine C117_reads_partial _ _ _ ?_
  decide +kernel

/-- A hash function for examples. -/
def sumHash (b : Bytes) : H256 := ⟨Trie.checksum b, beFixed_length _ _⟩

/-- Another block: the transactions had each other's outcomes. -/
def other : Executed := { Api.Sample.executed with
  resps := [Bloom.resp2, Bloom.resp1]
  lenResps := rfl
  fewLogs := by decide }

example : NoCollision (bytesOf sumHash) (pieces (bytesOf sumHash) (build (leaves sumHash Api.Sample.executed)) ++
    pieces (bytesOf sumHash) (build (leaves sumHash other))) := by decide +kernel

example : headerRoot sumHash Api.Sample.executed ≠ headerRoot sumHash other := by decide +kernel

example : 0 < ((Api.Sample.executed.resps.take 1).map (·.gasUsed.val)).sum := by decide

example : ∃ ws : List Web3Receipt, (∀ i, i < Api.Sample.executed.stxs.length →
      ∃ w, reported Bloom.toy Api.Sample.executed i = some w ∧ ws[i]? = some w) ∧
    ws.length = Api.Sample.executed.stxs.length := by
  have h0 : (reported Bloom.toy Api.Sample.executed 0).isSome := by decide +kernel
  have h1 : (reported Bloom.toy Api.Sample.executed 1).isSome := by decide +kernel
  obtain ⟨w0, e0⟩ := Option.isSome_iff_exists.1 h0
  obtain ⟨w1, e1⟩ := Option.isSome_iff_exists.1 h1
  refine ⟨[w0, w1], fun i hi => ?_, rfl⟩
  match i, hi with
  | 0, _ => exact ⟨w0, e0, rfl⟩
  | 1, _ => exact ⟨w1, e1, rfl⟩
  | n + 2, hi => exact absurd hi (by simp [Api.Sample.executed])

end Axon.ReceiptRoot
