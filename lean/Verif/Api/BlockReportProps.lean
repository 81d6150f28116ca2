import Verif.Api.BlockReport
import Verif.Api.SelectProps
import Verif.Api.TransactionProps
import Verif.Codec.BlockProps

/-!
# C100: a reported block is the block

Specification: an object identifies its block (two blocks with equal objects are equal), is the same whichever
way it is asked for, lists the transactions in order, and links to the object of the block before.
-/

namespace Axon.Api

open Axon Axon.Block Axon.Rlp

/-- Two different byte strings with the same digest. -/
def Clash (H : Bytes → H256) (a b : Bytes) : Prop := a ≠ b ∧ H a = H b

/-- The hash a client sees for a listed transaction. -/
def TxOrHash.seen : TxOrHash → H256
  | .hash h => h
  | .rich w => w.hash

/-- The answer about a block of the chain, found by its number. -/
theorem byNumber_eq (H : Bytes → H256) {A : Adapter} {chain : List Full} (hA : Serves A chain) (T : TxSource) (n : U64)
    (rich : Bool) (f : Full) (hf : chain[n.val]? = some f) :
    getBlockByNumber H A T (.num n) rich = reportBlock H T rich (some f.block) := by
  unfold getBlockByNumber blockByNumber
  simp only [BlockId.toNumber, Adapter.blockAt, hA.block, hf, Option.map_some, Reply.internal, Reply.bind]

/-- Two blocks with the same object are the same block. -/
theorem C100_identifies (H : Bytes → H256) (a b : Block) (ha : (encodeHeader a.header).length < 2 ^ 64)
    (h : web3Block H a = web3Block H b) : a = b ∨ Clash H (encodeHeader a.header) (encodeHeader b.header) := by
  have h1 : H (encodeHeader a.header) = H (encodeHeader b.header) := congrArg Web3Block.hash h
  have h2 : a.txHashes.map TxOrHash.hash = b.txHashes.map TxOrHash.hash := congrArg Web3Block.transactions h
  by_cases he : encodeHeader a.header = encodeHeader b.header
  · left
    have e1 := C05_hash_preimage_injective _ _ ha he
    have e2 : a.txHashes = b.txHashes := by
      have := congrArg (List.map TxOrHash.seen) h2
      simpa [List.map_map, Function.comp_def, TxOrHash.seen] using this
    cases a
    cases b
    simp_all
  · exact Or.inr ⟨he, h1⟩

/-- What is reported, and how it is read: number, time, proposer, roots, bloom, gas and base fee are those of the
block; the extra data decodes to its entries; the hash is the digest of the header. -/
theorem C100_fields_partial (H : Bytes → H256) (b : Block) (hx : (extraBytes b.header.extraData).length < 2 ^ 64) :
    let w := web3Block H b
    w.hash = H (encodeHeader b.header) ∧ w.parentHash = b.header.prevHash ∧ w.number = b.header.number.val ∧
      w.timestamp = b.header.timestamp.val ∧ w.author = b.header.proposer ∧ w.miner = b.header.proposer ∧
      w.stateRoot = b.header.stateRoot ∧ w.transactionsRoot = b.header.transactionsRoot ∧
      w.receiptsRoot = b.header.receiptsRoot ∧ w.logsBloom = some b.header.logBloom ∧ w.gasUsed = b.header.gasUsed ∧
      w.gasLimit = b.header.gasLimit ∧ w.baseFeePerGas = b.header.baseFeePerGas ∧
      (decode w.extraData).bind (toList itemExtra) = some b.header.extraData ∧
      w.transactions.map TxOrHash.seen = b.txHashes := by
  refine ⟨rfl, rfl, rfl, rfl, rfl, rfl, rfl, rfl, rfl, rfl, rfl, rfl, rfl, ?_, ?_⟩
  · show (decode (extraBytes b.header.extraData)).bind _ = _
    unfold extraBytes at *
    rw [decode_encode_item _ hx]
    exact toList_map itemExtra extraItem (fun x => by rfl) _
  · simp [web3Block, List.map_map, Function.comp_def, TxOrHash.seen]

/-- A block is reported alike by its number and by its hash, with and without transactions. -/
theorem C100_agree (H : Bytes → H256) {A : Adapter} {chain : List Full} (hA : Serves A chain) (T : TxSource) (n : U64)
    (f : Full) (hf : chain[n.val]? = some f)
    (hh : A.blockByHash (headerHash H f.block.header) = some (some f.block)) (rich : Bool) :
    getBlockByHash H A T (headerHash H f.block.header) rich = getBlockByNumber H A T (.num n) rich := by
  rw [byNumber_eq H hA T n rich f hf]
  unfold getBlockByHash
  simp only [hh, Reply.internal, Reply.bind]

/-- Following the parent hashes from object to object walks down the chain: in a chain linked by hashes, the
object of block `n + 1` names the hash in the object of block `n`. -/
theorem C100_linked (H : Bytes → H256) {A : Adapter} {chain : List Full} (hA : Serves A chain) (T : TxSource)
    (hl : ∀ (n : Nat) (f g : Full), chain[n]? = some f → chain[n + 1]? = some g →
      g.block.header.prevHash = headerHash H f.block.header)
    (n m : U64) (hm : m.val = n.val + 1) {v w : Web3Block}
    (hv : getBlockByNumber H A T (.num n) false = .ok (some v))
    (hw : getBlockByNumber H A T (.num m) false = .ok (some w)) :
    w.parentHash = v.hash ∧ w.number = v.number + 1 := by
  have get : ∀ (k : U64) (u : Web3Block), getBlockByNumber H A T (.num k) false = .ok (some u) →
      ∃ f, chain[k.val]? = some f ∧ u = web3Block H f.block := by
    intro k u hu
    cases hc : chain[k.val]? with
    | none =>
      unfold getBlockByNumber blockByNumber at hu
      simp only [BlockId.toNumber, Adapter.blockAt, hA.block, hc, Option.map_none, Reply.internal, Reply.bind,
        reportBlock] at hu
      cases hu
    | some f =>
      rw [byNumber_eq H hA T k false f hc] at hu
      cases hu
      exact ⟨f, rfl, rfl⟩
  obtain ⟨f, hf, rfl⟩ := get n v hv
  obtain ⟨g, hg, rfl⟩ := get m w hw
  have h1 := hA.wf.number _ _ hf
  have h2 := hA.wf.number _ _ hg
  rw [hm] at hg
  exact ⟨hl _ _ _ hf hg, by show g.block.header.number.val = f.block.header.number.val + 1; omega⟩

/-- With transactions: each is the one read for the hash the short form lists at its place, placed in this block. -/
theorem C100_rich (H : Bytes → H256) (T : TxSource) (b : Block) {w : Web3Block}
    (h : reportBlock H T true (some b) = .ok (some w)) :
    w = { web3Block H b with transactions := w.transactions } ∧ w.transactions.length = b.txHashes.length ∧
    ∀ (i : Nat) (t : H256), b.txHashes[i]? = some t →
      ∃ x v, T.tx t = some (some x) ∧ web3Tx x = .ok v ∧
        w.transactions[i]? = some (.rich (v.place b.header.number.val (H (encodeHeader b.header)) i)) := by
  unfold reportBlock at h
  simp only [if_true] at h
  obtain ⟨ws, h1, h2⟩ := bind_ok h
  cases h2
  obtain ⟨hl, hall⟩ := (richTxs_ok _ _ _ _ _ _).1 h1
  refine ⟨rfl, by simpa using hl, ?_⟩
  intro i t ht
  obtain ⟨x, v, e1, e2, e3⟩ := hall i t ht
  refine ⟨x, v, e1, e2, ?_⟩
  simp only [List.getElem?_map, e3, Option.map_some, Nat.zero_add]
  rfl

/-- If transactions are found under their own hash, both forms list the same hashes. -/
theorem C100_rich_hashes (H : Bytes → H256) (T : TxSource) (b : Block) {w : Web3Block}
    (h : reportBlock H T true (some b) = .ok (some w)) (hT : ∀ t x, T.tx t = some (some x) → x.hash = t) :
    w.transactions.map TxOrHash.seen = b.txHashes := by
  obtain ⟨_, hl, hall⟩ := C100_rich H T b h
  apply List.ext_getElem?
  intro i
  rw [List.getElem?_map]
  cases ht : b.txHashes[i]? with
  | none =>
    rw [List.getElem?_eq_none_iff] at ht
    rw [List.getElem?_eq_none (by omega)]
    rfl
  | some t =>
    obtain ⟨x, v, e1, e2, e3⟩ := hall i t ht
    rw [e3]
    have : v.hash = x.hash := by
      unfold web3Tx at e2
      simp only at e2
      split at e2
      · cases e2
      · obtain ⟨p, _, e2⟩ := Axon.Admission.bind_ok e2
        split at e2
        · cases e2
        · cases e2; rfl
    simp only [Option.map_some, TxOrHash.seen, Web3Tx.place, this, hT t x e1]

/-- The object sent to `newHeads` subscribers agrees with the block. -/
theorem C100_head_agrees (H : Bytes → H256) (b : Block) :
    let w := web3Block H b
    web3Header b.header =
      ⟨w.difficulty, w.extraData, w.gasLimit, w.gasUsed, w.logsBloom, w.miner, w.number, w.parentHash, w.receiptsRoot,
        w.sha3Uncles, w.stateRoot, w.timestamp, w.transactionsRoot⟩ := rfl

/-- A header that differs in a field that is not reported. -/
def otherCount (h : Header) : Header :=
  { h with callSystemScriptCount := if h.callSystemScriptCount.val = 0 then ⟨1, by decide⟩ else ⟨0, by decide⟩ }

/-- C100 is false of `newHeads`: the object has no hash, and for every header there is another one with the same
object, so a subscriber cannot tell which block is meant. -/
theorem C100_head_false (h : Header) : otherCount h ≠ h ∧ web3Header (otherCount h) = web3Header h := by
  refine ⟨?_, rfl⟩
  intro e
  have := congrArg (fun h : Header => h.callSystemScriptCount.val) e
  simp only [otherCount] at this
  split at this <;> simp_all

/-- C100 is false of the size: it is always less than the size of the block. -/
theorem C100_size_false (H : Bytes → H256) (b : Block) :
    ∃ s, (web3Block H b).size = some s ∧ s < (encodeBlock b).length := by
  refine ⟨_, rfl, ?_⟩
  have h1 := encPayload_length (encodeMany [headerItem b.header, .list (b.txHashes.map ofFixed)])
  simp only [encodeMany, List.length_append] at h1
  show (encode (headerItem b.header)).length < (encPayload (encodeMany [headerItem b.header, .list (b.txHashes.map ofFixed)])).length
  simp only [encodeMany]
  omega

/-- C100 is false of the total difficulty: summed over the blocks up to `n` the reported difficulties give one more
than the total difficulty reported for block `n`. -/
theorem C100_difficulty_false (H : Bytes → H256) {chain : List Full} (hw : Wf chain) (n : Nat) (f : Full)
    (hf : chain[n]? = some f) :
    (web3Block H f.block).totalDifficulty = some n ∧
    ((chain.take (n + 1)).map fun g => (web3Block H g.block).difficulty).sum = n + 1 := by
  refine ⟨by simp [web3Block, hw.number n f hf], ?_⟩
  have hlt := (List.getElem?_eq_some_iff.1 hf).1
  have : ∀ l : List Full, (l.map fun g => (web3Block H g.block).difficulty).sum = l.length := by
    intro l
    induction l with
    | nil => rfl
    | cons a l ih =>
      rw [List.map_cons, List.sum_cons, ih, List.length_cons]
      show 1 + _ = _
      omega
  rw [this, List.length_take]
  omega

/-! ## A chain of two linked blocks -/

namespace Sample

/-- A digest for the examples. -/
def mix (b : Bytes) : H256 := h32 (b.foldl (fun a x => a * 31 + x) 7)

def linked : List Full :=
  [block0, { block1 with block := { block1.block with
    header := { block1.block.header with prevHash := headerHash mix block0.block.header, extraData := [[1, 2], []] } } }]

/-- Number, parent, extra data and transactions of block 1 as reported; the parent is block 0 as reported. -/
example : (match getBlockByNumber mix (ofChain linked) ⟨fun _ => none, fun _ => some none, fun _ => some none⟩
      (.num (u64 1)) false, getBlockByNumber mix (ofChain linked) ⟨fun _ => none, fun _ => some none, fun _ => some none⟩
      .earliest false with
    | .ok (some w), .ok (some v) =>
      some (w.number, decide (w.parentHash = v.hash), decide (w.hash = v.hash), w.extraData, w.transactions)
    | _, _ => none) =
      some (1, true, false, [0xc6, 0xc3, 0x82, 1, 2, 0xc1, 0x80], [.hash (h32 8), .hash (h32 9)]) := by
  decide +kernel

/-- With transactions, stored under their hash. -/
example : (match reportBlock mix ⟨fun _ => none, fun h => some (some { sampleLegacy none with hash := h }), fun _ => some none⟩
      true (some block1.block) with
    | .ok (some w) => some (w.transactions.map TxOrHash.seen)
    | _ => none) = some [h32 8, h32 9] := by decide +kernel

example : (encodeHeader block1.block.header).length < 2 ^ 64 ∧ (extraBytes [[1, 2], []]).length < 2 ^ 64 := by
  decide +kernel

end Sample

end Axon.Api
