import Verif.Codec.Block
import Verif.Codec.RlpProps

/-!
# C05, C06, C07: block, proposal, receipt and execution response codecs
-/

namespace Axon.Block
open Axon.Rlp

/-! ## C05 -/

/-- C05: a stored or received block is the block that was written. -/
theorem C05_block_roundtrip (b : Block) (h : (encodeBlock b).length < 2 ^ 64) :
    decodeBlock (encodeBlock b) = some b := by
  unfold decodeBlock encodeBlock at *
  rw [decode_encode_item _ h]
  simp

/-- C05: the same for a header on its own. -/
theorem C05_header_roundtrip (x : Header) (h : (encodeHeader x).length < 2 ^ 64) :
    decodeHeader (encodeHeader x) = some x := by
  unfold decodeHeader encodeHeader at *
  rw [decode_encode_item _ h]
  simp

/-- C05: the same for a proof on its own. -/
theorem C05_proof_roundtrip (x : Proof) (h : (encodeProof x).length < 2 ^ 64) :
    decodeProof (encodeProof x) = some x := by
  unfold decodeProof encodeProof at *
  rw [decode_encode_item _ h]
  simp

/-- C05: the bytes that are digested to the block hash determine every header field. -/
theorem C05_hash_preimage_injective (x y : Header) (h : (encodeHeader x).length < 2 ^ 64)
    (he : encodeHeader x = encodeHeader y) : x = y := by
  have h1 := C05_header_roundtrip x h
  have h2 := C05_header_roundtrip y (he ▸ h)
  rw [he, h2] at h1
  exact (Option.some.inj h1).symm

/-- C05: blocks with equal bytes are equal, including the order of their transaction hashes. -/
theorem C05_block_injective (x y : Block) (h : (encodeBlock x).length < 2 ^ 64)
    (he : encodeBlock x = encodeBlock y) : x = y := by
  have h1 := C05_block_roundtrip x h
  have h2 := C05_block_roundtrip y (he ▸ h)
  rw [he, h2] at h1
  exact (Option.some.inj h1).symm

/-! ## C06

The full claim (decoding gives back the same proposal for every proposal) is false: base fee and
chain id are not part of the encoding. -/

/-- The claim of C06. -/
def ProposalBytesDetermineProposal : Prop :=
  ∀ (chain : U64) (p : Proposal), (encodeProposal p).length < 2 ^ 64 →
    decodeProposal chain (encodeProposal p) = some p

/-- C06 restricted to what is written: everything except base fee and chain id is read back; those
two are replaced by the constant 1337 and the reader's own chain id.  Missing: the two fields. -/
theorem C06_roundtrip_partial (chain : U64) (p : Proposal)
    (h : (encodeProposal p).length < 2 ^ 64) :
    decodeProposal chain (encodeProposal p) =
      some { p with baseFeePerGas := ⟨1337, by decide⟩, chainId := chain } := by
  unfold decodeProposal encodeProposal at *
  rw [decode_encode_item _ h]
  exact itemProposal_proposalItem chain p

/-- C06: the round trip is exact precisely for proposals with base fee 1337 made for the reader's
chain. -/
theorem C06_roundtrip_iff (chain : U64) (p : Proposal) (h : (encodeProposal p).length < 2 ^ 64) :
    decodeProposal chain (encodeProposal p) = some p ↔
      p.baseFeePerGas.val = 1337 ∧ p.chainId = chain := by
  rw [C06_roundtrip_partial chain p h]
  obtain ⟨_, _, _, _, _, _, _, _, _, fee, _, id, _, _⟩ := p
  simp only [Option.some.injEq, Proposal.mk.injEq, true_and, and_true]
  constructor
  · rintro ⟨rfl, rfl⟩; exact ⟨rfl, rfl⟩
  · rintro ⟨h1, rfl⟩; exact ⟨UIntN.ext' h1.symm, rfl⟩

/-- C06: two proposals have the same bytes exactly if they agree on everything but base fee and
chain id. -/
theorem C06_same_bytes_iff (p q : Proposal) (h : (encodeProposal p).length < 2 ^ 64) :
    encodeProposal p = encodeProposal q ↔
      { p with baseFeePerGas := q.baseFeePerGas, chainId := q.chainId } = q := by
  constructor
  · intro he
    have h1 := C06_roundtrip_partial q.chainId p h
    have h2 := C06_roundtrip_partial q.chainId q (he ▸ h)
    rw [he, h2] at h1
    simp only [Option.some.injEq, Proposal.mk.injEq] at h1
    obtain ⟨_, _, _, _, _, _, _, _, _, _, _, _, _, _⟩ := p
    obtain ⟨_, _, _, _, _, _, _, _, _, _, _, _, _, _⟩ := q
    simp_all
  · intro he
    rw [← he]
    rfl

/-- A proposal used as witness. -/
def sampleProposal (fee chain : U64) : Proposal :=
  { prevHash := ⟨List.replicate 32 1, rfl⟩, proposer := ⟨List.replicate 20 2, rfl⟩,
    prevStateRoot := ⟨List.replicate 32 3, rfl⟩, transactionsRoot := ⟨List.replicate 32 4, rfl⟩,
    signedTxsHash := ⟨List.replicate 32 5, rfl⟩, timestamp := ⟨1700000000, by decide⟩,
    number := ⟨10, by decide⟩, gasLimit := ⟨30000000, by decide⟩, extraData := [[1, 2]],
    baseFeePerGas := fee,
    proof := ⟨⟨9, by decide⟩, ⟨0, by decide⟩, ⟨List.replicate 32 6, rfl⟩, [7, 8], [0xf0]⟩,
    chainId := chain, callSystemScriptCount := ⟨1, by decide⟩,
    txHashes := [⟨List.replicate 32 9, rfl⟩] }

theorem sampleProposal_length (fee chain : U64) :
    (encodeProposal (sampleProposal fee chain)).length < 2 ^ 64 := by
  have h : (encodeProposal (sampleProposal ⟨0, by decide⟩ ⟨0, by decide⟩)).length < 1000 := by
    decide +kernel
  exact Nat.lt_trans h (by decide)

/-- C06, negation: a proposal for chain 1 is read by a node of chain 2 as a proposal for chain 2. -/
theorem C06_false : ¬ ProposalBytesDetermineProposal := by
  intro hc
  have h := hc ⟨2, by decide⟩ (sampleProposal ⟨1337, by decide⟩ ⟨1, by decide⟩)
    (sampleProposal_length _ _)
  rw [C06_roundtrip_iff _ _ (sampleProposal_length _ _)] at h
  exact absurd (congrArg UIntN.val h.2) (by decide)

/-! ## C07 -/

/-- C07 for receipts: every receipt, with all its logs, is read back.  Missing for the full claim:
execution responses, for which it is false (`C07_txresp_never_decodes`). -/
theorem C07_receipt_roundtrip_partial {ρ : Type} (c : ExitCodec ρ) (r : Receipt ρ)
    (h : (encodeReceipt c r).length < 2 ^ 64) : decodeReceipt c (encodeReceipt c r) = some r := by
  unfold decodeReceipt encodeReceipt at *
  rw [decode_encode_item _ h]
  simp

/-- C07: receipts with equal bytes are equal. -/
theorem C07_receipt_injective {ρ : Type} (c : ExitCodec ρ) (x y : Receipt ρ)
    (h : (encodeReceipt c x).length < 2 ^ 64) (he : encodeReceipt c x = encodeReceipt c y) :
    x = y := by
  have h1 := C07_receipt_roundtrip_partial c x h
  have h2 := C07_receipt_roundtrip_partial c y (he ▸ h)
  rw [he, h2] at h1
  exact (Option.some.inj h1).symm

/-- C07, negation for execution responses: no encoded execution response can be decoded at all. -/
theorem C07_txresp_never_decodes {ρ : Type} (c : ExitCodec ρ) (r : TxResp ρ)
    (h : (encodeTxResp c r).length < 2 ^ 64) : decodeTxResp c (encodeTxResp c r) = none := by
  unfold encodeTxResp at *
  have hfit : (txRespInner c r).Fits :=
    fits_of_length _ (by rw [List.length_append] at h; omega)
  unfold decodeTxResp decode
  rw [C01_decode_encode _ hfit]
  simp [txRespInner, itemTxResp, toList_map _ _ itemLog_logItem, c.de_ser]

/-- Stronger: no byte string whatsoever decodes to an execution response. -/
theorem C07_txresp_decoder_rejects_everything {ρ : Type} (c : ExitCodec ρ) (bs : Bytes) :
    decodeTxResp c bs = none := by
  unfold decodeTxResp
  cases decode bs with
  | none => rfl
  | some i =>
    cases i with
    | str b => rfl
    | list l =>
      simp only [Option.bind_some, itemTxResp]
      split
      · rename_i hl
        have : valAt l 7 itemBool = none := by
          unfold valAt
          rw [List.getElem?_eq_none (by omega)]
          rfl
        simp [this]
      · rfl

/-! ## Non-trivial instances -/

/-- An exit codec with two exit reasons. -/
def boolExit : ExitCodec Bool :=
  { ser := fun b => if b then [1, 0, 0, 0] else [0, 0, 0, 0]
    de := fun l => if l = [1, 0, 0, 0] then some true else if l = [0, 0, 0, 0] then some false
      else none
    de_ser := by intro r; cases r <;> rfl }

def sampleReceipt : Receipt Bool :=
  { txHash := ⟨List.replicate 32 1, rfl⟩, blockNumber := ⟨5, by decide⟩,
    blockHash := ⟨List.replicate 32 2, rfl⟩, txIndex := ⟨3, by decide⟩,
    stateRoot := ⟨List.replicate 32 0, rfl⟩, usedGas := ⟨21000, by decide⟩,
    logsBloom := ⟨List.replicate 256 0, List.length_replicate⟩,
    logs := [⟨⟨List.replicate 20 7, rfl⟩, [⟨List.replicate 32 8, rfl⟩], [1, 2, 3]⟩],
    logIndex := ⟨2, by decide⟩, codeAddress := some ⟨List.replicate 32 4, rfl⟩,
    sender := ⟨List.replicate 20 6, rfl⟩, ret := true, removed := false }

example : decodeReceipt boolExit (encodeReceipt boolExit sampleReceipt) = some sampleReceipt :=
  C07_receipt_roundtrip_partial _ _ (by
    have h : (encodeReceipt boolExit sampleReceipt).length < 1000 := by decide +kernel
    exact Nat.lt_trans h (by decide))

/-- An execution response whose bytes (a list followed by one more byte) cannot be read. -/
example : ∃ r : TxResp Bool, (encodeTxResp boolExit r).length < 2 ^ 64 ∧
    decodeTxResp boolExit (encodeTxResp boolExit r) ≠ some r := by
  refine ⟨⟨true, [1], ⟨1, by decide⟩, ⟨2, by decide⟩, ⟨3, by decide⟩, [], none, true⟩, ?_, ?_⟩
  · have h : (encodeTxResp boolExit ⟨true, [1], ⟨1, by decide⟩, ⟨2, by decide⟩, ⟨3, by decide⟩, [],
        none, true⟩).length < 100 := by decide +kernel
    exact Nat.lt_trans h (by decide)
  · rw [C07_txresp_decoder_rejects_everything]; simp

def sampleHeader : Header :=
  { prevHash := ⟨List.replicate 32 1, rfl⟩, proposer := ⟨List.replicate 20 2, rfl⟩,
    stateRoot := ⟨List.replicate 32 3, rfl⟩, transactionsRoot := ⟨List.replicate 32 4, rfl⟩,
    signedTxsHash := ⟨List.replicate 32 5, rfl⟩, receiptsRoot := ⟨List.replicate 32 6, rfl⟩,
    logBloom := ⟨List.replicate 256 0, List.length_replicate⟩, timestamp := ⟨1700000000, by decide⟩,
    number := ⟨10, by decide⟩, gasUsed := ⟨21000, by decide⟩, gasLimit := ⟨30000000, by decide⟩,
    extraData := [[1, 2], []], baseFeePerGas := ⟨1337, by decide⟩,
    proof := ⟨⟨9, by decide⟩, ⟨0, by decide⟩, ⟨List.replicate 32 6, rfl⟩, [7, 8], [0xf0]⟩,
    callSystemScriptCount := ⟨1, by decide⟩, chainId := ⟨2022, by decide⟩ }

example : (encodeBlock ⟨sampleHeader, [⟨List.replicate 32 9, rfl⟩]⟩).length < 2 ^ 64 := by
  have h : (encodeBlock ⟨sampleHeader, [⟨List.replicate 32 9, rfl⟩]⟩).length < 1000 := by
    decide +kernel
  exact Nat.lt_trans h (by decide)

end Axon.Block
