import Verif.Trie.Lists
import Verif.Api.ReceiptProps

/-!
# Receipts under the receipts root

`SignedTransaction::encode_receipt` (protocol/src/types/transaction.rs:475-516) and the root the executor makes
of the encoded receipts (core/executor/src/lib.rs:158-200).
-/

namespace Axon.ReceiptRoot

open Axon Axon.Rlp Axon.Block Axon.Admission Axon.Api

/-- The four fields, transaction.rs:497-512. -/
def fields (ok : Bool) (gas : U64) (bloom : Bloom) (logs : List Log) : Item :=
  .list [ofUint (if ok then ⟨1, by decide⟩ else ⟨0, by decide⟩ : U64),
    ofUint (⟨gas.val, Nat.lt_of_lt_of_le gas.lt (by decide)⟩ : U256), ofFixed bloom, .list (logs.map logItem)]

/-- `encode_receipt`, transaction.rs:494-516: the types 1 and 2 are put in front. -/
def encodeReceipt (type : Nat) (ok : Bool) (gas : U64) (bloom : Bloom) (logs : List Log) : Bytes :=
  if type = 1 ∨ type = 2 then UInt8.ofNat type :: encode (fields ok gas bloom logs)
  else encode (fields ok gas bloom logs)

/-- What the executor pushes for a transaction, core/executor/src/lib.rs:161-163; the outcome is reduced to
success or failure. -/
def leaf (H : Bytes → H256) (stx : SignedTx) (resp : TxResp Bool) : Bytes :=
  encodeReceipt (typeOf stx.transaction.unsigned) resp.exitReason resp.gasUsed (Bloom.logsBloom H resp.logs)
    resp.logs

/-- The encoded receipts of a block. -/
def leaves (H : Bytes → H256) (e : Executed) : List Bytes := List.zipWith (leaf H) e.stxs e.resps

/-- Hashes as bytes. -/
def bytesOf (H : Bytes → H256) (b : Bytes) : Bytes := (H b).bytes

/-- The receipts root of the block, core/executor/src/lib.rs:192-200. -/
def headerRoot (H : Bytes → H256) (e : Executed) : Bytes := Trie.receiptsRoot (bytesOf H) (leaves H e)

/-! ## Lemmas -/

theorem bytesOf_length (H : Bytes → H256) (b : Bytes) : (bytesOf H b).length = 32 := (H b).len

theorem encodeReceipt_ne (type : Nat) (ok : Bool) (gas : U64) (bloom : Bloom) (logs : List Log) :
    encodeReceipt type ok gas bloom logs ≠ [] := by
  unfold encodeReceipt
  split
  · simp
  · intro h
    have := encode_length_pos (fields ok gas bloom logs)
    rw [h] at this; simp at this

theorem typeOf_le (u : Axon.Tx.Unsigned) : typeOf u ≤ 2 := by cases u <;> simp [typeOf]

theorem length_leaves (H : Bytes → H256) (e : Executed) : (leaves H e).length = e.stxs.length := by
  unfold leaves
  rw [List.length_zipWith, e.lenResps, Nat.min_self]

theorem leaves_get (H : Bytes → H256) (e : Executed) {i : Nat} {stx : SignedTx} {resp : TxResp Bool}
    (hs : e.stxs[i]? = some stx) (hr : e.resps[i]? = some resp) : (leaves H e)[i]? = some (leaf H stx resp) := by
  unfold leaves
  rw [List.getElem?_zipWith, hs, hr]

theorem mem_leaves {H : Bytes → H256} {e : Executed} {b : Bytes} (h : b ∈ leaves H e) :
    ∃ stx resp, b = leaf H stx resp := by
  obtain ⟨i, hi⟩ := List.mem_iff_getElem?.1 h
  unfold leaves at hi
  rw [List.getElem?_zipWith] at hi
  split at hi
  · exact ⟨_, _, (Option.some.inj hi).symm⟩
  · cases hi

/-- The reader of a byte encodes what was encoded: a list never starts with 1 or 2. -/
theorem encode_list_head (l : List Item) : ∃ b t, encode (.list l) = b :: t ∧ 0xc0 ≤ b.toNat ∨
    (2 ^ 64 ≤ (encodeMany l).length) := by
  by_cases hbig : 2 ^ 64 ≤ (encodeMany l).length
  · exact ⟨0, [], .inr hbig⟩
  · rw [encode, encPayload]
    split
    next h =>
      refine ⟨_, _, .inl ⟨rfl, ?_⟩⟩
      rw [u8_ofNat_toNat (by omega)]; omega
    next h =>
      refine ⟨_, _, .inl ⟨rfl, ?_⟩⟩
      have := beBytes_length_le (encodeMany l).length 8 (by
        have : (256 : Nat) ^ 8 = 2 ^ 64 := by decide
        omega)
      rw [u8_ofNat_toNat (by omega)]; omega

theorem receiptsFrom_bloom (H : Bytes → H256) (b : Bloom.Ctx) (l : List (Bloom.TxId × TxResp Bool)) :
    ∀ (idx : Nat) (li : U32) (rs : List (Receipt Bool)), Bloom.receiptsFrom H b idx li l = .ok rs →
      ∀ r ∈ rs, r.logsBloom = Bloom.logsBloom H r.logs := by
  induction l with
  | nil => intro idx li rs h; cases h; simp
  | cons p l ih =>
    intro idx li rs h r hr
    obtain ⟨tx, resp⟩ := p
    simp only [Bloom.receiptsFrom] at h
    cases h1 : Outcome.orPanic (UIntN.ofNat? 32 (li.val + (Bloom.asU32 resp.logs.length).val)) with
    | err => rw [h1] at h; cases h
    | panic => rw [h1] at h; cases h
    | ok li' =>
      rw [h1] at h
      simp only [Outcome.bind] at h
      cases h2 : Bloom.receiptsFrom H b (idx + 1) li' l with
      | err => rw [h2] at h; cases h
      | panic => rw [h2] at h; cases h
      | ok rs' =>
        rw [h2] at h
        cases h
        rcases List.mem_cons.1 hr with rfl | hr
        · rfl
        · exact ih _ _ _ h2 r hr

theorem generate_bloom {H : Bytes → H256} {b : Bloom.Ctx} {ids : List Bloom.TxId} {resps : List (TxResp Bool)}
    {rs : List (Receipt Bool)} {ls : List (List Log)} (h : Bloom.generateReceipts H b ids resps = .ok (rs, ls)) :
    ∀ r ∈ rs, r.logsBloom = Bloom.logsBloom H r.logs := by
  unfold Bloom.generateReceipts at h
  cases h1 : Bloom.receiptsFrom H b 0 ⟨0, by decide⟩ (ids.zip resps) with
  | err => rw [h1] at h; cases h
  | panic => rw [h1] at h; cases h
  | ok rs' =>
    rw [h1] at h
    cases h
    exact receiptsFrom_bloom H b _ _ _ _ h1

end Axon.ReceiptRoot
