import Verif.Codec.Block
import Verif.Util.Outcome

/-!
# Blooms, receipts and the header of an executed block

`protocol/src/types/executor.rs:116-137` and `protocol/src/types/block.rs:156-227`.  `H` is the
digest `Hasher::digest` (Keccak-256).
-/

namespace Axon.Bloom

open Axon Axon.Rlp Axon.Block

/-- `(hash[i + 1] as usize + ((hash[i] as usize) << 8)) & 0x7FF`, executor.rs:134.  The indices used
are below 6, so reading outside the 32 bytes does not occur. -/
def bitIndex (hash : Bytes) (i : Nat) : Nat :=
  ((hash.getD (i + 1) 0).toNat + ((hash.getD i 0).toNat <<< 8)) &&& 0x7FF

/-- `bloom.0[BLOOM_BYTE_LENGTH - 1 - bit / 8] |= 1 << (bit % 8)`, executor.rs:135. -/
def setBit (bloom : Bytes) (bit : Nat) : Bytes :=
  bloom.modify (256 - 1 - bit / 8) (fun x => x ||| ((1 : UInt8) <<< UInt8.ofNat (bit % 8)))

/-- `m3_2048`, executor.rs:131-137. -/
def m3 (H : Bytes → H256) (bloom : Bytes) (x : Bytes) : Bytes :=
  [0, 2, 4].foldl (fun b i => setBit b (bitIndex (H x).bytes i)) bloom

/-- `Bloom::zero()`. -/
def zero : Bytes := List.replicate 256 0

theorem length_zero : zero.length = 256 := List.length_replicate

/-- One log of the loop, executor.rs:122-127. -/
def addLog (H : Bytes → H256) (bloom : Bytes) (g : Log) : Bytes :=
  g.topics.foldl (fun b t => m3 H b t.bytes) (m3 H bloom g.address.bytes)

/-- The bytes of `logs_bloom`, executor.rs:116-129. -/
def logsBloomBytes (H : Bytes → H256) (logs : List Log) : Bytes := logs.foldl (addLog H) zero

theorem length_setBit (b : Bytes) (k : Nat) : (setBit b k).length = b.length := by
  simp [setBit]

theorem length_m3 (H : Bytes → H256) (b x : Bytes) : (m3 H b x).length = b.length := by
  simp [m3, length_setBit]

theorem length_addLog (H : Bytes → H256) (b : Bytes) (g : Log) :
    (addLog H b g).length = b.length := by
  unfold addLog
  have : ∀ (l : List H256) (c : Bytes),
      (l.foldl (fun b t => m3 H b t.bytes) c).length = c.length := by
    intro l
    induction l with
    | nil => intro c; rfl
    | cons t l ih => intro c; rw [List.foldl_cons, ih, length_m3]
  rw [this, length_m3]

theorem length_foldl_addLog (H : Bytes → H256) (logs : List Log) (b : Bytes) :
    (logs.foldl (addLog H) b).length = b.length := by
  induction logs generalizing b with
  | nil => rfl
  | cons g l ih => rw [List.foldl_cons, ih, length_addLog]

/-- `logs_bloom`, executor.rs:116-129. -/
def logsBloom (H : Bytes → H256) (logs : List Log) : Bloom :=
  ⟨logsBloomBytes H logs, by rw [logsBloomBytes, length_foldl_addLog, length_zero]⟩

/-- `Bloom::from(BloomInput::Raw(x))` of `ethbloom`: the empty bloom with the three bits of the
digest of `x`; the crate computes the same three indices as `m3_2048`. -/
def rawBloom (H : Bytes → H256) (x : Bytes) : Bloom :=
  ⟨m3 H zero x, by rw [length_m3, length_zero]⟩

/-- The header bloom, block.rs:158-173 and, for the genesis block, `core/run/src/lib.rs:476-483`:
the bloom of the RLP list of one bloom for each transaction, the bloom of the RLP list of its
logs. -/
def headerBloom (H : Bytes → H256) (logs : List (List Log)) : Bloom :=
  rawBloom H (encode (.list (logs.map fun l =>
    ofFixed (rawBloom H (encode (.list (l.map logItem)))))))

/-- What `generate_receipts_and_logs` reads of the block (block.rs:201-208). -/
structure Ctx where
  number : U64
  hash : H256
  stateRoot : H256

/-- What it reads of a signed transaction. -/
structure TxId where
  hash : H256
  sender : H160
deriving DecidableEq

variable {ρ : Type}

/-- `idx as u32` (block.rs:208), `res.logs.len() as u32` (block.rs:219): the low 32 bits. -/
def asU32 (n : Nat) : U32 := ⟨n % 2 ^ 32, Nat.mod_lt _ (by decide)⟩

/-- The receipt of transaction `idx`, block.rs:204-218. -/
def receiptOf (H : Bytes → H256) (b : Ctx) (idx : Nat) (logIndex : U32) (tx : TxId)
    (r : TxResp ρ) : Receipt ρ :=
  { txHash := tx.hash, blockNumber := b.number, blockHash := b.hash, txIndex := asU32 idx,
    stateRoot := b.stateRoot, usedGas := r.gasUsed, logsBloom := logsBloom H r.logs,
    logs := r.logs, logIndex := logIndex, codeAddress := r.codeAddress, sender := tx.sender,
    ret := r.exitReason, removed := r.removed }

/-- The iterator of block.rs:199-222, from transaction `idx` and running log index `li` on; the
addition panics when it exceeds `u32`. -/
def receiptsFrom (H : Bytes → H256) (b : Ctx) :
    Nat → U32 → List (TxId × TxResp ρ) → Outcome (List (Receipt ρ))
  | _, _, [] => .ok []
  | idx, li, (tx, r) :: rest =>
    (Outcome.orPanic (UIntN.ofNat? 32 (li.val + (asU32 r.logs.length).val))).bind fun li' =>
    (receiptsFrom H b (idx + 1) li' rest).bind fun l =>
    .ok (receiptOf H b idx li tx r :: l)

/-- `generate_receipts_and_logs`, block.rs:194-226: the receipts and the logs of each. -/
def generateReceipts (H : Bytes → H256) (b : Ctx) (txs : List TxId) (resps : List (TxResp ρ)) :
    Outcome (List (Receipt ρ) × List (List Log)) :=
  (receiptsFrom H b 0 ⟨0, by decide⟩ (txs.zip resps)).bind fun rs =>
  .ok (rs, rs.map (·.logs))

end Axon.Bloom
