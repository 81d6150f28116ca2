import Verif.Codec.Exit
import Verif.Codec.BlockProps

/-!
# C07: exit reasons

With the codec of exit reasons as it is, the receipts of C07 are read back as they were written.
-/

namespace Axon.Exit
open Axon.Block

/-- C07 for exit reasons: they are read back, whatever bytes follow. -/
theorem C07_exit (x : Reason) (r : Bytes) : de (ser x ++ r) = some x := de_ser x r

/-- C07 for exit reasons: none is written as the beginning of another. -/
theorem C07_exit_prefix {x y : Reason} {r s : Bytes} (h : ser x ++ r = ser y ++ s) : x = y := by
  have h1 := de_ser x r
  rw [h, de_ser y s] at h1
  exact (Option.some.inj h1).symm

/-- C07 for receipts with the exit reasons of the virtual machine: every receipt is read back. -/
theorem C07_receipt_exit_partial (r : Receipt Reason) (h : (encodeReceipt codec r).length < 2 ^ 64) :
    decodeReceipt codec (encodeReceipt codec r) = some r := C07_receipt_roundtrip_partial codec r h

/-- Bytes that are no exit reason are refused: an unknown variant, a text that is cut off or not UTF-8. -/
example : de (Mol.le 4 4) = none ∧ de (Mol.le 4 1 ++ Mol.le 4 16) = none ∧
    de (Mol.le 4 1 ++ Mol.le 4 14 ++ Mol.le 8 2 ++ [0x61]) = none ∧ de [0, 0, 0] = none := by decide +kernel

def out : Reason := .fatal (.callErrorAsFatal (.other ⟨"out of cycles", by decide⟩))

example : ser out = [3, 0, 0, 0, 2, 0, 0, 0, 14, 0, 0, 0, 13, 0, 0, 0, 0, 0, 0, 0, 0x6f, 0x75, 0x74, 0x20, 0x6f, 0x66,
    0x20, 0x63, 0x79, 0x63, 0x6c, 0x65, 0x73] := by decide +kernel

example : de (ser out ++ [1, 2]) = some out := C07_exit out _

def receipt0 : Receipt Reason :=
  { txHash := ⟨List.replicate 32 1, rfl⟩, blockNumber := ⟨5, by decide⟩,
    blockHash := ⟨List.replicate 32 2, rfl⟩, txIndex := ⟨3, by decide⟩,
    stateRoot := ⟨List.replicate 32 0, rfl⟩, usedGas := ⟨21000, by decide⟩,
    logsBloom := ⟨List.replicate 256 0, List.length_replicate⟩,
    logs := [⟨⟨List.replicate 20 7, rfl⟩, [⟨List.replicate 32 8, rfl⟩], [1, 2, 3]⟩],
    logIndex := ⟨2, by decide⟩, codeAddress := some ⟨List.replicate 32 4, rfl⟩,
    sender := ⟨List.replicate 20 6, rfl⟩, ret := out, removed := false }

example : decodeReceipt codec (encodeReceipt codec receipt0) = some receipt0 :=
  C07_receipt_exit_partial _ (by
    have h : (encodeReceipt codec receipt0).length < 1000 := by decide +kernel
    exact Nat.lt_trans h (by decide))

end Axon.Exit
