import Verif.Util.Bytes
import Verif.Util.Outcome

/-!
# The message of a reverted call

`core/executor/src/utils.rs`, `decode_revert_msg`, which the API prints in the error of `eth_call`
and `eth_estimateGas` (`core/api/src/jsonrpc/error.rs:54-55`).  Text is a list of characters.
-/

namespace Axon.Revert

open Axon

/-- `EXEC_REVERT` (utils.rs:9). -/
def prefixText : List Char := "execution reverted: ".toList

/-- `*c as char` for a `u8` (utils.rs:55): the character with the code of the byte. -/
def latin (b : UInt8) : Char := Char.ofNat b.toNat

/-- The closure `decode_reason` (utils.rs:54-57). -/
def reason (i : Bytes) : List Char := prefixText ++ i.map latin

/-- `REVERT_EFFECT_MSG_OFFSET` (utils.rs:5-8): selector, offset word and length word. -/
def dataOffset : Nat := 68

/-- `input[REVERT_MSG_LEN_OFFSET..REVERT_EFFECT_MSG_OFFSET]` read as a big-endian `U256`
(utils.rs:64). -/
def lengthWord (input : Bytes) : Nat := beNat ((input.drop 36).take 32)

/-- `decode_revert_msg` (utils.rs:49-71).  `U256::as_usize` panics above `usize::MAX` (64 bit
machine), and so does the addition when it exceeds `usize::MAX` (`overflow-checks = true`,
`Cargo.toml:56`). -/
def decodeRevertMsg (input : Bytes) : Outcome (List Char) :=
  if input.isEmpty then .ok prefixText
  else if input.length < dataOffset then .ok (reason input)
  else if 2 ^ 64 ≤ lengthWord input then .panic
  else if 2 ^ 64 ≤ dataOffset + lengthWord input then .panic
  else if input.length < dataOffset + lengthWord input then .ok (reason input)
  else .ok (reason ((input.drop dataOffset).take (lengthWord input)))

end Axon.Revert
