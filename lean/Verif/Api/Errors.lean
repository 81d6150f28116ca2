import Verif.Codec.Exit
import Verif.Codec.Hex
import Verif.Executor.Revert
import Verif.Logger.Roller

/-!
# Errors of the RPC

`RpcError` and the error objects made of it (`core/api/src/jsonrpc/error.rs`), and the ends of `eth_call` and
`eth_estimateGas`, which report failed runs (`core/api/src/jsonrpc/impl/web3.rs:445-450, 489-493`).

Texts are lists of characters.  How `Debug` prints a block id and a text, and `Display` a float, are parameters.
-/

namespace Axon.RpcErr
open Axon.Exit
open Axon.Roller (decimal)

abbrev Text := List Char

/-- `TxResp`, the two fields that are read; `protocol/src/types/executor.rs:25-34` -/
structure Resp where
  exit : Reason
  ret : Bytes
deriving DecidableEq

/-- `RpcError`, `error.rs:10-59`; `β` are block ids and `φ` floats. -/
inductive RpcError (β φ : Type) where
  | sigR (m : Text)
  | sigS (m : Text)
  | invalidAddressSource
  | missingDummyInputCell
  | cannotFindImageCell
  | gasPriceIsZero
  | gasPriceIsTooLarge
  | gasLimitIsTooLow
  | gasLimitIsTooLarge
  | transactionIsNotSigned
  | cannotGetLatestBlock
  | invalidBlockHash
  | invalidFromBlockNumber (n : U64)
  | invalidBlockRange (start stop limit : U64)
  | invalidNewestBlock (b : β)
  | invalidPosition (n : U64)
  | cannotFindBlock
  | invalidRewardPercentiles (a b : φ)
  | invalidFromBlockAndToBlockUnion
  | cannotFindFilterId (n : U64)
  | callSystemContract
  | evm (r : Resp)
  | internal (m : Text)

variable {β φ : Type}

/-- `RpcError::code`, `error.rs:68-96` -/
def code : RpcError β φ → Int
  | .sigR _ => -40001
  | .sigS _ => -40002
  | .invalidAddressSource => -40003
  | .missingDummyInputCell => -40004
  | .cannotFindImageCell => -40005
  | .gasPriceIsZero => -40006
  | .gasPriceIsTooLarge => -40007
  | .gasLimitIsTooLow => -40008
  | .gasLimitIsTooLarge => -40009
  | .transactionIsNotSigned => -40011
  | .cannotGetLatestBlock => -40013
  | .invalidBlockHash => -40014
  | .invalidFromBlockNumber _ => -40015
  | .invalidBlockRange _ _ _ => -40016
  | .invalidNewestBlock _ => -40017
  | .invalidPosition _ => -40018
  | .cannotFindBlock => -40019
  | .invalidRewardPercentiles _ _ => -40020
  | .invalidFromBlockAndToBlockUnion => -40021
  | .cannotFindFilterId _ => -40022
  | .callSystemContract => -40023
  | .evm _ => -49998
  | .internal _ => -49999

variable (showBlock : β → Text) (showFloat : φ → Text) (quote : String → Text)

/-- `Display`, `error.rs:10-59` -/
def message : RpcError β φ → Outcome Text
  | .sigR m => .ok ("Decode interoperation signature r error since ".toList ++ m)
  | .sigS m => .ok ("Decode interoperation signature s error since ".toList ++ m)
  | .invalidAddressSource => .ok "Invalid address source".toList
  | .missingDummyInputCell => .ok "Missing dummy input cell".toList
  | .cannotFindImageCell => .ok "Cannot find image cell".toList
  | .gasPriceIsZero => .ok "Gas price is zero".toList
  | .gasPriceIsTooLarge => .ok "Gas price is too large".toList
  | .gasLimitIsTooLow => .ok "Gas limit is less than 21000".toList
  | .gasLimitIsTooLarge => .ok "Gas limit is too large".toList
  | .transactionIsNotSigned => .ok "Transaction is not signed".toList
  | .cannotGetLatestBlock => .ok "Cannot get latest block".toList
  | .invalidBlockHash => .ok "Invalid block hash".toList
  | .invalidFromBlockNumber n => .ok ("Invalid from block number ".toList ++ decimal n.val)
  | .invalidBlockRange a b c => .ok ("Invalid block range from ".toList ++ (decimal a.val ++ (" to ".toList ++
      (decimal b.val ++ (" limit to ".toList ++ decimal c.val)))))
  | .invalidNewestBlock b => .ok ("Invalid newest block ".toList ++ showBlock b)
  | .invalidPosition n => .ok ("Invalid position ".toList ++ decimal n.val)
  | .cannotFindBlock => .ok "Cannot find the block".toList
  | .invalidRewardPercentiles a b => .ok ("Invalid reward percentiles ".toList ++ (showFloat a ++ (" ".toList ++ showFloat b)))
  | .invalidFromBlockAndToBlockUnion => .ok "Invalid from block number and to block number union".toList
  | .cannotFindFilterId n => .ok ("Invalid filter id ".toList ++ decimal n.val)
  | .callSystemContract => .ok "Not allow to call system contract address".toList
  | .evm r => (Revert.decodeRevertMsg r.ret).bind fun m => .ok ("EVM error ".toList ++ m)
  | .internal m => .ok ("Internal error: ".toList ++ m)

/-- The name of a variant of `ExitError`. -/
def errorName : Error → Text
  | .stackUnderflow => "StackUnderflow".toList
  | .stackOverflow => "StackOverflow".toList
  | .invalidJump => "InvalidJump".toList
  | .invalidRange => "InvalidRange".toList
  | .designatedInvalid => "DesignatedInvalid".toList
  | .callTooDeep => "CallTooDeep".toList
  | .createCollision => "CreateCollision".toList
  | .createContractLimit => "CreateContractLimit".toList
  | .invalidCode _ => "InvalidCode".toList
  | .outOfOffset => "OutOfOffset".toList
  | .outOfGas => "OutOfGas".toList
  | .outOfFund => "OutOfFund".toList
  | .pcUnderflow => "PCUnderflow".toList
  | .createEmpty => "CreateEmpty".toList
  | .other _ => "Other".toList
  | .maxNonce => "MaxNonce".toList

/-- The values of a variant in parentheses, as derived `Debug` prints them. -/
def errorArgs : Error → Text
  | .invalidCode op => "(Opcode(".toList ++ decimal op.toNat ++ "))".toList
  | .other t => "(".toList ++ quote t.str ++ ")".toList
  | _ => []

/-- `{:?}` of `ExitError` -/
def debugError (e : Error) : Text := errorName e ++ errorArgs quote e

/-- The name of a variant of `ExitFatal`. -/
def fatalName : Fatal → Text
  | .notSupported => "NotSupported".toList
  | .unhandledInterrupt => "UnhandledInterrupt".toList
  | .callErrorAsFatal _ => "CallErrorAsFatal".toList
  | .other _ => "Other".toList

/-- The values of a variant in parentheses, as derived `Debug` prints them. -/
def fatalArgs : Fatal → Text
  | .callErrorAsFatal e => "(".toList ++ debugError quote e ++ ")".toList
  | .other t => "(".toList ++ quote t.str ++ ")".toList
  | _ => []

/-- `{:?}` of `ExitFatal` -/
def debugFatal (f : Fatal) : Text := fatalName f ++ fatalArgs quote f

/-- `hex_encode` as characters. -/
def hexText (b : Bytes) : Text := (Hex.hexEncode b).map Revert.latin

/-- `vm_err`, `error.rs:141-148` -/
def vmErr (r : Resp) : Outcome Text :=
  match r.exit with
  | .revert => .ok ("0x".toList ++ hexText r.ret)
  | .error e => .ok (debugError quote e)
  | .fatal f => .ok (debugFatal quote f)
  | .succeed _ => .panic

/-- `ErrorObjectOwned` -/
structure Object where
  code : Int
  message : Text
  data : Option Text
deriving DecidableEq

/-- The data of an error object, `error.rs:103-137` -/
def dataOf : RpcError β φ → Outcome (Option Text)
  | .sigR m => .ok (some m)
  | .sigS m => .ok (some m)
  | .internal m => .ok (some m)
  | .evm r => (vmErr quote r).bind fun d => .ok (some d)
  | _ => .ok none

/-- `From<RpcError> for ErrorObjectOwned`, `error.rs:98-139` -/
def object (e : RpcError β φ) : Outcome Object :=
  (dataOf quote e).bind fun d => (message showBlock showFloat e).bind fun m => .ok ⟨code e, m, d⟩

/-- `ExitReason::is_succeed` -/
def isSucceed : Reason → Bool
  | .succeed _ => true
  | _ => false

/-- The end of `eth_call`, `web3.rs:445-450`; that of `eth_estimateGas`, `web3.rs:489-493`, is the same but for the value. -/
def answer (r : Resp) : Outcome (Bytes ⊕ Object) :=
  if isSucceed r.exit then .ok (.inl r.ret)
  else (object showBlock showFloat quote (.evm r : RpcError β φ)).bind fun o => .ok (.inr o)

/-! ## Lemmas -/

theorem decimal_digit {n : Nat} {c : Char} (h : c ∈ decimal n) : c.isDigit = true := Nat.isDigit_of_mem_toDigits (by decide) (by decide) h

end Axon.RpcErr
