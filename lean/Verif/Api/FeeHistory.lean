import Verif.Api.Logs

/-!
# `eth_feeHistory`

`core/api/src/jsonrpc/impl/web3.rs:94-191, 760-885, 1057-1095`.  Floating point numbers are modelled
by exact rational numbers: the rounding of `f64` is not modelled, and JSON has no infinities.
-/

namespace Axon.Api

open Axon Axon.Block

/-- `MAX_FEE_HISTORY`, `protocol/src/constants/configs.rs:17` -/
def maxFeeHistory : Nat := 1024

/-- `next_block_base_fee_per_gas`, web3.rs:1093-1095; `BASE_FEE_PER_GAS`, configs.rs:18 -/
def nextBaseFee : U64 := ⟨0x539, by decide⟩

/-- `check_reward_percentiles`, web3.rs:1059-1071: `true` if no pair of neighbours is objected to. -/
def checkPercentiles (ps : Option (List Rat)) : Bool :=
  ((ps.getD []).zip (ps.getD []).tail).all fun w =>
    !(decide (w.2 ≤ w.1) || decide (w.1 < 0) || decide (100 < w.1))

/-- `calculate_gas_used_ratio`, web3.rs:1074-1080 -/
def gasRatio (b : Block) : Rat :=
  if b.header.gasLimit.val = 0 then 0
  else (b.header.gasUsed.val : Rat) / (b.header.gasLimit.val : Rat) * 100

/-- `calculate_effective_priority_fees_index`, web3.rs:1084-1090: `as usize` turns negative numbers
into zero. -/
def rewardIndex (p : Rat) (len : Nat) : Nat := (p * (len : Rat) / 100).floor.toNat - 1

/-- One entry of `effective_priority_fees`, web3.rs:108-116 -/
def rewardOf (base : U64) : Option Rcpt → Nat
  | some r => r.usedGas.val - base.val
  | none => 0

/-- `calculate_rewards`, web3.rs:94-133: the vector pushed. -/
def rewards (A : Adapter) (b : Block) (ps : List Rat) : Reply (List Nat) :=
  (Reply.internal (A.receipts b.header.number.val b.txHashes)).bind fun rs =>
  let fees := rs.map (rewardOf b.header.baseFeePerGas)
  .ok (ps.map fun p => (fees[rewardIndex p fees.length]?).getD 0)

/-- What is collected for the blocks. -/
structure Collected where
  baseFees : List U64
  ratios : List Rat
  rewards : List (List Nat)
deriving DecidableEq

/-- The loop of web3.rs:159-183; blocks that cannot be read are skipped. -/
def collectFees (A : Adapter) (ps : Option (List Rat)) : List Nat → Reply Collected
  | [] => .ok ⟨[], [], []⟩
  | i :: rest =>
    match A.block i with
    | some (some b) =>
      (match ps with
        | some l => (rewards A b l).bind fun r => .ok [r]
        | none => .ok []).bind fun r =>
      (collectFees A ps rest).bind fun c =>
      .ok ⟨b.header.baseFeePerGas :: nextBaseFee :: c.baseFees, gasRatio b :: c.ratios,
        r ++ c.rewards⟩
    | _ => collectFees A ps rest

/-- `oldest_block_number`, web3.rs:149-151 -/
def oldestOf (latest count : Nat) : Nat := min (latest - count + 1) (2 ^ 64 - 1)

/-- `inner_fee_history`, web3.rs:135-191; `block_count` is at most 1024 here. -/
def innerFeeHistory (A : Adapter) (height : Option Nat) (count : Nat) (ps : Option (List Rat)) :
    Reply (Nat × Collected) :=
  (Reply.internal (A.blockAt height)).bind fun ob =>
  match ob with
  | none => .err .cannotGetLatestBlock
  | some latest =>
    let n := latest.header.number.val
    (collectFees A ps (rangeIncl (oldestOf n count) n)).bind fun c =>
    .ok (oldestOf n count, c)

/-- `Web3FeeHistory`, web3_types.rs:715-765 -/
inductive FeeAnswer where
  | withReward (oldest : Nat) (baseFees : List U64) (ratios : List Rat) (reward : List (List Nat))
  | withoutReward (oldest : Nat) (baseFees : List U64) (ratios : List Rat)
  | zeroBlocks (oldest : Nat)
deriving DecidableEq

/-- The two branches of web3.rs:790-811, 818-839, 852-881. -/
def answerOf (ps : Option (List Rat)) (oldest : Nat) (c : Collected) : FeeAnswer :=
  match ps with
  | none => .withoutReward oldest c.baseFees c.ratios
  | some [] => .withoutReward oldest c.baseFees c.ratios
  | some _ => .withReward oldest c.baseFees c.ratios c.rewards

/-- The rewards of web3.rs:866-875: none are computed without percentiles. -/
def earliestRewards (A : Adapter) (first : Block) (ps : Option (List Rat)) :
    Reply (List (List Nat)) :=
  match ps with
  | none => .ok []
  | some [] => .ok []
  | some l => (rewards A first l).bind fun r => .ok [r]

/-- The case `earliest`, web3.rs:841-882: the storage has no block 0 is a panic. -/
def earliestHistory (A : Adapter) (ps : Option (List Rat)) : Reply FeeAnswer :=
  (Reply.internal (A.block 0)).bind fun ob =>
  (Reply.unwrap ob).bind fun first =>
  (earliestRewards A first ps).bind fun r =>
  .ok (answerOf ps first.header.number.val
    ⟨[first.header.baseFeePerGas, nextBaseFee], [gasRatio first], r⟩)

/-- `eth_feeHistory`, web3.rs:761-885 -/
def feeHistory (A : Adapter) (count : U256) (newest : BlockId) (ps : Option (List Rat)) :
    Reply FeeAnswer :=
  if checkPercentiles ps = false then .err .invalidRewardPercentiles
  else
    let k := min count.val maxFeeHistory
    if k = 0 then .ok (.zeroBlocks 0)
    else match newest with
      | .num n =>
        (innerFeeHistory A (some n.val) k ps).bind fun (o, c) => .ok (answerOf ps o c)
      | .latest => (innerFeeHistory A none k ps).bind fun (o, c) => .ok (answerOf ps o c)
      | .pending => (innerFeeHistory A none k ps).bind fun (o, c) => .ok (answerOf ps o c)
      | .earliest => earliestHistory A ps
      | .hash _ => .err .invalidNewestBlock

end Axon.Api
