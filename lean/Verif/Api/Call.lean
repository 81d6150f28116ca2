import Verif.Api.Transaction
import Verif.Api.SelectProps
import Verif.Executor.Exec

/-!
# `eth_call` and `eth_estimateGas`

`core/api/src/jsonrpc/impl/web3.rs:61-92, 417-493, 1097-1128`, the adapter's `evm_call`
(`core/api/src/adapter.rs:192-222`) and `Executor::call` (`core/executor/src/lib.rs:65-125`).  The
machine itself (crate `evm`) is a parameter: it is given everything `transact_call` and
`transact_create` are given or can read from the backend, and says whether the run succeeded, what
it returned and how much gas it took.
-/

namespace Axon.Api.Calls

open Axon Axon.Block Axon.Tx Axon.Exec
open Axon.Admission (SignedTx gasPrice gasLimit value action maxGasLimit maxGasPrice minGasLimit)

/-- `Web3CallRequest`, web3_types.rs:303-323. -/
structure CallReq where
  transactionType : Option U64 := none
  caller : Option H160 := none
  target : Option H160 := none
  gasPrice : Option U64 := none
  maxFeePerGas : Option U64 := none
  gas : Option U64 := none
  value : Option U256 := none
  data : Option Bytes := none
  nonce : Option U256 := none
  accessList : Option (List AccessItem) := none
  chainId : Option U64 := none
  maxPriorityFeePerGas : Option U256 := none
deriving DecidableEq

/-- Everything a run of the machine depends on: the arguments of `transact_call` / `transact_create`
and what the backend answers (`ExecutorContext`, `protocol/src/types/executor.rs:50-78`, and the
state under `root`).  The difficulty is always one (`read_only.rs:93-95`) and extra data cannot be
read by a contract; block hashes are those of the same chain and left out. -/
structure Job where
  root : H256
  origin : H160
  price : Nat
  number : Nat
  timestamp : Nat
  coinbase : H160
  chainId : Nat
  blockGasLimit : Nat
  baseFee : Nat
  caller : H160
  target : Option H160
  value : Nat
  data : Bytes
  limit : Nat
  accessList : List AccessItem
deriving DecidableEq

/-- The machine, and the roots the trie can be opened at (`AxonExecutorReadOnlyAdapter::from_root`). -/
structure Machine where
  opens : H256 → Bool
  run : Job → VmOut

/-- `H160::default()` -/
def noAddress : H160 := ⟨List.replicate 20 0, by simp⟩

/-- `is_system_contract_address_format`, `system_contract/mod.rs:321-323`. -/
def systemFormat (a : H160) : Bool := a.bytes.take 19 = List.replicate 19 0xff

/-- `mock_header_by_call_req`, web3.rs:1097-1128: the fields a contract can see.  The roots, the
bloom and the extra data it clears cannot be read by a contract and are left as they are. -/
def mockHeader (h : Header) (r : CallReq) : Header :=
  { h with gasLimit := r.gas.getD h.gasLimit
           baseFeePerGas := r.maxFeePerGas.getD h.baseFeePerGas
           chainId := r.chainId.getD h.chainId }

/-- The context and the arguments `evm_call` (adapter.rs:192-222) and `Executor::call`
(lib.rs:67-98) prepare; `MAX_BLOCK_GAS_LIMIT` and `MAX_GAS_LIMIT` are the same number. -/
def callJob (h : Header) (r : CallReq) : Job :=
  let m := mockHeader h r
  { root := m.stateRoot
    origin := r.caller.getD noAddress
    price := (r.gasPrice.map (·.val)).getD 1
    number := m.number.val
    timestamp := m.timestamp.val
    coinbase := m.proposer
    chainId := m.chainId.val
    blockGasLimit := m.gasLimit.val
    baseFee := m.baseFeePerGas.val
    caller := r.caller.getD noAddress
    target := r.target
    value := (r.value.map (·.val)).getD 0
    data := r.data.getD []
    limit := (r.gas.map (·.val)).getD maxGasLimit
    accessList := [] }

/-- The gas `Executor::call` reports, lib.rs:100-106. -/
def reported (o : VmOut) (estimate : Bool) : Nat :=
  if estimate then o.used / 4 + o.used else o.used

/-- What the methods use of the response. -/
structure Resp where
  succeed : Bool
  ret : Bytes
  gasUsed : Nat

/-- `call_evm`, web3.rs:61-92, with `evm_call` and `Executor::call`; every error of it is reported
as `RpcError::Internal`. -/
def callEvm (M : Machine) (A : StateAdapter) (r : CallReq) (n : Option Nat) (estimate : Bool) :
    Reply Resp :=
  if r.caller = none ∧ r.target = none then .err .internal
  else (callHeader A n).bind fun h =>
    if M.opens h.stateRoot then
      let o := M.run (callJob h r)
      .ok { succeed := o.succeed, ret := o.ret, gasUsed := reported o estimate }
    else .err .internal

/-- The checks both methods make first, web3.rs:419-431 and 461-473. -/
def refuses (r : CallReq) : Option RpcError :=
  if (r.gas.map (·.val)).getD 0 > maxGasLimit then some .gasLimitIsTooLarge
  else if (r.gasPrice.map (·.val)).getD 0 > maxGasPrice then some .gasPriceIsTooLarge
  else match r.target with
    | some a => if systemFormat a then some .callSystemContract else none
    | none => none

/-- `eth_call`, web3.rs:417-450. -/
def call (M : Machine) (A : StateAdapter) (r : CallReq) (id : Option BlockId) : Reply Bytes :=
  match refuses r with
  | some e => .err e
  | none =>
    (numberById A id).bind fun n =>
    (callEvm M A r n false).bind fun x =>
    if x.succeed then .ok x.ret else .err .evm

/-- The number `eth_estimateGas` runs at, web3.rs:475-478. -/
def estimateNumber : Option BlockId → Option Nat
  | some (.num n) => some n.val
  | _ => none

/-- `eth_estimateGas`, web3.rs:452-493. -/
def estimate (M : Machine) (A : StateAdapter) (r : CallReq) (id : Option BlockId) : Reply Nat :=
  if (r.gas.map (·.val)).getD minGasLimit < minGasLimit then .err .gasLimitIsTooLow
  else match refuses r with
    | some e => .err e
    | none =>
      (callEvm M A r (estimateNumber id) true).bind fun x =>
      if x.succeed then .ok x.gasUsed else .err .evm

/-- The run of a transaction in a block: `exec` sets price and origin (lib.rs:150-160), `evm_exec`
(lib.rs:296-350) hands over its fields; `root` stands for the state it finds, from which the prepaid
gas has already been taken. -/
def txJob (ctx : Header) (root : H256) (t : SignedTx) : Job :=
  { root := root
    origin := t.sender
    price := (gasPrice t.transaction.unsigned).val
    number := ctx.number.val
    timestamp := ctx.timestamp.val
    coinbase := ctx.proposer
    chainId := ctx.chainId.val
    blockGasLimit := ctx.gasLimit.val
    baseFee := ctx.baseFeePerGas.val
    caller := t.sender
    target := Axon.Exec.target (action t.transaction.unsigned)
    value := (value t.transaction.unsigned).val
    data := Axon.Exec.data t.transaction.unsigned
    limit := (gasLimit t.transaction.unsigned).val
    accessList := accessListOf t.transaction.unsigned }

end Axon.Api.Calls
