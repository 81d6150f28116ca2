import Verif.Executor.StateLemmas
import Verif.Mempool.Admission

/-!
# Executing transactions and blocks

Model of `core/executor/src/lib.rs` (`exec`, `evm_exec`), `core/executor/src/utils.rs`
(`DefaultFeeAllocator`), `core/executor/src/system_contract/{mod,utils,native_token}.rs`.

The virtual machine is a parameter (`Vm.run`): any function from the state and the transaction to an
outcome, i.e. whether it succeeded, the gas it used in total, the refund it earned, and the changes and
logs it wants to apply.  `executor.gas()` and `executor.used_gas()` of `evm` 0.37 (a dependency) are derived
from these: the first is the limit minus the total, the second subtracts the refund, capped at a fifth of the
total (`max_refund_quotient = 5` for London).

The metadata, CKB light client and image cell contracts are parameters too (`Vm.sys`): they either refuse a
call or produce a new root; what the executor does around them is modelled.
-/

namespace Axon.Exec
open Axon.Assoc Axon.Tx
open Axon.Admission (SignedTx gasPrice gasLimit value action systemAddress)

variable {H : Type} [DecidableEq H]

/-- `UnsignedTransaction::data`, `types/transaction.rs:54-60` -/
def data : Unsigned → Bytes
  | .legacy tx => tx.data
  | .eip2930 tx => tx.data
  | .eip1559 tx => tx.data

/-- `TxResp`, `protocol/src/types/executor.rs:26-35`; of `exit_reason` only whether it is a success, and
without the constant field `removed`. -/
structure TxResp (H : Type) where
  succeed : Bool
  ret : Bytes
  gasUsed : Nat
  remainGas : Nat
  feeCost : U256
  logs : List Log
  codeAddress : Option H
deriving DecidableEq

/-- What running the virtual machine yields. -/
structure VmOut where
  succeed : Bool
  ret : Bytes
  total : Nat
  refund : Nat
  changes : List Change
  logs : List Log

/-- External parts of the executor. -/
structure Vm (H : Type) where
  /-- `StackExecutor::transact_call` / `transact_create` and `deconstruct` -/
  run : World H → SignedTx → VmOut
  /-- the call of a metadata, light client or image cell contract: `none` = refused, otherwise the root it
  leaves in the thread-local variable -/
  sys : World H → SignedTx → Option U256
  /-- the metadata contract's `after_block_hook` up to the state change, `metadata/mod.rs:109-133`: the new
  metadata root, or a panic -/
  afterMeta : World H → Outcome U256
  /-- `encode_receipt` with the logs bloom, `types/transaction.rs:494-516` -/
  receipt : SignedTx → TxResp H → Bytes
  /-- `TrieMerkle::from_receipts(..).root_hash()` -/
  receiptRoot : List Bytes → H
  /-- root of the state trie -/
  stateRoot : List (H160 × Account H) → H
  /-- `code_address`, `utils.rs:44-49` -/
  codeAddr : H160 → U256 → H
  /-- `HEADER_CELL_ROOT_KEY`, `METADATA_ROOT_KEY`, `system_contract/mod.rs:67-68` -/
  headerKey : H256
  metadataKey : H256

/-! ## Ordinary transactions -/

/-- `executor.gas()`: what is left of the limit. -/
def VmOut.remained (o : VmOut) (limit : Nat) : Nat := limit - o.total

/-- `executor.used_gas()`: the total without the refund. -/
def VmOut.used (o : VmOut) : Nat := o.total - min (o.total / 5) o.refund

/-- Checked `U256` arithmetic (`+`, `*` panic on overflow). -/
def chk (n : Nat) : Outcome U256 := .orPanic (UIntN.ofNat? 256 n)

/-- `checked_add(..).unwrap_or_else(U256::max_value)` -/
def satAdd (a b : Nat) : U256 := (UIntN.ofNat? 256 (a + b)).getD U256.max

/-- `saturating_sub` -/
def satSub (a b : U256) : U256 := ⟨a.val - b.val, Nat.lt_of_le_of_lt (Nat.sub_le ..) a.lt⟩

/-- The state the virtual machine starts from: the prepaid gas is taken from the sender,
`lib.rs:302-317`. -/
def prepaid (env : Env H) (w : World H) (sender : H160) (prepay : U256) : World H :=
  saveAccount w sender { getAccount env w sender with
    balance := satSub (getAccount env w sender).balance prepay }

/-- The balance after the remaining gas is given back, `lib.rs:371-378` -/
def giveBack (bal price : U256) (remained : Nat) : Outcome U256 :=
  if remained ≠ 0 then (chk (remained * price.val)).bind fun r => .ok (satAdd bal.val r.val)
  else .ok bal

/-- After the virtual machine: apply its changes if it succeeded, `lib.rs:363-366` -/
def settle (env : Env H) (w : World H) (o : VmOut) : Outcome (World H) :=
  if o.succeed then apply env w o.changes o.logs true else .ok w

/-- `evm_exec`, `lib.rs:296-393` -/
def evmExec (env : Env H) (vm : Vm H) (w : World H) (tx : SignedTx) : Outcome (World H × TxResp H) :=
  let limit := (gasLimit tx.transaction.unsigned).val
  (chk (w.gasPrice.val * limit)).bind fun prepay =>
  let oldNonce := (getAccount env w tx.sender).nonce
  let w1 := prepaid env w tx.sender prepay
  let o := vm.run w1 tx
  (settle env w1 o).bind fun w2 =>
  (chk (oldNonce.val + 1)).bind fun nonce =>
  (giveBack (getAccount env w2 tx.sender).balance w.gasPrice (o.remained limit)).bind fun bal =>
  (chk (w.gasPrice.val * o.used)).bind fun fee =>
  .ok (saveAccount w2 tx.sender { getAccount env w2 tx.sender with nonce := nonce, balance := bal },
    { succeed := o.succeed
      ret := o.ret
      gasUsed := o.used
      remainGas := o.remained limit
      feeCost := fee
      logs := []
      codeAddress :=
        if action tx.transaction.unsigned = .create ∧ o.succeed = true then
          some (vm.codeAddr tx.sender oldNonce)
        else none })

/-! ## System contracts -/

/-- `revert_resp`, `system_contract/utils.rs:13-24`; `gas_limit - 1` panics for a zero limit. -/
def revertResp (limit : Nat) : Outcome (TxResp H) :=
  if limit = 0 then .panic
  else .ok { succeed := false, ret := [], gasUsed := limit - 1, remainGas := 1,
             feeCost := ⟨1, by decide⟩, logs := [], codeAddress := none }

/-- `succeed_resp`, `system_contract/utils.rs:26-37` -/
def succeedResp (limit : Nat) : TxResp H :=
  { succeed := true, ret := [], gasUsed := 0, remainGas := limit, feeCost := U256.zero, logs := [],
    codeAddress := none }

/-- `H160::from_slice(&tx_data[1..21])`, `native_token.rs:28` -/
def tokenTarget (d : Bytes) : H160 := ⟨beFixed 20 (beNat ((d.drop 1).take 20)), by simp⟩

/-- `NativeTokenContract::exec_`, `native_token.rs:17-57` -/
def nativeToken (env : Env H) (w : World H) (tx : SignedTx) : Outcome (World H × TxResp H) :=
  let d := data tx.transaction.unsigned
  let v := value tx.transaction.unsigned
  let limit := (gasLimit tx.transaction.unsigned).val
  let refuse : Outcome (World H × TxResp H) := (revertResp limit).bind fun r => .ok (w, r)
  if d.length < 21 ∨ (d.headD 0).toNat > 1 then refuse
  else
    let a := tokenTarget d
    let b := basic w a
    let finish (bal : U256) : Outcome (World H × TxResp H) :=
      (chk (b.nonce.val + 1)).bind fun nonce =>
      (apply env w [.modify a { balance := bal, nonce := nonce } none [] false] [] false).bind fun w' =>
      .ok (w', succeedResp limit)
    if d.headD 0 = 0 then (chk (b.balance.val + v.val)).bind finish
    else if b.balance.val < v.val then refuse
    else finish (satSub b.balance v)

/-- `system_contract_address(n)` as a 20-byte address. -/
def sysAddr (b : UInt8) : H160 := ⟨systemAddress b, by simp [systemAddress]⟩

/-- A root written into a contract's storage, `system_contract/utils.rs:75-95` -/
def rootChange (w : World H) (a : H160) (key : H256) (root : U256) : Change :=
  .modify a (basic w a) none [(key, root)] false

/-- `generate_mpt_root_changes`, `system_contract/utils.rs:64-101` -/
def rootChanges (vm : Vm H) (w : World H) (a : H160) : List Change :=
  if a = sysAddr 2 ∨ a = sysAddr 3 then
    [rootChange w (sysAddr 2) vm.headerKey w.headerRoot, rootChange w (sysAddr 3) vm.headerKey w.headerRoot]
  else [rootChange w (sysAddr 1) vm.metadataKey w.metadataRoot]

/-- The thread-local root a contract works on. -/
def setRoot (w : World H) (a : H160) (root : U256) : World H :=
  if a = sysAddr 1 then { w with metadataRoot := root } else { w with headerRoot := root }

/-- `update_states`, `system_contract/utils.rs:39-62`: the root and the sender's nonce. -/
def updateStates (env : Env H) (vm : Vm H) (w : World H) (sender a : H160) : Outcome (World H) :=
  (chk ((basic w sender).nonce.val + 1)).bind fun nonce =>
    apply env w (rootChanges vm w a ++
      [.modify sender { basic w sender with nonce := nonce } none [] false]) [] false

/-- `exec_` of the metadata, light client and image cell contracts: `metadata/mod.rs:48-107`,
`ckb_light_client/mod.rs:31-75`, `image_cell/mod.rs:30-68`. -/
def sysExec (env : Env H) (vm : Vm H) (w : World H) (a : H160) (tx : SignedTx) :
    Outcome (World H × TxResp H) :=
  let limit := (gasLimit tx.transaction.unsigned).val
  match vm.sys w tx with
  | none => (revertResp limit).bind fun r => .ok (w, r)
  | some root => (updateStates env vm (setRoot w a root) tx.sender a).bind fun w' =>
      .ok (w', succeedResp limit)

/-- `get_to`, `types/transaction.rs:467-469` -/
def target : Action → Option H160
  | .call a => some a
  | .create => none

/-- Who executes a transaction. -/
inductive Route where
  | native
  | contract (a : H160)
  | evm
deriving DecidableEq

/-- `system_contract_dispatch`, `system_contract/mod.rs:217-237` -/
def dispatch (act : Action) : Route :=
  match target act with
  | some a =>
    if a = sysAddr 0 then .native
    else if a = sysAddr 1 then .contract (sysAddr 1)
    else if a = sysAddr 2 then .contract (sysAddr 2)
    else if a = sysAddr 3 then .contract (sysAddr 3)
    else .evm
  | none => .evm

/-- The body of the loop in `exec`, `lib.rs:148-157`: set price and origin, execute, take the logs. -/
def execTx (env : Env H) (vm : Vm H) (w : World H) (tx : SignedTx) : Outcome (World H × TxResp H) :=
  let w0 : World H := { w with
    gasPrice := ⟨(gasPrice tx.transaction.unsigned).val,
      Nat.lt_trans (gasPrice tx.transaction.unsigned).lt (by decide)⟩
    origin := tx.sender }
  (match dispatch (action tx.transaction.unsigned) with
    | .native => nativeToken env w0 tx
    | .contract a => sysExec env vm w0 a tx
    | .evm => evmExec env vm w0 tx).bind fun (w', r) =>
  .ok ((takeLogs w').2, { r with logs := (takeLogs w').1 })

/-! ## Blocks -/

/-- State of the loop, `lib.rs:136-140` -/
structure Loop (H : Type) where
  world : World H
  gas : Nat
  fee : U256
  resps : List (TxResp H)
  receipts : List Bytes

/-- One iteration, `lib.rs:148-166`; `gas += r.gas_used` panics when it exceeds `u64`. -/
def loopStep (env : Env H) (vm : Vm H) (s : Loop H) (tx : SignedTx) : Outcome (Loop H) :=
  (execTx env vm s.world tx).bind fun (w, r) =>
  if s.gas + r.gasUsed < 2 ^ 64 then
    .ok { world := w, gas := s.gas + r.gasUsed, fee := satAdd s.fee.val r.feeCost.val,
          resps := s.resps ++ [r], receipts := s.receipts ++ [vm.receipt tx r] }
  else .panic

def loop (env : Env H) (vm : Vm H) : List SignedTx → Loop H → Outcome (Loop H)
  | [], s => .ok s
  | tx :: txs, s => (loopStep env vm s tx).bind (loop env vm txs)

/-- `ValidatorExtend`, as far as used here: address and vote weight. -/
structure Validator where
  address : H160
  weight : U32
deriving DecidableEq

/-- `DefaultFeeAllocator::allocate`, `utils.rs:21-41`.  The sum of the weights is a `u32` and panics on
overflow; division by a zero sum panics. -/
def allocate (blockNumber fee : U256) (vs : List Validator) : Outcome (List (H160 × U256)) :=
  if fee = U256.zero ∨ blockNumber = U256.zero then .ok []
  else
    let sum := (vs.map (·.weight.val)).sum
    if 2 ^ 32 ≤ sum then .panic
    else vs.foldr (fun v rest =>
      if sum = 0 then .panic
      else (chk (fee.val / sum * v.weight.val)).bind fun amount =>
        rest.bind fun l => .ok ((v.address, amount) :: l)) (.ok [])

/-- Paying one share, `lib.rs:175-181`; the addition panics on overflow. -/
def credit (env : Env H) (w : World H) (i : H160 × U256) : Outcome (World H) :=
  if i.2 = U256.zero then .ok w
  else (chk ((getAccount env w i.1).balance.val + i.2.val)).bind fun bal =>
    .ok (saveAccount w i.1 { getAccount env w i.1 with balance := bal })

def creditAll (env : Env H) : List (H160 × U256) → World H → Outcome (World H)
  | [], w => .ok w
  | i :: l, w => (credit env w i).bind (creditAll env l)

/-- Distribution of the collected fee, `lib.rs:168-182` -/
def distribute (env : Env H) (w : World H) (fee : U256) (vs : List Validator) : Outcome (World H) :=
  if w.blockNumber = U256.zero then .ok w
  else (allocate w.blockNumber fee vs).bind fun l => creditAll env l w

/-- `after_block_hook`, `lib.rs:185`, `metadata/mod.rs:109-137`; the other contracts have none. -/
def afterBlock (env : Env H) (vm : Vm H) (w : World H) : Outcome (World H) :=
  if w.blockNumber = U256.zero then .ok w
  else (vm.afterMeta w).bind fun root =>
    let w' := { w with metadataRoot := root }
    apply env w' (rootChanges vm w' (sysAddr 1)) [] false

/-- `init_local_system_contract_roots`, `lib.rs:398-407` -/
def initRoots (env : Env H) (vm : Vm H) (w : World H) : World H :=
  { w with headerRoot := slot env w (sysAddr 2) vm.headerKey
           metadataRoot := slot env w (sysAddr 1) vm.metadataKey }

/-- `ExecResp`, `protocol/src/types/executor.rs:18-24` -/
structure ExecResp (H : Type) where
  stateRoot : H
  receiptRoot : H
  gasUsed : Nat
  resps : List (TxResp H)

/-- `exec`, `lib.rs:130-208`; no contract has a `before_block_hook`. -/
def exec (env : Env H) (vm : Vm H) (w : World H) (txs : List SignedTx) (vs : List Validator) :
    Outcome (World H × ExecResp H) :=
  (loop env vm txs { world := initRoots env vm w, gas := 0, fee := U256.zero, resps := [],
                     receipts := [] }).bind fun s =>
  (distribute env s.world s.fee vs).bind fun w1 =>
  (afterBlock env vm w1).bind fun w2 =>
  .ok (w2, { stateRoot := vm.stateRoot w2.accounts
             receiptRoot := if s.receipts = [] then env.rlpNull else vm.receiptRoot s.receipts
             gasUsed := s.gas
             resps := s.resps })

end Axon.Exec
