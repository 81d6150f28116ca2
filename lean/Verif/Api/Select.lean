import Verif.Api.Types

/-!
# Methods with a block selector

`core/api/src/jsonrpc/impl/web3.rs` and the adapter methods behind it.  The world state is abstract:
the adapter reads accounts, code and storage.
-/

namespace Axon.Api

open Axon Axon.Block

/-- The parts of an account the methods report (`Account`, `protocol/src/types/executor.rs`). -/
structure Acct where
  nonce : U256
  balance : U256
  codeHash : H256
deriving DecidableEq

/-- Reading methods of the adapter that concern the state, adapter.rs:46-61, 99-120, 164-190,
224-255.  The outer option is `none` when the adapter reports an error. -/
structure StateAdapter extends Adapter where
  /-- `get_account`, adapter.rs:164-179 -/
  account : H160 → Option Nat → Option Acct
  /-- `get_pending_tx_count`, adapter.rs:181-190 -/
  pendingCount : H160 → Option (Nat × Option Nat)
  /-- `get_block_header_by_number`, adapter.rs:99-112 -/
  headerAt : Option Nat → Option (Option Header)
  /-- `get_code_by_hash`, adapter.rs:224-226 -/
  code : H256 → Option (Option Bytes)
  /-- `get_storage_at` on a state root, adapter.rs:232-255 -/
  storageAt : H160 → U256 → H256 → Option Bytes

/-- `From<BlockId> for Option<u64>`, web3_types.rs:335-343 -/
def BlockId.toNumber : BlockId → Option Nat
  | .num n => some n.val
  | .earliest => some 0
  | _ => none

/-- `get_block_number_by_id`, web3.rs:45-58 -/
def numberById (A : StateAdapter) (id : Option BlockId) : Reply (Option Nat) :=
  match id with
  | some (.hash h) => Reply.internal (A.numberByHash h)
  | _ => .ok ((id.getD .latest).toNumber)

/-- `eth_getBalance`, web3.rs:406-415 -/
def getBalance (A : StateAdapter) (a : H160) (id : Option BlockId) : Reply U256 :=
  (numberById A id).bind fun n =>
  .ok (match A.account a n with
    | some acct => acct.balance
    | none => ⟨0, by decide⟩)

/-- The nonce reported for an account, web3.rs:382-393: an error counts as zero. -/
def nonceAt (A : StateAdapter) (a : H160) (n : Option Nat) : U256 :=
  match A.account a n with
  | some acct => acct.nonce
  | none => ⟨0, by decide⟩

/-- `eth_getTransactionCount`, web3.rs:354-394.  The sum of two 256-bit numbers panics when it
overflows. -/
def getTransactionCount (A : StateAdapter) (a : H160) (id : Option BlockId) : Reply U256 :=
  match id.getD .latest with
  | .pending =>
    (Reply.internal (A.pendingCount a)).bind fun (count, n) =>
    match A.account a n with
    | some acct => Reply.unwrap (UIntN.ofNat? 256 (acct.nonce.val + count))
    | none => .ok ⟨0, by decide⟩
  | .hash h =>
    (Reply.internal (A.numberByHash h)).bind fun n => .ok (nonceAt A a n)
  | b => .ok (nonceAt A a b.toNumber)

/-- `eth_getCode`, web3.rs:496-516; `Hex::empty()` is the empty string of bytes. -/
def getCode (A : StateAdapter) (a : H160) (id : Option BlockId) : Reply Bytes :=
  (numberById A id).bind fun n =>
  (Reply.internal (A.account a n)).bind fun acct =>
  (Reply.internal (A.code acct.codeHash)).bind fun c => .ok (c.getD [])

/-- The header used by `eth_getStorageAt` and `eth_getProof`, web3.rs:980-987, 1041-1048 -/
def headerOf (A : StateAdapter) (id : Option BlockId) : Reply Header :=
  (numberById A id).bind fun n =>
  (Reply.internal (A.headerAt n)).bind fun h =>
  match h with
  | some h => .ok h
  | none => .err .cannotFindBlock

/-- `eth_getStorageAt`, web3.rs:969-995; `system` is `is_system_contract_address_format`. -/
def getStorageAt (A : StateAdapter) (system : H160 → Bool) (a : H160) (pos : U256)
    (id : Option BlockId) : Reply Bytes :=
  if system a then .err .callSystemContract
  else (headerOf A id).bind fun h =>
    .ok ((A.storageAt a pos h.stateRoot).getD (List.replicate 32 0))

/-- The header a call is run on: `call_evm`, web3.rs:59-92; every failure becomes `Internal`. -/
def callHeader (A : StateAdapter) (n : Option Nat) : Reply Header :=
  match A.headerAt n with
  | some (some h) => .ok h
  | _ => .err .internal

/-- The block of `eth_call`, web3.rs:433 -/
def callOn (A : StateAdapter) (id : Option BlockId) : Reply Header :=
  (numberById A id).bind (callHeader A)

/-- The block of `eth_estimateGas`, web3.rs:475-478 -/
def estimateOn (A : StateAdapter) (id : Option BlockId) : Reply Header :=
  callHeader A (match id with
    | some (.num n) => some n.val
    | _ => none)

/-- The block of `eth_getBlockByNumber`, `eth_getBlockTransactionCountByNumber` and
`eth_getTransactionByBlockNumberAndIndex`, web3.rs:265-274, 518-530, 955-960. -/
def blockByNumber (A : Adapter) (id : BlockId) : Reply (Option Block) :=
  Reply.internal (A.blockAt id.toNumber)

/-- The transaction hash looked up by `eth_getTransactionByBlockHashAndIndex` and its sibling,
web3.rs:905-934, 937-967: `position.as_u64()` in the error panics, for it is above 64 bits. -/
def hashAtPosition (block : Reply (Option Block)) (position : U256) : Reply (Option H256) :=
  if 2 ^ 64 - 1 < position.val then
    if position.val < 2 ^ 64 then .err (.invalidPosition position.val) else .panic
  else block.bind fun b => .ok (b.bind fun b => b.txHashes[position.val]?)

/-- `eth_getBlockTransactionCountByNumber`, web3.rs:518-530 -/
def countByNumber (A : Adapter) (id : BlockId) : Reply Nat :=
  (blockByNumber A id).bind fun b => .ok ((b.map (·.txHashes.length)).getD 0)

/-- `eth_getBlockTransactionCountByHash`, web3.rs:894-903 -/
def countByHash (A : Adapter) (h : H256) : Reply Nat :=
  (Reply.internal (A.blockByHash h)).bind fun b => .ok ((b.map (·.txHashes.length)).getD 0)

end Axon.Api
