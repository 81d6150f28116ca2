import Verif.Api.Receipt
import Verif.Mempool.Identity

/-!
# What the node reports about a transaction

`core/api/src/jsonrpc/web3_types.rs:48-159` (`Web3Transaction`) and
`core/api/src/jsonrpc/impl/web3.rs:240-352` (`eth_getTransactionByHash`, transactions within
`eth_getBlockByNumber` and `eth_getBlockByHash`).
-/

namespace Axon.Api

open Axon Axon.Block Axon.Admission Axon.Tx

/-- `Either<U256, Hex>`, web3_types.rs:74-79: a number for Ethereum signatures, bytes for the others. -/
inductive Half where
  | number (n : U256)
  | hex (b : Bytes)
deriving DecidableEq

/-- `Web3Transaction`, web3_types.rs:48-80.  `standard_v` is always absent and left out; the fields of `Hex`
are modelled as bytes (see `Verif.Codec.Hex` for the text). -/
structure Web3Tx where
  type_ : Nat
  blockNumber : Option Nat
  blockHash : Option H256
  hash : H256
  nonce : U64
  transactionIndex : Option Nat
  sender : H160
  to : Option H160
  value : U256
  gas : U64
  gasPrice : U64
  maxFeePerGas : Option Nat
  maxPriorityFeePerGas : Option U64
  raw : Bytes
  input : Bytes
  publicKey : Option Bytes
  accessList : Option (List AccessItem)
  chainId : Option U64
  v : Nat
  r : Half
  s : Half
deriving DecidableEq

/-- `MAX_PRIORITY_FEE_PER_GAS`, `protocol/src/types/transaction.rs:16` -/
def maxPriorityFeeConst : Nat := 1337

/-- `UnsignedTransaction::access_list`, `protocol/src/types/transaction.rs:163-169` -/
def accessListOf : Unsigned → List AccessItem
  | .legacy _ => []
  | .eip2930 tx => tx.accessList
  | .eip1559 tx => tx.accessList

/-- `UnsignedTransaction::data`, `protocol/src/types/transaction.rs:54-60` -/
def dataOf : Unsigned → Bytes
  | .legacy tx => tx.data
  | .eip2930 tx => tx.data
  | .eip1559 tx => tx.data

/-- `max_priority_fee_per_gas` where it is reported, web3_types.rs:114-118 -/
def priorityOf : Unsigned → Option U64
  | .eip1559 tx => some tx.maxPriorityFee
  | _ => none

/-- `U256::from(&half[..])`: panics on more than 32 bytes. -/
def u256From (b : Bytes) : Outcome U256 := if b.length ≤ 32 then .ok (u256OfSlice b) else .panic

/-- web3_types.rs:87-98 -/
def halves (sg : Sig) : Outcome (Half × Half) :=
  if sg.isEth then
    (u256From sg.r).bind fun r => (u256From sg.s).bind fun s => .ok (.number r, .number s)
  else .ok (.hex sg.r, .hex sg.s)

/-- `SignatureComponents::default()` -/
def defaultSig : Sig := { r := [], s := [], standardV := ⟨0, by decide⟩ }

/-- `Web3Transaction::from`, web3_types.rs:82-133.  Overflow in `add_chain_replay_protection` panics, also where
`raw` is encoded. -/
def web3Tx (x : Known) : Outcome Web3Tx :=
  let t := x.stx.transaction
  let sg := t.signature.getD defaultSig
  match addReplay sg.standardV t.chainId with
  | none => .panic
  | some v =>
    (halves sg).bind fun (r, s) =>
      match encodeTx t with
      | none => .panic
      | some raw =>
        .ok
          { type_ := typeOf t.unsigned
            blockNumber := none
            blockHash := none
            hash := x.hash
            nonce := nonce t.unsigned
            transactionIndex := none
            sender := x.stx.sender
            to := toOf t.unsigned
            value := value t.unsigned
            gas := gasLimit t.unsigned
            gasPrice := gasPrice t.unsigned
            maxFeePerGas := match t.unsigned with | .eip1559 _ => some maxPriorityFeeConst | _ => none
            maxPriorityFeePerGas := priorityOf t.unsigned
            raw := raw
            input := dataOf t.unsigned
            publicKey := x.stx.pub
            accessList := some (accessListOf t.unsigned)
            chainId := t.chainId
            v := v.val
            r := r
            s := s }

/-- `add_block_number`, `add_block_hash`, `add_tx_index`, web3_types.rs:136-149 -/
def Web3Tx.place (w : Web3Tx) (number : Nat) (hash : H256) (index : Nat) : Web3Tx :=
  { w with blockNumber := some number, blockHash := some hash, transactionIndex := some index }

/-- Where transactions and receipts are read from; the outer option of the storage is `none` on an error. -/
structure TxSource where
  /-- `MemPool::get_tx_from_mem` -/
  pool : H256 → Option Known
  /-- `Storage::get_transaction_by_hash` -/
  stored : H256 → Option (Option Known)
  /-- `get_receipt_by_tx_hash`, adapter.rs:119-125 -/
  receipt : H256 → Option (Option Rcpt)

/-- `get_transaction_by_hash`, `core/api/src/adapter.rs:138-148`: the pool first. -/
def TxSource.tx (A : TxSource) (h : H256) : Option (Option Known) :=
  match A.pool h with
  | some t => some (some t)
  | none => A.stored h

/-- A panic within an answer. -/
def Reply.ofOutcome {α : Type} : Outcome α → Reply α
  | .ok a => .ok a
  | .err => .err .internal
  | .panic => .panic

/-- `eth_getTransactionByHash`, web3.rs:240-265; `update_with_receipt`, web3_types.rs:151-155. -/
def getTransactionByHash (A : TxSource) (h : H256) : Reply (Option Web3Tx) :=
  (Reply.internal (A.tx h)).bind fun
    | none => .ok none
    | some x =>
      (Reply.ofOutcome (web3Tx x)).bind fun w =>
        (Reply.internal (A.receipt h)).bind fun
          | none => .ok (some w)
          | some rc => .ok (some (w.place rc.blockNumber.val rc.blockHash rc.txIndex.val))

/-- The loop over the transactions of a block, web3.rs:284-299, 326-341; `i` is the position of the first hash. -/
def richTxs (A : TxSource) (number : Nat) (hash : H256) : Nat → List H256 → Reply (List Web3Tx)
  | _, [] => .ok []
  | i, h :: hs =>
    (Reply.internal (A.tx h)).bind fun o =>
      (Reply.unwrap o).bind fun x =>
        (Reply.ofOutcome (web3Tx x)).bind fun w =>
          (richTxs A number hash (i + 1) hs).bind fun ws => .ok (w.place number hash i :: ws)

end Axon.Api
