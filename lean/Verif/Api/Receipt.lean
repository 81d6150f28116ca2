import Verif.Api.Logs
import Verif.Executor.Bloom
import Verif.Mempool.Admission

/-!
# What the node reports about an executed transaction

`core/api/src/jsonrpc/web3_types.rs:141-239` (`Web3Transaction::update_with_receipt`,
`Web3Receipt::new`).
-/

namespace Axon.Api

open Axon Axon.Block Axon.Admission

/-- `UnsignedTransaction::type_`, `protocol/src/types/transaction.rs:26-32` -/
def typeOf : Axon.Tx.Unsigned → Nat
  | .legacy _ => 0
  | .eip2930 _ => 1
  | .eip1559 _ => 2

/-- `SignedTransaction::get_to`, `protocol/src/types/transaction.rs:198-203, 237-242, 276-281` -/
def toOf (u : Axon.Tx.Unsigned) : Option H160 :=
  match action u with
  | .call a => some a
  | .create => none

/-- `H160::from(H256)`: the last 20 bytes. -/
def low20 (h : H256) : H160 := ⟨h.bytes.drop 12, by simp [h.len]⟩

/-- `Web3ReceiptLog`, web3_types.rs:183-195 -/
structure Web3ReceiptLog where
  address : H160
  topics : List H256
  data : Bytes
  blockNumber : Nat
  blockHash : H256
  transactionHash : H256
  transactionIndex : Nat
  logIndex : Nat
  removed : Bool
deriving DecidableEq

/-- `Web3Receipt`, web3_types.rs:160-181 -/
structure Web3Receipt where
  blockNumber : Nat
  blockHash : H256
  contractAddress : Option H160
  cumulativeGasUsed : Nat
  effectiveGasPrice : Nat
  sender : H160
  gasUsed : Nat
  logs : List Web3ReceiptLog
  logsBloom : Bloom
  stateRoot : H256
  status : Nat
  to : Option H160
  transactionHash : H256
  transactionIndex : Nat
  transactionType : Nat
deriving DecidableEq

/-- `Web3Receipt::new`, web3_types.rs:196-238; the success flag of the receipt gives the status
(`protocol/src/types/receipt.rs:44-49`). -/
def web3Receipt (r : Rcpt) (stx : SignedTx) : Web3Receipt :=
  { blockNumber := r.blockNumber.val
    blockHash := r.blockHash
    contractAddress := r.codeAddress.map low20
    cumulativeGasUsed := r.usedGas.val
    effectiveGasPrice := r.usedGas.val
    sender := r.sender
    status := if r.ret then 1 else 0
    gasUsed := r.usedGas.val
    logs := r.logs.zipIdx.map fun (log, idx) =>
      { address := log.address, topics := log.topics, data := log.data,
        blockNumber := r.blockNumber.val, blockHash := r.blockHash, transactionHash := r.txHash,
        transactionIndex := r.txIndex.val, logIndex := idx, removed := false }
    logsBloom := r.logsBloom
    stateRoot := r.stateRoot
    to := toOf stx.transaction.unsigned
    transactionHash := r.txHash
    transactionIndex := r.txIndex.val
    transactionType := typeOf stx.transaction.unsigned }

end Axon.Api
