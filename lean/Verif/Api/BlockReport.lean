import Verif.Api.Select
import Verif.Api.Transaction

/-!
# What the node reports about a block

`core/api/src/jsonrpc/web3_types.rs:235-294` (`Web3Block`), `:767-807` (`Web3Header`, sent for `newHeads`) and
`core/api/src/jsonrpc/impl/web3.rs:264-352` (`eth_getBlockByNumber`, `eth_getBlockByHash`).
-/

namespace Axon.Api

open Axon Axon.Block Axon.Rlp

/-- `RichTransactionOrHash`, web3_types.rs:19-44 -/
inductive TxOrHash where
  | hash (h : H256)
  | rich (w : Web3Tx)
deriving DecidableEq

/-- `EMPTY_UNCLE_HASH`, web3_types.rs:13-16 -/
def emptyUncleHash : H256 :=
  ⟨[0x1d, 0xcc, 0x4d, 0xe8, 0xde, 0xc7, 0x5d, 0x7a, 0xab, 0x85, 0xb5, 0x67, 0xb6, 0xcc, 0xd4, 0x1a,
    0xd3, 0x12, 0x45, 0x1b, 0x94, 0x8a, 0x74, 0x13, 0xf0, 0xa1, 0x42, 0xfd, 0x40, 0xd4, 0x93, 0x47], rfl⟩

/-- `Web3Block`, web3_types.rs:235-262.  `seal_fields` and `uncles` are always empty, `mix_hash` and `nonce` zero;
they are left out. -/
structure Web3Block where
  hash : H256
  parentHash : H256
  sha3Uncles : H256
  author : H160
  miner : H160
  stateRoot : H256
  transactionsRoot : H256
  receiptsRoot : H256
  number : Nat
  gasUsed : U64
  gasLimit : U64
  extraData : Bytes
  logsBloom : Option Bloom
  timestamp : Nat
  difficulty : Nat
  totalDifficulty : Option Nat
  baseFeePerGas : U64
  transactions : List TxOrHash
  size : Option Nat
deriving DecidableEq

/-- `rlp::encode_list(&header.extra_data)`, web3_types.rs:281, 800 -/
def extraBytes (l : List Bytes) : Bytes := encode (.list (l.map extraItem))

/-- `Header::hash`, `protocol/src/types/block.rs:300-302`, with the digest as parameter. -/
def headerHash (H : Bytes → H256) (h : Header) : H256 := H (encodeHeader h)

/-- `Web3Block::from`, web3_types.rs:263-294; the size is that of the header, `block.rs:296-298`. -/
def web3Block (H : Bytes → H256) (b : Block) : Web3Block :=
  { hash := headerHash H b.header
    number := b.header.number.val
    author := b.header.proposer
    parentHash := b.header.prevHash
    sha3Uncles := emptyUncleHash
    logsBloom := some b.header.logBloom
    transactionsRoot := b.header.transactionsRoot
    stateRoot := b.header.stateRoot
    receiptsRoot := b.header.receiptsRoot
    miner := b.header.proposer
    difficulty := 1
    totalDifficulty := some b.header.number.val
    baseFeePerGas := b.header.baseFeePerGas
    extraData := extraBytes b.header.extraData
    size := some (encodeHeader b.header).length
    gasLimit := b.header.gasLimit
    gasUsed := b.header.gasUsed
    timestamp := b.header.timestamp.val
    transactions := b.txHashes.map .hash }

/-- What both requests do with the block found, web3.rs:276-305, 320-350. -/
def reportBlock (H : Bytes → H256) (T : TxSource) (rich : Bool) : Option Block → Reply (Option Web3Block)
  | none => .ok none
  | some b =>
    let ret := web3Block H b
    if rich then
      (richTxs T b.header.number.val (headerHash H b.header) 0 b.txHashes).bind fun ws =>
        .ok (some { ret with transactions := ws.map .rich })
    else .ok (some ret)

/-- `eth_getBlockByNumber`, web3.rs:264-305 -/
def getBlockByNumber (H : Bytes → H256) (A : Adapter) (T : TxSource) (id : BlockId) (rich : Bool) :
    Reply (Option Web3Block) :=
  (blockByNumber A id).bind (reportBlock H T rich)

/-- `eth_getBlockByHash`, web3.rs:307-352 -/
def getBlockByHash (H : Bytes → H256) (A : Adapter) (T : TxSource) (h : H256) (rich : Bool) :
    Reply (Option Web3Block) :=
  (Reply.internal (A.blockByHash h)).bind (reportBlock H T rich)

/-- `Web3Header`, web3_types.rs:767-785; `nonce` is always zero and left out. -/
structure Web3Header where
  difficulty : Nat
  extraData : Bytes
  gasLimit : U64
  gasUsed : U64
  logsBloom : Option Bloom
  miner : H160
  number : Nat
  parentHash : H256
  receiptsRoot : H256
  sha3Uncles : H256
  stateRoot : H256
  timestamp : Nat
  transactionsRoot : H256
deriving DecidableEq

/-- `Web3Header::from`, web3_types.rs:787-807 -/
def web3Header (h : Header) : Web3Header :=
  { number := h.number.val
    parentHash := h.prevHash
    sha3Uncles := emptyUncleHash
    logsBloom := some h.logBloom
    transactionsRoot := h.transactionsRoot
    stateRoot := h.stateRoot
    receiptsRoot := h.receiptsRoot
    miner := h.proposer
    difficulty := 1
    extraData := extraBytes h.extraData
    gasLimit := h.gasLimit
    gasUsed := h.gasUsed
    timestamp := h.timestamp.val }

end Axon.Api
