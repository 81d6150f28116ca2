import Verif.Codec.Fields

/-!
# Codecs of blocks, proposals, receipts and execution responses

Model of `protocol/src/codec/{block,receipt,executor}.rs` and of the derived codecs of the types in
`protocol/src/types/block.rs`.  The derived codec (`rlp_derive`) writes a list with one item per
field in declaration order (`Vec<T>` fields as lists, `Bytes` fields as strings) and reads field `i`
with `val_at(i)`/`list_at(i)`; it does not check the number of items.  The `rlp` crate reads lazily,
so it would also accept malformed items after the last field that is read; the model, which parses
the entire item first, rejects those.
-/

namespace Axon.Block
open Axon.Rlp

/-- `Rlp::val_at` / `Rlp::list_at`: read item `i` of a list with `f`. -/
def valAt {α : Type} (l : List Item) (i : Nat) (f : Item → Option α) : Option α := l[i]?.bind f

/-- `ethereum_types::Bloom`: 256 bytes. -/
abbrev Bloom := FixedBytes 256

/-- `Proof`, `types/block.rs:349-366` -/
structure Proof where
  number : U64
  round : U64
  blockHash : H256
  signature : Bytes
  bitmap : Bytes
deriving DecidableEq

/-- Derived encoding of `Proof`. -/
def proofItem (p : Proof) : Item :=
  .list [ofUint p.number, ofUint p.round, ofFixed p.blockHash, .str p.signature, .str p.bitmap]

/-- Derived decoding of `Proof`. -/
def itemProof : Item → Option Proof
  | .list l => do
    let number ← valAt l 0 (toUint 64)
    let round ← valAt l 1 (toUint 64)
    let blockHash ← valAt l 2 (toFixed 32)
    let signature ← valAt l 3 toBytes
    let bitmap ← valAt l 4 toBytes
    pure { number, round, blockHash, signature, bitmap }
  | .str _ => none

/-- `BlockVersion::V0`, the only version; `codec/block.rs:9-14` writes `[0]`. -/
def versionItem : Item := .list [ofUint (⟨0, by decide⟩ : U8)]

/-- `codec/block.rs:16-22` and `types/block.rs:30-39`: only version 0 is accepted. -/
def itemVersion : Item → Option Unit
  | .list l => do
    let v ← valAt l 0 (toUint 8)
    if v.val = 0 then some () else none
  | .str _ => none

/-- Derived codec of `ExtraData { inner }`, `types/block.rs:318-324`: a list with one string. -/
def extraItem (b : Bytes) : Item := .list [.str b]

def itemExtra : Item → Option Bytes
  | .list l => valAt l 0 toBytes
  | .str _ => none

/-- `Header`, `types/block.rs:268-293`.  The version is omitted, it has one value only. -/
structure Header where
  prevHash : H256
  proposer : H160
  stateRoot : H256
  transactionsRoot : H256
  signedTxsHash : H256
  receiptsRoot : H256
  logBloom : Bloom
  timestamp : U64
  number : U64
  gasUsed : U64
  gasLimit : U64
  extraData : List Bytes
  baseFeePerGas : U64
  proof : Proof
  callSystemScriptCount : U32
  chainId : U64
deriving DecidableEq

/-- Derived encoding of `Header`: 17 fields in declaration order. -/
def headerItem (h : Header) : Item :=
  .list [versionItem, ofFixed h.prevHash, ofFixed h.proposer, ofFixed h.stateRoot,
    ofFixed h.transactionsRoot, ofFixed h.signedTxsHash, ofFixed h.receiptsRoot,
    ofFixed h.logBloom, ofUint h.timestamp, ofUint h.number, ofUint h.gasUsed, ofUint h.gasLimit,
    .list (h.extraData.map extraItem), ofUint h.baseFeePerGas, proofItem h.proof,
    ofUint h.callSystemScriptCount, ofUint h.chainId]

/-- Derived decoding of `Header`. -/
def itemHeader : Item → Option Header
  | .list l => do
    let _ ← valAt l 0 itemVersion
    let prevHash ← valAt l 1 (toFixed 32)
    let proposer ← valAt l 2 (toFixed 20)
    let stateRoot ← valAt l 3 (toFixed 32)
    let transactionsRoot ← valAt l 4 (toFixed 32)
    let signedTxsHash ← valAt l 5 (toFixed 32)
    let receiptsRoot ← valAt l 6 (toFixed 32)
    let logBloom ← valAt l 7 (toFixed 256)
    let timestamp ← valAt l 8 (toUint 64)
    let number ← valAt l 9 (toUint 64)
    let gasUsed ← valAt l 10 (toUint 64)
    let gasLimit ← valAt l 11 (toUint 64)
    let extraData ← valAt l 12 (toList itemExtra)
    let baseFeePerGas ← valAt l 13 (toUint 64)
    let proof ← valAt l 14 itemProof
    let callSystemScriptCount ← valAt l 15 (toUint 32)
    let chainId ← valAt l 16 (toUint 64)
    some (Header.mk prevHash proposer stateRoot transactionsRoot signedTxsHash receiptsRoot logBloom
      timestamp number gasUsed gasLimit extraData baseFeePerGas proof callSystemScriptCount chainId)
  | .str _ => none

/-- `Block`, `types/block.rs:151-154` -/
structure Block where
  header : Header
  txHashes : List H256
deriving DecidableEq

/-- Derived encoding of `Block`. -/
def blockItem (b : Block) : Item := .list [headerItem b.header, .list (b.txHashes.map ofFixed)]

/-- Derived decoding of `Block`. -/
def itemBlock : Item → Option Block
  | .list l => do
    let header ← valAt l 0 itemHeader
    let txHashes ← valAt l 1 (toList (toFixed 32))
    pure { header, txHashes }
  | .str _ => none

/-- `ProtocolCodec::encode` of a block, `codec/mod.rs:24-27`. -/
def encodeBlock (b : Block) : Bytes := encode (blockItem b)

/-- `ProtocolCodec::decode` of a block, `codec/mod.rs:29-32`. -/
def decodeBlock (bs : Bytes) : Option Block := (decode bs).bind itemBlock

/-- `ProtocolCodec::encode` of a header; its digest is the block hash (`types/block.rs:300-302`). -/
def encodeHeader (h : Header) : Bytes := encode (headerItem h)

/-- `ProtocolCodec::decode` of a header. -/
def decodeHeader (bs : Bytes) : Option Header := (decode bs).bind itemHeader

/-- `ProtocolCodec::encode` of a proof. -/
def encodeProof (p : Proof) : Bytes := encode (proofItem p)

/-- `ProtocolCodec::decode` of a proof. -/
def decodeProof (bs : Bytes) : Option Proof := (decode bs).bind itemProof

/-! ## Proposals -/

/-- `Proposal`, `types/block.rs:65-85`; version omitted as in `Header`. -/
structure Proposal where
  prevHash : H256
  proposer : H160
  prevStateRoot : H256
  transactionsRoot : H256
  signedTxsHash : H256
  timestamp : U64
  number : U64
  gasLimit : U64
  extraData : List Bytes
  baseFeePerGas : U64
  proof : Proof
  chainId : U64
  callSystemScriptCount : U32
  txHashes : List H256
deriving DecidableEq

/-- `codec/block.rs:24-41`: neither base fee nor chain id are written. -/
def proposalItem (p : Proposal) : Item :=
  .list [versionItem, ofFixed p.prevHash, ofFixed p.proposer, ofFixed p.prevStateRoot,
    ofFixed p.transactionsRoot, ofFixed p.signedTxsHash, ofUint p.timestamp, ofUint p.number,
    ofUint p.gasLimit, .list (p.extraData.map extraItem), proofItem p.proof,
    ofUint p.callSystemScriptCount, .list (p.txHashes.map ofFixed)]

/-- `BASE_FEE_PER_GAS`, `protocol/src/constants/configs.rs:18`. -/
def baseFeeConst : U64 := ⟨0x539, by decide⟩

/-- `codec/block.rs:43-63`.  `chain` is the node's global `CHAIN_ID` at the time of decoding. -/
def itemProposal (chain : U64) : Item → Option Proposal
  | .list l => do
    let _ ← valAt l 0 itemVersion
    let prevHash ← valAt l 1 (toFixed 32)
    let proposer ← valAt l 2 (toFixed 20)
    let prevStateRoot ← valAt l 3 (toFixed 32)
    let transactionsRoot ← valAt l 4 (toFixed 32)
    let signedTxsHash ← valAt l 5 (toFixed 32)
    let timestamp ← valAt l 6 (toUint 64)
    let number ← valAt l 7 (toUint 64)
    let gasLimit ← valAt l 8 (toUint 64)
    let extraData ← valAt l 9 (toList itemExtra)
    let proof ← valAt l 10 itemProof
    let callSystemScriptCount ← valAt l 11 (toUint 32)
    let txHashes ← valAt l 12 (toList (toFixed 32))
    some (Proposal.mk prevHash proposer prevStateRoot transactionsRoot signedTxsHash timestamp number
      gasLimit extraData baseFeeConst proof chain callSystemScriptCount txHashes)
  | .str _ => none

/-- The bytes validators vote on (`Proposal::hash` digests them, `types/block.rs:88-90`). -/
def encodeProposal (p : Proposal) : Bytes := encode (proposalItem p)

/-- `Codec::decode` of a proposal, `codec/block.rs:70-74`. -/
def decodeProposal (chain : U64) (bs : Bytes) : Option Proposal :=
  (decode bs).bind (itemProposal chain)

/-! ## Receipts and execution responses -/

/-- `ethereum::Log`. -/
structure Log where
  address : H160
  topics : List H256
  data : Bytes
deriving DecidableEq

/-- Derived encoding of `Log` (`ethereum` crate). -/
def logItem (g : Log) : Item :=
  .list [ofFixed g.address, .list (g.topics.map ofFixed), .str g.data]

/-- Derived decoding of `Log`. -/
def itemLog : Item → Option Log
  | .list l => do
    let address ← valAt l 0 (toFixed 20)
    let topics ← valAt l 1 (toList (toFixed 32))
    let data ← valAt l 2 toBytes
    pure { address, topics, data }
  | .str _ => none

/-- `Option<Hash>` in the `rlp` crate: a list of zero or one items. -/
def optHashItem : Option H256 → Item
  | none => .list []
  | some h => .list [ofFixed h]

/-- Decoding of `Option<Hash>`: other list lengths are an error. -/
def itemOptHash : Item → Option (Option H256)
  | .list [] => some none
  | .list [x] => (toFixed 32 x).map some
  | _ => none

/-- `bool` in the `rlp` crate: the integer 0 or 1. -/
def boolItem (b : Bool) : Item := ofUint (if b then ⟨1, by decide⟩ else ⟨0, by decide⟩ : U8)

/-- Decoding of `bool`: other integers are an error. -/
def itemBool (i : Item) : Option Bool := do
  let v ← toUint 8 i
  if v.val = 0 then some false else if v.val = 1 then some true else none

/-- The `bincode` codec of `evm::ExitReason`, kept abstract: `ρ` is the type of exit reasons, and
the only thing assumed is that `bincode` reads back what it wrote. -/
structure ExitCodec (ρ : Type) where
  ser : ρ → Bytes
  de : Bytes → Option ρ
  de_ser : ∀ r, de (ser r) = some r

/-- `Receipt`, `types/receipt.rs:7-21` -/
structure Receipt (ρ : Type) where
  txHash : H256
  blockNumber : U64
  blockHash : H256
  txIndex : U32
  stateRoot : H256
  usedGas : U64
  logsBloom : Bloom
  logs : List Log
  logIndex : U32
  codeAddress : Option H256
  sender : H160
  ret : ρ
  removed : Bool
deriving DecidableEq

/-- `codec/receipt.rs:5-22` -/
def receiptItem {ρ : Type} (c : ExitCodec ρ) (r : Receipt ρ) : Item :=
  .list [ofFixed r.txHash, ofUint r.blockNumber, ofFixed r.blockHash, ofUint r.txIndex,
    ofFixed r.stateRoot, ofUint r.usedGas, ofFixed r.logsBloom, .list (r.logs.map logItem),
    ofUint r.logIndex, optHashItem r.codeAddress, ofFixed r.sender, .str (c.ser r.ret),
    boolItem r.removed]

/-- `codec/receipt.rs:24-49`: exactly 13 items. -/
def itemReceipt {ρ : Type} (c : ExitCodec ρ) : Item → Option (Receipt ρ)
  | .list l =>
    if l.length = 13 then do
      let txHash ← valAt l 0 (toFixed 32)
      let blockNumber ← valAt l 1 (toUint 64)
      let blockHash ← valAt l 2 (toFixed 32)
      let txIndex ← valAt l 3 (toUint 32)
      let stateRoot ← valAt l 4 (toFixed 32)
      let usedGas ← valAt l 5 (toUint 64)
      let logsBloom ← valAt l 6 (toFixed 256)
      let logs ← valAt l 7 (toList itemLog)
      let logIndex ← valAt l 8 (toUint 32)
      let codeAddress ← valAt l 9 itemOptHash
      let sender ← valAt l 10 (toFixed 20)
      let ret ← valAt l 11 (fun i => (toBytes i).bind c.de)
      let removed ← valAt l 12 itemBool
      some (Receipt.mk txHash blockNumber blockHash txIndex stateRoot usedGas logsBloom logs logIndex
        codeAddress sender ret removed)
    else none
  | .str _ => none

/-- `ProtocolCodec::encode` of a receipt. -/
def encodeReceipt {ρ : Type} (c : ExitCodec ρ) (r : Receipt ρ) : Bytes := encode (receiptItem c r)

/-- `ProtocolCodec::decode` of a receipt. -/
def decodeReceipt {ρ : Type} (c : ExitCodec ρ) (bs : Bytes) : Option (Receipt ρ) :=
  (decode bs).bind (itemReceipt c)

/-- `TxResp`, `types/executor.rs:25-34` -/
structure TxResp (ρ : Type) where
  exitReason : ρ
  ret : Bytes
  gasUsed : U64
  remainGas : U64
  feeCost : U256
  logs : List Log
  codeAddress : Option H256
  removed : Bool
deriving DecidableEq

/-- The seven items that go into the list opened by `begin_list(7)`. -/
def txRespInner {ρ : Type} (c : ExitCodec ρ) (r : TxResp ρ) : Item :=
  .list [.str (c.ser r.exitReason), .str r.ret, ofUint r.gasUsed, ofUint r.remainGas,
    ofUint r.feeCost, .list (r.logs.map logItem), optHashItem r.codeAddress]

/-- `codec/executor.rs:5-17`: `begin_list(7)` followed by eight appends.  `RlpStream` closes the
list after the seventh item, so the eighth is written behind the list. -/
def encodeTxResp {ρ : Type} (c : ExitCodec ρ) (r : TxResp ρ) : Bytes :=
  encode (txRespInner c r) ++ encode (boolItem r.removed)

/-- `codec/executor.rs:19-39`: exactly 7 items are required, then item 7 (the eighth) is read. -/
def itemTxResp {ρ : Type} (c : ExitCodec ρ) : Item → Option (TxResp ρ)
  | .list l =>
    if l.length = 7 then do
      let exitReason ← valAt l 0 (fun i => (toBytes i).bind c.de)
      let ret ← valAt l 1 toBytes
      let gasUsed ← valAt l 2 (toUint 64)
      let remainGas ← valAt l 3 (toUint 64)
      let feeCost ← valAt l 4 (toUint 256)
      let logs ← valAt l 5 (toList itemLog)
      let codeAddress ← valAt l 6 itemOptHash
      let removed ← valAt l 7 itemBool
      some (TxResp.mk exitReason ret gasUsed remainGas feeCost logs codeAddress removed)
    else none
  | .str _ => none

/-- `ProtocolCodec::decode` of an execution response. -/
def decodeTxResp {ρ : Type} (c : ExitCodec ρ) (bs : Bytes) : Option (TxResp ρ) :=
  (decode bs).bind (itemTxResp c)

/-! ## Item level round trips -/

@[simp] theorem valAt_zero {α : Type} (x : Item) (l : List Item) (f : Item → Option α) :
    valAt (x :: l) 0 f = f x := rfl

@[simp] theorem valAt_succ {α : Type} (x : Item) (l : List Item) (n : Nat) (f : Item → Option α) :
    valAt (x :: l) (n + 1) f = valAt l n f := by simp [valAt]

@[simp] theorem valAt_nil {α : Type} (n : Nat) (f : Item → Option α) : valAt [] n f = none := rfl

@[simp] theorem itemVersion_versionItem : itemVersion versionItem = some () := by
  simp [versionItem, itemVersion]

@[simp] theorem itemExtra_extraItem (b : Bytes) : itemExtra (extraItem b) = some b := by
  simp [extraItem, itemExtra]

@[simp] theorem itemProof_proofItem (p : Proof) : itemProof (proofItem p) = some p := by
  simp [proofItem, itemProof]

@[simp] theorem itemHeader_headerItem (h : Header) : itemHeader (headerItem h) = some h := by
  simp [headerItem, itemHeader, toList_map _ _ itemExtra_extraItem]

@[simp] theorem itemBlock_blockItem (b : Block) : itemBlock (blockItem b) = some b := by
  simp [blockItem, itemBlock, toList_map]

theorem itemProposal_proposalItem (chain : U64) (p : Proposal) :
    itemProposal chain (proposalItem p) =
      some { p with baseFeePerGas := baseFeeConst, chainId := chain } := by
  simp [proposalItem, itemProposal, toList_map _ _ itemExtra_extraItem, toList_map]

@[simp] theorem itemLog_logItem (g : Log) : itemLog (logItem g) = some g := by
  simp [logItem, itemLog, toList_map]

@[simp] theorem itemOptHash_optHashItem (o : Option H256) : itemOptHash (optHashItem o) = some o := by
  cases o <;> simp [optHashItem, itemOptHash]

@[simp] theorem itemBool_boolItem (b : Bool) : itemBool (boolItem b) = some b := by
  cases b <;> simp [boolItem, itemBool]

@[simp] theorem itemReceipt_receiptItem {ρ : Type} (c : ExitCodec ρ) (r : Receipt ρ) :
    itemReceipt c (receiptItem c r) = some r := by
  simp [receiptItem, itemReceipt, toList_map _ _ itemLog_logItem, c.de_ser]

end Axon.Block
