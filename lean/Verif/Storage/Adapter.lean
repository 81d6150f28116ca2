import Verif.Codec.BlockProps
import Verif.Codec.TxProps
import Verif.Storage.BatchProps
import Verif.Util.Assoc

/-!
# The database adapters

Model of `core/db/src/rocks.rs` and `core/db/src/memory.rs` over bytes, with the schemas of
`core/storage/src/schema.rs` and the codecs of their keys and values.  A column of RocksDB is a finite map
from byte strings to byte strings (the library itself is not modelled: reads and writes succeed, a write
batch is applied as a whole).  Not modelled: opening with an options file, metrics, I/O errors.
-/

namespace Axon.Adapter
open Axon.Assoc Axon.Rlp Axon.Storage

/-- `StorageCategory`, protocol/src/traits/storage.rs:6-19 -/
inductive Cat where
  | block | blockHeader | receipt | signedTransaction | wal | hashHeight | code | evmState
  | metadataState | ckbLightClientState | version
deriving DecidableEq

/-- `map_category`, rocks.rs:298-324 -/
def columnName : Cat → String
  | .block => "c1"
  | .blockHeader => "c2"
  | .receipt => "c4"
  | .signedTransaction => "c3"
  | .wal => "c5"
  | .hashHeight => "c6"
  | .code => "c7"
  | .evmState => "c8"
  | .metadataState => "c9"
  | .ckbLightClientState => "c10"
  | .version => "c0"

/-- `S::category().to_string()`, memory.rs:95: the derived `Display`, the name of the variant. -/
def categoryName : Cat → String
  | .block => "Block"
  | .blockHeader => "BlockHeader"
  | .receipt => "Receipt"
  | .signedTransaction => "SignedTransaction"
  | .wal => "Wal"
  | .hashHeight => "HashHeight"
  | .code => "Code"
  | .evmState => "EvmState"
  | .metadataState => "MetadataState"
  | .ckbLightClientState => "CkbLightClientState"
  | .version => "Version"

/-! ## Records -/

/-- `SignedTransaction`, types/transaction.rs:425-430 -/
structure Signed where
  tx : Tx.Unverified
  sender : H160
  pubkey : Option (FixedBytes 64)
deriving DecidableEq

/-- `HardforkInfoInner`, types/primitive.rs:644-648 -/
structure Fork where
  blockNumber : U64
  flags : H256
deriving DecidableEq

/-- What the codecs leave to other crates: `bincode` for exit reasons, and the recovery of public key and
sender from a signed transaction (codec/transaction.rs:338-356). -/
structure Ctx (ρ : Type) where
  exit : Block.ExitCodec ρ
  recover : Tx.Unverified → Option (FixedBytes 64 × H160)

/-- The schemas, core/storage/src/schema.rs:23-46, without the two that read the same columns as raw
bytes. -/
inductive Table where
  | transaction | block | blockHeader | blockHashNumber | receipt | txHashNumber | latestBlock
  | latestProof | wal | evmCode | evmCodeAddress | hardfork
deriving DecidableEq

/-- `S::category()`, schema.rs:23-46 -/
def Table.cat : Table → Cat
  | .transaction => .signedTransaction
  | .block => .block
  | .blockHeader => .blockHeader
  | .blockHashNumber => .hashHeight
  | .receipt => .receipt
  | .txHashNumber => .hashHeight
  | .latestBlock => .block
  | .latestProof => .block
  | .wal => .wal
  | .evmCode => .code
  | .evmCodeAddress => .code
  | .hardfork => .version

/-- `S::Key` -/
inductive Key where
  /-- `BlockKey` -/
  | number (n : U64)
  /-- `CommonHashKey` -/
  | both (n : U64) (h : H256)
  /-- `Hash` -/
  | hash (h : H256)
deriving DecidableEq

/-- The key type of each schema. -/
def Table.hasKey : Table → Key → Bool
  | .transaction, .both _ _ | .receipt, .both _ _ => true
  | .block, .number _ | .blockHeader, .number _ => true
  | .blockHashNumber, .hash _ | .txHashNumber, .hash _ | .latestBlock, .hash _ | .latestProof, .hash _
  | .wal, .hash _ | .evmCode, .hash _ | .evmCodeAddress, .hash _ | .hardfork, .hash _ => true
  | _, _ => false

/-- `S::Value` -/
inductive Value (ρ : Type) where
  | signed (t : Signed)
  | block (b : Block.Block)
  | header (h : Block.Header)
  | receipt (r : Block.Receipt ρ)
  | number (n : U64)
  | proof (p : Block.Proof)
  | bytes (b : Bytes)
  | hash (h : H256)
  | fork (f : Fork)
deriving DecidableEq

/-- The value type of each schema. -/
def Table.hasValue {ρ : Type} : Table → Value ρ → Bool
  | .transaction, .signed _ | .block, .block _ | .blockHeader, .header _ | .blockHashNumber, .number _
  | .receipt, .receipt _ | .txHashNumber, .number _ | .latestBlock, .block _ | .latestProof, .proof _
  | .wal, .bytes _ | .evmCode, .bytes _ | .evmCodeAddress, .hash _ | .hardfork, .fork _ => true
  | _, _ => false

/-- `Key::encode`: hash_key.rs:58-66, 91-96; hashes by RLP (codec/mod.rs:24-27). -/
def encodeKey : Key → Bytes
  | .number n => blockKey n.val
  | .both n h => hashKey n.val h
  | .hash h => encode (ofFixed h)

/-- `Value::encode`: RLP (codec/mod.rs:24-27).  A signed transaction is the string of the encoded
transaction (codec/transaction.rs:329-333); encoding a legacy transaction panics when its `v` does not fit
(`Tx.encodeTx`). -/
def encodeValue {ρ : Type} (c : Ctx ρ) : Value ρ → Outcome Bytes
  | .signed t => (Outcome.orPanic (Tx.encodeTx t.tx)).bind fun b => .ok (encode (.str b))
  | .block b => .ok (Block.encodeBlock b)
  | .header h => .ok (Block.encodeHeader h)
  | .receipt r => .ok (Block.encodeReceipt c.exit r)
  | .number n => .ok (encode (ofUint n))
  | .proof p => .ok (Block.encodeProof p)
  | .bytes b => .ok (encode (.str b))
  | .hash h => .ok (encode (ofFixed h))
  | .fork f => .ok (encode (.list [ofUint f.blockNumber, ofFixed f.flags]))

/-- `SignedTransaction::decode`, codec/transaction.rs:335-364 -/
def decodeSigned {ρ : Type} (c : Ctx ρ) (bs : Bytes) : Outcome (Value ρ) :=
  (Outcome.ofOption ((decode bs).bind toBytes)).bind fun raw =>
  (Tx.decodeTx raw).bind fun utx =>
  (Outcome.ofOption utx.signature).bind fun _ =>
  (Outcome.ofOption (c.recover utx)).bind fun p =>
  .ok (.signed ⟨utx, p.2, some p.1⟩)

/-- Derived decoding of `HardforkInfoInner`, types/primitive.rs:644: fields by position. -/
def itemFork : Item → Option Fork
  | .list l => do
    let blockNumber ← Block.valAt l 0 (toUint 64)
    let flags ← Block.valAt l 1 (toFixed 32)
    pure { blockNumber, flags }
  | .str _ => none

/-- `Value::decode` of each schema, codec/mod.rs:28-31 -/
def decodeValue {ρ : Type} (c : Ctx ρ) : Table → Bytes → Outcome (Value ρ)
  | .transaction, b => decodeSigned c b
  | .block, b | .latestBlock, b => Outcome.ofOption ((Block.decodeBlock b).map .block)
  | .blockHeader, b => Outcome.ofOption ((Block.decodeHeader b).map .header)
  | .receipt, b => Outcome.ofOption ((Block.decodeReceipt c.exit b).map .receipt)
  | .blockHashNumber, b | .txHashNumber, b =>
    Outcome.ofOption (((decode b).bind (toUint 64)).map .number)
  | .latestProof, b => Outcome.ofOption ((Block.decodeProof b).map .proof)
  | .wal, b | .evmCode, b => Outcome.ofOption (((decode b).bind toBytes).map .bytes)
  | .evmCodeAddress, b => Outcome.ofOption (((decode b).bind (toFixed 32)).map .hash)
  | .hardfork, b => Outcome.ofOption (((decode b).bind itemFork).map .fork)

/-! ## Operations -/

/-- Calls of `StorageAdapter`, protocol/src/traits/storage.rs:162-206; in a batch `none` is
`StorageBatchModify::Remove`. -/
inductive Op (ρ : Type) where
  | insert (t : Table) (k : Key) (v : Value ρ)
  | get (t : Table) (k : Key)
  | remove (t : Table) (k : Key)
  | contains (t : Table) (k : Key)
  | batch (t : Table) (ks : List Key) (vs : List (Option (Value ρ)))

/-- What a call returns. -/
inductive Reply (ρ : Type) where
  | done
  | value (v : Option (Value ρ))
  | flag (b : Bool)
deriving DecidableEq

/-- One column. -/
abbrev Col := List (Bytes × Bytes)

/-- The named columns of a database. -/
abbrev Disk := List (String × Col)

/-- Puts or deletes one key. -/
def Col.set (c : Col) (k : Bytes) : Option Bytes → Col
  | some v => put c k v
  | none => del c k

/-- The loops over `pairs`, rocks.rs:235-245 (as one write batch) and memory.rs:176-181 -/
def Col.sets (c : Col) (l : List (Bytes × Option Bytes)) : Col := l.foldl (fun c p => c.set p.1 p.2) c

/-- The loops that encode a batch, rocks.rs:221-230 and memory.rs:160-169: the first failure ends them. -/
def encodePairs {ρ : Type} (c : Ctx ρ) : List (Key × Option (Value ρ)) → Outcome (List (Bytes × Option Bytes))
  | [] => .ok []
  | (k, none) :: l => (encodePairs c l).bind fun r => .ok ((encodeKey k, none) :: r)
  | (k, some v) :: l =>
    (encodeValue c v).bind fun b => (encodePairs c l).bind fun r => .ok ((encodeKey k, some b) :: r)

/-- The decoding at the end of `get`, rocks.rs:183-189 and memory.rs:116-122 -/
def decodeFound {ρ : Type} (c : Ctx ρ) (t : Table) : Option Bytes → Outcome (Reply ρ)
  | some b => (decodeValue c t b).bind fun v => .ok (.value (some v))
  | none => .ok (.value none)

/-! ## RocksDB -/

/-- `RocksAdapter::new`, rocks.rs:26-28, 35-94: every category has its column. -/
def Rocks.fresh : Disk :=
  [Cat.block, .blockHeader, .receipt, .signedTransaction, .wal, .hashHeight, .code, .evmState,
    .metadataState, .ckbLightClientState, .version].map fun c => (columnName c, [])

/-- A call of the RocksDB adapter, rocks.rs:159-254; a missing column is the error of `get_column`
(rocks.rs:326-334), which comes first in every call but after the length check of a batch. -/
def Rocks.step {ρ : Type} (c : Ctx ρ) (d : Disk) : Op ρ → Disk × Outcome (Reply ρ)
  | .insert t k v =>
    match get d (columnName t.cat) with
    | none => (d, .err)
    | some col =>
      match encodeValue c v with
      | .ok b => (put d (columnName t.cat) (col.set (encodeKey k) (some b)), .ok .done)
      | .err => (d, .err)
      | .panic => (d, .panic)
  | .get t k =>
    match get d (columnName t.cat) with
    | none => (d, .err)
    | some col => (d, decodeFound c t (get col (encodeKey k)))
  | .remove t k =>
    match get d (columnName t.cat) with
    | none => (d, .err)
    | some col => (put d (columnName t.cat) (col.set (encodeKey k) none), .ok .done)
  | .contains t k =>
    match get d (columnName t.cat) with
    | none => (d, .err)
    | some col => (d, .ok (.flag (get col (encodeKey k)).isSome))
  | .batch t ks vs =>
    if ks.length ≠ vs.length then (d, .err)
    else
      match get d (columnName t.cat) with
      | none => (d, .err)
      | some col =>
        match encodePairs c (ks.zip vs) with
        | .ok ps => (put d (columnName t.cat) (col.sets ps), .ok .done)
        | .err => (d, .err)
        | .panic => (d, .panic)

/-! ## Memory -/

/-- `MemoryAdapter::new`, memory.rs:22-26 -/
def Memory.fresh : Disk := []

/-- `db.entry(name).or_insert_with(HashMap::new)`, memory.rs:94-96 -/
def Memory.column (d : Disk) (t : Table) : Col := (get d (categoryName t.cat)).getD []

/-- A call of the memory adapter, memory.rs:84-184 -/
def Memory.step {ρ : Type} (c : Ctx ρ) (d : Disk) : Op ρ → Disk × Outcome (Reply ρ)
  | .insert t k v =>
    match encodeValue c v with
    | .ok b => (put d (categoryName t.cat) ((Memory.column d t).set (encodeKey k) (some b)), .ok .done)
    | .err => (d, .err)
    | .panic => (d, .panic)
  | .get t k =>
    (put d (categoryName t.cat) (Memory.column d t), decodeFound c t (get (Memory.column d t) (encodeKey k)))
  | .remove t k =>
    (put d (categoryName t.cat) ((Memory.column d t).set (encodeKey k) none), .ok .done)
  | .contains t k =>
    (put d (categoryName t.cat) (Memory.column d t),
      .ok (.flag (get (Memory.column d t) (encodeKey k)).isSome))
  | .batch t ks vs =>
    if ks.length ≠ vs.length then (d, .err)
    else
      match encodePairs c (ks.zip vs) with
      | .ok ps => (put d (categoryName t.cat) ((Memory.column d t).sets ps), .ok .done)
      | .err => (d, .err)
      | .panic => (d, .panic)

/-! ## Runs -/

/-- A sequence of calls: the replies in order. -/
def replies {ρ σ : Type} (step : σ → Op ρ → σ × Outcome (Reply ρ)) : σ → List (Op ρ) → List (Outcome (Reply ρ))
  | _, [] => []
  | d, op :: ops => (step d op).2 :: replies step (step d op).1 ops

/-- The state after a sequence of calls. -/
def after {ρ σ : Type} (step : σ → Op ρ → σ × Outcome (Reply ρ)) (d : σ) (ops : List (Op ρ)) : σ :=
  ops.foldl (fun d op => (step d op).1) d

/-! ## Iteration -/

/-- The order of the keys in RocksDB. -/
def keyLe (a b : Bytes × Bytes) : Bool := !decide (byteLt b.1 a.1)

/-- `prefix_iterator_cf`, rocks.rs:140-150: without a prefix extractor, every pair from the prefix on in the
order of the keys. -/
def Rocks.iter (d : Disk) (cat : Cat) (pre : Bytes) : List (Bytes × Bytes) :=
  (((get d (columnName cat)).getD []).mergeSort keyLe).filter fun p => !decide (byteLt p.1 pre)

/-- The iterator of the memory adapter, memory.rs:66-75, 186-201: the prefix is ignored.  The order of a
`HashMap` is arbitrary; here it is that of the list. -/
def Memory.iter (d : Disk) (cat : Cat) (_pre : Bytes) : List (Bytes × Bytes) :=
  (get d (categoryName cat)).getD []

/-- Decoding by `RocksIterator::next`, rocks.rs:115-124, for the schemas of raw bytes (schema.rs:29-34, 39):
a key that is not 40 bytes long panics. -/
def decodeRow (p : Bytes × Bytes) : Option (Row Bytes) :=
  (decodeHashKey p.1).map fun k => ⟨k.1, k.2, p.2⟩

/-- `FuturesOrdered` or the plain loop over the values found (lib.rs:289-319, 435-465): the first that does not
decode is the result. -/
def decodeAll {ρ : Type} (c : Ctx ρ) (t : Table) : List (Option Bytes) → Outcome (List (Option (Value ρ)))
  | [] => .ok []
  | none :: l => (decodeAll c t l).bind fun vs => .ok (none :: vs)
  | some b :: l => (decodeValue c t b).bind fun v => (decodeAll c t l).bind fun vs => .ok (some v :: vs)

/-- `get_batch_with_height` resp. the body of `get_receipts` (lib.rs:246-322, 388-468) on a database of the
RocksDB adapter.  Simplified: the keys of all the rows are decoded before the loop, in the code those of the
rows that the loop reaches. -/
def Rocks.many {ρ : Type} (c : Ctx ρ) (d : Disk) (t : Table) (n : U64) (hashes : List H256) :
    Outcome (List (Option (Value ρ))) :=
  match (Rocks.iter d t.cat (blockKey n.val)).mapM decodeRow with
  | none => .panic
  | some rows => decodeAll c t (getBatch n.val hashes rows)

end Axon.Adapter
