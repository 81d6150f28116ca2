import Verif.Codec.Molecule
import Verif.Codec.Block
import Verif.Util.Assoc
import Verif.Util.Outcome

/-!
# The image cell and CKB light client contracts

Model of `core/executor/src/system_contract/image_cell/{mod,store}.rs`,
`core/executor/src/system_contract/ckb_light_client/{mod,store}.rs`, of the root bookkeeping in
`core/executor/src/system_contract/utils.rs` and `core/executor/src/lib.rs:395-405`, and of the readers
(`DataProvider` in `system_contract/mod.rs`, precompiles `get_cell.rs`, `get_header.rs`).

Both contracts share one trie.  A trie is modelled by its contents (`Trie`), its root hash by the contents
too: reading the trie behind a root yields what was committed under it, and equal contents have equal roots.
Failures of the node database are not modelled.
-/

namespace Axon.Cells
open Axon.Assoc Axon.Rlp Axon.Mol
open Axon.Block (valAt)

/-- Contents of a Merkle Patricia trie. -/
abbrev Trie := List (Bytes × Bytes)

/-! ## Data -/

/-- `image_cell_abi::OutPoint`, `abi/image_cell_abi.rs:255-258`; the same data as `CellKey`,
`store.rs:14-18` and `CellKey::new`, `store.rs:243-246` -/
structure OutPoint where
  txHash : H256
  index : U32
deriving DecidableEq

/-- `image_cell_abi::Script`, `abi/image_cell_abi.rs:270-274` -/
structure Script where
  codeHash : H256
  hashType : UInt8
  args : Bytes
deriving DecidableEq

/-- `image_cell_abi::CellOutput`, `abi/image_cell_abi.rs:239-243` -/
structure CellOutput where
  capacity : U64
  lock : Script
  type_ : List Script
deriving DecidableEq

/-- `image_cell_abi::CellInfo`, `abi/image_cell_abi.rs:223-227` -/
structure NewCell where
  outPoint : OutPoint
  output : CellOutput
  data : Bytes
deriving DecidableEq

/-- `image_cell_abi::BlockUpdate`, `abi/image_cell_abi.rs:302-306` -/
structure BlockUpdate where
  number : U64
  inputs : List OutPoint
  outputs : List NewCell

/-- `image_cell_abi::BlockRollBlack`, `abi/image_cell_abi.rs:286-289` -/
structure BlockRollback where
  inputs : List OutPoint
  outputs : List OutPoint

/-- `CellInfo`, `store.rs:271-277` -/
structure CellInfo where
  output : Bytes
  data : Bytes
  created : U64
  consumed : Option U64
deriving DecidableEq

/-! ## Encodings -/

/-- `CellKey::encode`, `store.rs:264-269` -/
def cellKey (o : OutPoint) : Bytes := o.txHash.bytes ++ le 4 o.index.val

/-- `CellKey::decode`, `store.rs:248-262` -/
def decodeKey (b : Bytes) : Option OutPoint :=
  if b.length ≠ 36 then none
  else do
    let h ← FixedBytes.ofBytes 32 (b.take 32)
    let i ← UIntN.ofNat? 32 (leNat (b.drop 32))
    pure ⟨h, i⟩

/-- `Option<u64>` in `rlp`: a list with no or one element. -/
def optItem : Option U64 → Item
  | none => .list []
  | some n => .list [ofUint n]

/-- Reading it: one element, no element, anything else is an error. -/
def itemOpt : Item → Option (Option U64)
  | .list [] => some none
  | .list [x] => (toUint 64 x).map some
  | _ => none

/-- Derived encoding of `CellInfo`, `store.rs:271-277` -/
def cellItem (c : CellInfo) : Item :=
  .list [.str c.output, .str c.data, ofUint c.created, optItem c.consumed]

def encodeCell (c : CellInfo) : Bytes := encode (cellItem c)

/-- Derived decoding of `CellInfo`. -/
def itemCell : Item → Option CellInfo
  | .list l => do
    let output ← valAt l 0 toBytes
    let data ← valAt l 1 toBytes
    let created ← valAt l 2 (toUint 64)
    let consumed ← valAt l 3 itemOpt
    pure ⟨output, data, created, consumed⟩
  | .str _ => none

def decodeCell (b : Bytes) : Option CellInfo := (decode b).bind itemCell

/-- `packed::Script`, built in `store.rs:156-161` and `168-173`: a table of code hash, hash type and
arguments -/
def packScript (s : Script) : Bytes := table [s.codeHash.bytes, [s.hashType], bytesVec s.args]

/-- `packed::ScriptOpt`, `store.rs:163-178`: only the first script of the list is kept. -/
def packType (l : List Script) : Bytes :=
  match l with
  | [] => []
  | s :: _ => packScript s

/-- `packed::CellOutput`, `store.rs:180-184` -/
def packOutput (o : CellOutput) : Bytes :=
  table [le 8 o.capacity.val, packScript o.lock, packType o.type_]

/-- `From<packed::Script> for image_cell_abi::Script`, `abi/mod.rs:32-42`.  A field of the wrong length
(never built by this code) makes the accessors of the generated code panic. -/
def unpackScript (b : Bytes) : Outcome Script :=
  match FixedBytes.ofBytes 32 (field 3 b 0), field 3 b 1 with
  | some h, [t] => .ok ⟨h, t, rawData (field 3 b 2)⟩
  | _, _ => .panic

/-- `From<packed::CellOutput> for image_cell_abi::CellOutput`, `abi/mod.rs:18-30` -/
def unpackOutput (b : Bytes) : Outcome CellOutput :=
  match UIntN.ofNat? 64 (leNat (field 3 b 0)), unpackScript (field 3 b 1) with
  | some c, .ok lock =>
    if field 3 b 2 = [] then .ok ⟨c, lock, []⟩
    else
      match unpackScript (field 3 b 2) with
      | .ok t => .ok ⟨c, lock, [t]⟩
      | _ => .panic
  | _, _ => .panic

/-! ## Image cell store -/

/-- `get_cell`, `store.rs:132-145` -/
def getCell (t : Trie) (o : OutPoint) : Outcome (Option CellInfo) :=
  match get t (cellKey o) with
  | none => .ok none
  | some b =>
    match decodeCell b with
    | some c => .ok (some c)
    | none => .err

/-- `insert_cell`, `store.rs:196-200` -/
def insertCell (t : Trie) (o : OutPoint) (c : CellInfo) : Trie := put t (cellKey o) (encodeCell c)

/-- The cell that is stored for a new output, `store.rs:154-191` -/
def newInfo (c : NewCell) (created : U64) : CellInfo := ⟨packOutput c.output, c.data, created, none⟩

/-- `save_cells`, `store.rs:147-194` -/
def saveCells (t : Trie) (outputs : List NewCell) (created : U64) : Trie :=
  outputs.foldl (fun t c => insertCell t c.outPoint (newInfo c created)) t

/-- `mark_cells_consumed`, `store.rs:98-112` -/
def markConsumed (t : Trie) (n : U64) : List OutPoint → Outcome Trie
  | [] => .ok t
  | o :: l =>
    match getCell t o with
    | .ok none => markConsumed t n l
    | .ok (some c) => markConsumed (insertCell t o { c with consumed := some n }) n l
    | .err => .err
    | .panic => .panic

/-- `mark_cells_not_consumed`, `store.rs:120-130` -/
def markNotConsumed (t : Trie) : List OutPoint → Outcome Trie
  | [] => .ok t
  | o :: l =>
    match getCell t o with
    | .ok none => markNotConsumed t l
    | .ok (some c) => markNotConsumed (insertCell t o { c with consumed := none }) l
    | .err => .err
    | .panic => .panic

/-- `remove_cell` and `remove_cells`, `store.rs:114-120` and `202-216`: removing an absent cell is an
error. -/
def removeCells (t : Trie) : List OutPoint → Outcome Trie
  | [] => .ok t
  | o :: l =>
    match get t (cellKey o) with
    | some _ => removeCells (del t (cellKey o)) l
    | none => .err

/-- `update` up to the commit, `store.rs:80-87` -/
def update (t : Trie) : List BlockUpdate → Outcome Trie
  | [] => .ok t
  | b :: l =>
    match markConsumed (saveCells t b.outputs b.number) b.number b.inputs with
    | .ok t' => update t' l
    | .err => .err
    | .panic => .panic

/-- `rollback` up to the commit, `store.rs:89-96` -/
def rollback (t : Trie) : List BlockRollback → Outcome Trie
  | [] => .ok t
  | b :: l =>
    match removeCells t b.outputs with
    | .ok t' =>
      match markNotConsumed t' b.inputs with
      | .ok t'' => rollback t'' l
      | .err => .err
      | .panic => .panic
    | .err => .err
    | .panic => .panic

/-! ## Header store

The ABI encoding of a header (`ethers`, a dependency) is a parameter. -/

/-- `ckb_light_client_abi::Header` with its codec: the hash used as key, the encoding and its decoding. -/
structure HeaderAbi where
  Header : Type
  hash : Header → H256
  enc : Header → Bytes
  dec : Bytes → Option Header
  /-- decoding inverts encoding -/
  law : ∀ h, dec (enc h) = some h
  /-- an encoding is not empty: inserting an empty value would remove the key -/
  nonempty : ∀ h, enc h ≠ []

variable (abi : HeaderAbi)

/-- `CkbLightClientStore::update` and `save_header`, `ckb_light_client/store.rs:74-80` and `105-109` -/
def saveHeaders (t : Trie) (hs : List abi.Header) : Trie :=
  hs.foldl (fun t h => put t (abi.hash h).bytes (abi.enc h)) t

/-- `CkbLightClientStore::rollback` and `remove_header`, `ckb_light_client/store.rs:82-88` and `111-125` -/
def removeHeaders (t : Trie) : List H256 → Outcome Trie
  | [] => .ok t
  | h :: l =>
    match get t h.bytes with
    | some _ => removeHeaders (del t h.bytes) l
    | none => .err

/-- `get_header`, `ckb_light_client/store.rs:90-103` -/
def getHeader (t : Trie) (h : H256) : Outcome (Option abi.Header) :=
  match get t h.bytes with
  | none => .ok none
  | some b =>
    match abi.dec b with
    | some x => .ok (some x)
    | none => .err

/-! ## Contracts -/

/-- Call of one of the two contracts, after ABI decoding. -/
inductive Call where
  | update (bs : List BlockUpdate)
  | rollback (bs : List BlockRollback)
  | saveHeaders (hs : List abi.Header)
  | removeHeaders (hs : List H256)
  | setCellState (allowRead : Bool)
  | setHeaderState (allowRead : Bool)

/-- The state: the trie behind the thread-local `CURRENT_HEADER_CELL_ROOT`, the tries behind the roots stored
in the accounts of the two contracts, and the two process-wide flags `ALLOW_READ`. -/
structure Ctx where
  current : Trie
  lightRoot : Trie
  imageRoot : Trie
  allowHeaders : Bool
  allowCells : Bool
deriving DecidableEq

/-- `update_states` for either contract, `utils.rs:39-47` and `63-90`: both accounts get the current root.
(The sender's nonce is part of `Axon.Exec`.) -/
def updateStates (s : Ctx) : Ctx := { s with lightRoot := s.current, imageRoot := s.current }

/-- Result of the operation on the trie; `set_state` does not touch it. -/
def runTrie (t : Trie) : Call abi → Outcome Trie
  | .update bs => update t bs
  | .rollback bs => rollback t bs
  | .saveHeaders hs => .ok (saveHeaders abi t hs)
  | .removeHeaders hs => removeHeaders t hs
  | .setCellState _ => .ok t
  | .setHeaderState _ => .ok t

/-- The flags after a call, `image_cell/mod.rs:50-52` and `ckb_light_client/mod.rs:50-52` -/
def runFlags (s : Ctx) : Call abi → Ctx
  | .setCellState b => { s with allowCells := b }
  | .setHeaderState b => { s with allowHeaders := b }
  | _ => s

/-- `exec_` of the two contracts, `image_cell/mod.rs:30-69` and `ckb_light_client/mod.rs:30-73`; `none` is
call data that does not decode.  On success the trie is committed, `CURRENT_HEADER_CELL_ROOT` set
(`commit`, `store.rs:218-228`) and both accounts updated; on failure the trie is dropped. -/
def exec (s : Ctx) : Option (Call abi) → Outcome (Ctx × Bool)
  | none => .ok (s, false)
  | some c =>
    match runTrie abi s.current c with
    | .ok t => .ok (updateStates { runFlags abi s c with current := t }, true)
    | .err => .ok (s, false)
    | .panic => .panic

/-- Begin of the execution of a block or of a call: the thread-local variable is loaded from the account of
the light client, `lib.rs:395-405` -/
def load (s : Ctx) : Ctx := { s with current := s.lightRoot }

/-! ## Readers -/

/-- `CellStatus` of `ckb_types` (a dependency) as used here. -/
inductive CellStatus where
  | live (output : Bytes) (data : Bytes)
  | dead
  | unknown
deriving DecidableEq

/-- `<DataProvider as CellProvider>::cell`, `system_contract/mod.rs:253-265`, and `into_meta`,
`store.rs:279-290` -/
def provideCell (t : Trie) (o : OutPoint) : CellStatus :=
  match getCell t o with
  | .ok (some c) => .live c.output c.data
  | _ => .unknown

/-- `<DataProvider as CellDataProvider>::get_cell_data`, `system_contract/mod.rs:268-275` -/
def provideData (t : Trie) (o : OutPoint) : Option Bytes :=
  match getCell t o with
  | .ok (some c) => some c.data
  | _ => none

/-- What the `get_cell` precompile returns before ABI encoding, `precompiles/get_cell.rs:35-45` and `70-77`:
output, data, `is_consumed`, `created_number`, `consumed_number`. -/
structure CellView where
  output : CellOutput
  data : Bytes
  isConsumed : Bool
  created : U64
  consumed : U64
deriving DecidableEq

def u64Zero : U64 := ⟨0, by decide⟩

/-- `GetCell::exec_fn` after the gas check and the decoding of the input, `precompiles/get_cell.rs:35-61` -/
def precompileCell (t : Trie) (o : OutPoint) : Outcome CellView :=
  match getCell t o with
  | .ok (some c) =>
    match unpackOutput c.output with
    | .ok out => .ok ⟨out, c.data, c.consumed.isSome, c.created, c.consumed.getD u64Zero⟩
    | .err => .err
    | .panic => .panic
  | .ok none => .err
  | .err => .err
  | .panic => .panic

/-- `GetHeader::exec_fn` after the gas check and the decoding of the input,
`precompiles/get_header.rs:34-52`: the stored bytes are decoded with `unwrap`. -/
def precompileHeader (t : Trie) (h : H256) : Outcome abi.Header :=
  match get t h.bytes with
  | none => .err
  | some b =>
    match abi.dec b with
    | some x => .ok x
    | none => .panic

end Axon.Cells
