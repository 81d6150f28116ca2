import Verif.Codec.AbiLemmas
import Verif.Cells.Store
import Verif.Metadata.Store

/-!
# Call data of the system contracts

Model of the ABI bindings of the system contracts in `core/executor/src/system_contract/`
(`metadata/abi/metadata_abi.rs`, `image_cell/abi/image_cell_abi.rs`,
`ckb_light_client/abi/ckb_light_client_abi.rs`, generated by `ethers`, a dependency), of the decoding of call
data in the `exec_` functions, of headers in the trie (`ckb_light_client/store.rs:90-109`) and of the input and
output of the precompiles `get_cell.rs` and `get_header.rs`.
-/

namespace Axon.SysAbi
open Axon.Abi Axon.Cells

/-! ## Values as tokens -/

/-- A type with `Tokenizable` and `AbiType` of `ethers`: its parameter type, `into_token`, `from_token`. -/
structure Codec (α : Type) where
  ty : Ty
  tok : α → Tok
  un : Tok → Option α
  wf : ty.wf = true
  fits : ∀ a, (tok a).fits ty
  law : ∀ a, un (tok a) = some a
  total : ∀ t, t.fits ty → (un t).isSome

/-- The members of a struct: the derived `EthAbiType` makes a tuple of them. -/
structure Fields (α : Type) where
  tys : List Ty
  toks : α → List Tok
  un : List Tok → Option α
  ne : tys.isEmpty = false
  wf : Ty.wfAll tys = true
  fits : ∀ a, Tok.fitEach (toks a) tys
  law : ∀ a, un (toks a) = some a
  total : ∀ ts, Tok.fitEach ts tys → (un ts).isSome

/-- `u32`, `u64`, `u128`: `from_token` keeps the low bits (`low_u128() as _`). -/
def uintC (w : Nat) (hw : w ≤ 128) : Codec (UIntN w) where
  ty := .uint
  tok n := .uint n.val
  un
    | .uint n => some ⟨n % 2 ^ w, Nat.mod_lt _ (Nat.two_pow_pos w)⟩
    | _ => none
  wf := by simp [Ty.wf]
  fits n := by
    simp only [Tok.fits]
    exact Nat.lt_of_lt_of_le n.lt (Nat.pow_le_pow_right (by decide) (by omega))
  law n := by simp only [Option.some.injEq]; exact UIntN.ext' (Nat.mod_eq_of_lt n.lt)
  total t h := by cases t <;> simp_all [Tok.fits]

/-- `u8` -/
def byteC : Codec UInt8 where
  ty := .uint
  tok n := .uint n.toNat
  un
    | .uint n => some (UInt8.ofNat n)
    | _ => none
  wf := by simp [Ty.wf]
  fits n := by
    simp only [Tok.fits]
    exact Nat.lt_of_lt_of_le n.toNat_lt (Nat.pow_le_pow_right (n := 2) (by decide) (by decide : 8 ≤ 256))
  law n := by simp
  total t h := by cases t <;> simp_all [Tok.fits]

/-- `[u8; 32]` -/
def hashC : Codec H256 where
  ty := .fixed 32
  tok h := .fixed h.bytes
  un
    | .fixed b => FixedBytes.ofBytes 32 b
    | _ => none
  wf := by simp [Ty.wf]
  fits h := by simp only [Tok.fits]; exact ⟨h.len, by omega, by omega⟩
  law h := by simp
  total t h := by cases t <;> simp_all [Tok.fits, FixedBytes.ofBytes]

/-- `Address` -/
def addrC : Codec H160 where
  ty := .address
  tok h := .address h.bytes
  un
    | .address b => FixedBytes.ofBytes 20 b
    | _ => none
  wf := by simp [Ty.wf]
  fits h := by simp only [Tok.fits]; exact h.len
  law h := by simp
  total t h := by cases t <;> simp_all [Tok.fits, FixedBytes.ofBytes]

/-- `bool` -/
def boolC : Codec Bool where
  ty := .bool
  tok b := .bool b
  un
    | .bool b => some b
    | _ => none
  wf := by simp [Ty.wf]
  fits b := by simp only [Tok.fits]
  law b := rfl
  total t h := by cases t <;> simp_all [Tok.fits]

/-- `Bytes` -/
def bytesC : Codec Bytes where
  ty := .bytes
  tok b := .bytes b
  un
    | .bytes b => some b
    | _ => none
  wf := by simp [Ty.wf]
  fits b := by simp only [Tok.fits]
  law b := rfl
  total t h := by cases t <;> simp_all [Tok.fits]

/-- The elements of an array, in order. -/
def unList {α : Type} (f : Tok → Option α) : List Tok → Option (List α)
  | [] => some []
  | t :: ts => (f t).bind fun a => (unList f ts).map (a :: ·)

theorem fitAll_map {α : Type} (c : Codec α) : ∀ l : List α, Tok.fitAll (l.map c.tok) c.ty
  | [] => by simp [Tok.fitAll]
  | a :: l => by simp only [List.map_cons, Tok.fitAll]; exact ⟨c.fits a, fitAll_map c l⟩

theorem unList_map {α : Type} (c : Codec α) : ∀ l : List α, unList c.un (l.map c.tok) = some l
  | [] => rfl
  | a :: l => by simp [unList, c.law, unList_map c l]

theorem unList_total {α : Type} (c : Codec α) : ∀ ts : List Tok, Tok.fitAll ts c.ty → (unList c.un ts).isSome
  | [], _ => rfl
  | t :: ts, h => by
    simp only [Tok.fitAll] at h
    obtain ⟨a, ha⟩ := Option.isSome_iff_exists.mp (c.total t h.1)
    obtain ⟨as, has⟩ := Option.isSome_iff_exists.mp (unList_total c ts h.2)
    simp [unList, ha, has]

/-- `Vec<T>` -/
def listC {α : Type} (c : Codec α) : Codec (List α) where
  ty := .array c.ty
  tok l := .array (l.map c.tok)
  un
    | .array ts => unList c.un ts
    | _ => none
  wf := by simp only [Ty.wf]; exact c.wf
  fits l := by simp only [Tok.fits]; exact fitAll_map c l
  law l := unList_map c l
  total t h := by
    cases t <;> simp only [Tok.fits] at h
    exact unList_total c _ h

/-- The last member of a struct. -/
def lastF {α : Type} (c : Codec α) : Fields α where
  tys := [c.ty]
  toks a := [c.tok a]
  un
    | [t] => c.un t
    | _ => none
  ne := rfl
  wf := by simp [Ty.wfAll, c.wf]
  fits a := by simp only [Tok.fitEach]; exact ⟨c.fits a, trivial⟩
  law a := c.law a
  total ts h := by
    match ts, h with
    | [t], h => simp only [Tok.fitEach] at h; exact c.total t h.1
    | [], h => simp [Tok.fitEach] at h
    | _ :: _ :: _, h => simp [Tok.fitEach] at h

/-- A member of a struct and the ones after it. -/
def consF {α β : Type} (c : Codec α) (f : Fields β) : Fields (α × β) where
  tys := c.ty :: f.tys
  toks p := c.tok p.1 :: f.toks p.2
  un
    | t :: ts => (c.un t).bind fun a => (f.un ts).map (a, ·)
    | [] => none
  ne := rfl
  wf := by simp [Ty.wfAll, c.wf, f.wf]
  fits p := by simp only [Tok.fitEach]; exact ⟨c.fits p.1, f.fits p.2⟩
  law p := by simp [c.law, f.law]
  total ts h := by
    match ts, h with
    | [], h => simp [Tok.fitEach] at h
    | t :: ts, h =>
      simp only [Tok.fitEach] at h
      obtain ⟨a, ha⟩ := Option.isSome_iff_exists.mp (c.total t h.1)
      obtain ⟨b, hb⟩ := Option.isSome_iff_exists.mp (f.total ts h.2)
      simp [ha, hb]

/-- A struct with named members. -/
def structF {α β : Type} (f : Fields β) (out : α → β) (mk : β → α) (h : ∀ a, mk (out a) = a) : Fields α where
  tys := f.tys
  toks a := f.toks (out a)
  un ts := (f.un ts).map mk
  ne := f.ne
  wf := f.wf
  fits a := f.fits (out a)
  law a := by simp [f.law, h]
  total ts hh := by simpa using f.total ts hh

/-- A struct is a tuple of its members. -/
def tupleC {α : Type} (f : Fields α) : Codec α where
  ty := .tuple f.tys
  tok a := .tuple (f.toks a)
  un
    | .tuple ts => f.un ts
    | _ => none
  wf := by simp [Ty.wf, f.wf, f.ne]
  fits a := by
    simp only [Tok.fits]
    refine ⟨fun e => ?_, f.fits a⟩
    have h := f.fits a
    have n := f.ne
    rw [e] at h
    cases ht : f.tys with
    | nil => simp [ht] at n
    | cons t ts => simp [ht, Tok.fitEach] at h
  law a := f.law a
  total t h := by
    cases t <;> simp only [Tok.fits] at h
    exact f.total _ h.2

/-- `AbiEncode::encode` of a struct (derived `EthAbiCodec`): its members without an outer offset. -/
def encodeStruct {α : Type} (f : Fields α) (a : α) : Bytes := Abi.encode (f.toks a)

/-- `AbiDecode::decode` of a struct.  The derived code also refuses data shorter than its members; that is
implied, see `decodeStruct_size`. -/
def decodeStruct {α : Type} (f : Fields α) (data : Bytes) : Outcome α :=
  (Abi.decode f.tys data).bind fun ts => .ofOption (f.un ts)

/-- `AbiEncode::encode` of a call with one argument (derived `EthCall`): the selector and the argument. -/
def encodeCall {α : Type} (sel : Bytes) (c : Codec α) (a : α) : Bytes := sel ++ Abi.encode [c.tok a]

/-- `AbiDecode::decode` of a call with one argument. -/
def decodeCall {α : Type} (sel : Bytes) (c : Codec α) (data : Bytes) : Outcome α :=
  if data.length < 4 ∨ data.take 4 ≠ sel then .err
  else (Abi.decode [c.ty] (data.drop 4)).bind fun ts => .ofOption ((lastF c).un ts)

/-- `if let Ok(decoded) = … { return Ok(…) }` and on with the next. -/
def attempt {α β : Type} (x : Outcome α) (f : α → β) (next : Outcome β) : Outcome β :=
  match x with
  | .ok a => .ok (f a)
  | .err => next
  | .panic => .panic

/-! ## Image cells -/

def u32C : Codec U32 := uintC 32 (by decide)
def u64C : Codec U64 := uintC 64 (by decide)
def u128C : Codec (UIntN 128) := uintC 128 (by decide)

/-- `OutPoint`, `image_cell_abi.rs:255-258` -/
def outPointF : Fields OutPoint :=
  structF (consF hashC (lastF u32C)) (fun o => (o.txHash, o.index)) (fun p => ⟨p.1, p.2⟩) (fun _ => rfl)

/-- `Script`, `image_cell_abi.rs:270-274` -/
def scriptF : Fields Script :=
  structF (consF hashC (consF byteC (lastF bytesC))) (fun s => (s.codeHash, s.hashType, s.args))
    (fun p => ⟨p.1, p.2.1, p.2.2⟩) (fun _ => rfl)

/-- `CellOutput`, `image_cell_abi.rs:239-243` -/
def cellOutputF : Fields CellOutput :=
  structF (consF u64C (consF (tupleC scriptF) (lastF (listC (tupleC scriptF)))))
    (fun o => (o.capacity, o.lock, o.type_)) (fun p => ⟨p.1, p.2.1, p.2.2⟩) (fun _ => rfl)

/-- `CellInfo`, `image_cell_abi.rs:223-227` -/
def newCellF : Fields NewCell :=
  structF (consF (tupleC outPointF) (consF (tupleC cellOutputF) (lastF bytesC)))
    (fun c => (c.outPoint, c.output, c.data)) (fun p => ⟨p.1, p.2.1, p.2.2⟩) (fun _ => rfl)

/-- `BlockUpdate`, `image_cell_abi.rs:302-306` -/
def blockUpdateF : Fields BlockUpdate :=
  structF (consF u64C (consF (listC (tupleC outPointF)) (lastF (listC (tupleC newCellF)))))
    (fun b => (b.number, b.inputs, b.outputs)) (fun p => ⟨p.1, p.2.1, p.2.2⟩) (fun _ => rfl)

/-- `BlockRollBlack`, `image_cell_abi.rs:286-289` -/
def blockRollbackF : Fields BlockRollback :=
  structF (consF (listC (tupleC outPointF)) (lastF (listC (tupleC outPointF))))
    (fun b => (b.inputs, b.outputs)) (fun p => ⟨p.1, p.2⟩) (fun _ => rfl)

/-- `ImageCellContractCalls`, `image_cell_abi.rs:154-160` -/
inductive ImageCall where
  | rollback (bs : List BlockRollback)
  | setState (allowRead : Bool)
  | update (bs : List BlockUpdate)

/-- Selectors, `image_cell_abi.rs:59-89` -/
def selImageRollback : Bytes := [8, 193, 114, 40]
def selSetState : Bytes := [172, 159, 2, 34]
def selImageUpdate : Bytes := [175, 167, 78, 4]

/-- `AbiEncode for ImageCellContractCalls`, `image_cell_abi.rs:178-186` -/
def encodeImage : ImageCall → Bytes
  | .rollback bs => encodeCall selImageRollback (listC (tupleC blockRollbackF)) bs
  | .setState b => encodeCall selSetState boolC b
  | .update bs => encodeCall selImageUpdate (listC (tupleC blockUpdateF)) bs

/-- `AbiDecode for ImageCellContractCalls`, `image_cell_abi.rs:161-177` -/
def decodeImage (data : Bytes) : Outcome ImageCall :=
  attempt (decodeCall selImageRollback (listC (tupleC blockRollbackF)) data) .rollback <|
  attempt (decodeCall selSetState boolC data) .setState <|
  attempt (decodeCall selImageUpdate (listC (tupleC blockUpdateF)) data) .update .err

/-! ## The light client -/

/-- `Header`, `ckb_light_client_abi.rs:210-224` -/
structure Header where
  version : U32
  compactTarget : U32
  timestamp : U64
  number : U64
  epoch : U64
  parentHash : H256
  transactionsRoot : H256
  proposalsHash : H256
  extraHash : H256
  dao : H256
  nonce : UIntN 128
  extension : Bytes
  blockHash : H256
deriving DecidableEq

/-- Its members, `ckb_light_client_abi.rs:196-224` -/
def headerF : Fields Header :=
  structF (consF u32C <| consF u32C <| consF u64C <| consF u64C <| consF u64C <| consF hashC <| consF hashC <|
      consF hashC <| consF hashC <| consF hashC <| consF u128C <| consF bytesC <| lastF hashC)
    (fun h => (h.version, h.compactTarget, h.timestamp, h.number, h.epoch, h.parentHash, h.transactionsRoot,
      h.proposalsHash, h.extraHash, h.dao, h.nonce, h.extension, h.blockHash))
    (fun (a, b, c, d, e, f, g, h, i, j, k, l, m) => ⟨a, b, c, d, e, f, g, h, i, j, k, l, m⟩) (fun _ => rfl)

/-- `CkbLightClientContractCalls`, `ckb_light_client_abi.rs:141-147` -/
inductive LightCall where
  | rollback (hs : List H256)
  | setState (allowRead : Bool)
  | update (hs : List Header)

/-- Selectors, `ckb_light_client_abi.rs:59-89` -/
def selLightRollback : Bytes := [211, 42, 34, 133]
def selLightUpdate : Bytes := [93, 78, 132, 66]

/-- `AbiEncode for CkbLightClientContractCalls`, `ckb_light_client_abi.rs:165-173` -/
def encodeLight : LightCall → Bytes
  | .rollback hs => encodeCall selLightRollback (listC hashC) hs
  | .setState b => encodeCall selSetState boolC b
  | .update hs => encodeCall selLightUpdate (listC (tupleC headerF)) hs

/-- `AbiDecode for CkbLightClientContractCalls`, `ckb_light_client_abi.rs:148-164` -/
def decodeLight (data : Bytes) : Outcome LightCall :=
  attempt (decodeCall selLightRollback (listC hashC) data) .rollback <|
  attempt (decodeCall selSetState boolC data) .setState <|
  attempt (decodeCall selLightUpdate (listC (tupleC headerF)) data) .update .err

/-! ## Metadata -/

/-- `ValidatorExtend`, `metadata_abi.rs:329-335` -/
structure Validator where
  blsPubKey : Bytes
  pubKey : Bytes
  address : H160
  proposeWeight : U32
  voteWeight : U32
deriving DecidableEq

/-- `Metadata`, `metadata_abi.rs:281-287`, with `MetadataVersion` (`299-302`), `ProposeCount` (`314-317`) -/
structure MetaArg where
  version : U64 × U64
  epoch : U64
  verifiers : List Validator
  counter : List (H160 × U64)
  config : Meta.Config

/-- `CkbRelatedInfo`, `metadata_abi.rs:237-244` -/
structure CkbInfo where
  metadataTypeId : H256
  checkpointTypeId : H256
  xudtArgs : H256
  stakeSmtTypeId : H256
  delegateSmtTypeId : H256
  rewardSmtTypeId : H256
deriving DecidableEq

def validatorF : Fields Validator :=
  structF (consF bytesC <| consF bytesC <| consF addrC <| consF u32C <| lastF u32C)
    (fun v => (v.blsPubKey, v.pubKey, v.address, v.proposeWeight, v.voteWeight))
    (fun (a, b, c, d, e) => ⟨a, b, c, d, e⟩) (fun _ => rfl)

/-- `ConsensusConfig`, `metadata_abi.rs:257-267`: the order of the members differs from `primitive.rs`. -/
def configF : Fields Meta.Config :=
  structF (consF u64C <| consF u64C <| consF u64C <| consF u64C <| consF u64C <| consF u64C <| consF u64C <|
      consF u64C <| lastF u64C)
    (fun c => (c.proposeRatio, c.prevoteRatio, c.precommitRatio, c.brakeRatio, c.txNumLimit, c.maxTxSize,
      c.gasLimit, c.interval, c.maxContractLimit))
    (fun (propose, prevote, precommit, brake, txNum, txSize, gas, interval, contract) =>
      ⟨gas, interval, propose, prevote, precommit, brake, txNum, txSize, contract⟩) (fun _ => rfl)

def metaF : Fields MetaArg :=
  structF (consF (tupleC (consF u64C (lastF u64C))) <| consF u64C <| consF (listC (tupleC validatorF)) <|
      consF (listC (tupleC (consF addrC (lastF u64C)))) <| lastF (tupleC configF))
    (fun m => (m.version, m.epoch, m.verifiers, m.counter, m.config))
    (fun (a, b, c, d, e) => ⟨a, b, c, d, e⟩) (fun _ => rfl)

def ckbInfoF : Fields CkbInfo :=
  structF (consF hashC <| consF hashC <| consF hashC <| consF hashC <| consF hashC <| lastF hashC)
    (fun i => (i.metadataTypeId, i.checkpointTypeId, i.xudtArgs, i.stakeSmtTypeId, i.delegateSmtTypeId,
      i.rewardSmtTypeId))
    (fun (a, b, c, d, e, f) => ⟨a, b, c, d, e, f⟩) (fun _ => rfl)

/-- `MetadataContractCalls`, `metadata_abi.rs:161-167` -/
inductive MetaCall where
  | append (m : MetaArg)
  | ckb (i : CkbInfo)
  | config (c : Meta.Config)

/-- Selectors, `metadata_abi.rs:59-89` -/
def selAppend : Bytes := [83, 236, 121, 230]
def selCkb : Bytes := [128, 74, 252, 89]
def selConfig : Bytes := [183, 111, 172, 1]

/-- `AbiEncode for MetadataContractCalls`, `metadata_abi.rs:191-201` -/
def encodeMeta : MetaCall → Bytes
  | .append m => encodeCall selAppend (tupleC metaF) m
  | .ckb i => encodeCall selCkb (tupleC ckbInfoF) i
  | .config c => encodeCall selConfig (tupleC configF) c

/-- `AbiDecode for MetadataContractCalls`, `metadata_abi.rs:168-190` -/
def decodeMeta (data : Bytes) : Outcome MetaCall :=
  attempt (decodeCall selAppend (tupleC metaF) data) .append <|
  attempt (decodeCall selCkb (tupleC ckbInfoF) data) .ckb <|
  attempt (decodeCall selConfig (tupleC configF) data) .config .err

/-! ## The contracts on call data -/

/-- A refused decoding is a reverted transaction (`exec_try!`). -/
def toOption {α : Type} : Outcome α → Option α
  | .ok a => some a
  | _ => none

/-- Room for the offsets of an encoded header: `u32` in the encoder. -/
def Header.Fits (h : Header) : Prop := h.extension.length + 512 < 2 ^ 32

instance (h : Header) : Decidable h.Fits := inferInstanceAs (Decidable (_ < _))

/-- A header with that room.  Simplification: one without it (4 GiB of data) is refused; see `C123_room`. -/
def fitHeader (h : Header) : Option { h : Header // h.Fits } := if p : h.Fits then some ⟨h, p⟩ else none

/-- `get_header`, `ckb_light_client/store.rs:90-103`: the stored bytes as header. -/
def decodeHeader (b : Bytes) : Option { h : Header // h.Fits } :=
  (toOption (decodeStruct headerF b)).bind fitHeader

/-- The calls of `Axon.Cells` for the two contracts. -/
def imageArg (abi : HeaderAbi) : ImageCall → Cells.Call abi
  | .rollback bs => .rollback bs
  | .setState b => .setCellState b
  | .update bs => .update bs

/-- `exec_` of the image cell contract on call data, `image_cell/mod.rs:30-69`.  A panic while decoding would be
lost here; there is none (`C123_no_panic`). -/
def imageExec (abi : HeaderAbi) (s : Ctx) (data : Bytes) : Outcome (Ctx × Bool) :=
  Cells.exec abi s ((toOption (decodeImage data)).map (imageArg abi))

/-- `From<metadata_abi::Metadata> for Metadata`, `metadata/abi/mod.rs:8-22`; see `Axon.Meta` for what is kept. -/
def metaArg (m : MetaArg) : Meta.Metadata :=
  ⟨m.version.1, m.version.2, m.epoch, m.verifiers.map (fun v => beNat v.address.bytes), m.config⟩

/-- The 192 bytes of the six hashes stand for the information. -/
def ckbArg (i : CkbInfo) : Nat :=
  beNat (i.metadataTypeId.bytes ++ i.checkpointTypeId.bytes ++ i.xudtArgs.bytes ++ i.stakeSmtTypeId.bytes ++
    i.delegateSmtTypeId.bytes ++ i.rewardSmtTypeId.bytes)

def metaCallArg : MetaCall → Meta.Call
  | .append m => .append (metaArg m)
  | .ckb i => .ckb (ckbArg i)
  | .config c => .config c

/-- `exec_` of the metadata contract on call data, `metadata/mod.rs:48-107` -/
def metaExec (s : Meta.Store) (block sender : Nat) (data : Bytes) : Outcome (Meta.Store × Bool) :=
  Meta.exec s block sender ((toOption (decodeMeta data)).map metaCallArg)

/-! ## Precompiles -/

/-- `Cell`, `precompiles/get_cell.rs:73-80` -/
def cellViewF : Fields CellView :=
  structF (consF (tupleC cellOutputF) <| consF bytesC <| consF boolC <| consF u64C <| lastF u64C)
    (fun c => (c.output, c.data, c.isConsumed, c.created, c.consumed))
    (fun (a, b, c, d, e) => ⟨a, b, c, d, e⟩) (fun _ => rfl)

/-- `GetCell::exec_fn` after the gas check, `precompiles/get_cell.rs:35-71`: `AbiEncode::encode((cell,))` has an
outer offset. -/
def getCellBytes (t : Trie) (input : Bytes) : Outcome Bytes :=
  (decodeStruct outPointF input).bind fun o =>
  (precompileCell t o).bind fun c => .ok (Abi.encode [(tupleC cellViewF).tok c])

end Axon.SysAbi
