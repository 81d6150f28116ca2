import Verif.Cells.ChainDbProps

/-!
# What the node tells about CKB headers and cells

`DataProvider` (`core/executor/src/system_contract/mod.rs:237-319`), which serves scripts, and the RPC of the light
client (`core/api/src/jsonrpc/impl/ckb_light_client.rs`), on the databases of `Cells/ChainDb.lean`.

The hash of CKB, `ckb_blake2b_256`, is a parameter.  `HeaderView`, `CellMeta` and the JSON types are those of the
dependencies `ckb_types` and `ckb_jsonrpc_types` 0.111, of which the parts used are modelled here.
-/

namespace Axon.CkbData
open Axon.Exec Axon.WorldDb Axon.CkbChain
open Axon.Mol (le)
open Axon.Trie (Node)
open Axon.Cells (OutPoint CellInfo CellOutput Script unpackOutput)
open Axon.MetaChain (ofVal zeroRoot)
open Axon.SysAbi (Header headerAbi)

variable (B : Bytes → H256) (H : Bytes → H256)

/-- `HeaderView` of `ckb_types` without its hash. -/
structure HeaderView where
  version : U32
  compactTarget : U32
  timestamp : U64
  number : U64
  epoch : U64
  parentHash : H256
  transactionsRoot : H256
  proposalsHash : H256
  extraHash : H256
  dao : H256
  nonce : UIntN 128
deriving DecidableEq

/-- The `HeaderBuilder` chain, `system_contract/mod.rs:285-298` -/
def viewOf (h : Header) : HeaderView :=
  { version := h.version
    parentHash := h.parentHash
    timestamp := h.timestamp
    number := h.number
    epoch := h.epoch
    transactionsRoot := h.transactionsRoot
    proposalsHash := h.proposalsHash
    extraHash := h.extraHash
    compactTarget := h.compactTarget
    dao := h.dao
    nonce := h.nonce }

/-- `packed::Header::as_slice`: a structure of `RawHeader` and nonce, all of fixed size, numbers little-endian. -/
def headerBytes (v : HeaderView) : Bytes :=
  le 4 v.version.val ++ (le 4 v.compactTarget.val ++ (le 8 v.timestamp.val ++ (le 8 v.number.val ++
    (le 8 v.epoch.val ++ (v.parentHash.bytes ++ (v.transactionsRoot.bytes ++ (v.proposalsHash.bytes ++
    (v.extraHash.bytes ++ (v.dao.bytes ++ le 16 v.nonce.val)))))))))

/-- `HeaderBuilder::build`: the hash is computed from the packed header. -/
def headerHash (v : HeaderView) : H256 := B (headerBytes v)

/-- A result without its error, `.ok().flatten()`. -/
def settle {α : Type} : Outcome (Option α) → Outcome (Option α)
  | .ok x => .ok x
  | .err => .ok none
  | .panic => .panic

/-- `CkbHeaderReader::get_header_by_block_hash`, `ckb_light_client/mod.rs:79-86` -/
def readHeader (db : List Bytes) (root k : H256) : Outcome (Option headerAbi.Header) :=
  (openStore H db root).bind fun t => getHeader H headerAbi t k

/-- `ImageCellReader::get_cell`, `image_cell/mod.rs:74-77` -/
def readCell (db : List Bytes) (root : H256) (o : OutPoint) : Outcome (Option CellInfo) :=
  (openStore H db root).bind fun t => getCell H t o

/-- `<DataProvider as HeaderProvider>::get_header`, `system_contract/mod.rs:277-300`, with the hash. -/
def provideHeader (db : List Bytes) (root k : H256) : Outcome (Option (HeaderView × H256)) :=
  (settle (readHeader H db root k)).bind fun x => .ok (x.map fun h => (viewOf h.1, headerHash B (viewOf h.1)))

/-- `<DataProvider as ExtensionProvider>::get_block_extension`, `system_contract/mod.rs:302-311` -/
def provideExtension (db : List Bytes) (root k : H256) : Outcome (Option Bytes) :=
  (settle (readHeader H db root k)).bind fun x => .ok (x.map fun h => h.1.extension)

/-- `cell_data_hash`, `image_cell/store.rs:295-301` -/
def dataHash (d : Bytes) : H256 := if d.length ≠ 0 then B d else zeroRoot

/-- `CellMeta` as `into_meta` fills it, `image_cell/store.rs:281-292`; the out point is the one asked for, there is no
transaction info, and data and data hash are always there. -/
structure CellMeta where
  output : Bytes
  dataBytes : Nat
  data : Bytes
  dataHash : H256
deriving DecidableEq

def metaOf (c : CellInfo) : CellMeta := ⟨c.output, c.data.length, c.data, dataHash B c.data⟩

/-- `<DataProvider as CellProvider>::cell`, `system_contract/mod.rs:242-254`: `none` is `CellStatus::Unknown`. -/
def provideMeta (db : List Bytes) (root : H256) (o : OutPoint) : Outcome (Option CellMeta) :=
  (settle (readCell H db root o)).bind fun x => .ok (x.map (metaOf B))

/-- `get_cell_data`, `system_contract/mod.rs:257-264` -/
def provideData (db : List Bytes) (root : H256) (o : OutPoint) : Outcome (Option Bytes) :=
  (settle (readCell H db root o)).bind fun x => .ok (x.map (·.data))

/-- `get_cell_data_hash`, `system_contract/mod.rs:266-274` -/
def provideDataHash (db : List Bytes) (root : H256) (o : OutPoint) : Outcome (Option H256) :=
  (provideData H db root o).bind fun x => .ok (x.map fun d => if d = [] then zeroRoot else B d)

/-! ## RPC -/

/-- `ScriptHashType` of `ckb_types`. -/
inductive HashType where
  | data
  | type
  | data1
deriving DecidableEq

/-- `ScriptHashType::try_from` of a byte. -/
def hashType? (b : UInt8) : Option HashType :=
  if b = 0 then some .data else if b = 1 then some .type else if b = 2 then some .data1 else none

/-- `ckb_jsonrpc_types::Script` -/
structure JsonScript where
  codeHash : H256
  hashType : HashType
  args : Bytes
deriving DecidableEq

/-- `From<packed::Script>`: the hash type is expected to be known. -/
def jsonScript (s : Script) : Outcome JsonScript :=
  (Outcome.orPanic (hashType? s.hashType)).bind fun t => .ok ⟨s.codeHash, t, s.args⟩

/-- `ckb_jsonrpc_types::CellOutput` -/
structure JsonOutput where
  capacity : U64
  lock : JsonScript
  type_ : Option JsonScript
deriving DecidableEq

/-- `From<packed::CellOutput>` -/
def jsonOutput (o : CellOutput) : Outcome JsonOutput :=
  (jsonScript o.lock).bind fun l =>
    match o.type_ with
    | [] => .ok ⟨o.capacity, l, none⟩
    | s :: _ => (jsonScript s).bind fun t => .ok ⟨o.capacity, l, some t⟩

/-- `ckb_jsonrpc_types::CellInfo`; data are content and hash. -/
structure JsonCell where
  output : JsonOutput
  data : Option (Bytes × H256)
deriving DecidableEq

/-- `get_image_cell_root`, `core/api/src/adapter.rs:356-366`, for the state root of the latest block. -/
def rootAt (c : Chain) (r : H256) : Outcome H256 :=
  (openTrie H c.world.nodes r).bind fun t =>
  (storage H { c.world with trie := t } image (slotKey H)).bind fun v => .ok (ofVal v)

/-- `get_block_header_by_hash`, `ckb_light_client.rs:22-31` -/
def rpcHeader (c : Chain) (r k : H256) : Outcome (Option (HeaderView × H256)) :=
  (rootAt H c r).bind fun root => provideHeader B H c.db root k

/-- `get_cell_info`, `ckb_light_client.rs:33-59` -/
def rpcCell (c : Chain) (r : H256) (o : OutPoint) (withData : Bool) : Outcome (Option JsonCell) :=
  (rootAt H c r).bind fun root =>
  (provideMeta B H c.db root o).bind fun m =>
    match m with
    | none => .ok none
    | some m =>
      (unpackOutput m.output).bind fun out =>
      (jsonOutput out).bind fun j =>
        .ok (some ⟨j, if withData then some (m.data, B m.data) else none⟩)

/-! ## Lemmas -/

variable {B H}

theorem rootAt_of {c : Chain} {r : H256} {t : Node} (h : storeAt H c image r = .ok t) :
    ∃ root, rootAt H c r = .ok root ∧ openStore H c.db root = .ok t := by
  unfold storeAt at h
  unfold rootAt
  cases h1 : openTrie H c.world.nodes r with
  | err => rw [h1] at h; cases h
  | panic => rw [h1] at h; cases h
  | ok s =>
    rw [h1] at h
    simp only [Outcome.bind] at h ⊢
    cases h2 : storage H { c.world with trie := s } image (slotKey H) with
    | err => rw [h2] at h; cases h
    | panic => rw [h2] at h; cases h
    | ok v => rw [h2] at h; exact ⟨_, rfl, h⟩

section
variable {abi : Cells.HeaderAbi}

/-- A header that is there is there under its hash. -/
theorem headerAfter_hash {v : H256 → Option abi.Header} (hv : ∀ k x, v k = some x → abi.hash x = k)
    (d : Cells.Call abi) : ∀ k x, headerAfter v d k = some x → abi.hash x = k := by
  intro k x h
  cases d with
  | saveHeaders hs =>
    simp only [headerAfter] at h
    cases e : Cells.lastHeader abi hs k with
    | none => rw [e] at h; exact hv k x h
    | some y =>
      rw [e] at h
      cases h
      have := List.find?_some e
      simpa using this
  | removeHeaders l =>
    simp only [headerAfter] at h
    by_cases hk : k ∈ l
    · rw [if_pos hk] at h; cases h
    · rw [if_neg hk] at h; exact hv k x h
  | update bs => exact hv k x h
  | rollback bs => exact hv k x h
  | setCellState b => exact hv k x h
  | setHeaderState b => exact hv k x h

theorem headers_hash (calls : List (Cells.Call abi)) {k : H256} {x : abi.Header} (h : headers calls k = some x) :
    abi.hash x = k := by
  have : ∀ (l : List (Cells.Call abi)) (v : H256 → Option abi.Header), (∀ k x, v k = some x → abi.hash x = k) →
      ∀ k x, l.foldl headerAfter v k = some x → abi.hash x = k := by
    intro l
    induction l with
    | nil => intro v hv; exact hv
    | cons d l ih => intro v hv; exact ih _ (headerAfter_hash hv d)
  exact this calls _ (fun _ _ h => by cases h) k x h

/-- The cell was created by this output in one of the calls. -/
def Submitted (calls : List (Cells.Call abi)) (n : Cells.NewCell) : Prop :=
  ∃ bs b, Cells.Call.update bs ∈ calls ∧ b ∈ bs ∧ n ∈ b.outputs

theorem specBlock_submitted {P : OutPoint → CellInfo → Prop}
    (hP : ∀ o c n, P o c → P o { c with consumed := n }) {v : OutPoint → Option CellInfo} {b : Cells.BlockUpdate}
    (hn : ∀ n ∈ b.outputs, ∀ m, P n.outPoint ⟨Cells.packOutput n.output, n.data, m, none⟩)
    (hv : ∀ o c, v o = some c → P o c) : ∀ o c, Cells.specBlock v b o = some c → P o c := by
  intro o c h
  unfold Cells.specBlock at h
  have key : ∀ c, (match Cells.lastNew b.outputs o with
      | some n => some ⟨Cells.packOutput n.output, n.data, b.number, none⟩
      | none => v o) = some c → P o c := by
    intro c h
    cases e : Cells.lastNew b.outputs o with
    | none => rw [e] at h; exact hv o c h
    | some n =>
      rw [e] at h
      cases h
      unfold Cells.lastNew at e
      have h1 := List.find?_some e
      have h2 := List.mem_of_find?_eq_some e
      have h1 : n.outPoint = o := by simpa using h1
      exact h1 ▸ hn n (by simpa using h2) _
  by_cases hi : o ∈ b.inputs
  · simp only [hi, if_true] at h
    obtain ⟨c', e1, rfl⟩ := Option.map_eq_some_iff.1 h
    exact hP o c' _ (key c' e1)
  · simp only [hi, if_false] at h
    exact key c h

theorem cells_submitted (calls : List (Cells.Call abi)) {o : OutPoint} {c : CellInfo} (h : cells calls o = some c) :
    ∃ n, Submitted calls n ∧ n.outPoint = o ∧ c.output = Cells.packOutput n.output ∧ c.data = n.data := by
  have : ∀ (all l : List (Cells.Call abi)) (v : OutPoint → Option CellInfo), (∀ d ∈ l, d ∈ all) →
      (∀ o c, v o = some c → ∃ n, Submitted all n ∧ n.outPoint = o ∧ c.output = Cells.packOutput n.output ∧
        c.data = n.data) →
      ∀ o c, l.foldl cellAfter v o = some c → ∃ n, Submitted all n ∧ n.outPoint = o ∧
        c.output = Cells.packOutput n.output ∧ c.data = n.data := by
    intro all l
    induction l with
    | nil => intro v _ hv; exact hv
    | cons d l ih =>
      intro v hl hv
      refine ih _ (fun d hd => hl d (by simp [hd])) ?_
      have hd := hl d (by simp)
      cases d with
      | update bs =>
        have aux : ∀ (xs : List Cells.BlockUpdate) (v : OutPoint → Option CellInfo), (∀ b ∈ xs, b ∈ bs) →
            (∀ o c, v o = some c → ∃ n, Submitted all n ∧ n.outPoint = o ∧ c.output = Cells.packOutput n.output ∧
              c.data = n.data) →
            ∀ o c, xs.foldl Cells.specBlock v o = some c → ∃ n, Submitted all n ∧ n.outPoint = o ∧
              c.output = Cells.packOutput n.output ∧ c.data = n.data := by
          intro xs
          induction xs with
          | nil => intro v _ hv; exact hv
          | cons b xs ih =>
            intro v hx hv
            refine ih _ (fun b hb' => hx b (by simp [hb'])) ?_
            refine specBlock_submitted (P := fun o c => ∃ n, Submitted all n ∧ n.outPoint = o ∧
              c.output = Cells.packOutput n.output ∧ c.data = n.data) (fun _ _ _ h => h) (fun n hn m => ?_) hv
            exact ⟨n, ⟨bs, b, hd, hx b (by simp), hn⟩, rfl, rfl, rfl⟩
        exact aux bs v (fun _ h => h) hv
      | rollback bs =>
        intro o c h
        simp only [cellAfter] at h
        by_cases h1 : o ∈ Cells.backOuts bs
        · rw [if_pos h1] at h; cases h
        · rw [if_neg h1] at h
          by_cases h2 : o ∈ Cells.backIns bs
          · rw [if_pos h2] at h
            obtain ⟨c', e1, rfl⟩ := Option.map_eq_some_iff.1 h
            exact hv o c' e1
          · rw [if_neg h2] at h; exact hv o c h
      | saveHeaders hs => exact hv
      | removeHeaders l => exact hv
      | setCellState b => exact hv
      | setHeaderState b => exact hv
  exact this calls calls _ (fun _ h => h) (fun _ _ h => by cases h) o c h
end

end Axon.CkbData
