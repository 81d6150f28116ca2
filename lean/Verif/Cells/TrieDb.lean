import Verif.Cells.ReadProps
import Verif.Metadata.ChainDb

/-!
# CKB headers and cells in the nodes of their trie

The stores of the image cell and CKB light client contracts
(`core/executor/src/system_contract/{image_cell,ckb_light_client}/store.rs`) once more, now on a Merkle-Patricia
trie.  `Cells/Store.lean` has the same functions on finite maps.
-/

namespace Axon.CkbChain
open Axon.Rlp Axon.Assoc Axon.Exec Axon.WorldDb
open Axon.Trie (Node)
open Axon.Cells (OutPoint CellInfo NewCell BlockUpdate BlockRollback HeaderAbi Call CellStatus CellView cellKey
  encodeCell decodeCell newInfo unpackOutput u64Zero)
open Axon.MetaTrie (Agree)
open Axon.MetaChain (Tidy)

variable (H : Bytes → H256) (abi : HeaderAbi)

/-- `MPTTrie::get`, `trie/wrapped.rs:12-14` -/
def look (t : Node) (k : Bytes) : Option Bytes := Trie.mptGet (hb H) t k

/-- `MPTTrie::insert`, `trie/wrapped.rs:20-22` -/
def write (t : Node) (k v : Bytes) : Node := Trie.mptInsert (hb H) t k v

/-- `get_cell`, `image_cell/store.rs:137-149` -/
def getCell (t : Node) (o : OutPoint) : Outcome (Option CellInfo) :=
  match look H t (cellKey o) with
  | none => .ok none
  | some b =>
    match decodeCell b with
    | some c => .ok (some c)
    | none => .err

/-- `insert_cell`, `image_cell/store.rs:198-202` -/
def insertCell (t : Node) (o : OutPoint) (c : CellInfo) : Node := write H t (cellKey o) (encodeCell c)

/-- `save_cells`, `image_cell/store.rs:151-196` -/
def saveCells (t : Node) (outputs : List NewCell) (created : U64) : Node :=
  outputs.foldl (fun t c => insertCell H t c.outPoint (newInfo c created)) t

/-- `mark_cells_consumed`, `image_cell/store.rs:99-113` -/
def markConsumed (t : Node) (n : U64) : List OutPoint → Outcome Node
  | [] => .ok t
  | o :: l =>
    match getCell H t o with
    | .ok none => markConsumed t n l
    | .ok (some c) => markConsumed (insertCell H t o { c with consumed := some n }) n l
    | .err => .err
    | .panic => .panic

/-- `mark_cells_not_consumed`, `image_cell/store.rs:123-135` -/
def markNotConsumed (t : Node) : List OutPoint → Outcome Node
  | [] => .ok t
  | o :: l =>
    match getCell H t o with
    | .ok none => markNotConsumed t l
    | .ok (some c) => markNotConsumed (insertCell H t o { c with consumed := none }) l
    | .err => .err
    | .panic => .panic

/-- `remove_cells` and `remove_cell`, `image_cell/store.rs:115-121, 204-218`: the trie says whether there was
anything to remove. -/
def removeCells (t : Node) : List OutPoint → Outcome Node
  | [] => .ok t
  | o :: l =>
    match look H t (cellKey o) with
    | some _ => removeCells (mptRemove H t (cellKey o)) l
    | none => .err

/-- `update` up to the commit, `image_cell/store.rs:81-88` -/
def update (t : Node) : List BlockUpdate → Outcome Node
  | [] => .ok t
  | b :: l =>
    match markConsumed H (saveCells H t b.outputs b.number) b.number b.inputs with
    | .ok t' => update t' l
    | .err => .err
    | .panic => .panic

/-- `rollback` up to the commit, `image_cell/store.rs:90-97` -/
def rollback (t : Node) : List BlockRollback → Outcome Node
  | [] => .ok t
  | b :: l =>
    match removeCells H t b.outputs with
    | .ok t' =>
      match markNotConsumed H t' b.inputs with
      | .ok t'' => rollback t'' l
      | .err => .err
      | .panic => .panic
    | .err => .err
    | .panic => .panic

/-- `CkbLightClientStore::update` and `save_header`, `ckb_light_client/store.rs:74-80, 108-112` -/
def saveHeaders (t : Node) (hs : List abi.Header) : Node :=
  hs.foldl (fun t h => write H t (abi.hash h).bytes (abi.enc h)) t

/-- `CkbLightClientStore::rollback` and `remove_header`, `ckb_light_client/store.rs:82-88, 114-127` -/
def removeHeaders (t : Node) : List H256 → Outcome Node
  | [] => .ok t
  | h :: l =>
    match look H t h.bytes with
    | some _ => removeHeaders (mptRemove H t h.bytes) l
    | none => .err

/-- `get_header`, `ckb_light_client/store.rs:90-106` -/
def getHeader (t : Node) (h : H256) : Outcome (Option abi.Header) :=
  match look H t h.bytes with
  | none => .ok none
  | some b =>
    match abi.dec b with
    | some x => .ok (some x)
    | none => .err

/-- What a call does to the trie, `image_cell/mod.rs:49-63`, `ckb_light_client/mod.rs:49-69`. -/
def runTrie (t : Node) : Call abi → Outcome Node
  | .update bs => update H t bs
  | .rollback bs => rollback H t bs
  | .saveHeaders hs => .ok (saveHeaders H abi t hs)
  | .removeHeaders hs => removeHeaders H t hs
  | .setCellState _ => .ok t
  | .setHeaderState _ => .ok t

/-- `<DataProvider as CellProvider>::cell`, `system_contract/mod.rs:242-254` -/
def provideCell (t : Node) (o : OutPoint) : CellStatus :=
  match getCell H t o with
  | .ok (some c) => .live c.output c.data
  | _ => .unknown

/-- `GetCell::exec_fn` after the decoding of the input, `precompiles/get_cell.rs:36-52` -/
def precompileCell (t : Node) (o : OutPoint) : Outcome CellView :=
  match getCell H t o with
  | .ok (some c) =>
    match unpackOutput c.output with
    | .ok out => .ok ⟨out, c.data, c.consumed.isSome, c.created, c.consumed.getD u64Zero⟩
    | .err => .err
    | .panic => .panic
  | .ok none => .err
  | .err => .err
  | .panic => .panic

/-- `GetHeader::exec_fn` after the decoding of the input, `precompiles/get_header.rs:34-52` -/
def precompileHeader (t : Node) (h : H256) : Outcome abi.Header :=
  match look H t h.bytes with
  | none => .err
  | some b =>
    match abi.dec b with
    | some x => .ok x
    | none => .panic

/-- The keys a call looks up or writes. -/
def callKeys : Call abi → List Bytes
  | .update bs => bs.flatMap fun b => b.outputs.map (fun c => cellKey c.outPoint) ++ b.inputs.map cellKey
  | .rollback bs => bs.flatMap fun b => b.outputs.map cellKey ++ b.inputs.map cellKey
  | .saveHeaders hs => hs.map fun h => (abi.hash h).bytes
  | .removeHeaders hs => hs.map (·.bytes)
  | .setCellState _ => []
  | .setHeaderState _ => []

/-! ## Against the finite maps -/

variable {H} {abi} {U : List Bytes}

/-- The trie holds what the map holds, under the keys in `U`. -/
structure Same (H : Bytes → H256) (U : List Bytes) (t : Node) (A : Cells.Trie) : Prop where
  tidy : Tidy t
  look : ∀ k ∈ U, look H t k = get A k

theorem key_len (k : Bytes) : (Trie.keyPath (hb H k)).length ≤ 64 := by
  rw [Trie.keyPath_length, hb_length]
  omega

theorem tidy_empty : Tidy .empty := ⟨Trie.canon_empty, fun k v h => by simp [Trie.get] at h⟩

theorem same_empty : Same H U .empty [] := ⟨tidy_empty, fun _ _ => rfl⟩

variable {t : Node} {A : Cells.Trie}

theorem Same.write (fr : Free H U) (h : Same H U t A) {k v : Bytes} (hk : k ∈ U) (hv : v ≠ []) :
    Same H U (write H t k v) (put A k v) := by
  refine ⟨⟨Trie.canon_put h.tidy.canon _ _, fun p w hp => ?_⟩, fun j hj => ?_⟩
  · unfold CkbChain.write Trie.mptInsert at hp
    rw [Trie.get_put] at hp
    split at hp
    · rename_i e; rw [e]; exact key_len k
    · exact h.tidy.len p w hp
  · show Trie.mptGet (hb H) (Trie.mptInsert (hb H) t k v) j = _
    rw [mptGet_insert fr hk hj hv, get_put, show Trie.mptGet (hb H) t j = get A j from h.look j hj]

theorem Same.remove (fr : Free H U) (h : Same H U t A) {k : Bytes} (hk : k ∈ U) :
    Same H U (mptRemove H t k) (del A k) := by
  refine ⟨⟨Trie.canon_remove _ _ h.tidy.canon, fun p w hp => ?_⟩, fun j hj => ?_⟩
  · unfold mptRemove at hp
    rw [Trie.get_remove] at hp
    split at hp
    · cases hp
    · exact h.tidy.len p w hp
  · show Trie.mptGet (hb H) (mptRemove H t k) j = _
    rw [mptGet_remove fr hk hj, get_del, show Trie.mptGet (hb H) t j = get A j from h.look j hj]

theorem getCell_same (h : Same H U t A) {o : OutPoint} (ho : cellKey o ∈ U) :
    getCell H t o = Cells.getCell A o := by
  unfold getCell Cells.getCell
  rw [h.look _ ho]
  rfl

theorem encodeCell_ne (c : CellInfo) : encodeCell c ≠ [] := by
  unfold encodeCell Cells.cellItem
  rw [encode]
  unfold encPayload
  split <;> simp [longHeader]

theorem insertCell_same (fr : Free H U) (h : Same H U t A) {o : OutPoint} (ho : cellKey o ∈ U) (c : CellInfo) :
    Same H U (insertCell H t o c) (Cells.insertCell A o c) := h.write fr ho (encodeCell_ne c)

theorem saveCells_same (fr : Free H U) (n : U64) : ∀ (l : List NewCell) {t : Node} {A : Cells.Trie},
    Same H U t A → (∀ c ∈ l, cellKey c.outPoint ∈ U) → Same H U (saveCells H t l n) (Cells.saveCells A l n) := by
  intro l
  induction l with
  | nil => intro t A h _; exact h
  | cons c l ih =>
    intro t A h hk
    have := ih (insertCell_same fr h (hk c (by simp)) (newInfo c n)) (fun c hc => hk c (by simp [hc]))
    simpa only [saveCells, Cells.saveCells, List.foldl_cons] using this

theorem markConsumed_agree (fr : Free H U) (n : U64) : ∀ (l : List OutPoint) {t : Node} {A : Cells.Trie},
    Same H U t A → (∀ o ∈ l, cellKey o ∈ U) →
    Agree (Same H U) (markConsumed H t n l) (Cells.markConsumed A n l) := by
  intro l
  induction l with
  | nil => intro t A h _; exact .ok h
  | cons o l ih =>
    intro t A h hk
    have hl : ∀ o ∈ l, cellKey o ∈ U := fun o ho => hk o (by simp [ho])
    simp only [markConsumed, Cells.markConsumed]
    rw [getCell_same h (hk o (by simp))]
    cases Cells.getCell A o with
    | err => exact .err
    | panic => exact .panic
    | ok c =>
      cases c with
      | none => exact ih h hl
      | some c => exact ih (insertCell_same fr h (hk o (by simp)) _) hl

theorem markNotConsumed_agree (fr : Free H U) : ∀ (l : List OutPoint) {t : Node} {A : Cells.Trie},
    Same H U t A → (∀ o ∈ l, cellKey o ∈ U) →
    Agree (Same H U) (markNotConsumed H t l) (Cells.markNotConsumed A l) := by
  intro l
  induction l with
  | nil => intro t A h _; exact .ok h
  | cons o l ih =>
    intro t A h hk
    have hl : ∀ o ∈ l, cellKey o ∈ U := fun o ho => hk o (by simp [ho])
    simp only [markNotConsumed, Cells.markNotConsumed]
    rw [getCell_same h (hk o (by simp))]
    cases Cells.getCell A o with
    | err => exact .err
    | panic => exact .panic
    | ok c =>
      cases c with
      | none => exact ih h hl
      | some c => exact ih (insertCell_same fr h (hk o (by simp)) _) hl

theorem removeCells_agree (fr : Free H U) : ∀ (l : List OutPoint) {t : Node} {A : Cells.Trie},
    Same H U t A → (∀ o ∈ l, cellKey o ∈ U) →
    Agree (Same H U) (removeCells H t l) (Cells.removeCells A l) := by
  intro l
  induction l with
  | nil => intro t A h _; exact .ok h
  | cons o l ih =>
    intro t A h hk
    simp only [removeCells, Cells.removeCells]
    rw [h.look _ (hk o (by simp))]
    cases get A (cellKey o) with
    | none => exact .err
    | some b => exact ih (h.remove fr (hk o (by simp))) (fun o ho => hk o (by simp [ho]))

theorem removeHeaders_agree (fr : Free H U) : ∀ (l : List H256) {t : Node} {A : Cells.Trie},
    Same H U t A → (∀ h ∈ l, h.bytes ∈ U) →
    Agree (Same H U) (removeHeaders H t l) (Cells.removeHeaders A l) := by
  intro l
  induction l with
  | nil => intro t A h _; exact .ok h
  | cons o l ih =>
    intro t A h hk
    simp only [removeHeaders, Cells.removeHeaders]
    rw [h.look _ (hk o (by simp))]
    cases get A o.bytes with
    | none => exact .err
    | some b => exact ih (h.remove fr (hk o (by simp))) (fun o ho => hk o (by simp [ho]))

theorem saveHeaders_same (fr : Free H U) : ∀ (l : List abi.Header) {t : Node} {A : Cells.Trie},
    Same H U t A → (∀ x ∈ l, (abi.hash x).bytes ∈ U) →
    Same H U (saveHeaders H abi t l) (Cells.saveHeaders abi A l) := by
  intro l
  induction l with
  | nil => intro t A h _; exact h
  | cons c l ih =>
    intro t A h hk
    have := ih (h.write fr (hk c (by simp)) (abi.nonempty c)) (fun c hc => hk c (by simp [hc]))
    simpa only [saveHeaders, Cells.saveHeaders, List.foldl_cons] using this

theorem update_agree (fr : Free H U) : ∀ (bs : List BlockUpdate) {t : Node} {A : Cells.Trie}, Same H U t A →
    (∀ k ∈ callKeys abi (.update bs), k ∈ U) → Agree (Same H U) (update H t bs) (Cells.update A bs) := by
  intro bs
  induction bs with
  | nil => intro t A h _; exact .ok h
  | cons b bs ih =>
    intro t A h hk
    simp only [callKeys, List.flatMap_cons, List.mem_append, List.mem_map] at hk
    have h1 := markConsumed_agree fr b.number b.inputs
      (saveCells_same fr b.number b.outputs h fun c hc => hk _ (.inl (.inl ⟨c, hc, rfl⟩)))
      (fun o ho => hk _ (.inl (.inr ⟨o, ho, rfl⟩)))
    simp only [update, Cells.update]
    revert h1
    generalize markConsumed H (saveCells H t b.outputs b.number) b.number b.inputs = x
    generalize Cells.markConsumed (Cells.saveCells A b.outputs b.number) b.number b.inputs = y
    intro h1
    cases h1 with
    | ok h1 => exact ih h1 fun k hk' => hk k (.inr hk')
    | err => exact .err
    | panic => exact .panic

theorem rollback_agree (fr : Free H U) : ∀ (bs : List BlockRollback) {t : Node} {A : Cells.Trie}, Same H U t A →
    (∀ k ∈ callKeys abi (.rollback bs), k ∈ U) → Agree (Same H U) (rollback H t bs) (Cells.rollback A bs) := by
  intro bs
  induction bs with
  | nil => intro t A h _; exact .ok h
  | cons b bs ih =>
    intro t A h hk
    simp only [callKeys, List.flatMap_cons, List.mem_append, List.mem_map] at hk
    have h1 := removeCells_agree fr b.outputs h fun o ho => hk _ (.inl (.inl ⟨o, ho, rfl⟩))
    simp only [rollback, Cells.rollback]
    revert h1
    generalize removeCells H t b.outputs = x
    generalize Cells.removeCells A b.outputs = y
    intro h1
    cases h1 with
    | err => exact .err
    | panic => exact .panic
    | @ok t1 A1 h1 =>
      simp only
      have h2 := markNotConsumed_agree fr b.inputs h1 fun o ho => hk _ (.inl (.inr ⟨o, ho, rfl⟩))
      revert h2
      generalize markNotConsumed H t1 b.inputs = x
      generalize Cells.markNotConsumed A1 b.inputs = y
      intro h2
      cases h2 with
      | ok h2 => exact ih h2 fun k hk' => hk k (.inr hk')
      | err => exact .err
      | panic => exact .panic

/-- Every call does to the trie what it does to the map. -/
theorem runTrie_agree (fr : Free H U) (h : Same H U t A) (c : Call abi) (hk : ∀ k ∈ callKeys abi c, k ∈ U) :
    Agree (Same H U) (runTrie H abi t c) (Cells.runTrie abi A c) := by
  cases c with
  | update bs => exact update_agree fr bs h hk
  | rollback bs => exact rollback_agree fr bs h hk
  | saveHeaders hs => exact .ok (saveHeaders_same fr hs h fun x hx => hk _ (List.mem_map.2 ⟨x, hx, rfl⟩))
  | removeHeaders hs => exact removeHeaders_agree fr hs h fun x hx => hk _ (List.mem_map.2 ⟨x, hx, rfl⟩)
  | setCellState b => exact .ok h
  | setHeaderState b => exact .ok h

theorem getHeader_same (h : Same H U t A) {k : H256} (hk : k.bytes ∈ U) :
    getHeader H abi t k = Cells.getHeader abi A k := by
  unfold getHeader Cells.getHeader
  rw [h.look _ hk]
  rfl

theorem precompileHeader_same (h : Same H U t A) {k : H256} (hk : k.bytes ∈ U) :
    precompileHeader H abi t k = Cells.precompileHeader abi A k := by
  unfold precompileHeader Cells.precompileHeader
  rw [h.look _ hk]
  rfl

theorem provideCell_same (h : Same H U t A) {o : OutPoint} (ho : cellKey o ∈ U) :
    provideCell H t o = Cells.provideCell A o := by
  unfold provideCell Cells.provideCell
  rw [getCell_same h ho]
  rfl

theorem precompileCell_same (h : Same H U t A) {o : OutPoint} (ho : cellKey o ∈ U) :
    precompileCell H t o = Cells.precompileCell A o := by
  unfold precompileCell Cells.precompileCell
  rw [getCell_same h ho]
  rfl

end Axon.CkbChain
