import Verif.Codec.Block
import Verif.Trie.Nodes
import Verif.Executor.StateLemmas

/-!
# The chain state on the bytes of the trie database

`AxonExecutorReadOnlyAdapter` and `AxonExecutorApplyAdapter`
(`core/executor/src/adapter/backend/{read_only,apply}.rs`) once more, now on the nodes of the Merkle-Patricia
tries: accounts are encoded in the state trie, every account names the root of its storage trie, and both kinds
of trie share one database.  `Executor/State.lean` has the same functions on finite maps.
-/

namespace Axon.WorldDb
open Axon.Rlp Axon.Block Axon.Assoc Axon.Exec
open Axon.Trie (Node)

/-- The hash as bytes, for the trie. -/
def hb (H : Bytes → H256) (b : Bytes) : Bytes := (H b).bytes

/-- Encoding of `Account` (crate `ethereum`, derived): nonce, balance, storage root, code hash. -/
def accItem (a : Account H256) : Item :=
  .list [ofUint a.nonce, ofUint a.balance, ofFixed a.storageRoot, ofFixed a.codeHash]

/-- Decoding of `Account`. -/
def itemAcc : Item → Option (Account H256)
  | .list l => do
    let nonce ← valAt l 0 (toUint 256)
    let balance ← valAt l 1 (toUint 256)
    let storageRoot ← valAt l 2 (toFixed 32)
    let codeHash ← valAt l 3 (toFixed 32)
    pure { nonce, balance, storageRoot, codeHash }
  | .str _ => none

def encAcc (a : Account H256) : Bytes := encode (accItem a)

/-- `Account::decode` -/
def decAcc (b : Bytes) : Option (Account H256) := (decode b).bind itemAcc

/-- An adapter with what lies behind it: the open state trie, the nodes in the trie database, the codes in the
block storage, and the state roots `commit` has returned so far. -/
structure World where
  trie : Node
  nodes : List Bytes
  codes : List (H256 × Bytes)
  roots : List H256

/-- `AxonExecutorApplyAdapter::new` on an empty database, `apply.rs:283-288`. -/
def World.init : World := ⟨.empty, [], [], []⟩

variable (H : Bytes → H256)

/-- `RLP_NULL`, `protocol/src/types/primitive.rs:35-40` -/
def rlpNull : H256 := H [0x80]

/-- `NIL_DATA`, `protocol/src/types/primitive.rs:30-33` -/
def nilData : H256 := H []

/-- The account used when the trie has none, `read_only.rs:45-50`, `apply.rs:158-163` -/
def emptyAcc : Account H256 := ⟨U256.zero, U256.zero, rlpNull H, nilData H⟩

/-- `self.trie.get(address.as_bytes())` -/
def find (w : World) (a : H160) : Option Bytes := Trie.mptGet (hb H) w.trie a.bytes

/-- `MPTTrie::remove`, `trie/wrapped.rs:24-26` -/
def mptRemove (t : Node) (k : Bytes) : Node := Trie.remove t (Trie.keyPath (hb H k))

/-- `MPTTrie::from_root`, `trie/wrapped.rs:52-58` -/
def openTrie (nodes : List Bytes) (r : H256) : Outcome Node := Trie.openAt (hb H) nodes r.bytes

/-- The root of a trie, `MPTTrie::commit`, `trie/wrapped.rs:60-69`. -/
def rootOf (t : Node) : H256 := H (Trie.raw (hb H) t)

/-! ## Reading, `read_only.rs` -/

/-- `get_account`, `read_only.rs:40-51` -/
def getAccount (w : World) (a : H160) : Outcome (Account H256) :=
  match find H w a with
  | some raw => .orPanic (decAcc raw)
  | none => .ok (emptyAcc H)

/-- `exists`, `read_only.rs:111-115` -/
def existsAccount (w : World) (a : H160) : Bool := (find H w a).isSome

/-- `basic`, `read_only.rs:117-133` -/
def basic (w : World) (a : H160) : Basic :=
  match find H w a with
  | some raw =>
    match decAcc raw with
    | some acc => ⟨acc.balance, acc.nonce⟩
    | none => ⟨U256.zero, U256.zero⟩
  | none => ⟨U256.zero, U256.zero⟩

/-- `code`, `read_only.rs:135-155`; the block storage keeps codes under their hashes -/
def code (w : World) (a : H160) : Outcome Bytes :=
  match find H w a with
  | none => .ok []
  | some raw => (Outcome.orPanic (decAcc raw)).bind fun acc =>
      .ok (if acc.codeHash = nilData H then [] else (get w.codes acc.codeHash).getD [])

/-- `storage`, `read_only.rs:162-189` -/
def storage (w : World) (a : H160) (k : H256) : Outcome U256 :=
  match find H w a with
  | none => .ok U256.zero
  | some raw =>
    match decAcc raw with
    | none => .ok U256.zero
    | some acc =>
      if acc.storageRoot = rlpNull H then .ok U256.zero
      else match openTrie H w.nodes acc.storageRoot with
        | .ok t => match Trie.mptGet (hb H) t k.bytes with
          | some b => .orPanic (decVal b)
          | none => .ok U256.zero
        | .err => .ok U256.zero
        | .panic => .panic

/-! ## Writing, `apply.rs` -/

/-- One storage write, `apply.rs:178-198` -/
def writeSlot (t : Node) (kv : H256 × U256) : Node :=
  if kv.2 = U256.zero then mptRemove H t kv.1.bytes
  else Trie.mptInsert (hb H) t kv.1.bytes (encVal kv.2)

/-- The storage trie the writes go to, `apply.rs:166-176` -/
def openStorage (w : World) (old : Account H256) (reset : Bool) : Outcome Node :=
  if reset then .ok .empty
  else if old.storageRoot = rlpNull H then .ok .empty
  else match openTrie H w.nodes old.storageRoot with
    | .ok t => .ok t
    | _ => .panic

/-- The storage trie after the writes, `apply.rs:156-198` -/
def storageAfter (w : World) (a : H160) (ws : List (H256 × U256)) (reset : Bool) : Outcome Node :=
  (getAccount H w a).bind fun old =>
  (openStorage H w old reset).bind fun t => .ok (ws.foldl (writeSlot H) t)

/-- The code hash of the account written, `apply.rs:204-227` -/
def hashAfter (old : Account H256) : Option Bytes → H256
  | some code => H code
  | none => old.codeHash

/-- The codes after the write: a code is stored when its hash is not the one the account had,
`apply.rs:211-227`. -/
def codesAfter (w : World) (old : Account H256) : Option Bytes → List (H256 × Bytes)
  | some code => if H code ≠ old.codeHash then put w.codes (H code) code else w.codes
  | none => w.codes

/-- `AxonExecutorApplyAdapter::apply` for one account, `apply.rs:148-239`; the flag says that the account
counts as empty.  Failures of the databases are not modelled. -/
def applyOne (w : World) (a : H160) (b : Basic) (c : Option Bytes) (ws : List (H256 × U256)) (reset : Bool) :
    Outcome (World × Bool) :=
  (getAccount H w a).bind fun old =>
  (storageAfter H w a ws reset).bind fun t =>
  let hash := hashAfter H old c
  let acc : Account H256 := ⟨b.nonce, b.balance, rootOf H t, hash⟩
  .ok ({ w with trie := Trie.mptInsert (hb H) w.trie a.bytes (encAcc acc),
                nodes := Trie.stored (hb H) t ++ w.nodes, codes := codesAfter H w old c },
    decide (b.balance = U256.zero ∧ b.nonce = U256.zero ∧ hash.bytes = List.replicate 32 0))

/-- What is done with an adapter: `ApplyBackend::apply` (one change), `save_account` of an account read before
(`core/executor/src/lib.rs:179, 317, 380, 471`), `commit`, and `from_root` with a root that `commit` returned. -/
inductive Op where
  | change (ch : Change) (deleteEmpty : Bool)
  | save (a : H160) (nonce balance : U256)
  | commit
  | reopen (i : Nat)

/-- The effect of an operation: `apply.rs:128-140, 248-275, 290-300`, `read_only.rs:212-226`. -/
def step (w : World) : Op → Outcome World
  | .change (.modify a b c ws reset) de =>
    (applyOne H w a b c ws reset).bind fun r =>
      .ok (if r.2 && de then { r.1 with trie := mptRemove H r.1.trie a.bytes } else r.1)
  | .change (.delete a) _ => .ok { w with trie := mptRemove H w.trie a.bytes }
  | .save a nonce balance =>
    (getAccount H w a).bind fun acc =>
      .ok { w with
        trie := Trie.mptInsert (hb H) w.trie a.bytes (encAcc { acc with nonce := nonce, balance := balance }) }
  | .commit =>
    .ok { w with nodes := Trie.stored (hb H) w.trie ++ w.nodes, roots := w.roots ++ [rootOf H w.trie] }
  | .reopen i =>
    match w.roots[i]? with
    | none => .ok w
    | some r => (openTrie H w.nodes r).bind fun t => .ok { w with trie := t }

def run : List Op → World → Outcome World
  | [], w => .ok w
  | o :: ops, w => (step H w o).bind (run ops)

/-- What an operation hashes: keys, codes, and the nodes of the tries it commits. -/
def hashed (w : World) : Op → List Bytes
  | .change (.modify a _ c ws reset) _ => a.bytes :: c.toList ++ ws.map (·.1.bytes) ++
      match storageAfter H w a ws reset with
      | .ok t => Trie.pieces (hb H) t
      | _ => []
  | .change (.delete a) _ => [a.bytes]
  | .save a _ _ => [a.bytes]
  | .commit => Trie.pieces (hb H) w.trie
  | .reopen _ => []

def hashedRun : List Op → World → List Bytes
  | [], _ => []
  | o :: ops, w => hashed H w o ++
    match step H w o with
    | .ok w' => hashedRun ops w'
    | _ => []

/-! ## Specification -/

/-- The accounts there are, and what can be read about them. -/
abbrev Spec := H160 → Option View

/-- The state and the states committed, oldest first. -/
structure SState where
  cur : Spec
  saved : List Spec

def SState.init : SState := ⟨fun _ => none, []⟩

def Spec.set (σ : Spec) (a : H160) (v : Option View) : Spec := fun x => if x = a then v else σ x

/-- What an operation should do. -/
def specStep (s : SState) : Op → SState
  | .change (.modify a b c ws reset) _ =>
    let old := (s.cur a).getD emptyView
    { s with cur := Spec.set s.cur a (some ⟨b.nonce, b.balance, c.getD old.code, specSlots old.slot ws reset⟩) }
  | .change (.delete a) _ => { s with cur := Spec.set s.cur a none }
  | .save a nonce balance =>
    { s with cur := Spec.set s.cur a (some { (s.cur a).getD emptyView with nonce := nonce, balance := balance }) }
  | .commit => { s with saved := s.saved ++ [s.cur] }
  | .reopen i => { s with cur := s.saved[i]?.getD s.cur }

def specRun (ops : List Op) (s : SState) : SState := ops.foldl specStep s

/-! ## Encodings -/

theorem itemAcc_item (a : Account H256) : itemAcc (accItem a) = some a := by
  simp [itemAcc, accItem, valAt]

theorem encPayload_le (p : Bytes) (h : p.length < 2 ^ 64) : (encPayload p).length ≤ p.length + 9 := by
  unfold encPayload
  split
  · simp
  · have := beBytes_length_le p.length 8 (by simpa using h)
    simp [longHeader]; omega

theorem encAcc_length (a : Account H256) : (encAcc a).length ≤ 200 := by
  have hu : ∀ v : U256, (encode (ofUint v)).length ≤ 41 := by
    intro v
    have h : (beBytes v.val).length ≤ 32 := beBytes_length_le _ _ (by
      have := v.lt; simpa [show (256 : Nat) ^ 32 = 2 ^ 256 by decide] using this)
    have := Trie.encStr_le (beBytes v.val) (by omega)
    unfold ofUint
    rw [encode]
    omega
  have hf : ∀ v : H256, (encode (ofFixed v)).length ≤ 41 := by
    intro v
    have := Trie.encStr_le v.bytes (by rw [v.len]; omega)
    rw [v.len] at this
    unfold ofFixed
    rw [encode]
    omega
  have h1 := hu a.nonce
  have h2 := hu a.balance
  have h3 := hf a.storageRoot
  have h4 := hf a.codeHash
  unfold encAcc accItem
  rw [encode]
  have hm : (encodeMany [ofUint a.nonce, ofUint a.balance, ofFixed a.storageRoot, ofFixed a.codeHash]).length ≤
      164 := by
    simp only [encodeMany, List.length_append, List.length_nil]
    omega
  have := encPayload_le _ (show (encodeMany [ofUint a.nonce, ofUint a.balance, ofFixed a.storageRoot,
    ofFixed a.codeHash]).length < 2 ^ 64 by omega)
  omega

theorem decAcc_encAcc (a : Account H256) : decAcc (encAcc a) = some a := by
  unfold decAcc
  have := encAcc_length a
  have hd : decode (encAcc a) = some (accItem a) := decode_encode_item _ (by unfold encAcc at this; omega)
  rw [hd]
  exact itemAcc_item a

theorem encAcc_ne (a : Account H256) : encAcc a ≠ [] := by
  intro h
  have := decAcc_encAcc a
  rw [h] at this
  cases this

theorem encVal_ne (v : U256) : encVal v ≠ [] := by
  intro h
  have := decVal_encVal v
  rw [h] at this
  cases this

theorem encVal_length (v : U256) : (encVal v).length ≤ 41 := by
  have h : (beBytes v.val).length ≤ 32 := beBytes_length_le _ _ (by
    have := v.lt; simpa [show (256 : Nat) ^ 32 = 2 ^ 256 by decide] using this)
  have := Trie.encStr_le (beBytes v.val) (by omega)
  unfold encVal ofUint
  rw [encode]
  omega

/-! ## Tries with hashed keys -/

variable {H}

theorem hb_length (b : Bytes) : (hb H b).length = 32 := (H b).len

theorem hb_inj {a b : Bytes} (h : hb H a = hb H b) : H a = H b := FixedBytes.ext' h

theorem bytes_inj {n : Nat} {a b : FixedBytes n} (h : a.bytes = b.bytes) : a = b := FixedBytes.ext' h

/-- No two of the byte strings collide. -/
def Free (H : Bytes → H256) (U : List Bytes) : Prop := ∀ a ∈ U, ∀ b ∈ U, H a = H b → a = b

/-- A trie whose keys are hashes of strings of length `n` in `U`, with short values. -/
structure Keyed (H : Bytes → H256) (U : List Bytes) (n : Nat) (t : Node) : Prop where
  canon : Trie.Canon t
  keys : ∀ k v, Trie.get t k = some v → (∃ x : FixedBytes n, x.bytes ∈ U ∧ k = Trie.keyPath (hb H x.bytes)) ∧
    v.length < 2 ^ 32

variable {U : List Bytes} {n : Nat} {t : Node}

theorem Keyed.length (h : Keyed H U n t) {k : Trie.Path} {v : Bytes} (hk : Trie.get t k = some v) :
    k.length ≤ 64 := by
  obtain ⟨⟨x, -, rfl⟩, -⟩ := h.keys k v hk
  rw [Trie.keyPath_length, hb_length]
  omega

theorem Keyed.sized (h : Keyed H U n t) : Trie.Sized t := by
  refine Trie.sized_of_get t h.canon fun k v hk => ?_
  have := h.length hk
  exact ⟨by omega, (h.keys k v hk).2⟩

theorem keyed_empty : Keyed H U n .empty := ⟨Trie.canon_empty, fun k v h => by simp [Trie.get] at h⟩

theorem path_inj (hf : Free H U) {a b : Bytes} (ha : a ∈ U) (hb' : b ∈ U)
    (h : Trie.keyPath (hb H a) = Trie.keyPath (hb H b)) : a = b :=
  hf a ha b hb' (hb_inj (Trie.keyPath_inj _ _ h))

theorem mptGet_insert (hf : Free H U) {a b v : Bytes} (ha : a ∈ U) (hb' : b ∈ U) (hv : v ≠ []) :
    Trie.mptGet (hb H) (Trie.mptInsert (hb H) t a v) b = if b = a then some v else Trie.mptGet (hb H) t b := by
  unfold Trie.mptGet Trie.mptInsert
  rw [Trie.get_put, if_neg hv]
  by_cases e : b = a
  · rw [e, if_pos rfl, if_pos rfl]
  · rw [if_neg e, if_neg fun h => e (path_inj hf hb' ha h)]

theorem mptGet_remove (hf : Free H U) {a b : Bytes} (ha : a ∈ U) (hb' : b ∈ U) :
    Trie.mptGet (hb H) (mptRemove H t a) b = if b = a then none else Trie.mptGet (hb H) t b := by
  unfold Trie.mptGet mptRemove
  rw [Trie.get_remove]
  by_cases e : b = a
  · rw [e, if_pos rfl, if_pos rfl]
  · rw [if_neg e, if_neg fun h => e (path_inj hf hb' ha h)]

theorem Keyed.insert (h : Keyed H U n t) {x : FixedBytes n} (hx : x.bytes ∈ U) {v : Bytes} (hv : v ≠ [])
    (hl : v.length < 2 ^ 32) : Keyed H U n (Trie.mptInsert (hb H) t x.bytes v) := by
  refine ⟨Trie.canon_put h.canon _ _, fun k w hk => ?_⟩
  unfold Trie.mptInsert at hk
  rw [Trie.get_put, if_neg hv] at hk
  split at hk
  · rename_i e
    simp only [Option.some.injEq] at hk
    rw [← hk]
    exact ⟨⟨x, hx, e⟩, hl⟩
  · exact h.keys k w hk

theorem Keyed.remove (h : Keyed H U n t) (b : Bytes) : Keyed H U n (mptRemove H t b) := by
  refine ⟨Trie.canon_remove _ _ h.canon, fun k w hk => ?_⟩
  unfold mptRemove at hk
  rw [Trie.get_remove] at hk
  split at hk
  · cases hk
  · exact h.keys k w hk

/-- Opening a committed trie by its root. -/
theorem openTrie_root (hf : Free H U) (h : Keyed H U n t) {nodes : List Bytes} (hn : ∀ b ∈ nodes, b ∈ U)
    (hp : ∀ b ∈ Trie.pieces (hb H) t, b ∈ U) (hs : ∀ b ∈ Trie.stored (hb H) t, b ∈ nodes) :
    openTrie H nodes (rootOf H t) = .ok t :=
  Trie.openAt_root (H := hb H) hb_length h.canon h.sized (fun _ _ hk => h.length hk) hs
    fun b hb' a ha e => hf b (hn b hb') a (hp a ha) (hb_inj e)

theorem raw_empty : Trie.raw (hb H) .empty = [0x80] := by
  simp [Trie.raw, Trie.enc, encode, encStr]

/-- A trie with the root of the empty trie is empty. -/
theorem rootOf_null (hf : Free H U) (h : Keyed H U n t) (hp : ∀ b ∈ Trie.pieces (hb H) t, b ∈ U)
    (h80 : [0x80] ∈ U) : rootOf H t = rlpNull H ↔ t = .empty := by
  constructor
  · intro e
    unfold rootOf rlpNull at e
    have hr := hf _ (hp _ (Trie.raw_mem _ t)) _ h80 e
    have hd := Trie.decode_raw (H := hb H) hb_length h.sized
    rw [hr] at hd
    have : decode [0x80] = some (.str []) := by
      have := Trie.decode_raw (H := hb H) (t := .empty) hb_length trivial
      rwa [raw_empty] at this
    rw [this] at hd
    cases t with
    | empty => rfl
    | _ => simp [Trie.enc] at hd
  · rintro rfl
    unfold rootOf rlpNull
    rw [raw_empty]

/-- Two tries with the same root are the same. -/
theorem rootOf_inj (hf : Free H U) {m : Nat} {u : Node} (h : Keyed H U n t) (h' : Keyed H U m u)
    (hp : ∀ b ∈ Trie.pieces (hb H) t, b ∈ U) (hp' : ∀ b ∈ Trie.pieces (hb H) u, b ∈ U)
    (e : rootOf H t = rootOf H u) : t = u := by
  refine Trie.root_inj (H := hb H) hb_length h.canon h'.canon h.sized h'.sized ?_ ?_ (congrArg FixedBytes.bytes e)
  · intro b hb' a ha e
    exact hf b (hp' b hb') a (hp a ha) (hb_inj e)
  · intro b hb' a ha e
    exact hf b (hp' b hb') a (hp' a ha) (hb_inj e)

/-! ## Representation -/

/-- A storage trie holds these slots. -/
structure Slots (H : Bytes → H256) (U : List Bytes) (s : Node) (f : H256 → U256) : Prop where
  keyed : Keyed H U 32 s
  vals : ∀ k : H256, k.bytes ∈ U → Trie.mptGet (hb H) s k.bytes =
    if f k = U256.zero then none else some (encVal (f k))

/-- A storage trie is committed. -/
structure Committed (H : Bytes → H256) (U : List Bytes) (nodes : List Bytes) (t : Node) : Prop where
  pieces : ∀ b ∈ Trie.pieces (hb H) t, b ∈ U
  stored : t = .empty ∨ ∀ b ∈ Trie.stored (hb H) t, b ∈ nodes

/-- The bytes of an account say what can be read about it. -/
def Holds (H : Bytes → H256) (U : List Bytes) (nodes : List Bytes) (codes : List (H256 × Bytes)) (raw : Bytes)
    (v : View) : Prop :=
  ∃ s, raw = encAcc ⟨v.nonce, v.balance, rootOf H s, H v.code⟩ ∧ Slots H U s v.slot ∧ Committed H U nodes s ∧
    v.code ∈ U ∧ (v.code = [] ∨ get codes (H v.code) = some v.code)

/-- A state trie holds these accounts. -/
structure Rep (H : Bytes → H256) (U : List Bytes) (nodes : List Bytes) (codes : List (H256 × Bytes)) (t : Node)
    (σ : Spec) : Prop where
  keyed : Keyed H U 20 t
  absent : ∀ a : H160, a.bytes ∈ U → σ a = none → Trie.mptGet (hb H) t a.bytes = none
  present : ∀ (a : H160) v, a.bytes ∈ U → σ a = some v →
    ∃ raw, Trie.mptGet (hb H) t a.bytes = some raw ∧ Holds H U nodes codes raw v

/-- What is assumed of the strings hashed: no collisions, no preimage of zero, and the two constants. -/
structure Fine (H : Bytes → H256) (U : List Bytes) : Prop where
  free : Free H U
  nil : [] ∈ U
  null : [0x80] ∈ U
  zero : ∀ b ∈ U, (H b).bytes ≠ List.replicate 32 0

variable {nodes nodes' : List Bytes} {codes codes' : List (H256 × Bytes)}

theorem slots_empty : Slots H U .empty fun _ => U256.zero :=
  ⟨keyed_empty, fun k _ => by simp [Trie.mptGet, Trie.get]⟩

theorem committed_empty (fn : Fine H U) : Committed H U nodes .empty := by
  refine ⟨fun b hb' => ?_, .inl rfl⟩
  simp only [Trie.pieces, List.mem_singleton] at hb'
  rw [hb', raw_empty]
  exact fn.null

theorem Slots.write (fn : Fine H U) {s : Node} {f : H256 → U256} (h : Slots H U s f) (kv : H256 × U256)
    (hk : kv.1.bytes ∈ U) : Slots H U (writeSlot H s kv) fun k => if k = kv.1 then kv.2 else f k := by
  unfold writeSlot
  split
  · rename_i hz
    refine ⟨h.keyed.remove _, fun k hk' => ?_⟩
    rw [mptGet_remove fn.free hk hk', h.vals k hk']
    by_cases e : k = kv.1
    · simp [e, hz]
    · have : k.bytes ≠ kv.1.bytes := fun x => e (bytes_inj x)
      simp [e, this]
  · rename_i hz
    refine ⟨h.keyed.insert hk (encVal_ne _) (by have := encVal_length kv.2; omega), fun k hk' => ?_⟩
    rw [mptGet_insert fn.free hk hk' (encVal_ne _), h.vals k hk']
    by_cases e : k = kv.1
    · simp [e, hz]
    · have : k.bytes ≠ kv.1.bytes := fun x => e (bytes_inj x)
      simp [e, this]

theorem specSlots_nil (f : H256 → U256) : specSlots f [] false = f := by
  funext k; simp [specSlots]

theorem specSlots_snoc (f : H256 → U256) (ws : List (H256 × U256)) (kv : H256 × U256) (r : Bool) :
    specSlots f (ws ++ [kv]) r = fun k => if k = kv.1 then kv.2 else specSlots f ws r k := by
  funext k
  unfold specSlots
  rw [List.reverse_append]
  simp only [List.reverse_cons, List.reverse_nil, List.nil_append, List.singleton_append, List.find?_cons]
  by_cases hk : k = kv.1
  · simp [hk]
  · have : kv.1 ≠ k := fun h => hk h.symm
    simp [hk, this]

theorem Slots.writes (fn : Fine H U) {s : Node} {f : H256 → U256} (h : Slots H U s f) :
    ∀ ws : List (H256 × U256), (∀ kv ∈ ws, kv.1.bytes ∈ U) →
      Slots H U (ws.foldl (writeSlot H) s) (specSlots f ws false) := by
  intro ws
  induction ws using snoc_induction with
  | nil => intro _; rw [specSlots_nil]; exact h
  | snoc ws kv ih =>
    intro hw
    rw [List.foldl_append, specSlots_snoc]
    exact (ih fun x hx => hw x (by simp [hx])).write fn kv (hw kv (by simp))

theorem specSlots_reset (f : H256 → U256) (ws : List (H256 × U256)) :
    specSlots f ws true = specSlots (fun _ => U256.zero) ws false := by
  funext k
  unfold specSlots
  split <;> rfl

theorem Committed.mono {t : Node} (h : Committed H U nodes t) (hn : ∀ b ∈ nodes, b ∈ nodes') :
    Committed H U nodes' t :=
  ⟨h.pieces, h.stored.imp id fun x b hb' => hn b (x b hb')⟩

theorem Holds.mono {raw : Bytes} {v : View} (h : Holds H U nodes codes raw v) (hn : ∀ b ∈ nodes, b ∈ nodes')
    (hc : ∀ k c, get codes k = some c → get codes' k = some c) : Holds H U nodes' codes' raw v := by
  obtain ⟨s, h1, h2, h3, h4, h5⟩ := h
  exact ⟨s, h1, h2, h3.mono hn, h4, h5.imp id (hc _ _)⟩

theorem Rep.mono {t : Node} {σ : Spec} (h : Rep H U nodes codes t σ) (hn : ∀ b ∈ nodes, b ∈ nodes')
    (hc : ∀ k c, get codes k = some c → get codes' k = some c) : Rep H U nodes' codes' t σ :=
  ⟨h.keyed, h.absent, fun a v ha hv => by
    obtain ⟨raw, h1, h2⟩ := h.present a v ha hv
    exact ⟨raw, h1, h2.mono hn hc⟩⟩

theorem rep_empty : Rep H U nodes codes .empty fun _ => none :=
  ⟨keyed_empty, fun _ _ _ => by simp [Trie.mptGet, Trie.get], fun _ _ _ h => by cases h⟩

theorem Rep.set (fn : Fine H U) {t : Node} {σ : Spec} (h : Rep H U nodes codes t σ) {a : H160}
    (ha : a.bytes ∈ U) {acc : Account H256} {v : View} (hh : Holds H U nodes codes (encAcc acc) v) :
    Rep H U nodes codes (Trie.mptInsert (hb H) t a.bytes (encAcc acc)) (σ.set a (some v)) := by
  refine ⟨h.keyed.insert ha (encAcc_ne _) (by have := encAcc_length acc; omega), ?_, ?_⟩
  · intro x hx hn
    unfold Spec.set at hn
    split at hn
    · cases hn
    · rename_i e
      rw [mptGet_insert fn.free ha hx (encAcc_ne _), if_neg fun y => e (bytes_inj y)]
      exact h.absent x hx hn
  · intro x w hx hw
    unfold Spec.set at hw
    rw [mptGet_insert fn.free ha hx (encAcc_ne _)]
    split at hw
    · rename_i e
      cases hw
      rw [if_pos (by rw [e])]
      exact ⟨_, rfl, hh⟩
    · rename_i e
      rw [if_neg fun y => e (bytes_inj y)]
      exact h.present x w hx hw

theorem Rep.unset (fn : Fine H U) {t : Node} {σ : Spec} (h : Rep H U nodes codes t σ) {a : H160}
    (ha : a.bytes ∈ U) : Rep H U nodes codes (mptRemove H t a.bytes) (σ.set a none) := by
  refine ⟨h.keyed.remove _, ?_, ?_⟩
  · intro x hx hn
    rw [mptGet_remove fn.free ha hx]
    unfold Spec.set at hn
    split at hn
    · rename_i e; rw [e, if_pos rfl]
    · rename_i e
      rw [if_neg fun y => e (bytes_inj y)]
      exact h.absent x hx hn
  · intro x w hx hw
    rw [mptGet_remove fn.free ha hx]
    unfold Spec.set at hw
    split at hw
    · cases hw
    · rename_i e
      rw [if_neg fun y => e (bytes_inj y)]
      exact h.present x w hx hw

/-! ## The invariant -/

/-- The world and the specification agree, the state committed included. -/
structure Inv (H : Bytes → H256) (U : List Bytes) (w : World) (s : SState) : Prop where
  nodes : ∀ b ∈ w.nodes, b ∈ U
  codes : ∀ k c, get w.codes k = some c → c ∈ U ∧ H c = k
  cur : Rep H U w.nodes w.codes w.trie s.cur
  len : w.roots.length = s.saved.length
  saved : ∀ (i : Nat) r σ, w.roots[i]? = some r → s.saved[i]? = some σ → ∃ t, r = rootOf H t ∧
    Rep H U w.nodes w.codes t σ ∧ (∀ b ∈ Trie.pieces (hb H) t, b ∈ U) ∧ ∀ b ∈ Trie.stored (hb H) t, b ∈ w.nodes

variable {w : World} {s : SState}

theorem inv_init : Inv H U .init .init :=
  ⟨fun b h => by simp [World.init] at h, fun k c h => by simp [World.init, get_nil] at h, rep_empty, rfl,
    fun i r σ h => by simp [World.init] at h⟩

theorem emptyView_holds (fn : Fine H U) : Holds H U nodes codes (encAcc (emptyAcc H)) emptyView := by
  refine ⟨.empty, ?_, slots_empty, committed_empty fn, fn.nil, .inl rfl⟩
  unfold emptyAcc rootOf rlpNull nilData emptyView
  rw [raw_empty]

/-- The account read is the one represented. -/
theorem getAccount_rep (fn : Fine H U) (h : Rep H U w.nodes w.codes w.trie σ) {a : H160} (ha : a.bytes ∈ U) :
    ∃ acc, getAccount H w a = .ok acc ∧ Holds H U w.nodes w.codes (encAcc acc) ((σ a).getD emptyView) := by
  unfold getAccount find
  cases hs : σ a with
  | none =>
    rw [h.absent a ha hs]
    exact ⟨_, rfl, emptyView_holds fn⟩
  | some v =>
    obtain ⟨raw, h1, h2⟩ := h.present a v ha hs
    rw [h1]
    obtain ⟨s, rfl, hr⟩ := h2
    simp only
    rw [decAcc_encAcc]
    exact ⟨_, rfl, s, rfl, hr⟩

theorem encAcc_inj {a b : Account H256} (h : encAcc a = encAcc b) : a = b := by
  have := decAcc_encAcc a
  rw [h, decAcc_encAcc] at this
  exact (Option.some.inj this).symm

/-- The storage trie of an account is opened. -/
theorem openStorage_rep (fn : Fine H U) (hn : ∀ b ∈ w.nodes, b ∈ U) {acc : Account H256} {v : View}
    (h : Holds H U w.nodes w.codes (encAcc acc) v) : ∃ s, openStorage H w acc false = .ok s ∧
      Slots H U s v.slot ∧ acc = ⟨v.nonce, v.balance, rootOf H s, H v.code⟩ := by
  obtain ⟨s, h1, h2, h3, h4, h5⟩ := h
  have e := encAcc_inj h1
  subst e
  refine ⟨s, ?_, h2, rfl⟩
  unfold openStorage
  simp only [Bool.false_eq_true, if_false]
  split
  · rename_i hr
    rw [(rootOf_null fn.free h2.keyed h3.pieces fn.null).1 hr]
  · rename_i hr
    rcases h3.stored with he | hst
    · exact absurd ((rootOf_null fn.free h2.keyed h3.pieces fn.null).2 he) hr
    · rw [openTrie_root fn.free h2.keyed hn h3.pieces hst]

theorem storageAfter_rep (fn : Fine H U) (hn : ∀ b ∈ w.nodes, b ∈ U) (h : Rep H U w.nodes w.codes w.trie σ)
    {a : H160} (ha : a.bytes ∈ U) (ws : List (H256 × U256)) (hw : ∀ kv ∈ ws, kv.1.bytes ∈ U) (reset : Bool) :
    ∃ t, storageAfter H w a ws reset = .ok t ∧
      Slots H U t (specSlots ((σ a).getD emptyView).slot ws reset) := by
  obtain ⟨acc, h1, h2⟩ := getAccount_rep fn h ha
  unfold storageAfter
  rw [h1]
  simp only [Outcome.bind]
  cases reset with
  | true =>
    refine ⟨_, rfl, ?_⟩
    rw [specSlots_reset]
    exact slots_empty.writes fn ws hw
  | false =>
    obtain ⟨s, h3, h4, -⟩ := openStorage_rep fn hn h2
    rw [h3]
    exact ⟨_, rfl, h4.writes fn ws hw⟩

/-- A write to the trie database and to the codes keeps what was committed. -/
theorem Inv.grow (h : Inv H U w s) {w' : World} {c : Spec} (hr : w'.roots = w.roots)
    (hn : ∀ b ∈ w.nodes, b ∈ w'.nodes) (hnU : ∀ b ∈ w'.nodes, b ∈ U)
    (hc : ∀ k x, get w.codes k = some x → get w'.codes k = some x)
    (hcU : ∀ k x, get w'.codes k = some x → x ∈ U ∧ H x = k)
    (hcur : Rep H U w'.nodes w'.codes w'.trie c) : Inv H U w' { s with cur := c } := by
  refine ⟨hnU, hcU, hcur, by rw [hr]; exact h.len, fun i r σ h1 h2 => ?_⟩
  rw [hr] at h1
  obtain ⟨t, a, b, c, d⟩ := h.saved i r σ h1 h2
  exact ⟨t, a, b.mono hn hc, c, fun x hx => hn x (d x hx)⟩

/-- Every operation succeeds and does what it should. -/
theorem step_inv (fn : Fine H U) (h : Inv H U w s) (o : Op) (hh : ∀ b ∈ hashed H w o, b ∈ U) :
    ∃ w', step H w o = .ok w' ∧ Inv H U w' (specStep s o) := by
  cases o with
  | change ch de =>
    cases ch with
    | modify a b c ws reset =>
      have ha : a.bytes ∈ U := hh _ (by simp [hashed])
      have hws : ∀ kv ∈ ws, kv.1.bytes ∈ U := by
        intro kv hkv
        refine hh _ ?_
        simp only [hashed, List.cons_append, List.mem_cons, List.mem_append, List.mem_map]
        exact .inr (.inl (.inr ⟨kv, hkv, rfl⟩))
      have hcU : ∀ x, c = some x → x ∈ U := by
        rintro x rfl
        exact hh _ (by simp [hashed])
      obtain ⟨acc, h1, h2⟩ := getAccount_rep fn h.cur ha
      obtain ⟨t, h3, h4⟩ := storageAfter_rep fn h.nodes h.cur ha ws hws reset
      have hpc : ∀ b ∈ Trie.pieces (hb H) t, b ∈ U := by
        intro b hb'
        refine hh b ?_
        show b ∈ _ ++ _
        rw [h3]
        exact List.mem_append_right _ hb'
      obtain ⟨s0, -, -, he⟩ := openStorage_rep fn h.nodes h2
      have hcode : acc.codeHash = H ((s.cur a).getD emptyView).code := by rw [he]
      have hold : ((s.cur a).getD emptyView).code ∈ U ∧ (((s.cur a).getD emptyView).code = [] ∨
          get w.codes (H ((s.cur a).getD emptyView).code) = some ((s.cur a).getD emptyView).code) := by
        obtain ⟨_, _, _, _, x, y⟩ := h2
        exact ⟨x, y⟩
      generalize hold' : (s.cur a).getD emptyView = old at h2 h4 hcode hold
      -- the codes
      have hcodes : ∃ hash codes', hashAfter H acc c = hash ∧ codesAfter H w acc c = codes' ∧ hash = H (c.getD old.code) ∧ c.getD old.code ∈ U ∧
          (c.getD old.code = [] ∨ get codes' hash = some (c.getD old.code)) ∧
          (∀ k x, get w.codes k = some x → get codes' k = some x) ∧
          (∀ k x, get codes' k = some x → x ∈ U ∧ H x = k) := by
        cases c with
        | none =>
          refine ⟨_, _, rfl, rfl, hcode, hold.1, ?_, fun k x hx => hx, h.codes⟩
          show old.code = [] ∨ get w.codes acc.codeHash = some old.code
          rw [hcode]; exact hold.2
        | some code =>
          have hcu := hcU code rfl
          refine ⟨_, _, rfl, rfl, rfl, hcu, ?_, ?_, ?_⟩
          · simp only [Option.getD_some, codesAfter, hashAfter]
            split
            · right; rw [get_put, if_pos rfl]
            · rename_i hne
              have heq : H code = H old.code := by
                rw [← hcode]; exact Classical.byContradiction fun hx => hne hx
              have := fn.free _ hcu _ hold.1 heq
              rw [this]
              exact hold.2
          · intro k x hx
            simp only [codesAfter]
            split
            · rw [get_put]
              split
              · rename_i hk
                obtain ⟨hx1, hx2⟩ := h.codes k x hx
                rw [hk] at hx2
                rw [fn.free _ hx1 _ hcu hx2]
              · exact hx
            · exact hx
          · intro k x hx
            simp only [codesAfter] at hx
            split at hx
            · rw [get_put] at hx
              split at hx
              · rename_i hk
                cases hx
                exact ⟨hcu, hk.symm⟩
              · exact h.codes k x hx
            · exact h.codes k x hx
      obtain ⟨hash, codes', e1, e2, e3, e4, e5, e6, e7⟩ := hcodes
      have hz : hash.bytes ≠ List.replicate 32 0 := by rw [e3]; exact fn.zero _ e4
      refine ⟨{ w with
        trie := Trie.mptInsert (hb H) w.trie a.bytes (encAcc ⟨b.nonce, b.balance, rootOf H t, hash⟩),
        nodes := Trie.stored (hb H) t ++ w.nodes, codes := codes' }, ?_, ?_⟩
      · simp only [step, applyOne, h1, h3, Outcome.bind, e1, e2, hz, and_false, decide_false, Bool.false_and,
          Bool.false_eq_true, if_false]
      · have hst : ∀ b ∈ w.nodes, b ∈ Trie.stored (hb H) t ++ w.nodes :=
          fun b hb' => List.mem_append_right _ hb'
        refine Inv.grow h rfl hst ?_ e6 e7 ?_
        · intro b hb'
          rcases List.mem_append.1 hb' with hb' | hb'
          · exact hpc b (Trie.stored_pieces _ _ b hb')
          · exact h.nodes b hb'
        · refine (h.cur.mono hst e6).set fn ha ?_
          rw [hold']
          refine ⟨t, by rw [e3], h4, ⟨hpc, .inr fun b hb' => List.mem_append_left _ hb'⟩, e4, ?_⟩
          rw [← e3]
          exact e5
    | delete a =>
      have ha : a.bytes ∈ U := hh _ (by simp [hashed])
      exact ⟨_, rfl, Inv.grow h rfl (fun _ hb' => hb') h.nodes (fun _ _ hx => hx) h.codes (h.cur.unset fn ha)⟩
  | save a nonce balance =>
    have ha : a.bytes ∈ U := hh _ (by simp [hashed])
    obtain ⟨acc, h1, h2⟩ := getAccount_rep fn h.cur ha
    refine ⟨_, by simp only [step, h1, Outcome.bind]; rfl, ?_⟩
    refine Inv.grow h rfl (fun _ hb' => hb') h.nodes (fun _ _ hx => hx) h.codes (h.cur.set fn ha ?_)
    obtain ⟨s, e, hr⟩ := h2
    have e := encAcc_inj e
    subst e
    exact ⟨s, rfl, hr⟩
  | commit =>
    have hst : ∀ b ∈ w.nodes, b ∈ Trie.stored (hb H) w.trie ++ w.nodes :=
      fun b hb' => List.mem_append_right _ hb'
    have hp : ∀ b ∈ Trie.pieces (hb H) w.trie, b ∈ U := hh
    refine ⟨_, rfl, ?_, h.codes, h.cur.mono hst fun _ _ hx => hx, by simp [specStep, h.len], ?_⟩
    · intro b hb'
      rcases List.mem_append.1 hb' with hb' | hb'
      · exact hp b (Trie.stored_pieces _ _ b hb')
      · exact h.nodes b hb'
    · intro i r σ hi hs
      simp only [specStep] at hi hs
      rcases Nat.lt_trichotomy i w.roots.length with hl | hl | hl
      · rw [List.getElem?_append_left hl] at hi
        rw [List.getElem?_append_left (by rw [← h.len]; exact hl)] at hs
        obtain ⟨t, x1, x2, x3, x4⟩ := h.saved i r σ hi hs
        exact ⟨t, x1, x2.mono hst fun _ _ hx => hx, x3, fun b hb' => hst b (x4 b hb')⟩
      · have hl' : i = s.saved.length := by rw [hl, h.len]
        subst hl
        rw [hl'] at hs
        simp only [List.getElem?_append_right (Nat.le_refl _), Nat.sub_self, List.getElem?_cons_zero,
          Option.some.injEq] at hi hs
        subst hi
        subst hs
        exact ⟨w.trie, rfl, h.cur.mono hst fun _ _ hx => hx, hp, fun b hb' => List.mem_append_left _ hb'⟩
      · rw [List.getElem?_eq_none (by simp; omega)] at hi
        cases hi
  | reopen i =>
    simp only [step]
    cases hi : w.roots[i]? with
    | none =>
      have : s.saved[i]? = none := by
        rw [List.getElem?_eq_none_iff] at hi ⊢
        rw [← h.len]; exact hi
      refine ⟨w, rfl, ?_⟩
      simp only [specStep, this, Option.getD_none]
      exact h
    | some r =>
      have hlt : i < s.saved.length := by
        rw [← h.len]; exact (List.getElem?_eq_some_iff.1 hi).1
      have hs : s.saved[i]? = some s.saved[i] := List.getElem?_eq_getElem hlt
      obtain ⟨t, x1, x2, x3, x4⟩ := h.saved i r _ hi hs
      simp only
      rw [x1, openTrie_root fn.free x2.keyed h.nodes x3 x4]
      refine ⟨_, rfl, ?_⟩
      simp only [specStep, hs, Option.getD_some]
      exact Inv.grow h rfl (fun _ hb' => hb') h.nodes (fun _ _ hx => hx) h.codes x2

theorem run_inv (fn : Fine H U) : ∀ (ops : List Op) (w : World) (s : SState), Inv H U w s →
    (∀ b ∈ hashedRun H ops w, b ∈ U) → ∃ w', run H ops w = .ok w' ∧ Inv H U w' (specRun ops s) := by
  intro ops
  induction ops with
  | nil => intro w s h _; exact ⟨w, rfl, h⟩
  | cons o ops ih =>
    intro w s h hh
    obtain ⟨w1, h1, h2⟩ := step_inv fn h o fun b hb' => hh b (by simp [hashedRun, hb'])
    obtain ⟨w2, h3, h4⟩ := ih w1 _ h2 fun b hb' => hh b (by
      simp only [hashedRun, h1, List.mem_append]; exact .inr hb')
    refine ⟨w2, ?_, h4⟩
    simp only [run, h1, Outcome.bind]
    exact h3

end Axon.WorldDb
