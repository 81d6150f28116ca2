import Verif.Cells.TrieDb

/-!
# The CKB headers and cells of a chain in its databases

Both CKB contracts open their common trie by `CURRENT_HEADER_CELL_ROOT` for every call
(`ImageCellStore::new`, `CkbLightClientStore::new`), the root is taken from the account of the light client at
the beginning of a block (`core/executor/src/lib.rs:398-403`) and written to the accounts of both contracts after
every call (`core/executor/src/system_contract/utils.rs:39-87`).
-/

namespace Axon.CkbChain
open Axon.Rlp Axon.Assoc Axon.Exec Axon.WorldDb
open Axon.Trie (Node)
open Axon.Cells (OutPoint CellInfo HeaderAbi Call Ctx Reach FitsCall cellKey)
open Axon.MetaTrie (Agree)
open Axon.MetaChain (ofVal toVal zeroRoot ofVal_toVal ofVal_zero Tidy)

variable (H : Bytes → H256) (abi : HeaderAbi)

/-- `CKB_LIGHT_CLIENT_CONTRACT_ADDRESS`, `ckb_light_client/mod.rs:20` -/
def light : H160 := ⟨List.replicate 19 0xff ++ [2], by simp⟩

/-- `IMAGE_CELL_CONTRACT_ADDRESS`, `image_cell/mod.rs:20` -/
def image : H160 := ⟨List.replicate 19 0xff ++ [3], by simp⟩

/-- `HEADER_CELL_ROOT_KEY`, the digest of `header_cell_mpt_root`, `system_contract/mod.rs:65` -/
def slotKey : H256 :=
  H [104, 101, 97, 100, 101, 114, 95, 99, 101, 108, 108, 95, 109, 112, 116, 95, 114, 111, 111, 116]

/-- The state, the nodes in the database of headers and cells, and `CURRENT_HEADER_CELL_ROOT`. -/
structure Chain where
  world : World
  db : List Bytes
  root : H256

def Chain.init : Chain := ⟨.init, [], zeroRoot⟩

/-- `ImageCellStore::new`, `image_cell/store.rs:60-79`, and `CkbLightClientStore::new`,
`ckb_light_client/store.rs:53-72` -/
def openStore (db : List Bytes) (r : H256) : Outcome Node :=
  if r = zeroRoot then .ok .empty else openTrie H db r

/-- What happens to a chain: the databases are set up; a block begins; a call of one of the two contracts, `none`
when its data do not decode; any other change of the state; the state is committed; the node starts again at a
committed state. -/
inductive Op where
  | boot
  | block
  | call (sender : H160) (c : Option (Call abi))
  | other (o : WorldDb.Op)
  | finish
  | restart (i : Nat)

/-- What an operation does: the new root, the tries committed, the changes of the state. -/
structure Effect where
  root : H256
  tries : List Node
  ops : List WorldDb.Op

/-- Nothing happens. -/
def idle (c : Chain) : Effect := ⟨c.root, [], []⟩

/-- `generate_mpt_root_changes` for the two contracts, `utils.rs:68-87`: both accounts get the root. -/
def rootChanges (w : World) (r : H256) : List WorldDb.Op :=
  [.change (.modify light (basic H w light) none [(slotKey H, toVal r)] false) false,
   .change (.modify image (basic H w image) none [(slotKey H, toVal r)] false) false]

/-- `generate_sender_changes`, `utils.rs:49-62`; the addition panics when it overflows. -/
def senderChange (w : World) (a : H160) : Outcome WorldDb.Op :=
  (Outcome.orPanic (UIntN.ofNat? 256 ((basic H w a).nonce.val + 1))).bind fun n =>
    .ok (.change (.modify a ⟨(basic H w a).balance, n⟩ none [] false) false)

/-- `update_states`, `utils.rs:39-47` -/
def stateChanges (w : World) (r : H256) (a : H160) : Outcome (List WorldDb.Op) :=
  (senderChange H w a).bind fun ch => .ok (rootChanges H w r ++ [ch])

/-- Calls that commit the trie; `set_state` does not. -/
def commits : Call abi → Bool
  | .setCellState _ => false
  | .setHeaderState _ => false
  | _ => true

/-- `CURRENT_HEADER_CELL_ROOT` after a call, `commit`, `image_cell/store.rs:220-228`. -/
def rootAfter (old : H256) (t : Node) (c : Call abi) : H256 := if commits abi c then rootOf H t else old

/-- `exec_` of the two contracts, `image_cell/mod.rs:30-67`, `ckb_light_client/mod.rs:30-73`.  Simplification: of
the two process-wide flags `ALLOW_READ`, which are read in tests only, nothing is kept here. -/
def callEffect (c : Chain) (a : H160) (call : Option (Call abi)) : Outcome Effect :=
  match openStore H c.db c.root with
  | .panic => .panic
  | .err => .ok (idle c)
  | .ok t =>
    match call with
    | none => .ok (idle c)
    | some d =>
      match runTrie H abi t d with
      | .panic => .panic
      | .err => .ok (idle c)
      | .ok t' =>
        (stateChanges H c.world (rootAfter H abi c.root t' d) a).bind fun ops =>
          .ok ⟨rootAfter H abi c.root t' d, if commits abi d then [t'] else [], ops⟩

/-- `init_system_contract_db`, `system_contract/mod.rs:144-180`: the accounts of the contracts are created. -/
def bootEffect (c : Chain) : Outcome Effect :=
  (storage H c.world light (slotKey H)).bind fun v =>
    .ok (if ofVal v = zeroRoot then { idle c with ops := rootChanges H c.world c.root } else idle c)

/-- Starting again at a committed state: the next block takes the root from the state. -/
def restartEffect (c : Chain) (i : Nat) : Outcome Effect :=
  match c.world.roots[i]? with
  | none => .ok (idle c)
  | some r =>
    (openTrie H c.world.nodes r).bind fun t =>
    (storage H { c.world with trie := t } light (slotKey H)).bind fun v =>
    .ok ⟨ofVal v, [], [.reopen i]⟩

/-- The effect of an operation; `init_local_system_contract_roots`, `lib.rs:398-403`, begins a block. -/
def effect (c : Chain) : Op abi → Outcome Effect
  | .boot => bootEffect H c
  | .block => (storage H c.world light (slotKey H)).bind fun v => .ok { idle c with root := ofVal v }
  | .call a d => callEffect H abi c a d
  | .other o => .ok { idle c with ops := [o] }
  | .finish => .ok { idle c with ops := [.commit] }
  | .restart i => restartEffect H c i

def step (c : Chain) (o : Op abi) : Outcome Chain :=
  (effect H abi c o).bind fun e =>
  (WorldDb.run H e.ops c.world).bind fun w =>
    .ok ⟨w, e.tries.flatMap (Trie.stored (hb H)) ++ c.db, e.root⟩

def run : List (Op abi) → Chain → Outcome Chain
  | [], c => .ok c
  | o :: ops, c => (step H abi c o).bind (run ops)

/-- The trie behind a committed state: open the state by its root, read the slot of one of the contracts
(`get_image_cell_root`, `read_only.rs:232-234`), open the store (`ImageCellReader`, `image_cell/mod.rs:75-77`;
`CkbHeaderReader`, `ckb_light_client/mod.rs:79-86`). -/
def storeAt (c : Chain) (a : H160) (r : H256) : Outcome Node :=
  (openTrie H c.world.nodes r).bind fun t =>
  (storage H { c.world with trie := t } a (slotKey H)).bind fun v => openStore H c.db (ofVal v)

/-! ## Conditions -/

/-- Other changes leave the slots of the root alone: the accounts of the contracts are not deleted, their storage
is not reset and the slot not written.  Commits and re-openings are not among them. -/
def Harmless : Op abi → Prop
  | .other (.change (.modify a _ _ ws reset) _) =>
    a = light ∨ a = image → reset = false ∧ ∀ kv ∈ ws, kv.1 ≠ slotKey H
  | .other (.change (.delete a) _) => a ≠ light ∧ a ≠ image
  | .other (.save ..) => True
  | .other .commit => False
  | .other (.reopen _) => False
  | _ => True

/-- The cells of a call have room, see `Cells.FitsCall`. -/
def Roomy : Op abi → Prop
  | .call _ d => FitsCall abi d
  | _ => True

/-- The keys of an operation. -/
def keysOf : Op abi → List Bytes
  | .call _ (some d) => callKeys abi d
  | _ => []

/-- What an operation hashes. -/
def hashed (c : Chain) (o : Op abi) : List Bytes :=
  keysOf abi o ++
  match effect H abi c o with
  | .ok e => WorldDb.hashedRun H e.ops c.world ++ e.tries.flatMap (Trie.pieces (hb H))
  | _ => []

def hashedRun : List (Op abi) → Chain → List Bytes
  | [], _ => []
  | o :: ops, c => hashed H abi c o ++
    match step H abi c o with
    | .ok c' => hashedRun ops c'
    | _ => []

/-- The tries committed. -/
def committed : List (Op abi) → Chain → List Node
  | [], _ => []
  | o :: ops, c =>
    (match effect H abi c o with
      | .ok e => e.tries
      | _ => []) ++
    match step H abi c o with
    | .ok c' => committed ops c'
    | _ => []

/-! ## Specification -/

/-- The contracts held in memory, the calls that took effect, and both as they were at every commit. -/
structure Mem where
  s : Ctx
  hist : List (Call abi)
  saved : List (List (Call abi) × Ctx)

def Mem.init : Mem abi := ⟨⟨[], [], [], false, false⟩, [], []⟩

def memStep (m : Mem abi) : Op abi → Outcome (Mem abi)
  | .block => .ok { m with s := Cells.load m.s }
  | .call _ d => (Cells.exec abi m.s d).bind fun r =>
      .ok { m with s := r.1, hist := if r.2 then m.hist ++ d.toList else m.hist }
  | .finish => .ok { m with saved := m.saved ++ [(m.hist, m.s)] }
  | .restart i =>
    match m.saved[i]? with
    | none => .ok m
    | some p => .ok { m with s := p.2, hist := p.1 }
  | _ => .ok m

def memRun : List (Op abi) → Mem abi → Outcome (Mem abi)
  | [], m => .ok m
  | o :: ops, m => (memStep abi m o).bind (memRun ops)

/-! ## Roots -/

variable {H} {abi} {U : List Bytes}

/-- The root stands for the trie. -/
def Link (H : Bytes → H256) (U : List Bytes) (db : List Bytes) (r : H256) (t : Node) : Prop :=
  (r = zeroRoot ∧ t = .empty) ∨
  (r = rootOf H t ∧ r ≠ zeroRoot ∧ Tidy t ∧ Trie.Sized t ∧ (∀ b ∈ Trie.pieces (hb H) t, b ∈ U) ∧
    ∀ b ∈ Trie.stored (hb H) t, b ∈ db)

theorem Link.mono {db db' : List Bytes} {r : H256} {t : Node} (h : Link H U db r t)
    (hm : ∀ b ∈ db, b ∈ db') : Link H U db' r t :=
  h.imp id fun ⟨a, b, c, d, e, f⟩ => ⟨a, b, c, d, e, fun x hx => hm x (f x hx)⟩

/-- The store is opened by its root. -/
theorem Link.load (fn : Fine H U) {db : List Bytes} {r : H256} {t : Node} (hm : ∀ b ∈ db, b ∈ U)
    (h : Link H U db r t) : openStore H db r = .ok t := by
  unfold openStore
  rcases h with ⟨h1, rfl⟩ | ⟨h1, h2, h3, h4, h5, h6⟩
  · rw [if_pos h1]
  · rw [if_neg h2, h1]
    exact Trie.openAt_root (H := hb H) hb_length h3.canon h4 h3.len h6
      fun b hb' a ha e => fn.free b (hm b hb') a (h5 a ha) (hb_inj e)

theorem rootOf_ne (fn : Fine H U) {t : Node} (h : ∀ b ∈ Trie.pieces (hb H) t, b ∈ U) :
    rootOf H t ≠ zeroRoot := fun e =>
  fn.zero _ (h _ (Trie.raw_mem _ t)) (congrArg FixedBytes.bytes e)

/-- The root that a state names in the account of one of the contracts. -/
def rootIn (H : Bytes → H256) (σ : Spec) (a : H160) : H256 :=
  ofVal (((σ a).getD emptyView).slot (slotKey H))

/-- One of the two contracts. -/
def Ours (a : H160) : Prop := a = light ∨ a = image

/-- Changes of the state that leave the slots alone. -/
theorem rootIn_step {s : SState} {o : WorldDb.Op} (h : Harmless H abi (.other o)) {x : H160} (hx : Ours x) :
    rootIn H (specStep s o).cur x = rootIn H s.cur x ∧ (specStep s o).saved = s.saved := by
  cases o with
  | change ch de =>
    cases ch with
    | modify a b c ws reset =>
      refine ⟨?_, rfl⟩
      unfold rootIn specStep Spec.set
      simp only
      by_cases e : x = a
      · obtain ⟨hr, hw⟩ := h (e ▸ hx)
        rw [if_pos e, ← e]
        simp only [Option.getD_some]
        congr 1
        unfold specSlots
        have : (ws.reverse.find? fun kv => decide (kv.1 = slotKey H)) = none := by
          rw [List.find?_eq_none]
          intro kv hkv
          simpa using hw kv (by simpa using hkv)
        rw [this, hr]
        rfl
      · rw [if_neg e]
    | delete a =>
      refine ⟨?_, rfl⟩
      unfold rootIn specStep Spec.set
      simp only
      rw [if_neg]
      rintro rfl
      exact hx.elim h.1 h.2
  | save a n b =>
    refine ⟨?_, rfl⟩
    unfold rootIn specStep Spec.set
    simp only
    by_cases e : x = a
    · rw [if_pos e, ← e]; rfl
    · rw [if_neg e]
  | commit => exact absurd h id
  | reopen i => exact absurd h id

theorem light_ne_image : light ≠ image := by decide

/-- The root written to the slots is read there. -/
theorem rootIn_root {s : SState} {w : World} {r : H256} {x : H160} (hx : Ours x) :
    rootIn H (specRun (rootChanges H w r) s).cur x = r ∧ (specRun (rootChanges H w r) s).saved = s.saved := by
  refine ⟨?_, rfl⟩
  have hs : ∀ f : H256 → U256, specSlots f [(slotKey H, toVal r)] false (slotKey H) = toVal r := by
    intro f
    unfold specSlots
    simp
  unfold rootIn specRun rootChanges
  simp only [List.foldl_cons, List.foldl_nil, specStep, Spec.set]
  rcases hx with rfl | rfl
  · rw [if_neg light_ne_image, if_pos rfl]
    simp only [Option.getD_some]
    rw [hs]
    exact ofVal_toVal r
  · rw [if_pos rfl]
    simp only [Option.getD_some]
    rw [hs]
    exact ofVal_toVal r

theorem stateChanges_spec {w : World} {r : H256} {a : H160} {ops : List WorldDb.Op}
    (h : stateChanges H w r a = .ok ops) (s : SState) {x : H160} (hx : Ours x) :
    rootIn H (specRun ops s).cur x = r ∧ (specRun ops s).saved = s.saved := by
  simp only [stateChanges, senderChange] at h
  cases hn : UIntN.ofNat? 256 ((basic H w a).nonce.val + 1) with
  | none => rw [hn] at h; cases h
  | some n =>
    rw [hn] at h
    simp only [Outcome.orPanic, Outcome.bind, Outcome.ok.injEq] at h
    subst h
    have h1 := rootIn_root (H := H) (s := s) (w := w) (r := r) hx
    have h2 := rootIn_step (H := H) (abi := Cells.testAbi) (s := specRun (rootChanges H w r) s)
      (o := .change (.modify a ⟨(basic H w a).balance, n⟩ none [] false) false)
      (fun _ => ⟨rfl, fun kv h => by simp at h⟩) hx
    have e : specRun (rootChanges H w r ++
        [.change (.modify a ⟨(basic H w a).balance, n⟩ none [] false) false]) s =
        specStep (specRun (rootChanges H w r) s)
          (.change (.modify a ⟨(basic H w a).balance, n⟩ none [] false) false) := by
      simp [specRun, List.foldl_append]
    rw [e]
    exact ⟨h2.1.trans h1.1, h2.2.trans h1.2⟩

/-! ## The invariant -/

/-- The root leads to a trie with the contents. -/
def Holds (H : Bytes → H256) (U db : List Bytes) (r : H256) (A : Cells.Trie) : Prop :=
  ∃ t, Link H U db r t ∧ Same H U t A

theorem Holds.mono {db db' : List Bytes} {r : H256} {A : Cells.Trie} (h : Holds H U db r A)
    (hm : ∀ b ∈ db, b ∈ db') : Holds H U db' r A := h.imp fun _ ⟨a, b⟩ => ⟨a.mono hm, b⟩

structure Inv (H : Bytes → H256) (abi : HeaderAbi) (U : List Bytes) (c : Chain) (m : Mem abi) : Prop where
  db : ∀ b ∈ c.db, b ∈ U
  world : ∃ s, WorldDb.Inv H U c.world s ∧ (∀ x, Ours x → rootIn H s.cur x = c.root) ∧
    s.saved.length = m.saved.length ∧
    ∀ (i : Nat) σ p, s.saved[i]? = some σ → m.saved[i]? = some p →
      ∃ r, (∀ x, Ours x → rootIn H σ x = r) ∧ Holds H U c.db r p.2.current
  holds : Holds H U c.db c.root m.s.current
  reach : Reach abi m.s
  past : ∀ p ∈ m.saved, Reach abi p.2

variable {c : Chain} {m : Mem abi}

theorem inv_init : Inv H abi U .init (.init abi) := by
  refine ⟨fun b h => by simp [Chain.init] at h, ⟨.init, WorldDb.inv_init, ?_, rfl, ?_⟩,
    ⟨.empty, .inl ⟨rfl, rfl⟩, same_empty⟩, .init _ _, fun p hp => by simp [Mem.init] at hp⟩
  · intro x _
    show ofVal (emptyView.slot _) = zeroRoot
    exact ofVal_zero
  · intro i σ p h; simp [SState.init] at h

theorem world_step (fn : Fine H U) {w : World} {s : SState} (h : WorldDb.Inv H U w s) {ops : List WorldDb.Op}
    (hh : ∀ b ∈ WorldDb.hashedRun H ops w, b ∈ U) {w' : World} (hr : WorldDb.run H ops w = .ok w') :
    WorldDb.Inv H U w' (specRun ops s) := by
  obtain ⟨w'', h1, h2⟩ := WorldDb.run_inv fn ops w s h hh
  rw [hr] at h1
  cases h1
  exact h2

/-- The strings that every chain hashes. -/
structure Consts (H : Bytes → H256) (U : List Bytes) : Prop where
  light : light.bytes ∈ U
  image : image.bytes ∈ U
  slot : (slotKey H).bytes ∈ U

theorem Consts.ours (k : Consts H U) {x : H160} (hx : Ours x) : x.bytes ∈ U := by
  rcases hx with rfl | rfl
  · exact k.light
  · exact k.image

/-- The trie of a committed state. -/
theorem Inv.at (fn : Fine H U) (ct : Consts H U) (h : Inv H abi U c m)
    {i : Nat} {r : H256} (hr : c.world.roots[i]? = some r) : ∃ p t q, m.saved[i]? = some p ∧
      openTrie H c.world.nodes r = .ok t ∧ Holds H U c.db q p.2.current ∧
      ∀ x, Ours x → ∃ v, storage H { c.world with trie := t } x (slotKey H) = .ok v ∧ ofVal v = q := by
  obtain ⟨s, w1, w2, w3, w4⟩ := h.world
  obtain ⟨hi, -⟩ := List.getElem?_eq_some_iff.1 hr
  have hi1 : i < s.saved.length := by rw [← w1.len]; exact hi
  have hi2 : i < m.saved.length := by omega
  obtain ⟨t, x1, x2, x3, x4⟩ := w1.saved i r s.saved[i] hr (by simp [hi1])
  obtain ⟨q, q1, q2⟩ := w4 i s.saved[i] m.saved[i] (by simp [hi1]) (by simp [hi2])
  refine ⟨m.saved[i], t, q, by simp [hi2], ?_, q2, fun x hx => ⟨_, ?_, q1 x hx⟩⟩
  · rw [x1]
    exact openTrie_root fn.free x2.keyed w1.nodes x3 x4
  · exact (reads_rep fn (w := { c.world with trie := t }) w1.nodes x2 (ct.ours hx) ct.slot).storage

/-- Every step of the chain is the step in memory. -/
theorem step_inv (fn : Fine H U) (ct : Consts H U) (h : Inv H abi U c m)
    (o : Op abi) (hl : Harmless H abi o) (hf : Roomy abi o) (hh : ∀ b ∈ hashed H abi c o, b ∈ U)
    (hs : ∀ e, effect H abi c o = .ok e → ∀ t ∈ e.tries, Trie.Sized t) {c' : Chain}
    (hst : step H abi c o = .ok c') : ∃ m', memStep abi m o = .ok m' ∧ Inv H abi U c' m' := by
  obtain ⟨s, w1, w2, w3, w4⟩ := h.world
  have hrd : ∃ v, storage H c.world light (slotKey H) = .ok v ∧ ofVal v = c.root :=
    ⟨_, (reads_rep fn w1.nodes w1.cur ct.light ct.slot).storage, w2 light (.inl rfl)⟩
  have hroots : m.s.lightRoot = m.s.current := (Cells.inv_reach abi h.reach).light
  unfold step at hst
  cases he : effect H abi c o with
  | err => rw [he] at hst; cases hst
  | panic => rw [he] at hst; cases hst
  | ok e =>
    rw [he] at hst
    simp only [Outcome.bind] at hst
    have hse := hs e he
    have hhe : ∀ b ∈ WorldDb.hashedRun H e.ops c.world ++ e.tries.flatMap (Trie.pieces (hb H)), b ∈ U := by
      intro b hb'
      refine hh b ?_
      unfold hashed
      rw [he]
      exact List.mem_append_right _ hb'
    have hke : ∀ b ∈ keysOf abi o, b ∈ U := fun b hb' => hh b (List.mem_append_left _ hb')
    cases hr : WorldDb.run H e.ops c.world with
    | err => rw [hr] at hst; cases hst
    | panic => rw [hr] at hst; cases hst
    | ok w =>
      rw [hr] at hst
      simp only [Outcome.ok.injEq] at hst
      have hw := world_step fn w1 (fun b hb' => hhe b (List.mem_append_left _ hb')) hr
      -- operations that leave the trie alone
      have quiet : ∀ {m' : Mem abi} {r : H256}, e = ⟨r, [], e.ops⟩ → m'.s.current = m.s.current → r = c.root →
          (∀ x, Ours x → rootIn H (specRun e.ops s).cur x = c.root) →
          (specRun e.ops s).saved.length = m'.saved.length →
          (∀ (i : Nat) σ p, (specRun e.ops s).saved[i]? = some σ → m'.saved[i]? = some p →
            ∃ r, (∀ x, Ours x → rootIn H σ x = r) ∧ Holds H U c.db r p.2.current) →
          Reach abi m'.s → (∀ p ∈ m'.saved, Reach abi p.2) → Inv H abi U c' m' := by
        intro m' r e1 e2 e3 e4 e5 e6 e7 e8
        have hc' : c' = ⟨w, c.db, c.root⟩ := by
          rw [← hst, e1, e3]; rfl
        subst hc'
        exact ⟨h.db, ⟨_, hw, e4, e5, e6⟩, by rw [e2]; exact h.holds, e7, e8⟩
      -- nothing happens at all
      have still : ∀ {m' : Mem abi}, e = idle c → m'.s.current = m.s.current → m'.saved = m.saved →
          Reach abi m'.s → Inv H abi U c' m' := by
        intro m' e1 e2 e3 e4
        refine quiet (by rw [e1]; rfl) e2 rfl ?_ ?_ ?_ e4 (by rw [e3]; exact h.past)
        · rw [e1]; exact w2
        · rw [e1, e3]; exact w3
        · rw [e1, e3]; exact w4
      cases o with
      | boot =>
        simp only [effect, bootEffect] at he
        obtain ⟨v, hv, hvr⟩ := hrd
        rw [hv] at he
        simp only [Outcome.bind, Outcome.ok.injEq, hvr] at he
        refine ⟨m, rfl, ?_⟩
        by_cases hz : c.root = zeroRoot
        · rw [if_pos hz] at he
          have hro := fun x hx => (rootIn_root (H := H) (s := s) (w := c.world) (r := c.root) (x := x) hx).1
          refine quiet (by rw [← he]; rfl) rfl rfl ?_ ?_ ?_ h.reach h.past
          · rw [← he]; exact hro
          · rw [← he]; exact w3
          · rw [← he]; exact w4
        · rw [if_neg hz] at he
          exact still he.symm rfl rfl h.reach
      | block =>
        simp only [effect] at he
        obtain ⟨v, hv, hvr⟩ := hrd
        rw [hv] at he
        simp only [Outcome.bind, Outcome.ok.injEq] at he
        refine ⟨_, rfl, still ?_ hroots rfl (.load h.reach)⟩
        rw [← he, hvr]
        rfl
      | other o =>
        simp only [effect, Outcome.ok.injEq] at he
        have hr := fun x hx => rootIn_step (s := s) hl (x := x) hx
        have hsv := (hr light (.inl rfl)).2
        refine ⟨m, rfl, quiet (by rw [← he]; rfl) rfl rfl ?_ ?_ ?_ h.reach h.past⟩
        · rw [← he]; exact fun x hx => (hr x hx).1.trans (w2 x hx)
        · rw [← he]
          show (specStep s o).saved.length = _
          rw [hsv]; exact w3
        · rw [← he]
          show ∀ (i : Nat) σ p, (specStep s o).saved[i]? = some σ → _
          rw [hsv]; exact w4
      | finish =>
        simp only [effect, Outcome.ok.injEq] at he
        refine ⟨_, rfl, quiet (by rw [← he]; rfl) rfl rfl ?_ ?_ ?_ h.reach ?_⟩
        · rw [← he]; exact w2
        · rw [← he]
          show (s.saved ++ [s.cur]).length = (m.saved ++ [(m.hist, m.s)]).length
          simp [w3]
        · rw [← he]
          show ∀ (i : Nat) σ p, (s.saved ++ [s.cur])[i]? = some σ → (m.saved ++ [(m.hist, m.s)])[i]? = some p → _
          intro i σ p hi hp
          rcases Nat.lt_trichotomy i s.saved.length with hlt | hlt | hlt
          · rw [List.getElem?_append_left hlt] at hi
            rw [List.getElem?_append_left (by omega)] at hp
            exact w4 i σ p hi hp
          · have : i = m.saved.length := by omega
            rw [this] at hp
            subst hlt
            simp only [List.getElem?_append_right (Nat.le_refl _), Nat.sub_self, List.getElem?_cons_zero,
              Option.some.injEq] at hi hp
            subst hi
            subst hp
            exact ⟨c.root, w2, h.holds⟩
          · rw [List.getElem?_eq_none (by simp; omega)] at hi
            cases hi
        · intro p hp
          rcases List.mem_append.1 hp with hp | hp
          · exact h.past p hp
          · simp only [List.mem_singleton] at hp
            subst hp
            exact h.reach
      | restart i =>
        simp only [effect, restartEffect] at he
        cases hi : c.world.roots[i]? with
        | none =>
          rw [hi] at he
          simp only [Outcome.ok.injEq] at he
          have hn : m.saved[i]? = none := by
            rw [List.getElem?_eq_none_iff] at hi ⊢
            rw [← w3, ← w1.len]; exact hi
          exact ⟨m, by simp [memStep, hn], still he.symm rfl rfl h.reach⟩
        | some r =>
          obtain ⟨p, t, q, hp, h1, h2, h3⟩ := h.at fn ct hi
          obtain ⟨v, h4, h5⟩ := h3 light (.inl rfl)
          rw [hi] at he
          simp only [h1, h4, Outcome.bind, Outcome.ok.injEq] at he
          refine ⟨_, by simp only [memStep, hp]; rfl, ?_⟩
          have hop : e.ops = [.reopen i] := by rw [← he]
          rw [hop] at hw
          have hc' : c' = ⟨w, c.db, q⟩ := by
            rw [← hst, ← he, ← h5]; rfl
          subst hc'
          have hi1 : i < s.saved.length := by
            rw [← w1.len]; exact (List.getElem?_eq_some_iff.1 hi).1
          refine ⟨h.db, ⟨_, hw, ?_, w3, w4⟩, h2, h.past p (List.mem_of_getElem? hp), h.past⟩
          intro x hx
          show rootIn H (s.saved[i]?.getD s.cur) x = q
          obtain ⟨t', x1, x2, x3, x4⟩ := w1.saved i r s.saved[i] hi (by simp [hi1])
          have ht : t' = t := by
            have := openTrie_root fn.free x2.keyed w1.nodes x3 x4
            rw [← x1, h1] at this
            cases this
            rfl
          subst ht
          have := (reads_rep fn (w := { c.world with trie := t' }) w1.nodes x2 (ct.ours hx) ct.slot).storage
          obtain ⟨v', e1, e2⟩ := h3 x hx
          rw [e1] at this
          cases this
          simp only [hi1, List.getElem?_eq_getElem, Option.getD_some]
          exact e2
      | call a d =>
        simp only [effect, callEffect] at he
        obtain ⟨t, h1, h2⟩ := h.holds
        rw [h1.load fn h.db] at he
        simp only at he
        cases d with
        | none =>
          simp only [Outcome.ok.injEq] at he
          exact ⟨m, by simp [memStep, Cells.exec, Outcome.bind], still he.symm rfl rfl h.reach⟩
        | some d =>
          simp only at he
          have hag := runTrie_agree fn.free h2 d hke
          revert hag
          cases hm : Cells.runTrie abi m.s.current d with
          | panic =>
            intro hag
            generalize hx : runTrie H abi t d = x at hag
            cases hag
            rw [hx] at he
            cases he
          | err =>
            intro hag
            generalize hx : runTrie H abi t d = x at hag
            cases hag
            rw [hx] at he
            simp only [Outcome.ok.injEq] at he
            exact ⟨m, by simp [memStep, Cells.exec, hm, Outcome.bind], still he.symm rfl rfl h.reach⟩
          | ok A =>
            intro hag
            generalize hx : runTrie H abi t d = x at hag
            cases hag with
            | @ok t' _ h3 =>
            rw [hx] at he
            simp only at he
            cases hsc : stateChanges H c.world (rootAfter H abi c.root t' d) a with
            | err => rw [hsc] at he; cases he
            | panic => rw [hsc] at he; cases he
            | ok ops =>
              rw [hsc] at he
              simp only [Outcome.bind, Outcome.ok.injEq] at he
              have hex : Cells.exec abi m.s (some d) =
                  .ok (Cells.updateStates { Cells.runFlags abi m.s d with current := A }, true) := by
                simp only [Cells.exec, hm]
              refine ⟨_, by simp only [memStep, hex, Outcome.bind]; rfl, ?_⟩
              have hsp := fun x hx => stateChanges_spec hsc s (x := x) hx
              have hsv := (hsp light (.inl rfl)).2
              have hop : e.ops = ops := by rw [← he]
              rw [hop] at hw
              by_cases hcm : commits abi d = true
              · simp only [rootAfter, hcm, if_true] at he hsp
                have hp : ∀ b ∈ Trie.pieces (hb H) t', b ∈ U := by
                  intro b hb'
                  refine hhe b (List.mem_append_right _ ?_)
                  rw [← he]
                  simpa using hb'
                have hc' : c' = ⟨w, Trie.stored (hb H) t' ++ c.db, rootOf H t'⟩ := by
                  rw [← hst, ← he]
                  simp
                have htr : t' ∈ e.tries := by rw [← he]; simp
                subst hc'
                refine ⟨?_, ⟨_, hw, fun x hx => (hsp x hx).1, by rw [hsv]; exact w3, ?_⟩,
                  ⟨t', .inr ⟨rfl, rootOf_ne fn hp, h3.tidy, hse _ htr, hp,
                    fun b hb' => List.mem_append_left _ hb'⟩, h3⟩, .call h.reach hf hex, h.past⟩
                · intro b hb'
                  rcases List.mem_append.1 hb' with hb' | hb'
                  · exact hp b (Trie.stored_pieces _ _ b hb')
                  · exact h.db b hb'
                · rw [hsv]
                  intro i σ p hi hp'
                  obtain ⟨r, r1, r2⟩ := w4 i σ p hi hp'
                  exact ⟨r, r1, r2.mono fun b hb' => List.mem_append_right _ hb'⟩
              · simp only [rootAfter, hcm, if_false, Bool.false_eq_true] at he hsp
                have hA : A = m.s.current := by
                  cases d with
                  | setCellState b => exact (Outcome.ok.inj hm).symm
                  | setHeaderState b => exact (Outcome.ok.inj hm).symm
                  | _ => exact absurd rfl hcm
                refine quiet (r := c.root) (by rw [← he]) hA rfl ?_ ?_ ?_ (.call h.reach hf hex) h.past
                · rw [← he]; exact fun x hx => (hsp x hx).1
                · rw [← he]
                  show (specRun ops s).saved.length = _
                  rw [hsv]; exact w3
                · rw [← he]
                  show ∀ (i : Nat) σ p, (specRun ops s).saved[i]? = some σ → _
                  rw [hsv]; exact w4

theorem run_inv (fn : Fine H U) (ct : Consts H U) : ∀ (ops : List (Op abi))
    (c : Chain) (m : Mem abi), Inv H abi U c m → (∀ o ∈ ops, Harmless H abi o) → (∀ o ∈ ops, Roomy abi o) →
    (∀ b ∈ hashedRun H abi ops c, b ∈ U) →
    (∀ t ∈ committed H abi ops c, Trie.Sized t) → ∀ {c' : Chain}, run H abi ops c = .ok c' →
    ∃ m', memRun abi ops m = .ok m' ∧ Inv H abi U c' m' := by
  intro ops
  induction ops with
  | nil =>
    intro c m h _ _ _ _ c' hr
    cases hr
    exact ⟨m, rfl, h⟩
  | cons o ops ih =>
    intro c m h hl hf hh hs c' hr
    simp only [run] at hr
    cases h1 : step H abi c o with
    | err => rw [h1] at hr; cases hr
    | panic => rw [h1] at hr; cases hr
    | ok c1 =>
      rw [h1] at hr
      simp only [hashedRun, committed, h1, List.mem_append] at hh hs
      obtain ⟨m1, e1, e2⟩ := step_inv fn ct h o (hl o (by simp)) (hf o (by simp)) (fun b hb' => hh b (.inl hb'))
        (fun e he t ht => hs t (.inl (by rw [he]; exact ht))) h1
      obtain ⟨m2, e3, e4⟩ := ih c1 m1 e2 (fun o ho => hl o (by simp [ho])) (fun o ho => hf o (by simp [ho]))
        (fun b hb' => hh b (.inr hb')) (fun t ht => hs t (.inr ht)) hr
      exact ⟨m2, by simp only [memRun, e1, Outcome.bind]; exact e3, e4⟩

end Axon.CkbChain
