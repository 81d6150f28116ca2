import Verif.Executor.WorldDbProps
import Verif.Metadata.TrieStoreProps

/-!
# The metadata of a chain in its databases

The metadata contract keeps its trie in a database of its own and the root of that trie in a storage slot of its
account.  `MetadataStore::new` opens the trie by the root for every call
(`core/executor/src/system_contract/metadata/store.rs:48-72`), the root is taken from the state at the beginning
of a block (`core/executor/src/lib.rs:398-407`) and written to the state after every call
(`core/executor/src/system_contract/utils.rs:39-101`).  `Metadata/Records.lean` has the store itself, held in
memory; `Executor/WorldDb.lean` has the state.
-/

namespace Axon.MetaChain
open Axon.Rlp Axon.Assoc Axon.Exec Axon.WorldDb
open Axon.Trie (Node)
open Axon.MetaTrie (TStore Keys)

/-- The hash and the four keys of the metadata trie. -/
structure Env where
  H : Bytes → H256
  keys : Keys

/-- The hash and the keys for the store. -/
def Env.store (X : Env) : MetaTrie.Env := ⟨hb X.H, X.keys⟩

/-- `METADATA_CONTRACT_ADDRESS`, `metadata/mod.rs:29`, `system_contract/mod.rs:43-48` -/
def contract : H160 := ⟨List.replicate 19 0xff ++ [1], by simp⟩

/-- `METADATA_ROOT_KEY`, the digest of `metadata_root`, `system_contract/mod.rs:65` -/
def slotKey (X : Env) : H256 := X.H [109, 101, 116, 97, 100, 97, 116, 97, 95, 114, 111, 111, 116]

/-- `H256::default()` -/
def zeroRoot : H256 := ⟨List.replicate 32 0, by simp⟩

/-- A hash as a storage value. -/
def toVal (h : H256) : U256 := ⟨beNat h.bytes, by
  have := beNat_lt h.bytes
  rw [h.len] at this
  simpa [show (256 : Nat) ^ 32 = 2 ^ 256 by decide] using this⟩

/-- A storage value as a hash. -/
def ofVal (v : U256) : H256 := ⟨beFixed 32 v.val, by simp⟩

/-- The state, the nodes in the metadata database, `CURRENT_METADATA_ROOT` and `HARDFORK_INFO`. -/
structure Chain where
  world : World
  mdb : List Bytes
  root : H256
  flags : H256

def Chain.init : Chain := ⟨.init, [], zeroRoot, Meta.zeroH⟩

/-- `MetadataStore::new`, `store.rs:48-72` -/
def loadStore (X : Env) (c : Chain) : Outcome TStore :=
  if c.root = zeroRoot then .ok { TStore.init X.store with current := c.flags }
  else (openTrie X.H c.mdb c.root).bind fun t => .ok ⟨t, c.flags⟩

/-- What happens to a chain: a block begins; a metadata transaction or the end of a block; any other change of
the state; the state is committed; the node starts again at a committed state, whose block has the number given. -/
inductive Op where
  | block
  | store (o : MetaTrie.Op)
  | other (o : WorldDb.Op)
  | finish
  | restart (i n : Nat)

/-- What an operation does: the new root and flags, the metadata tries committed, the changes of the state. -/
structure Effect where
  root : H256
  flags : H256
  tries : List Node
  ops : List WorldDb.Op

/-- Nothing happens. -/
def idle (c : Chain) : Effect := ⟨c.root, c.flags, [], []⟩

/-- `generate_mpt_root_changes` for the metadata contract, `utils.rs:88-97` -/
def rootChange (X : Env) (w : World) (r : H256) : WorldDb.Op :=
  .change (.modify contract (basic X.H w contract) none [(slotKey X, toVal r)] false) false

/-- `generate_sender_changes`, `utils.rs:49-62`; the addition panics when it overflows. -/
def senderChange (X : Env) (w : World) (a : H160) : Outcome WorldDb.Op :=
  (Outcome.orPanic (UIntN.ofNat? 256 ((basic X.H w a).nonce.val + 1))).bind fun n =>
    .ok (.change (.modify a ⟨(basic X.H w a).balance, n⟩ none [] false) false)

/-- The changes of the state after a call of the contract (`update_states`, `utils.rs:39-47`) and after the hook
(`metadata/mod.rs:135-136`). -/
def stateChanges (X : Env) (w : World) (r : H256) : MetaTrie.Op → Outcome (List WorldDb.Op)
  | .tx _ a _ => (senderChange X w a).bind fun ch => .ok [rootChange X w r, ch]
  | .endBlock .. => .ok [rootChange X w r]

/-- The hook does nothing at genesis, `metadata/mod.rs:111-113`. -/
def early : MetaTrie.Op → Bool
  | .tx .. => false
  | .endBlock n .. => n == 0

/-- What a transaction that cannot open the store does: it reverts; the hook panics (`metadata/mod.rs:56-60,
117`). -/
def unopened (c : Chain) : MetaTrie.Op → Outcome Effect
  | .tx .. => .ok (idle c)
  | .endBlock .. => .panic

/-- A call of the contract or its hook, `metadata/mod.rs:48-137`: the store is opened by the current root, the
operation done on it, the trie committed.  The hook commits twice when it registers a hardfork; the trie in
between is left out here. -/
def storeEffect (X : Env) (c : Chain) (o : MetaTrie.Op) : Outcome Effect :=
  match loadStore X c with
  | .panic => .panic
  | .err => unopened c o
  | .ok t =>
    (MetaTrie.step X.store t o).bind fun r =>
      if r.2 && !early o then
        (stateChanges X c.world (rootOf X.H r.1.trie) o).bind fun ops =>
          .ok ⟨rootOf X.H r.1.trie, r.1.current, [r.1.trie], ops⟩
      else .ok (idle c)

/-- The metadata store of a committed state: open the state by its root, read the slot
(`get_metadata_root`, `read_only.rs:228-230`), open the store (`MetadataHandle`, `handle.rs:16-23`). -/
def storeAt (X : Env) (c : Chain) (r : H256) : Outcome TStore :=
  (openTrie X.H c.world.nodes r).bind fun t =>
  (storage X.H { c.world with trie := t } contract (slotKey X)).bind fun v =>
    loadStore X { c with root := ofVal v }

/-- Starting again, `core/run/src/lib.rs:203-213`: `init_hardfork` (`handle.rs:57-64`) takes the flags from the
store; the state is opened by its root for the next block. -/
def restartEffect (X : Env) (c : Chain) (i n : Nat) : Outcome Effect :=
  match c.world.roots[i]? with
  | none => .ok (idle c)
  | some r =>
    (openTrie X.H c.world.nodes r).bind fun t =>
    (storage X.H { c.world with trie := t } contract (slotKey X)).bind fun v =>
    (loadStore X { c with root := ofVal v }).bind fun st =>
    (MetaTrie.unwrap (MetaTrie.forkAt X.store st n)).bind fun f =>
    .ok ⟨ofVal v, f, [], [.reopen i]⟩

/-- The effect of an operation; `init_local_system_contract_roots`, `lib.rs:398-407`, begins a block. -/
def effect (X : Env) (c : Chain) : Op → Outcome Effect
  | .block => (storage X.H c.world contract (slotKey X)).bind fun v => .ok { idle c with root := ofVal v }
  | .store o => storeEffect X c o
  | .other o => .ok { idle c with ops := [o] }
  | .finish => .ok { idle c with ops := [.commit] }
  | .restart i n => restartEffect X c i n

def step (X : Env) (c : Chain) (o : Op) : Outcome Chain :=
  (effect X c o).bind fun e =>
  (WorldDb.run X.H e.ops c.world).bind fun w =>
    .ok ⟨w, e.tries.flatMap (Trie.stored (hb X.H)) ++ c.mdb, e.root, e.flags⟩

def run (X : Env) : List Op → Chain → Outcome Chain
  | [], c => .ok c
  | o :: ops, c => (step X c o).bind (run X ops)

/-! ## Conditions -/

/-- Other changes leave the slot of the root alone: the account of the contract is not deleted, its storage not
reset and the slot not written.  (The account has no code, so the virtual machine has no reason to.)  Commits and
re-openings are not among them. -/
def Harmless (X : Env) : Op → Prop
  | .other (.change (.modify a _ _ ws reset) _) => a = contract → reset = false ∧ ∀ kv ∈ ws, kv.1 ≠ slotKey X
  | .other (.change (.delete a) _) => a ≠ contract
  | .other (.save ..) => True
  | .other .commit => False
  | .other (.reopen _) => False
  | _ => True

/-- What an operation hashes. -/
def hashed (X : Env) (c : Chain) (o : Op) : List Bytes :=
  match effect X c o with
  | .ok e => WorldDb.hashedRun X.H e.ops c.world ++ e.tries.flatMap (Trie.pieces (hb X.H))
  | _ => []

def hashedRun (X : Env) : List Op → Chain → List Bytes
  | [], _ => []
  | o :: ops, c => hashed X c o ++
    match step X c o with
    | .ok c' => hashedRun X ops c'
    | _ => []

/-- The metadata tries committed. -/
def committed (X : Env) : List Op → Chain → List Node
  | [], _ => []
  | o :: ops, c =>
    (match effect X c o with
      | .ok e => e.tries
      | _ => []) ++
    match step X c o with
    | .ok c' => committed X ops c'
    | _ => []

/-! ## Specification -/

/-- The store held in memory, the operations that took effect, and both as they were at every commit. -/
structure Mem where
  t : TStore
  hist : List MetaTrie.Op
  saved : List (List MetaTrie.Op × TStore)

def Mem.init (X : Env) : Mem := ⟨TStore.init X.store, [], []⟩

def memStep (X : Env) (m : Mem) : Op → Outcome Mem
  | .store o => (MetaTrie.step X.store m.t o).bind fun r =>
      .ok { m with t := r.1, hist := if r.2 then m.hist ++ [o] else m.hist }
  | .finish => .ok { m with saved := m.saved ++ [(m.hist, m.t)] }
  | .restart i n =>
    match m.saved[i]? with
    | none => .ok m
    | some p => (MetaTrie.unwrap (MetaTrie.forkAt X.store p.2 n)).bind fun f =>
        .ok { m with t := { p.2 with current := f }, hist := p.1 }
  | _ => .ok m

def memRun (X : Env) : List Op → Mem → Outcome Mem
  | [], m => .ok m
  | o :: ops, m => (memStep X m o).bind (memRun X ops)

/-! ## Values -/

theorem ofVal_toVal (h : H256) : ofVal (toVal h) = h := by
  apply FixedBytes.ext'
  show beFixed 32 (beNat h.bytes) = h.bytes
  have := beFixed_beNat h.bytes
  rwa [h.len] at this

theorem ofVal_zero : ofVal U256.zero = zeroRoot := by
  apply FixedBytes.ext'
  decide +kernel

/-! ## Tries of the store -/

variable {X : Env} {U : List Bytes}

/-- A trie with hashed keys. -/
structure Tidy (t : Node) : Prop where
  canon : Trie.Canon t
  len : ∀ k v, Trie.get t k = some v → k.length ≤ 64

theorem tidy_kept : MetaTrie.Kept X.store Tidy := by
  intro u k v h
  refine ⟨Trie.canon_put h.canon _ _, fun p w hp => ?_⟩
  unfold Trie.mptInsert at hp
  rw [Trie.get_put] at hp
  have hl : (Trie.keyPath (X.store.H k)).length ≤ 64 := by
    rw [Trie.keyPath_length]
    show 2 * (hb X.H k).length ≤ 64
    rw [hb_length]
    omega
  split at hp
  · rename_i e; rw [e]; exact hl
  · exact h.len p w hp

theorem tidy_init : Tidy (TStore.init X.store).trie := by
  have h : Tidy Node.empty := ⟨Trie.canon_empty, fun k v h => by simp [Trie.get] at h⟩
  exact tidy_kept (X := X) .empty X.store.keys.seg.bytes (Meta.asBytes Meta.segNew) h

theorem get_sized : ∀ (t : Node) (k : Trie.Path) (v : Bytes), Trie.Sized t → Trie.get t k = some v →
    v.length < 2 ^ 32 := by
  intro t
  induction t with
  | empty => intro k v _ h; simp [Trie.get] at h
  | leaf p w =>
    intro k v hs h
    simp only [Trie.get] at h
    split at h
    · cases h; exact hs.2
    · cases h
  | ext p c ih =>
    intro k v hs h
    simp only [Trie.get] at h
    split at h
    · exact ih _ v hs.2 h
    · cases h
  | branch cs w ih =>
    intro k v hs h
    cases k with
    | nil => exact hs.2 v h
    | cons n k => exact ih n k v (hs.1 n) h

/-- The root stands for the trie. -/
def Link (X : Env) (U : List Bytes) (mdb : List Bytes) (r : H256) (t : Node) : Prop :=
  (r = zeroRoot ∧ t = (TStore.init X.store).trie) ∨
  (r = rootOf X.H t ∧ r ≠ zeroRoot ∧ Tidy t ∧ Trie.Sized t ∧ (∀ b ∈ Trie.pieces (hb X.H) t, b ∈ U) ∧
    ∀ b ∈ Trie.stored (hb X.H) t, b ∈ mdb)

theorem Link.tidy {mdb : List Bytes} {r : H256} {t : Node} (h : Link X U mdb r t) : Tidy t := by
  rcases h with ⟨-, rfl⟩ | ⟨-, -, h, -⟩
  · exact tidy_init
  · exact h

theorem Link.mono {mdb mdb' : List Bytes} {r : H256} {t : Node} (h : Link X U mdb r t)
    (hm : ∀ b ∈ mdb, b ∈ mdb') : Link X U mdb' r t :=
  h.imp id fun ⟨a, b, c, d, e, f⟩ => ⟨a, b, c, d, e, fun x hx => hm x (f x hx)⟩

/-- The store is opened by its root. -/
theorem Link.load (fn : Fine X.H U) {c : Chain} {t : Node} (hm : ∀ b ∈ c.mdb, b ∈ U)
    (h : Link X U c.mdb c.root t) : loadStore X c = .ok ⟨t, c.flags⟩ := by
  unfold loadStore
  rcases h with ⟨h1, rfl⟩ | ⟨h1, h2, h3, h4, h5, h6⟩
  · rw [if_pos h1]
  · rw [if_neg h2, h1]
    have : openTrie X.H c.mdb (rootOf X.H t) = .ok t :=
      Trie.openAt_root (H := hb X.H) hb_length h3.canon h4 h3.len h6
        fun b hb' a ha e => fn.free b (hm b hb') a (h5 a ha) (hb_inj e)
    rw [this]
    rfl

/-! ## The invariant -/

/-- The root of the metadata trie that a state names. -/
def rootIn (X : Env) (σ : Spec) : H256 := ofVal (((σ contract).getD emptyView).slot (slotKey X))

structure Inv (X : Env) (U : List Bytes) (c : Chain) (m : Mem) : Prop where
  mdb : ∀ b ∈ c.mdb, b ∈ U
  world : ∃ s, WorldDb.Inv X.H U c.world s ∧ rootIn X s.cur = c.root ∧ s.saved.length = m.saved.length ∧
    ∀ (i : Nat) σ p, s.saved[i]? = some σ → m.saved[i]? = some p → Link X U c.mdb (rootIn X σ) p.2.trie
  link : Link X U c.mdb c.root m.t.trie
  flags : c.flags = m.t.current

variable {c : Chain} {m : Mem}

theorem inv_init : Inv X U .init (.init X) := by
  refine ⟨fun b h => by simp [Chain.init] at h, ⟨.init, WorldDb.inv_init, ?_, rfl, ?_⟩, .inl ⟨rfl, rfl⟩, rfl⟩
  · show ofVal (emptyView.slot _) = zeroRoot
    exact ofVal_zero
  · intro i σ p h; simp [SState.init] at h

/-- Changes of the state that leave the slot alone. -/
theorem rootIn_step {s : SState} {o : WorldDb.Op} (h : Harmless X (.other o)) :
    rootIn X (specStep s o).cur = rootIn X s.cur ∧ (specStep s o).saved = s.saved := by
  cases o with
  | change ch de =>
    cases ch with
    | modify a b c ws reset =>
      refine ⟨?_, rfl⟩
      unfold rootIn specStep Spec.set
      simp only
      by_cases e : contract = a
      · obtain ⟨hr, hw⟩ := h e.symm
        rw [if_pos e, ← e]
        simp only [Option.getD_some]
        congr 1
        unfold specSlots
        have : (ws.reverse.find? fun kv => decide (kv.1 = slotKey X)) = none := by
          rw [List.find?_eq_none]
          intro kv hkv
          simpa using hw kv (by simpa using hkv)
        rw [this, hr]
        rfl
      · rw [if_neg e]
    | delete a =>
      refine ⟨?_, rfl⟩
      unfold rootIn specStep Spec.set
      simp only
      rw [if_neg fun e => h e.symm]
  | save a n b =>
    refine ⟨?_, rfl⟩
    unfold rootIn specStep Spec.set
    simp only
    by_cases e : contract = a
    · rw [if_pos e, ← e]; rfl
    · rw [if_neg e]
  | commit => exact absurd h id
  | reopen i => exact absurd h id

/-- The root written to the slot is read there. -/
theorem rootIn_root {s : SState} {w : World} {r : H256} :
    rootIn X (specStep s (rootChange X w r)).cur = r ∧ (specStep s (rootChange X w r)).saved = s.saved := by
  refine ⟨?_, rfl⟩
  unfold rootIn specStep rootChange Spec.set
  simp only [if_true, Option.getD_some]
  unfold specSlots
  simp only [List.reverse_cons, List.reverse_nil, List.nil_append, List.find?_cons, decide_true]
  exact ofVal_toVal r

theorem world_step (fn : Fine X.H U) {w : World} {s : SState} (h : WorldDb.Inv X.H U w s) {ops : List WorldDb.Op}
    (hh : ∀ b ∈ WorldDb.hashedRun X.H ops w, b ∈ U) {w' : World} (hr : WorldDb.run X.H ops w = .ok w') :
    WorldDb.Inv X.H U w' (specRun ops s) := by
  obtain ⟨w'', h1, h2⟩ := run_inv fn ops w s h hh
  rw [hr] at h1
  cases h1
  exact h2

theorem rootOf_ne (fn : Fine X.H U) {t : Node} (h : ∀ b ∈ Trie.pieces (hb X.H) t, b ∈ U) :
    rootOf X.H t ≠ zeroRoot := fun e =>
  fn.zero _ (h _ (Trie.raw_mem _ t)) (congrArg FixedBytes.bytes e)

/-- The metadata store of a committed state. -/
theorem Inv.at (fn : Fine X.H U) (hc : contract.bytes ∈ U) (hk : (slotKey X).bytes ∈ U) (h : Inv X U c m)
    {i : Nat} {r : H256} (hr : c.world.roots[i]? = some r) : ∃ p t, m.saved[i]? = some p ∧
      openTrie X.H c.world.nodes r = .ok t ∧
      ∃ v, storage X.H { c.world with trie := t } contract (slotKey X) = .ok v ∧
        Link X U c.mdb (ofVal v) p.2.trie := by
  obtain ⟨s, w1, w2, w3, w4⟩ := h.world
  obtain ⟨hi, -⟩ := List.getElem?_eq_some_iff.1 hr
  have hi1 : i < s.saved.length := by rw [← w1.len]; exact hi
  have hi2 : i < m.saved.length := by omega
  obtain ⟨t, x1, x2, x3, x4⟩ := w1.saved i r s.saved[i] hr (by simp [hi1])
  refine ⟨m.saved[i], t, by simp [hi2], ?_, _, ?_, w4 i s.saved[i] m.saved[i] (by simp [hi1]) (by simp [hi2])⟩
  · rw [x1]
    exact openTrie_root fn.free x2.keyed w1.nodes x3 x4
  · exact (reads_rep fn (w := { c.world with trie := t }) w1.nodes x2 hc hk).storage

theorem stateChanges_spec {w : World} {r : H256} {o : MetaTrie.Op} {ops : List WorldDb.Op}
    (h : stateChanges X w r o = .ok ops) (s : SState) :
    rootIn X (specRun ops s).cur = r ∧ (specRun ops s).saved = s.saved := by
  cases o with
  | endBlock n x p l =>
    simp only [stateChanges, Outcome.ok.injEq] at h
    subst h
    exact rootIn_root
  | tx b a call =>
    simp only [stateChanges, senderChange] at h
    cases hn : UIntN.ofNat? 256 ((basic X.H w a).nonce.val + 1) with
    | none => rw [hn] at h; cases h
    | some n =>
      rw [hn] at h
      simp only [Outcome.orPanic, Outcome.bind, Outcome.ok.injEq] at h
      subst h
      have h1 := rootIn_root (X := X) (s := s) (w := w) (r := r)
      have h2 := rootIn_step (X := X) (s := specStep s (rootChange X w r))
        (o := .change (.modify a ⟨(basic X.H w a).balance, n⟩ none [] false) false)
        (fun _ => ⟨rfl, fun kv h => by simp at h⟩)
      exact ⟨h2.1.trans h1.1, h2.2.trans h1.2⟩

theorem early_step {t : TStore} {o : MetaTrie.Op} {r : TStore × Bool} (he : early o = true)
    (h : MetaTrie.step X.store t o = .ok r) : r.1 = t := by
  cases o with
  | tx => cases he
  | endBlock n x p l =>
    simp only [early, beq_iff_eq] at he
    subst he
    simp only [MetaTrie.step, MetaTrie.hook, if_true, Outcome.bind, Outcome.ok.injEq] at h
    rw [← h]

/-- Every step of the chain is the step of the store in memory. -/
theorem step_inv (fn : Fine X.H U) (hc : contract.bytes ∈ U) (hk : (slotKey X).bytes ∈ U) (h : Inv X U c m)
    (o : Op) (hl : Harmless X o) (hh : ∀ b ∈ hashed X c o, b ∈ U)
    (hs : ∀ e, effect X c o = .ok e → ∀ t ∈ e.tries, Trie.Sized t) {c' : Chain} (hst : step X c o = .ok c') :
    ∃ m', memStep X m o = .ok m' ∧ Inv X U c' m' := by
  obtain ⟨s, w1, w2, w3, w4⟩ := h.world
  unfold step at hst
  cases he : effect X c o with
  | err => rw [he] at hst; cases hst
  | panic => rw [he] at hst; cases hst
  | ok e =>
    rw [he] at hst
    simp only [Outcome.bind] at hst
    have hse := hs e he
    have hhe : ∀ b ∈ WorldDb.hashedRun X.H e.ops c.world ++ e.tries.flatMap (Trie.pieces (hb X.H)), b ∈ U := by
      intro b hb'
      refine hh b ?_
      unfold hashed
      rw [he]
      exact hb'
    cases hr : WorldDb.run X.H e.ops c.world with
    | err => rw [hr] at hst; cases hst
    | panic => rw [hr] at hst; cases hst
    | ok w =>
      rw [hr] at hst
      simp only [Outcome.ok.injEq] at hst
      have hw := world_step fn w1 (fun b hb' => hhe b (List.mem_append_left _ hb')) hr
      -- operations that leave the store alone
      have quiet : ∀ {m' : Mem} {r : H256}, e = ⟨r, c.flags, [], e.ops⟩ → m'.t = m.t → r = c.root →
          rootIn X (specRun e.ops s).cur = c.root → (specRun e.ops s).saved.length = m'.saved.length →
          (∀ (i : Nat) σ p, (specRun e.ops s).saved[i]? = some σ → m'.saved[i]? = some p →
            Link X U c.mdb (rootIn X σ) p.2.trie) → Inv X U c' m' := by
        intro m' r e1 e2 e3 e4 e5 e6
        have hc' : c' = ⟨w, c.mdb, c.root, c.flags⟩ := by
          rw [← hst, e1, e3]; rfl
        subst hc'
        exact ⟨h.mdb, ⟨_, hw, e4, e5, e6⟩, by rw [e2]; exact h.link, by rw [e2]; exact h.flags⟩
      cases o with
      | block =>
        simp only [effect] at he
        have hrd := reads_rep fn w1.nodes w1.cur hc hk
        have hsto := hrd.storage
        rw [hsto] at he
        simp only [Outcome.bind, Outcome.ok.injEq] at he
        refine ⟨m, rfl, quiet (r := ofVal _) (by rw [← he]; rfl) rfl w2 ?_ ?_ ?_⟩
        · rw [← he]; exact w2
        · rw [← he]; exact w3
        · rw [← he]; exact w4
      | other o =>
        simp only [effect, Outcome.ok.injEq] at he
        have hr := rootIn_step (s := s) hl
        refine ⟨m, rfl, quiet (by rw [← he]; rfl) rfl rfl ?_ ?_ ?_⟩
        · rw [← he]; exact hr.1.trans w2
        · rw [← he]
          show (specStep s o).saved.length = _
          rw [hr.2]; exact w3
        · rw [← he]
          show ∀ (i : Nat) σ p, (specStep s o).saved[i]? = some σ → _
          rw [hr.2]; exact w4
      | finish =>
        simp only [effect, Outcome.ok.injEq] at he
        refine ⟨_, rfl, quiet (by rw [← he]; rfl) rfl rfl ?_ ?_ ?_⟩
        · rw [← he]; exact w2
        · rw [← he]
          show (s.saved ++ [s.cur]).length = (m.saved ++ [(m.hist, m.t)]).length
          simp [w3]
        · rw [← he]
          show ∀ (i : Nat) σ p, (s.saved ++ [s.cur])[i]? = some σ → (m.saved ++ [(m.hist, m.t)])[i]? = some p → _
          intro i σ p hi hp
          rcases Nat.lt_trichotomy i s.saved.length with hlt | hlt | hlt
          · rw [List.getElem?_append_left hlt] at hi
            rw [List.getElem?_append_left (by omega)] at hp
            exact w4 i σ p hi hp
          · have : i = m.saved.length := by omega
            rw [this] at hp
            subst hlt
            simp only [List.getElem?_append_right (Nat.le_refl _), Nat.sub_self, List.getElem?_cons_zero,
              Option.some.injEq] at hi hp
            subst hi
            subst hp
            rw [w2]
            exact h.link
          · rw [List.getElem?_eq_none (by simp; omega)] at hi
            cases hi
      | restart i n =>
        simp only [effect, restartEffect] at he
        cases hi : c.world.roots[i]? with
        | none =>
          rw [hi] at he
          simp only [Outcome.ok.injEq] at he
          have hn : m.saved[i]? = none := by
            rw [List.getElem?_eq_none_iff] at hi ⊢
            rw [← w3, ← w1.len]; exact hi
          refine ⟨m, by simp [memStep, hn], quiet (by rw [← he]; rfl) rfl rfl ?_ ?_ ?_⟩
          · rw [← he]; exact w2
          · rw [← he]; exact w3
          · rw [← he]; exact w4
        | some r =>
          obtain ⟨p, t, hp, h1, v, h2, h3⟩ := h.at fn hc hk hi
          have h4 : loadStore X { c with root := ofVal v } = .ok ⟨p.2.trie, c.flags⟩ :=
            Link.load (c := { c with root := ofVal v }) fn h.mdb h3
          rw [hi] at he
          simp only [h1, h2, h4, Outcome.bind] at he
          have hf : MetaTrie.forkAt X.store ⟨p.2.trie, c.flags⟩ n = MetaTrie.forkAt X.store p.2 n := rfl
          rw [hf] at he
          cases hfk : MetaTrie.unwrap (MetaTrie.forkAt X.store p.2 n) with
          | err => rw [hfk] at he; cases he
          | panic => rw [hfk] at he; cases he
          | ok f =>
            rw [hfk] at he
            simp only [Outcome.ok.injEq] at he
            refine ⟨_, by simp only [memStep, hp, hfk, Outcome.bind]; rfl, ?_⟩
            have hop : e.ops = [.reopen i] := by rw [← he]
            rw [hop] at hw
            have hc' : c' = ⟨w, c.mdb, ofVal v, f⟩ := by
              rw [← hst, ← he]; rfl
            subst hc'
            have hi1 : i < s.saved.length := by
              rw [← w1.len]; exact (List.getElem?_eq_some_iff.1 hi).1
            refine ⟨h.mdb, ⟨_, hw, ?_, w3, w4⟩, h3, rfl⟩
            show rootIn X (s.saved[i]?.getD s.cur) = ofVal v
            obtain ⟨t', x1, x2, x3, x4⟩ := w1.saved i r s.saved[i] hi (by simp [hi1])
            have ht : t' = t := by
              have := openTrie_root fn.free x2.keyed w1.nodes x3 x4
              rw [← x1, h1] at this
              cases this
              rfl
            subst ht
            have := (reads_rep fn (w := { c.world with trie := t' }) w1.nodes x2 hc hk).storage
            rw [h2] at this
            cases this
            simp [hi1, rootIn]
      | store o =>
        simp only [effect, storeEffect] at he
        rw [h.link.load fn h.mdb, h.flags] at he
        have ht : (⟨m.t.trie, m.t.current⟩ : TStore) = m.t := rfl
        rw [ht] at he
        simp only at he
        cases hm : MetaTrie.step X.store m.t o with
        | err => rw [hm] at he; cases he
        | panic => rw [hm] at he; cases he
        | ok r =>
          rw [hm] at he
          simp only [Outcome.bind] at he
          refine ⟨_, by simp only [memStep, hm, Outcome.bind]; rfl, ?_⟩
          split at he
          · rename_i hb2
            cases hsc : stateChanges X c.world (rootOf X.H r.1.trie) o with
            | err => rw [hsc] at he; cases he
            | panic => rw [hsc] at he; cases he
            | ok ops =>
              rw [hsc] at he
              simp only [Outcome.ok.injEq] at he
              have hsp := stateChanges_spec hsc s
              have hp : ∀ b ∈ Trie.pieces (hb X.H) r.1.trie, b ∈ U := by
                intro b hb'
                refine hhe b (List.mem_append_right _ ?_)
                rw [← he]
                simpa using hb'
              have hc' : c' = ⟨w, Trie.stored (hb X.H) r.1.trie ++ c.mdb, rootOf X.H r.1.trie, r.1.current⟩ := by
                rw [← hst, ← he]
                simp
              have htr : r.1.trie ∈ e.tries := by rw [← he]; simp
              subst hc'
              have hop : e.ops = ops := by rw [← he]
              rw [hop] at hw
              refine ⟨?_, ⟨_, hw, hsp.1, by rw [hsp.2]; exact w3, ?_⟩, ?_, rfl⟩
              · intro b hb'
                rcases List.mem_append.1 hb' with hb' | hb'
                · exact hp b (Trie.stored_pieces _ _ b hb')
                · exact h.mdb b hb'
              · rw [hsp.2]
                intro i σ p hi hp'
                exact (w4 i σ p hi hp').mono fun b hb' => List.mem_append_right _ hb'
              · exact .inr ⟨rfl, rootOf_ne fn hp, MetaTrie.keep_step (P := Tidy) tidy_kept h.link.tidy
                  (b := r.2) (by rw [hm]), hse _ htr, hp, fun b hb' => List.mem_append_left _ hb'⟩
          · rename_i hb2
            simp only [Outcome.ok.injEq] at he
            have hrt : r.1 = m.t := by
              cases hr2 : r.2 with
              | false => exact MetaTrie.step_failed (by rw [hm, ← hr2])
              | true =>
                rw [hr2] at hb2
                exact early_step (X := X) (by simpa using hb2) hm
            refine quiet (by rw [← he]; rfl) hrt rfl ?_ ?_ ?_
            · rw [← he]; exact w2
            · rw [← he]; exact w3
            · rw [← he]; exact w4

theorem run_inv (fn : Fine X.H U) (hc : contract.bytes ∈ U) (hk : (slotKey X).bytes ∈ U) : ∀ (ops : List Op)
    (c : Chain) (m : Mem), Inv X U c m → (∀ o ∈ ops, Harmless X o) → (∀ b ∈ hashedRun X ops c, b ∈ U) →
    (∀ t ∈ committed X ops c, Trie.Sized t) → ∀ {c' : Chain}, run X ops c = .ok c' →
    ∃ m', memRun X ops m = .ok m' ∧ Inv X U c' m' := by
  intro ops
  induction ops with
  | nil =>
    intro c m h _ _ _ c' hr
    cases hr
    exact ⟨m, rfl, h⟩
  | cons o ops ih =>
    intro c m h hl hh hs c' hr
    simp only [run] at hr
    cases h1 : step X c o with
    | err => rw [h1] at hr; cases hr
    | panic => rw [h1] at hr; cases hr
    | ok c1 =>
      rw [h1] at hr
      simp only [hashedRun, committed, h1, List.mem_append] at hh hs
      obtain ⟨m1, e1, e2⟩ := step_inv fn hc hk h o (hl o (by simp)) (fun b hb' => hh b (.inl hb'))
        (fun e he t ht => hs t (.inl (by rw [he]; exact ht))) h1
      obtain ⟨m2, e3, e4⟩ := ih c1 m1 e2 (fun o ho => hl o (by simp [ho])) (fun b hb' => hh b (.inr hb'))
        (fun t ht => hs t (.inr ht)) hr
      exact ⟨m2, by simp only [memRun, e1, Outcome.bind]; exact e3, e4⟩

end Axon.MetaChain
