import Verif.Run.Genesis
import Verif.Metadata.HistoryProps

/-!
# Facts about the genesis state
-/

namespace Axon.Genesis
open Axon.Assoc Axon.Exec
open Axon.Meta (Metadata Inner Config zeroH appendMetadata setFork forkAt metadataAt)

variable {H : Type} [DecidableEq H]

/-! ## The second metadata -/

theorem orPanic_ofNat {n : Nat} (h : n < 2 ^ 64) :
    Outcome.orPanic (UIntN.ofNat? 64 n) = .ok ⟨n, h⟩ := by
  unfold UIntN.ofNat?
  rw [dif_pos h]
  rfl

theorem orPanic_ofNat_none {n : Nat} (h : ¬ n < 2 ^ 64) :
    Outcome.orPanic (UIntN.ofNat? 64 n) = .panic := by
  unfold UIntN.ofNat?
  rw [dif_neg h]
  rfl

theorem secondMetadata_ok {m : Metadata} (h1 : m.epoch.val + 1 < 2 ^ 64)
    (h2 : 2 * m.last.val + 1 < 2 ^ 64) :
    ∃ m1, secondMetadata m = .ok m1 ∧ m1.epoch.val = m.epoch.val + 1 ∧
      m1.start.val = m.last.val + 1 ∧ m1.last.val = 2 * m.last.val ∧ m1.verifiers = m.verifiers ∧
      m1.config = m.config := by
  unfold secondMetadata
  rw [orPanic_ofNat h1, orPanic_ofNat (show m.last.val + 1 < 2 ^ 64 by omega)]
  simp only [Outcome.bind]
  rw [orPanic_ofNat (show m.last.val + 1 + m.last.val < 2 ^ 64 by omega)]
  simp only
  rw [orPanic_ofNat (show m.last.val + 1 + m.last.val - 1 < 2 ^ 64 by omega)]
  exact ⟨_, rfl, rfl, rfl, by simp only; omega, rfl, rfl⟩

theorem secondMetadata_panic {m : Metadata}
    (h : ¬ (m.epoch.val + 1 < 2 ^ 64 ∧ 2 * m.last.val + 1 < 2 ^ 64)) : secondMetadata m = .panic := by
  unfold secondMetadata
  by_cases h1 : m.epoch.val + 1 < 2 ^ 64
  · rw [orPanic_ofNat h1]
    by_cases h2 : m.last.val + 1 < 2 ^ 64
    · rw [orPanic_ofNat h2]
      simp only [Outcome.bind]
      rw [orPanic_ofNat_none (show ¬ (m.last.val + 1 + m.last.val < 2 ^ 64) by omega)]
    · rw [orPanic_ofNat_none h2]; rfl
  · rw [orPanic_ofNat_none h1]; rfl

/-! ## The initial accounts -/

theorem get_insertAccounts (env : Env H) (l : List (H160 × U256)) (a : H160) :
    get (insertAccounts env l) a = (l.reverse.find? (fun x => x.1 = a)).map (fun x =>
      { nonce := U256.zero, balance := x.2, storageRoot := env.rlpNull, codeHash := env.nilData }) := by
  induction l using snoc_induction with
  | nil => rfl
  | snoc l x ih =>
    unfold insertAccounts at ih ⊢
    rw [List.foldl_append, List.foldl_cons, List.foldl_nil, get_put, ih, List.reverse_append]
    simp only [List.reverse_cons, List.reverse_nil, List.nil_append, List.singleton_append,
      List.find?_cons]
    by_cases h : a = x.1
    · subst h; simp
    · have : ¬ x.1 = a := fun hh => h hh.symm
      simp [h, this]

theorem wf_insert (env : Env H) (l : List (H160 × U256)) :
    WF env (world0 (insertAccounts env l)) := by
  have key : ∀ a acc, get (insertAccounts env l) a = some acc →
      acc.storageRoot = env.rlpNull ∧ acc.codeHash = env.nilData := by
    intro a acc h
    rw [get_insertAccounts] at h
    cases hf : l.reverse.find? (fun x => decide (x.1 = a)) with
    | none => rw [hf] at h; cases h
    | some x => rw [hf] at h; cases h; exact ⟨rfl, rfl⟩
  constructor
  · intro a acc h hn; exact absurd (key a acc h).1 hn
  · intro a acc h hn; exact absurd (key a acc h).2 hn
  · intro h m hm; cases hm
  · intro h m k b hm; cases hm
  · intro h c hc; cases hc

/-- The balance the list gives to an address: the last entry counts. -/
def given (l : List (H160 × U256)) (a : H160) : U256 :=
  ((l.reverse.find? (fun x => x.1 = a)).map (·.2)).getD U256.zero

theorem view_insert (env : Env H) (l : List (H160 × U256)) (a : H160) :
    view env (world0 (insertAccounts env l)) a =
      { nonce := U256.zero, balance := given l a, code := [], slot := fun _ => U256.zero } := by
  unfold view basic code slot storage given
  simp only [world0]
  rw [get_insertAccounts]
  cases hf : l.reverse.find? (fun x => decide (x.1 = a)) with
  | none => simp
  | some x => simp

/-! ## The system contracts -/

theorem specChange_root (σ : H160 → View) (w : World H) (a : H160) (key : H256) (root : U256)
    (h1 : (σ a).nonce = (basic w a).nonce) (h2 : (σ a).balance = (basic w a).balance) :
    specChange σ (rootChange w a key root) = fun x =>
      if x = a then { σ a with slot := fun k => if k = key then root else (σ a).slot k } else σ x := by
  funext x
  unfold specChange rootChange
  simp only
  by_cases hx : x = a
  · subst hx
    simp only [if_true]
    refine View.ext' h1.symm h2.symm rfl ?_
    intro k
    simp only [specSlots, List.reverse_cons, List.reverse_nil, List.nil_append, List.find?_cons,
      List.find?_nil]
    by_cases hk : k = key
    · subst hk; simp
    · have : ¬ key = k := fun h => hk h.symm
      simp [hk, this]
  · simp [hx]

/-- Initialising the system contract databases changes nothing that can be read. -/
theorem initSystemDb_ok {env : Env H} (hg : env.Good) (vm : Vm H) (l : List (H160 × U256)) :
    ∃ w', initSystemDb env vm (world0 (insertAccounts env l)) =
        ([.tries w'.db w'.codes], .ok w') ∧ WF env w' ∧
      view env w' = view env (world0 (insertAccounts env l)) ∧
      w'.blockNumber = U256.zero := by
  have hw := wf_insert env l
  have hv := view_insert env l
  generalize hw0 : world0 (insertAccounts env l) = w at hw hv ⊢
  have hs : storage env w (sysAddr 2) vm.headerKey = .ok U256.zero := by
    rw [storage_slot hw]
    have := congrArg (fun v => v.slot vm.headerKey) (hv (sysAddr 2))
    exact congrArg Outcome.ok this
  have hr : w.headerRoot = U256.zero := by rw [← hw0]; rfl
  have hb : w.blockNumber = U256.zero := by rw [← hw0]; rfl
  obtain ⟨w', ha, hwf, hvw, hrest⟩ := apply_spec hg false (rootChanges vm w (sysAddr 2)) [] hw
  refine ⟨w', ?_, hwf, ?_, ?_⟩
  · unfold initSystemDb
    rw [hs]
    simp only [Run.bind, lift, if_true]
    rw [ha]
    simp [emit]
  · rw [hvw]
    unfold rootChanges
    rw [if_pos (Or.inl rfl), hr]
    simp only [List.foldl_cons, List.foldl_nil]
    have hid : ∀ a, specChange (view env w) (rootChange w a vm.headerKey U256.zero) = view env w := by
      intro a
      rw [specChange_root _ _ _ _ _ rfl rfl]
      funext x
      by_cases hx : x = a
      · subst hx
        rw [hv x]
        simp
      · simp [hx]
    rw [hid, hid]
  · rw [hrest]; exact hb

/-- Executing a genesis block without transactions. -/
theorem exec_empty (env : Env H) (vm : Vm H) (w : World H) (h : w.blockNumber = U256.zero) :
    exec env vm w [] [] = .ok (initRoots env vm w, ⟨vm.stateRoot w.accounts, env.rlpNull, 0, []⟩) := by
  unfold exec loop
  simp only [Outcome.bind]
  unfold distribute
  rw [if_pos (show (initRoots env vm w).blockNumber = U256.zero from h)]
  simp only
  unfold afterBlock
  rw [if_pos (show (initRoots env vm w).blockNumber = U256.zero from h)]
  rfl

/-! ## The metadata -/

/-- When the parameters make a chain. -/
def Fits (m : Metadata) : Prop := m.epoch.val = 0 ∧ 0 < m.last.val ∧ m.last.val < 2 ^ 63

/-- Appending the metadata of genesis as operations on the store. -/
def genesisOps (m0 m1 : Metadata) : List Meta.Op :=
  [.tx 0 0 (some (.append m0)), .tx 0 0 (some (.append m1))]

theorem step_append {s s' : Meta.Store} {m : Metadata} (h : appendMetadata s m = .ok s') :
    Meta.step s (.tx 0 0 (some (.append m))) = .ok (s', true) := by
  simp [Meta.step, Meta.exec, Meta.runCall, h]

theorem append_two {m0 m1 : Metadata} (h : Fits m0) (he : m1.epoch.val = m0.epoch.val + 1)
    (hs : m1.start.val = m0.last.val + 1) (hl : m1.last.val = 2 * m0.last.val) :
    ∃ s0 s1, appendMetadata Meta.Store.init m0 = .ok s0 ∧ appendMetadata s0 m1 = .ok s1 ∧
      Meta.Reach (genesisOps m0 m1) s1 := by
  obtain ⟨h0, hp, hlt⟩ := h
  have r0 : Meta.Reach [] Meta.Store.init := Meta.Reach.init
  obtain ⟨s0, a0⟩ := ((Meta.C38_accepted r0 m0).1).2
    ⟨by simpa [Meta.appended] using h0, by simpa [Meta.appended, Meta.lastEnd] using hp,
      fun hc => absurd h0 hc⟩
  have r1 := Meta.Reach.done r0 (step_append a0)
  obtain ⟨s1, a1⟩ := ((Meta.C38_accepted r1 m1).1).2
    ⟨by simp [Meta.appended, he, h0], by simp [Meta.appended, Meta.lastEnd]; omega,
      fun _ => by simp [Meta.appended, Meta.lastEnd, hs]⟩
  exact ⟨s0, s1, a0, a1, Meta.Reach.done r1 (step_append a1)⟩

theorem append_refused {m : Metadata} (h : ¬ (m.epoch.val = 0 ∧ 0 < m.last.val)) :
    appendMetadata Meta.Store.init m = .err := by
  have r0 : Meta.Reach [] Meta.Store.init := Meta.Reach.init
  have hc := Meta.C38_accepted r0 m
  cases ha : appendMetadata Meta.Store.init m with
  | ok s =>
    exfalso
    have := hc.1.1 ⟨s, ha⟩
    simp [Meta.appended, Meta.lastEnd] at this
    exact h ⟨this.1, this.2.1⟩
  | err => rfl
  | panic =>
    exfalso
    have := (hc.2.1 ha).2
    simp [Meta.appended, Meta.lastEnd] at this

/-! ## The whole -/

/-- Reads of the genesis state: balances as listed, and the root of the metadata. -/
def specView (vm : Vm H) (spec : Spec) (root : U256) (a : H160) : View :=
  { nonce := U256.zero
    balance := given spec.accounts a
    code := []
    slot := fun k => if a = sysAddr 1 ∧ k = vm.metadataKey then root else U256.zero }

/-- The metadata store of genesis. -/
structure GenStore (spec : Spec) (s : Meta.Store) (m1 : Metadata) : Prop where
  second : secondMetadata spec.params = .ok m1
  reach : ∃ s1, Meta.Reach (genesisOps spec.params m1) s1 ∧
    s = { s1 with forks := some [(0, Fork.inputFlags spec.hardforks)] }
  config : s.config = some (Meta.encodeConfig zeroH spec.params.config)
  current : s.current = zeroH

theorem initMetadata_ok {env : Env H} (hg : env.Good) (vm : Vm H) (metaRoot : Meta.Store → U256)
    (spec : Spec) (hf : Fits spec.params) {w : World H} (hw : WF env w)
    (hv : ∀ a, view env w a = specView vm spec U256.zero a) (hb : w.blockNumber = U256.zero) :
    ∃ m1 s0 s1 s w', GenStore spec s m1 ∧
      initMetadata env vm metaRoot w spec.params m1 (Fork.inputFlags spec.hardforks) =
        ([.meta_ (metaRoot s0) s0, .meta_ (metaRoot s1) s1, .meta_ (metaRoot s) s,
          .tries w'.db w'.codes], .ok w') ∧
      WF env w' ∧ (∀ a, view env w' a = specView vm spec (metaRoot s) a) ∧
      w'.blockNumber = U256.zero := by
  obtain ⟨m1, h1, he, hs, hl, _, hcf⟩ := secondMetadata_ok (m := spec.params)
    (by have := hf.1; omega) (by have := hf.2.2; omega)
  obtain ⟨s0, s1, a0, a1, hr⟩ := append_two hf he hs hl
  have hforks : s1.forks = none := by
    have e1 := Meta.appendMetadata_same a1
    have e0 := Meta.appendMetadata_same a0
    rw [e1.1, e0.1]; rfl
  let s : Meta.Store := { s1 with forks := some (setFork s1.forks 0 (Fork.inputFlags spec.hardforks)) }
  have hse : s = { s1 with forks := some [(0, Fork.inputFlags spec.hardforks)] } := by
    show ({ s1 with forks := some (setFork s1.forks 0 (Fork.inputFlags spec.hardforks)) } : Meta.Store) = _
    rw [hforks]; rfl
  have hcur : s.current = zeroH := by
    show s1.current = zeroH
    rw [(Meta.appendMetadata_same a1).2.1, (Meta.appendMetadata_same a0).2.1]; rfl
  have hconf : s.config = some (Meta.encodeConfig zeroH spec.params.config) := by
    show s1.config = _
    rw [(Meta.appendMetadata_same a1).2.2, (Meta.appendMetadata_same a0).2.1, hcf]; rfl
  let w1 : World H := { w with metadataRoot := metaRoot s }
  have hw1 : WF env w1 := ⟨hw.root, hw.hash, hw.db, hw.vals, hw.codes⟩
  obtain ⟨w', ha, hwf, hvw, hrest⟩ := apply_spec hg false (rootChanges vm w1 (sysAddr 1)) [] hw1
  refine ⟨m1, s0, s1, s, w', ⟨h1, ⟨s1, hr, hse⟩, hconf, hcur⟩, ?_, hwf, ?_, ?_⟩
  · unfold initMetadata appendW
    rw [a0]
    simp only [Run.bind, lift, emit]
    rw [a1]
    simp only
    have ha' := ha
    simp only [w1, s] at ha'
    rw [ha']
    simp [s]
  · intro a
    rw [hvw]
    unfold rootChanges
    rw [if_neg (by decide)]
    simp only [List.foldl_cons, List.foldl_nil]
    rw [specChange_root _ _ _ _ _ rfl rfl]
    have hvv : view env w1 = view env w := rfl
    rw [hvv]
    by_cases hx : a = sysAddr 1
    · subst hx
      simp only [if_true, hv]
      refine View.ext' rfl rfl rfl ?_
      intro k
      simp [specView, w1]
    · simp only [hx, if_false, hv]
      refine View.ext' rfl rfl rfl ?_
      intro k
      simp [specView, hx]
  · rw [hrest]; exact hb

end Axon.Genesis
