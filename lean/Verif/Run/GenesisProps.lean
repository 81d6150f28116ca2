import Verif.Run.GenesisLemmas

/-!
# Property C120 (a new data directory holds the specified chain)

`given` (in `GenesisLemmas.lean`) is the balance a list of accounts gives to an address, `Fits` says which
parameters make a chain.
-/

namespace Axon.Genesis
open Axon.Assoc Axon.Exec
open Axon.Meta (Metadata Inner Config zeroH appendMetadata setFork forkAt metadataAt)

variable {H : Type} [DecidableEq H]

/-! ## What is written -/

/-- Writes before the block is the latest one. -/
def Early : Write H → Prop
  | .latest _ => False
  | .proof => False
  | _ => True

theorem writes_append (d : Disk H) (a b : List (Write H)) : d.writes (a ++ b) = (d.writes a).writes b := by
  simp [Disk.writes, List.foldl_append]

theorem early_latest (ws : List (Write H)) (h : ∀ w ∈ ws, Early w) (d : Disk H) :
    (d.writes ws).latest = d.latest := by
  induction ws generalizing d with
  | nil => rfl
  | cons w ws ih =>
    have h1 := ih (fun x hx => h x (List.mem_cons_of_mem _ hx)) (d.write w)
    have h2 := h w (List.mem_cons_self ..)
    simp only [Disk.writes, List.foldl_cons] at h1 ⊢
    rw [h1]
    cases w <;> first | rfl | exact absurd h2 (by simp [Early])

/-- The genesis header. -/
def genHeader (env : Env H) (vm : Vm H) (spec : Spec) (accounts : List (H160 × Account H)) : Header H :=
  ⟨0, spec.timestamp, spec.baseFee, spec.chainId, vm.stateRoot accounts, env.rlpNull⟩

theorem genesis_ok {env : Env H} (hg : env.Good) (vm : Vm H) (metaRoot : Meta.Store → U256)
    (spec : Spec) (hf : Fits spec.params) :
    ∃ m1 s w pre, GenStore spec s m1 ∧ WF env w ∧ (∀ a, view env w a = specView vm spec (metaRoot s) a) ∧
      executeGenesis env vm metaRoot spec =
        (pre ++ saveBlock (genHeader env vm spec w.accounts), .ok (genHeader env vm spec w.accounts)) ∧
      (∀ x ∈ pre, Early x) ∧
      (Disk.fresh.writes pre).tries = w.db ∧ (Disk.fresh.writes pre).codes = w.codes ∧
      get (Disk.fresh.writes pre).metas (metaRoot s) = some s ∧
      get (Disk.fresh.writes pre).states (vm.stateRoot w.accounts) = some w.accounts := by
  obtain ⟨w1, h1, hw1, hv1, hb1⟩ := initSystemDb_ok hg vm spec.accounts
  have hv1' : ∀ a, view env w1 a = specView vm spec U256.zero a := by
    intro a
    rw [hv1, view_insert]
    refine View.ext' rfl rfl rfl ?_
    intro k; simp [specView]
  obtain ⟨m1, s0, s1, s, w, hs, h2, hw, hv, hb⟩ := initMetadata_ok hg vm metaRoot spec hf hw1 hv1' hb1
  refine ⟨m1, s, w, [.state (vm.stateRoot (insertAccounts env spec.accounts))
      (insertAccounts env spec.accounts), .tries w1.db w1.codes, .meta_ (metaRoot s0) s0,
      .meta_ (metaRoot s1) s1, .meta_ (metaRoot s) s, .tries w.db w.codes,
      .state (vm.stateRoot w.accounts) w.accounts], hs, hw, hv, ?_, ?_⟩
  · unfold executeGenesis
    rw [hs.second]
    simp only [Run.bind, lift]
    unfold executeTxs
    simp only [Run.bind, emit]
    rw [h1]
    simp only
    rw [h2]
    simp only [lift]
    rw [exec_empty env vm w hb]
    simp only [List.nil_append]
    rfl
  · refine ⟨?_, ?_, ?_, ?_, ?_⟩
    · intro x hx
      simp only [List.singleton_append, List.cons_append, List.nil_append, List.append_nil,
        List.mem_cons, List.not_mem_nil, or_false] at hx
      rcases hx with h | h | h | h | h | h | h <;> rw [h] <;> trivial
    · rfl
    · rfl
    · simp [Disk.writes, Disk.write, get_put]
    · simp [Disk.writes, Disk.write, get_put, initRoots]

theorem genesis_fails {env : Env H} (hg : env.Good) (vm : Vm H) (metaRoot : Meta.Store → U256)
    (spec : Spec) (hf : ¬ Fits spec.params) :
    (∀ x ∈ (executeGenesis env vm metaRoot spec).1, Early x) ∧
    (executeGenesis env vm metaRoot spec).2 =
      if 2 ^ 63 ≤ spec.params.last.val ∨ spec.params.epoch.val = 2 ^ 64 - 1 then .panic else .err := by
  by_cases h : spec.params.epoch.val + 1 < 2 ^ 64 ∧ 2 * spec.params.last.val + 1 < 2 ^ 64
  · obtain ⟨m1, h1, -⟩ := secondMetadata_ok h.1 h.2
    obtain ⟨w1, h2, -⟩ := initSystemDb_ok hg vm spec.accounts
    have h3 : appendMetadata Meta.Store.init spec.params = .err := by
      apply append_refused
      intro hc
      exact hf ⟨hc.1, hc.2, by omega⟩
    have he : executeGenesis env vm metaRoot spec =
        ([.state (vm.stateRoot (insertAccounts env spec.accounts)) (insertAccounts env spec.accounts),
          .tries w1.db w1.codes], .err) := by
      unfold executeGenesis
      rw [h1]
      simp only [Run.bind, lift]
      unfold executeTxs
      simp only [Run.bind, emit]
      rw [h2]
      simp only
      unfold initMetadata appendW
      rw [h3]
      simp [Run.bind, lift]
    rw [he]
    refine ⟨?_, ?_⟩
    · intro x hx
      simp only [List.mem_cons, List.not_mem_nil, or_false] at hx
      rcases hx with h | h <;> rw [h] <;> trivial
    · rw [if_neg (by omega)]
  · have he : executeGenesis env vm metaRoot spec = ([], .panic) := by
      unfold executeGenesis
      rw [secondMetadata_panic h]
      rfl
    rw [he]
    have := spec.params.epoch.lt
    refine ⟨by simp, ?_⟩
    rw [if_pos (by omega)]

/-! ## Commands -/

/-- **C120, creating.**  Without a directory `init` succeeds exactly for parameters of epoch 0 whose last
block is neither 0 nor beyond `2^63 - 1`; it aborts if a number overflows and fails otherwise.  An existing
directory is never touched. -/
theorem C120_init {env : Env H} (hg : env.Good) (vm : Vm H) (metaRoot : Meta.Store → U256) (spec : Spec) :
    ((init env vm metaRoot spec none).2 = .ok () ↔
      spec.params.epoch.val = 0 ∧ 0 < spec.params.last.val ∧ spec.params.last.val < 2 ^ 63) ∧
    ((init env vm metaRoot spec none).2 = .panic ↔
      2 ^ 63 ≤ spec.params.last.val ∨ spec.params.epoch.val = 2 ^ 64 - 1) ∧
    (∀ d, init env vm metaRoot spec (some d) = (some d, .err)) := by
  by_cases hf : Fits spec.params
  · obtain ⟨m1, s, w, pre, -, -, -, he, -⟩ := genesis_ok hg vm metaRoot spec hf
    refine ⟨?_, ?_, fun _ => rfl⟩
    · simp only [init, he, Outcome.bind]
      exact ⟨fun _ => hf, fun _ => trivial⟩
    · simp only [init, he, Outcome.bind, reduceCtorEq, false_iff]
      obtain ⟨h1, h2, h3⟩ := hf
      omega
  · have h := (genesis_fails hg vm metaRoot spec hf).2
    refine ⟨?_, ?_, fun _ => rfl⟩
    · simp only [init]
      rw [h]
      constructor
      · intro hc; split at hc <;> cases hc
      · intro hc; exact absurd hc hf
    · simp only [init]
      rw [h]
      constructor
      · intro hc
        split at hc
        · assumption
        · cases hc
      · intro hc; rw [if_pos hc]; rfl

/-- What `start` finds after a successful `init`. -/
theorem start_ok {env : Env H} (hg : env.Good) (vm : Vm H) (metaRoot : Meta.Store → U256)
    (hz : ∀ s, metaRoot s ≠ U256.zero) (spec : Spec) (hf : Fits spec.params) :
    ∃ m1 s w pre i, GenStore spec s m1 ∧ WF env w ∧
      (∀ a, view env w a = specView vm spec (metaRoot s) a) ∧
      executeGenesis env vm metaRoot spec =
        (pre ++ saveBlock (genHeader env vm spec w.accounts), .ok (genHeader env vm spec w.accounts)) ∧
      (∀ x ∈ pre, Early x) ∧
      Meta.getMetadata s 0 = .ok (i, Meta.visible zeroH spec.params.config) ∧ Meta.Matches i spec.params ∧
      (∀ d : Disk H, d.latest = some (genHeader env vm spec w.accounts) → d.proof = true →
        d.states = (Disk.fresh.writes pre).states → d.tries = (Disk.fresh.writes pre).tries →
        d.codes = (Disk.fresh.writes pre).codes → d.metas = (Disk.fresh.writes pre).metas →
        start env vm (some d) = .ok ⟨genHeader env vm spec w.accounts, Fork.inputFlags spec.hardforks,
          { world0 w.accounts with db := w.db, codes := w.codes, metadataRoot := metaRoot s },
          { s with current := Fork.inputFlags spec.hardforks },
          (i, Meta.visible zeroH spec.params.config)⟩) := by
  obtain ⟨m1, s, w, pre, hs, hw, hv, he, hearly, ht, hc, hm, hst⟩ := genesis_ok hg vm metaRoot spec hf
  obtain ⟨s1, hr, hse⟩ := hs.reach
  have hinv := Meta.reach_inv hr
  have hA : Meta.appended (genesisOps spec.params m1) = [spec.params, m1] := rfl
  rw [hA] at hinv
  have hin := hinv.inner 0
  simp only [List.getElem?_cons_zero] at hin
  obtain ⟨i, hi, hmt⟩ := hin
  have hcfg : Meta.getConfig s = .ok (Meta.visible zeroH spec.params.config) := by
    unfold Meta.getConfig
    rw [hs.config]
    exact Meta.C68_roundtrip _ _
  have hmeta : Meta.getMetadata s 0 = .ok (i, Meta.visible zeroH spec.params.config) := by
    unfold Meta.getMetadata Meta.getInner
    rw [show s.inner = s1.inner by rw [hse], hi]
    simp only [Outcome.ofOption]
    rw [hcfg]
  refine ⟨m1, s, w, pre, i, hs, hw, hv, he, hearly, hmeta, hmt, ?_⟩
  intro d h1 h2 h3 h4 h5 h6
  unfold start
  simp only
  rw [h1]
  simp only [Outcome.ofOption, Outcome.bind]
  rw [h3]
  have hst' : get (Disk.fresh.writes pre).states (genHeader env vm spec w.accounts).stateRoot =
      some w.accounts := hst
  rw [hst']
  simp only
  rw [h4, h5, ht, hc]
  have hw' : WF env ({ world0 w.accounts with db := w.db, codes := w.codes } : World H) :=
    ⟨hw.root, hw.hash, hw.db, hw.vals, hw.codes⟩
  have hvw : slot env ({ world0 w.accounts with db := w.db, codes := w.codes } : World H) (sysAddr 1)
      vm.metadataKey = metaRoot s := by
    have h := congrArg (fun v => v.slot vm.metadataKey) (hv (sysAddr 1))
    have h' : slot env w (sysAddr 1) vm.metadataKey = metaRoot s := by
      simpa [view, specView] using h
    exact h'
  rw [storage_slot hw', hvw]
  simp only
  unfold openMeta
  rw [if_neg (hz s), h6, hm]
  simp only [Outcome.ofOption, Outcome.bind]
  have hsc : ({ s with current := zeroH } : Meta.Store) = s := by
    have := hs.current
    cases s
    simp only at this
    simp [this]
  rw [hsc]
  have hfk : forkAt (s.forks.getD []) (genHeader env vm spec w.accounts).number =
      Fork.inputFlags spec.hardforks := by
    rw [hse]
    simp [forkAt, genHeader]
  have hma : metadataAt s (genHeader env vm spec w.accounts).number =
      .ok (i, Meta.visible zeroH spec.params.config) := by
    unfold metadataAt
    rw [if_pos (show (genHeader env vm spec w.accounts).number = 0 from rfl)]
    exact hmeta
  rw [hfk, hma, h2]
  simp only [if_true]

/-- **C120, starting.**  The node starts from a directory made by `init` at block 0, with the header
fields, the hardforks and the validators of the specification, and its configuration without the contract
size limit (see `C120_limit_false`).  Every account has no nonce, no code, the balance that the last entry
for its address gives, and no storage but the root of the metadata. -/
theorem C120_start {env : Env H} (hg : env.Good) (vm : Vm H) (metaRoot : Meta.Store → U256)
    (hz : ∀ s, metaRoot s ≠ U256.zero) (spec : Spec)
    (hi : (init env vm metaRoot spec none).2 = .ok ()) :
    ∃ st, start env vm (init env vm metaRoot spec none).1 = .ok st ∧
      st.header.number = 0 ∧ st.header.timestamp = spec.timestamp ∧ st.header.baseFee = spec.baseFee ∧
      st.header.chainId = spec.chainId ∧ st.header.stateRoot = vm.stateRoot st.world.accounts ∧
      st.flags = Fork.inputFlags spec.hardforks ∧
      st.metadata.1.verifiers = spec.params.verifiers ∧ st.metadata.1.epoch.val = 0 ∧
      st.metadata.1.last = spec.params.last ∧
      st.metadata.2 = { spec.params.config with maxContractLimit := ⟨24576, by decide⟩ } ∧
      metadataAt st.store 0 = .ok st.metadata ∧ st.store.forks = some [(0, st.flags)] ∧
      st.world.metadataRoot = metaRoot { st.store with current := zeroH } ∧
      slot env st.world (sysAddr 1) vm.metadataKey = st.world.metadataRoot ∧
      WF env st.world ∧
      ∀ a, (view env st.world a).nonce = U256.zero ∧ (view env st.world a).code = [] ∧
        (view env st.world a).balance = given spec.accounts a ∧
        ∀ k, (a ≠ sysAddr 1 ∨ k ≠ vm.metadataKey) → (view env st.world a).slot k = U256.zero := by
  have hf := (C120_init hg vm metaRoot spec).1.1 hi
  obtain ⟨m1, s, w, pre, i, hs, hw, hv, he, -, hmeta, hmt, hstart⟩ := start_ok hg vm metaRoot hz spec hf
  have h := hstart (Disk.fresh.writes (pre ++ saveBlock (genHeader env vm spec w.accounts)))
    (by rw [writes_append]; rfl) (by rw [writes_append]; rfl) (by rw [writes_append]; rfl)
    (by rw [writes_append]; rfl) (by rw [writes_append]; rfl) (by rw [writes_append]; rfl)
  obtain ⟨s1, hr, hse⟩ := hs.reach
  refine ⟨⟨genHeader env vm spec w.accounts, Fork.inputFlags spec.hardforks,
      { world0 w.accounts with db := w.db, codes := w.codes, metadataRoot := metaRoot s },
      { s with current := Fork.inputFlags spec.hardforks },
      (i, Meta.visible zeroH spec.params.config)⟩, ?_, rfl, rfl, rfl, rfl, rfl, rfl, hmt.2.2.2, ?_, hmt.2.1, ?_, ?_, ?_, ?_, ?_,
    ⟨hw.root, hw.hash, hw.db, hw.vals, hw.codes⟩, ?_⟩
  · simp only [init, he]; exact h
  · rw [hmt.2.2.1]; exact hf.1
  · have hz0 : Meta.isV1 zeroH = false := by decide
    simp only [Meta.visible, hz0]
    rfl
  · unfold metadataAt; rw [if_pos rfl]; exact hmeta
  · simp only; rw [hse]
  · have := hs.current
    simp only
    congr 1
    cases s
    simp only at this
    simp [this]
  · have h := congrArg (fun v => v.slot vm.metadataKey) (hv (sysAddr 1))
    have h' : slot env w (sysAddr 1) vm.metadataKey = metaRoot s := by
      simpa [view, specView] using h
    exact h'
  · intro a
    have ha := hv a
    have hva : view env ({ world0 w.accounts with db := w.db, codes := w.codes, metadataRoot := metaRoot s }
      : World H) a = view env w a := rfl
    rw [hva, ha]
    refine ⟨rfl, rfl, rfl, ?_⟩
    intro k hk
    simp only [specView]
    rw [if_neg]
    rintro ⟨h1, h2⟩
    rcases hk with hk | hk
    · exact hk h1
    · exact hk h2

/-- **C120, balances.**  If no address occurs twice, every listed account has its listed balance, and
accounts that are not listed have none.  (For repeated addresses see `C120_duplicates_false`.) -/
theorem C120_balances_partial {env : Env H} (hg : env.Good) (vm : Vm H) (metaRoot : Meta.Store → U256)
    (hz : ∀ s, metaRoot s ≠ U256.zero) (spec : Spec) {st : Started H}
    (hst : start env vm (init env vm metaRoot spec none).1 = .ok st)
    (hi : (init env vm metaRoot spec none).2 = .ok ())
    (hd : spec.accounts.Pairwise (fun x y => x.1 ≠ y.1)) :
    (∀ x ∈ spec.accounts, (basic st.world x.1).balance = x.2) ∧
    (∀ a, (∀ x ∈ spec.accounts, x.1 ≠ a) → (basic st.world a).balance = U256.zero) := by
  obtain ⟨st', h1, -, -, -, -, -, -, -, -, -, -, -, -, -, -, -, h2⟩ := C120_start hg vm metaRoot hz spec hi
  rw [hst] at h1
  cases h1
  refine ⟨?_, ?_⟩
  · intro x hx
    have := (h2 x.1).2.2.1
    rw [show (view env st.world x.1).balance = (basic st.world x.1).balance from rfl] at this
    rw [this]
    unfold given
    have hmem : x ∈ spec.accounts.reverse := List.mem_reverse.2 hx
    cases hfd : spec.accounts.reverse.find? (fun y => decide (y.1 = x.1)) with
    | none => have := List.find?_eq_none.1 hfd x hmem; simp at this
    | some y =>
      have hy := List.mem_reverse.1 (List.mem_of_find?_eq_some hfd)
      have hk : y.1 = x.1 := by simpa using List.find?_some hfd
      have : y = x := by
        have hp := hd
        rw [List.pairwise_iff_getElem] at hp
        obtain ⟨p, hp1, hp2⟩ := List.getElem_of_mem hx
        obtain ⟨q, hq1, hq2⟩ := List.getElem_of_mem hy
        rcases Nat.lt_trichotomy p q with hlt | heq | hlt
        · exact absurd (by rw [hp2, hq2, hk]) (hp p q hp1 hq1 hlt)
        · subst heq; rw [← hp2, ← hq2]
        · exact absurd (by rw [hp2, hq2, hk]) (hp q p hq1 hp1 hlt)
      simp [this]
  · intro a ha
    have := (h2 a).2.2.1
    rw [show (view env st.world a).balance = (basic st.world a).balance from rfl] at this
    rw [this]
    unfold given
    have : spec.accounts.reverse.find? (fun y => decide (y.1 = a)) = none := by
      rw [List.find?_eq_none]
      intro y hy
      simpa using ha y (List.mem_reverse.1 hy)
    simp [this]

/-- **C120, epochs.**  After starting, the blocks `1..last` have the validators of the specification as
epoch 0 and the next `last` blocks as epoch 1; later blocks have none yet. -/
theorem C120_epochs_partial {env : Env H} (hg : env.Good) (vm : Vm H) (metaRoot : Meta.Store → U256)
    (hz : ∀ s, metaRoot s ≠ U256.zero) (spec : Spec) {st : Started H}
    (hst : start env vm (init env vm metaRoot spec none).1 = .ok st)
    (hi : (init env vm metaRoot spec none).2 = .ok ()) (n : Nat) :
    (n ≤ 2 * spec.params.last.val → ∃ i c, metadataAt st.store n = .ok (i, c) ∧
      i.verifiers = spec.params.verifiers ∧
      i.epoch.val = (if n ≤ spec.params.last.val then 0 else 1) ∧
      i.last.val = (if n ≤ spec.params.last.val then spec.params.last.val else 2 * spec.params.last.val)) ∧
    (2 * spec.params.last.val < n → metadataAt st.store n = .err) := by
  have hf := (C120_init hg vm metaRoot spec).1.1 hi
  obtain ⟨m1, s, w, pre, i0, hs, hw, hv, he, -, hmeta, hmt, hstart⟩ := start_ok hg vm metaRoot hz spec hf
  have h := hstart (Disk.fresh.writes (pre ++ saveBlock (genHeader env vm spec w.accounts)))
    (by rw [writes_append]; rfl) (by rw [writes_append]; rfl) (by rw [writes_append]; rfl)
    (by rw [writes_append]; rfl) (by rw [writes_append]; rfl) (by rw [writes_append]; rfl)
  simp only [init, he] at hst
  rw [h] at hst
  cases hst
  obtain ⟨s1, hr, hse⟩ := hs.reach
  obtain ⟨m1', h1, e1, e2, e3, e4, e5⟩ := secondMetadata_ok (m := spec.params)
    (by have := hf.1; omega) (by have := hf.2.2; omega)
  rw [hs.second] at h1
  cases h1
  have hat : ∀ n, metadataAt ({ s with current := Fork.inputFlags spec.hardforks } : Meta.Store) n =
      metadataAt s1 n := by
    intro n; rw [hse]; rfl
  simp only
  rw [hat]
  have hA : Meta.appended (genesisOps spec.params m1) = [spec.params, m1] := rfl
  by_cases hn : n = 0
  · subst hn
    refine ⟨fun _ => ⟨i0, Meta.visible zeroH spec.params.config, ?_, hmt.2.2.2, ?_, ?_⟩,
      fun hc => by omega⟩
    · rw [← hat]; unfold metadataAt; rw [if_pos rfl]; exact hmeta
    · rw [hmt.2.2.1]; simp; exact hf.1
    · rw [hmt.2.1]; simp
  · obtain ⟨l1, l2, l3⟩ := Meta.C38_lookup_partial hr n hn
    rw [hA] at l1 l2
    refine ⟨?_, ?_⟩
    · intro hle
      by_cases hlo : n ≤ spec.params.last.val
      · obtain ⟨i, c, hc, hm⟩ := l2 0 spec.params rfl hlo (fun hc => absurd rfl hc)
        refine ⟨i, c, hc, hm.2.2.2, ?_, ?_⟩
        · rw [hm.2.2.1, if_pos hlo]; exact hf.1
        · rw [hm.2.1, if_pos hlo]
      · obtain ⟨i, c, hc, hm⟩ := l2 1 m1 rfl (by omega) (fun _ => by omega)
        refine ⟨i, c, hc, by rw [hm.2.2.2, e4], ?_, ?_⟩
        · rw [hm.2.2.1, if_neg hlo, e1, hf.1]
        · rw [hm.2.1, if_neg hlo, e3]
    · intro hgt
      cases hmd : metadataAt s1 n with
      | ok x =>
        exfalso
        obtain ⟨e, m, hm, -, hle, -⟩ := l1 x.1 x.2 hmd
        match e with
        | 0 => simp at hm; subst hm; omega
        | 1 => simp at hm; subst hm; omega
        | e + 2 => simp at hm
      | err => rfl
      | panic => exact absurd hmd l3

/-- **C120, interruption.**  Wherever `init` is stopped, the node either refuses to start or starts exactly
as after the completed `init`; if `init` failed by itself the node refuses to start. -/
theorem C120_interrupted {env : Env H} (hg : env.Good) (vm : Vm H) (metaRoot : Meta.Store → U256)
    (hz : ∀ s, metaRoot s ≠ U256.zero) (spec : Spec) (k : Nat) :
    start env vm (initStopped env vm metaRoot spec k none) = .err ∨
    ((init env vm metaRoot spec none).2 = .ok () ∧
      start env vm (initStopped env vm metaRoot spec k none) =
        start env vm (init env vm metaRoot spec none).1) := by
  by_cases hf : Fits spec.params
  · obtain ⟨m1, s, w, pre, i, hs, hw, hv, he, hearly, -, hmt, hstart⟩ := start_ok hg vm metaRoot hz spec hf
    have hok := (C120_init hg vm metaRoot spec).1.2 hf
    have hfull := hstart (Disk.fresh.writes (pre ++ saveBlock (genHeader env vm spec w.accounts)))
      (by rw [writes_append]; rfl) (by rw [writes_append]; rfl) (by rw [writes_append]; rfl)
      (by rw [writes_append]; rfl) (by rw [writes_append]; rfl) (by rw [writes_append]; rfl)
    by_cases hk : k < pre.length + 5
    · left
      have hnone : (Disk.fresh.writes ((executeGenesis env vm metaRoot spec).1.take k)).latest = none := by
        rw [he]
        simp only
        rw [List.take_append, writes_append]
        have hpre : ∀ x ∈ pre.take k, Early x := fun x hx => hearly x (List.mem_of_mem_take hx)
        have hl := early_latest (pre.take k) hpre Disk.fresh
        generalize Disk.fresh.writes (pre.take k) = d at hl ⊢
        have hl' : d.latest = none := hl
        have hj : k - pre.length = 0 ∨ k - pre.length = 1 ∨ k - pre.length = 2 ∨ k - pre.length = 3 ∨
            k - pre.length = 4 := by omega
        rcases hj with hj | hj | hj | hj | hj <;> rw [hj] <;>
          simpa [saveBlock, Disk.writes, Disk.write] using hl'
      unfold initStopped start
      simp only
      rw [hnone]
      rfl
    · right
      refine ⟨hok, ?_⟩
      have hd := hstart (Disk.fresh.writes ((executeGenesis env vm metaRoot spec).1.take k))
      have htake : (executeGenesis env vm metaRoot spec).1.take k =
          pre ++ (saveBlock (genHeader env vm spec w.accounts)).take (k - pre.length) := by
        rw [he]
        simp only
        rw [List.take_append, List.take_of_length_le (by omega)]
      rw [htake] at hd
      have key : ∀ j, 5 ≤ j → ∀ d : Disk H,
          d.writes ((saveBlock (genHeader env vm spec w.accounts)).take j) =
          d.writes (saveBlock (genHeader env vm spec w.accounts)) := by
        intro j hj d
        by_cases h9 : 9 ≤ j
        · rw [List.take_of_length_le (by simpa [saveBlock] using h9)]
        · have : j = 5 ∨ j = 6 ∨ j = 7 ∨ j = 8 := by omega
          rcases this with rfl | rfl | rfl | rfl <;> rfl
      have hkey := key (k - pre.length) (by omega) (Disk.fresh.writes pre)
      rw [writes_append, hkey] at hd
      have := hd rfl rfl rfl rfl rfl rfl
      have hl : initStopped env vm metaRoot spec k none = some ((Disk.fresh.writes pre).writes
          (saveBlock (genHeader env vm spec w.accounts))) := by
        unfold initStopped
        simp only
        rw [htake, writes_append, hkey]
      rw [hl, this]
      simp only [init, he]
      exact hfull.symm
  · left
    have hearly := (genesis_fails hg vm metaRoot spec hf).1
    have hl := early_latest ((executeGenesis env vm metaRoot spec).1.take k)
      (fun x hx => hearly x (List.mem_of_mem_take hx)) Disk.fresh
    unfold initStopped start
    simp only
    rw [hl]
    rfl

/-- Slots depend on the accounts only. -/
theorem storage_congr {env : Env H} (hg : env.Good) {w w' : World H} (hw : WF env w) (hw' : WF env w')
    (h : ∀ a, get w.accounts a = get w'.accounts a) (a : H160) (k : H256) :
    slot env w a k = slot env w' a k := by
  have ha := h a
  cases hacc : get w.accounts a with
  | none =>
    rw [hacc] at ha
    unfold slot storage
    rw [hacc, ← ha]
  | some acc =>
    rw [hacc] at ha
    by_cases hr : acc.storageRoot = env.rlpNull
    · unfold slot storage
      rw [hacc, ← ha]
      simp [hr]
    · obtain ⟨m, hm⟩ := hw.root a acc hacc hr
      obtain ⟨m', hm'⟩ := hw'.root a acc ha.symm hr
      rw [slot_of_db hg hw hacc hm, slot_of_db hg hw' ha.symm hm']
      have := hg.root_inj m m' (by rw [hw.db _ _ hm, hw'.db _ _ hm']) k
      unfold slotOf
      rw [this]

/-- **C120, identity.**  If two specifications yield the same genesis header, they agree in time stamp,
base fee, chain identifier and every balance, and, if the metadata roots do not collide, in hardforks,
validators, the last block of epoch 0 and what is stored of the configuration.  `hroot` and `hmeta` say
that the two states and the two metadata tries do not collide. -/
theorem C120_identity {env : Env H} (hg : env.Good) (vm : Vm H) (metaRoot : Meta.Store → U256)
    (hz : ∀ s, metaRoot s ≠ U256.zero) (spec spec' : Spec) {st st' : Started H}
    (hi : (init env vm metaRoot spec none).2 = .ok ()) (hi' : (init env vm metaRoot spec' none).2 = .ok ())
    (hst : start env vm (init env vm metaRoot spec none).1 = .ok st)
    (hst' : start env vm (init env vm metaRoot spec' none).1 = .ok st')
    (heq : st.header = st'.header)
    (hroot : vm.stateRoot st.world.accounts = vm.stateRoot st'.world.accounts →
      ∀ a, get st.world.accounts a = get st'.world.accounts a)
    (hmeta : metaRoot { st.store with current := zeroH } = metaRoot { st'.store with current := zeroH } →
      ({ st.store with current := zeroH } : Meta.Store) = { st'.store with current := zeroH }) :
    spec.timestamp = spec'.timestamp ∧ spec.baseFee = spec'.baseFee ∧ spec.chainId = spec'.chainId ∧
    (∀ a, given spec.accounts a = given spec'.accounts a) ∧
    Fork.inputFlags spec.hardforks = Fork.inputFlags spec'.hardforks ∧
    spec.params.verifiers = spec'.params.verifiers ∧ spec.params.last = spec'.params.last ∧
    { spec.params.config with maxContractLimit := ⟨24576, by decide⟩ } =
      ({ spec'.params.config with maxContractLimit := ⟨24576, by decide⟩ } : Config) := by
  obtain ⟨x, h1, -, h2, h3, h4, h5, hf, hv, -, hl, hc, hat, hfk, hmr, hsl, hwf, h6⟩ :=
    C120_start hg vm metaRoot hz spec hi
  obtain ⟨x', h1', -, h2', h3', h4', h5', hf', hv', -, hl', hc', hat', hfk', hmr', hsl', hwf', h6'⟩ :=
    C120_start hg vm metaRoot hz spec' hi'
  rw [hst] at h1; cases h1
  rw [hst'] at h1'; cases h1'
  have hr := hroot (by rw [← h5, ← h5', heq])
  have hroots : st.world.metadataRoot = st'.world.metadataRoot := by
    rw [← hsl, ← hsl']
    have hstor := storage_congr hg hwf hwf' hr (sysAddr 1) vm.metadataKey
    exact hstor
  have hstore := hmeta (by rw [← hmr, ← hmr', hroots])
  have hme : st.metadata = st'.metadata := by
    have e1 : metadataAt st.store 0 = metadataAt ({ st.store with current := zeroH } : Meta.Store) 0 := rfl
    have e2 : metadataAt st'.store 0 = metadataAt ({ st'.store with current := zeroH } : Meta.Store) 0 := rfl
    rw [e1, hstore, ← e2, hat'] at hat
    injection hat.symm
  have hff : st.flags = st'.flags := by
    have := congrArg Meta.Store.forks hstore
    simp only [hfk, hfk'] at this
    simpa using this
  refine ⟨by rw [← h2, ← h2', heq], by rw [← h3, ← h3', heq], by rw [← h4, ← h4', heq], ?_,
    by rw [← hf, ← hf', hff], by rw [← hv, ← hv', hme], by rw [← hl, ← hl', hme],
    by rw [← hc, ← hc', hme]⟩
  intro a
  have b1 := (h6 a).2.2.1
  have b2 := (h6' a).2.2.1
  rw [← b1, ← b2]
  simp only [view, basic, hr a]

/-! ## Concrete chains and what fails -/

/-- An executor whose state root lists the balances. -/
def genVm : Vm ToyHash :=
  { run := fun _ _ => ⟨true, [], 0, 0, [], []⟩, sys := fun _ _ => none, afterMeta := fun w => .ok w.metadataRoot
    receipt := fun _ _ => [], receiptRoot := fun _ => none
    stateRoot := fun l => some (.inl (l.flatMap fun a => a.1.bytes ++ beFixed 32 a.2.balance.val))
    codeAddr := fun _ _ => none, headerKey := toyKey 1, metadataKey := toyKey 2 }

def genRoot : Meta.Store → U256 := fun s => u256 (1 + s.seg.length % 256) (by omega)

theorem genRoot_ne (s : Meta.Store) : genRoot s ≠ U256.zero := by
  intro h
  have := congrArg UIntN.val h
  simp [genRoot, u256, U256.zero] at this

/-- Validators 1 and 2, blocks `start..last`. -/
def genParams (start last : U64) (limit : U64) : Metadata :=
  ⟨start, last, Meta.u 0, [1, 2], { Meta.sampleConfig (Meta.u 1000) with maxContractLimit := limit }⟩

def genSpec (params : Metadata) (accounts : List (H160 × U256)) : Spec :=
  ⟨Meta.u 1679656015, [], Meta.u 1337, Meta.u 7, accounts, params⟩

def okSpec : Spec := genSpec (genParams (Meta.u 1) (Meta.u 100) (Meta.u 50000))
  [(toyAddr 1, u256 5), (toyAddr 2, u256 9)]

theorem okSpec_init : (init toyEnv genVm genRoot okSpec none).2 = .ok () :=
  (C120_init toyEnv_good genVm genRoot okSpec).1.2 (by decide)

example : ∃ st, start toyEnv genVm (init toyEnv genVm genRoot okSpec none).1 = .ok st ∧
    (basic st.world (toyAddr 2)).balance = u256 9 ∧ (basic st.world (toyAddr 3)).balance = u256 0 ∧
    (∃ i c, metadataAt st.store 150 = .ok (i, c) ∧ i.epoch.val = 1) ∧ metadataAt st.store 201 = .err := by
  obtain ⟨st, h, -⟩ := C120_start toyEnv_good genVm genRoot genRoot_ne okSpec okSpec_init
  have hb := C120_balances_partial toyEnv_good genVm genRoot genRoot_ne okSpec h okSpec_init (by decide +kernel)
  have he := fun n => C120_epochs_partial toyEnv_good genVm genRoot genRoot_ne okSpec h okSpec_init n
  refine ⟨st, h, hb.1 (toyAddr 2, u256 9) (by simp [okSpec, genSpec]), hb.2 _ (by decide +kernel), ?_,
    (he 201).2 (by decide)⟩
  obtain ⟨i, c, h1, -, h2, -⟩ := (he 150).1 (by decide)
  exact ⟨i, c, h1, h2⟩

/-- What starting gives of the header and the accounts. -/
def started (o : Outcome (Started ToyHash)) : Option (Header ToyHash × List (H160 × Account ToyHash)) :=
  match o with
  | .ok st => some (st.header, st.world.accounts)
  | _ => none

/-- The interruption just before the block becomes the latest one, and the whole of `init`. -/
example : started (start toyEnv genVm (initStopped toyEnv genVm genRoot okSpec 11 none)) = none ∧
    (started (start toyEnv genVm (init toyEnv genVm genRoot okSpec none).1)).isSome := by
  decide +kernel

instance : DecidableEq (Account ToyHash) := fun _ _ => inferInstance

instance : DecidableEq (Header ToyHash) := fun _ _ => inferInstance

/-- Two specifications with the same header and the same accounts, as in `C120_identity`. -/
example : started (start toyEnv genVm (init toyEnv genVm genRoot okSpec none).1) =
    started (start toyEnv genVm (init toyEnv genVm genRoot
      (genSpec (genParams (Meta.u 1) (Meta.u 100) (Meta.u 30000))
        [(toyAddr 1, u256 6), (toyAddr 1, u256 5), (toyAddr 2, u256 9)]) none).1) := by
  decide +kernel

/-- **C120 fails for repeated addresses**: the last balance replaces the earlier ones without a
complaint. -/
theorem C120_duplicates_false : ∃ spec st, (init toyEnv genVm genRoot spec none).2 = .ok () ∧
    start toyEnv genVm (init toyEnv genVm genRoot spec none).1 = .ok st ∧
    spec.accounts = [(toyAddr 1, u256 5), (toyAddr 2, u256 9), (toyAddr 1, u256 1)] ∧
    (basic st.world (toyAddr 1)).balance = u256 1 := by
  let spec := genSpec (genParams (Meta.u 1) (Meta.u 100) (Meta.u 50000))
    [(toyAddr 1, u256 5), (toyAddr 2, u256 9), (toyAddr 1, u256 1)]
  have hi : (init toyEnv genVm genRoot spec none).2 = .ok () :=
    (C120_init toyEnv_good genVm genRoot spec).1.2 (by decide)
  obtain ⟨st, h, -, -, -, -, -, -, -, -, -, -, -, -, -, -, -, h2⟩ :=
    C120_start toyEnv_good genVm genRoot genRoot_ne spec hi
  refine ⟨spec, st, hi, h, rfl, ?_⟩
  exact (h2 (toyAddr 1)).2.2.1.trans (by decide +kernel)

/-- **C120 fails for the contract size limit**: the metadata is stored before the hardforks of the
specification are in force, so its limit is dropped although the chain starts with Andromeda. -/
theorem C120_limit_false : ∃ spec st, (init toyEnv genVm genRoot spec none).2 = .ok () ∧
    start toyEnv genVm (init toyEnv genVm genRoot spec none).1 = .ok st ∧
    Meta.isV1 st.flags = true ∧ spec.params.config.maxContractLimit.val = 50000 ∧
    st.metadata.2.maxContractLimit.val = 24576 := by
  obtain ⟨st, h, -, -, -, -, -, hf, -, -, -, hc, -⟩ :=
    C120_start toyEnv_good genVm genRoot genRoot_ne okSpec okSpec_init
  refine ⟨okSpec, st, okSpec_init, h, ?_, rfl, ?_⟩
  · rw [hf]; decide +kernel
  · rw [hc]

/-- **C120 fails for the first block of epoch 0**: it is not compared with anything, so blocks before it
are in epoch 0 as well, and epoch 1 is longer than what the specification says about epoch 0. -/
theorem C120_first_block_false : ∃ spec st, (init toyEnv genVm genRoot spec none).2 = .ok () ∧
    start toyEnv genVm (init toyEnv genVm genRoot spec none).1 = .ok st ∧
    spec.params.start.val = 51 ∧ spec.params.last.val = 100 ∧
    (∃ i c, metadataAt st.store 50 = .ok (i, c) ∧ i.epoch.val = 0) ∧
    (∃ i c, metadataAt st.store 101 = .ok (i, c) ∧ i.epoch.val = 1) ∧
    (∃ i c, metadataAt st.store 200 = .ok (i, c) ∧ i.epoch.val = 1) := by
  let spec := genSpec (genParams (Meta.u 51) (Meta.u 100) (Meta.u 50000)) []
  have hi : (init toyEnv genVm genRoot spec none).2 = .ok () :=
    (C120_init toyEnv_good genVm genRoot spec).1.2 (by decide)
  obtain ⟨st, h, -⟩ := C120_start toyEnv_good genVm genRoot genRoot_ne spec hi
  have he := fun n => C120_epochs_partial toyEnv_good genVm genRoot genRoot_ne spec h hi n
  refine ⟨spec, st, hi, h, rfl, rfl, ?_, ?_, ?_⟩
  · obtain ⟨i, c, h1, -, h2, -⟩ := (he 50).1 (by decide)
    exact ⟨i, c, h1, h2⟩
  · obtain ⟨i, c, h1, -, h2, -⟩ := (he 101).1 (by decide)
    exact ⟨i, c, h1, h2⟩
  · obtain ⟨i, c, h1, -, h2, -⟩ := (he 200).1 (by decide)
    exact ⟨i, c, h1, h2⟩

/-- **C120 fails for repeating `init`**: after a failed `init` a corrected specification is refused as
well, and the node does not start; the directory has to be removed by hand. -/
theorem C120_retry_false : ∃ bad good : Spec, ∃ d,
    init toyEnv genVm genRoot bad none = (d, .err) ∧
    (init toyEnv genVm genRoot good none).2 = .ok () ∧
    init toyEnv genVm genRoot good d = (d, .err) ∧ start toyEnv genVm d = .err :=
  ⟨genSpec (genParams (Meta.u 1) (Meta.u 0) (Meta.u 50000)) [], okSpec, _, rfl, okSpec_init, rfl, rfl⟩

end Axon.Genesis
