import Verif.Metadata.Store
import Verif.Metadata.ConfigProps

/-!
# C38, C68, C69, C71: metadata history, end of the last epoch, authorisation

`appended ops` is the list of accepted metadata of a history.
-/

namespace Axon.Meta
open Axon.Assoc

/-- C38: the accepted metadata have epochs 0, 1, 2, …; each but the first starts at the block after
the end of the previous one; ends increase. -/
theorem C38_contiguous {ops : List Op} {s : Store} (h : Reach ops s) :
    (∀ (e : Nat) (m : Metadata), (appended ops)[e]? = some m → m.epoch.val = e ∧ 0 < m.last.val) ∧
    (∀ (e : Nat) (m p : Metadata), (appended ops)[e + 1]? = some m → (appended ops)[e]? = some p →
      m.start.val = p.last.val + 1 ∧ p.last.val < m.last.val) := by
  have hi := reach_inv h
  have hp := hi.ok.incr
  rw [List.pairwise_iff_getElem] at hp
  have hseg : ∀ (e : Nat) (m : Metadata), (appended ops)[e]? = some m →
      (segOf (appended ops))[e + 1]? = some m.last.val := by
    intro e m hm; simp [segOf, hm]
  refine ⟨?_, ?_⟩
  · intro e m hm
    refine ⟨hi.epoch e m hm, ?_⟩
    obtain ⟨b, hb⟩ := List.getElem?_eq_some_iff.1 (hseg e m hm)
    have := hp 0 (e + 1) (by simp [segOf]) b (by omega)
    rw [hb] at this
    simpa [segOf] using this
  · intro e m p hm hpp
    refine ⟨hi.start e m p hm hpp, ?_⟩
    obtain ⟨b, hb⟩ := List.getElem?_eq_some_iff.1 (hseg (e + 1) m hm)
    obtain ⟨b', hb'⟩ := List.getElem?_eq_some_iff.1 (hseg e p hpp)
    have := hp (e + 1) (e + 2) b' b (by omega)
    rw [hb, hb'] at this
    exact this

/-- Some configuration can be read once metadata has been accepted. -/
theorem config_readable {A : List Metadata} {s : Store} (h : Inv A s) (hne : A ≠ []) :
    ∃ c, getConfig s = .ok c := by
  unfold getConfig
  cases hc : s.config with
  | none => exact absurd (h.config hc) hne
  | some b =>
    obtain ⟨f, c, rfl⟩ := h.readable b hc
    exact ⟨_, C68_roundtrip f c⟩

theorem getMetadata_spec {A : List Metadata} {s : Store} (h : Inv A s) (e : Nat) :
    match A[e]? with
    | none => getMetadata s e = .err
    | some m => ∃ i c, getMetadata s e = .ok (i, c) ∧ Matches i m := by
  have hg := getInner_spec h e
  unfold getMetadata
  cases he : A[e]? with
  | none => rw [he] at hg; simp only at hg ⊢; rw [hg]
  | some m =>
    rw [he] at hg
    obtain ⟨i, hi, hm⟩ := hg
    obtain ⟨c, hc⟩ := config_readable h (by intro hn; rw [hn] at he; simp at he)
    simp only
    rw [hi]
    simp only
    rw [hc]
    exact ⟨i, c, rfl, hm⟩

theorem inRange_unique {A : List Metadata} {s : Store} (h : Inv A s) {e e' n : Nat}
    (h1 : InRange A e n) (h2 : InRange A e' n) : e = e' := by
  have a := (epochByBlock_spec h n e).2 h1
  have b := (epochByBlock_spec h n e').2 h2
  rw [a] at b
  simpa using b

/-- C38: the metadata returned for a block after genesis is the accepted one whose range contains the
block, and there is an answer for every block in some range.  "Range" of epoch 0 is `1..end` whatever its
`start` field says; for the others it is `start..end`.  Missing for the full statement: the start of
epoch 0 (`C38_first_start_false`), and the configuration part of the answer is the latest one, not that
of the epoch (`C68_epoch_config_false`). -/
theorem C38_lookup_partial {ops : List Op} {s : Store} (h : Reach ops s) (n : Nat) (hn : n ≠ 0) :
    (∀ i c, metadataAt s n = .ok (i, c) →
      ∃ (e : Nat) (m : Metadata), (appended ops)[e]? = some m ∧ Matches i m ∧ n ≤ m.last.val ∧
        (e ≠ 0 → m.start.val ≤ n)) ∧
    (∀ (e : Nat) (m : Metadata), (appended ops)[e]? = some m → n ≤ m.last.val →
      (e ≠ 0 → m.start.val ≤ n) → ∃ i c, metadataAt s n = .ok (i, c) ∧ Matches i m) ∧
    metadataAt s n ≠ .panic := by
  have hi := reach_inv h
  have hcont := (C38_contiguous h).2
  -- ranges in terms of the start field
  have hrange : ∀ (e : Nat) (m : Metadata), (appended ops)[e]? = some m →
      (InRange (appended ops) e n ↔ n ≤ m.last.val ∧ (e ≠ 0 → m.start.val ≤ n)) := by
    intro e m hm
    unfold InRange
    constructor
    · rintro ⟨m', hm', hle, hif⟩
      rw [hm] at hm'
      cases hm'
      refine ⟨hle, ?_⟩
      intro he
      rw [if_neg he] at hif
      obtain ⟨p, hp, hlt⟩ := hif
      obtain ⟨k, rfl⟩ : ∃ k, e = k + 1 := ⟨e - 1, by omega⟩
      have := (hcont k m p hm (by simpa using hp)).1
      omega
    · rintro ⟨hle, hst⟩
      refine ⟨m, hm, hle, ?_⟩
      by_cases he : e = 0
      · rw [if_pos he]; omega
      · rw [if_neg he]
        obtain ⟨k, rfl⟩ : ∃ k, e = k + 1 := ⟨e - 1, by omega⟩
        have hlt : k < (appended ops).length := by
          have := (List.getElem?_eq_some_iff.1 hm).1; omega
        refine ⟨(appended ops)[k], by simp, ?_⟩
        have := (hcont k m (appended ops)[k] hm (by simp)).1
        have := hst he
        omega
  unfold metadataAt
  rw [if_neg hn]
  refine ⟨?_, ?_, ?_⟩
  · intro i c hmd
    split at hmd
    · rename_i e he
      have hr := (epochByBlock_spec hi n e).1 he
      obtain ⟨m, hm, -⟩ := hr
      have hg := getMetadata_spec hi e
      rw [hm] at hg
      obtain ⟨i', c', hg, hmt⟩ := hg
      rw [hg] at hmd
      simp only [Outcome.ok.injEq, Prod.mk.injEq] at hmd
      obtain ⟨rfl, -⟩ := hmd
      have := (hrange e m hm).1 ((epochByBlock_spec hi n e).1 he)
      exact ⟨e, m, hm, hmt, this.1, this.2⟩
    · cases hmd
    · cases hmd
  · intro e m hm hle hst
    have he := (epochByBlock_spec hi n e).2 ((hrange e m hm).2 ⟨hle, hst⟩)
    rw [he]
    simp only
    have hg := getMetadata_spec hi e
    rw [hm] at hg
    exact hg
  · split
    · rename_i e he
      obtain ⟨m, hm, -⟩ := (epochByBlock_spec hi n e).1 he
      have hg := getMetadata_spec hi e
      rw [hm] at hg
      obtain ⟨i, c, hg, -⟩ := hg
      rw [hg]
      simp
    · simp
    · rename_i he; exact absurd he (epochByBlock_no_panic hi n)

/-- Last accepted end, 0 if there is none. -/
def lastEnd (A : List Metadata) : Nat := (A.getLast?.map (fun m => m.last.val)).getD 0

theorem segOf_getLast (A : List Metadata) : (segOf A).getLast? = some (lastEnd A) := by
  unfold segOf lastEnd
  cases A with
  | nil => rfl
  | cons a A => rw [List.map_cons, List.getLast?_cons_cons, ← List.getLast?_map]; simp [List.getLast?_cons]

/-- C38: exactly which metadata are accepted, and exactly when offering some aborts the node. -/
theorem C38_accepted {ops : List Op} {s : Store} (h : Reach ops s) (m : Metadata) :
    ((∃ s', appendMetadata s m = .ok s') ↔
      m.epoch.val = (appended ops).length ∧ lastEnd (appended ops) < m.last.val ∧
        (m.epoch.val ≠ 0 → m.start.val = lastEnd (appended ops) + 1)) ∧
    (appendMetadata s m = .panic ↔
      m.epoch.val = (appended ops).length ∧ lastEnd (appended ops) = 2 ^ 64 - 1) := by
  have hi := reach_inv h
  generalize appended ops = A at *
  have hlt : lastEnd A < 2 ^ 64 := by
    have := segOf_lt A (lastEnd A) (List.mem_of_getLast? (segOf_getLast A)); exact this
  unfold appendMetadata
  rw [hi.seg, fromRaw_seg]
  simp only
  have hep : ((isEmpty (segOf A) = true ∧ m.epoch.val ≠ 0) ∨
      (isEmpty (segOf A) = false ∧ m.epoch.val ≠ latestEpoch (segOf A) + 1)) ↔ m.epoch.val ≠ A.length := by
    unfold isEmpty latestEpoch segOf
    cases A with
    | nil => simp
    | cons a A => simp
  by_cases he : m.epoch.val = A.length
  · rw [if_neg (by rw [hep]; simp [he]), segOf_getLast]
    simp only
    have hml := m.last.lt
    by_cases hmax : lastEnd A + 1 ≥ 2 ^ 64
    · rw [if_pos hmax]
      refine ⟨⟨by simp, fun hc => by omega⟩, ⟨fun _ => ⟨he, by omega⟩, fun _ => rfl⟩⟩
    · rw [if_neg hmax]
      by_cases hst : m.start.val ≠ lastEnd A + 1 ∧ m.epoch.val ≠ 0
      · rw [if_pos hst]
        refine ⟨⟨by simp, ?_⟩, ⟨by simp, fun hc => by omega⟩⟩
        rintro ⟨_, _, h3⟩
        exact absurd (h3 hst.2) hst.1
      · rw [if_neg hst]
        unfold appendEndpoint
        rw [segOf_getLast]
        simp only
        by_cases hle : m.last.val ≤ lastEnd A
        · rw [if_pos hle]
          refine ⟨⟨by simp, fun hc => by omega⟩, ⟨by simp, fun hc => by omega⟩⟩
        · rw [if_neg hle]
          refine ⟨⟨fun _ => ⟨he, by omega, ?_⟩, fun _ => ⟨_, rfl⟩⟩, ⟨by simp, fun hc => by omega⟩⟩
          intro h0
          exact Classical.byContradiction fun hc => hst ⟨hc, h0⟩
  · rw [if_pos (hep.2 he)]
    refine ⟨⟨by simp, fun hc => absurd hc.1 he⟩, ⟨by simp, fun hc => absurd hc.1 he⟩⟩

/-- C71: a metadata transaction of a block after genesis has an effect only if its sender is one of
the validators of the epoch containing the block. -/
theorem C71_authorised {ops : List Op} {s s' : Store} (h : Reach ops s) (n a : Nat) (c : Option Call)
    (ok : Bool) (hn : n ≠ 0) (hx : exec s n a c = .ok (s', ok)) (hs : s' ≠ s ∨ ok = true) :
    ∃ (e : Nat) (m : Metadata), (appended ops)[e]? = some m ∧ n ≤ m.last.val ∧
      (e ≠ 0 → m.start.val ≤ n) ∧ a ∈ m.verifiers := by
  cases ok with
  | false => rcases hs with hs | hs
             · exact absurd (exec_false hx) hs
             · cases hs
  | true =>
    obtain ⟨d, -, -, hv⟩ := exec_true hx
    rcases hv with hv | hv
    · exact absurd hv hn
    · unfold isValidator at hv
      split at hv
      · rename_i i c hmd
        obtain ⟨e, m, h1, h2, h3, h4⟩ := (C38_lookup_partial h n hn).1 i c hmd
        refine ⟨e, m, h1, h3, h4, ?_⟩
        rw [← h2.2.2.2]
        simpa using hv
      · cases hv
      · cases hv

/-- C71: a failed call leaves the metadata unchanged. -/
theorem C71_failed {s s' : Store} (n a : Nat) (c : Option Call) (hx : exec s n a c = .ok (s', false)) :
    s' = s := exec_false hx

theorem bump_none {a : Nat} {l : List (Nat × Nat)} (h : bump a l = none) :
    ∃ c, (a, c) ∈ l ∧ 2 ^ 64 ≤ c + 1 := by
  induction l with
  | nil => simp [bump] at h
  | cons x l ih =>
    obtain ⟨x, c⟩ := x
    unfold bump at h
    split at h
    · rename_i hx
      split at h
      · cases h
      · exact ⟨c, by rw [hx]; simp, by omega⟩
    · simp only [Option.map_eq_none_iff] at h
      obtain ⟨c', h1, h2⟩ := ih h
      exact ⟨c', by simp [h1], h2⟩

/-- C69: executing the end of a block after genesis never fails with an error; it aborts the node iff
the block lies behind the last accepted epoch end (or a propose counter is exhausted). -/
theorem C69_hook_partial {ops : List Op} {s : Store} (h : Reach ops s) (n : Nat)
    (x : Option (Nat × H256)) (a : Nat) (hn : n ≠ 0) :
    hook s n x a ≠ .err ∧
    (lastEnd (appended ops) < n → hook s n x a = .panic) ∧
    (n ≤ lastEnd (appended ops) →
      (∀ e i, getInner s e = .ok i → ∀ b c, (b, c) ∈ i.counter → c + 1 < 2 ^ 64) →
      ∃ s', hook s n x a = .ok s') := by
  have hi := reach_inv h
  generalize appended ops = A at *
  unfold hook
  rw [if_neg hn]
  -- the store seen by update_propose_count differs only in the hardfork fields
  generalize forksAfter s.forks x = forks
  have hi' : Inv A { s with forks := forks, current := forkAt (forks.getD []) n } :=
    ⟨hi.seg, hi.ok, hi.epoch, hi.start, hi.inner, hi.config, hi.readable⟩
  refine ⟨?_, ?_, ?_⟩
  · split <;> simp
  · intro hlt
    have hno : ∀ e, epochByBlock { s with forks := forks, current := forkAt (forks.getD []) n } n ≠ .ok e := by
      intro e he
      obtain ⟨m, hm, hle, -⟩ := (epochByBlock_spec hi' n e).1 he
      -- every end is at most the last
      have hmem : m.last.val ∈ segOf A := by
        unfold segOf
        exact List.mem_cons_of_mem _ (List.mem_map.2 ⟨m, List.mem_of_getElem? hm, rfl⟩)
      obtain ⟨t, ht⟩ := List.getLast?_eq_some_iff.1 (segOf_getLast A)
      have hp := hi.ok.incr
      rw [ht, List.pairwise_append] at hp
      rw [ht] at hmem
      rcases List.mem_append.1 hmem with hm' | hm'
      · have := hp.2.2 _ hm' _ (List.mem_singleton.2 rfl); omega
      · rw [List.mem_singleton] at hm'; omega
    unfold updateCount
    cases he : epochByBlock { s with forks := forks, current := forkAt (forks.getD []) n } n with
    | ok e => exact absurd he (hno e)
    | err => rfl
    | panic => rfl
  · intro hle hc
    obtain ⟨k, p, q, h1, h2, h3, h4⟩ := bracket (segOf A) n 0 _ rfl (segOf_getLast A) (by omega) hle
    have he : epochByBlock { s with forks := forks, current := forkAt (forks.getD []) n } n = .ok k := by
      unfold epochByBlock
      simp only
      rw [hi.seg, fromRaw_seg]
      simp only
      unfold epochOf
      rw [(epochFrom_spec (segOf A) 0 n k hi.ok.incr).2 ⟨k, p, q, by omega, h1, h2, h3, h4⟩]
      rfl
    unfold updateCount
    rw [he]
    simp only
    obtain ⟨m, hm, -⟩ := (epochByBlock_spec hi' n k).1 he
    have hg := getInner_spec hi' k
    rw [hm] at hg
    obtain ⟨i, hgi, -⟩ := hg
    rw [hgi]
    simp only
    cases hb : bump a i.counter with
    | some c => exact ⟨_, rfl⟩
    | none =>
      obtain ⟨c, h1, h2⟩ := bump_none hb
      have := hc k i hgi a c h1
      omega

/-! ## Witnesses -/

def u (n : Nat) (h : n < 2 ^ 64 := by decide) : U64 := ⟨n, h⟩

def sampleConfig (g : U64) : Config := ⟨g, u 2, u 3, u 4, u 5, u 6, u 7, u 8, u 9⟩

/-- Genesis metadata of epoch 0 with validators 1 and 2. -/
def meta0 : Metadata := ⟨u 100, u 10, u 0, [2, 1], sampleConfig (u 1000)⟩
/-- Next epoch with a different gas limit. -/
def meta1 : Metadata := ⟨u 11, u 20, u 1, [1], sampleConfig (u 2000)⟩
/-- Next epoch that never ends. -/
def metaMax : Metadata := ⟨u 11, u (2 ^ 64 - 1), u 1, [1], sampleConfig (u 2000)⟩
def meta2 : Metadata := ⟨u 0, u 30, u 2, [1], sampleConfig (u 2000)⟩

/-- Store after a list of operations, if all succeed. -/
def runAll (s : Store) : List Op → Option Store
  | [] => some s
  | op :: l => match step s op with
    | .ok (s', true) => runAll s' l
    | _ => none

theorem reach_runAll {ops l : List Op} {s s' : Store} (h : Reach ops s) (hr : runAll s l = some s') :
    Reach (ops ++ l) s' := by
  induction l generalizing ops s with
  | nil => simp only [runAll, Option.some.injEq] at hr; subst hr; simpa using h
  | cons op l ih =>
    unfold runAll at hr
    split at hr
    · rename_i t ht
      have := ih (Reach.done h ht) hr
      simpa using this
    · cases hr

def genesisOps : List Op := [.tx 0 7 (some (.append meta0))]
def twoEpochs : List Op := genesisOps ++ [.tx 5 1 (some (.append meta1))]

/-- The start field of epoch 0 is not checked: after accepting metadata for blocks 100..10, block 5 is
answered with that metadata although it is not in its range. -/
theorem C38_first_start_false : ∃ s i c, Reach genesisOps s ∧ metadataAt s 5 = .ok (i, c) ∧
    ¬ i.start.val ≤ 5 := by
  refine ⟨(runAll Store.init genesisOps).get (by decide +kernel), ?_⟩
  refine ⟨⟨u 100, u 10, u 0, [2, 1], [(1, 0), (2, 0)]⟩, { sampleConfig (u 1000) with maxContractLimit := u 0x6000 },
    ?_, by decide +kernel, by decide⟩
  simpa using reach_runAll Reach.init (Option.some_get _).symm

/-- Two transactions of one validator abort every node: the first appends an epoch ending at
`u64::MAX`, the second offers any metadata with the next epoch number. -/
theorem C38_overflow_false : ∃ s, Reach (genesisOps ++ [.tx 5 1 (some (.append metaMax))]) s ∧
    exec s 5 1 (some (.append meta2)) = .panic := by
  refine ⟨(runAll Store.init (genesisOps ++ [.tx 5 1 (some (.append metaMax))])).get (by decide +kernel), ?_,
    by decide +kernel⟩
  simpa using reach_runAll Reach.init (Option.some_get _).symm

/-- The gas limit reported for a block. -/
def gasLimitAt (s : Store) (n : Nat) : Option Nat :=
  match metadataAt s n with
  | .ok (_, c) => some c.gasLimit.val
  | _ => none

/-- The configuration reported for a block is not that of its epoch: appending epoch 1 (blocks 11..20)
at block 5 changes the gas limit reported for block 5 at once. -/
theorem C68_epoch_config_false : ∃ s s', Reach genesisOps s ∧ Reach twoEpochs s' ∧
    gasLimitAt s 5 = some 1000 ∧ gasLimitAt s' 5 = some 2000 := by
  refine ⟨(runAll Store.init genesisOps).get (by decide +kernel),
    (runAll Store.init twoEpochs).get (by decide +kernel), ?_, ?_, by decide +kernel, by decide +kernel⟩
  · simpa using reach_runAll Reach.init (Option.some_get _).symm
  · simpa using reach_runAll Reach.init (Option.some_get _).symm

/-- With two epochs appended, block 15 is answered with the metadata of epoch 1, and the end of block 21
aborts the node. -/
example : ∃ s, Reach twoEpochs s ∧ (∃ i c, metadataAt s 15 = .ok (i, c) ∧ Matches i meta1) ∧
    hook s 21 none 1 = .panic := by
  have hr : Reach twoEpochs ((runAll Store.init twoEpochs).get (by decide +kernel)) := by
    simpa using reach_runAll Reach.init (Option.some_get _).symm
  refine ⟨_, hr, ?_, ?_⟩
  · exact (C38_lookup_partial hr 15 (by decide)).2.1 1 meta1 rfl (by decide) (by decide)
  · exact (C69_hook_partial hr 21 none 1 (by decide)).2.1 (by decide)

/-- C69 is false: with metadata for blocks up to 20 registered, executing block 21 aborts the node. -/
theorem C69_halt_false : ∃ s, Reach twoEpochs s ∧ hook s 20 none 1 ≠ .panic ∧ hook s 21 none 1 = .panic := by
  have hr : Reach twoEpochs ((runAll Store.init twoEpochs).get (by decide +kernel)) := by
    simpa using reach_runAll Reach.init (Option.some_get _).symm
  exact ⟨_, hr, by decide +kernel, (C69_hook_partial hr 21 none 1 (by decide)).2.1 (by decide)⟩

/-- An outsider's transaction is refused. -/
example : ∃ s, Reach genesisOps s ∧ exec s 5 9 (some (.append meta1)) = .ok (s, false) := by
  have hr : Reach genesisOps ((runAll Store.init genesisOps).get (by decide +kernel)) := by
    simpa using reach_runAll Reach.init (Option.some_get _).symm
  refine ⟨_, hr, ?_⟩
  have hv : isValidator ((runAll Store.init genesisOps).get (by decide +kernel)) 5 9 = .ok false := by
    decide +kernel
  unfold exec
  rw [if_neg (by decide), hv]

end Axon.Meta
