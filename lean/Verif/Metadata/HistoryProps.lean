import Verif.Metadata.StoreProps

/-!
# C39 and C68 over histories

What the metadata contract reports after a history of transactions and block ends, stated on the history
itself: the flags in force are those registered by the executed headers, looked up at the last executed
block, and the configuration is the one submitted last, as far as the flags in force at that time let it be
stored.
-/

namespace Axon.Meta
open Axon.Assoc

/-- The hardforks carried by the executed headers, in order. -/
def registered : List Op → List (Nat × H256)
  | [] => []
  | .endBlock (n + 1) (some r) _ _ :: l => r :: registered l
  | _ :: l => registered l

/-- The number of the block executed last. -/
def lastRun : List Op → Nat
  | [] => 0
  | .endBlock n _ _ _ :: l => if lastRun l = 0 then n else lastRun l
  | .tx .. :: l => lastRun l

/-- The flags in force after a history. -/
def flagsIn (ops : List Op) : H256 :=
  if lastRun ops = 0 then zeroH else forkAt (registerAll (registered ops)) (lastRun ops)

/-- The configuration an operation submits. -/
def submits : Op → Option Config
  | .tx _ _ (some (.append m)) => some m.config
  | .tx _ _ (some (.config c)) => some c
  | _ => none

theorem registered_snoc (ops : List Op) (op : Op) :
    registered (ops ++ [op]) = registered ops ++ registered [op] := by
  induction ops with
  | nil => rfl
  | cons o ops ih =>
    cases o with
    | tx => simpa [registered] using ih
    | endBlock n x p l =>
      cases n with
      | zero => simpa [registered] using ih
      | succ n => cases x <;> simpa [registered] using ih

theorem lastRun_snoc_tx (ops : List Op) (b a : Nat) (c : Option Call) :
    lastRun (ops ++ [.tx b a c]) = lastRun ops := by
  induction ops with
  | nil => rfl
  | cons o ops ih =>
    cases o with
    | tx => simpa [lastRun] using ih
    | endBlock n x p l => simp only [List.cons_append, lastRun, ih]

theorem lastRun_snoc_end (ops : List Op) (n : Nat) (x : Option (Nat × H256)) (p : Nat) (l : List Nat) :
    lastRun (ops ++ [.endBlock n x p l]) = if n = 0 then lastRun ops else n := by
  induction ops with
  | nil => simp [lastRun]
  | cons o ops ih =>
    cases o with
    | tx => simpa [lastRun] using ih
    | endBlock m x' p' l' =>
      simp only [List.cons_append, lastRun, ih]
      by_cases hn : n = 0
      · simp [hn]
      · simp [hn]

/-- What the history determines. -/
structure Hist (ops : List Op) (s : Store) : Prop where
  forks : s.forks.getD [] = registerAll (registered ops)
  current : s.current = flagsIn ops

theorem updateCount_same {s s' : Store} {n a : Nat} (h : updateCount s n a = .ok s') :
    s'.forks = s.forks ∧ s'.current = s.current ∧ s'.config = s.config := by
  unfold updateCount at h
  split at h
  · split at h
    · split at h
      · simp only [Outcome.ok.injEq] at h
        subst h
        exact ⟨rfl, rfl, rfl⟩
      · cases h
    · cases h
    · cases h
  · cases h
  · cases h

theorem hook_spec {s s' : Store} {n : Nat} {x : Option (Nat × H256)} {a : Nat} (hn : n ≠ 0)
    (h : hook s n x a = .ok s') :
    s'.forks = forksAfter s.forks x ∧ s'.current = forkAt ((forksAfter s.forks x).getD []) n ∧
      s'.config = s.config := by
  unfold hook at h
  rw [if_neg hn] at h
  split at h
  · rename_i t ht
    simp only [Outcome.ok.injEq] at h
    subst h
    obtain ⟨h1, h2, h3⟩ := updateCount_same ht
    exact ⟨h1, h2, h3⟩
  · cases h
  · cases h

theorem appendMetadata_same {s s' : Store} {m : Metadata} (h : appendMetadata s m = .ok s') :
    s'.forks = s.forks ∧ s'.current = s.current ∧ s'.config = some (encodeConfig s.current m.config) := by
  unfold appendMetadata at h
  split at h
  · cases h
  split at h
  · cases h
  split at h
  · cases h
  split at h
  · cases h
  split at h
  · cases h
  split at h
  · cases h
  · cases h
  · simp only [Outcome.ok.injEq] at h
    subst h
    exact ⟨rfl, rfl, rfl⟩

theorem runCall_same {s s' : Store} {c : Call} (h : runCall s c = .ok s') :
    s'.forks = s.forks ∧ s'.current = s.current ∧
      s'.config = match c with
        | .append m => some (encodeConfig s.current m.config)
        | .config c => some (encodeConfig s.current c)
        | .ckb _ => s.config := by
  cases c with
  | append m => exact appendMetadata_same h
  | ckb i => simp only [runCall, Outcome.ok.injEq] at h; subst h; exact ⟨rfl, rfl, rfl⟩
  | config c => simp only [runCall, Outcome.ok.injEq] at h; subst h; exact ⟨rfl, rfl, rfl⟩

theorem hist_done {ops : List Op} {s s' : Store} {op : Op} (ih : Hist ops s)
    (hs : step s op = .ok (s', true)) : Hist (ops ++ [op]) s' := by
  cases op with
  | tx b a c =>
    obtain ⟨d, rfl, hd, -⟩ := exec_true hs
    obtain ⟨h1, h2, -⟩ := runCall_same hd
    refine ⟨?_, ?_⟩
    · rw [h1, registered_snoc]; simpa [registered] using ih.forks
    · rw [h2, ih.current]
      unfold flagsIn
      rw [lastRun_snoc_tx, registered_snoc]
      simp [registered]
  | endBlock n x p l =>
    simp only [step] at hs
    split at hs
    · rename_i t ht
      simp only [Outcome.ok.injEq, Prod.mk.injEq, and_true] at hs
      subst hs
      cases n with
      | zero =>
        simp only [hook, if_true, Outcome.ok.injEq] at ht
        subst ht
        refine ⟨?_, ?_⟩
        · rw [registered_snoc]; simpa [registered] using ih.forks
        · rw [ih.current]
          unfold flagsIn
          rw [lastRun_snoc_end, registered_snoc]
          simp [registered]
      | succ n =>
        obtain ⟨h1, h2, -⟩ := hook_spec (by omega) ht
        have hf : (forksAfter s.forks x).getD [] =
            registerAll (registered (ops ++ [.endBlock (n + 1) x p l])) := by
          rw [registered_snoc]
          cases x with
          | none => simpa [registered, forksAfter] using ih.forks
          | some r =>
            obtain ⟨b, f⟩ := r
            simp only [registered, forksAfter, Option.getD_some]
            rw [registerAll_snoc, setFork_eq, ih.forks]
        refine ⟨by rw [h1, hf], ?_⟩
        rw [h2, hf]
        unfold flagsIn
        rw [lastRun_snoc_end]
        simp
    · cases hs
    · cases hs

theorem step_false {s s' : Store} {op : Op} (h : step s op = .ok (s', false)) : s' = s := by
  cases op with
  | tx b a c => exact exec_false h
  | endBlock n x p l =>
    simp only [step] at h
    split at h <;> simp at h

theorem hist_reach {ops : List Op} {s : Store} (h : Reach ops s) : Hist ops s := by
  induction h with
  | init => exact ⟨rfl, rfl⟩
  | done _ hs ih => exact hist_done ih hs
  | failed _ hs ih => rw [step_false hs]; exact ih

/-- C39: after any history the flags in force are those registered by the executed headers, looked up at
the block executed last (none before block 1), and the stored table is the one these headers build. -/
theorem C39_inforce {ops : List Op} {s : Store} (h : Reach ops s) :
    s.current = (if lastRun ops = 0 then zeroH
      else forkAt (registerAll (registered ops)) (lastRun ops)) ∧
    s.forks.getD [] = registerAll (registered ops) :=
  ⟨(hist_reach h).current, (hist_reach h).forks⟩

theorem step_config {s s' : Store} {op : Op} (hs : step s op = .ok (s', true)) :
    s'.config = match submits op with
      | some c => some (encodeConfig s.current c)
      | none => s.config := by
  cases op with
  | tx b a c =>
    obtain ⟨d, rfl, hd, -⟩ := exec_true hs
    obtain ⟨-, -, h3⟩ := runCall_same hd
    cases d <;> simpa [submits] using h3
  | endBlock n x p l =>
    simp only [step] at hs
    split at hs
    · rename_i t ht
      simp only [Outcome.ok.injEq, Prod.mk.injEq, and_true] at hs
      subst hs
      by_cases hn : n = 0
      · subst hn
        simp only [hook, if_true, Outcome.ok.injEq] at ht
        subst ht
        rfl
      · exact (hook_spec hn ht).2.2
    · cases hs
    · cases hs

theorem config_reach {ops : List Op} {s : Store} (h : Reach ops s) :
    (s.config = none ∧ ∀ o ∈ ops, submits o = none) ∨
    ∃ pre op post c, ops = pre ++ op :: post ∧ submits op = some c ∧ (∀ o ∈ post, submits o = none) ∧
      s.config = some (encodeConfig (flagsIn pre) c) := by
  induction h with
  | init => exact Or.inl ⟨rfl, by simp⟩
  | failed _ hs ih => rw [step_false hs]; exact ih
  | done hr hs ih =>
    rename_i ops s op s'
    have hc := step_config hs
    cases ho : submits op with
    | some c =>
      rw [ho] at hc
      refine Or.inr ⟨ops, op, [], c, rfl, ho, by simp, ?_⟩
      rw [hc, (hist_reach hr).current]
    | none =>
      rw [ho] at hc
      simp only at hc
      rcases ih with ⟨h1, h2⟩ | ⟨pre, o, post, c, h1, h2, h3, h4⟩
      · refine Or.inl ⟨by rw [hc, h1], ?_⟩
        intro o hoo
        rcases List.mem_append.1 hoo with hoo | hoo
        · exact h2 o hoo
        · rw [List.mem_singleton] at hoo; rw [hoo, ho]
      · refine Or.inr ⟨pre, o, post ++ [op], c, by rw [h1]; simp, h2, ?_, by rw [hc, h4]⟩
        intro o' hoo
        rcases List.mem_append.1 hoo with hoo | hoo
        · exact h3 o' hoo
        · rw [List.mem_singleton] at hoo; rw [hoo, ho]

theorem split_last {α : Type} {P : α → Prop} {a a' b b' : List α} {x x' : α}
    (h : a ++ x :: b = a' ++ x' :: b') (hx : P x) (hx' : P x') (hb : ∀ y ∈ b, ¬ P y)
    (hb' : ∀ y ∈ b', ¬ P y) : a = a' ∧ x = x' ∧ b = b' := by
  rcases List.append_eq_append_iff.1 h with ⟨c, h1, h2⟩ | ⟨c, h1, h2⟩
  · cases c with
    | nil => simp at h1 h2; exact ⟨h1.symm, h2.1, h2.2⟩
    | cons y c =>
      simp only [List.cons_append, List.cons.injEq] at h2
      exact absurd hx' (hb x' (by rw [h2.2]; simp))
  · cases c with
    | nil => simp at h1 h2; exact ⟨h1, h2.1.symm, h2.2.symm⟩
    | cons y c =>
      simp only [List.cons_append, List.cons.injEq] at h2
      exact absurd hx (hb' x (by rw [h2.2]; simp))

/-- C68: the configuration reported is the one submitted last (with an epoch or on its own), as stored under
the flags in force when it was submitted: complete once Andromeda is active, with the default contract size
limit before. -/
theorem C68_latest {ops : List Op} {s : Store} (h : Reach ops s) {pre post : List Op} {op : Op} {c : Config}
    (ho : ops = pre ++ op :: post) (hc : submits op = some c) (hp : ∀ o ∈ post, submits o = none) :
    getConfig s = .ok (visible (flagsIn pre) c) := by
  rcases config_reach h with ⟨-, h2⟩ | ⟨pre', op', post', c', h1, h2, h3, h4⟩
  · have := h2 op (by rw [ho]; simp)
    rw [hc] at this; cases this
  · obtain ⟨e1, e2, -⟩ := split_last (P := fun o => submits o ≠ none) (ho.symm.trans h1)
      (by simp [hc]) (by simp [h2]) (fun o hoo => by simp [hp o hoo]) (fun o hoo => by simp [h3 o hoo])
    subst e1 e2
    rw [hc] at h2
    simp only [Option.some.injEq] at h2
    subst h2
    unfold getConfig
    rw [h4]
    exact C68_roundtrip _ _

/-- A configuration with a contract limit submitted before and after the header of block 1 turned
Andromeda on (flag byte 24): first the default limit is reported, then the submitted one. -/
def andromeda : H256 := ⟨List.replicate 24 0 ++ [1] ++ List.replicate 7 0, by decide⟩

def forkOps : List Op := [.tx 0 1 (some (.append meta0)), .endBlock 0 none 1 [],
  .endBlock 1 (some (1, andromeda)) 1 []]

def forkConfig : Config := sampleConfig (u 7)

example : flagsIn forkOps = andromeda ∧ ∃ s, Reach (forkOps ++ [.tx 2 1 (some (.config forkConfig))]) s ∧
    getConfig s = .ok (visible andromeda forkConfig) ∧
    (visible andromeda forkConfig).maxContractLimit = forkConfig.maxContractLimit := by
  have hf : flagsIn forkOps = andromeda := by decide +kernel
  have hr : Reach (forkOps ++ [.tx 2 1 (some (.config forkConfig))])
      ((runAll Store.init (forkOps ++ [.tx 2 1 (some (.config forkConfig))])).get
        (by decide +kernel)) := by
    simpa using reach_runAll Reach.init (Option.some_get _).symm
  refine ⟨hf, _, hr, ?_, by decide +kernel⟩
  rw [← hf]
  exact C68_latest hr (post := []) rfl rfl (by simp)

end Axon.Meta
