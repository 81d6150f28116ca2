import Verif.Mempool.PoolAcc

/-!
# Timeout records of the pool: lemmas
-/

namespace Axon.Pool
open Axon.Assoc

/-- Block numbers of the flushes of a history, in order. -/
def nums : List Op → List Nat
  | [] => []
  | .flush _ n :: ops => n :: nums ops
  | _ :: ops => nums ops

theorem nums_append (a b : List Op) : nums (a ++ b) = nums a ++ nums b := by
  induction a with
  | nil => rfl
  | cons op a ih => cases op <;> simp [nums, ih]

/-- The pool holds the ordinary transaction with this hash (`tx_map.contains_key`). -/
def holds (s : Pool) (h : Nat) : Prop := (find s h).isSome = true

theorem step_timeouts {s s' : Pool} {op : Op} (g : Good s) (hr : step s op = some s')
    (hop : ∀ hs n, op ≠ .flush hs n) : s'.timeouts = s.timeouts := by
  cases op with
  | insert t c d =>
    simp only [Pool.step, Option.map_eq_some_iff] at hr
    obtain ⟨r, h, rfl⟩ := hr
    have ht : ∀ s : Pool, (insertTail s t d).timeouts = s.timeouts := by
      intro s; unfold Pool.insertTail; split <;> rfl
    unfold Pool.insert at h
    split at h
    · simp only [Option.some.injEq] at h; subst h; rfl
    · simp only at h
      split at h
      · simp only [Option.map_eq_some_iff] at h
        obtain ⟨s2, h2, he⟩ := h
        subst he
        obtain ⟨i2, same, co2⟩ := flushToPending_inv (g.inv.withStock (s.stock + 1)) h2
        exact (ht s2).trans same.timeouts
      · simp only [Option.some.injEq] at h; subst h; exact ht _
  | insertSys t => simp only [Pool.step, Option.some.injEq] at hr; subst hr; rfl
  | package l st =>
    simp only [Pool.step, Option.map_eq_some_iff] at hr
    obtain ⟨r, h, rfl⟩ := hr
    exact (g.package h).2.1.timeouts
  | refresh => exact (g.refresh hr).2.1.timeouts
  | flush hs n => exact absurd rfl (hop hs n)

/-- What a flush does to the timeout records. -/
theorem flush_timeouts {s s' : Pool} {hs : List Nat} {n : Nat} (g : Good s) (hr : flush s hs n = some s')
    (m : Nat) : get s'.timeouts m =
      if m = n then
        some ((if s.gap = 0 then [] else (get s.timeouts n).getD []) ++
          s'.txMap.map (fun p => (s'.heap.tx p).hash))
      else if s.gap ≤ n ∧ m = n - s.gap then none
      else get s.timeouts m := by
  obtain ⟨s1, s2, k, g1, sm1, co1, f, i2, m2, hs'⟩ := flush_steps g hr
  have e1 : s'.timeouts = s2.timeouts := by rw [hs']
  have e2 : s'.txMap = s2.txMap := by rw [hs']
  have e3 : s'.heap = s2.heap := by rw [hs']
  rw [e1, e2, e3, f.timeouts m, sm1.gap, sm1.timeouts, f.tx]

structure TInv (cap gap : Nat) (past : List Op) (s : Pool) : Prop where
  reach : run (init cap gap) past = some s
  keys : ∀ m, (get s.timeouts m).isSome → m ∈ nums past
  hist : ∀ m h, h ∈ (get s.timeouts m).getD [] → ∃ a hs b sa, past = a ++ [.flush hs m] ++ b ∧
    run (init cap gap) (a ++ [.flush hs m]) = some sa ∧ holds sa h

theorem run_snoc {s s1 : Pool} {a : List Op} {op : Op} {s' : Pool} (h : run s a = some s1)
    (h1 : step s1 op = some s') : run s (a ++ [op]) = some s' := by
  rw [run_append, h]; simp [run, h1]

theorem TInv.step {cap gap : Nat} (hc : 0 < cap) {past : List Op} {s s' : Pool} {op : Op}
    (t : TInv cap gap past s) (hinc : (nums (past ++ [op])).Pairwise (· < ·)) (hr : step s op = some s') :
    TInv cap gap (past ++ [op]) s' := by
  have g := good_run hc t.reach
  have hreach := run_snoc t.reach hr
  by_cases hop : ∀ hs n, op ≠ .flush hs n
  · have e := step_timeouts g hr hop
    refine ⟨hreach, ?_, ?_⟩
    · intro m hm
      rw [e] at hm
      rw [nums_append]; exact List.mem_append.2 (.inl (t.keys m hm))
    · intro m h hm
      rw [e] at hm
      obtain ⟨a, hs, b, sa, h1, h2, h3⟩ := t.hist m h hm
      exact ⟨a, hs, b ++ [op], sa, by rw [h1]; simp, h2, h3⟩
  · have hop' : ∃ hs n, op = .flush hs n := by
      cases op with
      | flush hs n => exact ⟨hs, n, rfl⟩
      | insert => exact absurd (by intros; simp) hop
      | insertSys => exact absurd (by intros; simp) hop
      | package => exact absurd (by intros; simp) hop
      | refresh => exact absurd (by intros; simp) hop
    obtain ⟨hs, n, rfl⟩ := hop'
    have ft := flush_timeouts g hr
    rw [nums_append, List.pairwise_append] at hinc
    have hold : get s.timeouts n = none := by
      cases hg : get s.timeouts n with
      | none => rfl
      | some v =>
        have := hinc.2.2 n (t.keys n (by rw [hg]; rfl)) n (by simp [nums])
        omega
    refine ⟨hreach, ?_, ?_⟩
    · intro m hm
      rw [nums_append, List.mem_append]
      rw [ft m] at hm
      split at hm
      · right; simp [nums, *]
      · split at hm
        · cases hm
        · exact .inl (t.keys m hm)
    · intro m h hm
      rw [ft m] at hm
      split at hm
      · rename_i hmn
        rw [hold] at hm
        have hm' : h ∈ s'.txMap.map (fun p => (s'.heap.tx p).hash) := by
          split at hm <;> simpa using hm
        obtain ⟨p, hp, he⟩ := List.mem_map.1 hm'
        refine ⟨past, hs, [], s', by rw [hmn]; simp, by rw [hmn]; exact hreach, ?_⟩
        exact find_isSome.2 ⟨p, hp, he⟩
      · split at hm
        · simp at hm
        · obtain ⟨a, hs', b, sa, h1, h2, h3⟩ := t.hist m h hm
          exact ⟨a, hs', b ++ [.flush hs n], sa, by rw [h1]; simp, h2, h3⟩

theorem TInv.run {cap gap : Nat} (hc : 0 < cap) {ops past : List Op} {s s' : Pool}
    (t : TInv cap gap past s) (hinc : (nums (past ++ ops)).Pairwise (· < ·)) (hr : run s ops = some s') :
    TInv cap gap (past ++ ops) s' := by
  induction ops generalizing s past with
  | nil => simp only [Pool.run, Option.some.injEq] at hr; subst hr; simpa using t
  | cons op ops ih =>
    simp only [Pool.run] at hr
    split at hr
    · cases hr
    · rename_i s1 h1
      have hinc' : (nums (past ++ [op])).Pairwise (· < ·) := by
        have : past ++ op :: ops = (past ++ [op]) ++ ops := by simp
        rw [this, nums_append, List.pairwise_append] at hinc
        exact hinc.1
      have := ih (t.step hc hinc' h1) (by simpa using hinc) hr
      simpa using this

theorem tinv {cap gap : Nat} (hc : 0 < cap) {ops : List Op} {s : Pool}
    (hinc : (nums ops).Pairwise (· < ·)) (hr : run (init cap gap) ops = some s) : TInv cap gap ops s := by
  have t0 : TInv cap gap [] (init cap gap) := ⟨rfl, by simp [init, get_nil], by simp [init, get_nil]⟩
  simpa using t0.run hc (by simpa using hinc) hr

/-- The record of block `n` stays as it is while all flushed numbers lie strictly between `n` and
`n + gap`. -/
theorem record_stable {ops : List Op} {s s' : Pool} (g : Good s) (hr : run s ops = some s') {n : Nat}
    (hn : ∀ m ∈ nums ops, n < m ∧ m < n + s.gap) : get s'.timeouts n = get s.timeouts n := by
  induction ops generalizing s with
  | nil => simp only [Pool.run, Option.some.injEq] at hr; rw [hr]
  | cons op ops ih =>
    simp only [Pool.run] at hr
    split at hr
    · cases hr
    · rename_i s1 h1
      have hcfg := (step_cfg g h1).2
      have hsub : ∀ m ∈ nums ops, m ∈ nums (op :: ops) := by
        intro m hm; cases op <;> simp [nums, hm]
      rw [ih (g.step h1) hr (fun m hm => by rw [hcfg]; exact hn m (hsub m hm))]
      cases op with
      | flush hs m =>
        have hm := hn m (by simp [nums])
        rw [flush_timeouts g h1 n]
        have h2 : n ≠ m := by omega
        have h3 : ¬ (s.gap ≤ m ∧ n = m - s.gap) := by omega
        simp [h2, h3]
      | insert => rw [step_timeouts g h1 (by intros; simp)]
      | insertSys => rw [step_timeouts g h1 (by intros; simp)]
      | package => rw [step_timeouts g h1 (by intros; simp)]
      | refresh => rw [step_timeouts g h1 (by intros; simp)]

end Axon.Pool
