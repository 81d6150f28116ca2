import Verif.Mempool.PoolTimeout

/-!
# C21: expiry of pool transactions
-/

namespace Axon.Pool
open Axon.Assoc

/-- Never too early.  If a flush for block `n` makes a transaction vanish, then it is committed, or a
committed transaction of its sender has at least its nonce, or it lost its place in the queue (it was
refused or replaced), or block `n - gap` was flushed before and the pool held the transaction right after
that flush. -/
theorem C21_never_early_partial {cap gap : Nat} (hc : 0 < cap) {ops : List Op} {s s' : Pool}
    {hashes : List Nat} {n : Nat} (hinc : (nums ops).Pairwise (· < ·))
    (hrun : run (init cap gap) ops = some s) (hf : flush s hashes n = some s')
    {h p : Nat} (hp : find s h = some p) (hgone : ¬ holds s' h) :
    h ∈ hashes ∨
    (∃ h' ∈ hashes, ∃ c, find s h' = some c ∧ (s.heap.tx c).sender = (s.heap.tx p).sender ∧
      (s.heap.tx p).nonce ≤ (s.heap.tx c).nonce) ∨
    (∃ s1, flushToPending s = some s1 ∧ s1.heap.drp p = true) ∨
    (∃ a hs b sa m, m + gap = n ∧ ops = a ++ [.flush hs m] ++ b ∧
      run (init cap gap) (a ++ [.flush hs m]) = some sa ∧ holds sa h) := by
  have g := good_run hc hrun
  have t := tinv hc hinc hrun
  have hgap : s.gap = gap := (run_cfg (Good.init hc gap) hrun).2
  obtain ⟨s1, s2, k, g1, sm1, co1, f, i2, m2, hs', hst⟩ := flush_steps' g hf
  obtain ⟨hpm, hph⟩ := find_some hp
  by_cases h1 : h ∈ hashes
  · exact .inl h1
  · right
    have hnot : p ∉ s2.txMap := by
      intro hm
      apply hgone
      refine find_isSome.2 ⟨p, by rw [hs']; exact hm, ?_⟩
      rw [hs']; simp only [f.tx, sm1.tx]; exact hph
    have hd : s2.heap.drp p = true := by
      cases hd : s2.heap.drp p with
      | true => rfl
      | false =>
        exact absurd ((f.map p).2 ⟨by rw [sm1.txMap]; exact hpm, by rw [sm1.tx, hph]; exact h1, hd⟩) hnot
    rcases (f.drp p).1 hd with h2 | ⟨_, c, hc1, hc2, hc3, hc4⟩ | ⟨_, _, h2⟩
    · exact .inr (.inl ⟨s1, hst, h2⟩)
    · left
      rw [sm1.tx] at hc2 hc3 hc4
      rw [sm1.txMap] at hc1
      exact ⟨_, hc2, c, find_of_mem g.inv hc1, hc3, hc4⟩
    · right; right
      rw [sm1.tx, hph] at h2
      unfold expiring at h2
      rw [sm1.timeouts, sm1.gap, hgap] at h2
      split at h2
      · obtain ⟨a, hs, b, sa, e1, e2, e3⟩ := t.hist _ _ h2
        exact ⟨a, hs, b, sa, n - gap, by omega, e1, e2, e3⟩
      · simp at h2
where
  flush_steps' {s s' : Pool} {hashes : List Nat} {number : Nat} (g : Good s)
      (hr : flush s hashes number = some s') :
      ∃ s1 s2 n, Good s1 ∧ Same s s1 ∧ s1.co = [] ∧ FlushSpec s1 hashes number s2 n ∧ Inv s2 ∧ NoMark s2 ∧
        s' = { s2 with sys := (s2.sys.flush hashes).1, stock := s2.stock - (n + (s2.sys.flush hashes).2) } ∧
        flushToPending s = some s1 := by
    unfold Pool.flush at hr
    split at hr
    · cases hr
    · rename_i s1 h1
      obtain ⟨g1, sm1, co1⟩ := g.flushToPending h1
      split at hr
      · cases hr
      · rename_i s2 n h2
        simp only [Option.some.injEq] at hr
        have f := flushInner_spec g1.inv g1.mark h2
        exact ⟨s1, s2, n, g1, sm1, co1, f, f.inv g1.inv co1, flushInner_noMark g1.inv g1.mark h2, hr.symm, h1⟩

/-- Not later.  Whatever the pool holds right after the flush for block `n0` it no longer holds right
after the flush for block `n0 + gap`, whatever happened in between (numbers increasing, `gap > 0`). -/
theorem C21_at_gap_partial {cap gap : Nat} (hc : 0 < cap) {a b : List Op}
    {hs1 hs2 : List Nat} {n0 : Nat} {s0 s : Pool}
    (hinc : (nums (a ++ [.flush hs1 n0] ++ b ++ [.flush hs2 (n0 + gap)])).Pairwise (· < ·))
    (h0 : run (init cap gap) (a ++ [.flush hs1 n0]) = some s0)
    (h1 : run (init cap gap) (a ++ [.flush hs1 n0] ++ b ++ [.flush hs2 (n0 + gap)]) = some s)
    {h : Nat} (hh : holds s0 h) : ¬ holds s h := by
  have g0 := good_run hc h0
  rw [run_append, run_append, h0] at h1
  simp only [Option.bind_some] at h1
  cases hb : run s0 b with
  | none => rw [hb] at h1; cases h1
  | some sb =>
    rw [hb] at h1
    simp only [Option.bind_some, run, step] at h1
    have hfl : flush sb hs2 (n0 + gap) = some s := by
      cases hf : flush sb hs2 (n0 + gap) with
      | none => rw [hf] at h1; cases h1
      | some x => rw [hf] at h1; simpa using h1
    have gb := g0.run hb
    have cfg0 : s0.gap = gap := (run_cfg (Good.init hc gap) h0).2
    have cfgb : sb.gap = gap := (run_cfg g0 hb).2.trans cfg0
    -- the record written at `n0`
    have hrec : h ∈ (get s0.timeouts n0).getD [] := by
      rw [run_append] at h0
      cases ha : run (init cap gap) a with
      | none => rw [ha] at h0; cases h0
      | some sa =>
        rw [ha] at h0
        simp only [Option.bind_some, run, step] at h0
        have hfa : flush sa hs1 n0 = some s0 := by
          cases hf : flush sa hs1 n0 with
          | none => rw [hf] at h0; cases h0
          | some x => rw [hf] at h0; simpa using h0
        rw [flush_timeouts (good_run hc ha) hfa n0]
        obtain ⟨p, hp, he⟩ := find_isSome.1 hh
        simp only [if_true, Option.getD_some, List.mem_append]
        exact .inr (List.mem_map.2 ⟨p, hp, he⟩)
    have hbn : ∀ m ∈ nums b, n0 < m ∧ m < n0 + s0.gap := by
      intro m hm
      rw [nums_append, nums_append, nums_append, List.pairwise_append, List.pairwise_append,
        List.pairwise_append] at hinc
      obtain ⟨⟨_, _, h3⟩, _, h4⟩ := hinc
      refine ⟨h3 n0 (by simp [nums]) m hm, ?_⟩
      rw [cfg0]
      exact h4 m (by simp [hm]) (n0 + gap) (by simp [nums])
    rw [← record_stable g0 hb hbn] at hrec
    intro hcon
    obtain ⟨p, hp, he⟩ := find_isSome.1 hcon
    obtain ⟨s1, s2, k, g1, sm1, co1, f, i2, m2, hs'⟩ := flush_steps gb hfl
    have hp2 : p ∈ s2.txMap := by rw [hs'] at hp; exact hp
    have he2 : (s1.heap.tx p).hash = h := by rw [hs'] at he; simp only [f.tx] at he; exact he
    obtain ⟨c1, c2, c3⟩ := (f.map p).1 hp2
    have : s2.heap.drp p = true := by
      refine (f.drp p).2 (.inr (.inr ⟨c1, c2, ?_⟩))
      unfold expiring
      rw [sm1.gap, sm1.timeouts, cfgb, he2]
      have : gap ≤ n0 + gap := by omega
      simp only [this, if_true, Nat.add_sub_cancel]
      exact hrec
    rw [this] at c3; cases c3

/-- With a gap of zero nothing ever expires: only the other three reasons remain. -/
theorem C21_gap_zero {cap : Nat} (hc : 0 < cap) {ops : List Op} {s s' : Pool}
    {hashes : List Nat} {n : Nat} (hinc : (nums (ops ++ [.flush hashes n])).Pairwise (· < ·))
    (hrun : run (init cap 0) ops = some s) (hf : flush s hashes n = some s')
    {h p : Nat} (hp : find s h = some p) (hgone : ¬ holds s' h) :
    h ∈ hashes ∨
    (∃ h' ∈ hashes, ∃ c, find s h' = some c ∧ (s.heap.tx c).sender = (s.heap.tx p).sender ∧
      (s.heap.tx p).nonce ≤ (s.heap.tx c).nonce) ∨
    (∃ s1, flushToPending s = some s1 ∧ s1.heap.drp p = true) := by
  rw [nums_append, List.pairwise_append] at hinc
  rcases C21_never_early_partial hc hinc.1 hrun hf hp hgone with h | h | h | ⟨a, hs, b, sa, m, e1, e2, e3, e4⟩
  · exact .inl h
  · exact .inr (.inl h)
  · exact .inr (.inr h)
  · exfalso
    have : m ∈ nums ops := by rw [e2, nums_append, nums_append]; simp [nums]
    have := hinc.2.2 m this n (by simp [nums])
    omega

/-- The claim fails for a transaction that is offered again after it expired: with gap 2 it is accepted
anew after the flush of block 3 and removed by the flush of block 4, the first one it meets. -/
theorem C21_reinserted_false :
    (run (init 10 2) [.insert ⟨1, 1, 0, 5, 0⟩ true 0, .flush [] 1, .flush [] 2, .flush [] 3,
        .insert ⟨1, 1, 0, 5, 0⟩ true 0]).map (fun s => (find s 1).isSome) = some true ∧
    (run (init 10 2) [.insert ⟨1, 1, 0, 5, 0⟩ true 0, .flush [] 1, .flush [] 2, .flush [] 3]).map
        (fun s => (find s 1).isSome) = some false ∧
    (run (init 10 2) [.insert ⟨1, 1, 0, 5, 0⟩ true 0, .flush [] 1, .flush [] 2, .flush [] 3,
        .insert ⟨1, 1, 0, 5, 0⟩ true 0, .flush [] 4]).map (fun s => (find s 1).isSome) = some false := by
  decide +kernel

/-- Non-vacuity: a transaction inserted before block 1 with gap 2 survives blocks 1 and 2 and expires at 3. -/
example :
    (run (init 10 2) [.insert ⟨1, 1, 0, 5, 0⟩ true 0, .flush [] 1]).map (fun s => (find s 1).isSome) = some true ∧
    (run (init 10 2) [.insert ⟨1, 1, 0, 5, 0⟩ true 0, .flush [] 1, .flush [] 2]).map
      (fun s => (find s 1).isSome) = some true ∧
    (run (init 10 2) [.insert ⟨1, 1, 0, 5, 0⟩ true 0, .flush [] 1, .flush [] 2, .flush [] 3]).map
      (fun s => (find s 1).isSome) = some false ∧
    (nums [.insert ⟨1, 1, 0, 5, 0⟩ true 0, .flush [] 1, .flush [] 2, .flush [] 3]).Pairwise (· < ·) := by
  decide +kernel

end Axon.Pool
