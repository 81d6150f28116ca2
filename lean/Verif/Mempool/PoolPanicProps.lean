import Verif.Mempool.PoolPanic

/-!
# C55: the pool survives every history
-/

namespace Axon.Pool
open Axon.Assoc

/-- Every history of operations in which each ordinary transaction has a nonce below `2^64 - 1` and was
authorised against an account nonce not above its own runs to its end without a panic. -/
theorem C55_no_panic_partial {cap gap : Nat} (hc : 0 < cap) (ops : List Op)
    (hops : ∀ t c d, Op.insert t c d ∈ ops → d ≤ t.nonce ∧ t.nonce < 2 ^ 64 - 1) :
    ∃ s, run (init cap gap) ops = some s := by
  have key : ∀ (ops : List Op) (s : Pool), Good s → Room s →
      (∀ t c d, Op.insert t c d ∈ ops → d ≤ t.nonce ∧ t.nonce < 2 ^ 64 - 1) → ∃ s', run s ops = some s' := by
    intro ops
    induction ops with
    | nil => intro s _ _ _; exact ⟨s, rfl⟩
    | cons op ops ih =>
      intro s g ro h
      obtain ⟨s1, h1, r1⟩ := step_total (op := op) g ro (fun t c d e => by
        have := h t c d (by rw [e]; simp)
        refine ⟨this.1, ?_⟩
        unfold u64Bound; omega)
      simp only [Pool.run, h1]
      exact ih s1 (g.step h1) r1 (fun t c d hm => h t c d (List.mem_cons_of_mem _ hm))
  exact key ops _ (Good.init hc gap) ⟨by simp [init], by simp [init]⟩ hops

/-- A transaction with the largest nonce enters the pool of an account with nonce 0 like any other; when a
block commits it, every node that holds it panics. -/
theorem C55_commit_max_nonce_false :
    (run (init 10 20) [.insert ⟨1, 1, 2 ^ 64 - 1, 5, 0⟩ true (2 ^ 64 - 1), .refresh]).isSome = true ∧
    (run (init 10 20) [.insert ⟨1, 1, 2 ^ 64 - 1, 5, 0⟩ true (2 ^ 64 - 1), .refresh, .flush [1] 1]).isSome = false := by
  decide +kernel

/-- On restart the transactions of the write-ahead log are inserted with difference 0
(`initial_insert`, `core/mempool/src/lib.rs:88-93`); the same transaction then panics as soon as it is moved to its queue. -/
theorem C55_restart_max_nonce_false :
    (run (init 10 20) [.insert ⟨1, 1, 2 ^ 64 - 1, 5, 0⟩ true 0, .refresh]).isSome = false := by
  decide +kernel

/-- Non-vacuity: a history with replacement, commit and expiry. -/
example : (∀ t c d, Op.insert t c d ∈ ([.insert ⟨1, 1, 7, 5, 0⟩ true 2, .insert ⟨2, 1, 2 ^ 64 - 2, 8, 0⟩ true 5, .refresh,
    .flush [1, 2] 4, .insert ⟨3, 1, 7, 8, 0⟩ false 7, .flush [] 30] : List Op) → d ≤ t.nonce ∧ t.nonce < 2 ^ 64 - 1) := by
  intro t c d h
  simp at h
  rcases h with ⟨rfl, _, rfl⟩ | ⟨rfl, _, rfl⟩ | ⟨rfl, _, rfl⟩ <;> decide

end Axon.Pool
