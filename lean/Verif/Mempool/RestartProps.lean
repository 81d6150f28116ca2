import Verif.Mempool.Restart
import Verif.Mempool.PoolProps

/-!
# C59: the pool after a restart
-/

namespace Axon.Pool
open Axon.Assoc

/-- If the pool is large enough for the log, the recovered pool contains exactly the logged transactions that
are not committed. -/
theorem C59_content_partial {cap gap : Nat} (committed : Nat → Bool) {l : List PoolTx} (hl : l.length ≤ cap) :
    ∃ s, recover committed (init cap gap) l = some s ∧
      ∀ h, contains s h = true ↔ committed h = false ∧ ∃ t ∈ l, t.hash = h := by
  obtain ⟨s, h1, _, _, h4, h5⟩ := recover_spec committed l (init cap gap) rfl rfl (by simp [init]; exact hl)
    (by simp [init])
  refine ⟨s, h1, fun h => ?_⟩
  have hs : s.sys.contains h = false := by rw [h4]; rfl
  unfold contains
  rw [hs, Bool.or_false]
  have := h5 h
  simp only [init, List.not_mem_nil, false_and, exists_false, false_or] at this
  rw [← this]
  unfold find
  rw [List.find?_isSome]
  simp

/-- A log of two consecutive transactions in the wrong order: both are in the pool, only the later nonce can be
packaged, and a block made of it cannot be the next step of the account (its nonce is 5). -/
theorem C59_descending_false :
    ((recover (fun _ => false) (init 10 20) [⟨1, 1, 6, 5, 0⟩, ⟨2, 1, 5, 5, 0⟩]).bind fun s =>
      (package s 10 ⟨fun _ l => l, fun _ _ => .refl _⟩).map fun r => (contains r.1 1, contains r.1 2, r.2.hashes)) =
      some (true, true, [1]) := by
  decide +kernel

/-- A log with a hole in the nonces: the transaction above the hole is packaged as well. -/
theorem C59_hole_false :
    ((recover (fun _ => false) (init 10 20) [⟨1, 1, 5, 5, 0⟩, ⟨2, 1, 8, 5, 0⟩]).bind fun s =>
      (package s 10 ⟨fun _ l => l, fun _ _ => .refl _⟩).map fun r => r.2.hashes) = some [1, 2] ∧
    ((run (init 10 20) [.insert ⟨1, 1, 5, 5, 0⟩ true 0, .insert ⟨2, 1, 8, 5, 0⟩ true 3]).bind fun s =>
      (package s 10 ⟨fun _ l => l, fun _ _ => .refl _⟩).map fun r => r.2.hashes) = some [1] := by
  decide +kernel

/-- A system-script transaction of the log comes back as an ordinary one: it is no longer among the leading
system-script hashes of a proposal. -/
theorem C59_system_false :
    ((recover (fun _ => false) (init 10 20) [⟨1, 1, 5, 5, 9⟩]).bind fun s =>
      (package s 10 ⟨fun _ l => l, fun _ _ => .refl _⟩).map fun r => (r.2.hashes, r.2.sysCount)) = some ([1], 0) ∧
    ((run (init 10 20) [.insertSys ⟨1, 1, 5, 5, 9⟩]).bind fun s =>
      (package s 10 ⟨fun _ l => l, fun _ _ => .refl _⟩).map fun r => (r.2.hashes, r.2.sysCount)) = some ([1], 1) := by
  decide +kernel

/-- Non-vacuity: three logged transactions, one of them committed meanwhile. -/
example : ((recover (fun h => h = 2) (init 10 20) [⟨1, 1, 5, 5, 0⟩, ⟨2, 1, 6, 5, 0⟩, ⟨3, 2, 0, 5, 0⟩]).map fun s =>
    (contains s 1, contains s 2, contains s 3)) = some (true, false, true) := by decide +kernel

end Axon.Pool
