import Verif.Mempool.Fetch

/-!
# Recovery of the pool after a restart
-/

namespace Axon.Pool
open Axon.Assoc

/-- `MemPoolImpl::new`, `core/mempool/src/lib.rs:40-57`, with `initial_insert` (88-93) inlined: every
transaction of the log (`core/run/src/lib.rs:190-198`) that is not committed is inserted as an ordinary
transaction with nonce difference 0; errors are logged and ignored.  `committed` is `check_storage_exist`. -/
def recover (committed : Nat → Bool) : Pool → List PoolTx → Option Pool
  | s, [] => some s
  | s, t :: rest =>
    if committed t.hash then recover committed s rest
    else match insert s t true 0 with
      | none => none
      | some (s', _) => recover committed s' rest

/-- Recovery of transactions that all fit: nothing is refused, and the pool holds exactly the recovered
transactions, in order, waiting to be sorted into the queues. -/
theorem recover_spec (committed : Nat → Bool) : ∀ (l : List PoolTx) (s : Pool),
    s.stock = s.txMap.length → s.co.length = s.txMap.length → s.txMap.length + l.length ≤ s.cap →
    (∀ p ∈ s.txMap, p < s.next) →
    ∃ s', recover committed s l = some s' ∧ s'.stock = s'.txMap.length ∧ s'.co.length = s'.txMap.length ∧
      s'.sys = s.sys ∧
      (∀ h, (∃ p ∈ s'.txMap, (s'.heap.tx p).hash = h) ↔
        (∃ p ∈ s.txMap, (s.heap.tx p).hash = h) ∨ (committed h = false ∧ ∃ t ∈ l, t.hash = h)) := by
  intro l
  induction l with
  | nil =>
    intro s h1 h2 _ _
    exact ⟨s, rfl, h1, h2, rfl, fun h => by simp⟩
  | cons t l ih =>
    intro s h1 h2 h3 h4
    unfold recover
    rw [List.length_cons] at h3
    by_cases hc : committed t.hash = true
    · rw [if_pos hc]
      obtain ⟨s', a, b, c, d, e⟩ := ih s h1 h2 (by omega) h4
      refine ⟨s', a, b, c, d, fun h => ?_⟩
      rw [e h]
      constructor
      · rintro (x | ⟨x, y, z, w⟩)
        · exact .inl x
        · exact .inr ⟨x, y, by simp [z], w⟩
      · rintro (x | ⟨x, y, z, w⟩)
        · exact .inl x
        · rcases List.mem_cons.1 z with rfl | z
          · rw [w, x] at hc; cases hc
          · exact .inr ⟨x, y, z, w⟩
    · rw [if_neg hc]
      have hins : insert s t true 0 = some (insertTail { s with stock := s.stock + 1 } t 0, .ok) := by
        unfold insert
        rw [if_neg (by omega)]
        simp
      rw [hins]
      simp only
      cases hf : find s t.hash with
      | some p =>
        have e1 : insertTail { s with stock := s.stock + 1 } t 0 = s := by
          unfold insertTail
          have : find { s with stock := s.stock + 1 } t.hash = find s t.hash := rfl
          rw [this, hf]
          simp
        rw [e1]
        obtain ⟨s', a, b, c, d, e⟩ := ih s h1 h2 (by omega) h4
        refine ⟨s', a, b, c, d, fun h => ?_⟩
        rw [e h]
        constructor
        · rintro (x | ⟨x, y, z, w⟩)
          · exact .inl x
          · exact .inr ⟨x, y, by simp [z], w⟩
        · rintro (x | ⟨x, y, z, w⟩)
          · exact .inl x
          · rcases List.mem_cons.1 z with rfl | z
            · have hm := List.mem_of_find?_eq_some hf
              have hp := List.find?_some hf
              refine .inl ⟨p, hm, ?_⟩
              simp at hp
              rw [hp, w]
            · exact .inr ⟨x, y, z, w⟩
      | none =>
        have e1 : insertTail { s with stock := s.stock + 1 } t 0 =
            { s with stock := s.stock + 1, next := s.next + 1, heap := s.heap.alloc s.next t,
                     txMap := s.txMap ++ [s.next], co := s.co ++ [(s.next, 0)] } := by
          unfold insertTail
          have : find { s with stock := s.stock + 1 } t.hash = find s t.hash := rfl
          rw [this, hf]
          simp only
          rw [if_pos (by omega)]
        rw [e1]
        obtain ⟨s', a, b, c, d, e⟩ := ih
            { s with stock := s.stock + 1, next := s.next + 1, heap := s.heap.alloc s.next t,
                     txMap := s.txMap ++ [s.next], co := s.co ++ [(s.next, 0)] }
            (by simp [h1]) (by simp [h2]) (by simp; omega) (by
          intro p hp
          simp only [List.mem_append, List.mem_singleton] at hp
          rcases hp with hp | hp
          · exact Nat.lt_succ_of_lt (h4 p hp)
          · simp only; omega)
        refine ⟨s', a, b, c, d, fun h => ?_⟩
        rw [e h]
        have htx : ∀ p ∈ s.txMap, (s.heap.alloc s.next t).tx p = s.heap.tx p := by
          intro p hp
          have := h4 p hp
          simp only [Heap.alloc]
          exact if_neg (by omega)
        have hnew : (s.heap.alloc s.next t).tx s.next = t := by
          simp [Heap.alloc]
        constructor
        · rintro (⟨p, hp, hh⟩ | ⟨x, y, z, w⟩)
          · simp only [List.mem_append, List.mem_singleton] at hp
            rcases hp with hp | rfl
            · exact .inl ⟨p, hp, by rw [← htx p hp]; exact hh⟩
            · simp only [hnew] at hh
              exact .inr ⟨by rw [← hh]; simpa using hc, t, by simp, hh⟩
          · exact .inr ⟨x, y, by simp [z], w⟩
        · rintro (⟨p, hp, hh⟩ | ⟨x, y, z, w⟩)
          · exact .inl ⟨p, by simp [hp], by simp only; rw [htx p hp]; exact hh⟩
          · rcases List.mem_cons.1 z with rfl | z
            · exact .inl ⟨s.next, by simp, by simp only; rw [hnew]; exact w⟩
            · exact .inr ⟨x, y, z, w⟩

end Axon.Pool
