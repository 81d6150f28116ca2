import Verif.Network.Gossip

/-!
# C92 — a gossiped message goes to two of every three other sessions, and never back
-/

namespace Axon.Gossip

/-! ## Specification -/

/-- All but every third, counted so that position `i` is left out when `i + k` is 2 modulo 3. -/
def twoOfThree (k : Nat) (l : List Nat) : List Nat :=
  (l.zipIdx.filter fun x => (x.2 + k) % 3 ≠ 2).map (·.1)

/-- The sessions other than the origin. -/
def others (origin : Option Nat) (l : List Nat) : List Nat := l.filter fun s => origin ≠ some s

theorem zipIdx_shift (l : List Nat) (k j n : Nat) (h : (j + k) % 3 = (n % 3)) :
    ((l.zipIdx j).filter fun x => (x.2 + k) % 3 ≠ 2).map (·.1) =
      ((l.zipIdx 0).filter fun x => (x.2 + n) % 3 ≠ 2).map (·.1) := by
  induction l generalizing k j n with
  | nil => rfl
  | cons a l ih =>
    have h1 := ih k (j + 1) (n + 1) (by omega)
    have h2 := ih n (0 + 1) (n + 1) (by omega)
    simp only [List.zipIdx_cons, List.filter_cons]
    by_cases hc : (j + k) % 3 = 2
    · rw [if_neg (by simpa using hc), if_neg (by simp; omega)]
      rw [h1, h2]
    · rw [if_pos (by simpa using hc), if_pos (by simp; omega)]
      rw [List.map_cons, List.map_cons, h1, h2]

theorem twoOfThree_cons (k a : Nat) (l : List Nat) (hk : k < 3) :
    twoOfThree k (a :: l) = if k < 2 then a :: twoOfThree (k + 1) l else twoOfThree 0 l := by
  unfold twoOfThree
  simp only [List.zipIdx_cons, List.filter_cons]
  by_cases h : k < 2
  · rw [if_pos (by simp; omega), if_pos h, List.map_cons, zipIdx_shift l k 1 (k + 1) (by omega)]
  · rw [if_neg (by simp; omega), if_neg h, zipIdx_shift l k 1 0 (by omega)]

/-- The sessions that are sent the message: the others, without every third. -/
theorem C92_targets (origin : Option Nat) (k : Nat) (hk : k < 3) (l : List Nat) :
    targets origin k l = twoOfThree k (others origin l) := by
  induction l generalizing k with
  | nil => rfl
  | cons s ss ih =>
    unfold targets others
    rw [List.filter_cons]
    by_cases h : origin = some s
    · rw [if_pos h, if_neg (by simpa using h)]
      exact ih k hk
    · rw [if_neg h, if_pos (by simpa using h), twoOfThree_cons _ _ _ hk]
      unfold next
      by_cases h2 : k < 2
      · rw [if_pos h2, if_pos h2]
        dsimp only
        rw [ih (k + 1) (by omega)]; rfl
      · rw [if_neg h2, if_neg h2]
        dsimp only
        rw [ih 0 (by omega)]; rfl

/-- It never goes back to where it came from. -/
theorem C92_origin (o k : Nat) (hk : k < 3) (l : List Nat) : o ∉ targets (some o) k l := by
  rw [C92_targets _ _ hk]
  unfold twoOfThree
  intro h
  obtain ⟨x, hx, rfl⟩ := List.mem_map.1 h
  have hm := (List.mem_filter.1 hx).1
  have : x.1 ∈ others (some x.1) l := by
    have h3 := (List.mem_zipIdx hm).2.2
    have h4 : ∀ a, a = x.1 → a ∈ others (some x.1) l → x.1 ∈ others (some x.1) l := fun a ha h => ha ▸ h
    exact h4 _ h3.symm (List.getElem_mem _)
  simpa using (List.mem_filter.1 this).2

/-- Only open sessions, each at most once. -/
theorem C92_once (origin : Option Nat) (k : Nat) (l : List Nat) : (targets origin k l).Sublist l := by
  induction l generalizing k with
  | nil => exact List.Sublist.slnil
  | cons s ss ih =>
    unfold targets
    split
    · exact (ih _).trans (List.sublist_cons_self _ _)
    · unfold next
      by_cases h2 : k < 2
      · rw [if_pos h2]; exact (ih _).cons_cons _
      · rw [if_neg h2]; exact (ih _).trans (List.sublist_cons_self _ _)

/-- How many: of `n` other sessions, `(n + k) / 3` are left out. -/
theorem C92_count (origin : Option Nat) (k : Nat) (hk : k < 3) (l : List Nat) :
    (targets origin k l).length = (others origin l).length - ((others origin l).length + k) / 3 := by
  rw [C92_targets _ _ hk]
  generalize others origin l = m
  induction m generalizing k with
  | nil => simp [twoOfThree]
  | cons a m ih =>
    rw [twoOfThree_cons _ _ _ hk, List.length_cons]
    by_cases h : k < 2
    · rw [if_pos h, List.length_cons, ih (k + 1) (by omega)]; omega
    · rw [if_neg h, ih 0 (by omega)]; omega

/-- With two other sessions or more, somebody is sent the message.  (The full claim, with one other session
or more, is false: next theorem.) -/
theorem C92_somebody_partial (origin : Option Nat) (k : Nat) (hk : k < 3) (l : List Nat)
    (h : 2 ≤ (others origin l).length) : targets origin k l ≠ [] := by
  intro h0
  have := C92_count origin k hk l
  rw [h0, List.length_nil] at this
  omega

/-- With a single other session, one start in three sends the message to nobody. -/
theorem C92_nobody_false (s : Nat) : targets none 2 [s] = [] ∧ others none [s] = [s] := by
  constructor <;> simp [targets, next, others]

/-- Over the three starts every other session is sent the message twice. -/
theorem C92_fair (origin : Option Nat) (l : List Nat) (hn : l.Nodup) (s : Nat) (hs : s ∈ others origin l) :
    ((List.range 3).filter fun k => s ∈ targets origin k l).length = 2 := by
  have hno : (others origin l).Nodup := hn.filter _
  have h : ∀ k, k < 3 → (s ∈ targets origin k l ↔ ((others origin l).idxOf s + k) % 3 ≠ 2) := by
    intro k hk
    rw [C92_targets _ _ hk]
    generalize others origin l = m at hs hno
    unfold twoOfThree
    simp only [List.mem_map, List.mem_filter]
    have hi : m.idxOf s < m.length := List.idxOf_lt_length_of_mem hs
    constructor
    · rintro ⟨⟨a, i⟩, ⟨hm, hc⟩, rfl⟩
      obtain ⟨-, h2, h3⟩ := List.mem_zipIdx hm
      simp at h2 h3
      have : m.idxOf a = i := by
        have := (List.getElem_inj (xs := m) (h₀ := hi) (h₁ := h2) hno).1
          (by rw [List.getElem_idxOf]; exact h3)
        exact this
      dsimp only at hc ⊢
      rw [this]; simpa using hc
    · intro hc
      refine ⟨(s, m.idxOf s), ⟨?_, by simpa using hc⟩, rfl⟩
      rw [List.mk_mem_zipIdx_iff_getElem?]
      rw [List.getElem?_eq_getElem hi, List.getElem_idxOf]
  have e : (List.range 3) = [0, 1, 2] := rfl
  rw [e]
  have h0 := h 0 (by omega)
  have h1 := h 1 (by omega)
  have h2 := h 2 (by omega)
  generalize (others origin l).idxOf s = i at h0 h1 h2
  simp only [List.filter_cons, List.filter_nil, decide_eq_true_eq]
  have hm : i % 3 = 0 ∨ i % 3 = 1 ∨ i % 3 = 2 := by omega
  rcases hm with hm | hm | hm
  · rw [if_pos (h0.2 (by omega)), if_pos (h1.2 (by omega)), if_neg (fun hh => h2.1 hh (by omega))]; rfl
  · rw [if_pos (h0.2 (by omega)), if_neg (fun hh => h1.1 hh (by omega)), if_pos (h2.2 (by omega))]; rfl
  · rw [if_neg (fun hh => h0.1 hh (by omega)), if_pos (h1.2 (by omega)), if_pos (h2.2 (by omega))]; rfl

/-! ## Concrete cases -/

example : targets (some 4) 1 [3, 4, 5, 6, 7] = [3, 6, 7] := by decide
example : others (some 4) [3, 4, 5, 6, 7] = [3, 5, 6, 7] := by decide

end Axon.Gossip
