import Verif.Metadata.Segment

/-!
# C37: epoch segments partition the chain

Specification: after the ends `e₀ < e₁ < …` have been accepted, epoch `i` consists of the block
numbers above the previous end (above 0 for epoch 0) and not above `eᵢ`.
-/

namespace Axon.Meta

/-- Appending ends one after the other; a refused end leaves the segment as it was.  A panic cannot
occur (`C37_segment`) and is mapped to the unchanged segment. -/
def appendAll (s : Segment) (ends : List Nat) : Segment :=
  ends.foldl (fun s e => match appendEndpoint s e with | .ok s' => s' | _ => s) s

/-- The ends that are accepted, given the last one: each must be larger than the one before. -/
def acceptedEnds : Nat → List Nat → List Nat
  | _, [] => []
  | l, e :: es => if l < e then e :: acceptedEnds e es else acceptedEnds l es

/-- Block `n` belongs to epoch `i` of the ends `es`. -/
def InEpoch (es : List Nat) (i n : Nat) : Prop :=
  ∃ e, es[i]? = some e ∧ n ≤ e ∧ (if i = 0 then 0 < n else ∃ p, es[i - 1]? = some p ∧ p < n)

theorem appendAll_spec (ends : List Nat) : ∀ (s : Segment) (l : Nat), SegOk s → s.getLast? = some l →
    appendAll s ends = s ++ acceptedEnds l ends ∧ SegOk (appendAll s ends) := by
  induction ends with
  | nil => intro s l h _; simp [appendAll, acceptedEnds, h]
  | cons e es ih =>
    intro s l h hl
    have hstep : appendAll s (e :: es) =
        appendAll (match appendEndpoint s e with | .ok s' => s' | _ => s) es := rfl
    rw [hstep]
    unfold acceptedEnds
    by_cases he : l < e
    · have ha : appendEndpoint s e = .ok (s ++ [e]) := by
        simp only [appendEndpoint, hl]
        rw [if_neg (by omega)]
      have h2 := (segOk_append h ha).1
      simp only [ha, if_pos he]
      have := ih (s ++ [e]) e h2 (by simp)
      simpa using this
    · have ha : appendEndpoint s e = .err := by
        simp only [appendEndpoint, hl]
        rw [if_pos (by omega)]
      simp only [ha, if_neg he]
      exact ih s l h hl

/-- C37: whatever ends are offered, exactly the increasing ones are kept, in order, and none of the
attempts panics. -/
theorem C37_segment (ends : List Nat) :
    appendAll segNew ends = 0 :: acceptedEnds 0 ends ∧
      (appendAll segNew ends).Pairwise (· < ·) ∧
      ∀ e, appendEndpoint (appendAll segNew ends) e ≠ .panic := by
  have h := appendAll_spec ends segNew 0 segOk_new rfl
  refine ⟨by simpa [segNew] using h.1, h.2.incr, ?_⟩
  intro e
  unfold appendEndpoint
  rw [h.1]
  cases hl : (segNew ++ acceptedEnds 0 ends).getLast? with
  | none => simp [segNew] at hl
  | some x => simp only; split <;> simp

/-- C37: an end is refused iff it is not larger than the last one. -/
theorem C37_refused (ends : List Nat) (e : Nat) :
    appendEndpoint (appendAll segNew ends) e = .err ↔
      e ≤ ((acceptedEnds 0 ends).getLast?).getD 0 := by
  rw [(C37_segment ends).1]
  unfold appendEndpoint
  have : (0 :: acceptedEnds 0 ends).getLast? = some (((acceptedEnds 0 ends).getLast?).getD 0) := by
    cases hx : acceptedEnds 0 ends with
    | nil => rfl
    | cons a l => rw [List.getLast?_cons_cons]; simp [List.getLast?_cons]
  rw [this]
  simp only
  split <;> simp <;> omega

theorem inEpoch_iff (es : List Nat) (i n : Nat) :
    InEpoch es i n ↔ ∃ a b, (0 :: es)[i]? = some a ∧ (0 :: es)[i + 1]? = some b ∧ a < n ∧ n ≤ b := by
  unfold InEpoch
  cases i with
  | zero =>
    simp only [List.getElem?_cons_zero, Option.some.injEq, List.getElem?_cons_succ, if_true]
    constructor
    · rintro ⟨e, h1, h2, h3⟩; exact ⟨0, e, rfl, h1, h3, h2⟩
    · rintro ⟨a, e, rfl, h1, h3, h2⟩; exact ⟨e, h1, h2, h3⟩
  | succ i =>
    simp only [List.getElem?_cons_succ, Nat.add_sub_cancel, Nat.succ_ne_zero, if_false]
    constructor
    · rintro ⟨e, h1, h2, p, h3, h4⟩; exact ⟨p, e, h3, h1, h4, h2⟩
    · rintro ⟨p, e, h3, h1, h4, h2⟩; exact ⟨e, h1, h2, p, h3, h4⟩

/-- C37: the reported epoch is the one containing the block. -/
theorem C37_epoch (ends : List Nat) (n i : Nat) :
    epochOf (appendAll segNew ends) n = some i ↔ InEpoch (acceptedEnds 0 ends) i n := by
  have hs := C37_segment ends
  unfold epochOf
  rw [epochFrom_spec _ 0 n i hs.2.1, hs.1, inEpoch_iff]
  constructor
  · rintro ⟨k, a, b, rfl, h⟩; rw [Nat.zero_add]; exact ⟨a, b, h⟩
  · rintro ⟨a, b, h⟩; exact ⟨i, a, b, by omega, h⟩

/-- C37: every block after genesis up to the last accepted end lies in exactly one epoch; all others
are reported as future. -/
theorem C37_partition (ends : List Nat) (n : Nat) :
    (0 < n ∧ n ≤ ((acceptedEnds 0 ends).getLast?).getD 0 →
      ∃ i, InEpoch (acceptedEnds 0 ends) i n ∧ ∀ j, InEpoch (acceptedEnds 0 ends) j n → j = i) ∧
    (n = 0 ∨ ((acceptedEnds 0 ends).getLast?).getD 0 < n →
      epochOf (appendAll segNew ends) n = none ∧ ∀ j, ¬ InEpoch (acceptedEnds 0 ends) j n) := by
  have hs := C37_segment ends
  have hlast : (0 :: acceptedEnds 0 ends).getLast? = some (((acceptedEnds 0 ends).getLast?).getD 0) := by
    cases hx : acceptedEnds 0 ends with
    | nil => rfl
    | cons a l => rw [List.getLast?_cons_cons]; simp [List.getLast?_cons]
  constructor
  · rintro ⟨h0, hn⟩
    obtain ⟨k, a, b, h1, h2, h3, h4⟩ := bracket _ n 0 _ rfl hlast h0 hn
    have hk : InEpoch (acceptedEnds 0 ends) k n := (inEpoch_iff _ _ _).2 ⟨a, b, h1, h2, h3, h4⟩
    refine ⟨k, hk, ?_⟩
    intro j hj
    have e1 := (C37_epoch ends n k).2 hk
    have e2 := (C37_epoch ends n j).2 hj
    rw [e1] at e2
    exact (Option.some.inj e2).symm
  · intro h
    have hno : ∀ j, ¬ InEpoch (acceptedEnds 0 ends) j n := by
      intro j hj
      obtain ⟨a, b, h1, h2, h3, h4⟩ := (inEpoch_iff _ _ _).1 hj
      rcases h with rfl | h
      · omega
      · -- every element is at most the last
        have hmem := List.mem_of_getElem? h2
        obtain ⟨t, ht⟩ := List.getLast?_eq_some_iff.1 hlast
        have hp := hs.2.1
        rw [hs.1, ht, List.pairwise_append] at hp
        rw [ht] at hmem
        rcases List.mem_append.1 hmem with hm | hm
        · have := hp.2.2 b hm _ (List.mem_singleton.2 rfl); omega
        · rw [List.mem_singleton] at hm; omega
    refine ⟨?_, hno⟩
    cases he : epochOf (appendAll segNew ends) n with
    | none => rfl
    | some i => exact absurd ((C37_epoch ends n i).1 he) (hno i)

/-- C37: epochs are ordered like their blocks. -/
theorem C37_ordered (ends : List Nat) (n m i j : Nat) (hn : InEpoch (acceptedEnds 0 ends) i n)
    (hm : InEpoch (acceptedEnds 0 ends) j m) (h : n ≤ m) : i ≤ j := by
  have hs := C37_segment ends
  obtain ⟨a, b, h1, h2, h3, h4⟩ := (inEpoch_iff _ _ _).1 hn
  obtain ⟨c, d, g1, g2, g3, g4⟩ := (inEpoch_iff _ _ _).1 hm
  apply Classical.byContradiction
  intro hlt
  have hle : j + 1 ≤ i := by omega
  have hp := hs.2.1
  rw [hs.1, List.pairwise_iff_getElem] at hp
  obtain ⟨b1, e1⟩ := List.getElem?_eq_some_iff.1 h1
  obtain ⟨b2, e2⟩ := List.getElem?_eq_some_iff.1 g2
  rcases Nat.lt_or_ge (j + 1) i with hji | hji
  · have := hp (j + 1) i b2 b1 hji
    rw [e1, e2] at this
    omega
  · have : j + 1 = i := by omega
    subst this
    rw [h1] at g2
    cases g2
    omega

/-- C37: block `n` is the last of its epoch iff it is one of the ends (or genesis). -/
theorem C37_last_block (ends : List Nat) (n : Nat) :
    isLastInEpoch (appendAll segNew ends) n = true ↔ n = 0 ∨ n ∈ acceptedEnds 0 ends := by
  rw [(C37_segment ends).1]
  simp [isLastInEpoch]

/-- C37: the segment survives serialisation if the ends are `u64` values. -/
theorem C37_codec (ends : List Nat) (h : ∀ e ∈ ends, e < 2 ^ 64) :
    fromRaw (asBytes (appendAll segNew ends)) = some (appendAll segNew ends) := by
  have hs := C37_segment ends
  have hsub : ∀ (es : List Nat) (l : Nat), (∀ e ∈ es, e < 2 ^ 64) →
      ∀ x ∈ acceptedEnds l es, x < 2 ^ 64 := by
    intro es
    induction es with
    | nil => simp [acceptedEnds]
    | cons e es ih =>
      intro l he x hx
      unfold acceptedEnds at hx
      split at hx
      · rcases List.mem_cons.1 hx with rfl | hx
        · exact he x (by simp)
        · exact ih e (fun y hy => he y (by simp [hy])) x hx
      · exact ih l (fun y hy => he y (by simp [hy])) x hx
  have hb : ∀ x ∈ appendAll segNew ends, x < 2 ^ 64 := by
    rw [hs.1]
    intro x hx
    rcases List.mem_cons.1 hx with rfl | hx
    · decide
    · exact hsub ends 0 h x hx
  have hlen := asBytes_length (appendAll segNew ends)
  have hc := chunk8_asBytes _ hb
  unfold fromRaw
  rw [if_neg, if_neg (by omega)]
  · rw [show (asBytes (appendAll segNew ends)).length / 8 = (appendAll segNew ends).length by omega, hc]
  · rw [hs.1]
    have : asBytes (0 :: acceptedEnds 0 ends) = 0 :: ([0, 0, 0, 0, 0, 0, 0] ++ asBytes (acceptedEnds 0 ends)) := by
      simp only [asBytes, List.flatMap_cons]
      rfl
    rw [this]
    simp

example : appendAll segNew [10, 5, 25] = [0, 10, 25] := rfl
example : epochOf (appendAll segNew [10, 5, 25]) 11 = some 1 := rfl
example : InEpoch (acceptedEnds 0 [10, 5, 25]) 1 11 := by
  rw [← C37_epoch]; rfl
example : epochOf (appendAll segNew [10, 5, 25]) 26 = none :=
  ((C37_partition [10, 5, 25] 26).2 (Or.inr (by decide))).1
example : fromRaw (asBytes (appendAll segNew [10, 5, 25])) = some [0, 10, 25] :=
  C37_codec [10, 5, 25] (by decide)

end Axon.Meta
