import Verif.Util.Bytes
import Verif.Util.Outcome

/-!
# Epoch segments

Model of `core/executor/src/system_contract/metadata/segment.rs`.  A segment is the list of epoch ends, starting
with 0 for the genesis block; numbers are `u64` kept as `Nat`.
-/

namespace Axon.Meta

/-- `EpochSegment`, `segment.rs:5-8` -/
abbrev Segment := List Nat

/-- `new`, `segment.rs:12-15` -/
def segNew : Segment := [0]

/-- `append_endpoint`, `segment.rs:18-25`; `last().unwrap()` panics for an empty segment. -/
def appendEndpoint (s : Segment) (e : Nat) : Outcome Segment :=
  match s.getLast? with
  | none => .panic
  | some l => if e ≤ l then .err else .ok (s ++ [e])

/-- The loop of `get_epoch_number`, `segment.rs:29-33`: pairs of neighbours counted from `i`. -/
def epochFrom : Nat → Segment → Nat → Option Nat
  | i, a :: b :: l, n => if a < n ∧ n ≤ b then some i else epochFrom (i + 1) (b :: l) n
  | _, _, _ => none

/-- `get_epoch_number`, `segment.rs:28-36`; `none` is `FutureEpoch`. -/
def epochOf (s : Segment) (n : Nat) : Option Nat := epochFrom 0 s n

/-- `get_latest_epoch_number`, `segment.rs:38-40` -/
def latestEpoch (s : Segment) : Nat := s.length - 2

/-- `is_empty`, `segment.rs:42-44` -/
def isEmpty (s : Segment) : Bool := s.length = 1

/-- `last_block_number`, `segment.rs:46-48`; panics for an empty segment. -/
def lastBlock (s : Segment) : Outcome Nat := .orPanic s.getLast?

/-- `is_last_block_in_epoch`, `segment.rs:50-52` -/
def isLastInEpoch (s : Segment) (n : Nat) : Bool := s.any (fun e => n = e)

/-- `as_bytes`, `segment.rs:54-56` -/
def asBytes (s : Segment) : Bytes := s.flatMap (beFixed 8)

/-- `raw.chunks(8)` turned into numbers, `segment.rs:74-81` -/
def chunk8 : Nat → Bytes → Segment
  | 0, _ => []
  | k + 1, b => beNat (b.take 8) :: chunk8 k (b.drop 8)

/-- `from_raw`, `segment.rs:58-84`; only the first *byte* is compared with zero. -/
def fromRaw (raw : Bytes) : Option Segment :=
  if raw.isEmpty ∨ raw.head? ≠ some 0 then none
  else if raw.length % 8 ≠ 0 then none
  else some (chunk8 (raw.length / 8) raw)

/-! ## Lemmas -/

/-- What appending keeps: starts with 0, strictly increasing. -/
structure SegOk (s : Segment) : Prop where
  first : s.head? = some 0
  incr : s.Pairwise (· < ·)

theorem segOk_new : SegOk segNew := ⟨rfl, by simp [segNew]⟩

theorem segOk_append {s s' : Segment} {e : Nat} (h : SegOk s) (ha : appendEndpoint s e = .ok s') :
    SegOk s' ∧ s' = s ++ [e] := by
  unfold appendEndpoint at ha
  cases hl : s.getLast? with
  | none => rw [hl] at ha; cases ha
  | some l =>
    rw [hl] at ha
    simp only at ha
    split at ha
    · cases ha
    · rename_i he
      simp only [Outcome.ok.injEq] at ha
      subst ha
      refine ⟨⟨?_, ?_⟩, rfl⟩
      · cases s with
        | nil => simp at hl
        | cons a s => have := h.first; simpa using this
      · rw [List.pairwise_append]
        refine ⟨h.incr, by simp, ?_⟩
        intro a ha b hb
        have hb' : b = e := by simpa using hb
        subst hb'
        -- every element is at most the last
        obtain ⟨t, ht⟩ := List.getLast?_eq_some_iff.1 hl
        have hp := h.incr
        rw [ht, List.pairwise_append] at hp
        rw [ht] at ha
        rcases List.mem_append.1 ha with ha | ha
        · have := hp.2.2 a ha l (by simp); omega
        · have : a = l := by simpa using ha
          omega

theorem epochFrom_spec (s : Segment) : ∀ (i n e : Nat), s.Pairwise (· < ·) →
    (epochFrom i s n = some e ↔
      ∃ k a b, e = i + k ∧ s[k]? = some a ∧ s[k + 1]? = some b ∧ a < n ∧ n ≤ b) := by
  induction s with
  | nil => intro i n e _; simp [epochFrom]
  | cons a s ih =>
    intro i n e hp
    cases s with
    | nil =>
      simp only [epochFrom, reduceCtorEq, false_iff]
      rintro ⟨k, x, y, _, _, h2, _⟩
      simp at h2
    | cons b s =>
      have hp' := (List.pairwise_cons.1 hp).2
      unfold epochFrom
      by_cases h : a < n ∧ n ≤ b
      · rw [if_pos h]
        simp only [Option.some.injEq]
        constructor
        · rintro rfl
          exact ⟨0, a, b, rfl, rfl, rfl, h.1, h.2⟩
        · rintro ⟨k, x, y, he, h1, h2, h3, h4⟩
          cases k with
          | zero => omega
          | succ k =>
            exfalso
            -- then x is at least b
            simp only [List.getElem?_cons_succ] at h1 h2
            have hx : b ≤ x := by
              cases k with
              | zero => simp at h1; omega
              | succ k =>
                simp only [List.getElem?_cons_succ] at h1
                have := (List.pairwise_cons.1 hp').1 x (List.mem_of_getElem? h1)
                omega
            omega
      · rw [if_neg h, ih (i + 1) n e hp']
        constructor
        · rintro ⟨k, x, y, he, h1, h2, h3, h4⟩
          exact ⟨k + 1, x, y, by omega, by simpa using h1, by simpa using h2, h3, h4⟩
        · rintro ⟨k, x, y, he, h1, h2, h3, h4⟩
          cases k with
          | zero =>
            simp at h1 h2
            subst h1 h2
            exact absurd ⟨h3, h4⟩ h
          | succ k =>
            exact ⟨k, x, y, by omega, by simpa using h1, by simpa using h2, h3, h4⟩

/-- Neighbours bracketing a number exist between the first and the last element. -/
theorem bracket (s : Segment) (n a l : Nat) (hf : s.head? = some a) (hl : s.getLast? = some l)
    (ha : a < n) (hn : n ≤ l) : ∃ k x y, s[k]? = some x ∧ s[k + 1]? = some y ∧ x < n ∧ n ≤ y := by
  induction s generalizing a with
  | nil => simp at hf
  | cons b s ih =>
    simp at hf
    subst hf
    cases s with
    | nil => simp at hl; omega
    | cons c s =>
      by_cases hc : n ≤ c
      · exact ⟨0, b, c, rfl, rfl, ha, hc⟩
      · have hl' : (c :: s).getLast? = some l := by simpa using hl
        obtain ⟨k, x, y, h1, h2, h3, h4⟩ := ih c rfl hl' (by omega)
        exact ⟨k + 1, x, y, by simpa using h1, by simpa using h2, h3, h4⟩

theorem asBytes_length (s : Segment) : (asBytes s).length = 8 * s.length := by
  unfold asBytes
  induction s with
  | nil => rfl
  | cons a s ih => simp only [List.flatMap_cons, List.length_append, beFixed_length, ih, List.length_cons]; omega

theorem chunk8_asBytes (s : Segment) (h : ∀ x ∈ s, x < 2 ^ 64) : chunk8 s.length (asBytes s) = s := by
  induction s with
  | nil => rfl
  | cons a s ih =>
    have e : asBytes (a :: s) = beFixed 8 a ++ asBytes s := by simp [asBytes]
    rw [e, List.length_cons, chunk8]
    have hlen : (beFixed 8 a).length = 8 := beFixed_length 8 a
    rw [List.take_append_of_le_length (by omega), List.take_of_length_le (by omega),
      List.drop_append_of_le_length (by omega), List.drop_of_length_le (by omega), List.nil_append,
      ih (fun x hx => h x (List.mem_cons_of_mem _ hx)),
      beNat_beFixed_of_lt (by have := h a (List.mem_cons_self ..); simpa using this)]

end Axon.Meta
