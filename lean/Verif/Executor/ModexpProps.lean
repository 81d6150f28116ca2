import Verif.Executor.Modexp

/-!
# Property C43: MODEXP follows EIP-198 and EIP-2565

The specification reads the input as an infinite byte string that is zero behind its end.
-/

namespace Axon.Modexp

/-! ## Specification -/

/-- The number in `size` bytes from position `off` on of the input, continued with zeros. -/
def numAt (input : Bytes) (off : Nat) : Nat → Nat
  | 0 => 0
  | size + 1 => numAt input off size * 256 + ((input[off + size]?).getD 0).toNat

/-- Length of the binary representation. -/
def bitLength (n : Nat) : Nat := if h : n = 0 then 0 else bitLength (n / 2) + 1
termination_by n
decreasing_by omega

/-- The three lengths and the three numbers of EIP-198. -/
def bLen (input : Bytes) : Nat := numAt input 0 32
def eLen (input : Bytes) : Nat := numAt input 32 32
def mLen (input : Bytes) : Nat := numAt input 64 32
def theBase (input : Bytes) : Nat := numAt input 96 (bLen input)
def theExponent (input : Bytes) : Nat := numAt input (96 + bLen input) (eLen input)
def theModulus (input : Bytes) : Nat := numAt input (96 + bLen input + eLen input) (mLen input)

/-- The result of EIP-198. -/
def valueSpec (input : Bytes) : Nat :=
  if theModulus input = 0 then 0 else theBase input ^ theExponent input % theModulus input

/-- The leading 32 bytes of the exponent (all of it if it is shorter). -/
def exponentHead (input : Bytes) : Nat := numAt input (96 + bLen input) (min 32 (eLen input))

/-- `calculate_iteration_count` of EIP-2565 -/
def iterSpec (input : Bytes) : Nat :=
  max 1 (8 * (eLen input - 32) + (bitLength (exponentHead input) - 1))

/-- `calculate_gas_cost` of EIP-2565 -/
def gasSpec (input : Bytes) : Nat :=
  max 200 (((max (bLen input) (mLen input) + 7) / 8) ^ 2 * iterSpec input / 3)

/-! ## Lemmas -/

theorem numAt_lt (input : Bytes) (off size : Nat) : numAt input off size < 256 ^ size := by
  induction size with
  | zero => simp [numAt]
  | succ n ih =>
    unfold numAt
    have := ((input[off + n]?).getD 0).toNat_lt
    rw [Nat.pow_succ]
    omega

theorem numAt_beyond (input : Bytes) {off : Nat} (size : Nat) (h : input.length ≤ off) :
    numAt input off size = 0 := by
  induction size with
  | zero => rfl
  | succ n ih => unfold numAt; rw [ih, List.getElem?_eq_none (by omega)]; rfl

theorem numAt_drop (input : Bytes) (k off size : Nat) :
    numAt (input.drop k) off size = numAt input (k + off) size := by
  induction size with
  | zero => rfl
  | succ n ih => unfold numAt; rw [ih, List.getElem?_drop, Nat.add_assoc]

theorem beNat_replicate_zero (n : Nat) : beNat (List.replicate n 0) = 0 := by
  induction n with
  | zero => rfl
  | succ n ih => rw [List.replicate_succ', beNat_snoc, ih]; rfl

theorem beNat_part (data : Bytes) (start size : Nat) :
    beNat ((data.drop start).take size ++ List.replicate (size - (data.length - start)) 0) =
      numAt data start size := by
  induction size with
  | zero => simp [numAt]
  | succ n ih =>
    unfold numAt
    rw [← ih]
    by_cases h : start + n < data.length
    · rw [List.take_succ]
      have h1 : n - (data.length - start) = 0 := by omega
      have h2 : n + 1 - (data.length - start) = 0 := by omega
      rw [h1, h2, List.getElem?_drop, List.getElem?_eq_getElem h]
      simp only [Option.toList_some, List.replicate_zero, List.append_nil, Option.getD_some]
      rw [beNat_snoc]
    · have h1 : n + 1 - (data.length - start) = (n - (data.length - start)) + 1 := by omega
      rw [h1, List.getElem?_eq_none (by omega), List.replicate_succ', ← List.append_assoc, beNat_snoc,
        List.take_of_length_le (by rw [List.length_drop]; omega),
        List.take_of_length_le (by rw [List.length_drop]; omega)]
      rfl

/-- `get_data` reads the zero-continued input, as long as nothing is too long. -/
theorem getData_eq (data : Bytes) (start size : Nat) (h : data.length + size < 2 ^ 63) :
    getData data start size = .ok (numAt data start size) := by
  unfold getData
  simp only
  have hs : min start data.length + size < 2 ^ 64 := by omega
  rw [Nat.mod_eq_of_lt hs]
  rw [if_neg (by
    have := List.length_take_le (min (min start data.length + size) data.length - min start data.length)
      (data.drop (min start data.length))
    rw [List.length_take, List.length_drop]
    omega)]
  congr 1
  have e1 : min (min start data.length + size) data.length - min start data.length =
      min size (data.length - min start data.length) := by omega
  rw [e1]
  have e2 : (data.drop (min start data.length)).take (min size (data.length - min start data.length)) =
      (data.drop (min start data.length)).take size := by
    rw [← List.length_drop]
    by_cases hc : size ≤ (data.drop (min start data.length)).length
    · rw [Nat.min_eq_left hc]
    · rw [Nat.min_eq_right (by omega), List.take_length, List.take_of_length_le (by omega)]
  have e3 : size - min size (data.length - min start data.length) =
      size - (data.length - min start data.length) := by omega
  rw [e2, e3, beNat_part]
  by_cases hc : start ≤ data.length
  · rw [Nat.min_eq_left hc]
  · rw [Nat.min_eq_right (by omega), numAt_beyond _ _ (Nat.le_refl _), numAt_beyond _ _ (by omega)]

theorem bits_eq (n : Nat) : bits n = bitLength n := by
  induction n using Nat.strongRecOn with
  | ind n ih =>
    unfold bitLength
    by_cases h : n = 0
    · simp [h, bits]
    · rw [dif_neg h, ← ih (n / 2) (by omega)]
      unfold bits
      rw [if_neg h]
      by_cases h2 : n / 2 = 0
      · rw [if_pos h2]
        have : n = 1 := by omega
        subst this; decide
      · rw [if_neg h2]
        have : Nat.log2 n = Nat.log2 (n / 2) + 1 := by
          rw [Nat.log2_def n, if_pos (by omega)]
        omega

theorem bitLength_le {n k : Nat} (h : n < 2 ^ k) : bitLength n ≤ k := by
  induction k generalizing n with
  | zero => have : n = 0 := by omega
            subst this; unfold bitLength; simp
  | succ k ih =>
    unfold bitLength
    by_cases h0 : n = 0
    · simp [h0]
    · rw [dif_neg h0]
      have := ih (n := n / 2) (by rw [Nat.pow_succ] at h; omega)
      omega

theorem numAt_sat (input : Bytes) (n size : Nat) (hl : input.length < 2 ^ 62) :
    numAt (payload input) (sat n) size = numAt input (96 + n) size := by
  unfold payload sat
  rw [numAt_drop]
  by_cases h : n ≤ 2 ^ 64 - 1
  · rw [Nat.min_eq_left h]
  · rw [Nat.min_eq_right (by omega), numAt_beyond _ _ (by omega), numAt_beyond _ _ (by omega)]

theorem head_lt (input : Bytes) : exponentHead input < 2 ^ 256 := by
  unfold exponentHead
  have h1 := numAt_lt input (96 + bLen input) (min 32 (eLen input))
  have h2 : 256 ^ min 32 (eLen input) ≤ 256 ^ 32 := Nat.pow_le_pow_right (by omega) (by omega)
  have h3 : (256 : Nat) ^ 32 = 2 ^ 256 := by decide
  omega

/-- The gas computation for any input that fits in memory. -/
theorem gasCost_eq (input : Bytes) (hl : input.length < 2 ^ 62) :
    gasCost input =
      if bLen input = 0 ∧ mLen input = 0 then .ok 200
      else (iterations (eLen input) (exponentHead input)).bind fun it =>
        .ok (sat (max (complexity (bLen input) (mLen input) * it / 3) 200)) := by
  unfold gasCost
  rw [getData_eq _ _ _ (by omega), getData_eq _ _ _ (by omega), getData_eq _ _ _ (by omega)]
  simp only [Outcome.bind]
  show (if bLen input = 0 ∧ mLen input = 0 then _ else _) = _
  split
  · rfl
  · have hp : (payload input).length ≤ input.length := by
      unfold payload; rw [List.length_drop]; omega
    have : (if 32 < eLen input then getData (payload input) (sat (bLen input)) 32
        else getData (payload input) (sat (bLen input)) (sat (eLen input))) =
        .ok (exponentHead input) := by
      unfold exponentHead
      split
      · rename_i h
        rw [getData_eq _ _ _ (by omega), numAt_sat _ _ _ hl, Nat.min_eq_left (by omega)]
      · rename_i h
        have : sat (eLen input) = eLen input := by unfold sat; omega
        rw [this, getData_eq _ _ _ (by omega), numAt_sat _ _ _ hl, Nat.min_eq_right (by omega)]
    show Outcome.bind (if 32 < eLen input then getData (payload input) (sat (bLen input)) 32
        else getData (payload input) (sat (bLen input)) (sat (eLen input))) _ = _
    rw [this]
    rfl

/-! ## C43 -/

/-- The gas charged is the one of EIP-2565, capped at `u64::MAX`.  Partial: the exponent length must be such
that `8 * (length - 32)` plus 255 fits 64 bits (`C43_overflow_false`, `C43_saturated_false`). -/
theorem C43_gas_partial (input : Bytes) (hl : input.length < 2 ^ 62)
    (he : 8 * (eLen input - 32) + 255 < 2 ^ 64) :
    gasCost input = .ok (min (gasSpec input) (2 ^ 64 - 1)) := by
  rw [gasCost_eq input hl]
  have hh := head_lt input
  have hb := bitLength_le hh
  split
  · rename_i h
    unfold gasSpec
    rw [h.1, h.2]
    simp
  · have hit : iterations (eLen input) (exponentHead input) = .ok (iterSpec input) := by
      unfold iterations iterSpec
      rw [bits_eq, bits_eq, Nat.mod_eq_of_lt hh]
      split
      · rename_i h
        have h32 : eLen input - 32 = 0 := by omega
        rw [h32, h.2]
        unfold bitLength
        simp
      · split
        · rename_i h
          have h32 : eLen input - 32 = 0 := by omega
          rw [h32, Nat.max_comm]
          simp
        · have hs : sat (8 * (eLen input - 32)) = 8 * (eLen input - 32) := by unfold sat; omega
          simp only [hs]
          rw [if_neg (by omega), Nat.max_comm]
    rw [hit]
    simp only [Outcome.bind, gasSpec, complexity, sat]
    rw [Nat.max_comm 200]

theorem exec_value (input : Bytes) (limit : Option Nat) (hl : input.length < 2 ^ 62)
    (hb : bLen input < 2 ^ 61) (hm : mLen input < 2 ^ 61) (he : eLen input < 2 ^ 60) :
    exec input limit = .ok (if limit.any (· < min (gasSpec input) (2 ^ 64 - 1)) then .outOfGas
      else .done (beFixed (mLen input) (valueSpec input)) (min (gasSpec input) (2 ^ 64 - 1))) := by
  unfold exec
  rw [C43_gas_partial input (by omega) (by omega)]
  simp only [Outcome.bind]
  split
  · rfl
  · rw [getData_eq _ _ _ (by omega), getData_eq _ _ _ (by omega), getData_eq _ _ _ (by omega)]
    simp only
    have hp : (payload input).length ≤ input.length := by
      unfold payload; rw [List.length_drop]; omega
    have sb : sat (numAt input 0 32) = bLen input := by
      show sat (bLen input) = _
      unfold sat; omega
    have sm : sat (numAt input 64 32) = mLen input := by
      show sat (mLen input) = _
      unfold sat; omega
    have se : sat (numAt input 32 32) = eLen input := by
      show sat (eLen input) = _
      unfold sat; omega
    rw [sb, sm, se]
    split
    · rename_i h
      rw [h.2]
      rfl
    · rw [getData_eq _ _ _ (by omega), getData_eq _ _ _ (by omega), getData_eq _ _ _ (by omega)]
      simp only
      rw [Nat.mod_eq_of_lt (a := bLen input + eLen input) (by omega)]
      have h1 : numAt (payload input) 0 (bLen input) = theBase input := by
        unfold payload theBase; rw [numAt_drop]
      have h2 : numAt (payload input) (bLen input) (eLen input) = theExponent input := by
        unfold payload theExponent; rw [numAt_drop]
      have h3 : numAt (payload input) (bLen input + eLen input) (mLen input) = theModulus input := by
        unfold payload theModulus; rw [numAt_drop, Nat.add_assoc]
      rw [h1, h2, h3]
      have hm : theModulus input < 256 ^ mLen input := numAt_lt _ _ _
      have hc : power (theBase input) (theExponent input) (theModulus input) =
          valueSpec input := by
        unfold power valueSpec
        by_cases h0 : theModulus input = 0
        · simp [h0]
        · rw [if_neg h0, if_neg h0]
          split
          · rename_i hb; rw [hb, Nat.one_pow]
          · rfl
      rw [← hc]
      have hr : power (theBase input) (theExponent input) (theModulus input) < 256 ^ mLen input := by
        rw [hc]
        unfold valueSpec
        by_cases h0 : theModulus input = 0
        · simp [h0, Nat.pow_pos]
        · rw [if_neg h0]
          exact Nat.lt_trans (Nat.mod_lt _ (by omega)) hm
      have hlen := beBytes_length_le _ _ hr
      rw [if_neg (by omega)]
      congr 2
      generalize power (theBase input) (theExponent input) (theModulus input) = r at hr hlen
      have : beFixed (mLen input) (beNat (List.replicate (mLen input - (beBytes r).length) 0 ++ beBytes r)) =
          List.replicate (mLen input - (beBytes r).length) 0 ++ beBytes r := by
        have := beFixed_beNat (List.replicate (mLen input - (beBytes r).length) 0 ++ beBytes r)
        rw [List.length_append, List.length_replicate, Nat.sub_add_cancel hlen] at this
        exact this
      rw [← this, beNat_append, beNat_replicate_zero, Nat.zero_mul, Nat.zero_add, beNat_beBytes]

/-- The addition in `iterator_count` overflows. -/
def Overflows (input : Bytes) : Prop :=
  (bLen input ≠ 0 ∨ mLen input ≠ 0) ∧ 32 < eLen input ∧
    2 ^ 64 ≤ min (8 * (eLen input - 32)) (2 ^ 64 - 1) + (bitLength (exponentHead input) - 1)

instance (input : Bytes) : Decidable (Overflows input) := by unfold Overflows; infer_instance

/-- What a call with any realistic gas limit does, for every input, however large the lengths it claims: if the
addition in `iterator_count` overflows the node aborts (`C43_overflow_false`); otherwise the call runs out of
gas iff the limit is below the price of EIP-2565, and else returns the power of EIP-198 in as many bytes as the
modulus has, at this price.  Partial: the claim of C43 is that there is no first case. -/
theorem C43_call_partial (input : Bytes) (hl : input.length < 2 ^ 62) (limit : Nat) (hlim : limit < 2 ^ 60) :
    exec input (some limit) =
      if Overflows input then .panic
      else .ok (if limit < gasSpec input then .outOfGas
        else .done (beFixed (mLen input) (valueSpec input)) (gasSpec input)) := by
  have hh := head_lt input
  have hbl := bitLength_le hh
  by_cases h0 : bLen input = 0 ∧ mLen input = 0
  · -- both lengths zero
    have hno : ¬ Overflows input := fun h => by
      rcases h.1 with h | h
      · exact h h0.1
      · exact h h0.2
    rw [if_neg hno]
    have hg : gasSpec input = 200 := by unfold gasSpec; rw [h0.1, h0.2]; simp
    unfold exec
    rw [gasCost_eq input hl, if_pos h0, hg, h0.2]
    simp only [Outcome.bind, Option.any_some]
    by_cases hlt : limit < 200
    · simp [hlt]
    · rw [if_neg (by simpa using hlt), if_neg hlt, getData_eq _ _ _ (by omega), getData_eq _ _ _ (by omega)]
      simp only
      have e1 : numAt input 0 32 = 0 := h0.1
      have e2 : numAt input 64 32 = 0 := h0.2
      rw [e1, e2]
      simp [sat, beFixed]
  · have hc1 : 1 ≤ ((max (bLen input) (mLen input) + 7) / 8) ^ 2 := by
      apply Nat.one_le_pow
      omega
    have hit1 : 8 * (eLen input - 32) ≤ iterSpec input := by unfold iterSpec; omega
    have hit0 : 1 ≤ iterSpec input := by unfold iterSpec; omega
    by_cases hsmall : 8 * (eLen input - 32) + 255 < 2 ^ 64
    · have hno : ¬ Overflows input := fun h => by
        have := h.2.2
        omega
      rw [if_neg hno]
      by_cases hbig : bLen input < 2 ^ 61 ∧ mLen input < 2 ^ 61 ∧ eLen input < 2 ^ 60
      · rw [exec_value input (some limit) hl hbig.1 hbig.2.1 hbig.2.2]
        simp only [Option.any_some, decide_eq_true_eq]
        by_cases hlt : limit < gasSpec input
        · rw [if_pos hlt, if_pos (by omega)]
        · rw [if_neg hlt, if_neg (by omega), Nat.min_eq_left (by omega)]
      · -- the price exceeds the limit
        have hg : 2 ^ 60 ≤ gasSpec input := by
          by_cases he : eLen input < 2 ^ 60
          · have hmx : 2 ^ 58 ≤ (max (bLen input) (mLen input) + 7) / 8 := by omega
            have h2 : (2 ^ 58) ^ 2 ≤ ((max (bLen input) (mLen input) + 7) / 8) ^ 2 :=
              Nat.pow_le_pow_left hmx 2
            have h3 := Nat.mul_le_mul h2 hit0
            have : 2 ^ 60 ≤ ((max (bLen input) (mLen input) + 7) / 8) ^ 2 * iterSpec input / 3 := by
              rw [Nat.le_div_iff_mul_le (by omega)]
              refine Nat.le_trans ?_ h3
              decide
            unfold gasSpec
            omega
          · have h3 := Nat.mul_le_mul hc1 hit1
            rw [Nat.one_mul] at h3
            unfold gasSpec
            omega
        unfold exec
        rw [C43_gas_partial input hl hsmall]
        simp only [Outcome.bind, Option.any_some, decide_eq_true_eq]
        rw [if_pos (by omega), if_pos (by omega)]
    · -- the exponent length is out of range
      have hgs : limit < gasSpec input := by
        have h3 := Nat.mul_le_mul hc1 hit1
        rw [Nat.one_mul] at h3
        unfold gasSpec
        omega
      have hsat : sat (8 * (eLen input - 32)) = min (8 * (eLen input - 32)) (2 ^ 64 - 1) := rfl
      by_cases ho : Overflows input
      · rw [if_pos ho]
        unfold exec
        rw [gasCost_eq input hl, if_neg h0]
        have : iterations (eLen input) (exponentHead input) = .panic := by
          unfold iterations
          rw [if_neg (by omega), if_neg (by omega), bits_eq, Nat.mod_eq_of_lt hh, hsat]
          simp only
          rw [if_pos ho.2.2]
        rw [this]
        rfl
      · rw [if_neg ho, if_pos hgs]
        have hno : ¬ 2 ^ 64 ≤ min (8 * (eLen input - 32)) (2 ^ 64 - 1) +
            (bitLength (exponentHead input) - 1) := by
          intro hc
          apply ho
          refine ⟨?_, by omega, hc⟩
          by_cases hb : bLen input = 0
          · exact .inr fun hm => h0 ⟨hb, hm⟩
          · exact .inl hb
        unfold exec
        rw [gasCost_eq input hl, if_neg h0]
        have : iterations (eLen input) (exponentHead input) =
            .ok (max (min (8 * (eLen input - 32)) (2 ^ 64 - 1) + (bitLength (exponentHead input) - 1)) 1) := by
          unfold iterations
          rw [if_neg (by omega), if_neg (by omega), bits_eq, Nat.mod_eq_of_lt hh, hsat]
          simp only
          rw [if_neg hno]
        rw [this]
        simp only [Outcome.bind, Option.any_some, decide_eq_true_eq]
        rw [if_pos ?_]
        have h4 := Nat.mul_le_mul hc1 (Nat.le_max_left (min (8 * (eLen input - 32)) (2 ^ 64 - 1) +
          (bitLength (exponentHead input) - 1)) 1)
        rw [Nat.one_mul] at h4
        unfold sat complexity
        omega

/-! ## What fails -/

/-- A length word. -/
def word (n : Nat) : Bytes := beFixed 32 n

/-- Base and modulus of one byte, an exponent said to have `2^256 - 1` bytes, beginning with `3`. -/
def badInput : Bytes := word 1 ++ word (2 ^ 256 - 1) ++ word 1 ++ [7] ++ word 3

/-- One byte of modulus, an exponent said to have `2^256 - 1` bytes, no data. -/
def cheapInput : Bytes := word 0 ++ word (2 ^ 256 - 1) ++ word 1

/-- A call whose input claims an enormous exponent aborts the node, whatever the gas limit: the price is
computed before the limit is looked at. -/
theorem C43_overflow_false (limit : Option Nat) : exec badInput limit = .panic := by
  have h : gasCost badInput = .panic := by decide +kernel
  unfold exec
  rw [h]
  rfl

/-- Below the overflow the price saturates too early: a third of `u64::MAX` where EIP-2565 asks for more than
`u64::MAX`. -/
theorem C43_saturated_false :
    gasCost cheapInput = .ok ((2 ^ 64 - 1) / 3) ∧ 2 ^ 64 - 1 < gasSpec cheapInput := by
  constructor
  · decide +kernel
  · have hb : bLen cheapInput = 0 := by decide +kernel
    have hm : mLen cheapInput = 1 := by decide +kernel
    have he : eLen cheapInput = 2 ^ 256 - 1 := by decide +kernel
    unfold gasSpec iterSpec
    rw [hb, hm, he]
    have : ((max 0 1 + 7) / 8) ^ 2 = 1 := by decide
    rw [this, Nat.one_mul]
    omega

/-! ## Non-vacuity -/

/-- `3 ^ 5 mod 7 = 5` at 200 gas, refused with 199. -/
def smallInput : Bytes := word 1 ++ word 1 ++ word 1 ++ [3, 5, 7]

example : smallInput.length < 2 ^ 62 ∧ ¬ Overflows smallInput ∧ exec smallInput (some 200) = .ok (.done [5] 200) ∧
    exec smallInput (some 199) = .ok .outOfGas ∧ valueSpec smallInput = 5 := by
  refine ⟨by decide +kernel, fun h => ?_, by decide +kernel, by decide +kernel, by decide +kernel⟩
  have : eLen smallInput = 1 := by decide +kernel
  have := h.2.1
  omega

/-- The output has the length of the modulus, not of the number. -/
example : exec (word 1 ++ word 1 ++ word 3 ++ [3, 5, 0, 0, 7]) (some 1000) = .ok (.done [0, 0, 5] 200) := by
  decide +kernel

end Axon.Modexp
