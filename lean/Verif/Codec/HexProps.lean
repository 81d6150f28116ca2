import Verif.Codec.Hex

/-!
# C08: hex text codec
-/

namespace Axon.Hex

/-! ## Specification: the usual notation -/

/-- The 16 lower case digits. -/
def lowerDigits : Text := "0123456789abcdef".toUTF8.toList
/-- The 16 upper case digits. -/
def upperDigits : Text := "0123456789ABCDEF".toUTF8.toList

/-- `c` is a digit (of either case) with value `n`. -/
def IsDigit (c : UInt8) (n : Nat) : Prop := lowerDigits[n]? = some c ∨ upperDigits[n]? = some c

/-- `HexOf s b`: the text `s` writes the bytes `b`, two digits per byte. -/
inductive HexOf : Text → Bytes → Prop where
  | nil : HexOf [] []
  | cons (c d : UInt8) (x y : Nat) (v : UInt8) (s : Text) (b : Bytes) :
      IsDigit c x → IsDigit d y → v.toNat = 16 * x + y → HexOf s b → HexOf (c :: d :: s) (v :: b)

theorem isDigit_iff (c : UInt8) (n : Nat) : IsDigit c n ↔ digitVal c = some n := by
  have h1 : ∀ n : Fin 16, ∀ c ∈ [lowerDigits[n.val]?, upperDigits[n.val]?],
      c.bind digitVal = some n.val := by decide +kernel
  have h2 : ∀ c : Fin 256, (digitVal (UInt8.ofNat c.val)).all
      (fun n => lowerDigits[n]? == some (UInt8.ofNat c.val) ||
        upperDigits[n]? == some (UInt8.ofNat c.val)) = true := by decide +kernel
  have hl : lowerDigits.length = 16 := by decide +kernel
  have hu : upperDigits.length = 16 := by decide +kernel
  constructor
  · rintro (h | h)
    · have hn : n < 16 := by have := (List.getElem?_eq_some_iff.1 h).1; omega
      have := h1 ⟨n, hn⟩ lowerDigits[n]? (by simp)
      simpa [h] using this
    · have hn : n < 16 := by have := (List.getElem?_eq_some_iff.1 h).1; omega
      have := h1 ⟨n, hn⟩ upperDigits[n]? (by simp)
      simpa [h] using this
  · intro h
    have := h2 ⟨c.toNat, by have := c.toNat_lt; omega⟩
    simp only [ofNat_toNat_u8, h, Option.all_some, Bool.or_eq_true, beq_iff_eq] at this
    exact this

/-- Acceptance of the core decoder is exactly the notation. -/
theorem decodePairs_iff (s : Text) (b : Bytes) : decodePairs s = some b ↔ HexOf s b := by
  constructor
  · induction s using decodePairs.induct generalizing b with
    | case1 => intro h; simp [decodePairs] at h; subst h; exact .nil
    | case2 => intro h; simp [decodePairs] at h
    | case3 c d r ih =>
      intro h
      simp only [decodePairs, Option.bind_eq_bind, Option.bind_eq_some_iff, Option.pure_def,
        Option.some.injEq] at h
      obtain ⟨x, hx, y, hy, t, ht, rfl⟩ := h
      have := digitVal_lt hx
      have := digitVal_lt hy
      exact .cons c d x y _ r t ((isDigit_iff _ _).2 hx) ((isDigit_iff _ _).2 hy)
        (by rw [toNat_ofNat_u8]; omega) (ih _ ht)
  · intro h
    induction h with
    | nil => rfl
    | cons c d x y v s b hc hd hv _ ih =>
      simp only [decodePairs, (isDigit_iff _ _).1 hc, (isDigit_iff _ _).1 hd, ih,
        Option.bind_eq_bind, Option.bind_some, Option.pure_def, ← hv, ofNat_toNat_u8]

/-! ## Round trips -/

/-- C08: text produced from bytes parses back, without prefix. -/
theorem C08_decode_encode (b : Bytes) : hexDecode (hexEncode b) = some b := by
  unfold hexDecode
  split
  · rename_i h
    have := hexEncode_length b
    rw [h] at this
    simp only [List.length_nil] at this
    rw [List.eq_nil_of_length_eq_zero (l := b) (by omega)]
  · rw [pfx_hexEncode]
    simp [decodePairs_hexEncode]

/-- C08: text produced from bytes parses back, with prefix. -/
theorem C08_decode_encode_prefixed (b : Bytes) : hexDecode (pfx ++ hexEncode b) = some b := by
  simp [hexDecode, pfx, List.isPrefixOf, decodePairs_hexEncode]

/-- C08: the printed form of a hex value parses back to it. -/
theorem C08_from_str_as_string (b : Bytes) : fromStr (asString b) = some b := by
  have h : pfx.isPrefixOf (asString b) = true := by simp [asString, pfx, List.isPrefixOf]
  have h2 : (asString b).drop 2 = hexEncode b := by simp [asString, pfx]
  simp only [fromStr, h, h2, if_true]
  exact C08_decode_encode b

/-- C08: exactly which texts `hex_decode` accepts, and with which value: an optional `0x`, then an
even number of digits of either case. -/
theorem C08_decode_iff (s : Text) (b : Bytes) :
    hexDecode s = some b ↔ (∃ t, s = pfx ++ t ∧ HexOf t b) ∨ HexOf s b := by
  have hstart : ∀ t, ¬ HexOf (pfx ++ t) b := by
    intro t h
    cases h with
    | cons c d x y v s b hc hd hv h =>
      have := (isDigit_iff _ _).1 hd
      simp [digitVal] at this
  unfold hexDecode
  split
  · rename_i h
    subst h
    constructor
    · intro h; simp at h; subst h; exact Or.inr .nil
    · rintro (⟨t, h, -⟩ | h)
      · simp [pfx] at h
      · cases h; rfl
  · split
    · rename_i h
      obtain ⟨t, rfl⟩ := List.isPrefixOf_iff_prefix.1 h
      rw [decodePairs_iff]
      have : (pfx ++ t).drop 2 = t := by simp [pfx]
      rw [this]
      constructor
      · intro h; exact Or.inl ⟨t, rfl, h⟩
      · rintro (⟨t', h1, h2⟩ | h)
        · rw [List.append_cancel_left h1]; exact h2
        · exact absurd h (hstart t)
    · rename_i h
      rw [decodePairs_iff]
      constructor
      · exact Or.inr
      · rintro (⟨t, rfl, -⟩ | h')
        · exact absurd (List.isPrefixOf_iff_prefix.2 ⟨t, rfl⟩) h
        · exact h'

/-- C08: odd lengths are rejected. -/
theorem C08_rejects_odd (s : Text) (h : s.length % 2 = 1) : hexDecode s = none := by
  cases hd : hexDecode s with
  | none => rfl
  | some b =>
    rcases (C08_decode_iff s b).1 hd with ⟨t, rfl, ht⟩ | ht
    · have := decodePairs_length _ _ ((decodePairs_iff _ _).2 ht)
      simp [pfx] at h
      omega
    · have := decodePairs_length _ _ ((decodePairs_iff _ _).2 ht)
      omega

/-- C08: parsing as a hex value requires the prefix. -/
theorem C08_from_str_requires_prefix (s : Text) (b : Bytes) (h : fromStr s = some b) :
    ∃ t, s = pfx ++ t := by
  unfold fromStr at h
  split at h
  · rename_i hp
    obtain ⟨t, ht⟩ := List.isPrefixOf_iff_prefix.1 hp
    exact ⟨t, ht.symm⟩
  · simp at h

/-- C08, the part "accepts exactly one prefix", as claimed. -/
def AcceptsOnePrefixOnly : Prop :=
  ∀ (s : Text) (b : Bytes), fromStr s = some b → ∃ t, s = pfx ++ t ∧ HexOf t b

/-- C08: what parsing as a hex value accepts: one prefix or two.  Missing for the claim: rejection of
the second prefix. -/
theorem C08_from_str_iff_partial (s : Text) (b : Bytes) :
    fromStr s = some b ↔
      (∃ t, s = pfx ++ t ∧ HexOf t b) ∨ (∃ t, s = pfx ++ pfx ++ t ∧ HexOf t b) := by
  constructor
  · intro h
    obtain ⟨t, rfl⟩ := C08_from_str_requires_prefix s b h
    have h1 : pfx.isPrefixOf (pfx ++ t) = true := List.isPrefixOf_iff_prefix.2 ⟨t, rfl⟩
    have h2 : (pfx ++ t).drop 2 = t := by simp [pfx]
    simp only [fromStr, h1, h2, if_true] at h
    rcases (C08_decode_iff t b).1 h with ⟨u, rfl, hu⟩ | hu
    · exact Or.inr ⟨u, by simp, hu⟩
    · exact Or.inl ⟨t, rfl, hu⟩
  · have h1 : ∀ t, pfx.isPrefixOf (pfx ++ t) = true :=
      fun t => List.isPrefixOf_iff_prefix.2 ⟨t, rfl⟩
    have h2 : ∀ t, (pfx ++ t).drop 2 = t := by intro t; simp [pfx]
    rintro (⟨t, rfl, ht⟩ | ⟨t, rfl, ht⟩)
    · simp only [fromStr, h1, h2, if_true]
      exact (C08_decode_iff t b).2 (Or.inr ht)
    · rw [List.append_assoc]
      simp only [fromStr, h1, h2, if_true]
      exact (C08_decode_iff _ b).2 (Or.inl ⟨t, rfl, ht⟩)

/-- C08, negation: the text `0x0x12` is accepted as the byte `0x12`. -/
theorem C08_one_prefix_false : ¬ AcceptsOnePrefixOnly := by
  intro h
  obtain ⟨t, h1, h2⟩ := h (pfx ++ pfx ++ [0x31, 0x32]) [0x12] (by rfl)
  rw [List.append_assoc] at h1
  rw [← List.append_cancel_left h1] at h2
  have := (decodePairs_iff _ _).2 h2
  exact absurd this (by decide)

/-- C08: a private key text is accepted exactly if it is `0x`/`0X` followed by 64 digits; the key has
32 bytes. -/
theorem C08_key_iff (s : Text) (k : Bytes) :
    decodeKey s = some k ↔
      k.length = 32 ∧ ∃ t, (s = pfx ++ t ∨ s = [0x30, 0x58] ++ t) ∧ HexOf t k := by
  unfold decodeKey
  constructor
  · intro h
    split at h
    · rename_i hp
      split at h
      · rename_i hl
        have hlen := decodePairs_length _ _ h
        simp only [List.length_drop] at hlen
        refine ⟨by omega, s.drop 2, ?_, (decodePairs_iff _ _).1 h⟩
        rcases hp with hp | hp
        · left
          obtain ⟨t, rfl⟩ := List.isPrefixOf_iff_prefix.1 hp
          simp [pfx]
        · right
          obtain ⟨t, rfl⟩ := List.isPrefixOf_iff_prefix.1 hp
          simp
      · simp at h
    · simp at h
  · rintro ⟨hk, t, hs, ht⟩
    have hlen := decodePairs_length _ _ ((decodePairs_iff _ _).2 ht)
    rcases hs with rfl | rfl
    · rw [if_pos (Or.inl (List.isPrefixOf_iff_prefix.2 ⟨t, rfl⟩)), if_pos (by simp [pfx]; omega)]
      have : (pfx ++ t).drop 2 = t := by simp [pfx]
      rw [this]
      exact (decodePairs_iff _ _).2 ht
    · rw [if_pos (Or.inr (List.isPrefixOf_iff_prefix.2 ⟨t, rfl⟩)), if_pos (by simp; omega)]
      have : ([0x30, 0x58] ++ t : Text).drop 2 = t := by simp
      rw [this]
      exact (decodePairs_iff _ _).2 ht

/-! ## JSON integers -/

/-- Specification: value of a digit string in base 16. -/
def hexValue (s : Text) : Option Nat :=
  s.foldl (fun acc c => acc.bind fun a => (digitVal c).map fun d => 16 * a + d) (some 0)

theorem hexValue_aux (s : Text) (b : Bytes) (a : Nat) (h : s = hexEncode b) :
    s.foldl (fun acc c => acc.bind fun a => (digitVal c).map fun d => 16 * a + d) (some a)
      = some (a * 256 ^ b.length + beNat b) := by
  subst h
  induction b generalizing a with
  | nil => simp [hexEncode, beNat]
  | cons x b ih =>
    have hx := x.toNat_lt
    simp only [hexEncode, List.foldl_cons, Option.bind_some]
    rw [digitVal_digit (by omega), digitVal_digit (by omega)]
    simp only [Option.map_some, Option.bind_some]
    rw [ih]
    have hb : beNat (x :: b) = x.toNat * 256 ^ b.length + beNat b := by
      rw [show x :: b = [x] ++ b from rfl, beNat_append]
      simp [beNat]
    rw [hb]
    congr 1
    rw [List.length_cons, Nat.pow_succ]
    have : 16 * (16 * a + x.toNat / 16) + x.toNat % 16 = 256 * a + x.toNat := by omega
    rw [this, Nat.add_mul, ← Nat.add_assoc]
    congr 2
    rw [Nat.mul_comm 256 a, Nat.mul_assoc, Nat.mul_comm 256]

theorem beNat_dropZeros (b : Bytes) : beNat (b.dropWhile (· == 0)) = beNat b := by
  induction b with
  | nil => rfl
  | cons x b ih =>
    rw [List.dropWhile_cons]
    split
    · rename_i h
      simp only [beq_iff_eq] at h
      rw [ih, h]
      simp [beNat]
    · rfl

theorem dropZeros_head {b : Bytes} {x : UInt8} {r : Bytes}
    (h : b.dropWhile (· == 0) = x :: r) : x ≠ 0 := by
  induction b with
  | nil => simp at h
  | cons y b ih =>
    rw [List.dropWhile_cons] at h
    split at h
    · exact ih h
    · rename_i hy
      simp only [List.cons.injEq] at h
      rw [← h.1]
      simpa using hy

/-- C08: integers in JSON are `0x` followed by their shortest digit string, so distinct integers are
written differently and the text parses back to the integer. -/
theorem C08_uint_text (n : Nat) (hn : n < 2 ^ 256) :
    ∃ ds, serializeUint n = pfx ++ ds ∧ hexValue ds = some n ∧ ds ≠ [] ∧
      (ds.head? = some 0x30 → n = 0 ∧ ds = [0x30]) := by
  have hval : beNat ((beFixed 32 n).dropWhile (· == 0)) = n := by
    rw [beNat_dropZeros, beNat_beFixed_of_lt]
    have h3 : (256 : Nat) ^ 32 = 2 ^ 256 := by decide
    omega
  unfold serializeUint
  cases hd : (beFixed 32 n).dropWhile (· == 0) with
  | nil =>
    rw [hd] at hval
    simp only [beNat] at hval
    exact ⟨[0x30], rfl, by rw [← hval]; rfl, by simp, fun _ => ⟨hval.symm, rfl⟩⟩
  | cons x r =>
    rw [hd] at hval
    have hx := dropZeros_head hd
    have hxlt := x.toNat_lt
    have hx0 : x.toNat ≠ 0 := by
      intro h
      apply hx
      have := ofNat_toNat_u8 x
      rw [h] at this
      exact this.symm
    have hnz : ∀ k : Fin 16, digit k.val = 0x30 → k.val = 0 := by decide
    refine ⟨toHexRaw (x :: r), rfl, ?_, ?_, ?_⟩
    · simp only [toHexRaw, hexValue]
      have hstep : ∀ a, (hexEncode r).foldl
          (fun acc c => acc.bind fun a => (digitVal c).map fun d => 16 * a + d) (some a)
            = some (a * 256 ^ r.length + beNat r) := fun a => hexValue_aux _ r a rfl
      split
      · simp only [List.singleton_append, List.foldl_cons, Option.bind_some]
        rw [digitVal_digit (by omega), digitVal_digit (by omega)]
        have e : 16 * (16 * 0 + x.toNat / 16) + x.toNat % 16 = x.toNat := by omega
        rw [Option.map_some, Option.bind_some, Option.map_some, hstep, e, ← hval]
        rfl
      · simp only [List.nil_append, List.foldl_cons, Option.bind_some]
        rw [digitVal_digit (by omega)]
        have e : 16 * 0 + x.toNat % 16 = x.toNat := by omega
        rw [Option.map_some, hstep, e, ← hval]
        rfl
    · simp [toHexRaw]
    · intro hh
      exfalso
      simp only [toHexRaw] at hh
      split at hh
      · simp only [List.singleton_append, List.head?_cons, Option.some.injEq] at hh
        have := hnz ⟨x.toNat / 16, by omega⟩ hh
        simp only at this
        omega
      · simp only [List.nil_append, List.head?_cons, Option.some.injEq] at hh
        have := hnz ⟨x.toNat % 16, by omega⟩ hh
        simp only at this
        omega

/-- C08: distinct integers have distinct JSON texts. -/
theorem C08_uint_injective (m n : Nat) (hm : m < 2 ^ 256) (hn : n < 2 ^ 256)
    (h : serializeUint m = serializeUint n) : m = n := by
  obtain ⟨d, h1, h2, -⟩ := C08_uint_text m hm
  obtain ⟨e, h3, h4, -⟩ := C08_uint_text n hn
  rw [h1, h3] at h
  rw [List.append_cancel_left h, h4] at h2
  exact (Option.some.inj h2).symm

/-! ## Non-trivial instances -/

example : asString [0x0a, 0xff] = "0x0aff".toUTF8.toList ∧ fromStr "0x0AfF".toUTF8.toList = some [0x0a, 0xff] ∧
    hexDecode "0x0g".toUTF8.toList = none ∧ fromStr "0aff".toUTF8.toList = none := by
  decide +kernel

example : serializeUint 0 = "0x0".toUTF8.toList ∧ serializeUint 1024 = "0x400".toUTF8.toList := by
  decide +kernel

example : decodeKey ("0X".toUTF8.toList ++ List.replicate 64 0x37) = some (List.replicate 32 0x77) := by
  decide +kernel

end Axon.Hex
