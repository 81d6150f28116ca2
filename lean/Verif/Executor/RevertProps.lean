import Verif.Executor.Revert

/-!
# C42: reading the reason of a reverted call

The specification builds the payload `Error(string)` from a text as the Solidity ABI does: the
selector `08c379a0`, the offset `32`, the number of bytes of the UTF-8 text, the text, padding.
-/

namespace Axon.Revert

open Axon

/-- UTF-8 bytes of a text (Lean's own encoder). -/
def utf8 (text : List Char) : Bytes := text.flatMap String.utf8EncodeChar

/-- The ABI encoding of `Error(string)`; `pad` are the bytes after the text. -/
def errorPayload (text : List Char) (pad : Bytes) : Bytes :=
  [0x08, 0xc3, 0x79, 0xa0] ++ beFixed 32 32 ++ beFixed 32 (utf8 text).length ++ utf8 text ++ pad

theorem lengthWord_errorPayload (text : List Char) (pad : Bytes)
    (h : (utf8 text).length < 256 ^ 32) :
    lengthWord (errorPayload text pad) = (utf8 text).length := by
  have e : errorPayload text pad =
      ([0x08, 0xc3, 0x79, 0xa0] ++ beFixed 32 32) ++
        (beFixed 32 (utf8 text).length ++ (utf8 text ++ pad)) := by
    simp [errorPayload]
  have l1 : ([0x08, 0xc3, 0x79, 0xa0] ++ beFixed 32 32 : Bytes).length = 36 := by
    simp [beFixed_length]
  rw [lengthWord, e, List.drop_left' l1, List.take_left' (beFixed_length ..),
    beNat_beFixed_of_lt h]

theorem drop_errorPayload (text : List Char) (pad : Bytes) :
    (errorPayload text pad).drop 68 = utf8 text ++ pad := by
  have e : errorPayload text pad =
      ([0x08, 0xc3, 0x79, 0xa0] ++ beFixed 32 32 ++ beFixed 32 (utf8 text).length) ++
        (utf8 text ++ pad) := by
    simp [errorPayload]
  have l1 : ([0x08, 0xc3, 0x79, 0xa0] ++ beFixed 32 32 ++
      beFixed 32 (utf8 text).length : Bytes).length = 68 := by
    simp [beFixed_length]
  rw [e, List.drop_left' l1]

theorem length_errorPayload (text : List Char) (pad : Bytes) :
    (errorPayload text pad).length = 68 + (utf8 text).length + pad.length := by
  simp [errorPayload, beFixed_length]; omega

/-- What is reported for a payload: one character per byte of the text. -/
theorem decode_errorPayload (text : List Char) (pad : Bytes)
    (h : (utf8 text).length < 2 ^ 64 - 68) :
    decodeRevertMsg (errorPayload text pad) = .ok (prefixText ++ (utf8 text).map latin) := by
  have hw := lengthWord_errorPayload text pad (by omega)
  have hl := length_errorPayload text pad
  have hd := drop_errorPayload text pad
  unfold decodeRevertMsg
  have hne : (errorPayload text pad).isEmpty = false := by
    cases hx : errorPayload text pad with
    | nil => rw [hx] at hl; simp at hl; omega
    | cons _ _ => rfl
  rw [hne]
  simp only [Bool.false_eq_true, if_false, hw, dataOffset, hd]
  rw [if_neg (by omega), if_neg (by omega), if_neg (by omega), if_neg (by omega),
    List.take_left]
  rfl

/-- A text of ASCII characters. -/
def Ascii (text : List Char) : Prop := ∀ c ∈ text, c.val ≤ 127

theorem utf8_ascii (text : List Char) (h : Ascii text) : (utf8 text).map latin = text := by
  induction text with
  | nil => rfl
  | cons c cs ih =>
    have hc : c.val ≤ 127 := h c (by simp)
    have ih := ih (fun x hx => h x (by simp [hx]))
    have e : String.utf8EncodeChar c = [c.val.toUInt8] := by
      have : c.val.toNat ≤ 127 := by
        have := hc
        rw [UInt32.le_iff_toNat_le] at this
        exact this
      simp only [String.utf8EncodeChar]
      rw [if_pos this]
      rfl
    have el : latin c.val.toUInt8 = c := by
      have : c.val.toNat ≤ 0x7f := by simpa [UInt32.le_iff_toNat_le] using hc
      unfold latin
      rw [UInt32.toNat_toUInt8, Nat.mod_eq_of_lt (by omega)]
      exact Char.ofNat_toNat c
    simp only [utf8, List.flatMap_cons, List.map_append, e, List.map_cons, List.map_nil, el]
    simp only [utf8] at ih
    rw [ih]; rfl

/-- **C42 (part).** The reason of a standard revert whose text is ASCII is reported exactly, after
the words `execution reverted: `, whatever the padding.  Missing: texts with other characters
(`C42_unicode_false`). -/
theorem C42_text_partial (text : List Char) (pad : Bytes) (ha : Ascii text)
    (h : (utf8 text).length < 2 ^ 64 - 68) :
    decodeRevertMsg (errorPayload text pad) = .ok ("execution reverted: ".toList ++ text) := by
  rw [decode_errorPayload text pad h, utf8_ascii text ha]
  rfl

/-- **C42 (part).** Exactly which return data yields no message but aborts the thread: data of at
least 68 bytes whose second argument word is 2^64 - 68 or more.  Every other data yields a message
that starts with `execution reverted: `.  Missing: the data that aborts. -/
theorem C42_total_partial (input : Bytes) :
    (68 ≤ input.length ∧ 2 ^ 64 - 68 ≤ beNat ((input.drop 36).take 32) ∧
        decodeRevertMsg input = .panic) ∨
      ((input.length < 68 ∨ beNat ((input.drop 36).take 32) < 2 ^ 64 - 68) ∧
        ∃ msg, decodeRevertMsg input = .ok ("execution reverted: ".toList ++ msg)) := by
  unfold decodeRevertMsg
  by_cases he : input.isEmpty
  · right
    rw [if_pos he]
    refine ⟨Or.inl ?_, [], by rw [List.append_nil]; rfl⟩
    have : input = [] := List.isEmpty_iff.1 he
    simp [this]
  rw [if_neg he]
  by_cases hl : input.length < dataOffset
  · right
    rw [if_pos hl]
    exact ⟨Or.inl hl, _, rfl⟩
  rw [if_neg hl]
  by_cases h1 : 2 ^ 64 ≤ lengthWord input
  · left
    rw [if_pos h1]
    unfold lengthWord at h1
    exact ⟨Nat.le_of_not_lt hl, by omega, rfl⟩
  rw [if_neg h1]
  by_cases h2 : 2 ^ 64 ≤ dataOffset + lengthWord input
  · left
    rw [if_pos h2]
    unfold lengthWord dataOffset at h2
    exact ⟨Nat.le_of_not_lt hl, by omega, rfl⟩
  rw [if_neg h2]
  right
  refine ⟨Or.inr ?_, ?_⟩
  · unfold lengthWord dataOffset at h2
    omega
  · by_cases h3 : input.length < dataOffset + lengthWord input
    · rw [if_pos h3]; exact ⟨_, rfl⟩
    · rw [if_neg h3]; exact ⟨_, rfl⟩

/-- **C42, the full statement is false.** Any contract can make the node panic while it prints the
error of a call: for every selector and first word, return data whose length word is all ones. -/
theorem C42_overflow_false (head : Bytes) (h : head.length = 36) (tail : Bytes) :
    decodeRevertMsg (head ++ List.replicate 32 0xff ++ tail) = .panic := by
  rcases C42_total_partial (head ++ List.replicate 32 0xff ++ tail) with ⟨_, _, hp⟩ | ⟨hc, _⟩
  · exact hp
  · exfalso
    have e : (head ++ List.replicate 32 0xff ++ tail).drop 36 =
        List.replicate 32 0xff ++ tail := by
      rw [List.append_assoc, List.drop_left' h]
    rw [e, List.take_left' (by simp)] at hc
    have hv : beNat (List.replicate 32 0xff) = 2 ^ 256 - 1 := by decide +kernel
    rw [hv] at hc
    rcases hc with hc | hc
    · simp at hc; omega
    · omega

theorem utf8Size_pos' (c : Char) : 1 ≤ (String.utf8EncodeChar c).length := by
  rw [String.length_utf8EncodeChar]; exact Char.utf8Size_pos c

theorem utf8_length_ge (text : List Char) : text.length ≤ (utf8 text).length := by
  induction text with
  | nil => simp [utf8]
  | cons c cs ih =>
    have := utf8Size_pos' c
    simp only [utf8, List.flatMap_cons, List.length_append, List.length_cons] at *
    omega

theorem utf8_length_gt (text : List Char) (c : Char) (hc : c ∈ text) (h : 127 < c.val) :
    text.length < (utf8 text).length := by
  induction text with
  | nil => cases hc
  | cons d cs ih =>
    simp only [utf8, List.flatMap_cons, List.length_append, List.length_cons] at *
    rcases List.mem_cons.1 hc with rfl | hm
    · have h2 : 2 ≤ (String.utf8EncodeChar c).length := by
        rw [String.length_utf8EncodeChar, Char.utf8Size]
        have : ¬ c.val ≤ 127 := by
          simp only [UInt32.le_iff_toNat_le, UInt32.lt_iff_toNat_lt] at *
          omega
        split
        · exact absurd (by assumption) this
        split <;> (try split) <;> omega
      have := utf8_length_ge cs
      simp only [utf8] at this
      omega
    · have := utf8Size_pos' d
      have := ih hm
      omega

/-- **C42, the full statement is false.** No standard revert reason that contains a character
outside ASCII is reported as written: its UTF-8 bytes are printed as one character each. -/
theorem C42_unicode_false (text : List Char) (pad : Bytes) (c : Char) (hc : c ∈ text)
    (h : 127 < c.val) (hl : (utf8 text).length < 2 ^ 64 - 68) :
    decodeRevertMsg (errorPayload text pad) ≠ .ok ("execution reverted: ".toList ++ text) := by
  rw [decode_errorPayload text pad hl]
  intro heq
  have he : (utf8 text).map latin = text := by
    have := Outcome.ok.inj heq
    exact List.append_cancel_left this
  have := utf8_length_gt text c hc h
  have hlen := congrArg List.length he
  simp at hlen
  omega

/-- A plain reason, a reason with an accent, an unstructured one, and one that aborts. -/
example : decodeRevertMsg (errorPayload "SetFormat".toList (List.replicate 23 0)) =
    .ok "execution reverted: SetFormat".toList := by decide +kernel

example : Ascii "SetFormat".toList ∧ (utf8 "SetFormat".toList).length < 2 ^ 64 - 68 :=
  ⟨by unfold Ascii; decide +kernel, by decide +kernel⟩

example : decodeRevertMsg (errorPayload ['é'] []) = .ok "execution reverted: Ã©".toList := by
  decide +kernel

example : 'é' ∈ ['é'] ∧ 127 < 'é'.val := by decide

example : decodeRevertMsg [0x41, 0x42] = .ok "execution reverted: AB".toList := by
  decide +kernel

example : decodeRevertMsg (List.replicate 68 0xff) = .panic := by decide +kernel

end Axon.Revert
