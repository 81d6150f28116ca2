import Verif.Codec.Rlp

/-!
# C01: the RLP item codec is lossless
-/

namespace Axon.Rlp

/-- C01: an encoded item followed by arbitrary bytes is read back as exactly that item, leaving
exactly the following bytes. -/
theorem C01_decode_encode (x : Item) (hx : x.Fits) (rest : Bytes) :
    decodePrefix (encode x ++ rest) = some (x, rest) := by
  unfold decodePrefix
  exact decodeItem_encode x hx rest _ (by rw [List.length_append]; omega)

/-- C01: two items whose encodings are prefix-comparable are equal (no encoding is a proper
prefix of another one and equal encodings come from equal items). -/
theorem C01_prefix_free (x y : Item) (hx : x.Fits) (hy : y.Fits) (r s : Bytes)
    (h : encode x ++ r = encode y ++ s) : x = y ∧ r = s := by
  have h1 := C01_decode_encode x hx r
  have h2 := C01_decode_encode y hy s
  rw [h, h2] at h1
  simp at h1
  exact ⟨h1.1.symm, h1.2.symm⟩

/-- C01: equal encodings come from equal items. -/
theorem C01_injective (x y : Item) (hx : x.Fits) (hy : y.Fits) (h : encode x = encode y) : x = y :=
  (C01_prefix_free x y hx hy [] [] (by simpa using h)).1

/-- A list payload (several items one after the other) determines the items. -/
theorem C01_encodeMany_injective (l m : List Item) (hl : FitsMany l) (hm : FitsMany m)
    (h : encodeMany l = encodeMany m) : l = m := by
  have h1 := decodeMany_encodeMany l hl (2 * (encodeMany l).length + 1) (by omega)
  have h2 := decodeMany_encodeMany m hm (2 * (encodeMany m).length + 1) (by omega)
  rw [h, h2] at h1
  simpa using h1.symm

/-- C01: decoding accepts canonical encodings only: accepted bytes are the encoding of the
returned item followed by the returned rest. -/
theorem C01_canonical (bs : Bytes) (x : Item) (rest : Bytes)
    (h : decodePrefix bs = some (x, rest)) : bs = encode x ++ rest :=
  (decode_sound _).1 bs x rest h

/-- Non-trivial instance: a nested list with a byte below and a byte above 0x7f, an empty string and
an empty list meets the hypothesis and has the standard encoding. -/
example : (Item.list [.str [5], .str [200], .str [], .list [.list []]]).Fits ∧
    encode (Item.list [.str [5], .str [200], .str [], .list [.list []]])
      = [0xc6, 5, 0x81, 200, 0x80, 0xc1, 0xc0] := by
  refine ⟨by simp [Item.Fits, FitsMany, encodeMany, encode, encStr, encPayload], by
    simp [encodeMany, encode, encStr, encPayload]⟩

/-- Non-canonical inputs are rejected: a header on a single small byte, and a long length below 56. -/
example : decodePrefix [0x81, 5] = none ∧ decodePrefix [0xb8, 1, 5] = none ∧
    decodePrefix [0xc3, 0x81, 200, 0x80, 9] = some (.list [.str [200], .str []], [9]) := by
  refine ⟨by rfl, by rfl, by rfl⟩

end Axon.Rlp
