import Verif.Network.Compress

/-!
# C14: compressed messages are received unchanged
-/

namespace Axon.Compress

/-- C14: up to 8 MiB every message is received unchanged, for every lossless codec.  Full statement:
for every message size; false above 8 MiB, see `C14_too_large`. -/
theorem C14_roundtrip_partial (s : Snappy) (hs : s.Lossless) (msg : Bytes) (hlen : msg.length ≤ 2 ^ 23) :
    decompress s (compress s msg) = some msg := by
  unfold compress compressMsg fromRaw
  split
  · simp only [List.drop_succ_cons, List.drop_zero]
    cases hc : s.compressVec msg with
    | none => simp [decompress]
    | some y =>
      obtain ⟨h1, h2⟩ := hs msg y hc
      have hm : ¬ msg.length > maxLen := by unfold maxLen; omega
      simp only [decompress, h1, h2]
      rw [if_pos (by decide), if_neg hm]
  · simp [decompress]

/-- C14: whatever arrives is either the message sent or an error, never another message. -/
theorem C14_never_altered (s : Snappy) (hs : s.Lossless) (msg got : Bytes)
    (h : decompress s (compress s msg) = some got) : got = msg := by
  unfold compress compressMsg fromRaw at h
  split at h
  · simp only [List.drop_succ_cons, List.drop_zero] at h
    cases hc : s.compressVec msg with
    | none => rw [hc] at h; simpa [decompress] using h.symm
    | some y =>
      obtain ⟨h1, h2⟩ := hs msg y hc
      rw [hc] at h
      simp only [decompress, h1, h2] at h
      rw [if_pos (by decide)] at h
      split at h
      · simp at h
      · simpa using h.symm
  · simpa [decompress] using h.symm

/-- C14 is false for larger messages: what the sender compressed without complaint is rejected by the
receiver. -/
theorem C14_too_large (s : Snappy) (hs : s.Lossless) (msg y : Bytes) (hlen : 2 ^ 23 < msg.length)
    (hc : s.compressVec msg = some y) : decompress s (compress s msg) = none := by
  obtain ⟨h1, h2⟩ := hs msg y hc
  unfold compress compressMsg fromRaw
  rw [if_pos (by rw [List.length_cons]; unfold threshold; omega)]
  simp only [List.drop_succ_cons, List.drop_zero, hc, decompress, h1, h2]
  rw [if_pos (by decide), if_pos (by unfold maxLen; omega)]

/-- C14: messages of at most 1023 bytes are sent as they are, behind a zero byte. -/
theorem C14_small_uncompressed (s : Snappy) (msg : Bytes) (hlen : msg.length < 1024) :
    compress s msg = 0 :: msg := by
  unfold compress compressMsg fromRaw
  rw [if_neg (by rw [List.length_cons]; unfold threshold; omega)]

/-- C14: messages of 1024 bytes and more are sent compressed, behind the flag, unless the codec fails; then they are
sent as they are. -/
theorem C14_large_compressed (s : Snappy) (msg : Bytes) (hlen : 1024 ≤ msg.length) :
    (∀ y, s.compressVec msg = some y → compress s msg = 0x80 :: y) ∧
    (s.compressVec msg = none → compress s msg = 0 :: msg) := by
  unfold compress compressMsg fromRaw
  rw [if_pos (by rw [List.length_cons]; unfold threshold; omega)]
  simp only [List.drop_succ_cons, List.drop_zero]
  exact ⟨fun y hc => by rw [hc], fun hc => by rw [hc]⟩

/-- A lossless codec to instantiate the theorems: identity behind a marker, length by counting. -/
def sampleSnappy : Snappy where
  compressVec x := some (7 :: x)
  decompressLen y := some (y.length - 1)
  decompress y := some (y.drop 1)

theorem sampleSnappy_lossless : sampleSnappy.Lossless := by
  intro x y h
  simp only [sampleSnappy, Option.some.injEq] at h
  subst h
  simp [sampleSnappy]

example : decompress sampleSnappy (compress sampleSnappy (List.replicate 2000 5)) =
    some (List.replicate 2000 5) :=
  C14_roundtrip_partial _ sampleSnappy_lossless _ (by rw [List.length_replicate]; decide)

example : decompress sampleSnappy (compress sampleSnappy (List.replicate (2 ^ 23 + 1) 5)) = none :=
  C14_too_large _ sampleSnappy_lossless _ _ (by rw [List.length_replicate]; decide) rfl

example : compress sampleSnappy (List.replicate 1024 5) = 0x80 :: 7 :: List.replicate 1024 5 :=
  (C14_large_compressed _ _ (by rw [List.length_replicate]; decide)).1 _ rfl

end Axon.Compress
