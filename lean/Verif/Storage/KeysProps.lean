import Verif.Storage.Keys

/-!
# C09: database keys are injective and ordered by block number
-/

namespace Axon.Storage

/-- C09: decoding a key gives back block number and hash. -/
theorem C09_decode_encode (n : Nat) (h : H256) (hn : n < 2 ^ 64) :
    decodeHashKey (hashKey n h) = some (n, h) := by
  have hl := h.len
  unfold decodeHashKey
  rw [if_pos (by simp [hashKey, blockKey_length]), keyHeight_hashKey hn]
  have : (hashKey n h).drop 8 = h.bytes := by
    unfold hashKey; rw [List.drop_left' (blockKey_length n)]
  rw [this]
  simp [FixedBytes.ofBytes, hl]

/-- C09: different (number, hash) pairs have different keys. -/
theorem C09_hash_key_injective (m n : Nat) (h k : H256) (hm : m < 2 ^ 64) (hn : n < 2 ^ 64)
    (he : hashKey m h = hashKey n k) : m = n ∧ h = k := by
  have h1 := C09_decode_encode m h hm
  have h2 := C09_decode_encode n k hn
  rw [he, h2] at h1
  simp at h1
  exact ⟨h1.1.symm, h1.2.symm⟩

/-- C09: different block numbers have different block keys. -/
theorem C09_block_key_injective (m n : Nat) (hm : m < 2 ^ 64) (hn : n < 2 ^ 64)
    (he : blockKey m = blockKey n) : m = n := by
  have := congrArg beNat he
  rwa [beNat_blockKey hm, beNat_blockKey hn] at this

/-- C09: block keys (8 bytes), hash keys (32 bytes: latest block, latest proof, hash index) and
combined keys (40 bytes) never coincide, so the schemas sharing a column do not overwrite each other
across these shapes. -/
theorem C09_shapes_disjoint (m n : Nat) (h k : H256) :
    blockKey m ≠ k.bytes ∧ blockKey m ≠ hashKey n h ∧ hashKey n h ≠ k.bytes := by
  have h1 := h.len
  have h2 := k.len
  have h3 := blockKey_length m
  have h4 : (hashKey n h).length = 40 := by
    unfold hashKey; rw [List.length_append, blockKey_length, h1]
  refine ⟨fun he => ?_, fun he => ?_, fun he => ?_⟩
  · rw [he] at h3; omega
  · rw [he] at h3; omega
  · rw [he] at h4; omega

/-- C09: byte order is the numeric order of block numbers, whatever the hashes. -/
theorem C09_order (m n : Nat) (h k : H256) (hm : m < 2 ^ 64) (hn : n < 2 ^ 64) (hlt : m < n) :
    byteLt (hashKey m h) (hashKey n k) ∧ byteLt (blockKey m) (blockKey n) := by
  have hb : byteLt (blockKey m) (blockKey n) := by
    rw [byteLt_iff_beNat _ _ (by simp [blockKey_length]), beNat_blockKey hm, beNat_blockKey hn]
    exact hlt
  exact ⟨byteLt_append_of_lt _ _ _ _ (by simp [blockKey_length]) hb, hb⟩

/-- C09: the keys of one block are contiguous: a key between two keys of block `n` belongs to block
`n`. -/
theorem C09_contiguous (n m : Nat) (a b k : H256) (hn : n < 2 ^ 64) (hm : m < 2 ^ 64)
    (h1 : byteLt (hashKey n a) (hashKey m k)) (h2 : byteLt (hashKey m k) (hashKey n b)) : m = n := by
  rcases Nat.lt_trichotomy m n with h | h | h
  · exact absurd (byteLt_trans _ _ _ h1 (C09_order m n k a hm hn h).1) (byteLt_irrefl _)
  · exact h
  · exact absurd (byteLt_trans _ _ _ h2 (C09_order n m b k hn hm h).1) (byteLt_irrefl _)

/-- C09: the keys with block `n`'s prefix are exactly the keys of block `n`. -/
theorem C09_prefix (n m : Nat) (h : H256) (hn : n < 2 ^ 64) (hm : m < 2 ^ 64) :
    blockKey n <+: hashKey m h ↔ m = n := by
  constructor
  · rintro ⟨t, ht⟩
    have := congrArg (List.take 8) ht
    unfold hashKey at this
    rw [List.take_left' (blockKey_length n), List.take_left' (blockKey_length m)] at this
    exact (C09_block_key_injective n m hn hm this).symm
  · rintro rfl
    exact ⟨h.bytes, rfl⟩

/-- Concrete keys around a byte boundary: block 255 comes before block 256. -/
example : byteLt (hashKey 255 ⟨List.replicate 32 0xff, rfl⟩) (hashKey 256 ⟨List.replicate 32 0, rfl⟩) ∧
    blockKey 256 = [0, 0, 0, 0, 0, 0, 1, 0] := by
  refine ⟨(C09_order 255 256 _ _ (by decide) (by decide) (by decide)).1, by decide⟩

end Axon.Storage
