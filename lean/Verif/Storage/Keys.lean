import Verif.Util.Bytes

/-!
# Database keys

Model of `core/storage/src/hash_key.rs`.
-/

namespace Axon.Storage

/-- `CommonPrefix::new` / `BlockKey`, `hash_key.rs:13-18`: eight bytes, big-endian. -/
def blockKey (n : Nat) : Bytes := beFixed 8 n

/-- `CommonPrefix::make_hash_key`, `hash_key.rs:28-36`. -/
def hashKey (n : Nat) (h : H256) : Bytes := blockKey n ++ h.bytes

/-- `CommonPrefix::height`, `hash_key.rs:24-26`, of the first eight bytes of a key. -/
def keyHeight (k : Bytes) : Nat := beNat (k.take 8)

/-- `CommonHashKey::decode`, `hash_key.rs:98-106`; `none` is the panic of `&bytes[0..8]` resp. of
`Hash::from_slice` on a wrong length. -/
def decodeHashKey (k : Bytes) : Option (Nat × H256) :=
  if 8 ≤ k.length then (FixedBytes.ofBytes 32 (k.drop 8)).map fun h => (keyHeight k, h) else none

/-- Byte order of the database (RocksDB's default comparator): lexicographic, shorter first. -/
def byteLt : Bytes → Bytes → Prop
  | _, [] => False
  | [], _ :: _ => True
  | x :: a, y :: b => x.toNat < y.toNat ∨ (x = y ∧ byteLt a b)

instance decByteLt : ∀ a b, Decidable (byteLt a b)
  | [], [] => isFalse (by simp [byteLt])
  | _ :: _, [] => isFalse (by simp [byteLt])
  | [], _ :: _ => isTrue (by simp [byteLt])
  | x :: a, y :: b => by
    unfold byteLt
    exact @instDecidableOr _ _ _ (@instDecidableAnd _ _ _ (decByteLt a b))

theorem byteLt_irrefl : ∀ a, ¬ byteLt a a
  | [] => by simp [byteLt]
  | x :: a => by
    simp only [byteLt]
    rintro (h | ⟨-, h⟩)
    · omega
    · exact byteLt_irrefl a h

theorem byteLt_trans : ∀ a b c, byteLt a b → byteLt b c → byteLt a c
  | _, _, [], _, h => by unfold byteLt at h; exact h.elim
  | _, [], _ :: _, h, _ => by unfold byteLt at h; exact h.elim
  | [], _ :: _, _ :: _, _, _ => by simp [byteLt]
  | x :: a, y :: b, z :: c, h1, h2 => by
    simp only [byteLt] at *
    rcases h1 with h1 | ⟨rfl, h1⟩
    · rcases h2 with h2 | ⟨rfl, h2⟩
      · left; omega
      · left; exact h1
    · rcases h2 with h2 | ⟨rfl, h2⟩
      · left; exact h2
      · right; exact ⟨rfl, byteLt_trans a b c h1 h2⟩

/-- On equal lengths the byte order is the numeric order. -/
theorem byteLt_iff_beNat : ∀ a b : Bytes, a.length = b.length → (byteLt a b ↔ beNat a < beNat b)
  | [], [], _ => by simp [byteLt]
  | [], _ :: _, h => by simp at h
  | _ :: _, [], h => by simp at h
  | x :: a, y :: b, h => by
    simp only [List.length_cons, Nat.add_right_cancel_iff] at h
    have ih := byteLt_iff_beNat a b h
    have ha := beNat_lt a
    have hb := beNat_lt b
    rw [h] at ha
    simp only [byteLt, beNat, ih, h]
    constructor
    · rintro (hlt | ⟨rfl, hlt⟩)
      · have : (x.toNat + 1) * 256 ^ b.length ≤ y.toNat * 256 ^ b.length :=
          Nat.mul_le_mul_right _ hlt
        rw [Nat.add_mul] at this
        omega
      · omega
    · intro hlt
      rcases Nat.lt_trichotomy x.toNat y.toNat with h1 | h1 | h1
      · exact Or.inl h1
      · refine Or.inr ⟨UInt8.toNat_inj.1 h1, ?_⟩
        rw [h1] at hlt
        omega
      · have : (y.toNat + 1) * 256 ^ b.length ≤ x.toNat * 256 ^ b.length :=
          Nat.mul_le_mul_right _ h1
        rw [Nat.add_mul] at this
        omega

theorem byteLt_append_of_lt : ∀ a b c d : Bytes, a.length = b.length → byteLt a b →
    byteLt (a ++ c) (b ++ d)
  | [], [], _, _, _, h => by simp [byteLt] at h
  | [], _ :: _, _, _, h, _ => by simp at h
  | _ :: _, [], _, _, h, _ => by simp at h
  | x :: a, y :: b, c, d, hl, h => by
    simp only [List.length_cons, Nat.add_right_cancel_iff] at hl
    simp only [List.cons_append, byteLt] at *
    rcases h with h | ⟨rfl, h⟩
    · exact Or.inl h
    · exact Or.inr ⟨rfl, byteLt_append_of_lt a b c d hl h⟩

theorem blockKey_length (n : Nat) : (blockKey n).length = 8 := by simp [blockKey]

theorem beNat_blockKey {n : Nat} (h : n < 2 ^ 64) : beNat (blockKey n) = n := by
  unfold blockKey
  apply beNat_beFixed_of_lt
  have : (256 : Nat) ^ 8 = 2 ^ 64 := by decide
  omega

theorem keyHeight_hashKey {n : Nat} (h : n < 2 ^ 64) (x : H256) : keyHeight (hashKey n x) = n := by
  unfold keyHeight hashKey
  rw [List.take_left' (blockKey_length n), beNat_blockKey h]

end Axon.Storage
