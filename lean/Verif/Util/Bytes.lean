/-!
# Byte strings and big-endian integers

Shared vocabulary of the codec models.  Rust `u8` is Lean's `UInt8`, a byte string
(`Vec<u8>`, `Bytes`, `&[u8]`) is a `List UInt8`.
-/

namespace Axon

/-- A byte string (`Vec<u8>` / `Bytes` / `&[u8]`). -/
abbrev Bytes := List UInt8

/-- Big-endian value of a byte string (most significant byte first). -/
def beNat : Bytes → Nat
  | [] => 0
  | b :: bs => b.toNat * 256 ^ bs.length + beNat bs

/-- The bytes of a number, at most as many as the first argument says. -/
def beBytesAux : Nat → Nat → Bytes
  | 0, _ => []
  | f + 1, n => if n = 0 then [] else beBytesAux f (n / 256) ++ [UInt8.ofNat n]

/-- Minimal big-endian bytes of a number (no leading zero byte, empty for `0`),
most significant byte first. -/
@[irreducible] def beBytes (n : Nat) : Bytes := beBytesAux n n

/-- Big-endian bytes with a fixed width `w` (the value is taken modulo `256^w`). -/
def beFixed : Nat → Nat → Bytes
  | 0, _ => []
  | w + 1, n => beFixed w (n / 256) ++ [UInt8.ofNat n]

/-- Induction on lists from the right. -/
theorem snoc_induction {α : Type _} {P : List α → Prop} (nil : P [])
    (snoc : ∀ xs x, P xs → P (xs ++ [x])) (l : List α) : P l := by
  have : ∀ l : List α, P l.reverse := by
    intro l
    induction l with
    | nil => simpa
    | cons x xs ih => simpa using snoc _ x ih
  simpa using this l.reverse

@[simp] theorem beNat_nil : beNat [] = 0 := rfl

theorem beNat_append (a b : Bytes) : beNat (a ++ b) = beNat a * 256 ^ b.length + beNat b := by
  induction a with
  | nil => simp [beNat]
  | cons x xs ih =>
    simp only [List.cons_append, beNat, ih, List.length_append, Nat.pow_add, Nat.add_mul]
    rw [Nat.mul_assoc]; omega

theorem beNat_snoc (a : Bytes) (b : UInt8) : beNat (a ++ [b]) = beNat a * 256 + b.toNat := by
  simp [beNat_append, beNat]

theorem beNat_lt (bs : Bytes) : beNat bs < 256 ^ bs.length := by
  induction bs with
  | nil => simp [beNat]
  | cons b bs ih =>
    simp only [beNat, List.length_cons, Nat.pow_succ]
    have hb : b.toNat < 256 := b.toNat_lt
    have : (b.toNat + 1) * 256 ^ bs.length ≤ 256 * 256 ^ bs.length :=
      Nat.mul_le_mul_right _ hb
    rw [Nat.add_mul] at this
    omega

theorem toNat_ofNat_u8 (n : Nat) : (UInt8.ofNat n).toNat = n % 256 := by
  simp

theorem ofNat_toNat_u8 (b : UInt8) : UInt8.ofNat b.toNat = b := by simp

@[simp] theorem beBytes_zero : beBytes 0 = [] := by unfold beBytes; rfl

theorem beBytesAux_eq : ∀ (f g n : Nat), n ≤ f → n ≤ g → beBytesAux f n = beBytesAux g n := by
  intro f
  induction f with
  | zero =>
    intro g n hf _
    have : n = 0 := by omega
    subst this
    cases g <;> simp [beBytesAux]
  | succ f ih =>
    intro g n hf hg
    cases g with
    | zero =>
      have : n = 0 := by omega
      subst this
      simp [beBytesAux]
    | succ g =>
      simp only [beBytesAux]
      by_cases h : n = 0
      · simp [h]
      · rw [if_neg h, if_neg h, ih g (n / 256) (by omega) (by omega)]

theorem beBytes_pos {n : Nat} (h : n ≠ 0) : beBytes n = beBytes (n / 256) ++ [UInt8.ofNat n] := by
  unfold beBytes
  cases n with
  | zero => exact absurd rfl h
  | succ m =>
    rw [beBytesAux, if_neg h, beBytesAux_eq m ((m + 1) / 256) _ (by omega) (Nat.le_refl _)]

@[simp] theorem beNat_beBytes (n : Nat) : beNat (beBytes n) = n := by
  induction n using Nat.strongRecOn with
  | _ n ih =>
    by_cases h : n = 0
    · simp [h]
    · rw [beBytes_pos h, beNat_snoc, ih (n / 256) (by omega), toNat_ofNat_u8]; omega

theorem beBytes_head {n : Nat} (h : n ≠ 0) : (beBytes n).head? ≠ some 0 := by
  induction n using Nat.strongRecOn with
  | _ n ih =>
    rw [beBytes_pos h]
    by_cases h2 : n / 256 = 0
    · rw [h2]; simp
      intro hc
      have := congrArg UInt8.toNat hc
      rw [toNat_ofNat_u8] at this; simp at this; omega
    · have := ih (n / 256) (by omega) h2
      have hne : beBytes (n / 256) ≠ [] := by
        intro hc
        have h3 := beNat_beBytes (n / 256); rw [hc] at h3; simp at h3; omega
      obtain ⟨x, xs, hx⟩ := List.exists_cons_of_ne_nil hne
      rw [hx] at this ⊢; simpa using this

theorem beBytes_length_le (n w : Nat) (h : n < 256 ^ w) : (beBytes n).length ≤ w := by
  induction w generalizing n with
  | zero => simp at h; simp [h]
  | succ w ih =>
    by_cases h0 : n = 0
    · simp [h0]
    · rw [beBytes_pos h0]
      have : n / 256 < 256 ^ w := by
        rw [Nat.pow_succ] at h; omega
      simpa using ih _ this

theorem beBytes_length_pos {n : Nat} (h : n ≠ 0) : 0 < (beBytes n).length := by
  rw [beBytes_pos h]; simp

/-- A byte string without leading zero is the minimal encoding of its value. -/
theorem beBytes_beNat (bs : Bytes) (h : bs.head? ≠ some 0) : beBytes (beNat bs) = bs := by
  induction bs using snoc_induction with
  | nil => simp
  | snoc xs x ih =>
    rw [beNat_snoc]
    have hx : x.toNat < 256 := x.toNat_lt
    cases xs with
    | nil =>
      simp at h
      have : x.toNat ≠ 0 := by
        intro hc; apply h; exact UInt8.toNat_inj.mp (by simpa using hc)
      simp only [beNat_nil, Nat.zero_mul, Nat.zero_add, List.nil_append]
      rw [beBytes_pos this]
      have : x.toNat / 256 = 0 := by omega
      rw [this]; simp
    | cons y ys =>
      have h' : (y :: ys).head? ≠ some 0 := by simpa using h
      have ih' := ih h'
      have hpos : beNat (y :: ys) ≠ 0 := by
        intro hc; rw [hc] at ih'; simp at ih'
      have hne : beNat (y :: ys) * 256 + x.toNat ≠ 0 := by omega
      rw [beBytes_pos hne]
      have h1 : (beNat (y :: ys) * 256 + x.toNat) / 256 = beNat (y :: ys) := by omega
      have h2 : UInt8.ofNat (beNat (y :: ys) * 256 + x.toNat) = x := by
        apply UInt8.toNat_inj.mp; rw [toNat_ofNat_u8]; omega
      rw [h1, h2, ih']

@[simp] theorem beFixed_length (w n : Nat) : (beFixed w n).length = w := by
  induction w generalizing n with
  | zero => rfl
  | succ w ih => simp [beFixed, ih]

theorem beNat_beFixed (w n : Nat) : beNat (beFixed w n) = n % 256 ^ w := by
  induction w generalizing n with
  | zero => simp [beFixed, Nat.mod_one]
  | succ w ih =>
    rw [beFixed, beNat_snoc, ih, toNat_ofNat_u8, Nat.pow_succ, Nat.mul_comm (256 ^ w) 256,
      Nat.mod_mul]
    omega

theorem beNat_beFixed_of_lt {w n : Nat} (h : n < 256 ^ w) : beNat (beFixed w n) = n := by
  rw [beNat_beFixed, Nat.mod_eq_of_lt h]

theorem beFixed_beNat (bs : Bytes) : beFixed bs.length (beNat bs) = bs := by
  induction bs using snoc_induction with
  | nil => rfl
  | snoc xs x ih =>
    have hx : x.toNat < 256 := x.toNat_lt
    simp only [List.length_append, List.length_cons, List.length_nil, Nat.zero_add, beFixed,
      beNat_snoc]
    have h1 : (beNat xs * 256 + x.toNat) / 256 = beNat xs := by omega
    have h2 : UInt8.ofNat (beNat xs * 256 + x.toNat) = x := by
      apply UInt8.toNat_inj.mp; rw [toNat_ofNat_u8]; omega
    rw [h1, h2, ih]

theorem beFixed_inj {w a b : Nat} (ha : a < 256 ^ w) (hb : b < 256 ^ w)
    (h : beFixed w a = beFixed w b) : a = b := by
  have := congrArg beNat h
  rwa [beNat_beFixed_of_lt ha, beNat_beFixed_of_lt hb] at this

/-- Fixed-size byte strings (`H160`, `H256`, `Bloom`, ...). -/
structure FixedBytes (n : Nat) where
  bytes : Bytes
  len : bytes.length = n
deriving DecidableEq

theorem FixedBytes.ext' {n : Nat} {a b : FixedBytes n} (h : a.bytes = b.bytes) : a = b := by
  cases a; cases b; simp_all

/-- Parse a byte string of exactly `n` bytes. -/
def FixedBytes.ofBytes (n : Nat) (b : Bytes) : Option (FixedBytes n) :=
  if h : b.length = n then some ⟨b, h⟩ else none

@[simp] theorem FixedBytes.ofBytes_bytes {n : Nat} (x : FixedBytes n) :
    FixedBytes.ofBytes n x.bytes = some x := by
  simp [FixedBytes.ofBytes, x.len]

abbrev H160 := FixedBytes 20
abbrev H256 := FixedBytes 32

end Axon
