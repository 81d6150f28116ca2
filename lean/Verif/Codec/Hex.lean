import Verif.Util.Bytes

/-!
# Hex text codec

Model of `hex_encode`, `hex_decode`, `decode_256bits_key`, `serialize_uint` in
`protocol/src/codec/mod.rs` and of `Hex::as_string`, `Hex::from_str` in
`protocol/src/types/primitive.rs`.  A text is modelled by its UTF-8 bytes.
-/

namespace Axon.Hex

/-- Text as UTF-8 bytes. -/
abbrev Text := List UInt8

/-- `"0x"`, `HEX_PREFIX`, `types/primitive.rs:28` -/
def pfx : Text := [0x30, 0x78]

/-- Lower case digit of a nibble: `CHARS`, `codec/mod.rs:16`; the table of `faster_hex`. -/
def digit (n : Nat) : UInt8 := if n < 10 then UInt8.ofNat (0x30 + n) else UInt8.ofNat (0x57 + n)

/-- Value of a hex digit in either case (`faster_hex`'s check and lookup). -/
def digitVal (c : UInt8) : Option Nat :=
  if 0x30 ≤ c.toNat ∧ c.toNat ≤ 0x39 then some (c.toNat - 0x30)
  else if 0x61 ≤ c.toNat ∧ c.toNat ≤ 0x66 then some (c.toNat - 0x57)
  else if 0x41 ≤ c.toNat ∧ c.toNat ≤ 0x46 then some (c.toNat - 0x37)
  else none

/-- `hex_encode`, `codec/mod.rs:71-73` -/
def hexEncode : Bytes → Text
  | [] => []
  | b :: bs => digit (b.toNat / 16) :: digit (b.toNat % 16) :: hexEncode bs

/-- `faster_hex::hex_decode` with a destination of half the length: odd lengths and non-digits are
errors. -/
def decodePairs : Text → Option Bytes
  | [] => some []
  | [_] => none
  | a :: b :: r => do
    let x ← digitVal a
    let y ← digitVal b
    let t ← decodePairs r
    pure (UInt8.ofNat (16 * x + y) :: t)

/-- `hex_decode`, `codec/mod.rs:75-91`: an optional `0x` is removed. -/
def hexDecode (s : Text) : Option Bytes :=
  if s = [] then some []
  else if pfx.isPrefixOf s then decodePairs (s.drop 2)
  else decodePairs s

/-- `Hex::as_string`, `types/primitive.rs:116-118` -/
def asString (b : Bytes) : Text := pfx ++ hexEncode b

/-- `Hex::from_str`, `types/primitive.rs:139-149`: the prefix is required and removed, then
`hex_decode` is applied to the rest. -/
def fromStr (s : Text) : Option Bytes :=
  if pfx.isPrefixOf s then hexDecode (s.drop 2) else none

/-- `decode_256bits_key`, `codec/mod.rs:112-132` -/
def decodeKey (s : Text) : Option Bytes :=
  if pfx.isPrefixOf s ∨ [0x30, 0x58].isPrefixOf s then
    if s.length = 66 then decodePairs (s.drop 2) else none
  else none

/-- The digits written by `to_hex_raw(.., skip_leading_zero = true)` for big-endian bytes,
`codec/mod.rs:153-177`; the first byte loses its upper digit if that is zero. -/
def toHexRaw : Bytes → Text
  | [] => []
  | b :: bs =>
    (if b.toNat / 16 ≠ 0 then [digit (b.toNat / 16)] else []) ++
      digit (b.toNat % 16) :: hexEncode bs

/-- `serialize_uint`, `codec/mod.rs:93-110`: leading zero bytes are dropped, zero is `0x0`. -/
def serializeUint (n : Nat) : Text :=
  match (beFixed 32 n).dropWhile (· == 0) with
  | [] => pfx ++ [0x30]
  | b :: bs => pfx ++ toHexRaw (b :: bs)

/-! ## Lemmas -/

theorem digitVal_digit {n : Nat} (h : n < 16) : digitVal (digit n) = some n := by
  have key : ∀ n : Fin 16, digitVal (digit n.val) = some n.val := by decide
  exact key ⟨n, h⟩

theorem digitVal_lt {c : UInt8} {n : Nat} (h : digitVal c = some n) : n < 16 := by
  unfold digitVal at h
  repeat' split at h
  all_goals simp at h
  all_goals omega

theorem digit_ne_x {n : Nat} (h : n < 16) : digit n ≠ 0x78 := by
  have key : ∀ n : Fin 16, digit n.val ≠ 0x78 := by decide
  exact key ⟨n, h⟩

theorem u8_split (b : UInt8) : UInt8.ofNat (16 * (b.toNat / 16) + b.toNat % 16) = b := by
  have : 16 * (b.toNat / 16) + b.toNat % 16 = b.toNat := by omega
  rw [this]; exact ofNat_toNat_u8 b

theorem decodePairs_hexEncode : ∀ bs : Bytes, decodePairs (hexEncode bs) = some bs
  | [] => rfl
  | b :: bs => by
    have hb := b.toNat_lt
    simp only [hexEncode, decodePairs]
    rw [digitVal_digit (by omega), digitVal_digit (by omega), decodePairs_hexEncode bs]
    simp only [Option.bind_eq_bind, Option.bind_some, Option.pure_def, u8_split]

theorem hexEncode_length (bs : Bytes) : (hexEncode bs).length = 2 * bs.length := by
  induction bs with
  | nil => rfl
  | cons b bs ih => simp only [hexEncode, List.length_cons, ih]; omega

theorem pfx_hexEncode (bs : Bytes) : pfx.isPrefixOf (hexEncode bs) = false := by
  cases bs with
  | nil => rfl
  | cons b bs =>
    have hb := b.toNat_lt
    have := digit_ne_x (n := b.toNat % 16) (by omega)
    simp only [pfx, hexEncode, List.isPrefixOf]
    have h2 : ((0x78 : UInt8) == digit (b.toNat % 16)) = false := by
      simp only [beq_eq_false_iff_ne]; exact fun h => this h.symm
    simp [h2]

theorem decodePairs_length : ∀ (s : Text) (b : Bytes), decodePairs s = some b →
    s.length = 2 * b.length
  | [], b, h => by simp [decodePairs] at h; simp [h]
  | [_], b, h => by simp [decodePairs] at h
  | x :: y :: r, b, h => by
    simp only [decodePairs, Option.bind_eq_bind, Option.bind_eq_some_iff, Option.pure_def,
      Option.some.injEq] at h
    obtain ⟨u, -, v, -, t, ht, rfl⟩ := h
    simp only [List.length_cons, decodePairs_length r t ht]
    omega

end Axon.Hex
