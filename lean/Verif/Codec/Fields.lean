import Verif.Codec.RlpProps

/-!
# Field codecs

RLP representation of the primitive field types used in `protocol/src/codec/*.rs`
(`rlp` 0.5 and `ethereum-types` 0.14 `Encodable`/`Decodable` instances, both dependencies).
-/

namespace Axon

/-- Unsigned integers below `2^n` (`u8`, `u32`, `u64`, `U64`, `U256`). -/
structure UIntN (n : Nat) where
  val : Nat
  lt : val < 2 ^ n
deriving DecidableEq

theorem UIntN.ext' {n : Nat} {a b : UIntN n} (h : a.val = b.val) : a = b := by
  cases a; cases b; simp_all

abbrev U8 := UIntN 8
abbrev U32 := UIntN 32
abbrev U64 := UIntN 64
abbrev U256 := UIntN 256

/-- Convert a natural number, `none` if it does not fit. -/
def UIntN.ofNat? (n v : Nat) : Option (UIntN n) := if h : v < 2 ^ n then some ⟨v, h⟩ else none

@[simp] theorem UIntN.ofNat?_val {n : Nat} (x : UIntN n) : UIntN.ofNat? n x.val = some x := by
  simp [UIntN.ofNat?, x.lt]

namespace Rlp

/-- `Encodable for u8/u32/u64/U64/U256`: minimal big-endian bytes. -/
def ofUint {n : Nat} (x : UIntN n) : Item := .str (beBytes x.val)

/-- `Decodable for u8/u32/u64/U64/U256`: a string without leading zero byte whose value fits
(`RlpInvalidIndirection`, `RlpIsTooBig`). -/
def toUint (n : Nat) : Item → Option (UIntN n)
  | .str b => if b.head? = some 0 then none else UIntN.ofNat? n (beNat b)
  | .list _ => none

/-- `Encodable for H160/H256/Bloom`: the bytes. -/
def ofFixed {n : Nat} (x : FixedBytes n) : Item := .str x.bytes

/-- `Decodable for H160/H256/Bloom`: exactly `n` bytes. -/
def toFixed (n : Nat) : Item → Option (FixedBytes n)
  | .str b => FixedBytes.ofBytes n b
  | .list _ => none

/-- `Decodable for Bytes/Vec<u8>`: any string. -/
def toBytes : Item → Option Bytes
  | .str b => some b
  | .list _ => none

/-- `Rlp::as_list`/`list_at`: decode every element.  (The crate reads a string as an empty list
here; the model rejects it.) -/
def toList {α : Type} (f : Item → Option α) : Item → Option (List α)
  | .str _ => none
  | .list l => l.mapM f

@[simp] theorem toUint_ofUint {n : Nat} (x : UIntN n) : toUint n (ofUint x) = some x := by
  unfold toUint ofUint
  have : (beBytes x.val).head? ≠ some 0 := by
    by_cases h : x.val = 0
    · rw [h]; simp
    · exact beBytes_head h
  simp [this]

@[simp] theorem toFixed_ofFixed {n : Nat} (x : FixedBytes n) : toFixed n (ofFixed x) = some x := by
  simp [toFixed, ofFixed]

@[simp] theorem toBytes_str (b : Bytes) : toBytes (.str b) = some b := rfl

theorem mapM_map_of_inverse {α : Type} (f : Item → Option α) (g : α → Item)
    (h : ∀ x, f (g x) = some x) (l : List α) : (l.map g).mapM f = some l := by
  induction l with
  | nil => rfl
  | cons x xs ih => simp [List.mapM_cons, h, ih]

theorem toList_map {α : Type} (f : Item → Option α) (g : α → Item)
    (h : ∀ x, f (g x) = some x) (l : List α) : toList f (.list (l.map g)) = some l :=
  mapM_map_of_inverse f g h l

theorem ofUint_injective {n : Nat} {a b : UIntN n} (h : ofUint a = ofUint b) : a = b := by
  have := congrArg (toUint n) h
  simpa using this

theorem ofFixed_injective {n : Nat} {a b : FixedBytes n} (h : ofFixed a = ofFixed b) : a = b := by
  have := congrArg (toFixed n) h
  simpa using this

/-- Decoding at byte level is inverse to encoding as soon as it is on items. -/
theorem decode_encode_item (x : Item) (h : (encode x).length < 2 ^ 64) :
    decode (encode x) = some x := by
  have := C01_decode_encode x (fits_of_length x h) []
  simp only [List.append_nil] at this
  simp [decode, this]

end Rlp
end Axon
