import Verif.Codec.Hex
import Verif.Codec.Fields
import Verif.Util.Outcome

/-!
# Addresses as text and addresses of public keys

`Address` and `checksum` of protocol/src/types/primitive.rs and `deserialize_address` of protocol/src/codec/mod.rs.
Texts are ASCII, as bytes; the hash function is a parameter.
-/

namespace Axon.Addr

open Axon Axon.Hex

abbrev H160 := FixedBytes 20

/-- `to_lowercase` on ASCII. -/
def lowerByte (c : UInt8) : UInt8 := if 0x41 ≤ c.toNat ∧ c.toNat ≤ 0x5a then UInt8.ofNat (c.toNat + 32) else c

/-- `to_uppercase` on ASCII. -/
def upperByte (c : UInt8) : UInt8 := if 0x61 ≤ c.toNat ∧ c.toNat ≤ 0x7a then UInt8.ofNat (c.toNat - 32) else c

def lower (s : Text) : Text := s.map lowerByte

/-- `trim_start_matches("0x")`: as often as it is there. -/
def trim : Text → Text
  | [] => []
  | [c] => [c]
  | c :: d :: s => if c = 0x30 ∧ d = 0x78 then trim s else c :: d :: s

/-- Whether the digit is above 7, primitive.rs:674-676. -/
def big (c : UInt8) : Bool :=
  match digitVal c with
  | some n => 7 < n
  | none => false

/-- The fold of primitive.rs:670-687 over the characters and the digits of the hash. -/
def recase (a h : Text) : Text := List.zipWith (fun c d => if big d then upperByte c else c) a h

/-- `checksum`, primitive.rs:666-688: the index into the 64 digits of the hash panics behind its end. -/
def checksum (H : Bytes → H256) (s : Text) : Outcome Text :=
  let a := lower (trim s)
  if 64 < a.length then .panic else .ok (pfx ++ recase a (hexEncode (H a).bytes))

/-- `Display`, `eip55` and `Serialize`, primitive.rs:192-199, 258-260, 283-289. -/
def display (H : Bytes → H256) (a : H160) : Outcome Text := checksum H (hexEncode a.bytes)

/-- `from_bytes` with `ensure_len`, primitive.rs:243-246, 650-656. -/
def fromBytes (b : Bytes) : Option H160 := if h : b.length = 20 then some ⟨b, h⟩ else none

/-- `from_hex` with `clean_0x`, primitive.rs:252-256, 658-664. -/
def fromHex (s : Text) : Option H160 :=
  if pfx.isPrefixOf s || [0x30, 0x58].isPrefixOf s then (hexDecode (s.drop 2)).bind fromBytes else none

/-- `from_str`, primitive.rs:263-273. -/
def fromStr (H : Bytes → H256) (s : Text) : Outcome H160 :=
  (checksum H s).bind fun t => if t ≠ s then .err else Outcome.ofOption (fromHex (lower s))

/-- `to_checksum` of ethers-core: a character is in upper case where the digit of the hash is '8' or above. -/
def toChecksum (H : Bytes → H256) (a : H160) : Text :=
  List.zipWith (fun c d : UInt8 => if 56 ≤ d.toNat then upperByte c else lowerByte c) (hexEncode a.bytes)
    (hexEncode (H (hexEncode a.bytes)).bytes)

def strip (s : Text) : Text := if pfx.isPrefixOf s then s.drop 2 else s

/-- `deserialize_address`, protocol/src/codec/mod.rs:142-151, with `parse_checksummed` of ethers-core.  The parser
of fixed-hash may skip blanks; this makes no difference, as the text is compared afterwards. -/
def deserialize (H : Bytes → H256) (s : Text) : Option H160 := do
  let s := strip s
  let b ← decodePairs (strip s)
  let a ← fromBytes b
  if toChecksum H a = s then some a else none

/-- `from_hash`, primitive.rs:239-241. -/
def fromHash (h : H256) : H160 := ⟨h.bytes.drop 12, by rw [List.length_drop, h.len]⟩

/-- `from_pubkey_bytes`, primitive.rs:211-232; `decomp` reads a compressed key and writes it in full. -/
def fromPubkeyBytes (H : Bytes → H256) (decomp : Bytes → Option Bytes) (b : Bytes) : Option H160 :=
  if b.length ≠ 33 ∧ b.length ≠ 65 then none
  else if b.length = 33 then (decomp b).map fun u => fromHash (H (u.drop 1))
  else some (fromHash (H (b.drop 1)))

/-- `from_pubkey`, primitive.rs:234-237, for a key given in full. -/
def fromPubkey (H : Bytes → H256) (u : Bytes) : H160 := fromHash (H (u.drop 1))

/-! ## Lemmas -/

theorem byte_cases (P : UInt8 → Bool) (h : ∀ n : Fin 256, P (UInt8.ofNat n.val) = true) (c : UInt8) : P c = true := by
  have := h ⟨c.toNat, by have := c.toNat_lt; omega⟩
  rwa [ofNat_toNat_u8] at this

theorem lowerByte_upperByte (c : UInt8) : lowerByte (upperByte c) = lowerByte c := by
  have := byte_cases (fun c => lowerByte (upperByte c) == lowerByte c) (by decide +kernel) c
  simpa using this

theorem lowerByte_idem (c : UInt8) : lowerByte (lowerByte c) = lowerByte c := by
  have := byte_cases (fun c => lowerByte (lowerByte c) == lowerByte c) (by decide +kernel) c
  simpa using this

theorem lowerByte_digit {n : Nat} (h : n < 16) : lowerByte (digit n) = digit n := by
  have key : ∀ n : Fin 16, lowerByte (digit n.val) = digit n.val := by decide +kernel
  exact key ⟨n, h⟩

theorem upper_digit_ne_x {n : Nat} (h : n < 16) : upperByte (digit n) ≠ 0x78 := by
  have key : ∀ n : Fin 16, upperByte (digit n.val) ≠ 0x78 := by decide +kernel
  exact key ⟨n, h⟩

theorem big_digit {n : Nat} (h : n < 16) : big (digit n) = decide (56 ≤ (digit n).toNat) := by
  have key : ∀ n : Fin 16, big (digit n.val) = decide (56 ≤ (digit n.val).toNat) := by decide +kernel
  exact key ⟨n, h⟩

theorem hexEncode_digits (b : Bytes) : ∀ c ∈ hexEncode b, ∃ n, n < 16 ∧ c = digit n := by
  induction b with
  | nil => simp [hexEncode]
  | cons x b ih =>
    have hx := x.toNat_lt
    intro c hc
    simp only [hexEncode, List.mem_cons] at hc
    rcases hc with rfl | rfl | hc
    · exact ⟨_, by omega, rfl⟩
    · exact ⟨_, by omega, rfl⟩
    · exact ih c hc

theorem lower_hexEncode (b : Bytes) : lower (hexEncode b) = hexEncode b := by
  unfold lower
  refine (List.map_congr_left fun c hc => ?_).trans (List.map_id _)
  obtain ⟨n, hn, rfl⟩ := hexEncode_digits b c hc
  exact lowerByte_digit hn

theorem trim_id {s : Text} (h : pfx.isPrefixOf s = false) : trim s = s := by
  match s, h with
  | [], _ => rfl
  | [c], _ => rfl
  | c :: d :: s, h =>
    unfold trim
    rw [if_neg]
    rintro ⟨rfl, rfl⟩
    simp [pfx, List.isPrefixOf] at h

theorem trim_length (s : Text) : (trim s).length ≤ s.length := by
  induction s using trim.induct with
  | case1 => simp [trim]
  | case2 => simp [trim]
  | case3 c d s h ih => unfold trim; rw [if_pos h]; simp; omega
  | case4 c d s h => unfold trim; rw [if_neg h]; simp

theorem trim_pfx (s : Text) : trim (pfx ++ s) = trim s := by
  simp only [pfx, List.cons_append, List.nil_append]
  rw [trim.eq_def]
  simp

theorem recase_length (a h : Text) (hl : a.length ≤ h.length) : (recase a h).length = a.length := by
  unfold recase; rw [List.length_zipWith]; omega

theorem lower_recase (a h : Text) (hl : a.length ≤ h.length) : lower (recase a h) = lower a := by
  unfold lower recase
  induction a generalizing h with
  | nil => simp
  | cons c a ih =>
    match h, hl with
    | d :: h, hl =>
      simp only [List.zipWith_cons_cons, List.map_cons]
      rw [ih h (by simpa using hl)]
      split
      · rw [lowerByte_upperByte]
      · rfl

theorem lower_lower (a : Text) : lower (lower a) = lower a := by
  unfold lower
  rw [List.map_map]
  exact List.map_congr_left fun c _ => lowerByte_idem c

theorem lower_append (a b : Text) : lower (a ++ b) = lower a ++ lower b := by simp [lower]

theorem length_lower (a : Text) : (lower a).length = a.length := by simp [lower]

theorem digitVal_lower (c : UInt8) : digitVal (lowerByte c) = digitVal c := by
  have := byte_cases (fun c => digitVal (lowerByte c) == digitVal c) (by decide +kernel) c
  simpa using this

theorem digit_of_val {c : UInt8} {n : Nat} (h : digitVal c = some n) : lowerByte c = digit n := by
  have := byte_cases (fun c => (digitVal c).all fun n => lowerByte c == digit n) (by decide +kernel) c
  rw [h] at this
  simpa using this

theorem decodePairs_lower : ∀ (s : Text), decodePairs (lower s) = decodePairs s
  | [] => rfl
  | [_] => rfl
  | a :: b :: r => by
    simp only [lower, List.map_cons, decodePairs, digitVal_lower]
    have := decodePairs_lower r
    simp only [lower] at this
    rw [this]

theorem lower_of_decode : ∀ (s : Text) (b : Bytes), decodePairs s = some b → lower s = hexEncode b
  | [], b, h => by simp [decodePairs] at h; subst h; rfl
  | [_], b, h => by simp [decodePairs] at h
  | x :: y :: r, b, h => by
    simp only [decodePairs, Option.bind_eq_bind, Option.bind_eq_some_iff, Option.pure_def,
      Option.some.injEq] at h
    obtain ⟨u, hu, v, hv, t, ht, rfl⟩ := h
    have h1 := digitVal_lt hu
    have h2 := digitVal_lt hv
    simp only [lower, List.map_cons, hexEncode]
    rw [digit_of_val hu, digit_of_val hv]
    have := lower_of_decode r t ht
    simp only [lower] at this
    have e1 : (UInt8.ofNat (16 * u + v)).toNat = 16 * u + v := by rw [toNat_ofNat_u8]; omega
    have e2 : (16 * u + v) / 16 = u := by omega
    have e3 : (16 * u + v) % 16 = v := by omega
    rw [this, e1, e2, e3]

theorem hash_digits (h : H256) : (hexEncode h.bytes).length = 64 := by rw [hexEncode_length, h.len]

theorem display_eq (H : Bytes → H256) (a : H160) :
    display H a = .ok (pfx ++ recase (hexEncode a.bytes) (hexEncode (H (hexEncode a.bytes)).bytes)) := by
  unfold display checksum
  rw [trim_id (pfx_hexEncode _), lower_hexEncode]
  dsimp only
  rw [if_neg (by rw [hexEncode_length, a.len]; omega)]

/-- A recased text of digits has no prefix. -/
theorem recase_no_pfx (b : Bytes) (h : Text) : pfx.isPrefixOf (recase (hexEncode b) h) = false := by
  match b, h with
  | [], _ => rfl
  | _ :: _, [] => rfl
  | x :: b, [d] => simp [hexEncode, recase, pfx, List.isPrefixOf]
  | x :: b, d :: e :: h =>
    have hx := x.toNat_lt
    have h1 := digit_ne_x (n := x.toNat % 16) (by omega)
    have h2 := upper_digit_ne_x (n := x.toNat % 16) (by omega)
    simp only [hexEncode, recase, List.zipWith_cons_cons, pfx, List.isPrefixOf]
    have : ((0x78 : UInt8) == if big e = true then upperByte (digit (x.toNat % 16)) else digit (x.toNat % 16)) =
        false := by
      rw [beq_eq_false_iff_ne]
      split
      · exact fun h => h2 h.symm
      · exact fun h => h1 h.symm
    rw [this]; simp

theorem toChecksum_eq (H : Bytes → H256) (a : H160) :
    toChecksum H a = recase (hexEncode a.bytes) (hexEncode (H (hexEncode a.bytes)).bytes) := by
  unfold toChecksum recase
  have gen : ∀ (s t : Text), (∀ c ∈ s, ∃ n, n < 16 ∧ c = digit n) → (∀ c ∈ t, ∃ n, n < 16 ∧ c = digit n) →
      List.zipWith (fun c d : UInt8 => if 56 ≤ d.toNat then upperByte c else lowerByte c) s t =
        List.zipWith (fun c d => if big d then upperByte c else c) s t := by
    intro s
    induction s with
    | nil => intro t _ _; rfl
    | cons c s ih =>
      intro t hs ht
      match t with
      | [] => rfl
      | d :: t =>
        simp only [List.zipWith_cons_cons]
        rw [ih t (fun c hc => hs c (by simp [hc])) (fun c hc => ht c (by simp [hc]))]
        obtain ⟨m, hm, rfl⟩ := hs c (by simp)
        obtain ⟨n, hn, rfl⟩ := ht d (by simp)
        rw [big_digit hn, lowerByte_digit hm]
        simp
  exact gen _ _ (hexEncode_digits _) (hexEncode_digits _)

end Axon.Addr
