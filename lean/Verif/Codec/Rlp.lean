import Verif.Util.Bytes

/-!
# RLP

Model of the `rlp` crate (0.5) as it is used by `protocol/src/codec/*.rs`.  The crate is a
dependency and its source is not part of `/repo`; the layout is the Ethereum RLP layout.

Simplification: the crate reads lazily (`Rlp::at`, `val_at`); the model parses a complete
item tree first.  On inputs produced by `encode` both agree, also when they are followed by bytes that
do not start with a complete item.  On other inputs they can differ in both directions: the crate's
item count stops silently at the first bytes of a list that are no item (the model refuses the list),
and it runs on into complete items behind the outermost list (the model ignores them).
-/

namespace Axon.Rlp

/-- An RLP item: a byte string or a list of items. -/
inductive Item where
  | str (b : Bytes)
  | list (l : List Item)
deriving Repr

/-- Header of a long string/list: `base + number of length bytes`, then the length bytes
(`RlpStream::insert_list_payload` / `BasicEncoder::insert_size`). -/
def longHeader (base n : Nat) : Bytes :=
  UInt8.ofNat (base + (beBytes n).length) :: beBytes n

/-- Encoding of a byte string (`BasicEncoder::encode_value`). -/
def encStr (b : Bytes) : Bytes :=
  match b with
  | [x] => if x.toNat < 0x80 then [x] else [0x81, x]
  | _ =>
    if b.length < 56 then UInt8.ofNat (0x80 + b.length) :: b
    else longHeader 0xb7 b.length ++ b

/-- Wrap an already encoded list payload (`RlpStream::insert_list_payload`). -/
def encPayload (p : Bytes) : Bytes :=
  if p.length < 56 then UInt8.ofNat (0xc0 + p.length) :: p
  else longHeader 0xf7 p.length ++ p

mutual
/-- Encoding of an item (`RlpStream::append`). -/
def encode : Item → Bytes
  | .str b => encStr b
  | .list l => encPayload (encodeMany l)
/-- Concatenated encodings (the payload of a list). -/
def encodeMany : List Item → Bytes
  | [] => []
  | x :: xs => encode x ++ encodeMany xs
end

/-- Split off exactly `n` bytes (`PayloadInfo` check "RlpIsTooShort"). -/
def splitN (n : Nat) (t : Bytes) : Option (Bytes × Bytes) :=
  if t.length < n then none else some (t.take n, t.drop n)

/-- Read a long length: `k` length bytes, no leading zero, value above 55, then the value bytes
(`rlpin.rs` `calculate_payload_info`). -/
def splitLong (k : Nat) (t : Bytes) : Option (Bytes × Bytes) :=
  match splitN k t with
  | none => none
  | some (lb, r) =>
    if lb.head? = some 0 then none
    else if beNat lb < 56 then none
    else splitN (beNat lb) r

/-- Kind of payload found behind a header. -/
inductive Kind where
  | str | list
deriving DecidableEq, Repr

/-- A string payload of a short header: a single byte below `0x80` must not have a header
(`RlpInvalidIndirection`). -/
def checkShort (p : Bytes) : Bool :=
  match p with
  | [x] => decide (0x80 ≤ x.toNat)
  | _ => true

/-- Read the header at the front of a byte string and split off its payload
(`rlpin.rs` `PayloadInfo::from` and `BasicDecoder::decode_value`). -/
def splitHeader (b : UInt8) (t : Bytes) : Option (Kind × Bytes × Bytes) :=
  if b.toNat < 0x80 then some (.str, [b], t)
  else if b.toNat < 0xb8 then
    match splitN (b.toNat - 0x80) t with
    | none => none
    | some (p, r) => if checkShort p then some (.str, p, r) else none
  else if b.toNat < 0xc0 then
    (splitLong (b.toNat - 0xb7) t).map fun (p, r) => (.str, p, r)
  else if b.toNat < 0xf8 then
    (splitN (b.toNat - 0xc0) t).map fun (p, r) => (.list, p, r)
  else
    (splitLong (b.toNat - 0xf7) t).map fun (p, r) => (.list, p, r)

mutual
/-- Parse one item from the front of a byte string; `fuel` bounds the nesting and length. -/
def decodeItem : Nat → Bytes → Option (Item × Bytes)
  | 0, _ => none
  | _ + 1, [] => none
  | fuel + 1, b :: t =>
    match splitHeader b t with
    | none => none
    | some (.str, p, r) => some (.str p, r)
    | some (.list, p, r) =>
      match decodeMany fuel p with
      | none => none
      | some l => some (.list l, r)
/-- Parse a list payload completely. -/
def decodeMany : Nat → Bytes → Option (List Item)
  | 0, _ => none
  | _ + 1, [] => some []
  | fuel + 1, b :: t =>
    match decodeItem fuel (b :: t) with
    | none => none
    | some (x, r) =>
      match decodeMany fuel r with
      | none => none
      | some xs => some (x :: xs)
end

/-- Parse the item at the front of a byte string; returns the item and the remaining bytes.
`2 * length + 2` is always enough fuel. -/
def decodePrefix (bs : Bytes) : Option (Item × Bytes) := decodeItem (2 * bs.length + 2) bs

/-- `Rlp::new(bytes).as_val()` at the level of item trees.  As in the crate, bytes after the
first item are ignored. -/
def decode (bs : Bytes) : Option Item := (decodePrefix bs).map (·.1)

mutual
/-- All lengths written into headers fit in 64 bits (the crate's `usize`). -/
def Item.Fits : Item → Prop
  | .str b => b.length < 2 ^ 64
  | .list l => (encodeMany l).length < 2 ^ 64 ∧ FitsMany l
/-- `Item.Fits` for every element. -/
def FitsMany : List Item → Prop
  | [] => True
  | x :: xs => x.Fits ∧ FitsMany xs
end

/-! ## Lemmas -/

theorem u8_ofNat_toNat {n : Nat} (h : n < 256) : (UInt8.ofNat n).toNat = n := by
  rw [toNat_ofNat_u8]; omega

theorem splitN_append (p r : Bytes) : splitN p.length (p ++ r) = some (p, r) := by
  simp [splitN]

theorem splitLong_header (n : Nat) (p r : Bytes) (hp : p.length = n) (h56 : 56 ≤ n) :
    splitLong (beBytes n).length (beBytes n ++ (p ++ r)) = some (p, r) := by
  subst hp
  simp only [splitLong, splitN_append, beNat_beBytes]
  rw [if_neg (beBytes_head (by omega)), if_neg (by omega)]

theorem beBytes_len_small {n : Nat} (h : n < 2 ^ 64) (h0 : n ≠ 0) :
    1 ≤ (beBytes n).length ∧ (beBytes n).length ≤ 8 :=
  ⟨beBytes_length_pos h0, beBytes_length_le n 8 (by simpa using h)⟩

theorem encStr_length_pos (b : Bytes) : 0 < (encStr b).length := by
  unfold encStr
  split
  · split <;> simp
  · split <;> simp [longHeader]

theorem encPayload_length (p : Bytes) : p.length < (encPayload p).length := by
  unfold encPayload
  split <;> simp [longHeader]; omega

theorem encode_length_pos (x : Item) : 0 < (encode x).length := by
  cases x with
  | str b => rw [encode]; exact encStr_length_pos b
  | list l => rw [encode]; have := encPayload_length (encodeMany l); omega

theorem checkShort_of_ne : ∀ b : Bytes, (∀ x, b = [x] → False) → checkShort b = true
  | [], _ => rfl
  | [x], h => absurd rfl (h x)
  | _ :: _ :: _, _ => rfl

theorem splitHeader_encStr (b r : Bytes) (hb : b.length < 2 ^ 64) :
    ∃ h t, encStr b ++ r = h :: t ∧ splitHeader h t = some (.str, b, r) := by
  unfold encStr
  split
  · rename_i x
    by_cases hx : x.toNat < 0x80
    · rw [if_pos hx]
      exact ⟨x, r, rfl, by rw [splitHeader, if_pos hx]⟩
    · rw [if_neg hx]
      refine ⟨0x81, x :: r, rfl, ?_⟩
      rw [splitHeader, if_neg (by decide), if_pos (by decide)]
      have : splitN ((0x81 : UInt8).toNat - 0x80) (x :: r) = some ([x], r) := splitN_append [x] r
      rw [this]
      have : 0x80 ≤ x.toNat := by omega
      simp [checkShort, this]
  · rename_i hns
    split
    · rename_i hlt
      refine ⟨_, b ++ r, rfl, ?_⟩
      rw [splitHeader, u8_ofNat_toNat (by omega)]
      rw [if_neg (by omega), if_pos (by omega)]
      have : 0x80 + b.length - 0x80 = b.length := by omega
      rw [this, splitN_append]
      simp [checkShort_of_ne b hns]
    · rename_i hge
      have hl := beBytes_len_small hb (by omega)
      refine ⟨_, beBytes b.length ++ b ++ r, rfl, ?_⟩
      rw [splitHeader, u8_ofNat_toNat (by omega)]
      rw [if_neg (by omega), if_neg (by omega), if_pos (by omega)]
      have : 0xb7 + (beBytes b.length).length - 0xb7 = (beBytes b.length).length := by omega
      rw [this, List.append_assoc, splitLong_header _ _ _ rfl (by omega)]
      rfl

theorem splitHeader_encPayload (p r : Bytes) (hp : p.length < 2 ^ 64) :
    ∃ h t, encPayload p ++ r = h :: t ∧ splitHeader h t = some (.list, p, r) := by
  unfold encPayload
  split
  · rename_i hlt
    refine ⟨_, p ++ r, rfl, ?_⟩
    rw [splitHeader, u8_ofNat_toNat (by omega)]
    rw [if_neg (by omega), if_neg (by omega), if_neg (by omega), if_pos (by omega)]
    have : 0xc0 + p.length - 0xc0 = p.length := by omega
    rw [this, splitN_append]
    rfl
  · rename_i hge
    have hl := beBytes_len_small hp (by omega)
    refine ⟨_, beBytes p.length ++ p ++ r, rfl, ?_⟩
    rw [splitHeader, u8_ofNat_toNat (by omega)]
    rw [if_neg (by omega), if_neg (by omega), if_neg (by omega), if_neg (by omega)]
    have : 0xf7 + (beBytes p.length).length - 0xf7 = (beBytes p.length).length := by omega
    rw [this, List.append_assoc, splitLong_header _ _ _ rfl (by omega)]
    rfl

theorem decodeItem_encStr (fuel : Nat) (b r : Bytes) (hb : b.length < 2 ^ 64) :
    decodeItem (fuel + 1) (encStr b ++ r) = some (.str b, r) := by
  obtain ⟨h, t, h1, h2⟩ := splitHeader_encStr b r hb
  rw [h1, decodeItem, h2]

theorem decodeItem_encPayload (fuel : Nat) (p r : Bytes) (l : List Item) (hp : p.length < 2 ^ 64)
    (hd : decodeMany fuel p = some l) :
    decodeItem (fuel + 1) (encPayload p ++ r) = some (.list l, r) := by
  obtain ⟨h, t, h1, h2⟩ := splitHeader_encPayload p r hp
  rw [h1, decodeItem, h2]
  simp [hd]

mutual
theorem decodeItem_encode (x : Item) (hx : x.Fits) (r : Bytes) (fuel : Nat)
    (hf : 2 * (encode x).length ≤ fuel) : decodeItem fuel (encode x ++ r) = some (x, r) := by
  have hpos := encode_length_pos x
  cases x with
  | str b =>
    obtain ⟨f, rfl⟩ : ∃ f, fuel = f + 1 := ⟨fuel - 1, by omega⟩
    rw [encode]
    rw [Item.Fits] at hx
    exact decodeItem_encStr f b r hx
  | list l =>
    rw [encode] at hf ⊢
    rw [Item.Fits] at hx
    have hlen := encPayload_length (encodeMany l)
    obtain ⟨f, rfl⟩ : ∃ f, fuel = f + 1 := ⟨fuel - 1, by omega⟩
    exact decodeItem_encPayload f _ r l hx.1 (decodeMany_encodeMany l hx.2 f (by omega))
theorem decodeMany_encodeMany (l : List Item) (hl : FitsMany l) (fuel : Nat)
    (hf : 2 * (encodeMany l).length + 1 ≤ fuel) : decodeMany fuel (encodeMany l) = some l := by
  obtain ⟨f, rfl⟩ : ∃ f, fuel = f + 1 := ⟨fuel - 1, by omega⟩
  cases l with
  | nil => rw [encodeMany, decodeMany]
  | cons x xs =>
    rw [FitsMany] at hl
    rw [encodeMany] at hf ⊢
    have hpos := encode_length_pos x
    rw [List.length_append] at hf
    have h1 := decodeItem_encode x hl.1 (encodeMany xs) f (by omega)
    have h2 := decodeMany_encodeMany xs hl.2 f (by omega)
    obtain ⟨b, t, hbt⟩ := List.exists_cons_of_length_pos
      (show 0 < (encode x ++ encodeMany xs).length by rw [List.length_append]; omega)
    rw [hbt] at h1 ⊢
    rw [decodeMany, h1]
    simp [h2]
end

theorem encStr_length (b : Bytes) : b.length ≤ (encStr b).length := by
  unfold encStr
  split
  · split <;> simp
  · split <;> simp [longHeader] <;> omega

mutual
/-- If the complete encoding is shorter than `2^64` bytes then all header lengths fit. -/
theorem fits_of_length (x : Item) (h : (encode x).length < 2 ^ 64) : x.Fits := by
  cases x with
  | str b =>
    rw [Item.Fits]; rw [encode] at h
    exact Nat.lt_of_le_of_lt (encStr_length b) h
  | list l =>
    rw [Item.Fits]; rw [encode] at h
    have h2 := encPayload_length (encodeMany l)
    have h3 : (encodeMany l).length < 2 ^ 64 := Nat.lt_trans h2 h
    exact ⟨h3, fitsMany_of_length l h3⟩
theorem fitsMany_of_length (l : List Item) (h : (encodeMany l).length < 2 ^ 64) : FitsMany l := by
  cases l with
  | nil => rw [FitsMany]; trivial
  | cons x xs =>
    rw [FitsMany]; rw [encodeMany, List.length_append] at h
    exact ⟨fits_of_length x (Nat.lt_of_le_of_lt (Nat.le_add_right _ _) h),
      fitsMany_of_length xs (Nat.lt_of_le_of_lt (Nat.le_add_left _ _) h)⟩
end

/-! ### Canonicity: whatever is accepted is the encoding of the result -/

theorem splitN_sound {n : Nat} {t p r : Bytes} (h : splitN n t = some (p, r)) :
    t = p ++ r ∧ p.length = n := by
  unfold splitN at h
  split at h
  · simp at h
  · simp at h
    obtain ⟨h1, h2⟩ := h
    subst h1; subst h2
    exact ⟨by simp, by simp; omega⟩

theorem splitLong_sound {k : Nat} {t p r : Bytes} (h : splitLong k t = some (p, r)) :
    t = beBytes p.length ++ p ++ r ∧ 56 ≤ p.length ∧ (beBytes p.length).length = k := by
  unfold splitLong at h
  split at h
  · simp at h
  · rename_i lb r1 h1
    obtain ⟨ht, hk⟩ := splitN_sound h1
    split at h
    · simp at h
    · rename_i hz
      split at h
      · simp at h
      · rename_i h56
        obtain ⟨ht2, hp⟩ := splitN_sound h
        have hb := beBytes_beNat lb hz
        rw [hp, hb]
        subst ht ht2
        exact ⟨by simp, by omega, hk⟩

theorem encStr_of_checkShort {p : Bytes} (h : checkShort p = true) (hp : p.length < 56) :
    encStr p = UInt8.ofNat (0x80 + p.length) :: p := by
  unfold encStr
  split
  · rename_i x
    simp [checkShort] at h
    rw [if_neg (by omega)]
    rfl
  · rw [if_pos hp]

theorem encStr_long {p : Bytes} (hp : 56 ≤ p.length) :
    encStr p = longHeader 0xb7 p.length ++ p := by
  unfold encStr
  split
  · simp at hp
  · rw [if_neg (by omega)]

theorem splitHeader_sound {b : UInt8} {t p r : Bytes} {k : Kind}
    (h : splitHeader b t = some (k, p, r)) :
    b :: t = (match k with | .str => encStr p | .list => encPayload p) ++ r := by
  have hb : b.toNat < 256 := b.toNat_lt
  unfold splitHeader at h
  split at h
  · rename_i hlt
    simp at h
    obtain ⟨rfl, rfl, rfl⟩ := h
    simp [encStr, hlt]
  · rename_i h80
    split at h
    · rename_i hb8
      split at h
      · simp at h
      · rename_i p' r' hs
        split at h
        · rename_i hc
          simp at h
          obtain ⟨rfl, rfl, rfl⟩ := h
          obtain ⟨ht, hl⟩ := splitN_sound hs
          have : 0x80 + (b.toNat - 0x80) = b.toNat := by omega
          simp only [encStr_of_checkShort hc (by omega), hl, this, ofNat_toNat_u8, ht,
            List.cons_append]
        · simp at h
    · rename_i hb8
      split at h
      · rename_i hc0
        simp at h
        obtain ⟨p', r', hs, rfl, rfl, rfl⟩ := h
        obtain ⟨ht, h56, hl⟩ := splitLong_sound hs
        simp only [encStr_long h56, longHeader]
        rw [ht, hl]
        have : 0xb7 + (b.toNat - 0xb7) = b.toNat := by omega
        rw [this, ofNat_toNat_u8]; simp
      · rename_i hc0
        split at h
        · rename_i hf8
          simp at h
          obtain ⟨p', r', hs, rfl, rfl, rfl⟩ := h
          obtain ⟨ht, hl⟩ := splitN_sound hs
          simp only [encPayload]
          rw [if_pos (by omega), ht, hl]
          have : 0xc0 + (b.toNat - 0xc0) = b.toNat := by omega
          rw [this, ofNat_toNat_u8]; rfl
        · rename_i hf8
          simp at h
          obtain ⟨p', r', hs, rfl, rfl, rfl⟩ := h
          obtain ⟨ht, h56, hl⟩ := splitLong_sound hs
          simp only [encPayload]
          rw [if_neg (by omega), longHeader, ht, hl]
          have : 0xf7 + (b.toNat - 0xf7) = b.toNat := by omega
          rw [this, ofNat_toNat_u8]; simp

theorem decode_sound (fuel : Nat) :
    (∀ bs x r, decodeItem fuel bs = some (x, r) → bs = encode x ++ r) ∧
    (∀ bs l, decodeMany fuel bs = some l → bs = encodeMany l) := by
  induction fuel with
  | zero => constructor <;> intros <;> simp_all [decodeItem, decodeMany]
  | succ fuel ih =>
    constructor
    · intro bs x r h
      cases bs with
      | nil => simp [decodeItem] at h
      | cons b t =>
        rw [decodeItem] at h
        split at h
        · simp at h
        · rename_i p r' hs
          simp at h
          obtain ⟨rfl, rfl⟩ := h
          have := splitHeader_sound hs
          rw [this, encode]
        · rename_i p r' hs
          split at h
          · simp at h
          · rename_i l hl
            simp at h
            obtain ⟨rfl, rfl⟩ := h
            have := splitHeader_sound hs
            rw [this, encode, ← ih.2 _ _ hl]
    · intro bs l h
      cases bs with
      | nil => simp [decodeMany] at h; subst h; rw [encodeMany]
      | cons b t =>
        rw [decodeMany] at h
        split at h
        · simp at h
        · rename_i x r hx
          split at h
          · simp at h
          · rename_i xs hxs
            simp at h
            subst h
            rw [encodeMany, ih.1 _ _ _ hx, ← ih.2 _ _ hxs]

end Axon.Rlp
