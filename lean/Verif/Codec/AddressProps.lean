import Verif.Codec.Address

/-!
# C119: addresses as text, and addresses of public keys

Specification: EIP-55.
-/

namespace Axon.Addr

open Axon Axon.Hex

/-- EIP-55: the address in lower case, in which every letter is put in upper case if the digit of the hash at its
place is 8 or more. -/
def eip55 (H : Bytes → H256) (a : H160) : Text :=
  let s := hexEncode a.bytes
  pfx ++ (List.range 40).map fun i =>
    if 8 ≤ ((digitVal ((hexEncode (H s).bytes)[i]?.getD 0x30)).getD 0) then upperByte (s[i]?.getD 0) else s[i]?.getD 0

/-- What the node writes is EIP-55. -/
theorem C119_writes (H : Bytes → H256) (a : H160) : display H a = .ok (eip55 H a) := by
  rw [display_eq]
  unfold eip55
  refine congrArg Outcome.ok (congrArg (pfx ++ ·) ?_)
  have h1 : (hexEncode a.bytes).length = 40 := by rw [hexEncode_length, a.len]
  have h2 := hash_digits (H (hexEncode a.bytes))
  refine List.ext_getElem? fun i => ?_
  unfold recase
  rw [List.getElem?_zipWith]
  by_cases hi : i < 40
  · rw [List.getElem?_eq_getElem (show i < (hexEncode a.bytes).length by omega),
      List.getElem?_eq_getElem (show i < (hexEncode (H (hexEncode a.bytes)).bytes).length by omega),
      List.getElem?_map, List.getElem?_range hi]
    simp only [Option.map_some, List.getElem?_eq_getElem (show i < (hexEncode a.bytes).length by omega),
      List.getElem?_eq_getElem (show i < (hexEncode (H (hexEncode a.bytes)).bytes).length by omega), Option.getD_some]
    unfold big
    cases digitVal (hexEncode (H (hexEncode a.bytes)).bytes)[i] with
    | none => simp
    | some n =>
      simp only [Option.getD_some, decide_eq_true_eq]
      by_cases h : 7 < n
      · rw [if_pos h, if_pos (by omega)]
      · rw [if_neg h, if_neg (by omega)]
  · rw [List.getElem?_eq_none (by omega)]
    simp [List.getElem?_eq_none (show (List.range 40).length ≤ i by simp; omega)]

/-- The text of an address reads as the address. -/
theorem C119_round_trip (H : Bytes → H256) (a : H160) (t : Text) (h : display H a = .ok t) :
    fromStr H t = .ok a ∧ deserialize H t = some a := by
  rw [display_eq] at h
  cases h
  have h1 : (hexEncode a.bytes).length = 40 := by rw [hexEncode_length, a.len]
  have h2 := hash_digits (H (hexEncode a.bytes))
  generalize hr : recase (hexEncode a.bytes) (hexEncode (H (hexEncode a.bytes)).bytes) = r
  have hp : pfx.isPrefixOf r = false := by rw [← hr]; exact recase_no_pfx _ _
  have hlow : lower r = hexEncode a.bytes := by
    rw [← hr, lower_recase _ _ (by omega), lower_hexEncode]
  have hdec : decodePairs r = some a.bytes := by
    rw [← decodePairs_lower, hlow, decodePairs_hexEncode]
  have hfb : fromBytes a.bytes = some a := by unfold fromBytes; rw [dif_pos a.len]
  constructor
  · unfold fromStr checksum
    rw [trim_pfx, trim_id hp, hlow]
    dsimp only
    rw [if_neg (by omega)]
    simp only [Outcome.bind]
    rw [hr, if_neg (by simp), lower_append, hlow]
    unfold fromHex
    have : lower pfx = pfx := by decide
    rw [this, if_pos (by simp [pfx, List.isPrefixOf])]
    have hd : List.drop 2 (pfx ++ hexEncode a.bytes) = hexEncode a.bytes := by simp [pfx]
    rw [hd]
    unfold hexDecode
    rw [if_neg (by intro h; rw [h] at h1; simp at h1), pfx_hexEncode, if_neg (by simp), decodePairs_hexEncode,
      Option.bind_some, hfb]
    rfl
  · unfold deserialize
    have hs : strip (pfx ++ r) = r := by
      unfold strip; rw [if_pos (by simp [pfx, List.isPrefixOf])]; simp [pfx]
    have hs2 : strip r = r := by unfold strip; rw [hp, if_neg (by simp)]
    dsimp only
    rw [hs, hs2, hdec]
    simp only [Option.bind_eq_bind, Option.bind_some, hfb]
    rw [if_pos (by rw [toChecksum_eq, hr])]

/-- Of the texts with 42 characters, only the one that is written for the address reads as it.  (For every length
this is false: `C119_two_texts_false`.) -/
theorem C119_canonical_partial (H : Bytes → H256) (s : Text) (a : H160) (hl : s.length = 42)
    (h : fromStr H s = .ok a) : display H a = .ok s := by
  unfold fromStr at h
  cases hc : checksum H s with
  | err => rw [hc] at h; cases h
  | panic => rw [hc] at h; cases h
  | ok t =>
    rw [hc] at h
    simp only [Outcome.bind] at h
    by_cases hts : t = s
    · rw [if_neg (by simp [hts])] at h
      subst hts
      unfold checksum at hc
      dsimp only at hc
      split at hc
      · cases hc
      next hlen =>
        have e := Outcome.ok.inj hc
        have hd := hash_digits (H (lower (trim t)))
        have hrl := recase_length (lower (trim t)) (hexEncode (H (lower (trim t))).bytes) (by omega)
        have hlt : (trim t).length = 40 := by
          have := congrArg List.length e
          rw [List.length_append, hrl, length_lower] at this
          have h2 : pfx.length = 2 := rfl
          omega
        -- the prefix is there once
        obtain ⟨u, hu⟩ : ∃ u, t = pfx ++ u := ⟨_, e.symm⟩
        have hul : u.length = 40 := by
          rw [hu, List.length_append] at hl
          have h2 : pfx.length = 2 := rfl
          omega
        have htu : trim t = u := by
          rw [hu, trim_pfx] at hlt ⊢
          refine trim_id ?_
          cases hp : pfx.isPrefixOf u with
          | false => rfl
          | true =>
            exfalso
            rw [List.isPrefixOf_iff_prefix] at hp
            obtain ⟨w, rfl⟩ := hp
            rw [trim_pfx] at hlt
            have := trim_length w
            rw [List.length_append] at hul
            have h2 : pfx.length = 2 := rfl
            omega
        have hlo : lower t = pfx ++ lower u := by
          rw [hu, lower_append]; rfl
        rw [hlo] at h
        unfold fromHex at h
        rw [if_pos (by simp [pfx, List.isPrefixOf])] at h
        have hdr : List.drop 2 (pfx ++ lower u) = lower u := by simp [pfx]
        rw [hdr] at h
        cases hdec : hexDecode (lower u) with
        | none => rw [hdec] at h; cases h
        | some b =>
          rw [hdec, Option.bind_some] at h
          unfold fromBytes at h
          split at h
          next hb =>
            cases h
            unfold hexDecode at hdec
            have hne : lower u ≠ [] := by
              intro h0
              have := length_lower u
              rw [h0, hul] at this
              simp at this
            rw [if_neg hne] at hdec
            split at hdec
            · have := decodePairs_length _ _ hdec
              rw [List.length_drop, length_lower, hul] at this
              omega
            · have hhex := lower_of_decode _ _ hdec
              rw [lower_lower] at hhex
              rw [display_eq]
              dsimp only
              rw [← hhex]
              rw [htu] at e
              exact congrArg Outcome.ok e
          · cases h
    · rw [if_pos hts] at h; cases h

/-- The JSON reader accepts the text that is written, with or without its prefix, and nothing else. -/
theorem C119_json (H : Bytes → H256) (s : Text) (a : H160) :
    deserialize H s = some a ↔ display H a = .ok s ∨ display H a = .ok (pfx ++ s) := by
  have key : deserialize H s = some a ↔ strip s = toChecksum H a := by
    unfold deserialize
    dsimp only
    constructor
    · intro h
      simp only [Option.bind_eq_bind, Option.bind_eq_some_iff] at h
      obtain ⟨b, _, a', _, h⟩ := h
      split at h
      next he => cases h; exact he.symm
      · cases h
    · intro h
      have h1 : (hexEncode a.bytes).length = 40 := by rw [hexEncode_length, a.len]
      have h2 := hash_digits (H (hexEncode a.bytes))
      have hp : pfx.isPrefixOf (toChecksum H a) = false := by rw [toChecksum_eq]; exact recase_no_pfx _ _
      have hs2 : strip (toChecksum H a) = toChecksum H a := by unfold strip; rw [hp, if_neg (by simp)]
      have hdec : decodePairs (toChecksum H a) = some a.bytes := by
        rw [← decodePairs_lower, toChecksum_eq, lower_recase _ _ (by omega), lower_hexEncode, decodePairs_hexEncode]
      have hfb : fromBytes a.bytes = some a := by unfold fromBytes; rw [dif_pos a.len]
      rw [h, hs2, hdec]
      simp [hfb]
  rw [key, display_eq, ← toChecksum_eq]
  have hp : pfx.isPrefixOf (toChecksum H a) = false := by rw [toChecksum_eq]; exact recase_no_pfx _ _
  unfold strip
  cases hps : pfx.isPrefixOf s with
  | true =>
    rw [if_pos rfl]
    have hps' := List.isPrefixOf_iff_prefix.1 hps
    obtain ⟨w, rfl⟩ := hps'
    have hd : List.drop 2 (pfx ++ w) = w := by simp [pfx]
    rw [hd]
    constructor
    · intro h; subst h; exact .inl rfl
    · rintro (h | h)
      · exact (List.append_cancel_left (Outcome.ok.inj h)).symm
      · have := List.append_cancel_left (Outcome.ok.inj h)
        rw [this, hps] at hp; cases hp
  | false =>
    rw [if_neg (by simp)]
    constructor
    · intro h; subst h; exact .inr rfl
    · rintro (h | h)
      · have := (Outcome.ok.inj h).symm
        rw [this] at hps
        simp [pfx, List.isPrefixOf] at hps
      · exact (List.append_cancel_left (Outcome.ok.inj h)).symm

/-- The other text of an address: a second prefix, whose letter is in upper case. -/
def otherText (H : Bytes → H256) (a : H160) : Text :=
  pfx ++ recase (pfx ++ hexEncode a.bytes) (hexEncode (H (pfx ++ hexEncode a.bytes)).bytes)

/-- Where the hash of the address with its prefix has a digit above 7 at the second place, there is another text
that reads as the address. -/
theorem C119_two_texts_false (H : Bytes → H256) (a : H160)
    (h : ∃ d, (hexEncode (H (pfx ++ hexEncode a.bytes)).bytes)[1]? = some d ∧ big d = true) :
    fromStr H (otherText H a) = .ok a ∧ display H a ≠ .ok (otherText H a) := by
  obtain ⟨d, hd, hb⟩ := h
  have h1 : (hexEncode a.bytes).length = 40 := by rw [hexEncode_length, a.len]
  have hfb : fromBytes a.bytes = some a := by unfold fromBytes; rw [dif_pos a.len]
  have h2 := hash_digits (H (pfx ++ hexEncode a.bytes))
  have hl2 : pfx.length = 2 := rfl
  have hlen : (pfx ++ hexEncode a.bytes).length = 42 := by rw [List.length_append]; omega
  have hlow : lower (recase (pfx ++ hexEncode a.bytes) (hexEncode (H (pfx ++ hexEncode a.bytes)).bytes)) =
      pfx ++ hexEncode a.bytes := by
    rw [lower_recase _ _ (by omega), lower_append, lower_hexEncode]; rfl
  have hnp : pfx.isPrefixOf (recase (pfx ++ hexEncode a.bytes) (hexEncode (H (pfx ++ hexEncode a.bytes)).bytes)) =
      false := by
    match hx : hexEncode (H (pfx ++ hexEncode a.bytes)).bytes with
    | [] => rw [hx] at hd; simp at hd
    | [_] => rw [hx] at hd; simp at hd
    | e :: f :: r =>
      rw [hx] at hd
      simp at hd
      subst hd
      simp only [recase, pfx, List.cons_append, List.nil_append, List.zipWith_cons_cons, List.isPrefixOf, hb, if_true]
      have : ((0x78 : UInt8) == upperByte 0x78) = false := by decide
      rw [this]; simp
  constructor
  · unfold fromStr checksum otherText
    rw [trim_pfx, trim_id hnp, hlow]
    dsimp only
    rw [if_neg (by omega)]
    simp only [Outcome.bind]
    rw [if_neg (by simp), lower_append, hlow]
    unfold fromHex
    have : lower pfx = pfx := by decide
    rw [this, if_pos (by simp [pfx, List.isPrefixOf])]
    have hd : List.drop 2 (pfx ++ (pfx ++ hexEncode a.bytes)) = pfx ++ hexEncode a.bytes := by simp [pfx]
    have hd2 : List.drop 2 (pfx ++ hexEncode a.bytes) = hexEncode a.bytes := by simp [pfx]
    rw [hd]
    unfold hexDecode
    rw [if_neg (by simp [pfx]), if_pos (by simp [pfx, List.isPrefixOf]), hd2, decodePairs_hexEncode,
      Option.bind_some, hfb]
    rfl
  · rw [display_eq]
    intro he
    have := congrArg List.length (Outcome.ok.inj he)
    unfold otherText at this
    have h3 := hash_digits (H (hexEncode a.bytes))
    rw [List.length_append, List.length_append, recase_length _ _ (by omega), recase_length _ _ (by omega)] at this
    omega

/-- A long text aborts the reader. -/
theorem C119_panics_false (H : Bytes → H256) (s : Text) (h : 64 < (trim s).length) : fromStr H s = .panic := by
  unfold fromStr checksum
  dsimp only
  rw [if_pos (by rw [length_lower]; exact h)]
  rfl

/-- The reader does not abort for up to 64 characters. -/
theorem C119_no_panic_partial (H : Bytes → H256) (s : Text) (h : s.length ≤ 64) : fromStr H s ≠ .panic := by
  unfold fromStr checksum
  have := trim_length s
  dsimp only
  rw [if_neg (by rw [length_lower]; omega)]
  simp only [Outcome.bind]
  split
  · simp
  · cases fromHex (lower s) <;> simp [Outcome.ofOption]

/-- A key has one address, however it is written. -/
theorem C119_pubkey (H : Bytes → H256) (decomp : Bytes → Option Bytes) (c u : Bytes) (hc : c.length = 33)
    (hu : u.length = 65) (hd : decomp c = some u) :
    fromPubkeyBytes H decomp c = some (fromPubkey H u) ∧ fromPubkeyBytes H decomp u = some (fromPubkey H u) ∧
      (fromPubkey H u).bytes = ((H (u.drop 1)).bytes.drop 12) := by
  unfold fromPubkeyBytes fromPubkey
  refine ⟨?_, ?_, rfl⟩
  · rw [if_neg (by omega), if_pos hc, hd]; rfl
  · rw [if_neg (by omega), if_neg (by omega)]

/-- What is no key at all has an address, too: 65 bytes are not looked at, and the first is ignored. -/
theorem C119_unchecked_false (H : Bytes → H256) (decomp : Bytes → Option Bytes) (x y : UInt8) (r : Bytes)
    (hr : r.length = 64) :
    fromPubkeyBytes H decomp (x :: r) = some (fromHash (H r)) ∧
      fromPubkeyBytes H decomp (x :: r) = fromPubkeyBytes H decomp (y :: r) := by
  simp [fromPubkeyBytes, hr]

/-! ## Examples -/

/-- A hash for examples. -/
def allF (_ : Bytes) : H256 := ⟨List.replicate 32 0xff, by simp⟩

def addr : H160 := ⟨List.replicate 20 0xab, by simp⟩

example : display allF addr = .ok (pfx ++ (List.replicate 20 [0x41, 0x42]).flatten) := by decide +kernel

example : (otherText allF addr).length = 44 ∧
    ∃ d, (hexEncode (allF (pfx ++ hexEncode addr.bytes)).bytes)[1]? = some d ∧ big d = true := by
  refine ⟨by decide +kernel, 0x66, by decide +kernel⟩

example : fromStr allF (pfx ++ (List.replicate 20 [0x61, 0x42]).flatten) = .err := by decide +kernel

example : 64 < (trim (List.replicate 65 0x30)).length := by decide +kernel

example : (List.replicate 33 (2 : UInt8)).length = 33 ∧ (4 :: List.replicate 64 (2 : UInt8)).length = 65 := by
  decide

end Axon.Addr
