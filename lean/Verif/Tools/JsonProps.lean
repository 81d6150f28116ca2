import Verif.Tools.Json

/-!
# C115: clients read what the node wrote
-/

namespace Axon.ToolsJson

open Axon Axon.Hex Axon.Block

/-! ## Specification of numbers in texts -/

/-- The value of a text of hex digits. -/
def valueOf (t : Text) : Nat := t.foldl (fun a c => 16 * a + (digitVal c).getD 0) 0

theorem hexFrom_foldl : ∀ (t : Text) (a : Nat),
    hexFrom a t = t.foldl (fun a c => 16 * a + (digitVal c).getD 0) a := by
  intro t
  induction t with
  | nil => intro a; rfl
  | cons c r ih => intro a; simp only [hexFrom, List.foldl_cons]; exact ih _

theorem isHex_some {c : UInt8} (h : isHex c = true) : ∃ n, digitVal c = some n ∧ n < 16 := by
  unfold isHex at h
  obtain ⟨n, hn⟩ := Option.isSome_iff_exists.1 h
  exact ⟨n, hn, digitVal_lt hn⟩

theorem isHex_digit {n : Nat} (h : n < 16) : isHex (digit n) = true := by
  unfold isHex; rw [digitVal_digit h]; rfl

theorem isHex_boundary {c : UInt8} {r : Text} (h : isHex c = true) : boundary (c :: r) = true := by
  have key : ∀ c : Fin 256, isHex (UInt8.ofNat c.val) = true →
      (!(0x80 ≤ (UInt8.ofNat c.val).toNat && (UInt8.ofNat c.val).toNat < 0xc0)) = true := by
    decide +kernel
  have := key ⟨c.toNat, by have := c.toNat_lt; omega⟩
  simp only [ofNat_toNat_u8] at this
  exact this h

theorem boundary_all {t : Text} (h : ∀ c ∈ t, isHex c = true) : boundary t = true := by
  cases t with
  | nil => rfl
  | cons c r => exact isHex_boundary (h c (List.mem_cons_self ..))

theorem isHex_ne_plus {c : UInt8} (h : isHex c = true) : c ≠ 0x2b := by
  intro e; subst e; revert h; decide

theorem pairs_ok : ∀ (n : Nat) (t : Text), t.length = 2 * n → (∀ c ∈ t, isHex c = true) →
    ∃ b, pairs t = .ok b ∧ b.length = n ∧ ∀ a, hexFrom a t = a * 256 ^ n + beNat b := by
  intro n
  induction n with
  | zero =>
    intro t hl _
    have : t = [] := List.length_eq_zero_iff.1 (by omega)
    subst this
    exact ⟨[], rfl, rfl, fun a => by simp [hexFrom]⟩
  | succ n ih =>
    intro t hl ht
    match t, hl with
    | x :: y :: r, hl =>
      have hx := ht x (by simp)
      have hy := ht y (by simp)
      obtain ⟨u, hu, hu'⟩ := isHex_some hx
      obtain ⟨v, hv, hv'⟩ := isHex_some hy
      have hr : ∀ c ∈ r, isHex c = true := fun c hc => ht c (by simp [hc])
      obtain ⟨b, hb1, hb2, hb3⟩ := ih r (by simp only [List.length_cons] at hl; omega) hr
      refine ⟨UInt8.ofNat (16 * u + v) :: b, ?_, by simp [hb2], ?_⟩
      · simp only [pairs, boundary_all hr, if_true, radixByte, isHex_ne_plus hx, if_false, hu, hv,
          Option.bind_some, Option.map_some, Outcome.ofOption, Outcome.bind, hb1]
      · intro a
        simp only [hexFrom, hu, hv, Option.getD_some, beNat, hb2]
        rw [hb3, toNat_ofNat_u8, Nat.mod_eq_of_lt (by omega), Nat.pow_succ]
        have e : 16 * (16 * a + u) + v = a * 256 + (16 * u + v) := by omega
        rw [e, Nat.add_mul, Nat.mul_comm (256 ^ n) 256, Nat.mul_assoc]
        omega
    | [], hl => simp at hl
    | [x], hl => simp only [List.length_cons, List.length_nil] at hl; omega

theorem fromHex_ok (t : Text) (ht : ∀ c ∈ t, isHex c = true) :
    ∃ b, fromHex t = .ok b ∧ b.length = (t.length + 1) / 2 ∧ beNat b = valueOf t := by
  unfold fromHex
  by_cases h : t.length % 2 = 0
  · rw [if_pos h]
    obtain ⟨b, h1, h2, h3⟩ := pairs_ok (t.length / 2) t (by omega) ht
    refine ⟨b, h1, by omega, ?_⟩
    unfold valueOf
    rw [← hexFrom_foldl, h3]; omega
  · rw [if_neg h]
    cases t with
    | nil => simp at h
    | cons c r =>
      simp only [List.length_cons] at h
      have hc := ht c (by simp)
      obtain ⟨u, hu, hu'⟩ := isHex_some hc
      have hr : ∀ c ∈ r, isHex c = true := fun c hc => ht c (by simp [hc])
      obtain ⟨b, h1, h2, h3⟩ := pairs_ok (r.length / 2) r (by omega) hr
      refine ⟨UInt8.ofNat u :: b, ?_, ?_, ?_⟩
      · dsimp only
        rw [boundary_all hr, if_pos rfl]
        simp only [radixByte, isHex_ne_plus hc, if_false, hu, Outcome.ofOption, Outcome.bind, h1]
      · simp only [List.length_cons, h2]; omega
      · unfold valueOf
        rw [← hexFrom_foldl]
        simp only [hexFrom, hu, Option.getD_some, beNat, h2]
        rw [h3, toNat_ofNat_u8, Nat.mod_eq_of_lt (by omega)]
        simp

/-- What axon-tools makes of `0x` and hex digits: the value without its upper bits, and a panic if
there are more than 64 digits. -/
theorem C115_digits_partial (bits : Nat) (t : Text) (ht : ∀ c ∈ t, isHex c = true) :
    hexUint bits (.str (pfx ++ t)) =
      if t.length ≤ 64 then .ok ⟨valueOf t % 2 ^ bits, Nat.mod_lt _ (Nat.two_pow_pos bits)⟩
      else .panic := by
  have hd : (pfx ++ t).drop 2 = t := rfl
  have htk : (pfx ++ t).take 2 = pfx := rfl
  have hlen : (pfx ++ t).length ≥ 2 := by simp [pfx]
  unfold hexUint
  dsimp only
  by_cases h0 : pfx ++ t = pfx ++ [0x30]
  · have : t = [0x30] := List.append_cancel_left h0
    subst this
    rw [if_pos rfl, if_pos (by decide)]
    refine congrArg Outcome.ok (UIntN.ext' ?_)
    show 0 = valueOf [0x30] % 2 ^ bits
    rw [(by decide : valueOf [0x30] = 0), Nat.zero_mod]
  · rw [if_neg h0, if_pos hlen, hd, htk, boundary_all ht, if_pos rfl, if_pos rfl]
    obtain ⟨b, h1, h2, h3⟩ := fromHex_ok t ht
    rw [h1]
    simp only [Outcome.bind, h3, h2]
    by_cases hl : t.length ≤ 64
    · rw [if_pos hl, if_neg (by omega)]
    · rw [if_neg hl, if_pos (by omega)]

example : hexUint 64 (.str (pfx ++ [0x66, 0x46])) = .ok ⟨255, by decide⟩ := by
  rw [C115_digits_partial 64 _ (by decide)]
  rfl

/-- Text of an ASCII literal. -/
def lit (s : String) : Text := s.toUTF8.toList

/-- False that numbers too large for the field are refused: 2⁶⁴ + 1 is read as 1. -/
theorem C115_truncated_false :
    hexUint 64 (.str (lit "0x10000000000000001")) = .ok ⟨1, by decide⟩ ∧
    hexUint 32 (.str (lit "0x100000002")) = .ok ⟨2, by decide⟩ := by
  decide +kernel

/-- False that only hex digits are read: signs are accepted, and nothing at all is zero. -/
theorem C115_signs_false :
    hexUint 64 (.str (lit "0x+f+1")) = .ok ⟨0xf01, by decide⟩ ∧
    hexUint 64 (.str (lit "0x")) = .ok ⟨0, by decide⟩ := by
  decide +kernel

/-- False that every text is read or refused: a text beginning with a character of three bytes, one
with such a character after the prefix, and one of 65 digits make the client panic. -/
theorem C115_panics_false :
    hexUint 64 (.str [0xe2, 0x82, 0xac]) = .panic ∧
    hexUint 64 (.str (pfx ++ [0xe2, 0x82, 0xac])) = .panic ∧
    hexUint 64 (.str (pfx ++ List.replicate 65 0x31)) = .panic := by
  decide +kernel

/-! ## Numbers written by the node -/

theorem beNat_dropWhile : ∀ bs : Bytes, beNat (bs.dropWhile (· == 0)) = beNat bs := by
  intro bs
  induction bs with
  | nil => rfl
  | cons b bs ih =>
    rw [List.dropWhile_cons]
    split
    next h =>
      have : b = 0 := by simpa using h
      subst this
      rw [ih]; simp [beNat]
    · rfl

theorem head_dropWhile : ∀ bs : Bytes, (bs.dropWhile (· == 0)).head? ≠ some 0 := by
  intro bs
  induction bs with
  | nil => simp
  | cons b bs ih =>
    rw [List.dropWhile_cons]
    split
    · exact ih
    next h => simpa using h

theorem hexFrom_hexEncode : ∀ (bs : Bytes) (a : Nat),
    hexFrom a (hexEncode bs) = a * 256 ^ bs.length + beNat bs := by
  intro bs
  induction bs with
  | nil => intro a; simp [hexEncode, hexFrom]
  | cons b bs ih =>
    intro a
    have hb := b.toNat_lt
    simp only [hexEncode, hexFrom, digitVal_digit (show b.toNat / 16 < 16 by omega),
      digitVal_digit (show b.toNat % 16 < 16 by omega), Option.getD_some, ih, beNat,
      List.length_cons, Nat.pow_succ]
    have e : 16 * (16 * a + b.toNat / 16) + b.toNat % 16 = a * 256 + b.toNat := by omega
    rw [e, Nat.add_mul, Nat.mul_comm (256 ^ bs.length) 256, Nat.mul_assoc]
    omega

theorem hexEncode_isHex : ∀ (bs : Bytes), ∀ c ∈ hexEncode bs, isHex c = true := by
  intro bs
  induction bs with
  | nil => intro c hc; cases hc
  | cons b bs ih =>
    intro c hc
    have hb := b.toNat_lt
    simp only [hexEncode, List.mem_cons] at hc
    rcases hc with rfl | rfl | hc
    · exact isHex_digit (by omega)
    · exact isHex_digit (by omega)
    · exact ih c hc

theorem toHexRaw_spec (b : UInt8) (bs : Bytes) :
    (∀ c ∈ toHexRaw (b :: bs), isHex c = true) ∧
    hexFrom 0 (toHexRaw (b :: bs)) = beNat (b :: bs) ∧
    (toHexRaw (b :: bs)).length ≤ 2 * (b :: bs).length := by
  have hb := b.toNat_lt
  have hl := hexEncode_length bs
  simp only [toHexRaw]
  by_cases h : b.toNat / 16 ≠ 0
  · rw [if_pos h]
    refine ⟨?_, ?_, ?_⟩
    · intro c hc
      simp only [List.cons_append, List.nil_append, List.mem_cons] at hc
      rcases hc with rfl | rfl | hc
      · exact isHex_digit (by omega)
      · exact isHex_digit (by omega)
      · exact hexEncode_isHex bs c hc
    · simp only [List.cons_append, List.nil_append, hexFrom,
        digitVal_digit (show b.toNat / 16 < 16 by omega),
        digitVal_digit (show b.toNat % 16 < 16 by omega), Option.getD_some, hexFrom_hexEncode, beNat]
      have e : 16 * (16 * 0 + b.toNat / 16) + b.toNat % 16 = b.toNat := by omega
      rw [e]
    · simp only [List.cons_append, List.nil_append, List.length_cons, hl]; omega
  · rw [if_neg h]
    refine ⟨?_, ?_, ?_⟩
    · intro c hc
      simp only [List.nil_append, List.mem_cons] at hc
      rcases hc with rfl | hc
      · exact isHex_digit (by omega)
      · exact hexEncode_isHex bs c hc
    · simp only [List.nil_append, hexFrom, digitVal_digit (show b.toNat % 16 < 16 by omega),
        Option.getD_some, hexFrom_hexEncode, beNat]
      have e : 16 * 0 + b.toNat % 16 = b.toNat := by omega
      rw [e]
    · simp only [List.nil_append, List.length_cons, hl]; omega

/-- What `serialize_uint` writes: `0x` and digits with that value, two per byte at most. -/
theorem serializeUint_spec (n w : Nat) (hw : 0 < w) (hw' : w ≤ 32) (h : n < 256 ^ w) :
    ∃ t, serializeUint n = pfx ++ t ∧ (∀ c ∈ t, isHex c = true) ∧ valueOf t = n ∧
      t.length ≤ 2 * w := by
  have h32 : n < 256 ^ 32 := Nat.lt_of_lt_of_le h (Nat.pow_le_pow_right (by decide) hw')
  have hv : beNat ((beFixed 32 n).dropWhile (· == 0)) = n := by
    rw [beNat_dropWhile, beNat_beFixed_of_lt h32]
  have hbytes : (beFixed 32 n).dropWhile (· == 0) = beBytes n := by
    rw [← beBytes_beNat _ (head_dropWhile _), hv]
  unfold serializeUint
  cases hb : (beFixed 32 n).dropWhile (· == 0) with
  | nil =>
    rw [hb] at hv
    refine ⟨[0x30], rfl, by decide, ?_, by simp only [List.length_cons, List.length_nil]; omega⟩
    rw [(by decide : valueOf [0x30] = 0)]; simpa using hv
  | cons b bs =>
    obtain ⟨h1, h2, h3⟩ := toHexRaw_spec b bs
    refine ⟨toHexRaw (b :: bs), rfl, h1, ?_, ?_⟩
    · unfold valueOf
      rw [← hexFrom_foldl, h2, ← hb, hv]
    · have := beBytes_length_le n w h
      rw [← hbytes, hb] at this
      omega

/-- Every number the node writes is read back by the client. -/
theorem C115_uint {bits : Nat} (x : UIntN bits) (hb : bits ≤ 256) : hexUint bits (jUint x) = .ok x := by
  have hx : x.val < 256 ^ 32 := Nat.lt_of_lt_of_le x.lt
    (by rw [(by decide : (256 : Nat) ^ 32 = 2 ^ 256)]; exact Nat.pow_le_pow_right (by decide) hb)
  obtain ⟨t, h1, h2, h3, h4⟩ := serializeUint_spec x.val 32 (by decide) (by decide) hx
  unfold jUint
  rw [h1, C115_digits_partial bits t h2, if_pos (by omega)]
  refine congrArg Outcome.ok (UIntN.ext' ?_)
  show valueOf t % 2 ^ bits = x.val
  rw [h3, Nat.mod_eq_of_lt x.lt]

theorem ethUint_jUint (x : U64) : ethUint 64 (jUint x) = .ok x := by
  have hx : x.val < 256 ^ 8 := by have := x.lt; simpa using this
  obtain ⟨t, h1, h2, h3, h4⟩ := serializeUint_spec x.val 8 (by decide) (by decide) hx
  unfold jUint ethUint
  have hd : (pfx ++ t).drop 2 = t := rfl
  have hp : pfx.isPrefixOf (pfx ++ t) = true := List.isPrefixOf_iff_prefix.2 ⟨t, rfl⟩
  have ha : (t.all isHex && decide (t.length ≤ 64 / 4)) = true := by
    rw [Bool.and_eq_true]
    exact ⟨List.all_eq_true.2 h2, decide_eq_true (by omega)⟩
  have hv : hexFrom 0 t = x.val := by rw [hexFrom_foldl]; exact h3
  dsimp only
  rw [h1, if_pos hp, hd, if_pos ha, dif_pos (by rw [hv]; exact x.lt)]
  exact congrArg Outcome.ok (UIntN.ext' hv)

theorem pfx_prefix (t : Text) : pfx.isPrefixOf (pfx ++ t) = true :=
  List.isPrefixOf_iff_prefix.2 ⟨t, rfl⟩

theorem ethFixed_jFixed {n : Nat} (b : FixedBytes n) : ethFixed n (jFixed b) = .ok b := by
  unfold jFixed jBytes ethFixed
  dsimp only
  rw [if_pos (pfx_prefix _)]
  show Outcome.ofOption ((decodePairs (hexEncode b.bytes)).bind _) = _
  rw [decodePairs_hexEncode]
  simp [Outcome.ofOption]

theorem digit_lower {n : Nat} (h : n < 16) :
    (!(0x41 ≤ (digit n).toNat && (digit n).toNat ≤ 0x46)) = true := by
  have key : ∀ n : Fin 16, (!(0x41 ≤ (digit n.val).toNat && (digit n.val).toNat ≤ 0x46)) = true := by
    decide
  exact key ⟨n, h⟩

theorem hexEncode_lower : ∀ bs : Bytes, lowerOnly (hexEncode bs) = true := by
  intro bs
  induction bs with
  | nil => rfl
  | cons b bs ih =>
    have hb := b.toNat_lt
    unfold lowerOnly at ih ⊢
    simp only [hexEncode, List.all_cons]
    rw [ih, digit_lower (show b.toNat / 16 < 16 by omega), digit_lower (show b.toNat % 16 < 16 by omega)]
    rfl

theorem lowerBytes_jBytes (b : Bytes) : lowerBytes (jBytes b) = .ok b := by
  unfold jBytes lowerBytes
  dsimp only
  have : (pfx.isPrefixOf (pfx ++ hexEncode b) && lowerOnly ((pfx ++ hexEncode b).drop 2)) = true := by
    rw [pfx_prefix]
    show (true && lowerOnly (hexEncode b)) = true
    rw [hexEncode_lower]; rfl
  rw [if_pos this]
  show Outcome.ofOption (decodePairs (hexEncode b)) = _
  rw [decodePairs_hexEncode]; rfl

theorem hexField_jBytes (b : Bytes) : hexField (jBytes b) = .ok b := by
  unfold jBytes hexField fromStr
  dsimp only
  rw [if_pos (pfx_prefix _)]
  show Outcome.ofOption (hexDecode (hexEncode b)) = _
  have : hexDecode (hexEncode b) = some b := by
    unfold hexDecode
    split
    next h =>
      have h2 := hexEncode_length b
      rw [h] at h2
      have : b = [] := List.length_eq_zero_iff.1 (by simp only [List.length_nil] at h2; omega)
      rw [this]
    · rw [pfx_hexEncode]
      exact decodePairs_hexEncode b
  rw [this]; rfl

theorem readAll_map {α : Type} (r : J → Outcome α) (w : α → J) (h : ∀ a, r (w a) = .ok a) :
    ∀ l : List α, readAll r (l.map w) = .ok l := by
  intro l
  induction l with
  | nil => rfl
  | cons a l ih => simp only [List.map_cons, readAll, h, ih, Outcome.bind]

/-! ## Blocks, proofs and proposals -/

theorem readExtra_jExtra (b : Bytes) : readExtra (jExtra b) = .ok b := by
  simp [readExtra, jExtra, struct, req, lowerBytes_jBytes]

/-- The proof read by a client is the proof of the node. -/
theorem C115_proof (p : Proof) : readProof (jProof p) = .ok p := by
  simp [readProof, jProof, struct, req, lowerBytes_jBytes, C115_uint, ethFixed_jFixed, Outcome.bind]

/-- The header read by a client is the header of the node. -/
theorem C115_header (h : Header) : readHeader (jHeader h) = .ok h := by
  simp [readHeader, jHeader, struct, req, C115_uint, ethFixed_jFixed, ethUint_jUint, C115_proof, version,
    jVersion, readList, readAll_map _ _ readExtra_jExtra, Outcome.bind]

/-- The block read by a client is the block of the node. -/
theorem C115_block (b : Block.Block) : readBlock (jBlock b) = .ok b := by
  simp [readBlock, jBlock, struct, req, C115_header, readList, readAll_map _ _ ethFixed_jFixed,
    Outcome.bind]

/-- The proposal read by a client is the proposal of the node; base fee and chain id included. -/
theorem C115_proposal (p : Proposal) : readProposal (jProposal p) = .ok p := by
  simp [readProposal, jProposal, struct, req, C115_uint, ethFixed_jFixed, ethUint_jUint, C115_proof,
    version, jVersion, readList, readAll_map _ _ readExtra_jExtra, readAll_map _ _ ethFixed_jFixed,
    Outcome.bind]

/-! ## Metadata -/

theorem readVersion_j (v : Version) : readVersion (jVersionRange v) = .ok v := by
  simp [readVersion, jVersionRange, struct, req, C115_uint, Outcome.bind]

theorem readValidator_j (v : Validator) : readValidator (jValidator v) = .ok v := by
  simp [readValidator, jValidator, struct, req, C115_uint, ethFixed_jFixed, hexField_jBytes, Outcome.bind]

theorem readConfig_j (r : Ratios) (m : U64) : readConfig (jConfig r m) = .ok r := by
  simp [readConfig, jConfig, struct, req, C115_uint, Outcome.bind]

/-- Of the metadata, a client reads the version, the epoch, the validators and the consensus
parameters; the proposal counters and the contract limit are missing. -/
theorem C115_metadata_partial (m : Metadata) :
    readMetadata (jMetadata m) =
      .ok { version := m.version, epoch := m.epoch, verifiers := m.verifiers, counter := [],
            ratios := m.ratios } := by
  simp [readMetadata, jMetadata, struct, req, C115_uint, readVersion_j, readConfig_j, readList,
    readAll_map _ _ readValidator_j, Outcome.bind]

/-- So metadata that differ are read as the same: the counters and the contract limit do not
arrive. -/
theorem C115_metadata_false :
    ∃ m n : Metadata, m.counter ≠ n.counter ∧ m.maxContractLimit ≠ n.maxContractLimit ∧
      readMetadata (jMetadata m) = readMetadata (jMetadata n) := by
  let z : U64 := ⟨0, by decide⟩
  let r : Ratios := ⟨z, z, z, z, z, z, z, z⟩
  let a : H160 := ⟨List.replicate 20 1, by decide⟩
  refine ⟨⟨⟨z, z⟩, z, [], [(a, z)], r, z⟩, ⟨⟨z, z⟩, z, [], [], r, ⟨1, by decide⟩⟩, by simp, ?_, ?_⟩
  · intro h; exact absurd (congrArg UIntN.val h) (by decide)
  · rw [C115_metadata_partial, C115_metadata_partial]

/-! ## Reading back -/

/-- What a client writes of a proof, it reads back. -/
theorem C115_tools_proof (p : Proof) : readProof (toolsProofJson p) = .ok p := C115_proof p

/-- False that a client can read back the metadata it writes: numbers are written, texts are
expected, so it always fails. -/
theorem C115_tools_metadata_false (m : ToolsMetadata) (rest : List (String × J)) :
    readMetadata (toolsMetadataJson m rest) = .err := by
  have hv : readVersion (toolsVersionJson m.version) = .err := by
    simp [readVersion, toolsVersionJson, struct, req, hexUint, Outcome.bind]
  unfold readMetadata toolsMetadataJson struct
  dsimp only
  have : req ([("version", toolsVersionJson m.version), ("epoch", .num m.epoch.val)] ++ rest) "version"
      readVersion = .err := by
    unfold req
    simp only [List.cons_append, List.nil_append, List.filter_cons, beq_self_eq_true, if_true]
    cases h : (List.filter (fun e => e.1 == "version") rest) with
    | nil => simpa using hv
    | cons x l => simp
  rw [this]
  rfl

/-- False that the node can read back what it writes: texts are written, numbers are expected, so it
always fails. -/
theorem C115_node_false (v : Version) (p : Proof) (bytes : J → Outcome Bytes) :
    nodeReadVersion (jVersionRange v) = .err ∧ nodeReadProof bytes (jProof p) = .err := by
  constructor
  · simp [nodeReadVersion, jVersionRange, struct, req, jUint, numUint, Outcome.bind]
  · simp [nodeReadProof, jProof, struct, req, jUint, numUint, Outcome.bind]

/-- What the node's own reader does read: a proof with its numbers as numbers, each field from the one of its name. -/
theorem C115_node_proof (p : Proof) (bytes : J → Outcome Bytes) (a b : J) (ha : bytes a = .ok p.signature)
    (hb : bytes b = .ok p.bitmap) :
    nodeReadProof bytes (.obj [("number", .num p.number.val), ("round", .num p.round.val),
      ("proposal_hash", jFixed p.blockHash), ("signature", a), ("bitmap", b)]) = .ok p := by
  simp [nodeReadProof, struct, req, numUint, ethFixed_jFixed, ha, hb, Outcome.bind, Outcome.ofOption]

example : (match nodeReadProof (fun j => match j with | .num n => .ok [UInt8.ofNat n] | _ => .err)
      (.obj [("number", .num 5), ("round", .num 1), ("proposal_hash", jFixed (⟨List.replicate 32 7, by decide⟩ : FixedBytes 32)),
        ("signature", .num 3), ("bitmap", .num 4)]) with
    | .ok p => [p.signature, p.bitmap]
    | _ => []) = [[3], [4]] := by decide +kernel

end Axon.ToolsJson
