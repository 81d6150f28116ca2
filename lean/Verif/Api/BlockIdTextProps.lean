import Verif.Api.BlockIdText
import Verif.Codec.HexProps

/-!
# C51: block identifiers as JSON
-/

namespace Axon.Api

open Axon Axon.Hex

/-! ## Specification -/

/-- `t` writes the number `n`: hex digits of either case, possibly after a `+`. -/
def NumText (t : Text) (n : U64) : Prop :=
  ∃ ds, ds ≠ [] ∧ (t = ds ∨ t = 0x2b :: ds) ∧ hexValue ds = some n.val

/-- The JSON values that stand for a block identifier. -/
inductive Denotes : Json → BlockId → Prop where
  | latest : Denotes (.str "latest".toUTF8.toList) .latest
  | earliest : Denotes (.str "earliest".toUTF8.toList) .earliest
  | pending : Denotes (.str "pending".toUTF8.toList) .pending
  | num (t : Text) (n : U64) : NumText t n → Denotes (.str ("0x".toUTF8.toList ++ t)) (.num n)
  | numObj (t : Text) (n : U64) : NumText t n →
      Denotes (.obj [("blockNumber".toUTF8.toList, some ("0x".toUTF8.toList ++ t))]) (.num n)
  | hashObj (t : Text) (h : H256) : HexOf t h.bytes →
      Denotes (.obj [("blockHash".toUTF8.toList, some ("0x".toUTF8.toList ++ t))]) (.hash h)
  | hashObj2 (t : Text) (h : H256) : HexOf t h.bytes →
      Denotes (.obj [("blockHash".toUTF8.toList, some ("0x0x".toUTF8.toList ++ t))]) (.hash h)

/-! ## Lemmas -/

def valueFrom (a : Nat) (s : Text) : Option Nat :=
  s.foldl (fun acc c => acc.bind fun a => (digitVal c).map fun d => 16 * a + d) (some a)

theorem valueFrom_cons (a : Nat) (c : UInt8) (s : Text) :
    valueFrom a (c :: s) = (digitVal c).bind fun d => valueFrom (16 * a + d) s := by
  unfold valueFrom
  rw [List.foldl_cons, Option.bind_some]
  cases digitVal c with
  | none =>
    rw [Option.map_none, Option.bind_none]
    induction s with
    | nil => rfl
    | cons x s ih => rw [List.foldl_cons, Option.bind_none, ih]
  | some d => rfl

theorem le_valueFrom {a n : Nat} {s : Text} (h : valueFrom a s = some n) : a ≤ n := by
  induction s generalizing a with
  | nil => simp [valueFrom] at h; omega
  | cons c s ih =>
    rw [valueFrom_cons] at h
    obtain ⟨d, -, h⟩ := Option.bind_eq_some_iff.1 h
    have := ih h
    omega

theorem radixFrom_iff {a n : Nat} {s : Text} (ha : a < 2 ^ 64) :
    radixFrom a s = some n ↔ valueFrom a s = some n ∧ n < 2 ^ 64 := by
  induction s generalizing a with
  | nil =>
    simp only [radixFrom, valueFrom, List.foldl_nil, Option.some.injEq]
    constructor
    · rintro rfl; exact ⟨rfl, ha⟩
    · exact fun h => h.1
  | cons c s ih =>
    rw [valueFrom_cons, radixFrom]
    cases digitVal c with
    | none => simp
    | some d =>
      simp only [Option.bind_some]
      split
      · rename_i h; exact ih h
      · rename_i h
        simp only [reduceCtorEq, false_iff, not_and]
        intro hv
        have := le_valueFrom hv
        omega

theorem plus_no_digit : digitVal 0x2b = none := by decide

theorem radix16_iff (s : Text) (n : Nat) :
    radix16 s = some n ↔ n < 2 ^ 64 ∧
      ∃ ds, ds ≠ [] ∧ (s = ds ∨ s = 0x2b :: ds) ∧ hexValue ds = some n := by
  have hv : ∀ ds, hexValue ds = valueFrom 0 ds := fun _ => rfl
  cases s with
  | nil =>
    simp only [radix16, reduceCtorEq, false_iff]
    rintro ⟨-, ds, hne, hs, -⟩
    rcases hs with hs | hs
    · exact hne hs.symm
    · cases hs
  | cons c r =>
    simp only [radix16]
    split
    · rename_i h
      obtain ⟨rfl, hr⟩ := h
      rw [radixFrom_iff (by decide)]
      constructor
      · rintro ⟨h1, h2⟩
        exact ⟨h2, r, hr, Or.inr rfl, h1⟩
      · rintro ⟨h2, ds, hne, hs, h1⟩
        rcases hs with rfl | hs
        · rw [hv, valueFrom_cons, plus_no_digit] at h1
          simp at h1
        · simp only [List.cons.injEq, true_and] at hs
          subst hs
          exact ⟨h1, h2⟩
    · rename_i h
      rw [radixFrom_iff (by decide)]
      constructor
      · rintro ⟨h1, h2⟩
        exact ⟨h2, c :: r, by simp, Or.inl rfl, h1⟩
      · rintro ⟨h2, ds, hne, hs, h1⟩
        rcases hs with rfl | hs
        · exact ⟨h1, h2⟩
        · simp only [List.cons.injEq] at hs
          obtain ⟨rfl, rfl⟩ := hs
          exact absurd ⟨rfl, hne⟩ h

theorem toNum_iff (n : Nat) (id : BlockId) : toNum n = some id ↔ ∃ m : U64, m.val = n ∧ id = .num m := by
  unfold toNum
  constructor
  · intro h
    obtain ⟨m, hm, rfl⟩ := Option.map_eq_some_iff.1 h
    unfold UIntN.ofNat? at hm
    split at hm
    · simp only [Option.some.injEq] at hm
      subst hm
      exact ⟨_, rfl, rfl⟩
    · simp at hm
  · rintro ⟨m, rfl, rfl⟩
    have := m.lt
    simp [UIntN.ofNat?, this]

theorem numText_iff (t : Text) (id : BlockId) :
    (radix16 t).bind toNum = some id ↔ ∃ n, id = .num n ∧ NumText t n := by
  constructor
  · intro h
    obtain ⟨k, hk, h⟩ := Option.bind_eq_some_iff.1 h
    obtain ⟨m, rfl, rfl⟩ := (toNum_iff _ _).1 h
    exact ⟨m, rfl, ((radix16_iff _ _).1 hk).2⟩
  · rintro ⟨n, rfl, hn⟩
    exact Option.bind_eq_some_iff.2 ⟨n.val, (radix16_iff _ _).2 ⟨n.lt, hn⟩,
      (toNum_iff _ _).2 ⟨n, rfl, rfl⟩⟩

theorem lit_pfx : "0x".toUTF8.toList = pfx := by decide +kernel

theorem pfx_cases (s : Text) : (pfx.isPrefixOf s = true ∧ ∃ t, s = pfx ++ t ∧ s.drop 2 = t) ∨
    (pfx.isPrefixOf s = false ∧ ∀ t, s ≠ pfx ++ t) := by
  cases h : pfx.isPrefixOf s with
  | true =>
    obtain ⟨t, rfl⟩ := List.isPrefixOf_iff_prefix.1 h
    exact Or.inl ⟨rfl, t, rfl, by simp [pfx]⟩
  | false =>
    refine Or.inr ⟨rfl, ?_⟩
    rintro t rfl
    rw [List.isPrefixOf_iff_prefix.2 ⟨t, rfl⟩] at h
    exact absurd h (by decide)

theorem drop_pfx (t : Text) : (pfx ++ t).drop 2 = t := by simp [pfx]

theorem isPrefix_pfx (t : Text) : pfx.isPrefixOf (pfx ++ t) = true :=
  List.isPrefixOf_iff_prefix.2 ⟨t, rfl⟩

theorem tag_ne (t : Text) : pfx ++ t ≠ lit "latest" ∧ pfx ++ t ≠ lit "earliest" ∧
    pfx ++ t ≠ lit "pending" := by
  have hl : (lit "latest").head? = some 0x6c := by decide +kernel
  have he : (lit "earliest").head? = some 0x65 := by decide +kernel
  have hp : (lit "pending").head? = some 0x70 := by decide +kernel
  refine ⟨?_, ?_, ?_⟩ <;> intro h
  · rw [← h] at hl; simp [pfx] at hl
  · rw [← h] at he; simp [pfx] at he
  · rw [← h] at hp; simp [pfx] at hp

theorem visitStr_pfx (t : Text) : visitStr (pfx ++ t) = (radix16 t).bind toNum := by
  obtain ⟨h1, h2, h3⟩ := tag_ne t
  rw [visitStr, if_neg h1, if_neg h2, if_neg h3, if_pos (isPrefix_pfx t), drop_pfx]

theorem numberValue_iff (v : Option Text) (id : BlockId) :
    numberValue v = some id ↔ ∃ t n, v = some (pfx ++ t) ∧ id = .num n ∧ NumText t n := by
  constructor
  · intro h
    rw [numberValue] at h
    obtain ⟨s, hs, h2⟩ := Option.bind_eq_some_iff.1 h
    subst hs
    rcases pfx_cases s with ⟨hp, t, ht, hd⟩ | ⟨hp, -⟩
    · rw [if_pos hp, hd] at h2
      obtain ⟨n, hid, hn⟩ := (numText_iff _ _).1 h2
      exact ⟨t, n, by rw [ht], hid, hn⟩
    · rw [hp] at h2; simp at h2
  · rintro ⟨t, n, rfl, rfl, hn⟩
    rw [numberValue, Option.bind_some, if_pos (isPrefix_pfx t), drop_pfx]
    exact (numText_iff _ _).2 ⟨n, rfl, hn⟩

theorem hexOf_no_pfx {t : Text} {b : Bytes} (h : HexOf t b) : ∀ u, t ≠ pfx ++ u := by
  rintro u rfl
  have := (decodePairs_iff _ _).2 h
  simp only [pfx, List.cons_append, List.nil_append, decodePairs] at this
  have hx : digitVal 0x78 = none := by decide
  rw [hx] at this
  simp at this

theorem fromStr_iff (s : Text) (b : Bytes) :
    fromStr s = some b ↔ ∃ t, (s = pfx ++ t ∨ s = pfx ++ pfx ++ t) ∧ HexOf t b := by
  unfold fromStr
  rcases pfx_cases s with ⟨hp, t, rfl, hd⟩ | ⟨hp, hne⟩
  · rw [if_pos hp, hd]
    unfold hexDecode
    constructor
    · intro h
      split at h
      · rename_i ht
        simp only [Option.some.injEq] at h
        subst h ht
        exact ⟨[], Or.inl rfl, .nil⟩
      · rcases pfx_cases t with ⟨hp', u, rfl, hd'⟩ | ⟨hp', -⟩
        · rw [if_pos hp', hd'] at h
          exact ⟨u, Or.inr (List.append_assoc _ _ _).symm, (decodePairs_iff _ _).1 h⟩
        · rw [hp'] at h
          exact ⟨t, Or.inl rfl, (decodePairs_iff _ _).1 h⟩
    · rintro ⟨u, hu, hb⟩
      rcases hu with hu | hu
      · have := List.append_cancel_left hu
        subst this
        split
        · rename_i ht
          subst ht
          have := (decodePairs_iff _ _).2 hb
          simpa [decodePairs] using this
        · rcases pfx_cases t with ⟨-, u, rfl, -⟩ | ⟨hp', -⟩
          · exact absurd rfl (hexOf_no_pfx hb u)
          · rw [hp']
            exact (decodePairs_iff _ _).2 hb
      · rw [List.append_assoc] at hu
        have := List.append_cancel_left hu
        subst this
        rw [if_neg (by simp [pfx]), if_pos (isPrefix_pfx u), drop_pfx]
        exact (decodePairs_iff _ _).2 hb
  · rw [hp]
    simp only [Bool.false_eq_true, if_false, reduceCtorEq, false_iff]
    rintro ⟨t, ht, -⟩
    rcases ht with rfl | rfl
    · exact hne t rfl
    · exact hne (pfx ++ t) (List.append_assoc _ _ _)

theorem hashValue_iff (v : Option Text) (id : BlockId) :
    hashValue v = some id ↔ ∃ t h, (v = some (pfx ++ t) ∨ v = some (pfx ++ pfx ++ t)) ∧
      id = .hash h ∧ HexOf t h.bytes := by
  constructor
  · intro h
    rw [hashValue] at h
    obtain ⟨s, hs, h2⟩ := Option.bind_eq_some_iff.1 h
    subst hs
    obtain ⟨b, hb, h3⟩ := Option.bind_eq_some_iff.1 h2
    split at h3
    · rename_i hl
      simp only [Option.some.injEq] at h3
      subst h3
      obtain ⟨t, ht, hx⟩ := (fromStr_iff _ _).1 hb
      exact ⟨t, ⟨b, hl⟩, by rcases ht with rfl | rfl <;> simp, rfl, hx⟩
    · simp at h3
  · rintro ⟨t, h, hv, rfl, hx⟩
    have key : ∀ s, (s = pfx ++ t ∨ s = pfx ++ pfx ++ t) → hashValue (some s) = some (.hash h) := by
      intro s hs
      rw [hashValue, Option.bind_some, (fromStr_iff _ _).2 ⟨t, hs, hx⟩, Option.bind_some,
        dif_pos h.len]
    rcases hv with rfl | rfl
    · exact key _ (Or.inl rfl)
    · exact key _ (Or.inr rfl)

theorem keys_ne : lit "blockHash" ≠ lit "blockNumber" := by decide +kernel

theorem lit_pfx2 (t : Text) : "0x0x".toUTF8.toList ++ t = pfx ++ pfx ++ t := by
  have : "0x0x".toUTF8.toList = pfx ++ pfx := by decide +kernel
  rw [this]

/-! ## Theorems -/

/-- **C51 (part).** The accepted JSON values are exactly those that denote a block identifier, which
is the result.  Missing for the round trip: numbers and hashes, which are written in a form that
denotes nothing (`C51_number_false`, `C51_hash_false`). -/
theorem C51_accepts_partial (j : Json) (id : BlockId) : BlockId.ofJson j = some id ↔ Denotes j id := by
  constructor
  · intro h
    cases j with
    | other => simp [BlockId.ofJson] at h
    | str t =>
      simp only [BlockId.ofJson] at h
      rcases pfx_cases t with ⟨-, u, rfl, -⟩ | ⟨hp, -⟩
      · rw [visitStr_pfx] at h
        obtain ⟨n, rfl, hn⟩ := (numText_iff _ _).1 h
        rw [← lit_pfx]
        exact .num u n hn
      · unfold visitStr at h
        split at h
        · rename_i ht
          simp only [Option.some.injEq] at h
          subst h ht
          exact .latest
        · split at h
          · rename_i ht
            simp only [Option.some.injEq] at h
            subst h ht
            exact .earliest
          · split at h
            · rename_i ht
              simp only [Option.some.injEq] at h
              subst h ht
              exact .pending
            · rw [hp] at h
              simp at h
    | obj l =>
      simp only [BlockId.ofJson] at h
      cases l with
      | nil => simp [visitMap] at h
      | cons e rest =>
        obtain ⟨k, v⟩ := e
        simp only [visitMap] at h
        obtain ⟨id', h1, h2⟩ := Option.bind_eq_some_iff.1 h
        split at h2
        · rename_i hr
          simp only [Option.some.injEq] at h2
          subst h2
          have hr := List.isEmpty_iff.1 hr
          subst hr
          split at h1
          · rename_i hk
            subst hk
            obtain ⟨t, n, rfl, rfl, hn⟩ := (numberValue_iff _ _).1 h1
            rw [← lit_pfx]
            exact .numObj t n hn
          · split at h1
            · rename_i hk
              subst hk
              obtain ⟨t, x, hv, rfl, hx⟩ := (hashValue_iff _ _).1 h1
              rcases hv with rfl | rfl
              · rw [← lit_pfx]
                exact .hashObj t x hx
              · rw [← lit_pfx2]
                exact .hashObj2 t x hx
            · simp at h1
        · simp at h2
  · intro h
    cases h with
    | latest => decide +kernel
    | earliest => decide +kernel
    | pending => decide +kernel
    | num t n hn =>
      simp only [BlockId.ofJson, lit_pfx, visitStr_pfx]
      exact (numText_iff _ _).2 ⟨n, rfl, hn⟩
    | numObj t n hn =>
      simp only [BlockId.ofJson, visitMap, lit_pfx]
      rw [if_pos (show "blockNumber".toUTF8.toList = lit "blockNumber" from rfl), (numberValue_iff _ _).2 ⟨t, n, rfl, rfl, hn⟩]
      rfl
    | hashObj t x hx =>
      simp only [BlockId.ofJson, visitMap, lit_pfx]
      rw [if_neg (show "blockHash".toUTF8.toList ≠ lit "blockNumber" from keys_ne),
        if_pos (show "blockHash".toUTF8.toList = lit "blockHash" from rfl), (hashValue_iff _ _).2 ⟨t, x, Or.inl rfl, rfl, hx⟩]
      rfl
    | hashObj2 t x hx =>
      simp only [BlockId.ofJson, visitMap, lit_pfx2]
      rw [if_neg (show "blockHash".toUTF8.toList ≠ lit "blockNumber" from keys_ne),
        if_pos (show "blockHash".toUTF8.toList = lit "blockHash" from rfl), (hashValue_iff _ _).2 ⟨t, x, Or.inr rfl, rfl, hx⟩]
      rfl

/-- **C51 (part).** The tags survive the round trip. -/
theorem C51_tags_partial :
    ∀ id ∈ [BlockId.latest, BlockId.earliest, BlockId.pending],
      BlockId.ofJson id.toJson = some id := by
  decide +kernel

/-- **C51 (part).** Numbers in the usual notation — `0x` and the shortest digits — stand for
themselves, and so do hashes in objects with the key `blockHash`. -/
theorem C51_usual_partial (n : U64) (h : H256) :
    BlockId.ofJson (.str (serializeUint n.val)) = some (.num n) ∧
      BlockId.ofJson (.obj [("blockHash".toUTF8.toList, some (asString h.bytes))]) = some (.hash h) := by
  constructor
  · have hlt := n.lt
    obtain ⟨ds, he, hv, hne, -⟩ := C08_uint_text n.val (Nat.lt_trans hlt (by decide))
    rw [he, ← lit_pfx]
    exact (C51_accepts_partial _ _).2 (.num ds n ⟨ds, hne, Or.inl rfl, hv⟩)
  · rw [asString, ← lit_pfx]
    exact (C51_accepts_partial _ _).2
      (.hashObj _ h ((decodePairs_iff _ _).1 (decodePairs_hexEncode _)))

theorem tag_not_hex : ∀ t ∈ [lit "latest", lit "earliest", lit "pending"], hexValue t = none := by
  decide +kernel

theorem pfx_not_hex (t : Text) : hexValue (pfx ++ t) = none := by
  show valueFrom 0 _ = none
  rw [show pfx ++ t = 0x30 :: 0x78 :: t from rfl, valueFrom_cons]
  have h0 : digitVal 0x30 = some 0 := by decide
  have hx : digitVal 0x78 = none := by decide
  rw [h0, Option.bind_some, valueFrom_cons, hx, Option.bind_none]

theorem digits_denote_nothing (t : Text) (n : Nat) (h : hexValue t = some n) :
    BlockId.ofJson (.str t) = none := by
  have hne : ∀ s ∈ [lit "latest", lit "earliest", lit "pending"], t ≠ s := by
    rintro s hs rfl
    rw [tag_not_hex _ hs] at h
    simp at h
  simp only [BlockId.ofJson, visitStr]
  rw [if_neg (hne _ (by simp)), if_neg (hne _ (by simp)), if_neg (hne _ (by simp))]
  rcases pfx_cases t with ⟨-, u, rfl, -⟩ | ⟨hp, -⟩
  · rw [pfx_not_hex] at h
    simp at h
  · rw [hp]
    simp

/-- **C51, the full statement is false.** No block number survives the round trip: it is written
without the prefix that the reader requires. -/
theorem C51_number_false (n : U64) : BlockId.ofJson (BlockId.num n).toJson = none := by
  have hlt := n.lt
  obtain ⟨ds, he, hv, -, -⟩ := C08_uint_text n.val (Nat.lt_trans hlt (by decide))
  rw [BlockId.toJson, lowerHex, he, drop_pfx]
  exact digits_denote_nothing ds _ hv

/-- **C51, the full statement is false.** No block hash survives the round trip. -/
theorem C51_hash_false (h : H256) : BlockId.ofJson (BlockId.hash h).toJson = none := by
  rw [BlockId.toJson]
  exact digits_denote_nothing _ _ (hexValue_aux _ h.bytes 0 rfl)

/-! ## Instances -/

example : BlockId.ofJson (.str (lit "0x1a")) = some (.num ⟨26, by decide⟩) ∧
    BlockId.ofJson (.str (lit "0x+1A")) = some (.num ⟨26, by decide⟩) ∧
    BlockId.ofJson (.str (lit "0x")) = none ∧ BlockId.ofJson (.str (lit "0x+")) = none ∧
    BlockId.ofJson (.str (lit "26")) = none ∧
    BlockId.ofJson (.str (lit "0x10000000000000000")) = none ∧
    BlockId.ofJson (.str (lit "0xffffffffffffffff")) = some (.num ⟨2 ^ 64 - 1, by decide⟩) ∧
    BlockId.ofJson (.obj [(lit "blockNumber", some (lit "0x2"))]) = some (.num ⟨2, by decide⟩) ∧
    BlockId.ofJson (.obj [(lit "blockNumber", some (lit "0x2")), (lit "requireCanonical", none)])
      = none ∧
    BlockId.toJson (.num ⟨26, by decide⟩) = .str (lit "1a") := by
  decide +kernel

example : NumText (lit "+1A") ⟨26, by decide⟩ :=
  ⟨lit "1A", by decide +kernel, by decide +kernel, by decide +kernel⟩

example : BlockId.ofJson (.obj [(lit "blockHash", some (pfx ++ pfx ++ List.replicate 64 0x37))])
    = some (.hash ⟨List.replicate 32 0x77, by decide⟩) := by
  decide +kernel

end Axon.Api
