import Verif.Codec.TxLemmas
import Verif.Codec.RlpProps

/-!
# C02, C03, C04: transaction codec properties
-/

namespace Axon.Tx
open Axon.Rlp

/-! ## Specification side -/

/-- What a client can submit: a signature with two 32-byte halves (or a longer interoperation
signature), a recovery id 0/1 for legacy transactions, an explicit chain id for typed ones. -/
structure Submittable (t : Unverified) : Prop where
  signed : ∃ sg, t.signature = some sg ∧ sg.Wf ∧
    ∀ l, t.unsigned = .legacy l → sg.standardV.val ≤ 1
  chain : (∀ l, t.unsigned ≠ .legacy l) → ∃ id, t.chainId = some id

/-- Kind tag used in the statements. -/
inductive Kind where
  | legacy | eip2930 | eip1559
deriving DecidableEq

/-- The kind of an unsigned transaction. -/
def kindOf : Unsigned → Kind
  | .legacy _ => .legacy
  | .eip2930 _ => .eip2930
  | .eip1559 _ => .eip1559

theorem and128_ne_zero : ∀ h : UInt8, h.toNat &&& 0x80 ≠ 0 ↔ 0x80 ≤ h.toNat := by
  intro h
  have := h.toBitVec.isLt
  have key : ∀ n : Fin 256, (n.val &&& 0x80 ≠ 0 ↔ 0x80 ≤ n.val) := by decide +kernel
  exact key ⟨h.toNat, by have := h.toNat_lt; omega⟩

theorem encode_list_head (l : List Item) (hlen : (encode (.list l)).length < 2 ^ 64) :
    ∃ h t, encode (.list l) = h :: t ∧ 0xc0 ≤ h.toNat := by
  have hp := encPayload_length (encodeMany l)
  unfold encode at hlen ⊢
  unfold encPayload at hlen hp ⊢
  split
  · refine ⟨_, _, rfl, ?_⟩
    rw [u8_ofNat_toNat (by omega)]; omega
  · rename_i h56
    simp only [h56, if_false] at hlen hp
    have := beBytes_len_small (n := (encodeMany l).length) (by omega) (by omega)
    refine ⟨_, _, rfl, ?_⟩
    rw [u8_ofNat_toNat (by omega)]; omega

/-! ## C02 -/

/-- C02: decoding the encoding of a submittable transaction returns that transaction. -/
theorem C02_roundtrip (t : Unverified) (ht : Submittable t) (bs : Bytes)
    (henc : encodeTx t = some bs) (hlen : bs.length < 2 ^ 64) : decodeTx bs = .ok t := by
  obtain ⟨⟨sg, hsig, hwf, hleg⟩, hchain⟩ := ht
  obtain ⟨ri, si, hrs, hdec⟩ := decodeSig_sigRS sg hwf
  obtain ⟨u, sig, chain⟩ := t
  simp only at hsig hchain hleg
  subst hsig
  cases u with
  | legacy tx =>
    have hv := hleg tx rfl
    simp only [encodeTx, legacyFields, Option.map_map] at henc
    cases hx : addReplay sg.standardV chain with
    | none => simp [hx] at henc
    | some x =>
      rw [hx] at henc
      simp only [Option.map_some, Function.comp, Option.some.injEq] at henc
      obtain ⟨e1, e2⟩ := addReplay_extract hv hx
      obtain ⟨h, tl, hh, hc0⟩ := encode_list_head _ (by rw [henc]; exact hlen)
      rw [hh] at henc
      subst henc
      have hbit : h.toNat &&& 0x80 ≠ 0 := (and128_ne_zero h).2 (by omega)
      simp only [decodeTx]
      rw [if_pos hbit, ← hh, decode_encode_item _ (by rw [hh]; exact hlen)]
      simp [decodeLegacy, hrs, e1, e2, hdec, Outcome.ofOption]
  | eip2930 tx =>
    obtain ⟨id, rfl⟩ := hchain (by simp)
    simp only [encodeTx, Option.some.injEq] at henc
    subst henc
    simp only [List.length_cons] at hlen
    simp only [decodeTx]
    rw [if_neg (by decide), if_pos trivial, decode_encode_item _ (by omega)]
    simp [decode2930, eip2930Fields, typedSig, typedChainId, hrs, hdec, Outcome.ofOption,
      toList_map _ _ itemAccess_accessItem]
  | eip1559 tx =>
    obtain ⟨id, rfl⟩ := hchain (by simp)
    simp only [encodeTx, Option.some.injEq] at henc
    subst henc
    simp only [List.length_cons] at hlen
    simp only [decodeTx]
    rw [if_neg (by decide), if_neg (by decide), if_pos trivial, decode_encode_item _ (by omega)]
    simp [decode1559, eip1559Fields, typedSig, typedChainId, hrs, hdec, Outcome.ofOption,
      toList_map _ _ itemAccess_accessItem]

/-- C02: the first byte alone decides which kind an accepted byte string is decoded to. -/
theorem C02_first_byte_decides (h : UInt8) (bs : Bytes) (t : Unverified)
    (hd : decodeTx (h :: bs) = .ok t) :
    (kindOf t.unsigned = .legacy ↔ 0x80 ≤ h.toNat) ∧ (kindOf t.unsigned = .eip2930 ↔ h = 1) ∧
    (kindOf t.unsigned = .eip1559 ↔ h = 2) := by
  have key : ∀ {o : Option Unverified}, Outcome.ofOption o = .ok t → o = some t := by
    intro o ho; cases o <;> simp [Outcome.ofOption] at ho; simp [ho]
  simp only [decodeTx] at hd
  split at hd
  · rename_i hb
    have hb := (and128_ne_zero h).1 hb
    have hd := key hd
    obtain ⟨i, -, hd⟩ := Option.bind_eq_some_iff.1 hd
    have hk : kindOf t.unsigned = .legacy := by
      unfold decodeLegacy at hd
      split at hd
      · simp [Option.bind_eq_some_iff] at hd
        obtain ⟨_, _, _, _, _, _, _, _, _, _, _, _, _, _, _, _, _, _, rfl⟩ := hd
        rfl
      · simp at hd
    have h1 : h ≠ 1 := by rintro rfl; exact absurd hb (by decide)
    have h2 : h ≠ 2 := by rintro rfl; exact absurd hb (by decide)
    simp [hk, hb, h1, h2]
  · rename_i hb
    have hb : ¬ 0x80 ≤ h.toNat := fun hc => hb ((and128_ne_zero h).2 hc)
    split at hd
    · rename_i h1
      obtain ⟨i, -, hd⟩ := Option.bind_eq_some_iff.1 (key hd)
      have hk : kindOf t.unsigned = .eip2930 := by
        unfold decode2930 at hd
        split at hd
        · simp [Option.bind_eq_some_iff] at hd
          obtain ⟨_, _, _, _, _, _, _, _, _, _, _, _, _, _, _, _, _, _, _, _, rfl⟩ := hd
          rfl
        · simp at hd
      subst h1
      simp [hk]
    · split at hd
      · rename_i h1 h2
        obtain ⟨i, -, hd⟩ := Option.bind_eq_some_iff.1 (key hd)
        have hk : kindOf t.unsigned = .eip1559 := by
          unfold decode1559 at hd
          split at hd
          · simp [Option.bind_eq_some_iff] at hd
            obtain ⟨_, _, _, _, _, _, _, _, _, _, _, _, _, _, _, _, _, _, _, _, _, _, rfl⟩ := hd
            rfl
          · simp at hd
        subst h2
        simp [hk]
      · simp at hd

/-- C02, converse direction: whatever byte string is accepted, the decoded transaction is
submittable and re-encoding it gives back the accepted bytes up to ignored trailing bytes.  So two
different byte strings without trailing bytes never decode to the same transaction. -/
theorem C02_canonical (bs : Bytes) (t : Unverified) (hd : decodeTx bs = .ok t) :
    Submittable t ∧ ∃ e rest, encodeTx t = some e ∧ bs = e ++ rest := by
  have key : ∀ {o : Option Unverified}, Outcome.ofOption o = .ok t → o = some t := by
    intro o ho; cases o <;> simp [Outcome.ofOption] at ho; simp [ho]
  have dec : ∀ {b : Bytes} {i : Item}, decode b = some i → ∃ rest, b = encode i ++ rest := by
    intro b i hi
    unfold decode at hi
    cases hp : decodePrefix b with
    | none => simp [hp] at hi
    | some p => simp [hp] at hi; subst hi; exact ⟨p.2, C01_canonical _ _ _ hp⟩
  cases bs with
  | nil => simp [decodeTx] at hd
  | cons h bs =>
    simp only [decodeTx] at hd
    split at hd
    · obtain ⟨i, hi, hd⟩ := Option.bind_eq_some_iff.1 (key hd)
      obtain ⟨rest, hrest⟩ := dec hi
      unfold decodeLegacy at hd
      split at hd
      · simp only [Option.bind_eq_bind, Option.bind_eq_some_iff, Option.pure_def,
          Option.some.injEq] at hd
        obtain ⟨nonce, h0, gp, h1, gl, h2, act, h3, val, h4, data, h5, v, h6, sv, h7, sg, h8, rfl⟩ := hd
        obtain ⟨hv, hwf, hrs⟩ := decodeSig_sound h8
        obtain ⟨hle, hadd⟩ := extract_addReplay h7
        refine ⟨⟨⟨sg, rfl, hwf, fun _ _ => by rw [hv]; exact hle⟩, fun hc => absurd rfl (hc _)⟩, ?_⟩
        refine ⟨_, rest, ?_, hrest⟩
        simp only [encodeTx, legacyFields, hv, hadd, hrs, Option.map_some, Option.some.injEq]
        rw [ofUint_of_toUint h0, ofUint_of_toUint h1, ofUint_of_toUint h2,
          actionItem_of_itemAction h3, ofUint_of_toUint h4, str_of_toBytes h5, ofUint_of_toUint h6]
        rfl
      · simp at hd
    · split at hd
      · rename_i hh
        obtain ⟨i, hi, hd⟩ := Option.bind_eq_some_iff.1 (key hd)
        obtain ⟨rest, hrest⟩ := dec hi
        unfold decode2930 at hd
        split at hd
        · simp only [Option.bind_eq_bind, Option.bind_eq_some_iff, Option.pure_def,
            Option.some.injEq] at hd
          obtain ⟨id, hid, nonce, h0, gp, h1, gl, h2, act, h3, val, h4, data, h5, al, h6, v, h7, sg,
            h8, rfl⟩ := hd
          obtain ⟨hv, hwf, hrs⟩ := decodeSig_sound h8
          refine ⟨⟨⟨sg, rfl, hwf, fun _ hc => by simp at hc⟩, fun _ => ⟨id, rfl⟩⟩, ?_⟩
          refine ⟨_, rest, rfl, ?_⟩
          rw [hh, hrest]
          simp only [eip2930Fields, typedChainId, typedSig, hv, hrs, Option.getD_some]
          rw [ofUint_of_toUint hid, ofUint_of_toUint h0, ofUint_of_toUint h1, ofUint_of_toUint h2,
            actionItem_of_itemAction h3, ofUint_of_toUint h4, str_of_toBytes h5,
            toList_sound (fun _ _ h => accessItem_of_itemAccess h) h6, ofUint_of_toUint h7]
          rfl
        · simp at hd
      · split at hd
        · rename_i hh
          obtain ⟨i, hi, hd⟩ := Option.bind_eq_some_iff.1 (key hd)
          obtain ⟨rest, hrest⟩ := dec hi
          unfold decode1559 at hd
          split at hd
          · simp only [Option.bind_eq_bind, Option.bind_eq_some_iff, Option.pure_def,
              Option.some.injEq] at hd
            obtain ⟨id, hid, nonce, h0, mp, h1', gp, h1, gl, h2, act, h3, val, h4, data, h5, al, h6,
              v, h7, sg, h8, rfl⟩ := hd
            obtain ⟨hv, hwf, hrs⟩ := decodeSig_sound h8
            refine ⟨⟨⟨sg, rfl, hwf, fun _ hc => by simp at hc⟩, fun _ => ⟨id, rfl⟩⟩, ?_⟩
            refine ⟨_, rest, rfl, ?_⟩
            rw [hh, hrest]
            simp only [eip1559Fields, typedChainId, typedSig, hv, hrs, Option.getD_some]
            rw [ofUint_of_toUint hid, ofUint_of_toUint h0, ofUint_of_toUint h1',
              ofUint_of_toUint h1, ofUint_of_toUint h2,
              actionItem_of_itemAction h3, ofUint_of_toUint h4, str_of_toBytes h5,
              toList_sound (fun _ _ h => accessItem_of_itemAccess h) h6, ofUint_of_toUint h7]
            rfl
          · simp at hd
        · simp at hd

/-- C02: decoding panics on the empty byte string only. -/
theorem C02_panic_only_on_empty (bs : Bytes) : decodeTx bs = .panic ↔ bs = [] := by
  cases bs with
  | nil => simp [decodeTx]
  | cons h t =>
    have key : ∀ o : Option Unverified, Outcome.ofOption o ≠ .panic := by
      intro o; cases o <;> simp [Outcome.ofOption]
    simp only [decodeTx]
    repeat' split
    all_goals simp [key]

/-- C02: encoding fails (integer overflow panic) only for legacy transactions whose chain id `id`
has `35 + 2 * id + v` outside 64 bits. -/
theorem C02_encode_defined (t : Unverified) :
    encodeTx t = none ↔ ∃ l sg id, t.unsigned = .legacy l ∧ t.signature = some sg ∧
      t.chainId = some id ∧ 2 ^ 64 ≤ 35 + 2 * id.val + sg.standardV.val := by
  obtain ⟨u, sig, chain⟩ := t
  cases u with
  | legacy l =>
    cases sig with
    | none => cases chain <;> simp [encodeTx, legacyFields]
    | some sg =>
      cases chain with
      | none =>
        have := sg.standardV.lt
        have h : sg.standardV.val + 27 < 2 ^ 64 := by omega
        simp [encodeTx, legacyFields, addReplay, UIntN.ofNat?, h]
      | some id =>
        simp only [encodeTx, legacyFields, addReplay, UIntN.ofNat?]
        split
        · rename_i h
          simp only [Option.map_some, reduceCtorEq, Unsigned.legacy.injEq, Option.some.injEq,
            false_iff, not_exists, not_and]
          rintro _ _ _ rfl rfl rfl
          omega
        · rename_i h
          simp only [Option.map_none, Unsigned.legacy.injEq, Option.some.injEq, true_iff]
          exact ⟨_, _, _, rfl, rfl, rfl, by omega⟩
  | eip2930 l => simp [encodeTx]
  | eip1559 l => simp [encodeTx]

/-! ## C03 -/

/-- C03: `v` put on the wire gives back recovery id and chain id. -/
theorem C03_extract_inverse (v : U8) (c : Option U64) (x : U64) (hv : v.val ≤ 1)
    (h : addReplay v c = some x) : extractStandardV x = some v ∧ extractChainId x = c :=
  addReplay_extract hv h

/-- C03: different (recovery id, chain id) pairs never share a `v`. -/
theorem C03_injective (v w : U8) (c d : Option U64) (x : U64) (hv : v.val ≤ 1) (hw : w.val ≤ 1)
    (h1 : addReplay v c = some x) (h2 : addReplay w d = some x) : v = w ∧ c = d := by
  obtain ⟨a, b⟩ := addReplay_extract hv h1
  obtain ⟨a', b'⟩ := addReplay_extract hw h2
  rw [a] at a'
  rw [b] at b'
  simp at a'
  exact ⟨a', b'⟩

/-- C03: the wire value is the EIP-155 one and exists whenever it fits in 64 bits. -/
theorem C03_eip155 (v : U8) (hv : v.val ≤ 1) :
    (∃ x, addReplay v none = some x ∧ x.val = 27 + v.val) ∧
    ∀ id : U64, 35 + 2 * id.val + 1 < 2 ^ 64 →
      ∃ x, addReplay v (some id) = some x ∧ x.val = 35 + 2 * id.val + v.val := by
  constructor
  · refine ⟨⟨v.val + 27, by omega⟩, ?_, Nat.add_comm _ _⟩
    simp only [addReplay, UIntN.ofNat?]
    rw [dif_pos (by omega)]
  · intro id hid
    refine ⟨⟨v.val + (id.val * 2 + 35), by omega⟩, ?_, by show v.val + (id.val * 2 + 35) = _; omega⟩
    simp only [addReplay, UIntN.ofNat?]
    rw [dif_pos (by omega)]

/-- C03: a wire value that is neither 27, 28 nor at least 35 is rejected, all others are accepted
and are the encoding of exactly one pair. -/
theorem C03_surjective (x : U64) :
    (x.val = 27 ∨ x.val = 28 ∨ 35 ≤ x.val) ↔
      ∃ v c, v.val ≤ 1 ∧ extractStandardV x = some v ∧ addReplay v c = some x := by
  constructor
  · intro h
    cases hx : extractStandardV x with
    | none =>
      unfold extractStandardV at hx
      repeat' split at hx
      all_goals simp at hx
      omega
    | some v =>
      obtain ⟨h1, h2⟩ := extract_addReplay hx
      exact ⟨v, _, h1, rfl, h2⟩
  · rintro ⟨v, c, hv, h1, -⟩
    unfold extractStandardV at h1
    repeat' split at h1
    all_goals first | omega | simp at h1

/-! ## C04 -/

theorem actionItem_injective {a b : Action} (h : actionItem a = actionItem b) : a = b := by
  have := congrArg itemAction h
  simpa using this

theorem map_injective_of {α β : Type} {f : α → β} (hf : ∀ a b, f a = f b → a = b) :
    ∀ {l m : List α}, l.map f = m.map f → l = m
  | [], [], _ => rfl
  | [], _ :: _, h => by simp at h
  | _ :: _, [], h => by simp at h
  | a :: l, b :: m, h => by
    simp only [List.map_cons, List.cons.injEq] at h
    rw [hf _ _ h.1, map_injective_of hf h.2]

theorem accessList_injective {l m : List AccessItem} (h : l.map accessItem = m.map accessItem) :
    l = m :=
  map_injective_of (fun a b h => by have := congrArg itemAccess h; simpa using this) h

/-- C04: the signed byte string determines kind, fields and chain id.  Typed transactions always
carry a chain id on the wire (`C02_canonical`); see `C04_typed_without_chain_id` for the one
collision that exists for values that never come from the wire. -/
theorem C04_payload_injective (u u' : Unsigned) (c c' : Option U64) (b : Bytes)
    (hc : kindOf u ≠ .legacy → c.isSome) (hc' : kindOf u' ≠ .legacy → c'.isSome)
    (h : signingPayload u c = some b) (h' : signingPayload u' c' = some b)
    (hlen : b.length < 2 ^ 64) : u = u' ∧ c = c' := by
  have inj : ∀ l m : List Item, encode (.list l) = encode (.list m) →
      (encode (.list l)).length < 2 ^ 64 → l = m := by
    intro l m he hl
    have := C01_injective _ _ (fits_of_length _ hl) (fits_of_length _ (he ▸ hl)) he
    simpa using this
  -- the list written for a legacy transaction
  have leg : ∀ (x : LegacyTx) (k : Option U64),
      signingPayload (.legacy x) k = some b → ∃ l, legacyFields x k none = some l ∧
        encode (.list l) = b := by
    intro x k hx
    simp only [signingPayload, encodeTx, Option.map_eq_some_iff] at hx
    exact hx
  have head : ∀ l, encode (.list l) = b → ∃ y t, b = y :: t ∧ 0xc0 ≤ y.toNat := by
    intro l hl
    obtain ⟨y, t, h1, h2⟩ := encode_list_head l (by rw [hl]; exact hlen)
    exact ⟨y, t, hl ▸ h1, h2⟩
  cases u with
  | legacy x =>
    obtain ⟨l, hl, he⟩ := leg x c h
    obtain ⟨y, t, hy, hc0⟩ := head l he
    cases u' with
    | legacy x' =>
      obtain ⟨l', hl', he'⟩ := leg x' c' h'
      have := inj l l' (he.trans he'.symm) (by rw [he]; exact hlen)
      subst this
      unfold legacyFields at hl hl'
      obtain ⟨n, g, gl, a, v, d⟩ := x
      obtain ⟨n', g', gl', a', v', d'⟩ := x'
      cases c <;> cases c' <;> simp only [Option.some.injEq] at hl hl' <;> rw [← hl'] at hl <;>
        simp only [List.cons_append, List.nil_append, List.cons.injEq, Item.str.injEq,
          reduceCtorEq, and_false] at hl
      · obtain ⟨e1, e2, e3, e4, e5, e6, -⟩ := hl
        rw [ofUint_injective e1, ofUint_injective e2, ofUint_injective e3, actionItem_injective e4,
          ofUint_injective e5, e6]
        exact ⟨rfl, rfl⟩
      · obtain ⟨e1, e2, e3, e4, e5, e6, e7, -⟩ := hl
        rw [ofUint_injective e1, ofUint_injective e2, ofUint_injective e3, actionItem_injective e4,
          ofUint_injective e5, e6, ofUint_injective e7]
        exact ⟨rfl, rfl⟩
    | eip2930 x' =>
      simp only [signingPayload, encodeTx, Option.some.injEq] at h'
      rw [hy] at h'
      simp only [List.cons.injEq] at h'
      rw [← h'.1] at hc0
      exact absurd hc0 (by decide)
    | eip1559 x' =>
      simp only [signingPayload, encodeTx, Option.some.injEq] at h'
      rw [hy] at h'
      simp only [List.cons.injEq] at h'
      rw [← h'.1] at hc0
      exact absurd hc0 (by decide)
  | eip2930 x =>
    simp only [signingPayload, encodeTx, Option.some.injEq] at h
    cases u' with
    | legacy x' =>
      obtain ⟨l, hl, he⟩ := leg x' c' h'
      obtain ⟨y, t, hy, hc0⟩ := head l he
      rw [hy] at h
      simp only [List.cons.injEq] at h
      rw [← h.1] at hc0
      exact absurd hc0 (by decide)
    | eip2930 x' =>
      simp only [signingPayload, encodeTx, Option.some.injEq] at h'
      rw [← h] at h' hlen
      simp only [List.cons.injEq, true_and, List.length_cons] at h' hlen
      have := inj _ _ h'.symm (by omega)
      obtain ⟨id, rfl⟩ := Option.isSome_iff_exists.1 (hc (by simp [kindOf]))
      obtain ⟨id', rfl⟩ := Option.isSome_iff_exists.1 (hc' (by simp [kindOf]))
      obtain ⟨n, g, gl, a, v, d, al⟩ := x
      obtain ⟨n', g', gl', a', v', d', al'⟩ := x'
      simp only [eip2930Fields, typedChainId, typedSig, Option.getD_some, List.append_nil,
        List.cons.injEq, Item.str.injEq, Item.list.injEq, and_true] at this
      obtain ⟨e0, e1, e2, e3, e4, e5, e6, e7⟩ := this
      rw [ofUint_injective e0, ofUint_injective e1, ofUint_injective e2, ofUint_injective e3,
        actionItem_injective e4, ofUint_injective e5, e6, accessList_injective e7]
      exact ⟨rfl, rfl⟩
    | eip1559 x' =>
      simp only [signingPayload, encodeTx, Option.some.injEq] at h'
      rw [← h] at h'
      simp at h'
  | eip1559 x =>
    simp only [signingPayload, encodeTx, Option.some.injEq] at h
    cases u' with
    | legacy x' =>
      obtain ⟨l, hl, he⟩ := leg x' c' h'
      obtain ⟨y, t, hy, hc0⟩ := head l he
      rw [hy] at h
      simp only [List.cons.injEq] at h
      rw [← h.1] at hc0
      exact absurd hc0 (by decide)
    | eip2930 x' =>
      simp only [signingPayload, encodeTx, Option.some.injEq] at h'
      rw [← h] at h'
      simp at h'
    | eip1559 x' =>
      simp only [signingPayload, encodeTx, Option.some.injEq] at h'
      rw [← h] at h' hlen
      simp only [List.cons.injEq, true_and, List.length_cons] at h' hlen
      have := inj _ _ h'.symm (by omega)
      obtain ⟨id, rfl⟩ := Option.isSome_iff_exists.1 (hc (by simp [kindOf]))
      obtain ⟨id', rfl⟩ := Option.isSome_iff_exists.1 (hc' (by simp [kindOf]))
      obtain ⟨n, p, g, gl, a, v, d, al⟩ := x
      obtain ⟨n', p', g', gl', a', v', d', al'⟩ := x'
      simp only [eip1559Fields, typedChainId, typedSig, Option.getD_some, List.append_nil,
        List.cons.injEq, Item.str.injEq, Item.list.injEq, and_true] at this
      obtain ⟨e0, e1, e1', e2, e3, e4, e5, e6, e7⟩ := this
      rw [ofUint_injective e0, ofUint_injective e1, ofUint_injective e1', ofUint_injective e2,
        ofUint_injective e3, actionItem_injective e4, ofUint_injective e5, e6,
        accessList_injective e7]
      exact ⟨rfl, rfl⟩

/-- C04: the only collision: a typed transaction value without chain id signs the same bytes as the
one for chain 0. -/
theorem C04_typed_without_chain_id (u : Unsigned) (h : kindOf u ≠ .legacy) :
    signingPayload u none = signingPayload u (some ⟨0, by decide⟩) := by
  cases u with
  | legacy x => simp [kindOf] at h
  | eip2930 x => rfl
  | eip1559 x => rfl

/-! ## Non-trivial instances -/

/-- A concrete EIP-1559 transaction with an access list. -/
def sampleTx : Unverified :=
  { unsigned := .eip1559
      { nonce := ⟨7, by decide⟩, maxPriorityFee := ⟨300, by decide⟩, gasPrice := ⟨9, by decide⟩,
        gasLimit := ⟨21000, by decide⟩, action := .call ⟨List.replicate 20 0xab, rfl⟩,
        value := ⟨0, by decide⟩, data := [1, 2, 3],
        accessList := [⟨⟨List.replicate 20 1, rfl⟩, [⟨List.replicate 32 2, rfl⟩]⟩] }
    signature := some { r := List.replicate 32 5, s := 0 :: List.replicate 31 6,
                        standardV := ⟨1, by decide⟩ }
    chainId := some ⟨2022, by decide⟩ }

example : Submittable sampleTx :=
  ⟨⟨_, rfl, Or.inl ⟨rfl, rfl⟩, fun _ h => by simp [sampleTx] at h⟩, fun _ => ⟨_, rfl⟩⟩

example : ∃ bs, encodeTx sampleTx = some bs ∧ bs.length < 2 ^ 64 ∧ decodeTx bs = .ok sampleTx := by
  have hl : (encode (.list (eip1559Fields
      { nonce := ⟨7, by decide⟩, maxPriorityFee := ⟨300, by decide⟩, gasPrice := ⟨9, by decide⟩,
        gasLimit := ⟨21000, by decide⟩, action := .call ⟨List.replicate 20 0xab, rfl⟩,
        value := ⟨0, by decide⟩, data := [1, 2, 3],
        accessList := [⟨⟨List.replicate 20 1, rfl⟩, [⟨List.replicate 32 2, rfl⟩]⟩] }
      sampleTx.chainId sampleTx.signature))).length < 1000 := by decide +kernel
  refine ⟨_, rfl, ?_, ?_⟩
  · rw [List.length_cons]; exact Nat.lt_of_le_of_lt hl (by decide)
  · refine C02_roundtrip _ ⟨⟨_, rfl, Or.inl ⟨rfl, rfl⟩, fun _ h => by simp [sampleTx] at h⟩,
      fun _ => ⟨_, rfl⟩⟩ _ rfl ?_
    rw [List.length_cons]; exact Nat.lt_of_le_of_lt hl (by decide)

/-- A legacy transaction on chain 5 with recovery id 1 has v = 46. -/
example : addReplay ⟨1, by decide⟩ (some ⟨5, by decide⟩) = some ⟨46, by decide⟩ := by rfl

/-- The largest chain ids make the legacy encoder panic. -/
example : addReplay ⟨0, by decide⟩ (some ⟨2 ^ 63, by decide⟩) = none := by rfl

end Axon.Tx
