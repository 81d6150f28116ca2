import Verif.Codec.Abi

/-! # Lemmas on the contract ABI codec -/

namespace Axon.Abi

@[simp] theorem ok_bind {α β : Type} (a : α) (f : α → Outcome β) : (Outcome.ok a).bind f = f a := rfl
@[simp] theorem err_bind {α β : Type} (f : α → Outcome β) : (Outcome.err : Outcome α).bind f = .err := rfl
@[simp] theorem panic_bind {α β : Type} (f : α → Outcome β) : (Outcome.panic : Outcome α).bind f = .panic := rfl

theorem bind_eq_ok {α β : Type} {x : Outcome α} {f : α → Outcome β} {b : β} :
    x.bind f = .ok b ↔ ∃ a, x = .ok a ∧ f a = .ok b := by
  cases x <;> simp [Outcome.bind]

theorem bind_ne_panic {α β : Type} {x : Outcome α} {f : α → Outcome β} (hx : x ≠ .panic)
    (hf : ∀ a, x = .ok a → f a ≠ .panic) : x.bind f ≠ .panic := by
  cases x with
  | ok a => exact hf a rfl
  | err => simp
  | panic => exact absurd rfl hx

@[simp] theorem word_length (n : Nat) : (word n).length = 32 := beFixed_length 32 n

/-! ## The shapes of types and tokens agree -/

mutual
theorem fits_dyn : ∀ (t : Tok) (ty : Ty), t.fits ty → t.dyn = ty.dyn
  | .address _, ty, h => by cases ty <;> simp_all [Tok.fits, Tok.dyn, Ty.dyn]
  | .uint _, ty, h => by cases ty <;> simp_all [Tok.fits, Tok.dyn, Ty.dyn]
  | .bool _, ty, h => by cases ty <;> simp_all [Tok.fits, Tok.dyn, Ty.dyn]
  | .fixed _, ty, h => by cases ty <;> simp_all [Tok.fits, Tok.dyn, Ty.dyn]
  | .bytes _, ty, h => by cases ty <;> simp_all [Tok.fits, Tok.dyn, Ty.dyn]
  | .array _, ty, h => by cases ty <;> simp_all [Tok.fits, Tok.dyn, Ty.dyn]
  | .tuple ts, ty, h => by
    cases ty <;> simp only [Tok.fits] at h
    rename_i tys
    simp only [Tok.dyn, Ty.dyn]
    exact fits_dynAny ts tys h.2
theorem fits_dynAny : ∀ (ts : List Tok) (tys : List Ty), Tok.fitEach ts tys → Tok.dynAny ts = Ty.dynAny tys
  | [], tys, h => by cases tys <;> simp_all [Tok.fitEach, Tok.dynAny, Ty.dynAny]
  | t :: ts, tys, h => by
    cases tys with
    | nil => simp [Tok.fitEach] at h
    | cons ty tys =>
      simp only [Tok.fitEach] at h
      simp only [Tok.dynAny, Ty.dynAny, fits_dyn t ty h.1, fits_dynAny ts tys h.2]
end

mutual
theorem tail_static : ∀ t : Tok, t.dyn = false → t.tail = []
  | .address _, _ | .uint _, _ | .bool _, _ | .fixed _, _ => by simp [Tok.tail]
  | .bytes _, h | .array _, h => by simp [Tok.dyn] at h
  | .tuple ts, h => by simp only [Tok.dyn] at h; simp [Tok.tail, h]
end

theorem tails_static : ∀ ts : List Tok, Tok.dynAny ts = false → Tok.tails ts = []
  | [], _ => by simp [Tok.tails]
  | t :: ts, h => by
    simp only [Tok.dynAny, Bool.or_eq_false_iff] at h
    simp [Tok.tails, tail_static t h.1, tails_static ts h.2]

theorem padded_length {b : Bytes} (h0 : 0 < b.length) (h1 : b.length ≤ 32) : (padded b).length = 32 := by
  simp only [padded, List.length_append, List.length_replicate]; omega

mutual
theorem head_length : ∀ (t : Tok) (ty : Ty) (off : Nat), t.fits ty → (t.head off).length = t.headLen
  | .address b, ty, off, h => by cases ty <;> simp_all [Tok.fits, Tok.head, Tok.headLen]
  | .uint _, ty, off, h => by simp [Tok.head, Tok.headLen]
  | .bool _, ty, off, h => by simp [Tok.head, Tok.headLen]
  | .fixed b, ty, off, h => by
    cases ty <;> simp only [Tok.fits] at h
    simp only [Tok.head, Tok.headLen]
    exact padded_length (by omega) (by omega)
  | .bytes _, ty, off, h => by simp [Tok.head, Tok.headLen]
  | .array _, ty, off, h => by simp [Tok.head, Tok.headLen]
  | .tuple ts, ty, off, h => by
    cases ty <;> simp only [Tok.fits] at h
    rename_i tys
    simp only [Tok.head, Tok.headLen]
    split
    · simp
    · exact heads_length ts tys 0 h.2
theorem heads_length : ∀ (ts : List Tok) (tys : List Ty) (off : Nat), Tok.fitEach ts tys →
    (Tok.heads ts off).length = Tok.headLens ts
  | [], _, _, _ => by simp [Tok.heads, Tok.headLens]
  | t :: ts, tys, off, h => by
    cases tys with
    | nil => simp [Tok.fitEach] at h
    | cons ty tys =>
      simp only [Tok.fitEach] at h
      simp only [Tok.heads, Tok.headLens, List.length_append, head_length t ty off h.1, heads_length ts tys _ h.2]
end

theorem heads_length_all : ∀ (ts : List Tok) (ty : Ty) (off : Nat), Tok.fitAll ts ty →
    (Tok.heads ts off).length = Tok.headLens ts
  | [], _, _, _ => by simp [Tok.heads, Tok.headLens]
  | t :: ts, ty, off, h => by
    simp only [Tok.fitAll] at h
    simp only [Tok.heads, Tok.headLens, List.length_append, head_length t ty off h.1, heads_length_all ts ty _ h.2]

mutual
theorem headLen_ge : ∀ (t : Tok) (ty : Ty), t.fits ty → 32 ≤ t.headLen
  | .address _, _, _ | .uint _, _, _ | .bool _, _, _ | .fixed _, _, _ | .bytes _, _, _ | .array _, _, _ => by
    simp [Tok.headLen]
  | .tuple ts, ty, h => by
    cases ty <;> simp only [Tok.fits] at h
    rename_i tys
    simp only [Tok.headLen]
    split
    · omega
    · exact headLens_ge ts tys h.2 h.1
theorem headLens_ge : ∀ (ts : List Tok) (tys : List Ty), Tok.fitEach ts tys → ts ≠ [] → 32 ≤ Tok.headLens ts
  | [], _, _, h => absurd rfl h
  | t :: ts, tys, h, _ => by
    cases tys with
    | nil => simp [Tok.fitEach] at h
    | cons ty tys =>
      simp only [Tok.fitEach] at h
      have := headLen_ge t ty h.1
      simp only [Tok.headLens]; omega
end

theorem length_le_headLens : ∀ (ts : List Tok) (ty : Ty), Tok.fitAll ts ty → 32 * ts.length ≤ Tok.headLens ts
  | [], _, _ => by simp
  | t :: ts, ty, h => by
    simp only [Tok.fitAll] at h
    have a := headLen_ge t ty h.1
    have b := length_le_headLens ts ty h.2
    simp only [Tok.headLens, List.length_cons]; omega

/-! ## Reading back what was written -/

theorem prefix_le {a : Bytes} {data : Bytes} {off : Nat} (h : a <+: data.drop off) (h0 : off ≤ data.length) :
    off + a.length ≤ data.length := by
  have := h.length_le
  simp only [List.length_drop] at this
  omega

theorem prefix_split {a b : Bytes} {data : Bytes} {off : Nat} (h : a ++ b <+: data.drop off) :
    a <+: data.drop off ∧ b <+: data.drop (off + a.length) := by
  obtain ⟨c, hc⟩ := h
  refine ⟨⟨b ++ c, by rw [← hc, List.append_assoc]⟩, ⟨c, ?_⟩⟩
  rw [← List.drop_drop, ← hc]
  simp

theorem peek_prefix {a : Bytes} {data : Bytes} {off n : Nat} (h : a <+: data.drop off) (hn : a.length = n)
    (h0 : off ≤ data.length) : peek data off n = .ok a := by
  have := prefix_le h h0
  obtain ⟨c, hc⟩ := h
  simp only [peek]
  rw [if_neg (by omega), ← hc, ← hn]
  simp

theorem beFixed_split (k : Nat) : ∀ (n m : Nat), m < 256 ^ k →
    beFixed (n + k) m = List.replicate n 0 ++ beFixed k m := by
  intro n m hm
  have e : beNat (List.replicate n (0 : UInt8) ++ beFixed k m) = m := by
    have z : ∀ n, beNat (List.replicate n (0 : UInt8)) = 0 := by
      intro n
      induction n with
      | zero => rfl
      | succ n ih =>
        rw [List.replicate_succ', beNat_snoc, ih]; rfl
    rw [beNat_append, z, beNat_beFixed_of_lt hm]; simp
  have := beFixed_beNat (List.replicate n (0 : UInt8) ++ beFixed k m)
  rw [e] at this
  simpa using this

theorem word_eq {n : Nat} (h : n < 2 ^ 32) : word n = List.replicate 28 0 ++ beFixed 4 n :=
  beFixed_split 4 28 n h

theorem asUsize_zeros (z b : Bytes) (hz : z.length = 28) (h0 : z.all (· == 0) = true) :
    asUsize (z ++ b) = .ok (beNat b) := by
  simp only [asUsize, List.take_left' hz, List.drop_left' hz, h0, if_true]

theorem beNat_four {n : Nat} (h : n < 2 ^ 32) : beNat (beFixed 4 n) = n := beNat_beFixed_of_lt h

theorem asUsize_word {n : Nat} (h : n < 2 ^ 32) : asUsize (word n) = .ok n := by
  rw [word_eq h, asUsize_zeros _ _ (by simp) (by simp), beNat_four h]

theorem beNat_word {n : Nat} (h : n < 2 ^ 256) : beNat (word n) = n :=
  beNat_beFixed_of_lt (Nat.lt_of_lt_of_le h (by rw [show (256 : Nat) = 2 ^ 8 from rfl, ← Nat.pow_mul]; exact Nat.le_refl _))

theorem asBool_word (b : Bool) : asBool (word b.toNat) = .ok b := by
  cases b <;> decide +kernel

theorem peekUsize_prefix {data : Bytes} {off n : Nat} (h : word n <+: data.drop off) (h0 : off ≤ data.length)
    (hn : n < 2 ^ 32) : peekUsize data off = .ok n := by
  simp only [peekUsize, peek_prefix h (word_length n) h0, ok_bind, asUsize_word hn]

theorem padded_prefix (b : Bytes) : b <+: padded b := List.prefix_append _ _

theorem slice_ok {data : Bytes} {off : Nat} (h : off ≤ data.length) : slice data off = .ok (data.drop off) := by
  simp [slice]; omega

theorem drop_zeros (b : Bytes) : (List.replicate 12 0 ++ b).drop 12 = b := List.drop_left' (by simp)

mutual
/-- What the encoder put at `off` (and its tail at `d`) is what the decoder finds there. -/
theorem dec_spec : ∀ (t : Tok) (ty : Ty) (data : Bytes) (off d : Nat), t.fits ty → data.length < 2 ^ 32 →
    off ≤ data.length → d ≤ data.length → t.head d <+: data.drop off → t.tail <+: data.drop d →
    ty.dec data off = .ok (t, off + t.headLen)
  | .address b => by
    intro ty data off d h hl h0 hd hh ht
    cases ty <;> simp only [Tok.fits] at h
    simp only [Tok.head] at hh
    simp only [Ty.dec, peek_prefix hh (n := 32) (by simp [h]) h0, ok_bind, Tok.headLen]
    rw [drop_zeros]
  | .uint n => by
    intro ty data off d h hl h0 hd hh ht
    cases ty <;> simp only [Tok.fits] at h
    simp only [Tok.head] at hh
    simp only [Ty.dec, peek_prefix hh (n := 32) (by simp) h0, ok_bind, Tok.headLen]
    rw [beNat_word h]
  | .bool b => by
    intro ty data off d h hl h0 hd hh ht
    cases ty <;> simp only [Tok.fits] at h
    simp only [Tok.head] at hh
    simp only [Ty.dec, peek_prefix hh (n := 32) (by simp) h0, ok_bind, Tok.headLen, asBool_word]
  | .fixed b => by
    intro ty data off d h hl h0 hd hh ht
    cases ty <;> simp only [Tok.fits] at h
    simp only [Tok.head] at hh
    simp only [Ty.dec, peek_prefix ((padded_prefix b).trans hh) h.1 h0, ok_bind, Tok.headLen]
  | .bytes b => by
    intro ty data off d h hl h0 hd hh ht
    cases ty <;> simp only [Tok.fits] at h
    simp only [Tok.head] at hh
    simp only [Tok.tail] at ht
    have hs := prefix_split ht
    simp only [word_length] at hs
    have l1 := prefix_le hs.1 hd
    simp only [word_length] at l1
    have hb := (padded_prefix b).trans hs.2
    have l2 := prefix_le hb l1
    simp only [Ty.dec, peekUsize_prefix hh h0 (by omega), ok_bind, peekUsize_prefix hs.1 hd (by omega),
      peek_prefix hb rfl l1, Tok.headLen]
  | .array ts => by
    intro ty data off d h hl h0 hd hh ht
    cases ty <;> simp only [Tok.fits] at h
    rename_i ty
    simp only [Tok.head] at hh
    simp only [Tok.tail] at ht
    have hs := prefix_split ht
    simp only [word_length] at hs
    have l1 := prefix_le hs.1 hd
    simp only [word_length] at l1
    have hp := prefix_split hs.2
    have l2 := prefix_le hp.1 l1
    rw [heads_length_all ts ty _ h] at hp l2
    have hlen := length_le_headLens ts ty h
    have hx : ts.length < 2 ^ 32 := by omega
    have r := loop_spec ts ty (data.drop (d + 32)) 0 (Tok.headLens ts) h (by simp; omega) (by omega)
      (by simp; omega) (by simpa using hp.1) (by simpa [List.drop_drop] using hp.2)
    simp only [Ty.dec, peekUsize_prefix hh h0 (by omega), ok_bind, peekUsize_prefix hs.1 hd hx,
      slice_ok l1, r, Tok.headLen]
  | .tuple ts => by
    intro ty data off d h hl h0 hd hh ht
    cases ty <;> simp only [Tok.fits] at h
    rename_i tys
    simp only [Tok.head] at hh
    simp only [Tok.tail] at ht
    have e := fits_dynAny ts tys h.2
    cases hdy : Tok.dynAny ts with
    | true =>
      rw [hdy] at e
      simp only [hdy, if_true] at hh ht
      have hp := prefix_split ht
      have l2 := prefix_le hp.1 hd
      rw [heads_length ts tys _ h.2] at hp l2
      have r := decAll_spec ts tys (data.drop d) 0 (Tok.headLens ts) h.2 (by simp; omega) (by omega)
        (by simp; omega) (by simpa using hp.1) (by simpa [List.drop_drop] using hp.2)
      simp only [Ty.dec, ← e, if_true, peekUsize_prefix hh h0 (by omega), ok_bind,
        if_neg (Nat.not_lt.mpr hd), slice_ok hd, r, Tok.headLen, hdy]
    | false =>
      rw [hdy] at e
      simp only [hdy] at hh ht
      have r := decAll_spec ts tys data off 0 h.2 hl h0 (by omega) (by simpa using hh)
        (by rw [tails_static ts hdy]; exact List.nil_prefix)
      simp [Ty.dec, ← e, r, Tok.headLen, hdy]
theorem decAll_spec : ∀ (ts : List Tok) (tys : List Ty) (data : Bytes) (off d : Nat), Tok.fitEach ts tys →
    data.length < 2 ^ 32 → off ≤ data.length → d ≤ data.length → Tok.heads ts d <+: data.drop off →
    Tok.tails ts <+: data.drop d → Ty.decAll tys data off = .ok (ts, off + Tok.headLens ts)
  | [] => by
    intro tys data off d h hl h0 hd hh ht
    cases tys <;> simp_all [Tok.fitEach, Ty.decAll, Tok.headLens]
  | t :: ts => by
    intro tys data off d h hl h0 hd hh ht
    cases tys with
    | nil => simp [Tok.fitEach] at h
    | cons ty tys =>
      simp only [Tok.fitEach] at h
      simp only [Tok.heads] at hh
      simp only [Tok.tails] at ht
      have hs := prefix_split hh
      have ht' := prefix_split ht
      have l1 := prefix_le hs.1 h0
      rw [head_length t ty d h.1] at hs l1
      have l2 := prefix_le ht'.1 hd
      have r1 := dec_spec t ty data off d h.1 hl h0 hd hs.1 ht'.1
      have r2 := decAll_spec ts tys data _ _ h.2 hl l1 l2 hs.2 ht'.2
      simp only [Ty.decAll, r1, ok_bind, r2, Tok.headLens, Nat.add_assoc]
theorem loop_spec : ∀ (ts : List Tok) (ty : Ty) (data : Bytes) (off d : Nat), Tok.fitAll ts ty →
    data.length < 2 ^ 32 → off ≤ data.length → d ≤ data.length → Tok.heads ts d <+: data.drop off →
    Tok.tails ts <+: data.drop d →
    loop (fun i => ty.dec data i) ts.length off = .ok (ts, off + Tok.headLens ts)
  | [] => by
    intro ty data off d h hl h0 hd hh ht
    simp [loop, Tok.headLens]
  | t :: ts => by
    intro ty data off d h hl h0 hd hh ht
    simp only [Tok.fitAll] at h
    simp only [Tok.heads] at hh
    simp only [Tok.tails] at ht
    have hs := prefix_split hh
    have ht' := prefix_split ht
    have l1 := prefix_le hs.1 h0
    rw [head_length t ty d h.1] at hs l1
    have l2 := prefix_le ht'.1 hd
    have r1 := dec_spec t ty data off d h.1 hl h0 hd hs.1 ht'.1
    have r2 := loop_spec ts ty data _ _ h.2 hl l1 l2 hs.2 ht'.2
    simp only [loop, List.length_cons, r1, ok_bind, r2, Tok.headLens, Nat.add_assoc]
end

/-- `abi::decode` gives back the tokens that were encoded, also with more bytes behind. -/
theorem decode_encode (ts : List Tok) (tys : List Ty) (more : Bytes) (h : Tok.fitEach ts tys)
    (hl : (encode ts ++ more).length < 2 ^ 32) : decode tys (encode ts ++ more) = .ok ts := by
  have hl1 := heads_length ts tys (Tok.headLens ts) h
  have hn : (!(tys.all Ty.emptyOk) && (encode ts ++ more).isEmpty) = false := by
    cases ts with
    | nil => cases tys <;> simp_all [Tok.fitEach]
    | cons t ts =>
      have := headLens_ge (t :: ts) tys h (by simp)
      have : (encode (t :: ts) ++ more) ≠ [] := by
        intro e
        have := congrArg List.length e
        simp only [encode, List.length_append, hl1, List.length_nil] at this
        omega
      cases he : encode (t :: ts) ++ more <;> simp_all
  have p : Tok.heads ts (Tok.headLens ts) <+: (encode ts ++ more).drop 0 := by
    simp only [encode, List.append_assoc, List.drop_zero]
    exact List.prefix_append _ _
  have q : Tok.tails ts <+: (encode ts ++ more).drop (Tok.headLens ts) := by
    simp only [encode, List.append_assoc]
    rw [List.drop_left' hl1]
    exact List.prefix_append _ _
  have r := decAll_spec ts tys (encode ts ++ more) 0 (Tok.headLens ts) h hl (by omega)
    (by simp only [encode, List.length_append, hl1]; omega) p q
  simp only [decode, hn, r, ok_bind]
  rfl

/-! ## Decoding never panics -/

theorem peek_ok {data : Bytes} {off len : Nat} {b : Bytes} (h : peek data off len = .ok b) :
    off + len ≤ data.length ∧ b.length = len ∧ b = (data.drop off).take len := by
  simp only [peek] at h
  split at h
  · simp at h
  · injection h with h
    subst h
    refine ⟨by omega, ?_, rfl⟩
    simp only [List.length_take, List.length_drop]; omega

theorem peek_ne_panic (data : Bytes) (off len : Nat) : peek data off len ≠ .panic := by
  simp only [peek]; split <;> simp

theorem asUsize_ne_panic (w : Bytes) : asUsize w ≠ .panic := by
  simp only [asUsize]; split <;> simp

theorem asBool_ne_panic (w : Bytes) : asBool w ≠ .panic := by
  simp only [asBool]; split <;> simp

theorem peekUsize_ne_panic (data : Bytes) (off : Nat) : peekUsize data off ≠ .panic :=
  bind_ne_panic (peek_ne_panic _ _ _) fun _ _ => asUsize_ne_panic _

theorem peekUsize_ok {data : Bytes} {off n : Nat} (h : peekUsize data off = .ok n) : off + 32 ≤ data.length := by
  obtain ⟨w, hw, _⟩ := bind_eq_ok.mp h
  exact (peek_ok hw).1

theorem loop_ne_panic {f : Nat → Outcome (Tok × Nat)} (h : ∀ i, f i ≠ .panic) : ∀ n off, loop f n off ≠ .panic
  | 0, _ => by simp [loop]
  | n + 1, off => by
    simp only [loop]
    exact bind_ne_panic (h off) fun r _ => bind_ne_panic (loop_ne_panic h n r.2) fun _ _ => by simp

mutual
theorem dec_ne_panic : ∀ (ty : Ty) (data : Bytes) (off : Nat), ty.dec data off ≠ .panic
  | .address => by
    intro data off
    simp only [Ty.dec]
    exact bind_ne_panic (peek_ne_panic _ _ _) fun _ _ => by simp
  | .uint => by
    intro data off
    simp only [Ty.dec]
    exact bind_ne_panic (peek_ne_panic _ _ _) fun _ _ => by simp
  | .bool => by
    intro data off
    simp only [Ty.dec]
    exact bind_ne_panic (peek_ne_panic _ _ _) fun _ _ => bind_ne_panic (asBool_ne_panic _) fun _ _ => by simp
  | .fixed n => by
    intro data off
    simp only [Ty.dec]
    exact bind_ne_panic (peek_ne_panic _ _ _) fun _ _ => by simp
  | .bytes => by
    intro data off
    simp only [Ty.dec]
    exact bind_ne_panic (peekUsize_ne_panic _ _) fun _ _ => bind_ne_panic (peekUsize_ne_panic _ _) fun _ _ =>
      bind_ne_panic (peek_ne_panic _ _ _) fun _ _ => by simp
  | .array t => by
    intro data off
    simp only [Ty.dec]
    refine bind_ne_panic (peekUsize_ne_panic _ _) fun o _ => bind_ne_panic (peekUsize_ne_panic _ _) fun _ h => ?_
    rw [slice_ok (peekUsize_ok h), ok_bind]
    exact bind_ne_panic (loop_ne_panic (fun i => dec_ne_panic t _ i) _ _) fun _ _ => by simp
  | .tuple ts => by
    intro data off
    simp only [Ty.dec]
    split
    · refine bind_ne_panic (peekUsize_ne_panic _ _) fun o _ => ?_
      split
      · simp
      · rw [slice_ok (by omega), ok_bind]
        exact bind_ne_panic (decAll_ne_panic ts _ _) fun _ _ => by simp
    · exact bind_ne_panic (decAll_ne_panic ts _ _) fun _ _ => by simp
theorem decAll_ne_panic : ∀ (ts : List Ty) (data : Bytes) (off : Nat), Ty.decAll ts data off ≠ .panic
  | [] => by intro data off; simp [Ty.decAll]
  | t :: ts => by
    intro data off
    simp only [Ty.decAll]
    exact bind_ne_panic (dec_ne_panic t _ _) fun r _ => bind_ne_panic (decAll_ne_panic ts _ _) fun _ _ => by simp
end

theorem decode_ne_panic (tys : List Ty) (data : Bytes) : decode tys data ≠ .panic := by
  simp only [decode]
  split
  · simp
  · exact bind_ne_panic (decAll_ne_panic _ _ _) fun _ _ => by simp

/-! ## What is decoded has the type asked for, and is paid for by the data -/

mutual
/-- Every tuple has a member and fixed bytes fill a word: the types of `/repo` all do. -/
def Ty.wf : Ty → Bool
  | .fixed n => n == 32
  | .array t => t.wf
  | .tuple ts => !ts.isEmpty && Ty.wfAll ts
  | _ => true
def Ty.wfAll : List Ty → Bool
  | [] => true
  | t :: ts => t.wf && Ty.wfAll ts
end

theorem beNat_lt_word {w : Bytes} (h : w.length = 32) : beNat w < 2 ^ 256 := by
  have := beNat_lt w
  rw [h, show (256 : Nat) = 2 ^ 8 from rfl, ← Nat.pow_mul] at this
  exact this

theorem loop_fits {f : Nat → Outcome (Tok × Nat)} {ty : Ty} {n : Nat}
    (h : ∀ i r, f i = .ok r → r.1.fits ty ∧ i + 32 ≤ r.2 ∧ r.2 ≤ n) :
    ∀ len off r, off ≤ n → loop f len off = .ok r →
      Tok.fitAll r.1 ty ∧ r.1.length = len ∧ off + 32 * len ≤ r.2 ∧ r.2 ≤ n
  | 0, off, r, h0, e => by
    simp only [loop] at e
    injection e with e
    subst e
    refine ⟨?_, rfl, ?_, ?_⟩
    · simp [Tok.fitAll]
    · simp
    · exact h0
  | len + 1, off, r, h0, e => by
    simp only [loop] at e
    obtain ⟨r1, e1, e⟩ := bind_eq_ok.mp e
    obtain ⟨r2, e2, e⟩ := bind_eq_ok.mp e
    injection e with e
    subst e
    obtain ⟨a, b, c⟩ := h off r1 e1
    obtain ⟨a', l', b', c'⟩ := loop_fits h len r1.2 r2 c e2
    refine ⟨?_, ?_, ?_, ?_⟩
    · simp only [Tok.fitAll]; exact ⟨a, a'⟩
    · simp [l']
    · simp only; omega
    · exact c'

mutual
theorem dec_fits : ∀ (ty : Ty) (data : Bytes) (off : Nat) (r : Tok × Nat), ty.wf = true →
    ty.dec data off = .ok r → r.1.fits ty ∧ off + 32 ≤ r.2 ∧ r.2 ≤ data.length
  | .address => by
    intro data off r hw h
    simp only [Ty.dec] at h
    obtain ⟨w, h1, h⟩ := bind_eq_ok.mp h
    injection h with h
    subst h
    have := peek_ok h1
    simp only [Tok.fits, List.length_drop]; omega
  | .uint => by
    intro data off r hw h
    simp only [Ty.dec] at h
    obtain ⟨w, h1, h⟩ := bind_eq_ok.mp h
    injection h with h
    subst h
    have := peek_ok h1
    simp only [Tok.fits]
    exact ⟨beNat_lt_word this.2.1, Nat.le_refl _, this.1⟩
  | .bool => by
    intro data off r hw h
    simp only [Ty.dec] at h
    obtain ⟨w, h1, h⟩ := bind_eq_ok.mp h
    obtain ⟨b, h2, h⟩ := bind_eq_ok.mp h
    injection h with h
    subst h
    have := peek_ok h1
    simp only [Tok.fits]
    exact ⟨trivial, Nat.le_refl _, this.1⟩
  | .fixed n => by
    intro data off r hw h
    simp only [Ty.dec] at h
    obtain ⟨w, h1, h⟩ := bind_eq_ok.mp h
    injection h with h
    subst h
    have := peek_ok h1
    simp only [Ty.wf, beq_iff_eq] at hw
    simp only [Tok.fits]; omega
  | .bytes => by
    intro data off r hw h
    simp only [Ty.dec] at h
    obtain ⟨o, h1, h⟩ := bind_eq_ok.mp h
    obtain ⟨l, h2, h⟩ := bind_eq_ok.mp h
    obtain ⟨b, h3, h⟩ := bind_eq_ok.mp h
    injection h with h
    subst h
    have := peekUsize_ok h1
    simp only [Tok.fits]
    exact ⟨trivial, Nat.le_refl _, this⟩
  | .array t => by
    intro data off r hw h
    simp only [Ty.dec] at h
    obtain ⟨o, h1, h⟩ := bind_eq_ok.mp h
    obtain ⟨l, h2, h⟩ := bind_eq_ok.mp h
    obtain ⟨tl, h3, h⟩ := bind_eq_ok.mp h
    obtain ⟨rs, h4, h⟩ := bind_eq_ok.mp h
    injection h with h
    subst h
    have := peekUsize_ok h1
    simp only [Ty.wf] at hw
    simp only [Tok.fits]
    refine ⟨?_, Nat.le_refl _, this⟩
    exact (loop_fits (n := tl.length) (fun i r e => dec_fits t tl i r hw e) _ _ _ (by omega) h4).1
  | .tuple ts => by
    intro data off r hw h
    simp only [Ty.dec] at h
    simp only [Ty.wf, Bool.and_eq_true] at hw
    have hne : ts ≠ [] := by intro e; subst e; simp at hw
    split at h
    · obtain ⟨o, h1, h⟩ := bind_eq_ok.mp h
      split at h
      · simp at h
      · obtain ⟨tl, h3, h⟩ := bind_eq_ok.mp h
        obtain ⟨rs, h4, h⟩ := bind_eq_ok.mp h
        injection h with h
        subst h
        have := peekUsize_ok h1
        simp only [Tok.fits]
        obtain ⟨a, b, c⟩ := decAll_fits ts tl 0 rs hw.2 (by omega) h4
        refine ⟨⟨?_, a⟩, Nat.le_refl _, this⟩
        intro e
        rw [e] at a
        cases ts <;> simp_all [Tok.fitEach]
    · obtain ⟨rs, h4, h⟩ := bind_eq_ok.mp h
      injection h with h
      subst h
      cases ts with
      | nil => exact absurd rfl hne
      | cons ty ts =>
        have hw2 := hw.2
        simp only [Ty.wfAll, Bool.and_eq_true] at hw2
        simp only [Ty.decAll] at h4
        obtain ⟨r1, e1, h4⟩ := bind_eq_ok.mp h4
        obtain ⟨r2, e2, h4⟩ := bind_eq_ok.mp h4
        injection h4 with h4
        subst h4
        obtain ⟨a, b, c⟩ := dec_fits ty data off r1 hw2.1 e1
        obtain ⟨a', b', c'⟩ := decAll_fits ts data r1.2 r2 hw2.2 c e2
        simp only [Tok.fits, Tok.fitEach]
        exact ⟨⟨by simp, a, a'⟩, by omega, c'⟩
theorem decAll_fits : ∀ (ts : List Ty) (data : Bytes) (off : Nat) (r : List Tok × Nat), Ty.wfAll ts = true →
    off ≤ data.length → Ty.decAll ts data off = .ok r →
    Tok.fitEach r.1 ts ∧ off + 32 * ts.length ≤ r.2 ∧ r.2 ≤ data.length
  | [] => by
    intro data off r hw h0 h
    simp only [Ty.decAll] at h
    injection h with h
    subst h
    simp only [Tok.fitEach]
    exact ⟨trivial, by simp, h0⟩
  | ty :: ts => by
    intro data off r hw h0 h
    simp only [Ty.wfAll, Bool.and_eq_true] at hw
    simp only [Ty.decAll] at h
    obtain ⟨r1, e1, h⟩ := bind_eq_ok.mp h
    obtain ⟨r2, e2, h⟩ := bind_eq_ok.mp h
    injection h with h
    subst h
    obtain ⟨a, b, c⟩ := dec_fits ty data off r1 hw.1 e1
    obtain ⟨a', b', c'⟩ := decAll_fits ts data r1.2 r2 hw.2 c e2
    simp only [Tok.fitEach, List.length_cons]
    exact ⟨⟨a, a'⟩, by omega, c'⟩
end

theorem decode_fits {tys : List Ty} {data : Bytes} {ts : List Tok} (hw : Ty.wfAll tys = true)
    (h : decode tys data = .ok ts) : Tok.fitEach ts tys := by
  simp only [decode] at h
  split at h
  · simp at h
  · obtain ⟨r, h1, h⟩ := bind_eq_ok.mp h
    injection h with h
    subst h
    exact (decAll_fits tys data 0 r hw (by omega) h1).1

mutual
/-- Every array and byte string inside a token holds at most `n / 32` elements or `n` bytes. -/
def Tok.within (n : Nat) : Tok → Prop
  | .bytes b => b.length ≤ n
  | .array ts => 32 * ts.length ≤ n ∧ Tok.withinAll n ts
  | .tuple ts => Tok.withinAll n ts
  | _ => True
def Tok.withinAll (n : Nat) : List Tok → Prop
  | [] => True
  | t :: ts => t.within n ∧ Tok.withinAll n ts
end

mutual
theorem within_mono {n m : Nat} (h : n ≤ m) : ∀ t : Tok, t.within n → t.within m
  | .address _ | .uint _ | .bool _ | .fixed _ => by simp [Tok.within]
  | .bytes b => by simp only [Tok.within]; omega
  | .array ts => by
    simp only [Tok.within]
    exact fun a => ⟨by omega, withinAll_mono h ts a.2⟩
  | .tuple ts => by
    simp only [Tok.within]
    exact withinAll_mono h ts
theorem withinAll_mono {n m : Nat} (h : n ≤ m) : ∀ ts : List Tok, Tok.withinAll n ts → Tok.withinAll m ts
  | [] => by simp [Tok.withinAll]
  | t :: ts => by
    simp only [Tok.withinAll]
    exact fun a => ⟨within_mono h t a.1, withinAll_mono h ts a.2⟩
end

theorem loop_within {f : Nat → Outcome (Tok × Nat)} {n : Nat} (h : ∀ i r, f i = .ok r → r.1.within n) :
    ∀ len off r, loop f len off = .ok r → Tok.withinAll n r.1
  | 0, off, r, e => by
    simp only [loop] at e
    injection e with e
    subst e
    simp [Tok.withinAll]
  | len + 1, off, r, e => by
    simp only [loop] at e
    obtain ⟨r1, e1, e⟩ := bind_eq_ok.mp e
    obtain ⟨r2, e2, e⟩ := bind_eq_ok.mp e
    injection e with e
    subst e
    simp only [Tok.withinAll]
    exact ⟨h off r1 e1, loop_within h len r1.2 r2 e2⟩

theorem slice_eq {data tl : Bytes} {o : Nat} (h : slice data o = .ok tl) : tl = data.drop o := by
  simp only [slice] at h
  split at h
  · simp at h
  · injection h with h; exact h.symm

mutual
theorem dec_within : ∀ (ty : Ty) (data : Bytes) (off : Nat) (r : Tok × Nat), ty.wf = true →
    ty.dec data off = .ok r → r.1.within data.length
  | .address => by
    intro data off r hw h
    simp only [Ty.dec] at h
    obtain ⟨w, h1, h⟩ := bind_eq_ok.mp h
    injection h with h
    subst h
    simp [Tok.within]
  | .uint => by
    intro data off r hw h
    simp only [Ty.dec] at h
    obtain ⟨w, h1, h⟩ := bind_eq_ok.mp h
    injection h with h
    subst h
    simp [Tok.within]
  | .bool => by
    intro data off r hw h
    simp only [Ty.dec] at h
    obtain ⟨w, h1, h⟩ := bind_eq_ok.mp h
    obtain ⟨b, h2, h⟩ := bind_eq_ok.mp h
    injection h with h
    subst h
    simp [Tok.within]
  | .fixed n => by
    intro data off r hw h
    simp only [Ty.dec] at h
    obtain ⟨w, h1, h⟩ := bind_eq_ok.mp h
    injection h with h
    subst h
    simp [Tok.within]
  | .bytes => by
    intro data off r hw h
    simp only [Ty.dec] at h
    obtain ⟨o, h1, h⟩ := bind_eq_ok.mp h
    obtain ⟨l, h2, h⟩ := bind_eq_ok.mp h
    obtain ⟨b, h3, h⟩ := bind_eq_ok.mp h
    injection h with h
    subst h
    have := peek_ok h3
    simp only [Tok.within]; omega
  | .array t => by
    intro data off r hw h
    simp only [Ty.dec] at h
    obtain ⟨o, h1, h⟩ := bind_eq_ok.mp h
    obtain ⟨l, h2, h⟩ := bind_eq_ok.mp h
    obtain ⟨tl, h3, h⟩ := bind_eq_ok.mp h
    obtain ⟨rs, h4, h⟩ := bind_eq_ok.mp h
    injection h with h
    subst h
    simp only [Ty.wf] at hw
    have := loop_fits (n := tl.length) (fun i r e => dec_fits t tl i r hw e) _ _ _ (by omega) h4
    have w := loop_within (fun i r e => dec_within t tl i r hw e) _ _ _ h4
    have : tl.length ≤ data.length := by rw [slice_eq h3]; simp
    simp only [Tok.within]
    exact ⟨by omega, withinAll_mono this _ w⟩
  | .tuple ts => by
    intro data off r hw h
    simp only [Ty.dec] at h
    simp only [Ty.wf, Bool.and_eq_true] at hw
    split at h
    · obtain ⟨o, h1, h⟩ := bind_eq_ok.mp h
      split at h
      · simp at h
      · obtain ⟨tl, h3, h⟩ := bind_eq_ok.mp h
        obtain ⟨rs, h4, h⟩ := bind_eq_ok.mp h
        injection h with h
        subst h
        have : tl.length ≤ data.length := by rw [slice_eq h3]; simp
        simp only [Tok.within]
        exact withinAll_mono this _ (decAll_within ts tl 0 rs hw.2 h4)
    · obtain ⟨rs, h4, h⟩ := bind_eq_ok.mp h
      injection h with h
      subst h
      simp only [Tok.within]
      exact decAll_within ts data off rs hw.2 h4
theorem decAll_within : ∀ (ts : List Ty) (data : Bytes) (off : Nat) (r : List Tok × Nat), Ty.wfAll ts = true →
    Ty.decAll ts data off = .ok r → Tok.withinAll data.length r.1
  | [] => by
    intro data off r hw h
    simp only [Ty.decAll] at h
    injection h with h
    subst h
    simp [Tok.withinAll]
  | ty :: ts => by
    intro data off r hw h
    simp only [Ty.wfAll, Bool.and_eq_true] at hw
    simp only [Ty.decAll] at h
    obtain ⟨r1, e1, h⟩ := bind_eq_ok.mp h
    obtain ⟨r2, e2, h⟩ := bind_eq_ok.mp h
    injection h with h
    subst h
    simp only [Tok.withinAll]
    exact ⟨dec_within ty data off r1 hw.1 e1, decAll_within ts data r1.2 r2 hw.2 e2⟩
end

theorem decode_within {tys : List Ty} {data : Bytes} {ts : List Tok} (hw : Ty.wfAll tys = true)
    (h : decode tys data = .ok ts) : Tok.withinAll data.length ts := by
  simp only [decode] at h
  split at h
  · simp at h
  · obtain ⟨r, h1, h⟩ := bind_eq_ok.mp h
    injection h with h
    subst h
    exact decAll_within tys data 0 r hw h1

/-! ## Bytes behind the data change nothing -/

theorem peek_append {data : Bytes} {off len : Nat} {b : Bytes} (more : Bytes) (h : peek data off len = .ok b) :
    peek (data ++ more) off len = .ok b := by
  have := peek_ok h
  simp only [peek, List.length_append]
  rw [if_neg (by omega), this.2.2, List.drop_append_of_le_length (by omega),
    List.take_append_of_le_length (by simp; omega)]

theorem peekUsize_append {data : Bytes} {off n : Nat} (more : Bytes) (h : peekUsize data off = .ok n) :
    peekUsize (data ++ more) off = .ok n := by
  obtain ⟨w, hw, h⟩ := bind_eq_ok.mp h
  simp only [peekUsize, peek_append more hw, ok_bind, h]

theorem loop_append {f g : Nat → Outcome (Tok × Nat)} (h : ∀ i r, f i = .ok r → g i = .ok r) :
    ∀ len off r, loop f len off = .ok r → loop g len off = .ok r
  | 0, off, r, e => by simpa only [loop] using e
  | len + 1, off, r, e => by
    simp only [loop] at e
    obtain ⟨r1, e1, e⟩ := bind_eq_ok.mp e
    obtain ⟨r2, e2, e⟩ := bind_eq_ok.mp e
    simp only [loop, h _ _ e1, ok_bind, loop_append h _ _ _ e2, e]

theorem slice_append {data tl : Bytes} {o : Nat} (more : Bytes) (h : slice data o = .ok tl) :
    slice (data ++ more) o = .ok (tl ++ more) := by
  have e := slice_eq h
  simp only [slice] at h
  split at h
  · simp at h
  · rw [slice_ok (by simp only [List.length_append]; omega), e, List.drop_append_of_le_length (by omega)]

mutual
theorem dec_append (more : Bytes) : ∀ (ty : Ty) (data : Bytes) (off : Nat) (r : Tok × Nat),
    ty.dec data off = .ok r → ty.dec (data ++ more) off = .ok r
  | .address => by
    intro data off r h
    simp only [Ty.dec] at h ⊢
    obtain ⟨w, h1, h⟩ := bind_eq_ok.mp h
    rw [peek_append more h1, ok_bind, h]
  | .uint => by
    intro data off r h
    simp only [Ty.dec] at h ⊢
    obtain ⟨w, h1, h⟩ := bind_eq_ok.mp h
    rw [peek_append more h1, ok_bind, h]
  | .bool => by
    intro data off r h
    simp only [Ty.dec] at h ⊢
    obtain ⟨w, h1, h⟩ := bind_eq_ok.mp h
    rw [peek_append more h1, ok_bind, h]
  | .fixed n => by
    intro data off r h
    simp only [Ty.dec] at h ⊢
    obtain ⟨w, h1, h⟩ := bind_eq_ok.mp h
    rw [peek_append more h1, ok_bind, h]
  | .bytes => by
    intro data off r h
    simp only [Ty.dec] at h ⊢
    obtain ⟨o, h1, h⟩ := bind_eq_ok.mp h
    obtain ⟨l, h2, h⟩ := bind_eq_ok.mp h
    obtain ⟨b, h3, h⟩ := bind_eq_ok.mp h
    rw [peekUsize_append more h1, ok_bind, peekUsize_append more h2, ok_bind, peek_append more h3, ok_bind, h]
  | .array t => by
    intro data off r h
    simp only [Ty.dec] at h ⊢
    obtain ⟨o, h1, h⟩ := bind_eq_ok.mp h
    obtain ⟨l, h2, h⟩ := bind_eq_ok.mp h
    obtain ⟨tl, h3, h⟩ := bind_eq_ok.mp h
    obtain ⟨rs, h4, h⟩ := bind_eq_ok.mp h
    rw [peekUsize_append more h1, ok_bind, peekUsize_append more h2, ok_bind, slice_append more h3, ok_bind,
      loop_append (fun i r e => dec_append more t tl i r e) _ _ _ h4, ok_bind, h]
  | .tuple ts => by
    intro data off r h
    simp only [Ty.dec] at h ⊢
    split at h
    · rename_i hd
      obtain ⟨o, h1, h⟩ := bind_eq_ok.mp h
      split at h
      · simp at h
      · obtain ⟨tl, h3, h⟩ := bind_eq_ok.mp h
        obtain ⟨rs, h4, h⟩ := bind_eq_ok.mp h
        rw [if_pos hd, peekUsize_append more h1, ok_bind, if_neg (by simp only [List.length_append]; omega),
          slice_append more h3, ok_bind, decAll_append more ts tl 0 rs h4, ok_bind, h]
    · rename_i hd
      obtain ⟨rs, h4, h⟩ := bind_eq_ok.mp h
      rw [if_neg hd, decAll_append more ts data off rs h4, ok_bind, h]
theorem decAll_append (more : Bytes) : ∀ (ts : List Ty) (data : Bytes) (off : Nat) (r : List Tok × Nat),
    Ty.decAll ts data off = .ok r → Ty.decAll ts (data ++ more) off = .ok r
  | [] => by intro data off r h; simpa only [Ty.decAll] using h
  | ty :: ts => by
    intro data off r h
    simp only [Ty.decAll] at h ⊢
    obtain ⟨r1, e1, h⟩ := bind_eq_ok.mp h
    obtain ⟨r2, e2, h⟩ := bind_eq_ok.mp h
    rw [dec_append more ty data off r1 e1, ok_bind, decAll_append more ts data r1.2 r2 e2, ok_bind, h]
end

theorem decode_append {tys : List Ty} {data : Bytes} {ts : List Tok} (more : Bytes)
    (h : decode tys data = .ok ts) : decode tys (data ++ more) = .ok ts := by
  simp only [decode] at h ⊢
  split at h
  · simp at h
  · rename_i hc
    obtain ⟨r, h1, h⟩ := bind_eq_ok.mp h
    rw [if_neg ?_, decAll_append more tys data 0 r h1, ok_bind, h]
    intro hh
    apply hc
    cases data with
    | nil => simp_all
    | cons b d => simp at hh

end Axon.Abi
