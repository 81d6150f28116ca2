import Verif.Executor.SystemAbi

/-! # Lemmas on the call data of the system contracts -/

namespace Axon.SysAbi
open Axon.Abi Axon.Cells

theorem ofOption_ne_panic {α : Type} (x : Option α) : Outcome.ofOption x ≠ .panic := by
  cases x <;> simp [Outcome.ofOption]

theorem decodeStruct_ne_panic {α : Type} (f : Fields α) (data : Bytes) : decodeStruct f data ≠ .panic :=
  bind_ne_panic (decode_ne_panic _ _) fun _ _ => ofOption_ne_panic _

theorem decodeCall_ne_panic {α : Type} (sel : Bytes) (c : Codec α) (data : Bytes) :
    decodeCall sel c data ≠ .panic := by
  unfold decodeCall
  split
  · simp
  · exact bind_ne_panic (decode_ne_panic _ _) fun _ _ => ofOption_ne_panic _

theorem attempt_ne_panic {α β : Type} {x : Outcome α} {f : α → β} {y : Outcome β} (hx : x ≠ .panic)
    (hy : y ≠ .panic) : attempt x f y ≠ .panic := by
  cases x <;> simp_all [attempt]

theorem decodeStruct_encodeStruct {α : Type} (f : Fields α) (a : α) (more : Bytes)
    (h : (encodeStruct f a ++ more).length < 2 ^ 32) : decodeStruct f (encodeStruct f a ++ more) = .ok a := by
  simp only [decodeStruct, encodeStruct] at h ⊢
  rw [decode_encode _ _ more (f.fits a) h, ok_bind, f.law]
  rfl

theorem decodeStruct_append {α : Type} {f : Fields α} {a : α} {data : Bytes} (more : Bytes)
    (h : decodeStruct f data = .ok a) : decodeStruct f (data ++ more) = .ok a := by
  obtain ⟨ts, h1, h2⟩ := bind_eq_ok.mp h
  simp only [decodeStruct, decode_append more h1, ok_bind, h2]

/-- A decoded struct has a word of data for each member. -/
theorem decodeStruct_size {α : Type} {f : Fields α} {a : α} {data : Bytes}
    (h : decodeStruct f data = .ok a) : 32 * f.tys.length ≤ data.length := by
  obtain ⟨ts, h1, h2⟩ := bind_eq_ok.mp h
  simp only [decode] at h1
  split at h1
  · simp at h1
  · obtain ⟨r, h1, h3⟩ := bind_eq_ok.mp h1
    have := decAll_fits f.tys data 0 r f.wf (by omega) h1
    omega

theorem decodeCall_encodeCall {α : Type} (sel : Bytes) (c : Codec α) (a : α) (more : Bytes) (hs : sel.length = 4)
    (h : (encodeCall sel c a ++ more).length < 2 ^ 32) :
    decodeCall sel c (encodeCall sel c a ++ more) = .ok a := by
  simp only [encodeCall, List.append_assoc] at h ⊢
  have h1 : ¬((sel ++ (Abi.encode [c.tok a] ++ more)).length < 4 ∨
      (sel ++ (Abi.encode [c.tok a] ++ more)).take 4 ≠ sel) := by
    rw [List.take_left' hs]
    simp only [List.length_append, ne_eq, not_true_eq_false, or_false]
    omega
  simp only [decodeCall]
  rw [if_neg h1, List.drop_left' hs]
  rw [List.length_append] at h
  have := decode_encode [c.tok a] [c.ty] more ((lastF c).fits a) (by omega)
  rw [this, ok_bind]
  exact congrArg Outcome.ofOption (c.law a)

/-- Call data of another method. -/
theorem decodeCall_other {α : Type} {sel : Bytes} (c : Codec α) {data : Bytes} (h : data.take 4 ≠ sel) :
    decodeCall sel c data = .err := by
  simp only [decodeCall]
  rw [if_pos (.inr h)]

theorem decodeCall_sel {α : Type} {sel : Bytes} {c : Codec α} {data : Bytes} {a : α}
    (h : decodeCall sel c data = .ok a) : data.take 4 = sel := by
  simp only [decodeCall] at h
  split at h
  · simp at h
  · rename_i hc
    exact Decidable.byContradiction fun hn => hc (.inr hn)

theorem decodeCall_ok {α : Type} {sel : Bytes} {c : Codec α} {data : Bytes} {a : α}
    (h : decodeCall sel c data = .ok a) :
    4 ≤ data.length ∧ ∃ t, Abi.decode [c.ty] (data.drop 4) = .ok [t] ∧ t.fits c.ty ∧ c.un t = some a := by
  simp only [decodeCall] at h
  split at h
  · simp at h
  · rename_i hc
    obtain ⟨ts, h1, h2⟩ := bind_eq_ok.mp h
    refine ⟨by omega, ?_⟩
    have hf := decode_fits (by simp [Ty.wfAll, c.wf]) h1
    match ts, hf with
    | [t], hf =>
      simp only [Tok.fitEach] at hf
      refine ⟨t, h1, hf.1, ?_⟩
      have : (lastF c).un [t] = c.un t := rfl
      rw [this] at h2
      cases hu : c.un t <;> simp_all [Outcome.ofOption]
    | [], hf => simp [Tok.fitEach] at hf
    | _ :: _ :: _, hf => simp [Tok.fitEach] at hf

/-- With the right selector, only the data decide. -/
theorem decodeCall_iff {α : Type} {sel : Bytes} {c : Codec α} {data : Bytes} :
    (∃ a, decodeCall sel c data = .ok a) ↔
      4 ≤ data.length ∧ data.take 4 = sel ∧ ∃ ts, Abi.decode [c.ty] (data.drop 4) = .ok ts := by
  constructor
  · rintro ⟨a, h⟩
    obtain ⟨h4, t, h1, _⟩ := decodeCall_ok h
    exact ⟨h4, decodeCall_sel h, [t], h1⟩
  · rintro ⟨h4, hs, ts, h1⟩
    have hf := decode_fits (by simp [Ty.wfAll, c.wf]) h1
    obtain ⟨a, ha⟩ := Option.isSome_iff_exists.mp ((lastF c).total ts hf)
    refine ⟨a, ?_⟩
    simp only [decodeCall]
    rw [if_neg (by simp only [hs, ne_eq, not_true_eq_false, or_false]; omega), h1, ok_bind, ha]
    rfl

theorem decodeCall_append {α : Type} {sel : Bytes} {c : Codec α} {data : Bytes} {a : α} (more : Bytes)
    (h : decodeCall sel c data = .ok a) : decodeCall sel c (data ++ more) = .ok a := by
  have h4 := (decodeCall_ok h).1
  have hs := decodeCall_sel h
  simp only [decodeCall] at h ⊢
  rw [if_neg (by simp only [hs, ne_eq, not_true_eq_false, or_false]; omega)] at h
  obtain ⟨ts, h1, h2⟩ := bind_eq_ok.mp h
  rw [if_neg ?_, List.drop_append_of_le_length h4, decode_append more h1, ok_bind, h2]
  simp only [List.take_append_of_le_length h4, hs, List.length_append, ne_eq, not_true_eq_false, or_false]
  omega

/-! ## Lengths of decoded lists -/

theorem unList_length {α : Type} {f : Tok → Option α} : ∀ {ts : List Tok} {l : List α}, unList f ts = some l →
    l.length = ts.length
  | [], l, h => by simp only [unList, Option.some.injEq] at h; subst h; rfl
  | t :: ts, l, h => by
    simp only [unList, Option.bind_eq_some_iff, Option.map_eq_some_iff] at h
    obtain ⟨a, ha, as, has, rfl⟩ := h
    simp [unList_length has]

theorem unList_mem {α : Type} {f : Tok → Option α} : ∀ {ts : List Tok} {l : List α}, unList f ts = some l →
    ∀ a ∈ l, ∃ t ∈ ts, f t = some a
  | [], l, h => by simp only [unList, Option.some.injEq] at h; subst h; simp
  | t :: ts, l, h => by
    simp only [unList, Option.bind_eq_some_iff, Option.map_eq_some_iff] at h
    obtain ⟨a, ha, as, has, rfl⟩ := h
    intro b hb
    rcases List.mem_cons.mp hb with rfl | hb
    · exact ⟨t, by simp, ha⟩
    · obtain ⟨u, hu, e⟩ := unList_mem has b hb
      exact ⟨u, by simp [hu], e⟩

theorem within_mem {n : Nat} : ∀ {ts : List Tok}, Tok.withinAll n ts → ∀ t ∈ ts, t.within n
  | [], _ => by simp
  | t :: ts, h => by
    simp only [Tok.withinAll] at h
    intro u hu
    rcases List.mem_cons.mp hu with rfl | hu
    · exact h.1
    · exact within_mem h.2 u hu

theorem listC_within {α : Type} {c : Codec α} {t : Tok} {l : List α} {n : Nat} (h : (listC c).un t = some l)
    (hw : t.within n) : 32 * l.length ≤ n ∧ ∀ a ∈ l, ∃ u, c.un u = some a ∧ u.within n := by
  cases t <;> simp only [listC] at h <;> try contradiction
  simp only [Tok.within] at hw
  rw [unList_length h]
  refine ⟨hw.1, fun a ha => ?_⟩
  obtain ⟨u, hu, e⟩ := unList_mem h a ha
  exact ⟨u, e, within_mem hw.2 u hu⟩

theorem bytesC_within {t : Tok} {b : Bytes} {n : Nat} (h : bytesC.un t = some b) (hw : t.within n) :
    b.length ≤ n := by
  cases t <;> simp only [bytesC] at h <;> try contradiction
  simp only [Option.some.injEq] at h
  subst h
  simpa only [Tok.within] using hw

theorem tupleC_within {α : Type} {f : Fields α} {t : Tok} {a : α} {n : Nat} (h : (tupleC f).un t = some a)
    (hw : t.within n) : ∃ ts, f.un ts = some a ∧ Tok.withinAll n ts := by
  cases t <;> simp only [tupleC] at h <;> try contradiction
  simp only [Tok.within] at hw
  exact ⟨_, h, hw⟩

theorem structF_within {α β : Type} {f : Fields β} {out : α → β} {mk : β → α} {hm : ∀ a, mk (out a) = a}
    {ts : List Tok} {a : α} (h : (structF f out mk hm).un ts = some a) : ∃ b, f.un ts = some b ∧ mk b = a := by
  simpa only [structF, Option.map_eq_some_iff] using h

theorem consF_within {α β : Type} {c : Codec α} {f : Fields β} {ts : List Tok} {p : α × β} {n : Nat}
    (h : (consF c f).un ts = some p) (hw : Tok.withinAll n ts) :
    (∃ t, c.un t = some p.1 ∧ t.within n) ∧ ∃ us, f.un us = some p.2 ∧ Tok.withinAll n us := by
  cases ts with
  | nil => simp [consF] at h
  | cons t ts =>
    simp only [consF, Option.bind_eq_some_iff, Option.map_eq_some_iff] at h
    obtain ⟨a, ha, b, hb, rfl⟩ := h
    simp only [Tok.withinAll] at hw
    exact ⟨⟨t, ha, hw.1⟩, ts, hb, hw.2⟩

theorem lastF_within {α : Type} {c : Codec α} {ts : List Tok} {a : α} {n : Nat}
    (h : (lastF c).un ts = some a) (hw : Tok.withinAll n ts) : ∃ t, c.un t = some a ∧ t.within n := by
  match ts, h with
  | [t], h =>
    simp only [Tok.withinAll] at hw
    exact ⟨t, h, hw.1⟩

theorem decodeCall_within {α : Type} {sel : Bytes} {c : Codec α} {data : Bytes} {a : α}
    (h : decodeCall sel c data = .ok a) : ∃ t, c.un t = some a ∧ t.within data.length := by
  obtain ⟨h4, t, h1, h2, h3⟩ := decodeCall_ok h
  have hw := decode_within (by simp [Ty.wfAll, c.wf]) h1
  simp only [Tok.withinAll] at hw
  exact ⟨t, h3, within_mono (by simp) t hw.1⟩

/-! ## Headers in the trie -/

theorem padded_length_le (b : Bytes) : (padded b).length ≤ b.length + 31 := by
  simp only [padded, List.length_append, List.length_replicate]; omega

theorem header_length (h : Header) :
    (encodeStruct headerF h).length = 448 + (padded h.extension).length := by
  have e := heads_length (headerF.toks h) headerF.tys (Tok.headLens (headerF.toks h)) (headerF.fits h)
  simp only [encodeStruct, Abi.encode, List.length_append, e]
  simp [headerF, structF, consF, lastF, u32C, u64C, u128C, uintC, hashC, bytesC, Tok.headLens, Tok.headLen,
    Tok.tails, Tok.tail]
  omega

theorem decodeHeader_encode (h : { h : Header // h.Fits }) : decodeHeader (encodeStruct headerF h.1) = some h := by
  have hl : (encodeStruct headerF h.1 ++ []).length < 2 ^ 32 := by
    have := h.2
    have := padded_length_le h.1.extension
    simp only [Header.Fits, List.append_nil, header_length] at *
    omega
  have := decodeStruct_encodeStruct headerF h.1 [] hl
  rw [List.append_nil] at this
  simp [decodeHeader, this, toOption, fitHeader, h.2]

/-- The header codec that the light client contract uses: what `Axon.Cells` assumes of it holds. -/
def headerAbi : HeaderAbi where
  Header := { h : Header // h.Fits }
  hash h := h.1.blockHash
  enc h := encodeStruct headerF h.1
  dec := decodeHeader
  law := decodeHeader_encode
  nonempty h e := by
    have := header_length h.1
    rw [e, List.length_nil] at this
    omega

/-- All headers have room, or none is taken. -/
def fitHeaders : List Header → Option (List { h : Header // h.Fits })
  | [] => some []
  | h :: hs => (fitHeader h).bind fun a => (fitHeaders hs).map (a :: ·)

/-- The calls of `Axon.Cells` for the light client. -/
def lightArg : LightCall → Option (Cells.Call headerAbi)
  | .rollback hs => some (.removeHeaders hs)
  | .setState b => some (.setHeaderState b)
  | .update hs => (fitHeaders hs).map .saveHeaders

/-- `exec_` of the light client contract on call data, `ckb_light_client/mod.rs:30-73` -/
def lightExec (s : Ctx) (data : Bytes) : Outcome (Ctx × Bool) :=
  Cells.exec headerAbi s ((toOption (decodeLight data)).bind lightArg)

/-- `GetHeader::exec_fn` after the gas check, `precompiles/get_header.rs:31-53`: the input is one word. -/
def getHeaderBytes (t : Trie) (input : Bytes) : Outcome Bytes :=
  (decodeStruct (lastF hashC) input).bind fun k =>
  (precompileHeader headerAbi t k).bind fun h => .ok (Abi.encode [(tupleC headerF).tok h.1])

theorem fitHeaders_map : ∀ hs : List { h : Header // h.Fits }, fitHeaders (hs.map (·.1)) = some hs
  | [] => rfl
  | h :: hs => by
    rw [List.map_cons]
    simp only [fitHeaders, fitHeader, dif_pos h.2, fitHeaders_map hs]
    rfl

theorem fitHeaders_some : ∀ hs : List Header, (∀ h ∈ hs, h.Fits) →
    ∃ l, fitHeaders hs = some l ∧ l.map (·.1) = hs
  | [], _ => ⟨[], rfl, rfl⟩
  | h :: hs, a => by
    obtain ⟨l, h1, h2⟩ := fitHeaders_some hs (fun x hx => a x (by simp [hx]))
    have hf := a h (by simp)
    exact ⟨⟨h, hf⟩ :: l, by simp [fitHeaders, fitHeader, hf, h1], by simp [h2]⟩

/-! ## Shared tails -/

theorem loop_same {f : Nat → Outcome (Tok × Nat)} {t : Tok} {n : Nat}
    (h : ∀ i, i < n → f (32 * i) = .ok (t, 32 * i + 32)) : ∀ k i, i + k = n →
    loop f k (32 * i) = .ok (List.replicate k t, 32 * n)
  | 0, i, e => by simp only [loop, List.replicate_zero]; rw [show i = n by omega]
  | k + 1, i, e => by
    have := loop_same h k (i + 1) (by omega)
    simp only [loop, h i (by omega), ok_bind, show 32 * i + 32 = 32 * (i + 1) by omega, this,
      List.replicate_succ]

/-- `n` elements with one tail: the offsets in front of it are all the same. -/
def sharedTails (n : Nat) (t : Tok) : Bytes :=
  word 32 ++ (word n ++ ((List.replicate n (word (32 * n))).flatten ++ t.tail))

theorem flatten_length (n m : Nat) : (List.replicate n (word m)).flatten.length = 32 * n := by
  induction n with
  | zero => rfl
  | succ n ih => rw [List.replicate_succ, List.flatten_cons, List.length_append, ih, word_length]; omega

theorem flatten_prefix (m : Nat) (more : Bytes) : ∀ (n i : Nat), i < n →
    word m <+: ((List.replicate n (word m)).flatten ++ more).drop (32 * i)
  | n + 1, 0, _ => by
    rw [List.replicate_succ, List.flatten_cons, List.append_assoc]
    exact List.prefix_append _ _
  | n + 1, i + 1, h => by
    rw [List.replicate_succ, List.flatten_cons, List.append_assoc,
      show 32 * (i + 1) = (word m).length + 32 * i by simp; omega, ← List.drop_drop, List.drop_left]
    exact flatten_prefix m more n i (by omega)

theorem decode_shared (n : Nat) (t : Tok) (ts : List Tok) (ty : Ty) (ht : t = .tuple ts)
    (hd : t.dyn = true) (hf : t.fits ty) (hl : (sharedTails n t).length < 2 ^ 32) :
    Abi.decode [.array ty] (sharedTails n t) = .ok [.array (List.replicate n t)] := by
  have hdy : Tok.dynAny ts = true := by subst ht; simpa only [Tok.dyn] using hd
  have hlen : (sharedTails n t).length = 64 + 32 * n + t.tail.length := by
    simp only [sharedTails, List.length_append, word_length, flatten_length]; omega
  rw [hlen] at hl
  have hb : (!([Ty.array ty].all Ty.emptyOk) && (sharedTails n t).isEmpty) = false := by
    cases e : sharedTails n t with
    | nil => rw [e] at hlen; simp at hlen; omega
    | cons => simp
  have e0 : peekUsize (sharedTails n t) 0 = .ok 32 :=
    peekUsize_prefix (by simp only [sharedTails, List.drop_zero]; exact List.prefix_append _ _) (by omega) (by decide)
  have e1 : peekUsize (sharedTails n t) 32 = .ok n := by
    refine peekUsize_prefix ?_ (by omega) (by omega)
    simp only [sharedTails]
    rw [List.drop_left' (word_length 32)]
    exact List.prefix_append _ _
  have e2 : slice (sharedTails n t) (32 + 32) = .ok ((List.replicate n (word (32 * n))).flatten ++ t.tail) := by
    rw [slice_ok (by omega), ← List.drop_drop]
    simp only [sharedTails]
    rw [List.drop_left' (word_length 32), List.drop_left' (word_length n)]
  have e3 := loop_same (f := fun i => ty.dec ((List.replicate n (word (32 * n))).flatten ++ t.tail) i) (t := t)
    (n := n) (fun i hi => by
      have hh : t.headLen = 32 := by subst ht; simp [Tok.headLen, hdy]
      have := dec_spec t ty ((List.replicate n (word (32 * n))).flatten ++ t.tail) (32 * i) (32 * n) hf
        (by simp only [List.length_append, flatten_length]; omega)
        (by simp only [List.length_append, flatten_length]; omega)
        (by simp only [List.length_append, flatten_length]; omega)
        (by
          have e : t.head (32 * n) = word (32 * n) := by subst ht; simp [Tok.head, hdy]
          rw [e]
          exact flatten_prefix _ _ n i hi)
        (by
          rw [List.drop_left' (flatten_length n _)]
          exact List.prefix_refl _)
      rw [hh] at this
      exact this) n 0 (by omega)
  simp only [Nat.mul_zero] at e3
  simp only [decode, hb, Ty.decAll, Ty.dec, e0, ok_bind, e1, e2, e3]
  rfl

end Axon.SysAbi
