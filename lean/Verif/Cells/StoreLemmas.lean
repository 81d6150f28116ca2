import Verif.Cells.Store

/-!
# Lemmas about the image cell and header stores
-/

namespace Axon.Cells
open Axon.Assoc Axon.Rlp Axon.Mol
open Axon.Block (valAt)

/-! ## Keys -/

theorem cellKey_length (o : OutPoint) : (cellKey o).length = 36 := by
  simp [cellKey, o.txHash.len]

theorem decodeKey_cellKey (o : OutPoint) : decodeKey (cellKey o) = some o := by
  unfold decodeKey
  rw [if_neg (by simp [cellKey_length])]
  have h1 : (cellKey o).take 32 = o.txHash.bytes := List.take_left' o.txHash.len
  have h2 : (cellKey o).drop 32 = le 4 o.index.val := List.drop_left' o.txHash.len
  rw [h1, h2, leNat_le (show o.index.val < 256 ^ 4 from o.index.lt)]
  simp

theorem cellKey_inj {a b : OutPoint} (h : cellKey a = cellKey b) : a = b := by
  have := congrArg decodeKey h
  rw [decodeKey_cellKey, decodeKey_cellKey] at this
  exact Option.some.inj this

theorem cellKey_eq_iff {a b : OutPoint} : cellKey a = cellKey b ↔ a = b :=
  ⟨cellKey_inj, fun h => h ▸ rfl⟩

theorem cellKey_ne_hash (o : OutPoint) (h : H256) : h.bytes ≠ cellKey o := by
  intro hc
  have := congrArg List.length hc
  rw [cellKey_length, h.len] at this
  omega

/-! ## Stored cells -/

/-- A cell as stored by this contract: a packed output below 2^32 bytes (the limit of the packing) and data
below 2^62 bytes. -/
def FitsCell (c : CellInfo) : Prop :=
  (∃ out, c.output = packOutput out) ∧ c.output.length < 2 ^ 32 ∧ c.data.length < 2 ^ 62

theorem encStr_length_le (b : Bytes) (h : b.length < 2 ^ 64) : (encStr b).length ≤ b.length + 9 := by
  have hl : b.length ≠ 0 → (beBytes b.length).length ≤ 8 := fun h0 =>
    beBytes_length_le b.length 8 (by simpa using h)
  unfold encStr
  split
  · split
    · simp
    · simp
  · split
    · simp
    · rename_i h56
      have := hl (by omega)
      simp only [longHeader, List.length_append, List.length_cons]; omega

theorem encPayload_length_le (p : Bytes) (h : p.length < 2 ^ 64) : (encPayload p).length ≤ p.length + 9 := by
  have hl : p.length ≠ 0 → (beBytes p.length).length ≤ 8 := fun h0 =>
    beBytes_length_le p.length 8 (by simpa using h)
  unfold encPayload
  split
  · simp
  · rename_i h56
    have := hl (by omega)
    simp only [longHeader, List.length_append, List.length_cons]; omega

theorem uint_item_length (x : U64) : (encode (ofUint x)).length ≤ 17 := by
  have h8 := beBytes_length_le x.val 8 (show x.val < 256 ^ 8 from x.lt)
  have := encStr_length_le (beBytes x.val) (by omega)
  simp only [ofUint, encode]
  omega

theorem opt_item_length (x : Option U64) : (encode (optItem x)).length ≤ 26 := by
  cases x with
  | none =>
    simp only [optItem, encode, encodeMany]
    have := encPayload_length_le [] (by decide)
    simp only [List.length_nil] at this; omega
  | some n =>
    have h := uint_item_length n
    simp only [optItem, encode, encodeMany, List.append_nil]
    have := encPayload_length_le (encode (ofUint n)) (by omega)
    omega

theorem encodeCell_length {c : CellInfo} (h : FitsCell c) : (encodeCell c).length < 2 ^ 64 := by
  obtain ⟨-, ha, hb⟩ := h
  have h1 := encStr_length_le c.output (by omega)
  have h2 := encStr_length_le c.data (by omega)
  have h3 := uint_item_length c.created
  have h4 := opt_item_length c.consumed
  unfold encodeCell cellItem
  simp only [encode, encodeMany, List.append_nil]
  have := encPayload_length_le (encStr c.output ++ (encStr c.data ++
    (encode (ofUint c.created) ++ encode (optItem c.consumed))))
    (by simp only [List.length_append]; omega)
  simp only [List.length_append] at this ⊢
  omega

theorem itemOpt_optItem (x : Option U64) : itemOpt (optItem x) = some x := by
  cases x <;> simp [itemOpt, optItem]

theorem itemCell_cellItem (c : CellInfo) : itemCell (cellItem c) = some c := by
  simp [itemCell, cellItem, valAt, itemOpt_optItem]

theorem decodeCell_encodeCell {c : CellInfo} (h : FitsCell c) : decodeCell (encodeCell c) = some c := by
  unfold decodeCell encodeCell
  rw [decode_encode_item _ (encodeCell_length h)]
  simp [itemCell_cellItem]

/-- Everything stored under a cell key is an encoded cell. -/
def Good (t : Trie) : Prop := ∀ o v, get t (cellKey o) = some v → ∃ c, v = encodeCell c ∧ FitsCell c

/-- The cell stored for an out point. -/
def view (t : Trie) (o : OutPoint) : Option CellInfo := (get t (cellKey o)).bind decodeCell

/-- The entries that are not cells. -/
def SameRest (t t' : Trie) : Prop := ∀ k, (∀ o, k ≠ cellKey o) → get t' k = get t k

theorem SameRest.refl (t : Trie) : SameRest t t := fun _ _ => rfl

theorem SameRest.trans {a b c : Trie} (h : SameRest a b) (h' : SameRest b c) : SameRest a c :=
  fun k hk => (h' k hk).trans (h k hk)

theorem good_nil : Good [] := by
  intro o v h
  simp [get_nil] at h

theorem getCell_good {t : Trie} (h : Good t) (o : OutPoint) : getCell t o = .ok (view t o) := by
  unfold getCell view
  cases hg : get t (cellKey o) with
  | none => rfl
  | some v =>
    obtain ⟨c, rfl, hf⟩ := h o v hg
    simp [decodeCell_encodeCell hf]

theorem view_fits {t : Trie} (h : Good t) {o : OutPoint} {c : CellInfo} (hv : view t o = some c) :
    FitsCell c := by
  unfold view at hv
  cases hg : get t (cellKey o) with
  | none => rw [hg] at hv; simp at hv
  | some v =>
    obtain ⟨d, rfl, hf⟩ := h o v hg
    rw [hg] at hv
    simp only [Option.bind_some, decodeCell_encodeCell hf, Option.some.injEq] at hv
    exact hv ▸ hf

theorem view_isSome {t : Trie} (h : Good t) (o : OutPoint) :
    (view t o).isSome = (get t (cellKey o)).isSome := by
  unfold view
  cases hg : get t (cellKey o) with
  | none => rfl
  | some v =>
    obtain ⟨d, rfl, hf⟩ := h o v hg
    simp [decodeCell_encodeCell hf]

theorem view_eq_get {t : Trie} (h : Good t) (o : OutPoint) :
    get t (cellKey o) = (view t o).map encodeCell := by
  unfold view
  cases hg : get t (cellKey o) with
  | none => rfl
  | some v =>
    obtain ⟨d, rfl, hf⟩ := h o v hg
    simp [decodeCell_encodeCell hf]

/-- Two tries with the same cells and the same other entries are the same map. -/
theorem good_ext {t t' : Trie} (h : Good t) (h' : Good t') (hv : ∀ o, view t' o = view t o)
    (hr : SameRest t t') (k : Bytes) : get t' k = get t k := by
  by_cases hk : ∃ o, k = cellKey o
  · obtain ⟨o, rfl⟩ := hk
    rw [view_eq_get h, view_eq_get h', hv]
  · exact hr k (fun o ho => hk ⟨o, ho⟩)

theorem insertCell_spec {t : Trie} (h : Good t) (o : OutPoint) {c : CellInfo} (hc : FitsCell c) :
    Good (insertCell t o c) ∧ SameRest t (insertCell t o c) ∧
      ∀ o', view (insertCell t o c) o' = if o' = o then some c else view t o' := by
  refine ⟨?_, ?_, ?_⟩
  · intro o' v hv
    unfold insertCell at hv
    rw [get_put] at hv
    split at hv
    · simp only [Option.some.injEq] at hv
      exact ⟨c, hv.symm, hc⟩
    · exact h o' v hv
  · intro k hk
    unfold insertCell
    rw [get_put, if_neg (hk o)]
  · intro o'
    unfold view insertCell
    rw [get_put]
    by_cases ho : o' = o
    · rw [if_pos (by rw [ho]), if_pos ho]
      simp [decodeCell_encodeCell hc]
    · rw [if_neg (fun hh => ho (cellKey_inj hh)), if_neg ho]

theorem removeCell_spec {t : Trie} (h : Good t) (o : OutPoint) :
    Good (del t (cellKey o)) ∧ SameRest t (del t (cellKey o)) ∧
      ∀ o', view (del t (cellKey o)) o' = if o' = o then none else view t o' := by
  refine ⟨?_, ?_, ?_⟩
  · intro o' v hv
    rw [get_del] at hv
    split at hv
    · cases hv
    · exact h o' v hv
  · intro k hk
    rw [get_del, if_neg (hk o)]
  · intro o'
    unfold view
    rw [get_del]
    by_cases ho : o' = o
    · rw [if_pos (by rw [ho]), if_pos ho]; rfl
    · rw [if_neg (fun hh => ho (cellKey_inj hh)), if_neg ho]

/-- The last of the new cells with an out point. -/
def lastNew (outs : List NewCell) (o : OutPoint) : Option NewCell := outs.reverse.find? (·.outPoint = o)

theorem lastNew_snoc (outs : List NewCell) (c : NewCell) (o : OutPoint) :
    lastNew (outs ++ [c]) o = if c.outPoint = o then some c else lastNew outs o := by
  unfold lastNew
  rw [List.reverse_append]
  by_cases h : c.outPoint = o <;> simp [h]

theorem saveCells_spec {t : Trie} (h : Good t) (outs : List NewCell) (n : U64)
    (hf : ∀ c ∈ outs, FitsCell (newInfo c n)) :
    Good (saveCells t outs n) ∧ SameRest t (saveCells t outs n) ∧
      ∀ o, view (saveCells t outs n) o =
        match lastNew outs o with
        | some c => some (newInfo c n)
        | none => view t o := by
  induction outs using snoc_induction with
  | nil => exact ⟨h, SameRest.refl t, fun o => rfl⟩
  | snoc outs c ih =>
    obtain ⟨h1, h2, h3⟩ := ih (fun d hd => hf d (by simp [hd]))
    have e : saveCells t (outs ++ [c]) n = insertCell (saveCells t outs n) c.outPoint (newInfo c n) := by
      simp [saveCells, List.foldl_append]
    obtain ⟨g1, g2, g3⟩ := insertCell_spec h1 c.outPoint (hf c (by simp))
    rw [e]
    refine ⟨g1, h2.trans g2, ?_⟩
    intro o
    rw [g3, lastNew_snoc]
    by_cases ho : o = c.outPoint
    · simp [ho]
    · rw [if_neg ho, if_neg (fun hh => ho hh.symm), h3]

/-- Marking with a value: both directions. -/
def mark (t : Trie) (v : Option U64) : List OutPoint → Outcome Trie
  | [] => .ok t
  | o :: l =>
    match getCell t o with
    | .ok none => mark t v l
    | .ok (some c) => mark (insertCell t o { c with consumed := v }) v l
    | .err => .err
    | .panic => .panic

theorem markConsumed_eq (t : Trie) (n : U64) (l : List OutPoint) :
    markConsumed t n l = mark t (some n) l := by
  induction l generalizing t with
  | nil => rfl
  | cons o l ih =>
    unfold markConsumed mark
    cases getCell t o with
    | ok x => cases x <;> exact ih _
    | err => rfl
    | panic => rfl

theorem markNotConsumed_eq (t : Trie) (l : List OutPoint) : markNotConsumed t l = mark t none l := by
  induction l generalizing t with
  | nil => rfl
  | cons o l ih =>
    unfold markNotConsumed mark
    cases getCell t o with
    | ok x => cases x <;> exact ih _
    | err => rfl
    | panic => rfl

theorem fits_consumed {c : CellInfo} (h : FitsCell c) (v : Option U64) :
    FitsCell { c with consumed := v } := h

theorem mark_spec {t : Trie} (h : Good t) (v : Option U64) (l : List OutPoint) :
    ∃ t', mark t v l = .ok t' ∧ Good t' ∧ SameRest t t' ∧
      ∀ o, view t' o = if o ∈ l then (view t o).map (fun c => { c with consumed := v }) else view t o := by
  induction l generalizing t with
  | nil => exact ⟨t, rfl, h, SameRest.refl t, fun o => by simp⟩
  | cons a l ih =>
    unfold mark
    rw [getCell_good h]
    cases hv : view t a with
    | none =>
      simp only
      obtain ⟨t', h1, h2, h3, h4⟩ := ih h
      refine ⟨t', h1, h2, h3, fun o => ?_⟩
      rw [h4]
      by_cases ho : o = a
      · subst ho; simp [hv]
      · simp [ho]
    | some c =>
      simp only
      obtain ⟨g1, g2, g3⟩ := insertCell_spec h a (fits_consumed (view_fits h hv) v)
      obtain ⟨t', h1, h2, h3, h4⟩ := ih g1
      refine ⟨t', h1, h2, g2.trans h3, fun o => ?_⟩
      rw [h4, g3]
      by_cases ho : o = a
      · subst ho; simp [hv]
      · simp [ho]

theorem removeCells_spec {t : Trie} (h : Good t) (l : List OutPoint) :
    (l.Nodup ∧ (∀ o ∈ l, (view t o).isSome) →
      ∃ t', removeCells t l = .ok t' ∧ Good t' ∧ SameRest t t' ∧
        ∀ o, view t' o = if o ∈ l then none else view t o) ∧
    (¬ (l.Nodup ∧ (∀ o ∈ l, (view t o).isSome)) → removeCells t l = .err) := by
  induction l generalizing t with
  | nil => exact ⟨fun _ => ⟨t, rfl, h, SameRest.refl t, fun o => by simp⟩, fun hn => by simp at hn⟩
  | cons a l ih =>
    unfold removeCells
    obtain ⟨g1, g2, g3⟩ := removeCell_spec h a
    have hs := view_isSome h a
    refine ⟨?_, ?_⟩
    · rintro ⟨hnd, hp⟩
      rw [List.nodup_cons] at hnd
      have ha := hp a (by simp)
      rw [hs] at ha
      obtain ⟨v, hv⟩ := Option.isSome_iff_exists.1 ha
      rw [hv]
      simp only
      obtain ⟨t', h1, h2, h3, h4⟩ := (ih g1).1 ⟨hnd.2, fun o ho => by
        rw [g3, if_neg (fun (hh : o = a) => hnd.1 (hh ▸ ho))]; exact hp o (by simp [ho])⟩
      refine ⟨t', h1, h2, g2.trans h3, fun o => ?_⟩
      rw [h4, g3]
      by_cases ho : o = a <;> simp [ho]
    · intro hn
      cases hv : get t (cellKey a) with
      | none => rfl
      | some v =>
        simp only
        apply (ih g1).2
        rintro ⟨hnd, hp⟩
        apply hn
        refine ⟨?_, ?_⟩
        · rw [List.nodup_cons]
          refine ⟨fun ha => ?_, hnd⟩
          have := hp a ha
          rw [g3, if_pos rfl] at this
          cases this
        · intro o ho
          rcases List.mem_cons.1 ho with ho | ho
          · subst ho; rw [hs, hv]; rfl
          · have := hp o ho
            rw [g3] at this
            split at this
            · cases this
            · exact this

end Axon.Cells
