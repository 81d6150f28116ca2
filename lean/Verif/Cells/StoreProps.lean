import Verif.Cells.StoreLemmas

/-!
# C40: image cell update and rollback
-/

namespace Axon.Cells
open Axon.Assoc Axon.Rlp Axon.Mol

/-! ## Specification -/

/-- What one block does to the cells: its outputs become unconsumed cells created at its number, then its
inputs, if known, become consumed at its number. -/
def specBlock (v : OutPoint → Option CellInfo) (b : BlockUpdate) (o : OutPoint) : Option CellInfo :=
  let c := match lastNew b.outputs o with
    | some n => some ⟨packOutput n.output, n.data, b.number, none⟩
    | none => v o
  if o ∈ b.inputs then c.map (fun c => { c with consumed := some b.number }) else c

/-- The outputs of a list of blocks. -/
def outsOf (bs : List BlockUpdate) : List OutPoint := bs.flatMap fun b => b.outputs.map (·.outPoint)

/-- The inputs of a list of blocks. -/
def insOf (bs : List BlockUpdate) : List OutPoint := bs.flatMap (·.inputs)

/-- The outputs named in a rollback. -/
def backOuts (bs : List BlockRollback) : List OutPoint := bs.flatMap (·.outputs)

/-- The inputs named in a rollback. -/
def backIns (bs : List BlockRollback) : List OutPoint := bs.flatMap (·.inputs)

/-- All new cells have a packed output below 2^32 bytes (the limit of the packing) and data below 2^62
bytes. -/
def FitsBlocks (bs : List BlockUpdate) : Prop :=
  ∀ b ∈ bs, ∀ c ∈ b.outputs, (packOutput c.output).length < 2 ^ 32 ∧ c.data.length < 2 ^ 62

theorem update_spec {t : Trie} (h : Good t) (bs : List BlockUpdate) (hf : FitsBlocks bs) :
    ∃ t', update t bs = .ok t' ∧ Good t' ∧ SameRest t t' ∧
      ∀ o, view t' o = bs.foldl specBlock (view t) o := by
  induction bs generalizing t with
  | nil => exact ⟨t, rfl, h, SameRest.refl t, fun o => rfl⟩
  | cons b bs ih =>
    obtain ⟨h1, h2, h3⟩ := saveCells_spec h b.outputs b.number
      (fun c hc => ⟨⟨c.output, rfl⟩, hf b (by simp) c hc⟩)
    obtain ⟨t1, e1, g1, g2, g3⟩ := mark_spec h1 (some b.number) b.inputs
    obtain ⟨t2, e2, k1, k2, k3⟩ := ih g1 (fun b' hb => hf b' (by simp [hb]))
    unfold update
    rw [markConsumed_eq, e1]
    refine ⟨t2, e2, k1, (h2.trans g2).trans k2, fun o => ?_⟩
    rw [k3]
    have : view t1 = specBlock (view t) b := by
      funext o
      rw [g3, h3]
      rfl
    rw [this, List.foldl_cons]

theorem mark_isSome {t t' : Trie} {v : Option U64} {l : List OutPoint}
    (h : ∀ o, view t' o = if o ∈ l then (view t o).map (fun c => { c with consumed := v }) else view t o)
    (o : OutPoint) : (view t' o).isSome = (view t o).isSome := by
  rw [h]; split <;> simp

theorem rollback_spec {t : Trie} (h : Good t) (bs : List BlockRollback) :
    ((backOuts bs).Nodup ∧ (∀ o ∈ backOuts bs, (view t o).isSome) →
      ∃ t', rollback t bs = .ok t' ∧ Good t' ∧ SameRest t t' ∧
        ∀ o, view t' o = if o ∈ backOuts bs then none
          else if o ∈ backIns bs then (view t o).map (fun c => { c with consumed := none })
          else view t o) ∧
    (¬ ((backOuts bs).Nodup ∧ (∀ o ∈ backOuts bs, (view t o).isSome)) → rollback t bs = .err) := by
  induction bs generalizing t with
  | nil =>
    exact ⟨fun _ => ⟨t, rfl, h, SameRest.refl t, fun o => by simp [backOuts, backIns]⟩,
      fun hn => by simp [backOuts] at hn⟩
  | cons b bs ih =>
    have hout : backOuts (b :: bs) = b.outputs ++ backOuts bs := by simp [backOuts]
    have hin : backIns (b :: bs) = b.inputs ++ backIns bs := by simp [backIns]
    rw [hout, hin]
    unfold rollback
    obtain ⟨r1, r2⟩ := removeCells_spec h b.outputs
    refine ⟨?_, ?_⟩
    · rintro ⟨hnd, hp⟩
      rw [List.nodup_append] at hnd
      obtain ⟨n1, n2, n3⟩ := hnd
      obtain ⟨t1, e1, g1, g2, g3⟩ := r1 ⟨n1, fun o ho => hp o (by simp [ho])⟩
      obtain ⟨t2, e2, k1, k2, k3⟩ := mark_spec g1 none b.inputs
      obtain ⟨t3, e3, m1, m2, m3⟩ := (ih k1).1 ⟨n2, fun o ho => by
        rw [mark_isSome k3, g3, if_neg (fun (hh : o ∈ b.outputs) => n3 o hh o ho rfl)]
        exact hp o (by simp [ho])⟩
      rw [e1]
      simp only
      rw [markNotConsumed_eq, e2]
      refine ⟨t3, e3, m1, (g2.trans k2).trans m2, fun o => ?_⟩
      rw [m3, k3, g3]
      simp only [List.mem_append]
      by_cases a1 : o ∈ b.outputs <;> by_cases a2 : o ∈ backOuts bs <;> by_cases a3 : o ∈ b.inputs <;>
        by_cases a4 : o ∈ backIns bs <;> simp [a1, a2, a3, a4, Function.comp_def]
    · intro hn
      by_cases hc : b.outputs.Nodup ∧ ∀ o ∈ b.outputs, (view t o).isSome
      · obtain ⟨t1, e1, g1, g2, g3⟩ := r1 hc
        obtain ⟨t2, e2, k1, k2, k3⟩ := mark_spec g1 none b.inputs
        rw [e1]
        simp only
        rw [markNotConsumed_eq, e2]
        apply (ih k1).2
        rintro ⟨n2, hp2⟩
        apply hn
        have hp3 : ∀ o ∈ backOuts bs, o ∉ b.outputs ∧ (view t o).isSome := by
          intro o ho
          have := hp2 o ho
          rw [mark_isSome k3, g3] at this
          split at this
          · cases this
          · rename_i ho'; exact ⟨ho', this⟩
        refine ⟨List.nodup_append.2 ⟨hc.1, n2, ?_⟩, ?_⟩
        · intro a ha c hcc hac
          exact (hp3 c hcc).1 (hac ▸ ha)
        · intro o ho
          rcases List.mem_append.1 ho with ho | ho
          · exact hc.2 o ho
          · exact (hp3 o ho).2
      · rw [r2 hc]

theorem specBlock_keep (v : OutPoint → Option CellInfo) (b : BlockUpdate) (o : OutPoint)
    (ho : o ∉ b.outputs.map (·.outPoint)) :
    specBlock v b o = if o ∈ b.inputs then (v o).map (fun c => { c with consumed := some b.number })
      else v o := by
  unfold specBlock
  have : lastNew b.outputs o = none := by
    unfold lastNew
    rw [List.find?_eq_none]
    intro c hc
    simp only [List.mem_reverse] at hc
    simp only [decide_eq_true_eq]
    intro hh
    exact ho (List.mem_map.2 ⟨c, hc, hh⟩)
  rw [this]

theorem specBlock_new (v : OutPoint → Option CellInfo) (b : BlockUpdate) (o : OutPoint)
    (ho : o ∈ b.outputs.map (·.outPoint) ∨ (v o).isSome) : (specBlock v b o).isSome := by
  have key : ∀ x : Option CellInfo, x.isSome →
      (if o ∈ b.inputs then x.map (fun c => { c with consumed := some b.number }) else x).isSome := by
    intro x hx; split <;> simpa using hx
  unfold specBlock
  apply key
  split
  · rfl
  · rename_i hn
    rcases ho with ho | ho
    · obtain ⟨c, hc, hh⟩ := List.mem_map.1 ho
      unfold lastNew at hn
      rw [List.find?_eq_none] at hn
      have := hn c (by simp [hc])
      simp at this
      exact absurd hh this
    · exact ho

/-- What a list of blocks does to an out point that is not among its outputs. -/
theorem fold_keep (bs : List BlockUpdate) (v : OutPoint → Option CellInfo) (o : OutPoint)
    (ho : o ∉ outsOf bs) :
    (bs.foldl specBlock v o).map (fun c => { c with consumed := none }) =
      (v o).map (fun c => { c with consumed := none }) ∧
    (o ∉ insOf bs → bs.foldl specBlock v o = v o) := by
  induction bs generalizing v with
  | nil => exact ⟨rfl, fun _ => rfl⟩
  | cons b bs ih =>
    have h1 : o ∉ b.outputs.map (·.outPoint) := fun hh => ho (by
      simp only [outsOf, List.flatMap_cons, List.mem_append]; exact Or.inl hh)
    have h2 : o ∉ outsOf bs := fun hh => ho (by
      simp only [outsOf, List.flatMap_cons, List.mem_append]; exact Or.inr hh)
    have hk := specBlock_keep v b o h1
    rw [List.foldl_cons]
    obtain ⟨i1, i2⟩ := ih (specBlock v b) h2
    refine ⟨?_, fun hi => ?_⟩
    · rw [i1, hk]
      split <;> simp [Function.comp_def]
    · simp only [insOf, List.flatMap_cons, List.mem_append, not_or] at hi
      rw [i2 hi.2, hk, if_neg hi.1]

theorem fold_some (bs : List BlockUpdate) (v : OutPoint → Option CellInfo) (o : OutPoint)
    (ho : o ∈ outsOf bs ∨ (v o).isSome) : (bs.foldl specBlock v o).isSome := by
  induction bs generalizing v with
  | nil =>
    rcases ho with ho | ho
    · simp [outsOf] at ho
    · exact ho
  | cons b bs ih =>
    rw [List.foldl_cons]
    apply ih
    simp only [outsOf, List.flatMap_cons, List.mem_append] at ho
    rcases ho with (ho | ho) | ho
    · exact Or.inr (specBlock_new v b o (Or.inl ho))
    · exact Or.inl ho
    · exact Or.inr (specBlock_new v b o (Or.inr ho))

/-! ## Theorems -/

/-- C40: an update never fails; afterwards the cells are those obtained block by block, and nothing else
changed. -/
theorem C40_update {t : Trie} (h : Good t) (bs : List BlockUpdate) (hf : FitsBlocks bs) :
    ∃ t', update t bs = .ok t' ∧ Good t' ∧
      (∀ o, getCell t' o = .ok (bs.foldl specBlock (view t) o)) ∧
      ∀ k, k.length ≠ 36 → get t' k = get t k := by
  obtain ⟨t', h1, h2, h3, h4⟩ := update_spec h bs hf
  refine ⟨t', h1, h2, fun o => by rw [getCell_good h2, h4], fun k hk => h3 k (fun o ho => hk ?_)⟩
  rw [ho, cellKey_length]

/-- C40: a rollback succeeds iff its outputs are distinct known cells; then exactly these cells are gone,
the inputs are unconsumed and nothing else changed. -/
theorem C40_rollback {t : Trie} (h : Good t) (bs : List BlockRollback) :
    ((∃ t', rollback t bs = .ok t') ↔
      (backOuts bs).Nodup ∧ ∀ o ∈ backOuts bs, ∃ c, getCell t o = .ok (some c)) ∧
    ∀ t', rollback t bs = .ok t' → Good t' ∧
      (∀ o, getCell t' o = .ok (if o ∈ backOuts bs then none
        else if o ∈ backIns bs then (view t o).map (fun c => { c with consumed := none })
        else view t o)) ∧
      ∀ k, k.length ≠ 36 → get t' k = get t k := by
  obtain ⟨r1, r2⟩ := rollback_spec h bs
  have hp : (∀ o ∈ backOuts bs, ∃ c, getCell t o = .ok (some c)) ↔
      ∀ o ∈ backOuts bs, (view t o).isSome := by
    constructor
    · intro hh o ho
      obtain ⟨c, hc⟩ := hh o ho
      rw [getCell_good h] at hc
      simp only [Outcome.ok.injEq] at hc
      rw [hc]; rfl
    · intro hh o ho
      obtain ⟨c, hc⟩ := Option.isSome_iff_exists.1 (hh o ho)
      exact ⟨c, by rw [getCell_good h, hc]⟩
  rw [hp]
  refine ⟨⟨?_, ?_⟩, ?_⟩
  · rintro ⟨t', ht⟩
    refine Classical.byContradiction fun hc => ?_
    rw [r2 hc] at ht
    cases ht
  · intro hc
    obtain ⟨t', ht, -⟩ := r1 hc
    exact ⟨t', ht⟩
  · intro t' ht
    by_cases hc : (backOuts bs).Nodup ∧ ∀ o ∈ backOuts bs, (view t o).isSome
    · obtain ⟨t2, e, g1, g2, g3⟩ := r1 hc
      rw [e] at ht
      simp only [Outcome.ok.injEq] at ht
      subst ht
      refine ⟨g1, fun o => by rw [getCell_good g1, g3], fun k hk => g2 k (fun o ho => hk ?_)⟩
      rw [ho, cellKey_length]
    · rw [r2 hc] at ht
      cases ht

/-- C40: rolling back the blocks of an update, in any order, restores the stored data exactly, provided the
outputs were distinct and unknown before and the known inputs were unconsumed. -/
theorem C40_inverse_partial {t : Trie} (h : Good t) (bs : List BlockUpdate) (hf : FitsBlocks bs)
    (back : List BlockRollback) (hperm : (backOuts back).Perm (outsOf bs))
    (hins : ∀ o, o ∈ backIns back ↔ o ∈ insOf bs)
    (hnd : (outsOf bs).Nodup) (hfresh : ∀ o ∈ outsOf bs, getCell t o = .ok none)
    (hlive : ∀ o ∈ insOf bs, ∀ c, getCell t o = .ok (some c) → c.consumed = none) :
    ∃ t' t'', update t bs = .ok t' ∧ rollback t' back = .ok t'' ∧ ∀ k, get t'' k = get t k := by
  obtain ⟨t', h1, h2, h3, h4⟩ := update_spec h bs hf
  obtain ⟨t'', e, g1, g2, g3⟩ := (rollback_spec h2 back).1 ⟨hperm.nodup_iff.2 hnd, fun o ho => by
    rw [h4]; exact fold_some bs _ o (Or.inl (hperm.mem_iff.1 ho))⟩
  refine ⟨t', t'', h1, e, good_ext h g1 ?_ (h3.trans g2)⟩
  intro o
  rw [g3, h4]
  by_cases ho : o ∈ outsOf bs
  · rw [if_pos (hperm.mem_iff.2 ho)]
    have := hfresh o ho
    rw [getCell_good h] at this
    simp only [Outcome.ok.injEq] at this
    exact this.symm
  · rw [if_neg (fun hh => ho (hperm.mem_iff.1 hh))]
    obtain ⟨k1, k2⟩ := fold_keep bs (view t) o ho
    by_cases hi : o ∈ insOf bs
    · rw [if_pos ((hins o).2 hi), k1]
      cases hv : view t o with
      | none => rfl
      | some c =>
        have := hlive o hi c (by rw [getCell_good h, hv])
        simp only [Option.map_some, Option.some.injEq]
        cases c
        simp_all
    · rw [if_neg (fun hh => hi ((hins o).1 hh)), k2 hi]

/-! ## Histories of both contracts -/

variable (abi : HeaderAbi)

/-- Calls whose new cells are within the limits. -/
def FitsCall : Option (Call abi) → Prop
  | some (.update bs) => FitsBlocks bs
  | _ => True

/-- States of the two contracts reachable from the empty store; `ok` = the call succeeded. -/
inductive Reach : Ctx → Prop
  | init (a b : Bool) : Reach ⟨[], [], [], a, b⟩
  | call {s s' : Ctx} {c : Option (Call abi)} {ok : Bool} : Reach s → FitsCall abi c →
      exec abi s c = .ok (s', ok) → Reach s'
  | load {s : Ctx} : Reach s → Reach (load s)

theorem hash_not_cell {k : Bytes} {h : H256} (hk : k = h.bytes) : ∀ o, k ≠ cellKey o :=
  fun o => hk ▸ cellKey_ne_hash o h

/-- Everything stored under a 32-byte key is the encoding of a header with this hash. -/
def GoodHeaders (t : Trie) : Prop :=
  ∀ (h : H256) v, get t h.bytes = some v → ∃ x, v = abi.enc x ∧ abi.hash x = h

theorem goodHeaders_rest {t t' : Trie} (h : GoodHeaders abi t) (hr : SameRest t t') :
    GoodHeaders abi t' := by
  intro k v hv
  rw [hr k.bytes (hash_not_cell rfl)] at hv
  exact h k v hv

theorem update_rest {t t' : Trie} (h : Good t) {bs : List BlockUpdate} (hf : FitsBlocks bs)
    (hu : update t bs = .ok t') : Good t' ∧ SameRest t t' := by
  obtain ⟨t2, h1, h2, h3, -⟩ := update_spec h bs hf
  rw [h1] at hu
  simp only [Outcome.ok.injEq] at hu
  exact hu ▸ ⟨h2, h3⟩

theorem rollback_rest {t t' : Trie} (h : Good t) {bs : List BlockRollback}
    (hu : rollback t bs = .ok t') : Good t' ∧ SameRest t t' := by
  by_cases hc : (backOuts bs).Nodup ∧ ∀ o ∈ backOuts bs, (view t o).isSome
  · obtain ⟨t2, h1, h2, h3, -⟩ := (rollback_spec h bs).1 hc
    rw [h1] at hu
    simp only [Outcome.ok.injEq] at hu
    exact hu ▸ ⟨h2, h3⟩
  · rw [(rollback_spec h bs).2 hc] at hu; cases hu

theorem saveHeaders_snoc (t : Trie) (hs : List abi.Header) (x : abi.Header) :
    saveHeaders abi t (hs ++ [x]) = put (saveHeaders abi t hs) (abi.hash x).bytes (abi.enc x) := by
  simp [saveHeaders, List.foldl_append]

theorem good_put_hash {t : Trie} (h : Good t) (k : H256) (v : Bytes) : Good (put t k.bytes v) := by
  intro o w hw
  rw [get_put, if_neg (fun hh => cellKey_ne_hash o k hh.symm)] at hw
  exact h o w hw

theorem good_del_hash {t : Trie} (h : Good t) (k : H256) : Good (del t k.bytes) := by
  intro o w hw
  rw [get_del, if_neg (fun hh => cellKey_ne_hash o k hh.symm)] at hw
  exact h o w hw

theorem bytes_inj {a b : H256} (h : a.bytes = b.bytes) : a = b := FixedBytes.ext' h

theorem saveHeaders_spec {t : Trie} (h : Good t) (hh : GoodHeaders abi t) (hs : List abi.Header) :
    Good (saveHeaders abi t hs) ∧ GoodHeaders abi (saveHeaders abi t hs) ∧
    (∀ k, (∀ x ∈ hs, k ≠ (abi.hash x).bytes) → get (saveHeaders abi t hs) k = get t k) := by
  induction hs using snoc_induction with
  | nil => exact ⟨h, hh, fun _ _ => rfl⟩
  | snoc hs x ih =>
    obtain ⟨i1, i2, i3⟩ := ih
    rw [saveHeaders_snoc]
    refine ⟨good_put_hash i1 _ _, ?_, ?_⟩
    · intro k v hv
      rw [get_put] at hv
      split at hv
      · rename_i hk
        simp only [Option.some.injEq] at hv
        exact ⟨x, hv.symm, bytes_inj hk.symm⟩
      · exact i2 k v hv
    · intro k hk
      rw [get_put, if_neg (hk x (by simp))]
      exact i3 k (fun y hy => hk y (by simp [hy]))

theorem removeHeaders_rest {t t' : Trie} (h : Good t) (hh : GoodHeaders abi t) {l : List H256}
    (hr : removeHeaders t l = .ok t') : Good t' ∧ GoodHeaders abi t' := by
  induction l generalizing t with
  | nil =>
    simp only [removeHeaders, Outcome.ok.injEq] at hr
    exact hr ▸ ⟨h, hh⟩
  | cons a l ih =>
    unfold removeHeaders at hr
    split at hr
    · apply ih (good_del_hash h a) ?_ hr
      intro k v hv
      rw [get_del] at hv
      split at hv
      · cases hv
      · exact hh k v hv
    · cases hr

theorem runTrie_rest {t t' : Trie} (h : Good t) (hh : GoodHeaders abi t) {c : Call abi}
    (hf : FitsCall abi (some c)) (hr : runTrie abi t c = .ok t') : Good t' ∧ GoodHeaders abi t' := by
  cases c with
  | update bs =>
    obtain ⟨g1, g2⟩ := update_rest h hf hr
    exact ⟨g1, goodHeaders_rest abi hh g2⟩
  | rollback bs =>
    obtain ⟨g1, g2⟩ := rollback_rest h hr
    exact ⟨g1, goodHeaders_rest abi hh g2⟩
  | saveHeaders hs =>
    simp only [runTrie, Outcome.ok.injEq] at hr
    obtain ⟨g1, g2, -⟩ := saveHeaders_spec abi h hh hs
    exact hr ▸ ⟨g1, g2⟩
  | removeHeaders hs => exact removeHeaders_rest abi h hh hr
  | setCellState b => simp only [runTrie, Outcome.ok.injEq] at hr; exact hr ▸ ⟨h, hh⟩
  | setHeaderState b => simp only [runTrie, Outcome.ok.injEq] at hr; exact hr ▸ ⟨h, hh⟩

/-- What holds in every reachable state. -/
structure Inv (s : Ctx) : Prop where
  good : Good s.current
  headers : GoodHeaders abi s.current
  light : s.lightRoot = s.current
  image : s.imageRoot = s.current

theorem exec_false {s s' : Ctx} {c : Option (Call abi)} (h : exec abi s c = .ok (s', false)) : s' = s := by
  unfold exec at h
  split at h
  · simp only [Outcome.ok.injEq, Prod.mk.injEq] at h; exact h.1.symm
  · split at h
    · simp at h
    · simp only [Outcome.ok.injEq, Prod.mk.injEq] at h; exact h.1.symm
    · cases h

theorem exec_true {s s' : Ctx} {c : Option (Call abi)} (h : exec abi s c = .ok (s', true)) :
    ∃ d t, c = some d ∧ runTrie abi s.current d = .ok t ∧ s'.current = t ∧ s'.lightRoot = t ∧
      s'.imageRoot = t := by
  unfold exec at h
  split at h
  · simp at h
  · rename_i d
    split at h
    · rename_i t ht
      simp only [Outcome.ok.injEq, Prod.mk.injEq, and_true] at h
      subst h
      exact ⟨d, t, rfl, ht, rfl, rfl, rfl⟩
    · simp at h
    · cases h

theorem inv_reach {s : Ctx} (h : Reach abi s) : Inv abi s := by
  induction h with
  | init a b =>
    exact ⟨good_nil, fun k v hv => by simp [get_nil] at hv, rfl, rfl⟩
  | load hs ih =>
    rename_i s
    have e : load s = s := by
      have := ih.light
      obtain ⟨a, b, c, d, e⟩ := s
      simp only at this
      subst this
      rfl
    rw [e]; exact ih
  | call hs hf hx ih =>
    rename_i s s' c ok
    cases ok with
    | false => rw [exec_false abi hx]; exact ih
    | true =>
      obtain ⟨d, t, rfl, ht, h1, h2, h3⟩ := exec_true abi hx
      obtain ⟨g1, g2⟩ := runTrie_rest abi ih.good ih.headers hf ht
      exact ⟨h1 ▸ g1, h1 ▸ g2, by rw [h2, h1], by rw [h3, h1]⟩

/-- C40: a failing call of either contract changes nothing. -/
theorem C40_atomic {s s' : Ctx} {c : Option (Call abi)} (h : exec abi s c = .ok (s', false)) : s' = s :=
  exec_false abi h

/-- C40: in every reachable state all stored cells are readable, so an image cell call fails only if it is a
rollback that removes an unknown cell (or the same cell twice), and never aborts. -/
theorem C40_total {s : Ctx} (h : Reach abi s) (c : Option (Call abi)) (hf : FitsCall abi c) :
    exec abi s c ≠ .panic ∧ exec abi s c ≠ .err ∧
    (∀ bs, c = some (.update bs) → ∃ s', exec abi s c = .ok (s', true)) ∧
    (∀ bs, c = some (.rollback bs) → ((∃ s', exec abi s c = .ok (s', true)) ↔
      (backOuts bs).Nodup ∧ ∀ o ∈ backOuts bs, ∃ c, getCell s.current o = .ok (some c))) := by
  have hi := inv_reach abi h
  have hne : ∀ d, c = some d → runTrie abi s.current d ≠ .panic := by
    intro d hd
    subst hd
    cases d with
    | update bs =>
      obtain ⟨t', h1, -⟩ := update_spec hi.good bs hf
      simp [runTrie, h1]
    | rollback bs =>
      simp only [runTrie]
      by_cases hc : (backOuts bs).Nodup ∧ ∀ o ∈ backOuts bs, (view s.current o).isSome
      · obtain ⟨t', h1, -⟩ := (rollback_spec hi.good bs).1 hc
        simp [h1]
      · simp [(rollback_spec hi.good bs).2 hc]
    | saveHeaders hs => simp [runTrie]
    | removeHeaders hs =>
      simp only [runTrie]
      generalize s.current = t
      induction hs generalizing t with
      | nil => simp [removeHeaders]
      | cons a l ih =>
        unfold removeHeaders
        split
        · exact ih trivial _
        · simp
    | setCellState b => simp [runTrie]
    | setHeaderState b => simp [runTrie]
  refine ⟨?_, ?_, ?_, ?_⟩
  · unfold exec
    split
    · simp
    · rename_i d
      split
      · simp
      · simp
      · rename_i hp; exact absurd hp (hne d rfl)
  · unfold exec
    split
    · simp
    · split <;> simp
  · intro bs hc
    subst hc
    obtain ⟨t', h1, -⟩ := update_spec hi.good bs hf
    refine ⟨updateStates { s with current := t' }, ?_⟩
    simp [exec, runTrie, h1, runFlags]
  · intro bs hc
    subst hc
    rw [← (C40_rollback hi.good bs).1]
    constructor
    · rintro ⟨s', hs⟩
      obtain ⟨d, t, hd, ht, -⟩ := exec_true abi hs
      simp only [Option.some.injEq] at hd
      subst hd
      exact ⟨t, ht⟩
    · rintro ⟨t', ht⟩
      refine ⟨updateStates { s with current := t' }, ?_⟩
      simp [exec, runTrie, ht, runFlags]

/-! ## Witnesses -/

def hashOf (b : UInt8) : H256 := ⟨List.replicate 31 0 ++ [b], by simp⟩
def op (b : UInt8) : OutPoint := ⟨hashOf b, ⟨1, by decide⟩⟩
def num (n : Nat) (h : n < 2 ^ 64 := by decide) : U64 := ⟨n, h⟩
def lockScript : Script := ⟨hashOf 7, 1, [1, 2, 3]⟩
def newCell (b : UInt8) : NewCell := ⟨op b, ⟨num 100, lockScript, []⟩, [9, 9]⟩

/-- Block 1 creates cells 1 and 2, block 2 consumes cell 1 and creates cell 3. -/
def blocks12 : List BlockUpdate :=
  [⟨num 1, [], [newCell 1, newCell 2]⟩, ⟨num 2, [op 1], [newCell 3]⟩]

/-- Their rollback, latest block first. -/
def back12 : List BlockRollback := [⟨[op 1], [op 3]⟩, ⟨[], [op 1, op 2]⟩]

def trie4 : Trie := saveCells [] [newCell 4] (num 1)

theorem good_trie4 : Good trie4 := (saveCells_spec good_nil [newCell 4] (num 1)
  (fun c hc => ⟨⟨c.output, rfl⟩, by
    rw [List.mem_singleton] at hc; subst hc; decide +kernel⟩)).1

/-- The hypotheses of `C40_inverse_partial` hold for these blocks on top of a store with another cell; the
update changes the store. -/
example : (∃ t' t'', update trie4 blocks12 = .ok t' ∧ rollback t' back12 = .ok t'' ∧
      ∀ k, get t'' k = get trie4 k) ∧
    update trie4 blocks12 ≠ .ok trie4 :=
  ⟨C40_inverse_partial good_trie4 blocks12 (by unfold FitsBlocks; decide +kernel) back12 (by decide +kernel) (by
      intro o; simp [backIns, back12, insOf, blocks12]) (by decide +kernel) (by decide +kernel)
      (by
        intro o ho c hc
        simp only [insOf, blocks12, List.flatMap_cons, List.flatMap_nil, List.append_nil, List.nil_append,
          List.mem_singleton] at ho
        subst ho
        have : getCell trie4 (op 1) = .ok none := by decide +kernel
        rw [this] at hc; simp at hc),
    by decide +kernel⟩

/-- Removing an unknown cell fails. -/
example : rollback trie4 [⟨[], [op 5]⟩] = .err := by decide +kernel

def trieSpent : Trie := match update [] [⟨num 1, [], [newCell 1]⟩, ⟨num 5, [op 1], []⟩] with
  | .ok t => t
  | _ => []

/-- Without the condition on the inputs C40 is false: a block names an input already consumed at block 5;
after updating and rolling back the cell is unconsumed. -/
theorem C40_spent_false : ∃ t' t'' c c', update trieSpent [⟨num 7, [op 1], []⟩] = .ok t' ∧
    rollback t' [⟨[op 1], []⟩] = .ok t'' ∧
    getCell trieSpent (op 1) = .ok (some c) ∧ c.consumed = some (num 5) ∧
    getCell t'' (op 1) = .ok (some c') ∧ c'.consumed = none := by
  refine ⟨insertCell trieSpent (op 1) { newInfo (newCell 1) (num 1) with consumed := some (num 7) },
    insertCell (insertCell trieSpent (op 1) { newInfo (newCell 1) (num 1) with consumed := some (num 7) })
      (op 1) (newInfo (newCell 1) (num 1)),
    { newInfo (newCell 1) (num 1) with consumed := some (num 5) }, newInfo (newCell 1) (num 1), ?_⟩
  decide +kernel

/-- Without freshness C40 is false: a block creates a cell that exists already; the rollback removes it. -/
theorem C40_overwrite_false : ∃ t' t'' c, update trieSpent [⟨num 7, [], [newCell 1]⟩] = .ok t' ∧
    rollback t' [⟨[], [op 1]⟩] = .ok t'' ∧
    getCell trieSpent (op 1) = .ok (some c) ∧ getCell t'' (op 1) = .ok none := by
  refine ⟨insertCell trieSpent (op 1) (newInfo (newCell 1) (num 7)),
    del (insertCell trieSpent (op 1) (newInfo (newCell 1) (num 7))) (cellKey (op 1)),
    { newInfo (newCell 1) (num 1) with consumed := some (num 5) }, ?_⟩
  decide +kernel

end Axon.Cells
