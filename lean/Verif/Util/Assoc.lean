/-!
# Finite maps as association lists

`Map.get/put/del` model `HashMap`/`DashMap`/`BTreeMap` operations; `sput` keeps the keys sorted
(`BTreeMap` iteration order).
-/

namespace Axon.Assoc

variable {κ α : Type} [DecidableEq κ]

/-- Lookup. -/
def get (m : List (κ × α)) (k : κ) : Option α := (m.find? (fun e => e.1 = k)).map (·.2)

/-- Insert or overwrite. -/
def put (m : List (κ × α)) (k : κ) (v : α) : List (κ × α) := (k, v) :: m.filter (fun e => e.1 ≠ k)

/-- Remove. -/
def del (m : List (κ × α)) (k : κ) : List (κ × α) := m.filter (fun e => e.1 ≠ k)

theorem get_nil (k : κ) : get ([] : List (κ × α)) k = none := rfl

theorem get_cons (e : κ × α) (m : List (κ × α)) (k : κ) :
    get (e :: m) k = if e.1 = k then some e.2 else get m k := by
  unfold get
  by_cases h : e.1 = k <;> simp [h]

theorem get_del (m : List (κ × α)) (k k' : κ) :
    get (del m k) k' = if k' = k then none else get m k' := by
  induction m with
  | nil => simp [del, get_nil]
  | cons e m ih =>
    unfold del at ih ⊢
    by_cases h : e.1 = k
    · rw [List.filter_cons_of_neg (by simp [h]), ih, get_cons]
      by_cases h' : k' = k
      · simp [h']
      · have : e.1 ≠ k' := fun hh => h' (hh ▸ h)
        simp [h', this]
    · rw [List.filter_cons_of_pos (by simp [h]), get_cons, ih, get_cons]
      by_cases h' : k' = k
      · have : e.1 ≠ k' := fun hh => h (hh.trans h')
        simp [h']
        intro hh; exact absurd hh h
      · simp [h']

theorem get_put (m : List (κ × α)) (k k' : κ) (v : α) :
    get (put m k v) k' = if k' = k then some v else get m k' := by
  have := get_del m k k'
  unfold del at this
  unfold put
  rw [get_cons, this]
  by_cases h : k' = k
  · simp [h]
  · have : k ≠ k' := fun hh => h hh.symm
    simp [h, this]

theorem mem_of_get {m : List (κ × α)} {k : κ} {v : α} (h : get m k = some v) : (k, v) ∈ m := by
  induction m with
  | nil => simp [get_nil] at h
  | cons e m ih =>
    rw [get_cons] at h
    by_cases hk : e.1 = k
    · simp [hk] at h; subst hk; subst h; simp
    · simp [hk] at h; exact List.mem_cons_of_mem _ (ih h)

theorem get_isSome_iff {m : List (κ × α)} {k : κ} : (get m k).isSome ↔ ∃ v, (k, v) ∈ m := by
  constructor
  · intro h
    obtain ⟨v, hv⟩ := Option.isSome_iff_exists.1 h
    exact ⟨v, mem_of_get hv⟩
  · rintro ⟨v, hv⟩
    induction m with
    | nil => simp at hv
    | cons e m ih =>
      rw [get_cons]
      by_cases hk : e.1 = k
      · simp [hk]
      · simp only [hk, if_false]
        apply ih
        rcases List.mem_cons.1 hv with h | h
        · exact absurd (by rw [← h]) hk
        · exact h

/-- Keys occur once. -/
def NodupKeys (m : List (κ × α)) : Prop := m.Pairwise (fun a b => a.1 ≠ b.1)

theorem get_of_mem {m : List (κ × α)} (hn : NodupKeys m) {k : κ} {v : α} (h : (k, v) ∈ m) :
    get m k = some v := by
  induction m with
  | nil => simp at h
  | cons e m ih =>
    have hn' := List.pairwise_cons.1 hn
    rw [get_cons]
    rcases List.mem_cons.1 h with h | h
    · subst h; simp
    · have : e.1 ≠ k := hn'.1 _ h
      simp [this, ih hn'.2 h]

theorem nodupKeys_del {m : List (κ × α)} (hn : NodupKeys m) (k : κ) : NodupKeys (del m k) :=
  List.Pairwise.filter _ hn

theorem nodupKeys_put {m : List (κ × α)} (hn : NodupKeys m) (k : κ) (v : α) :
    NodupKeys (put m k v) := by
  refine List.pairwise_cons.2 ⟨?_, List.Pairwise.filter _ hn⟩
  intro e he
  have := (List.mem_filter.1 he).2
  simp at this
  exact fun h => this h.symm

/-! ## Sorted maps with natural-number keys -/

/-- Strictly increasing keys. -/
def Sorted (m : List (Nat × α)) : Prop := m.Pairwise (fun a b => a.1 < b.1)

/-- `BTreeMap::insert`. -/
def sput (k : Nat) (v : α) : List (Nat × α) → List (Nat × α)
  | [] => [(k, v)]
  | e :: m => if k < e.1 then (k, v) :: e :: m
    else if k = e.1 then (k, v) :: m
    else e :: sput k v m

theorem mem_sput {k : Nat} {v : α} {m : List (Nat × α)} (hs : Sorted m) (e : Nat × α) :
    e ∈ sput k v m ↔ e = (k, v) ∨ (e ∈ m ∧ e.1 ≠ k) := by
  induction m with
  | nil => simp [sput]
  | cons x m ih =>
    have hs' := List.pairwise_cons.1 hs
    unfold sput
    split
    · rename_i h
      constructor
      · intro he
        rcases List.mem_cons.1 he with he | he
        · exact .inl he
        · refine .inr ⟨he, ?_⟩
          rcases List.mem_cons.1 he with he | he
          · subst he; omega
          · have := hs'.1 _ he; omega
      · rintro (he | ⟨he, _⟩)
        · simp [he]
        · exact List.mem_cons_of_mem _ he
    · split
      · rename_i h1 h2
        constructor
        · intro he
          rcases List.mem_cons.1 he with he | he
          · exact .inl he
          · have := hs'.1 _ he
            exact .inr ⟨List.mem_cons_of_mem _ he, by omega⟩
        · rintro (he | ⟨he, hne⟩)
          · simp [he]
          · rcases List.mem_cons.1 he with he | he
            · subst he; omega
            · exact List.mem_cons_of_mem _ he
      · rename_i h1 h2
        constructor
        · intro he
          rcases List.mem_cons.1 he with he | he
          · subst he; exact .inr ⟨by simp, by omega⟩
          · rcases (ih hs'.2).1 he with he | ⟨he, hne⟩
            · exact .inl he
            · exact .inr ⟨List.mem_cons_of_mem _ he, hne⟩
        · rintro (he | ⟨he, hne⟩)
          · exact List.mem_cons_of_mem _ ((ih hs'.2).2 (.inl he))
          · rcases List.mem_cons.1 he with he | he
            · simp [he]
            · exact List.mem_cons_of_mem _ ((ih hs'.2).2 (.inr ⟨he, hne⟩))

theorem sorted_sput {k : Nat} {v : α} {m : List (Nat × α)} (hs : Sorted m) :
    Sorted (sput k v m) := by
  induction m with
  | nil => exact List.pairwise_cons.2 ⟨by simp, .nil⟩
  | cons x m ih =>
    have hs' := List.pairwise_cons.1 hs
    unfold sput
    split
    · rename_i h
      refine List.pairwise_cons.2 ⟨?_, hs⟩
      intro e he
      rcases List.mem_cons.1 he with he | he
      · subst he; exact h
      · have := hs'.1 _ he; simp only; omega
    · split
      · rename_i h1 h2
        refine List.pairwise_cons.2 ⟨?_, hs'.2⟩
        intro e he
        have := hs'.1 _ he; simp only; omega
      · rename_i h1 h2
        refine List.pairwise_cons.2 ⟨?_, ih hs'.2⟩
        intro e he
        rcases (mem_sput hs'.2 e).1 he with he | ⟨he, _⟩
        · subst he; simp only; omega
        · exact hs'.1 _ he

theorem Sorted.nodupKeys {m : List (Nat × α)} (hs : Sorted m) : NodupKeys m := by
  unfold Sorted at hs
  unfold NodupKeys
  refine hs.imp ?_
  intro a b h
  exact Nat.ne_of_lt h

theorem Sorted.unique {m : List (Nat × α)} (hs : Sorted m) {k : Nat} {v w : α}
    (h1 : (k, v) ∈ m) (h2 : (k, w) ∈ m) : v = w := by
  have a := get_of_mem hs.nodupKeys h1
  have b := get_of_mem hs.nodupKeys h2
  rw [a] at b; exact Option.some.inj b

theorem get_sput {k : Nat} {v : α} {m : List (Nat × α)} (hs : Sorted m) (k' : Nat) :
    get (sput k v m) k' = if k' = k then some v else get m k' := by
  by_cases h : k' = k
  · subst h
    simp only [if_true]
    exact get_of_mem (sorted_sput hs).nodupKeys ((mem_sput hs _).2 (.inl rfl))
  · simp only [h, if_false]
    cases hg : get m k' with
    | some w =>
      exact get_of_mem (sorted_sput hs).nodupKeys ((mem_sput hs _).2 (.inr ⟨mem_of_get hg, h⟩))
    | none =>
      cases hg' : get (sput k v m) k' with
      | none => rfl
      | some w =>
        rcases (mem_sput hs _).1 (mem_of_get hg') with he | ⟨he, _⟩
        · exact absurd (congrArg Prod.fst he) h
        · have := get_of_mem hs.nodupKeys he
          rw [hg] at this; cases this

end Axon.Assoc
