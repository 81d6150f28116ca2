import Verif.Storage.Adapter

/-!
# Lemmas about the adapters
-/

namespace Axon.Adapter
open Axon.Assoc Axon.Rlp Axon.Storage

/-! ## One column for all -/

/-- The contents of a database, by category and key. -/
abbrev Raw := Cat → Bytes → Option Bytes

/-- Changes one key of one category. -/
def Raw.set (r : Raw) (c : Cat) (k : Bytes) (v : Option Bytes) : Raw :=
  fun c' k' => if c' = c ∧ k' = k then v else r c' k'

def Raw.sets (r : Raw) (c : Cat) (l : List (Bytes × Option Bytes)) : Raw :=
  l.foldl (fun r p => r.set c p.1 p.2) r

/-- The calls on contents. -/
def Raw.step {ρ : Type} (c : Ctx ρ) (r : Raw) : Op ρ → Raw × Outcome (Reply ρ)
  | .insert t k v =>
    match encodeValue c v with
    | .ok b => (r.set t.cat (encodeKey k) (some b), .ok .done)
    | .err => (r, .err)
    | .panic => (r, .panic)
  | .get t k => (r, decodeFound c t (r t.cat (encodeKey k)))
  | .remove t k => (r.set t.cat (encodeKey k) none, .ok .done)
  | .contains t k => (r, .ok (.flag (r t.cat (encodeKey k)).isSome))
  | .batch t ks vs =>
    if ks.length ≠ vs.length then (r, .err)
    else
      match encodePairs c (ks.zip vs) with
      | .ok ps => (r.sets t.cat ps, .ok .done)
      | .err => (r, .err)
      | .panic => (r, .panic)

theorem columnName_inj {a b : Cat} (h : columnName a = columnName b) : a = b := by
  cases a <;> cases b <;> first | rfl | (exfalso; revert h; decide)

theorem categoryName_inj {a b : Cat} (h : categoryName a = categoryName b) : a = b := by
  cases a <;> cases b <;> first | rfl | (exfalso; revert h; decide)

/-- Keys of a column are distinct. -/
def Distinct (c : Col) : Prop := (c.map (·.1)).Nodup

theorem distinct_del {c : Col} (h : Distinct c) (k : Bytes) : Distinct (del c k) := by
  unfold Distinct del at *
  exact (List.filter_sublist.map _).nodup h

theorem distinct_set {c : Col} (h : Distinct c) (k : Bytes) (v : Option Bytes) : Distinct (c.set k v) := by
  cases v with
  | none => exact distinct_del h k
  | some v =>
    have := distinct_del h k
    unfold Distinct del at this
    unfold Col.set Distinct put
    rw [List.map_cons, List.nodup_cons]
    refine ⟨?_, this⟩
    intro hm
    obtain ⟨p, hp, he⟩ := List.mem_map.1 hm
    have := (List.mem_filter.1 hp).2
    simp only [decide_eq_true_eq] at this
    exact this he

theorem distinct_sets {c : Col} (h : Distinct c) (l : List (Bytes × Option Bytes)) : Distinct (c.sets l) := by
  induction l generalizing c with
  | nil => exact h
  | cons p l ih => exact ih (distinct_set h p.1 p.2)

theorem get_set (c : Col) (k k' : Bytes) (v : Option Bytes) :
    get (c.set k v) k' = if k' = k then v else get c k' := by
  cases v with
  | none => exact get_del c k k'
  | some v => exact get_put c k k' v

theorem get_sets {c : Col} {r : Raw} {cat : Cat} (h : ∀ k, get c k = r cat k)
    (l : List (Bytes × Option Bytes)) (k : Bytes) : get (c.sets l) k = r.sets cat l cat k := by
  induction l generalizing c r with
  | nil => exact h k
  | cons p l ih =>
    refine ih (c := c.set p.1 p.2) (r := r.set cat p.1 p.2) ?_
    intro k'
    rw [get_set, Raw.set, h]
    simp

theorem sets_other (r : Raw) (cat : Cat) (l : List (Bytes × Option Bytes)) {c : Cat} (hc : c ≠ cat)
    (k : Bytes) : r.sets cat l c k = r c k := by
  induction l generalizing r with
  | nil => rfl
  | cons p l ih =>
    refine (ih (r.set cat p.1 p.2)).trans ?_
    simp [Raw.set, hc]

/-- A RocksDB database has these contents. -/
def Rocks.Holds (d : Disk) (r : Raw) : Prop :=
  ∀ cat, ∃ col, get d (columnName cat) = some col ∧ Distinct col ∧ ∀ k, get col k = r cat k

/-- A memory database has these contents. -/
def Memory.Holds (d : Disk) (r : Raw) : Prop :=
  ∀ cat k, get ((get d (categoryName cat)).getD []) k = r cat k

theorem Rocks.holds_fresh : Rocks.Holds Rocks.fresh (fun _ _ => none) := by
  intro cat
  refine ⟨[], ?_, by simp [Distinct], fun k => rfl⟩
  cases cat <;> rfl

theorem Memory.holds_fresh : Memory.Holds Memory.fresh (fun _ _ => none) := by
  intro cat k; rfl

theorem Rocks.holds_put {d : Disk} {r r' : Raw} (h : Rocks.Holds d r) (cat : Cat) {col : Col}
    (hd : Distinct col) (hc : ∀ k, get col k = r' cat k) (ho : ∀ c, c ≠ cat → ∀ k, r' c k = r c k) :
    Rocks.Holds (put d (columnName cat) col) r' := by
  intro c
  by_cases e : c = cat
  · subst e
    exact ⟨col, by rw [get_put]; simp, hd, hc⟩
  · obtain ⟨col', h1, h2, h3⟩ := h c
    refine ⟨col', ?_, h2, fun k => by rw [h3, ho c e]⟩
    rw [get_put, if_neg (fun he => e (columnName_inj he))]
    exact h1

theorem Memory.holds_put {d : Disk} {r r' : Raw} (h : Memory.Holds d r) (cat : Cat) {col : Col}
    (hc : ∀ k, get col k = r' cat k) (ho : ∀ c, c ≠ cat → ∀ k, r' c k = r c k) :
    Memory.Holds (put d (categoryName cat) col) r' := by
  intro c k
  rw [get_put]
  by_cases e : c = cat
  · subst e; simp [hc]
  · rw [if_neg (fun he => e (categoryName_inj he)), h, ho c e]

theorem set_other (r : Raw) (cat : Cat) (k : Bytes) (v : Option Bytes) : ∀ c, c ≠ cat → ∀ k',
    r.set cat k v c k' = r c k' := by
  intro c hc k'
  simp [Raw.set, hc]

theorem set_same {c : Col} {r : Raw} {cat : Cat} (h : ∀ k, get c k = r cat k) (k : Bytes)
    (v : Option Bytes) (k' : Bytes) : get (c.set k v) k' = r.set cat k v cat k' := by
  rw [get_set, h]; simp [Raw.set]

theorem Rocks.step_holds {ρ : Type} (c : Ctx ρ) {d : Disk} {r : Raw} (h : Rocks.Holds d r) (op : Op ρ) :
    Rocks.Holds (Rocks.step c d op).1 (Raw.step c r op).1 ∧ (Rocks.step c d op).2 = (Raw.step c r op).2 := by
  cases op with
  | insert t k v =>
    obtain ⟨col, h1, h2, h3⟩ := h t.cat
    simp only [Rocks.step, Raw.step, h1]
    cases encodeValue c v with
    | ok b => exact ⟨Rocks.holds_put h _ (distinct_set h2 _ _) (set_same h3 _ _) (set_other _ _ _ _), rfl⟩
    | err => exact ⟨h, rfl⟩
    | panic => exact ⟨h, rfl⟩
  | get t k =>
    obtain ⟨col, h1, h2, h3⟩ := h t.cat
    simp only [Rocks.step, Raw.step, h1, h3]
    exact ⟨h, trivial⟩
  | remove t k =>
    obtain ⟨col, h1, h2, h3⟩ := h t.cat
    simp only [Rocks.step, Raw.step, h1]
    exact ⟨Rocks.holds_put h _ (distinct_set h2 _ _) (set_same h3 _ _) (set_other _ _ _ _), trivial⟩
  | contains t k =>
    obtain ⟨col, h1, h2, h3⟩ := h t.cat
    simp only [Rocks.step, Raw.step, h1, h3]
    exact ⟨h, trivial⟩
  | batch t ks vs =>
    obtain ⟨col, h1, h2, h3⟩ := h t.cat
    simp only [Rocks.step, Raw.step, h1]
    by_cases hl : ks.length = vs.length
    · simp only [hl, ne_eq, not_true_eq_false, if_false]
      cases encodePairs c (ks.zip vs) with
      | ok ps =>
        exact ⟨Rocks.holds_put h _ (distinct_sets h2 _) (get_sets h3 _)
          (fun c hc k => sets_other _ _ _ hc k), rfl⟩
      | err => exact ⟨h, rfl⟩
      | panic => exact ⟨h, rfl⟩
    · simp only [ne_eq, hl, not_false_eq_true, if_true]
      exact ⟨h, trivial⟩

theorem Memory.step_holds {ρ : Type} (c : Ctx ρ) {d : Disk} {r : Raw} (h : Memory.Holds d r) (op : Op ρ) :
    Memory.Holds (Memory.step c d op).1 (Raw.step c r op).1 ∧ (Memory.step c d op).2 = (Raw.step c r op).2 := by
  have hc : ∀ (t : Table) k, get (Memory.column d t) k = r t.cat k := fun t k => h t.cat k
  cases op with
  | insert t k v =>
    simp only [Memory.step, Raw.step]
    cases encodeValue c v with
    | ok b => exact ⟨Memory.holds_put h _ (set_same (hc t) _ _) (set_other _ _ _ _), rfl⟩
    | err => exact ⟨h, rfl⟩
    | panic => exact ⟨h, rfl⟩
  | get t k =>
    simp only [Memory.step, Raw.step, hc]
    exact ⟨Memory.holds_put h _ (hc t) (fun _ _ _ => rfl), trivial⟩
  | remove t k =>
    simp only [Memory.step, Raw.step]
    exact ⟨Memory.holds_put h _ (set_same (hc t) _ _) (set_other _ _ _ _), trivial⟩
  | contains t k =>
    simp only [Memory.step, Raw.step, hc]
    exact ⟨Memory.holds_put h _ (hc t) (fun _ _ _ => rfl), trivial⟩
  | batch t ks vs =>
    simp only [Memory.step, Raw.step]
    by_cases hl : ks.length = vs.length
    · simp only [hl, ne_eq, not_true_eq_false, if_false]
      cases encodePairs c (ks.zip vs) with
      | ok ps => exact ⟨Memory.holds_put h _ (get_sets (hc t) _) (fun c hc k => sets_other _ _ _ hc k), rfl⟩
      | err => exact ⟨h, rfl⟩
      | panic => exact ⟨h, rfl⟩
    · simp only [ne_eq, hl, not_false_eq_true, if_true]
      exact ⟨h, trivial⟩

/-- A simulation gives equal replies. -/
theorem replies_eq {ρ σ τ : Type} {f : σ → Op ρ → σ × Outcome (Reply ρ)} {g : τ → Op ρ → τ × Outcome (Reply ρ)}
    (R : σ → τ → Prop) (P : Op ρ → Prop)
    (hs : ∀ a b op, R a b → P op → R (f a op).1 (g b op).1 ∧ (f a op).2 = (g b op).2)
    {a : σ} {b : τ} (hr : R a b) (ops : List (Op ρ)) (hp : ∀ op ∈ ops, P op) :
    replies f a ops = replies g b ops ∧ R (after f a ops) (after g b ops) := by
  induction ops generalizing a b with
  | nil => exact ⟨rfl, hr⟩
  | cons op ops ih =>
    obtain ⟨h1, h2⟩ := hs a b op hr (hp op (by simp))
    obtain ⟨h3, h4⟩ := ih h1 (fun o ho => hp o (by simp [ho]))
    exact ⟨by simp only [replies, h2, h3], h4⟩

/-! ## Keys -/

theorem encStr_length (b : Bytes) : b.length ≤ (encode (.str b)).length := by
  unfold encode encStr
  repeat' split
  all_goals simp
  all_goals omega

theorem hash_key_length (h : H256) : (encode (ofFixed h)).length = 33 := by
  have hl := h.len
  unfold ofFixed encode encStr
  repeat' split
  all_goals simp_all

theorem hash_key_inj {h h' : H256} (e : encode (ofFixed h) = encode (ofFixed h')) : h = h' := by
  have h1 := decode_encode_item (ofFixed h) (by rw [hash_key_length]; decide)
  have h2 := decode_encode_item (ofFixed h') (by rw [hash_key_length]; decide)
  rw [e, h2] at h1
  have := congrArg (fun o => o.bind (toFixed 32)) h1
  simpa using this.symm

theorem both_key_length (n : U64) (h : H256) : (hashKey n.val h).length = 40 := by
  unfold hashKey; rw [List.length_append, blockKey_length, h.len]

/-- Keys with equal bytes are equal. -/
theorem key_inj {k k' : Key} (e : encodeKey k = encodeKey k') : k = k' := by
  have u64 : ∀ {a b : U64}, a.val = b.val → a = b := by
    intro a b h; cases a; cases b; cases h; rfl
  have hl := congrArg List.length e
  cases k with
  | number n =>
    cases k' with
    | number m => rw [u64 (C09_block_key_injective n.val m.val n.lt m.lt e)]
    | both m h => simp only [encodeKey, blockKey_length, both_key_length] at hl; omega
    | hash h => simp only [encodeKey, blockKey_length, hash_key_length] at hl; omega
  | both n h =>
    cases k' with
    | number m => simp only [encodeKey, blockKey_length, both_key_length] at hl; omega
    | both m h' =>
      obtain ⟨e1, e2⟩ := C09_hash_key_injective n.val m.val h h' n.lt m.lt e
      rw [u64 e1, e2]
    | hash h' => simp only [encodeKey, both_key_length, hash_key_length] at hl; omega
  | hash h =>
    cases k' with
    | number m => simp only [encodeKey, blockKey_length, hash_key_length] at hl; omega
    | both m h' => simp only [encodeKey, both_key_length, hash_key_length] at hl; omega
    | hash h' => rw [hash_key_inj e]

end Axon.Adapter
