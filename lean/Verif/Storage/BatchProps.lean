import Verif.Storage.Batch

/-!
# C54: batch reads answer in request order with the stored values
-/

namespace Axon.Storage

/-- C54: with the RocksDB adapter, for any request list, position `i` of the answer is the stored
value of hash `i`, or nothing if the same hash was already requested at an earlier position; the
answer has one entry per request. -/
theorem C54_rocks_answers {V : Type} (col : Nat → H256 → Option V) (height : Nat)
    (hh : height < 2 ^ 64) (hashes : List H256) (rows : List (Row V))
    (hr : RocksRows col height rows) :
    (getBatch height hashes rows).length = hashes.length ∧
    ∀ i (hi : i < hashes.length), (getBatch height hashes rows)[i]? =
      some (if hashes[i] ∈ hashes.take i then none else col height hashes[i]) := by
  refine ⟨takeAll_length _ _, fun i hi => ?_⟩
  have hkeys : rows.Pairwise fun a b => a.key ≠ b.key :=
    hr.sorted.imp (fun {a b} (h : byteLt a.key b.key) (e : a.key = b.key) =>
      byteLt_irrefl b.key (by rw [e] at h; exact h))
  have hord : rows.Pairwise fun a b => a.height ≠ height → b.height ≠ height := by
    have := List.Pairwise.and_mem.1 hr.sorted
    refine this.imp ?_
    rintro a b ⟨ha, hb, hlt⟩ hne he
    have ha' := hr.sound a ha
    have hb' := hr.sound b hb
    have hle : height ≤ a.height := (hashKey_not_lt_prefix a.hash ha'.1 hh).1 ha'.2.2
    have : b.height < a.height := by omega
    exact byteLt_irrefl _ (byteLt_trans _ _ _ hlt
      (C09_order b.height a.height b.hash a.hash hb'.1 ha'.1 this).1)
  have hnd := wanted_keys_nodup height hashes rows hkeys
  have hscan : scan height hashes hashes.length rows = wanted height hashes rows := by
    rw [scan_eq height hashes rows _ hord, List.take_of_length_le]
    have : (wanted height hashes rows).length = ((wanted height hashes rows).map (·.1)).length := by
      simp
    rw [this]
    apply nodup_length_le _ _ hnd
    intro x hx
    obtain ⟨p, hp, rfl⟩ := List.mem_map.1 hx
    obtain ⟨r, hr', rfl⟩ := List.mem_map.1 hp
    have := (List.mem_filter.1 hr').2
    simp only [decide_eq_true_eq] at this
    exact this.2
  unfold getBatch
  rw [hscan, takeAll_eq _ _ i hi]
  congr 1
  split
  · rfl
  · cases hc : col height hashes[i] with
    | some v =>
      apply lookup_of_nodup hnd
      refine List.mem_map.2 ⟨⟨height, hashes[i], v⟩, List.mem_filter.2 ⟨?_, by simp⟩, rfl⟩
      exact hr.complete height _ v hh hc ((hashKey_not_lt_prefix _ hh hh).2 (Nat.le_refl _))
    | none =>
      apply lookup_none
      intro v hv
      obtain ⟨r, hr', he⟩ := List.mem_map.1 hv
      obtain ⟨hr1, hr2⟩ := List.mem_filter.1 hr'
      simp only [decide_eq_true_eq] at hr2
      simp only [Prod.mk.injEq] at he
      have := (hr.sound r hr1).2.1
      rw [hr2.1, he.1, hc] at this
      simp at this

/-- C54 for requests without duplicates: the answer is the stored values in request order.  Full
statement: the same for every request list and every adapter; see `C54_duplicates_false` and
`C54_memory_false`. -/
theorem C54_rocks_partial {V : Type} (col : Nat → H256 → Option V) (height : Nat)
    (hh : height < 2 ^ 64) (hashes : List H256) (hd : hashes.Nodup) (rows : List (Row V))
    (hr : RocksRows col height rows) : getBatch height hashes rows = hashes.map (col height) := by
  have ⟨h1, h2⟩ := C54_rocks_answers col height hh hashes rows hr
  apply List.ext_getElem?
  intro i
  by_cases hi : i < hashes.length
  · rw [h2 i hi, List.getElem?_map, List.getElem?_eq_getElem hi, if_neg]
    · rfl
    · intro hm
      obtain ⟨j, hj, he⟩ := List.mem_iff_getElem.1 hm
      rw [List.length_take] at hj
      rw [List.getElem_take] at he
      have := (List.getElem_inj hd).1 he
      omega
  · rw [List.getElem?_eq_none (by omega), List.getElem?_eq_none (by simpa using hi)]

/-- C54 is false for repeated hashes: the second occurrence is answered with nothing although the
value is stored. -/
theorem C54_duplicates_false {V : Type} (col : Nat → H256 → Option V) (height : Nat)
    (hh : height < 2 ^ 64) (h : H256) (v : V) (hv : col height h = some v) (rows : List (Row V))
    (hr : RocksRows col height rows) : getBatch height [h, h] rows = [some v, none] := by
  have ⟨h1, h2⟩ := C54_rocks_answers col height hh [h, h] rows hr
  have e0 := h2 0 (by simp)
  have e1 := h2 1 (by simp)
  simp at e0 e1
  apply List.ext_getElem?
  intro i
  match i with
  | 0 => rw [e0, hv]; rfl
  | 1 => rw [e1]; rfl
  | i + 2 => rw [List.getElem?_eq_none (by simp at h1; omega), List.getElem?_eq_none (by simp)]

/-- Two rows of different heights. -/
def rowA : Row Nat := ⟨1, ⟨List.replicate 32 1, rfl⟩, 10⟩
def rowB : Row Nat := ⟨2, ⟨List.replicate 32 2, rfl⟩, 20⟩
def twoRows (n : Nat) (h : H256) : Option Nat :=
  if n = 1 ∧ h = rowA.hash then some 10 else if n = 2 ∧ h = rowB.hash then some 20 else none

theorem twoRows_mem (n : Nat) (h : H256) (v : Nat) (hv : twoRows n h = some v) :
    (⟨n, h, v⟩ : Row Nat) = rowA ∨ (⟨n, h, v⟩ : Row Nat) = rowB := by
  unfold twoRows at hv
  split at hv
  · rename_i e; obtain ⟨rfl, rfl⟩ := e; simp at hv; subst hv; left; rfl
  · split at hv
    · rename_i e; obtain ⟨rfl, rfl⟩ := e; simp at hv; subst hv; right; rfl
    · simp at hv

/-- C54 is false for the memory adapter: there is an iteration order for which a stored value is
reported as missing. -/
theorem C54_memory_false : ∃ (col : Nat → H256 → Option Nat) (rows : List (Row Nat)) (h : H256),
    MemoryRows col rows ∧ col 1 h = some 10 ∧ getBatch 1 [h] rows = [none] := by
  refine ⟨twoRows, [rowB, rowA], rowA.hash, ⟨?_, ?_, ?_⟩, by decide, by decide⟩
  · intro r hr
    simp at hr
    rcases hr with rfl | rfl <;> decide
  · intro n h v _ hv
    rcases twoRows_mem n h v hv with e | e <;> rw [e] <;> simp
  · simp; decide

/-- The hypotheses of `C54_rocks_answers` on a column with two blocks. -/
example : RocksRows twoRows 1 [rowA, rowB] ∧ getBatch 1 [rowB.hash, rowA.hash] [rowA, rowB] =
    [none, some 10] := by
  refine ⟨⟨?_, ?_, ?_⟩, by decide⟩
  · intro r hr
    simp at hr
    rcases hr with rfl | rfl <;> refine ⟨by decide, by decide, by decide⟩
  · intro n h v _ hv _
    rcases twoRows_mem n h v hv with e | e <;> rw [e] <;> simp
  · simp; decide

end Axon.Storage
