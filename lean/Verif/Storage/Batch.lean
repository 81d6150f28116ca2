import Verif.Storage.KeysProps

/-!
# Batch reads of one block's transactions or receipts

Model of `get_transactions` (`core/storage/src/lib.rs:245-324`) and `get_receipts`
(`lib.rs:387-466`), which share their code, and of the two adapters' iterators
(`core/db/src/rocks.rs:140-157`, `core/db/src/memory.rs:66-82`).  Values are already decoded
(simplification: decoding failures, which abort the call, are not modelled).
-/

namespace Axon.Storage

/-- One row met by an iterator: height and hash of its key, and its value. -/
structure Row (V : Type) where
  height : Nat
  hash : H256
  val : V

/-- The `while count > 0` loop, `lib.rs:271-289` and `lib.rs:414-432`. -/
def scan {V : Type} (height : Nat) (set : List H256) : Nat → List (Row V) → List (H256 × V)
  | 0, _ => []
  | _ + 1, [] => []
  | c + 1, r :: rest =>
    if r.height ≠ height then []
    else if r.hash ∈ set then (r.hash, r.val) :: scan height set c rest
    else scan height set (c + 1) rest

/-- Lookup in the `HashMap` collected from the found pairs (the last pair of a key wins). -/
def lookup {V : Type} (found : List (H256 × V)) (h : H256) : Option V :=
  (found.reverse.find? fun p => p.1 = h).map (·.2)

/-- `hashes.iter().map(|h| found.remove(h))`, `lib.rs:323,465`. -/
def takeAll {V : Type} : List H256 → List (H256 × V) → List (Option V)
  | [], _ => []
  | h :: hs, found => lookup found h :: takeAll hs (found.filter fun p => p.1 ≠ h)

/-- `get_transactions` / `get_receipts` given the rows the iterator yields. -/
def getBatch {V : Type} (height : Nat) (hashes : List H256) (rows : List (Row V)) : List (Option V) :=
  takeAll hashes (scan height hashes hashes.length rows)

/-- Database key of a row. -/
def Row.key {V : Type} (r : Row V) : Bytes := hashKey r.height r.hash

/-- The rows of column `col` an iterator of the RocksDB adapter yields for the prefix of `height`
(`prefix_iterator_cf` without prefix extractor: everything from the prefix on, in key order). -/
structure RocksRows {V : Type} (col : Nat → H256 → Option V) (height : Nat) (rows : List (Row V)) :
    Prop where
  /-- only rows of the column, at or after the prefix -/
  sound : ∀ r ∈ rows, r.height < 2 ^ 64 ∧ col r.height r.hash = some r.val ∧
    ¬ byteLt r.key (blockKey height)
  /-- all of them -/
  complete : ∀ n h v, n < 2 ^ 64 → col n h = some v → ¬ byteLt (hashKey n h) (blockKey height) →
    ⟨n, h, v⟩ ∈ rows
  /-- in ascending key order, each key once -/
  sorted : rows.Pairwise fun a b => byteLt a.key b.key

/-- The rows the memory adapter yields: the whole column in an arbitrary order (`HashMap` iteration,
the prefix is ignored, `memory.rs:186-200`). -/
structure MemoryRows {V : Type} (col : Nat → H256 → Option V) (rows : List (Row V)) : Prop where
  sound : ∀ r ∈ rows, col r.height r.hash = some r.val
  complete : ∀ n h v, n < 2 ^ 64 → col n h = some v → ⟨n, h, v⟩ ∈ rows
  nodup : rows.Pairwise fun a b => a.key ≠ b.key

/-! ## Lemmas -/

theorem hashKey_not_lt_prefix {m n : Nat} (h : H256) (hm : m < 2 ^ 64) (hn : n < 2 ^ 64) :
    ¬ byteLt (hashKey m h) (blockKey n) ↔ n ≤ m := by
  constructor
  · intro hx
    refine Nat.le_of_not_lt fun hlt => hx ?_
    have := byteLt_append_of_lt (blockKey m) (blockKey n) h.bytes [] (by simp [blockKey_length])
      (C09_order m n h h hm hn hlt).2
    simpa [hashKey] using this
  · intro hle hx
    rcases Nat.lt_or_eq_of_le hle with hlt | rfl
    · have h1 := byteLt_append_of_lt (blockKey n) (blockKey m) [] h.bytes (by simp [blockKey_length])
        (C09_order n m h h hn hm hlt).2
      simp only [List.append_nil] at h1
      exact byteLt_irrefl _ (byteLt_trans _ _ _ hx h1)
    · have key : ∀ (a b : Bytes), ¬ byteLt (a ++ b) a := by
        intro a b
        induction a with
        | nil => cases b <;> simp [byteLt]
        | cons x a ih =>
          simp only [List.cons_append, byteLt]
          rintro (h | ⟨-, h⟩)
          · omega
          · exact ih h
      exact key _ _ hx

/-- The rows of one height, as pairs, restricted to a set of hashes. -/
def wanted {V : Type} (height : Nat) (set : List H256) (rows : List (Row V)) : List (H256 × V) :=
  (rows.filter fun r => r.height = height ∧ r.hash ∈ set).map fun r => (r.hash, r.val)

/-- The loop collects the first `count` wanted rows, provided the rows of the height come first. -/
theorem scan_eq {V : Type} (height : Nat) (set : List H256) (rows : List (Row V)) (c : Nat)
    (hs : rows.Pairwise fun a b => a.height ≠ height → b.height ≠ height) :
    scan height set c rows = (wanted height set rows).take c := by
  induction rows generalizing c with
  | nil => cases c <;> simp [scan, wanted]
  | cons r rest ih =>
    cases c with
    | zero => simp [scan]
    | succ c =>
      rw [List.pairwise_cons] at hs
      unfold scan
      by_cases hh : r.height = height
      · rw [if_neg (by simpa using hh)]
        by_cases hm : r.hash ∈ set
        · rw [if_pos hm, ih c hs.2]
          simp [wanted, hh, hm]
        · rw [if_neg hm, ih (c + 1) hs.2]
          simp [wanted, hm]
      · rw [if_pos hh]
        have : wanted height set (r :: rest) = [] := by
          simp only [wanted, List.map_eq_nil_iff, List.filter_eq_nil_iff]
          intro a ha
          rw [List.mem_cons] at ha
          rcases ha with rfl | ha
          · simp [hh]
          · simp [hs.1 a ha hh]
        simp [this]

theorem wanted_keys_nodup {V : Type} (height : Nat) (set : List H256) (rows : List (Row V))
    (hk : rows.Pairwise fun a b => a.key ≠ b.key) : ((wanted height set rows).map (·.1)).Nodup := by
  unfold wanted
  rw [List.map_map]
  have hf := hk.filter (fun r => decide (r.height = height ∧ r.hash ∈ set))
  rw [List.Nodup, List.pairwise_map]
  have := List.Pairwise.and_mem.1 hf
  refine this.imp ?_
  rintro a b ⟨ha, hb, hne⟩ heq
  have ha' := (List.mem_filter.1 ha).2
  have hb' := (List.mem_filter.1 hb).2
  simp only [decide_eq_true_eq] at ha' hb'
  apply hne
  simp only [Function.comp_apply] at heq
  simp [Row.key, ha'.1, hb'.1, heq]

/-- A duplicate-free list whose members all lie in `l` is at most as long as `l`. -/
theorem nodup_length_le {α : Type} [DecidableEq α] : ∀ (a l : List α), a.Nodup → (∀ x ∈ a, x ∈ l) →
    a.length ≤ l.length
  | [], _, _, _ => by simp
  | x :: a, l, hn, hm => by
    rw [List.nodup_cons] at hn
    have h1 := nodup_length_le a (l.erase x) hn.2 (fun y hy => by
      have : y ≠ x := fun e => hn.1 (e ▸ hy)
      exact (List.mem_erase_of_ne this).2 (hm y (by simp [hy])))
    have h2 := List.length_erase_of_mem (hm x (by simp))
    have h3 : 0 < l.length := List.length_pos_of_mem (hm x (by simp))
    simp only [List.length_cons]
    omega

theorem nodup_fst {V : Type} {found : List (H256 × V)} (hn : (found.map (·.1)).Nodup)
    {a b : H256 × V} (ha : a ∈ found) (hb : b ∈ found) (he : a.1 = b.1) : a = b := by
  induction found with
  | nil => simp at ha
  | cons x l ih =>
    simp only [List.map_cons, List.nodup_cons] at hn
    rw [List.mem_cons] at ha hb
    rcases ha with rfl | ha <;> rcases hb with rfl | hb
    · rfl
    · exact absurd (List.mem_map.2 ⟨b, hb, he.symm⟩) hn.1
    · exact absurd (List.mem_map.2 ⟨a, ha, he⟩) hn.1
    · exact ih hn.2 ha hb

theorem lookup_of_nodup {V : Type} {found : List (H256 × V)} (hn : (found.map (·.1)).Nodup) {h : H256}
    {v : V} (hm : (h, v) ∈ found) : lookup found h = some v := by
  unfold lookup
  have hs : (found.reverse.find? fun p => decide (p.1 = h)).isSome := by
    rw [List.find?_isSome]; exact ⟨(h, v), by simpa using hm, by simp⟩
  obtain ⟨p, hp⟩ := Option.isSome_iff_exists.1 hs
  rw [hp]
  have hpm := List.mem_of_find?_eq_some hp
  have hpe := List.find?_some hp
  simp only [decide_eq_true_eq] at hpe
  rw [List.mem_reverse] at hpm
  have : p = (h, v) := nodup_fst hn hpm hm hpe
  rw [this]; rfl

theorem lookup_none {V : Type} {found : List (H256 × V)} {h : H256} (hm : ∀ v, (h, v) ∉ found) :
    lookup found h = none := by
  unfold lookup
  rw [Option.map_eq_none_iff, List.find?_eq_none]
  rintro ⟨k, v⟩ hp
  simp only [decide_eq_true_eq]
  rintro rfl
  exact hm v (by simpa using hp)

theorem lookup_filter {V : Type} (found : List (H256 × V)) (h k : H256) :
    lookup (found.filter fun p => p.1 ≠ h) k = if k = h then none else lookup found k := by
  split
  · rename_i e; subst e
    apply lookup_none
    intro v hv
    simp at hv
  · rename_i hne
    unfold lookup
    rw [← List.filter_reverse, List.find?_filter]
    congr 2
    funext p
    by_cases hp : p.1 = k
    · simp [hp, hne]
    · simp [hp]

/-- Position-wise answers, for any list of hashes: the first occurrence of a hash gets its value. -/
theorem takeAll_eq {V : Type} (hs : List H256) (found : List (H256 × V)) (i : Nat) (hi : i < hs.length) :
    (takeAll hs found)[i]? = some (if hs[i] ∈ hs.take i then none else lookup found hs[i]) := by
  induction hs generalizing found i with
  | nil => simp at hi
  | cons h hs ih =>
    cases i with
    | zero => simp [takeAll]
    | succ i =>
      simp only [List.length_cons, Nat.add_lt_add_iff_right] at hi
      simp only [takeAll, List.getElem?_cons_succ, List.getElem_cons_succ, List.take_succ_cons,
        List.mem_cons]
      rw [ih _ i hi, lookup_filter]
      by_cases h1 : hs[i] ∈ hs.take i
      · simp [h1]
      · by_cases h2 : hs[i] = h <;> simp [h1, h2]

theorem takeAll_length {V : Type} (hs : List H256) (found : List (H256 × V)) :
    (takeAll hs found).length = hs.length := by
  induction hs generalizing found with
  | nil => rfl
  | cons h hs ih => simp [takeAll, ih]

end Axon.Storage
