import Verif.Consensus.TxsWal

/-!
# C12: transaction WAL
-/

namespace Axon.TxsWal
open Axon.Rlp

/-- What a reader of the operation history expects to load. -/
inductive Expect (T : Type) where
  /-- nothing (an error) -/
  | absent
  /-- exactly this list -/
  | exactly (ts : List T)
  /-- the last write of the entry was interrupted: no promise -/
  | unknown

/-- How one operation changes what is expected of the entry `(n, h)`. -/
def expectStep {T : Type} (n : Nat) (h : H256) (e : Expect T) : Op T → Expect T
  | .save m k ts => if m = n ∧ k = h then .exactly ts else e
  | .torn m k _ _ => if m = n ∧ k = h then .unknown else e
  | .remove m => if n ≤ m then .absent else e
  | .removeAll => .absent

/-- Specification: the entry of `(n, h)` is determined by the last operation that concerns it. -/
def expected {T : Type} (n : Nat) (h : H256) (ops : List (Op T)) : Expect T :=
  ops.foldl (expectStep n h) .absent

/-- What it means that loading meets an expectation. -/
def Meets {T : Type} : Expect T → Option (List T) → Prop
  | .absent, r => r = none
  | .exactly ts, r => r = some ts
  | .unknown, _ => True

/-- Hashes written at block number `n`. -/
def hashesAt {T : Type} (n : Nat) (ops : List (Op T)) : List H256 :=
  ops.filterMap fun
    | .save m k _ => if m = n then some k else none
    | .torn m k _ _ => if m = n then some k else none
    | _ => none

/-- The invariant behind `C12_load_partial`. -/
def Inv {T : Type} (enc : T → Bytes) (e : Expect T) (c : Option Bytes) : Prop :=
  match e with
  | .absent => c = none
  | .exactly ts => (batchBytes enc ts).length < 2 ^ 64 → ∃ rest, c = some (batchBytes enc ts ++ rest)
  | .unknown => True

theorem inv_run {T : Type} (enc : T → Bytes) (ops : List (Op T)) (n : Nat) (h : H256)
    (hnames : ∀ k ∈ hashesAt n ops, shortName k = shortName h → k = h) :
    Inv enc (expected n h ops) (content (run enc ops) n (shortName h)) := by
  induction ops using snoc_induction with
  | nil => simp [expected, Inv, run, content, alookup]
  | snoc ops op ih =>
    have ih := ih (fun k hk => hnames k (by
      simp only [hashesAt, List.filterMap_append, List.mem_append] at *
      exact Or.inl hk))
    have hexp : expected n h (ops ++ [op]) = expectStep n h (expected n h ops) op := by
      simp [expected, List.foldl_append]
    have hrun : run enc (ops ++ [op]) = step enc (run enc ops) op := by
      simp [run, List.foldl_append]
    rw [hexp, hrun]
    unfold expectStep
    cases op with
    | save m k ts =>
      simp only [step, save, content_writeFile]
      by_cases hm : m = n ∧ k = h
      · obtain ⟨rfl, rfl⟩ := hm
        simp only [and_self, if_true]
        intro _
        exact ⟨_, rfl⟩
      · rw [if_neg hm, if_neg]
        · exact ih
        · rintro ⟨rfl, he⟩
          have := hnames k (by simp [hashesAt]) he.symm
          exact hm ⟨rfl, this⟩
    | torn m k ts j =>
      simp only [step, content_writeFile]
      by_cases hm : m = n ∧ k = h
      · obtain ⟨rfl, rfl⟩ := hm
        simp [Inv]
      · rw [if_neg hm, if_neg]
        · exact ih
        · rintro ⟨rfl, he⟩
          have := hnames k (by simp [hashesAt]) he.symm
          exact hm ⟨rfl, this⟩
    | remove m =>
      simp only [step, content, alookup_remove]
      split
      · simp [Inv]
      · exact ih
    | removeAll => simp [step, content, alookup_removeAll, Inv]

/-- C12: after any sequence of saves (complete or interrupted) and removals, loading an entry gives
exactly the list last saved under it (also when it overwrote a longer one), an error if it was never
saved or has been removed since; removal up to `m` deletes exactly the entries at or below `m`.
Proved if no *other* hash written at the same block number agrees with it in the first two and in the
last two bytes.  Full statement: without that condition; false, see `C12_name_collision_false`. -/
theorem C12_load_partial {T : Type} (enc : T → Bytes) (dec : Bytes → Option T)
    (hcodec : ∀ t, dec (enc t) = some t) (ops : List (Op T)) (n : Nat) (h : H256)
    (hsize : ∀ m k ts, Op.save m k ts ∈ ops → (batchBytes enc ts).length < 2 ^ 64)
    (hbytes : ∀ k ∈ hashesAt n ops, k.bytes.take 2 = h.bytes.take 2 →
      k.bytes.drop 30 = h.bytes.drop 30 → k = h) :
    Meets (expected n h ops) (load dec (run enc ops) n h) := by
  have hnames : ∀ k ∈ hashesAt n ops, shortName k = shortName h → k = h := by
    intro k hk he
    have := List.append_inj he (by simp [k.len, h.len])
    exact hbytes k hk this.1 this.2
  have hinv := inv_run enc ops n h hnames
  have hmem : ∀ ts, expected n h ops = .exactly ts → (batchBytes enc ts).length < 2 ^ 64 := by
    clear hinv hnames hbytes
    intro ts
    induction ops using snoc_induction with
    | nil => simp [expected]
    | snoc ops op ih =>
      have ih := ih (fun m k ts hm => hsize m k ts (by simp [hm]))
      intro he
      have hexp : expected n h (ops ++ [op]) = expectStep n h (expected n h ops) op := by
        simp [expected, List.foldl_append]
      rw [hexp] at he
      unfold expectStep at he
      cases op with
      | save m k ts' =>
        simp only at he
        split at he
        · simp at he; subst he; exact hsize m k ts' (by simp)
        · exact ih he
      | torn m k ts' j =>
        simp only at he
        split at he
        · simp at he
        · exact ih he
      | remove m =>
        simp only at he
        split at he
        · simp at he
        · exact ih he
      | removeAll => simp at he
  rw [load_eq]
  cases he : expected n h ops with
  | absent => rw [he] at hinv; simp only [Inv] at hinv; simp [Meets, hinv]
  | exactly ts =>
    rw [he] at hinv
    obtain ⟨rest, hr⟩ := hinv (hmem ts he)
    simp only [Meets, hr, Option.bind_some]
    exact batchDecode_append enc dec hcodec ts rest (hmem ts he)
  | unknown => trivial

/-- C12: block numbers with saved entries are exactly the available ones. -/
theorem C12_available {T : Type} (enc : T → Bytes) (fs : Fs) (n m : Nat) (h : H256) (ts : List T) :
    n ∈ available (save enc fs m h ts) ↔ n = m ∨ n ∈ available fs := by
  unfold available save writeFile aput
  simp only [List.map_cons, List.mem_cons, List.mem_map, List.mem_filter]
  constructor
  · rintro (rfl | ⟨p, ⟨hp, -⟩, rfl⟩)
    · exact Or.inl rfl
    · exact Or.inr ⟨p, hp, rfl⟩
  · rintro (rfl | ⟨p, hp, rfl⟩)
    · exact Or.inl rfl
    · by_cases he : p.1 = m
      · exact Or.inl he
      · exact Or.inr ⟨p, ⟨hp, by simpa using he⟩, rfl⟩

/-- C12: after `remove m` (and after `remove_all`) exactly the numbers above `m` (none) are left. -/
theorem C12_available_after_remove (fs : Fs) (n m : Nat) :
    (n ∈ available (remove fs m) ↔ n ∈ available fs ∧ m < n) ∧ available (removeAll fs) = [] := by
  constructor
  · unfold available remove
    simp only [List.mem_map, List.mem_filter]
    constructor
    · rintro ⟨p, ⟨hp, hlt⟩, rfl⟩
      exact ⟨⟨p, hp, rfl⟩, by simpa using hlt⟩
    · rintro ⟨⟨p, hp, rfl⟩, hlt⟩
      exact ⟨p, ⟨hp, by simpa using hlt⟩, rfl⟩
  · have : ∀ x, x ∉ removeAll fs := by
      intro x hx
      have h1 := alookup_removeAll fs x.1
      unfold alookup at h1
      rw [Option.map_eq_none_iff, List.find?_eq_none] at h1
      exact h1 x hx (by simp)
    rw [List.eq_nil_iff_forall_not_mem.2 this]
    rfl

/-- C12: `load_by_number` returns only transactions found by loading some file of that number. -/
theorem C12_load_by_number_sound {T : Type} (dec : Bytes → Option T) (fs : Fs) (n : Nat) (t : T)
    (ht : t ∈ loadByNumber dec fs n) :
    ∃ dir, (n, dir) ∈ fs ∧ ∃ f ∈ dir, ∃ ts, batchDecode dec f.2 = some ts ∧ t ∈ ts := by
  unfold loadByNumber at ht
  split at ht
  · simp at ht
  · rename_i dir hd
    unfold alookup at hd
    rw [Option.map_eq_some_iff] at hd
    obtain ⟨p, hp, rfl⟩ := hd
    have h1 := List.mem_of_find?_eq_some hp
    have h2 := List.find?_some hp
    simp only [decide_eq_true_eq] at h2
    obtain ⟨f, hf, hm⟩ := List.mem_flatMap.1 ht
    refine ⟨p.2, by rw [← h2]; exact h1, f, hf, ?_⟩
    cases hb : batchDecode dec f.2 with
    | none => rw [hb] at hm; simp at hm
    | some ts => rw [hb] at hm; exact ⟨ts, rfl, hm⟩

/-- C12: everything saved under a loadable entry is found by `load_by_number`. -/
theorem C12_load_by_number_complete {T : Type} (dec : Bytes → Option T) (fs : Fs) (n : Nat) (h : H256)
    (ts : List T) (hl : load dec fs n h = some ts) : ∀ t ∈ ts, t ∈ loadByNumber dec fs n := by
  intro t ht
  unfold load at hl
  cases hd : alookup fs n with
  | none => rw [hd] at hl; simp at hl
  | some dir =>
    rw [hd] at hl
    simp only [Option.bind_eq_bind, Option.bind_some] at hl
    cases hb : alookup dir (shortName h) with
    | none => rw [hb] at hl; simp at hl
    | some bs =>
      rw [hb] at hl
      simp only [Option.bind_some] at hl
      unfold loadByNumber
      rw [hd]
      refine List.mem_flatMap.2 ⟨(shortName h, bs), ?_, by simp [hl, ht]⟩
      unfold alookup at hb
      rw [Option.map_eq_some_iff] at hb
      obtain ⟨p, hp, rfl⟩ := hb
      have h2 := List.find?_some hp
      simp only [decide_eq_true_eq] at h2
      rw [← h2]
      exact List.mem_of_find?_eq_some hp

/-- C12 is false in general: two different hashes that agree on their first and last two bytes share
a file.  After saving `ts` under `h` and `us` under `k`, loading `h` gives `us`. -/
theorem C12_name_collision_false {T : Type} (enc : T → Bytes) (dec : Bytes → Option T)
    (hcodec : ∀ t, dec (enc t) = some t) (n : Nat) (h k : H256) (hn : shortName h = shortName k)
    (ts us : List T) (hsize : (batchBytes enc us).length < 2 ^ 64) :
    load dec (run enc [.save n h ts, .save n k us]) n h = some us := by
  rw [load_eq]
  have hrun : run enc [.save n h ts, .save n k us] =
      writeFile (run enc [.save n h ts]) n k (batchBytes enc us) := rfl
  rw [hrun, content_writeFile, hn, if_pos ⟨rfl, rfl⟩, Option.bind_some]
  exact batchDecode_append enc dec hcodec us _ hsize

/-- Two different hashes with the same name, and the history of the negation on byte-string
transactions. -/
def hashA : H256 := ⟨List.replicate 32 0, rfl⟩
def hashB : H256 := ⟨[0, 0, 1] ++ List.replicate 29 0, rfl⟩

example : hashA ≠ hashB ∧ shortName hashA = shortName hashB ∧
    load (fun b => some b) (run (fun b : Bytes => b) [.save 7 hashA [[1], [2, 3]], .save 7 hashB []]) 7 hashA
      = some [] :=
  ⟨by decide, by decide, C12_name_collision_false _ _ (fun _ => rfl) 7 hashA hashB (by decide) _ _
    (by decide)⟩

/-- The hypotheses of `C12_load_partial` on a history with an overwrite by a shorter list. -/
example : load (fun b => some b) (run (fun b : Bytes => b)
    [.save 7 hashA [[1], [2, 3]], .torn 8 hashB [[4]] 1, .save 7 hashA [[5]], .remove 6]) 7 hashA
      = some [[5]] := by
  have := C12_load_partial (fun b : Bytes => b) (fun b => some b) (fun _ => rfl)
    [.save 7 hashA [[1], [2, 3]], .torn 8 hashB [[4]] 1, .save 7 hashA [[5]], .remove 6] 7 hashA
    (by
      intro m k ts h
      simp at h
      rcases h with h | h <;> (obtain ⟨-, -, rfl⟩ := h; decide))
    (by
      intro k hk _ _
      simp [hashesAt] at hk
      exact hk)
  simpa [expected, expectStep, Meets] using this

end Axon.TxsWal
