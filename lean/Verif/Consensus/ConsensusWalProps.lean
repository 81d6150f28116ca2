import Verif.Consensus.ConsensusWal

/-!
# C13: the consensus WAL and crashes
-/

namespace Axon.ConsensusWal

/-- Specification: the payload to be recovered is that of the newest operation whose file was written
completely. -/
def recoverable : Option Bytes → List Op → Option Bytes
  | r, [] => r
  | _, .update _ info :: ops => recoverable (some info) ops
  | r, .crash _ info k _ :: ops => recoverable (if 32 + info.length ≤ k then some info else r) ops
  | _, .clear :: ops => recoverable none ops

/-- The clock only moves forward: each operation's timestamp is above all earlier ones. -/
def ClockForward (ops : List Op) : Prop :=
  (ops.filterMap Op.stamp?).Pairwise (· < ·)

/-- The digest distinguishes each interrupted payload from its own proper prefixes. -/
def NoPrefixCollision (digest : Bytes → H256) (ops : List Op) : Prop :=
  ∀ s info k g, Op.crash s info k g ∈ ops → ∀ j < info.length, digest (info.take j) ≠ digest info

theorem recoverable_snoc (r : Option Bytes) (ops : List Op) (op : Op) :
    recoverable r (ops ++ [op]) = recoverable (recoverable r ops) [op] := by
  induction ops generalizing r with
  | nil => rfl
  | cons o ops ih => cases o <;> simp [recoverable, ih]

/-- Files are in descending order, stamped by earlier operations. -/
def Sorted (ops : List Op) (fs : Fs) : Prop :=
  (fs.Pairwise fun a b => b.stamp < a.stamp) ∧ ∀ f ∈ fs, f.stamp ∈ ops.filterMap Op.stamp?

theorem run_snoc (digest : Bytes → H256) (ops : List Op) (op : Op) :
    run digest (ops ++ [op]) = step digest (run digest ops) op := by
  simp [run, List.foldl_append]

theorem clock_prefix {ops : List Op} {op : Op} (h : ClockForward (ops ++ [op])) :
    ClockForward ops ∧ ∀ s, op.stamp? = some s → ∀ t ∈ ops.filterMap Op.stamp?, t < s := by
  unfold ClockForward at h
  rw [List.filterMap_append, List.pairwise_append] at h
  refine ⟨h.1, fun s hs t ht => h.2.2 t ht s ?_⟩
  simp [hs]

theorem sorted_run (digest : Bytes → H256) (ops : List Op) (hc : ClockForward ops) :
    Sorted ops (run digest ops) := by
  induction ops using snoc_induction with
  | nil => exact ⟨List.Pairwise.nil, by simp [run]⟩
  | snoc ops op ih =>
    obtain ⟨hc', hlt⟩ := clock_prefix hc
    obtain ⟨hs, hm⟩ := ih hc'
    rw [run_snoc]
    have hold : ∀ f ∈ run digest ops, f.stamp ∈ (ops ++ [op]).filterMap Op.stamp? := by
      intro f hf
      rw [List.filterMap_append, List.mem_append]
      exact Or.inl (hm f hf)
    cases op with
    | clear => exact ⟨List.Pairwise.nil, by simp [step]⟩
    | update s info =>
      have hnew : s ∈ (ops ++ [Op.update s info]).filterMap Op.stamp? := by
        rw [List.filterMap_append, List.mem_append]; right; simp [Op.stamp?]
      constructor
      · refine List.Pairwise.filter _ (List.pairwise_cons.2 ⟨?_, hs⟩)
        intro f hf
        exact hlt s rfl _ (hm f hf)
      · intro f hf
        have := (List.mem_filter.1 hf).1
        rw [List.mem_cons] at this
        rcases this with rfl | h
        · exact hnew
        · exact hold f h
    | crash s info k g =>
      have hnew : s ∈ (ops ++ [Op.crash s info k g]).filterMap Op.stamp? := by
        rw [List.filterMap_append, List.mem_append]; right; simp [Op.stamp?]
      simp only [step, crash]
      constructor
      · refine List.pairwise_cons.2 ⟨?_, ?_⟩
        · intro f hf
          split at hf
          · exact hlt s rfl _ (hm f hf)
          · exact hlt s rfl _ (hm f (List.mem_filter.1 hf).1)
        · split
          · exact hs
          · exact hs.filter _
      · intro f hf
        rw [List.mem_cons] at hf
        rcases hf with rfl | hf
        · exact hnew
        · split at hf
          · exact hold f hf
          · exact hold f (List.mem_filter.1 hf).1

/-- The loop's result on the files left by a history. -/
theorem resOf_run (digest : Bytes → H256) (ops : List Op) (hc : ClockForward ops)
    (hd : NoPrefixCollision digest ops) :
    (resOf digest (run digest ops) = none ∨
      resOf digest (run digest ops) = some (recoverable none ops)) ∧
    ((∀ s info k g, Op.crash s info k g ∈ ops → 32 ≤ k) →
      resOf digest (run digest ops) = some (recoverable none ops)) := by
  induction ops using snoc_induction with
  | nil => simp [run, resOf, recoverable]
  | snoc ops op ih =>
    obtain ⟨hc', hlt⟩ := clock_prefix hc
    have ih := ih hc' (fun s i k g h => hd s i k g (by simp [h]))
    obtain ⟨hs, hm⟩ := sorted_run digest ops hc'
    rw [run_snoc, recoverable_snoc]
    cases op with
    | clear => simp [step, resOf, recoverable]
    | update s info =>
      have hfs : update digest (run digest ops) s info = [⟨s, fileData digest info⟩] := by
        unfold update
        rw [List.filter_cons_of_pos (by simp)]
        congr 1
        rw [List.filter_eq_nil_iff]
        intro f hf
        have := hlt s rfl _ (hm f hf)
        simp [this]
      have hl := fileData_length digest info
      obtain ⟨h1, h2⟩ := accept_full digest info
      have : resOf digest (update digest (run digest ops) s info) = some (some info) := by
        rw [hfs]
        unfold resOf
        simp only
        rw [if_neg (by omega), if_pos h1, h2]
      simp only [step, recoverable, this]
      exact ⟨Or.inr trivial, fun _ => trivial⟩
    | crash s info k g =>
      have hl := fileData_length digest info
      simp only [step, recoverable, crash]
      by_cases hk : 32 + info.length ≤ k
      · obtain ⟨h1, h2⟩ := accept_full digest info
        have ht : (fileData digest info).take k = fileData digest info :=
          List.take_of_length_le (by omega)
        rw [ht, if_pos hk]
        unfold resOf
        simp only
        rw [if_neg (by omega), if_pos h1, h2]
        exact ⟨Or.inr rfl, fun _ => rfl⟩
      · rw [if_neg hk, if_pos (by omega)]
        by_cases hshort : k < 32
        · have : resOf digest (⟨s, (fileData digest info).take k⟩ :: run digest ops) = none := by
            unfold resOf
            simp only
            rw [if_pos]
            rw [List.length_take]; omega
          rw [this]
          refine ⟨Or.inl rfl, fun h => ?_⟩
          have := h s info k g (by simp)
          omega
        · have : resOf digest (⟨s, (fileData digest info).take k⟩ :: run digest ops) =
              resOf digest (run digest ops) := by
            rw [resOf]
            simp only
            rw [if_neg (by rw [List.length_take]; omega), if_neg]
            intro he
            have h1 : ((fileData digest info).take k).take 32 = (digest info).bytes := by
              rw [List.take_take, Nat.min_eq_left (by omega)]
              unfold fileData
              exact List.take_left' (digest info).len
            have h2 : ((fileData digest info).take k).drop 32 = info.take (k - 32) := by
              rw [List.drop_take]
              unfold fileData
              rw [List.drop_left' (digest info).len]
            rw [h1, h2] at he
            refine hd s info k g (by simp) (k - 32) (by omega) ?_
            have : ∀ a b : H256, a.bytes = b.bytes → a = b := by
              intro a b h
              cases a; cases b
              simp at h
              simp [h]
            exact this _ _ he.symm
          rw [this]
          refine ⟨ih.1, fun h => ih.2 (fun s i k g hx => h s i k g (by simp [hx]))⟩

/-- C13: whenever loading ends, it returns the payload of the newest completely written file: the last
completed update, or an interrupted one whose file was complete.  Every history of updates, crashes
at every byte with any subset of deletions done, and clears. -/
theorem C13_result (digest : Bytes → H256) (ops : List Op) (hc : ClockForward ops)
    (hd : NoPrefixCollision digest ops) (r : Option Bytes) (h : Loads digest (run digest ops) r) :
    r = recoverable none ops := by
  rw [loads_iff, visitOrder_sorted _ (sorted_run digest ops hc).1] at h
  rcases (resOf_run digest ops hc hd).1 with h1 | h1
  · rw [h1] at h; simp at h
  · rw [h1] at h; simpa using h.symm

/-- C13: loading ends and recovers, provided no interrupted write left fewer than 32 bytes.  Full
statement: for every crash point; false, see `C13_false`. -/
theorem C13_recovers_partial (digest : Bytes → H256) (ops : List Op) (hc : ClockForward ops)
    (hd : NoPrefixCollision digest ops) (hk : ∀ s info k g, Op.crash s info k g ∈ ops → 32 ≤ k) :
    Loads digest (run digest ops) (recoverable none ops) := by
  rw [loads_iff, visitOrder_sorted _ (sorted_run digest ops hc).1]
  exact (resOf_run digest ops hc hd).2 hk

/-- C13: the payload of a completed update survives a crash in the next one at any point from byte 32
on: loading gives the old payload, or the new one if its file was complete. -/
theorem C13_next_crash_partial (digest : Bytes → H256) (ops : List Op) (s t : Nat)
    (info info' : Bytes) (k : Nat) (g : Nat → Bool) (hk : 32 ≤ k)
    (hc : ClockForward (ops ++ [.update s info] ++ [.crash t info' k g]))
    (hd : NoPrefixCollision digest (ops ++ [.update s info] ++ [.crash t info' k g]))
    (hops : ∀ s info k g, Op.crash s info k g ∈ ops → 32 ≤ k) :
    Loads digest (run digest (ops ++ [.update s info] ++ [.crash t info' k g]))
      (some (if 32 + info'.length ≤ k then info' else info)) := by
  have := C13_recovers_partial digest _ hc hd (by
    intro a b c d h
    simp only [List.mem_append, List.mem_singleton] at h
    rcases h with (h | h) | h
    · exact hops a b c d h
    · simp at h
    · simp only [Op.crash.injEq] at h; obtain ⟨-, -, rfl, -⟩ := h; exact hk)
  rw [recoverable_snoc, recoverable_snoc] at this
  simp only [recoverable] at this
  split
  · rename_i h; rw [if_pos h] at this; exact this
  · rename_i h; rw [if_neg h] at this; exact this

/-- C13 is false: after any history with a forward clock, a crash that leaves fewer than 32 bytes of
the new file makes loading run forever. -/
theorem C13_false (digest : Bytes → H256) (ops : List Op) (s : Nat) (info : Bytes) (k : Nat)
    (g : Nat → Bool) (hk : k < 32) (hc : ClockForward (ops ++ [.crash s info k g])) :
    Diverges digest (run digest (ops ++ [.crash s info k g])) := by
  rw [diverges_iff, visitOrder_sorted _ (sorted_run digest _ hc).1, run_snoc]
  simp only [step, crash]
  unfold resOf
  rw [if_pos]
  simp only [List.length_take]
  omega

/-- C13 is false when the clock steps back between two updates: both complete, yet loading returns
the older payload. -/
theorem C13_clock_back_false (digest : Bytes → H256) (s t : Nat) (a b : Bytes) (h : t < s) :
    Loads digest (run digest [.update s a, .update t b]) (some a) := by
  have hrun : run digest [.update s a, .update t b] =
      [⟨t, fileData digest b⟩, ⟨s, fileData digest a⟩] := by
    have h' : t ≤ s := by omega
    simp [run, step, update, h']
  have hsort : visitOrder [⟨t, fileData digest b⟩, ⟨s, fileData digest a⟩] =
      [⟨s, fileData digest a⟩, ⟨t, fileData digest b⟩] := by
    have hn : ¬ s ≤ t := by omega
    simp [visitOrder, List.mergeSort, List.MergeSort.Internal.splitInTwo, hn]
  rw [loads_iff, hrun, hsort]
  have hl := fileData_length digest a
  obtain ⟨h1, h2⟩ := accept_full digest a
  unfold resOf
  simp only
  rw [if_neg (by omega), if_pos h1, h2]

/-- A digest for the examples: the payload's length, so that no payload collides with its proper
prefixes (for lengths below 256). -/
def sampleDigest (b : Bytes) : H256 :=
  ⟨List.replicate 31 0 ++ [UInt8.ofNat b.length], by simp⟩

def sampleOps : List Op :=
  [.update 10 [1, 2, 3], .crash 11 [4, 5, 6] 34 (fun _ => true), .update 12 [7],
    .crash 13 [8, 9] 33 (fun _ => false)]

example : Loads sampleDigest (run sampleDigest sampleOps) (some [7]) := by
  have := C13_recovers_partial sampleDigest sampleOps (by simp [ClockForward, sampleOps, Op.stamp?])
    (by
      intro s info k g h j hj
      simp [sampleOps] at h
      rcases h with h | h
      · obtain ⟨-, rfl, -⟩ := h
        have : j = 0 ∨ j = 1 ∨ j = 2 := by simp at hj; omega
        rcases this with rfl | rfl | rfl <;> decide
      · obtain ⟨-, rfl, -⟩ := h
        have : j = 0 ∨ j = 1 := by simp at hj; omega
        rcases this with rfl | rfl <;> decide)
    (by
      intro s info k g h
      simp [sampleOps] at h
      omega)
  simpa [recoverable, sampleOps] using this

example : Diverges sampleDigest (run sampleDigest (sampleOps ++ [.crash 14 [1] 0 (fun _ => false)])) :=
  C13_false sampleDigest sampleOps 14 [1] 0 _ (by decide)
    (by simp [ClockForward, sampleOps, Op.stamp?])

end Axon.ConsensusWal
