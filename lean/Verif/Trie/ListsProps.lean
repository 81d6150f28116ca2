import Verif.Trie.Lists

/-!
# C116: roots commit to lists and maps

Of the hash function only its length is assumed; where two things must not collide this is said for exactly
the byte strings that occur.
-/

namespace Axon.Trie

open Axon Axon.Rlp

/-- The last value written under a key; writing nothing erases. -/
def lastValue {κ : Type} [DecidableEq κ] : List (κ × Bytes) → κ → Option Bytes → Option Bytes
  | [], _, x => x
  | o :: ops, k, x => lastValue ops k (if o.1 = k then (if o.2.isEmpty then none else some o.2) else x)

theorem written_eq (ops : List (Path × Bytes)) (k : Path) : written ops k = lastValue ops k none := by
  have gen : ∀ (ops : List (Path × Bytes)) (x : Option Bytes),
      ops.foldl (fun x o => if k = o.1 then (if o.2 = [] then none else some o.2) else x) x =
        lastValue ops k x := by
    intro ops
    induction ops with
    | nil => intro x; rfl
    | cons o ops ih =>
      intro x
      rw [List.foldl_cons, ih, lastValue]
      congr 1
      by_cases h : o.1 = k
      · by_cases h2 : o.2 = [] <;> simp [h, h2]
      · simp [h, Ne.symm h]
  exact gen ops none

/-- A trie reads as the map of the last values written. -/
theorem C116_reads (ops : List (Path × Bytes)) (k : Path) : get (run ops .empty) k = lastValue ops k none := by
  rw [get_run_empty, written_eq]

example : get (run [([1, 2], [7]), ([1, 3, 4], [8]), ([1], [9]), ([1, 3, 4], [])] .empty) [1, 2] = some [7] ∧
    get (run [([1, 2], [7]), ([1, 3, 4], [8]), ([1], [9]), ([1, 3, 4], [])] .empty) [1, 3, 4] = none := by
  decide +kernel

/-- The root depends on the contents only, not on the order and the number of writes. -/
theorem C116_order (H : Bytes → Bytes) (ops ops' : List (Path × Bytes))
    (h : ∀ k, lastValue ops k none = lastValue ops' k none) :
    root H (run ops .empty) = root H (run ops' .empty) := by
  have : run ops .empty = run ops' .empty :=
    canon_unique (canon_run ops _ canon_empty) (canon_run ops' _ canon_empty) fun k => by
      rw [C116_reads, C116_reads, h]
  rw [this]

/-- Writes to different keys commute, and a removed key leaves no trace. -/
example (H : Bytes → Bytes) :
    root H (run [([1, 2], [7]), ([1, 3], [8]), ([5], [6]), ([5], [])] .empty) =
      root H (run [([1, 3], [8]), ([1, 2], [7])] .empty) := by
  refine C116_order H _ _ fun k => ?_
  simp only [lastValue, List.isEmpty]
  by_cases h1 : k = [1, 2]
  · subst h1; decide
  · by_cases h2 : k = [1, 3]
    · subst h2; decide
    · by_cases h3 : k = [5]
      · subst h3; decide
      · simp [Ne.symm h1, Ne.symm h2]

/-- Different strings among those that occur have different hashes. -/
def NoCollision (H : Bytes → Bytes) (bs : List Bytes) : Prop := ∀ a ∈ bs, ∀ b ∈ bs, H a = H b → a = b

instance (H : Bytes → Bytes) (bs : List Bytes) : Decidable (NoCollision H bs) := by
  unfold NoCollision; infer_instance

/-- Tries with the same root have the same contents. -/
theorem C116_commits (H : Bytes → Bytes) (hH : ∀ b, (H b).length = 32) (ops ops' : List (Path × Bytes))
    (hs : ∀ o ∈ ops ++ ops', o.1.length < 2 ^ 32 ∧ o.2.length < 2 ^ 32)
    (hc : NoCollision H (pieces H (run ops .empty) ++ pieces H (run ops' .empty)))
    (h : root H (run ops .empty) = root H (run ops' .empty)) (k : Path) :
    lastValue ops k none = lastValue ops' k none := by
  rw [← C116_reads, ← C116_reads]
  rw [root_inj hH (canon_run ops _ canon_empty) (canon_run ops' _ canon_empty)
    (sized_run fun o ho => hs o (by simp [ho])) (sized_run fun o ho => hs o (by simp [ho]))
    (fun b hb a ha => hc b (by simp [hb]) a (by simp [ha]))
    (fun b hb a ha => hc b (by simp [hb]) a (by simp [ha])) h]

/-- A hash function for examples: a checksum. -/
def checksum (b : Bytes) : Bytes :=
  beFixed 32 (b.foldl (fun a x => (a * 1099511628211 + x.toNat + 1) % 2 ^ 256) 0)

theorem checksum_length (b : Bytes) : (checksum b).length = 32 := by simp [checksum]

/-- Long values, so that nodes are hashed. -/
def long (x : UInt8) : Bytes := List.replicate 33 x

example : NoCollision checksum (pieces checksum (run [([1, 2], long 7), ([1, 3], long 8)] .empty) ++
    pieces checksum (run [([1, 2], long 7), ([1, 3], long 9)] .empty)) := by decide +kernel

/-- Lists of transactions with the same root are equal. -/
theorem C116_transactions (H : Bytes → Bytes) (hH : ∀ b, (H b).length = 32) (hs hs' : List H256)
    (hl : hs.length ≤ 2 ^ 64) (hl' : hs'.length ≤ 2 ^ 64)
    (hc : NoCollision H (pieces H (build (hs.map fun h => encode (.str h.bytes))) ++
      pieces H (build (hs'.map fun h => encode (.str h.bytes)))))
    (h : txsRoot H hs = txsRoot H hs') : hs = hs' := by
  rw [txsRoot_eq, txsRoot_eq] at h
  have sz : ∀ (l : List H256), l.length ≤ 2 ^ 64 → Sized (build (l.map fun h => encode (.str h.bytes))) := by
    intro l hl
    refine sized_build (by simpa using hl) fun v hv => ?_
    obtain ⟨a, _, rfl⟩ := List.mem_map.1 hv
    have := encHash_length a
    omega
  have ne : ∀ (l : List H256), ∀ v ∈ l.map (fun h => encode (.str h.bytes)), v ≠ [] := by
    intro l v hv
    obtain ⟨a, _, rfl⟩ := List.mem_map.1 hv
    exact encHash_ne a
  have e := root_inj hH (canon_build _) (canon_build _) (sz hs hl) (sz hs' hl')
    (fun b hb a ha => hc b (by simp [hb]) a (by simp [ha]))
    (fun b hb a ha => hc b (by simp [hb]) a (by simp [ha])) h
  have e2 := list_of_gets (vs := hs.map fun h => encode (.str h.bytes))
    (ws := hs'.map fun h => encode (.str h.bytes)) (by simpa using hl) (by simpa using hl') fun j hj => by
      rw [← get_build (by simpa using hl) (ne hs) hj, ← get_build (by simpa using hl') (ne hs') hj, e]
  have inj : ∀ (l m : List H256),
      l.map (fun h => encode (.str h.bytes)) = m.map (fun h => encode (.str h.bytes)) → l = m := by
    intro l
    induction l with
    | nil => intro m h; cases m with
      | nil => rfl
      | cons a m => simp at h
    | cons a l ih =>
      intro m h
      cases m with
      | nil => simp at h
      | cons b m =>
        simp only [List.map_cons, List.cons.injEq] at h
        rw [encHash_inj h.1, ih m h.2]
  exact inj _ _ e2

/-- Two transactions in both orders. -/
def hashA : H256 := ⟨beFixed 32 11, by simp⟩
def hashB : H256 := ⟨beFixed 32 12, by simp⟩

example : NoCollision checksum (pieces checksum (build ([hashA, hashB].map fun h => encode (.str h.bytes))) ++
    pieces checksum (build ([hashB, hashA].map fun h => encode (.str h.bytes)))) := by decide +kernel

/-- Lists of encoded receipts with the same root are equal. -/
theorem C116_receipts (H : Bytes → Bytes) (hH : ∀ b, (H b).length = 32) (rs rs' : List Bytes)
    (hl : rs.length ≤ 2 ^ 64) (hl' : rs'.length ≤ 2 ^ 64)
    (hs : ∀ r ∈ rs ++ rs', r ≠ [] ∧ r.length < 2 ^ 32)
    (hc : NoCollision H (pieces H (build rs) ++ pieces H (build rs')))
    (h : receiptsRoot H rs = receiptsRoot H rs') : rs = rs' := by
  rw [receiptsRoot_eq, receiptsRoot_eq] at h
  have e := root_inj hH (canon_build _) (canon_build _)
    (sized_build hl fun v hv => (hs v (by simp [hv])).2) (sized_build hl' fun v hv => (hs v (by simp [hv])).2)
    (fun b hb a ha => hc b (by simp [hb]) a (by simp [ha]))
    (fun b hb a ha => hc b (by simp [hb]) a (by simp [ha])) h
  exact list_of_gets hl hl' fun j hj => by
    rw [← get_build hl (fun v hv => (hs v (by simp [hv])).1) hj,
      ← get_build hl' (fun v hv => (hs v (by simp [hv])).1) hj, e]

example : NoCollision checksum (pieces checksum (build [long 1, long 2, long 3]) ++
    pieces checksum (build [long 1, long 2])) := by decide +kernel

/-- Maps with hashed keys, as for accounts and storage: a key reads as last written, unless its hash is that of
another key. -/
theorem C116_hashed_keys (H : Bytes → Bytes) (ops : List (Bytes × Bytes))
    (a : Bytes) (hc : ∀ o ∈ ops, H o.1 = H a → o.1 = a) :
    mptGet H (mptRun H ops .empty) a = lastValue ops a none := by
  have gen : ∀ (ops : List (Bytes × Bytes)) (t : Node), (∀ o ∈ ops, H o.1 = H a → o.1 = a) →
      mptGet H (mptRun H ops t) a = lastValue ops a (mptGet H t a) := by
    intro ops
    induction ops with
    | nil => intro t _; rfl
    | cons o ops ih =>
      intro t hc
      show mptGet H (mptRun H ops (mptInsert H t o.1 o.2)) a = _
      rw [ih _ fun o' ho => hc o' (by simp [ho]), lastValue]
      congr 1
      unfold mptGet mptInsert
      rw [get_put]
      by_cases h : o.1 = a
      · subst h
        by_cases h2 : o.2 = [] <;> simp [h2]
      · have : keyPath (H a) ≠ keyPath (H o.1) := fun e => h (hc o (by simp) (keyPath_inj _ _ e).symm)
        simp [this, h]
  exact gen ops .empty hc

example : mptGet checksum (mptRun checksum [([1], [5]), ([2], [6]), ([1], [])] .empty) [2] = some [6] := by
  decide +kernel

/-- A proof by position verifies for the entry at this position, and beyond the end for its absence. -/
theorem C116_proofs_partial (H : Bytes → Bytes) (hH : ∀ b, (H b).length = 32) (strict : Bool) (vs : List Bytes)
    (hl : vs.length ≤ 2 ^ 64) (hs : ∀ v ∈ vs, v ≠ [] ∧ v.length < 2 ^ 32) (hne : vs ≠ [])
    (hc : NoCollision H (pieces H (build vs))) (i : Nat) (hi : i < 2 ^ 64) :
    verify H strict (receiptsRoot H vs) (indexKey i) (proofByIndex H vs i) = .ok vs[i]? := by
  have hv : ∀ v ∈ vs, v ≠ [] := fun v hv => (hs v hv).1
  rw [receiptsRoot_eq, ← get_build hl hv hi]
  have ht := build_ne_empty hl hv hne
  refine verify_complete hH ht (canon_build vs) (sized_build hl fun v hv => (hs v hv).2) (fun b hb => hb) ?_
  intro b hb a ha
  refine hc b ?_ a ha
  unfold proofByIndex at hb
  rw [prove_eq H ht] at hb
  rcases List.mem_cons.1 hb with rfl | hb
  · exact raw_mem H _
  · exact path_pieces H _ _ b hb

example : (proofByIndex checksum [long 1, long 2, long 3] 1).length = 3 ∧
    NoCollision checksum (pieces checksum (build [long 1, long 2, long 3])) := by decide +kernel

/-- The empty list has no proofs: what is made for it is rejected. -/
theorem C116_proofs_false (H : Bytes → Bytes) (strict : Bool) (i : Nat) :
    verify H strict (receiptsRoot H []) (indexKey i) (proofByIndex H [] i) = .err ∧
      ([] : List Bytes)[i]? = none := ⟨rfl, by simp⟩

/-- No list of nodes makes another entry valid.  Where a missing node counts as empty, it may make an entry
absent. -/
theorem C116_forgery_partial (H : Bytes → Bytes) (hH : ∀ b, (H b).length = 32) (strict : Bool) (vs : List Bytes)
    (hl : vs.length ≤ 2 ^ 64) (hs : ∀ v ∈ vs, v ≠ [] ∧ v.length < 2 ^ 32) (proof : List Bytes)
    (hc : ∀ b ∈ proof, ∀ a ∈ pieces H (build vs), H b = H a → b = a) (i : Nat) (hi : i < 2 ^ 64)
    (x : Option Bytes) (h : verify H strict (receiptsRoot H vs) (indexKey i) proof = .ok x) :
    x = vs[i]? ∨ (strict = false ∧ x = none) := by
  rw [receiptsRoot_eq] at h
  have := verify_sound hH (canon_build vs) (sized_build hl fun v hv => (hs v hv).2) hc h
  rwa [Truthful, get_build hl (fun v hv => (hs v hv).1) hi] at this

example : verify checksum true (receiptsRoot checksum [long 1, long 2]) (indexKey 1)
    ([3, 4] :: proofByIndex checksum [long 1, long 2] 1) = .ok (some (long 2)) ∧
    ∀ b ∈ [3, 4] :: proofByIndex checksum [long 1, long 2] 1,
      ∀ a ∈ pieces checksum (build [long 1, long 2]), checksum b = checksum a → b = a := by decide +kernel

/-- Where a missing node counts as empty, the root node alone proves an entry absent that is present. -/
theorem C116_forgery_false : ∃ (H : Bytes → Bytes) (vs : List Bytes) (proof : List Bytes),
    (∀ b, (H b).length = 32) ∧ (∀ b ∈ proof, ∀ a ∈ pieces H (build vs), H b = H a → b = a) ∧
    vs[1]? ≠ none ∧ verify H false (receiptsRoot H vs) (indexKey 1) proof = .ok none ∧
    verify H true (receiptsRoot H vs) (indexKey 1) proof = .err := by
  refine ⟨checksum, [long 1, long 2], (proofByIndex checksum [long 1, long 2] 1).take 1, checksum_length, ?_⟩
  decide +kernel

end Axon.Trie
