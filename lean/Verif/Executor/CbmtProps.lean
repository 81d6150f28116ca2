import Verif.Executor.Cbmt

/-!
# C110: proofs in CKB's Merkle trees
-/

namespace Axon.Cbmt

open Axon Axon.Precompiles
open Axon.Modexp (Reply)

variable {T : Type} [DecidableEq T]

/-! ## Specification -/

/-- `node` is the complete binary tree over the leaves `xs`: node `0` is the root, nodes `2 i + 1` and
`2 i + 2` are below node `i`, and the leaves are the last nodes. -/
structure IsTree (merge : T → T → T) (node : Nat → T) (xs : List T) : Prop where
  nonempty : xs ≠ []
  inner : ∀ i, i + 1 < xs.length → node i = merge (node (2 * i + 1)) (node (2 * i + 2))
  leaf : ∀ k (h : k < xs.length), node (xs.length - 1 + k) = xs[k]

/-- No pair in the list collides with the children of an inner node. -/
def NoClash (merge : T → T → T) (node : Nat → T) (n : Nat) (l : List (T × T)) : Prop :=
  ∀ ab ∈ l, ∀ i, i + 1 < n → merge ab.1 ab.2 = node i → ab = (node (2 * i + 1), node (2 * i + 2))

/-- The pairs hashed in checking a proof. -/
def hashed (merge : T → T → T) (indices : List Nat) (lemmas leaves : List T) : List (T × T) :=
  made merge (rounds (indices.zip leaves)) (downwards (indices.zip leaves)) lemmas

/-! ## Soundness -/

omit [DecidableEq T] in
theorem takeSibling_cases {i : Nat} {q q' : List (Nat × T)} {ls ls' : List T} {y : T}
    (h : takeSibling i q ls = some (y, q', ls')) :
    (q = (sibling i, y) :: q' ∧ ls' = ls) ∨ (q' = q ∧ ls = y :: ls') := by
  unfold takeSibling at h
  split at h
  next j z q0 =>
    split at h
    next hj => cases h; subst hj; exact .inl ⟨rfl, rfl⟩
    next =>
      split at h
      · cases h
      · cases h; exact .inr ⟨rfl, rfl⟩
  next =>
    split at h
    · cases h
    · cases h; exact .inr ⟨rfl, rfl⟩

theorem climb_sound {merge : T → T → T} {node : Nat → T} {n : Nat}
    (hin : ∀ i, i + 1 < n → node i = merge (node (2 * i + 1)) (node (2 * i + 2))) (hn : 0 < n)
    (fuel : Nat) (q : List (Nat × T)) (ls : List T) (h : climb merge fuel q ls = some (node 0))
    (hc : NoClash merge node n (made merge fuel q ls)) :
    ∀ e ∈ q, e.1 < 2 * n - 1 → e.2 = node e.1 := by
  induction fuel generalizing q ls with
  | zero => cases h
  | succ fuel ih =>
    cases q with
    | nil => cases h
    | cons e q =>
      obtain ⟨i, x⟩ := e
      unfold climb at h
      unfold made at hc
      by_cases hi : i = 0
      · subst hi
        rw [if_pos rfl] at h
        split at h
        next hq =>
          simp only [Bool.and_eq_true, List.isEmpty_iff] at hq
          obtain ⟨_, hq⟩ := hq
          subst hq
          injection h with h
          intro e he _
          rw [List.mem_singleton] at he
          subst he
          exact h
        · cases h
      · rw [if_neg hi] at h hc
        cases ht : takeSibling i q ls with
        | none => rw [ht] at h; cases h
        | some r =>
          obtain ⟨y, q', ls'⟩ := r
          rw [ht] at h hc
          dsimp only at h hc
          have ih := ih _ _ h (fun ab hab => hc ab (List.mem_cons_of_mem _ hab))
          have hchild : i < 2 * n - 1 → x = node i ∧ y = node (sibling i) := by
            intro hlt
            have hp : parent i + 1 < n := by unfold parent; omega
            have h1 := ih (parent i, merge (ordered i x y).1 (ordered i x y).2) (by simp) (by
              dsimp only; omega)
            have h2 := hc (ordered i x y) List.mem_cons_self (parent i) hp h1
            unfold ordered at h2
            unfold sibling
            split at h2
            next hodd =>
              rw [if_pos hodd]
              have e1 : 2 * parent i + 1 = i := by unfold parent; omega
              have e2 : 2 * parent i + 2 = i + 1 := by unfold parent; omega
              rw [e1, e2] at h2
              cases h2
              exact ⟨rfl, rfl⟩
            next hev =>
              rw [if_neg hev]
              have e1 : 2 * parent i + 1 = i - 1 := by unfold parent; omega
              have e2 : 2 * parent i + 2 = i := by unfold parent; omega
              rw [e1, e2] at h2
              cases h2
              exact ⟨rfl, rfl⟩
          intro e he hlt
          rcases List.mem_cons.1 he with rfl | he
          · exact (hchild hlt).1
          · rcases takeSibling_cases ht with ⟨rfl, _⟩ | ⟨rfl, _⟩
            · rcases List.mem_cons.1 he with rfl | he
              · refine (hchild ?_).2
                dsimp only at hlt
                unfold sibling at hlt
                split at hlt <;> omega
              · exact ih e (List.mem_append_left _ he) hlt
            · exact ih e (List.mem_append_left _ he) hlt

theorem mem_downwards (l : List (Nat × T)) (e : Nat × T) : e ∈ downwards l ↔ e ∈ l :=
  List.mem_mergeSort

/-- The checked pair of an index and a leaf. -/
theorem verify_sound {merge : T → T → T} {node : Nat → T} {xs : List T} (ht : IsTree merge node xs)
    {indices : List Nat} {lemmas leaves : List T}
    (hv : verifyProof merge (node 0) indices lemmas leaves = true)
    (hc : NoClash merge node xs.length (hashed merge indices lemmas leaves)) :
    leaves.length = indices.length ∧ leaves ≠ [] ∧
    ∀ e ∈ indices.zip leaves, e.1 < 2 * xs.length - 1 → e.2 = node e.1 := by
  unfold verifyProof at hv
  have hv : proofRoot merge indices lemmas leaves = some (node 0) := by simpa using hv
  unfold proofRoot at hv
  split at hv
  · cases hv
  next hne =>
    have hpos : 0 < xs.length := List.length_pos_iff.2 ht.nonempty
    refine ⟨Classical.byContradiction fun h => hne (.inl h), fun h => hne (.inr h), ?_⟩
    intro e he
    exact climb_sound ht.inner hpos _ _ _ hv hc e ((mem_downwards _ e).2 he)

/-- The root that a payload speaks about. -/
def subject (p : Payload T) : T := if p.verifyType = 0 then p.rawRoot else p.witnessesRoot

/-- **C110, accepted proofs.**  If the check accepts, the two roots hash to the transactions root; and when
the root spoken about is that of a tree, each leaf whose index is that of a leaf is the leaf there, unless
a hash made in the check collides with the tree. -/
theorem C110_sound_partial {merge : T → T → T} {node : Nat → T} {xs : List T} (p : Payload T)
    (h : check merge p = .ok ()) (ht : IsTree merge node xs) (hr : subject p = node 0)
    (hc : NoClash merge node xs.length (hashed merge p.indices p.lemmas p.leaves)) :
    merge p.rawRoot p.witnessesRoot = p.transactionsRoot ∧
    p.leaves.length = p.indices.length ∧ p.leaves ≠ [] ∧
    ∀ e ∈ p.indices.zip p.leaves, xs.length - 1 ≤ e.1 → e.1 < 2 * xs.length - 1 →
      xs[e.1 - (xs.length - 1)]? = some e.2 := by
  unfold check at h
  by_cases hm : merge p.rawRoot p.witnessesRoot = p.transactionsRoot
  · rw [if_neg (by simpa using hm)] at h
    rw [show (if p.verifyType = 0 then p.rawRoot else p.witnessesRoot) = subject p from rfl] at h
    split at h
    next hv =>
      rw [hr] at hv
      obtain ⟨h1, h2, h3⟩ := verify_sound ht hv hc
      refine ⟨hm, h1, h2, fun e he hlo hhi => ?_⟩
      have hlt : e.1 - (xs.length - 1) < xs.length := by omega
      have := ht.leaf _ hlt
      rw [show xs.length - 1 + (e.1 - (xs.length - 1)) = e.1 by omega] at this
      rw [List.getElem?_eq_getElem hlt, ← this, h3 e he hhi]
    · cases h
  · rw [if_pos hm] at h
    cases h

/-- **Inner nodes as leaves.**  The number of leaves is not part of a proof: the root itself is accepted as
a leaf, with the index zero and no lemmas, whatever the tree. -/
theorem C110_inner_false (merge : T → T → T) (raw wit : T) :
    check merge ⟨0, merge raw wit, wit, raw, [0], [], [raw]⟩ = .ok () := by
  have : downwards [(0, raw)] = [(0, raw)] := by simp [downwards]
  simp [check, verifyProof, proofRoot, this, rounds, climb]

/-- In the same way any inner node: its sibling and those of its ancestors make a proof. -/
theorem C110_child_false (merge : T → T → T) (a b wit : T) :
    check merge ⟨0, merge (merge a b) wit, wit, merge a b, [1], [b], [a]⟩ = .ok () := by
  have : downwards [(1, a)] = [(1, a)] := by simp [downwards]
  simp [check, verifyProof, proofRoot, this, rounds, climb, takeSibling, ordered, parent]

/-! ## Completeness -/

/-- Indices downwards, all above the parent of the first: one level of a tree, or its end followed by the
next level's start. -/
structure Level (q : List Nat) : Prop where
  sorted : q.Pairwise (· > ·)
  last : ∀ i ∈ q.head?, i ≠ 0 → ∀ j ∈ q, parent i < j

theorem Level.step {i : Nat} {q : List Nat} (h : Level (i :: q)) (hi : i ≠ 0) :
    (q.head? = some (sibling i) → Level (q.tail ++ [parent i])) ∧
    (q.head? ≠ some (sibling i) → Level (q ++ [parent i])) := by
  have hs := List.pairwise_cons.1 h.sorted
  have hl : ∀ j ∈ i :: q, parent i < j := h.last i (by simp) hi
  have key : ∀ r : List Nat, r.Pairwise (· > ·) → (∀ j ∈ r, parent i < j) →
      (∀ j ∈ r, j < i) → (∀ j ∈ r.head?, parent j ≠ parent i) → Level (r ++ [parent i]) := by
    intro r h1 h2 h3 h4
    refine ⟨?_, ?_⟩
    · rw [List.pairwise_append]
      refine ⟨h1, by simp, ?_⟩
      intro a ha b hb
      rw [List.mem_singleton] at hb
      subst hb
      exact h2 a ha
    · intro f hf hf0 j hj
      cases r with
      | nil =>
        simp at hf hj
        subst hf hj
        unfold parent at hf0 ⊢
        omega
      | cons g r =>
        simp at hf
        subst hf
        have hp : parent g < parent i := by
          have h5 := h4 g (by simp)
          have h6 := h3 g List.mem_cons_self
          unfold parent at *
          omega
        rcases List.mem_append.1 hj with hj | hj
        · exact Nat.lt_trans hp (h2 j hj)
        · rw [List.mem_singleton] at hj
          subst hj
          exact hp
  constructor
  · intro hq
    cases q with
    | nil => cases hq
    | cons f q =>
      simp at hq
      subst hq
      have hsf := List.pairwise_cons.1 hs.2
      refine key q hsf.2 (fun j hj => hl j (by simp [hj])) (fun j hj => hs.1 j (by simp [hj])) ?_
      intro j hj
      have hjm : j ∈ q := List.mem_of_mem_head? hj
      have h1 := hs.1 (sibling i) List.mem_cons_self
      have h2 := hsf.1 j hjm
      have h3 := hl j (by simp [hjm])
      unfold sibling at h1 h2
      unfold parent at h3 ⊢
      by_cases hodd : i % 2 = 1
      · rw [if_pos hodd] at h1 h2
        omega
      · rw [if_neg hodd] at h1 h2
        omega
  · intro hq
    refine key q hs.2 (fun j hj => hl j (by simp [hj])) hs.1 ?_
    intro j hj hp
    have hjm : j ∈ q := List.mem_of_mem_head? hj
    have h1 := hs.1 j hjm
    have h2 := hl j (by simp [hjm])
    apply hq
    have : j = sibling i := by
      unfold parent at hp h2
      unfold sibling
      split <;> omega
    rw [← this]
    exact hj

omit [DecidableEq T] in
theorem sum_append_singleton (l : List Nat) (a : Nat) : (l ++ [a]).sum = l.sum + a := by simp

/-- Checking retraces building. -/
theorem climb_build {merge : T → T → T} {node : Nat → T} {n : Nat}
    (hin : ∀ i, i + 1 < n → node i = merge (node (2 * i + 1)) (node (2 * i + 2)))
    (fuel : Nat) (q : List Nat) (hq : Level q) (hne : q ≠ []) (hlt : ∀ i ∈ q, i < 2 * n - 1)
    (hf : q.sum < fuel) :
    climb merge fuel (q.map fun i => (i, node i)) (buildLemmas node fuel q) = some (node 0) := by
  induction fuel generalizing q with
  | zero => omega
  | succ fuel ih =>
    cases q with
    | nil => exact absurd rfl hne
    | cons i q =>
      rw [List.map_cons]
      unfold climb buildLemmas
      by_cases hi : i = 0
      · subst hi
        have : q = [] := by
          cases q with
          | nil => rfl
          | cons j q =>
            have := (List.pairwise_cons.1 hq.sorted).1 j List.mem_cons_self
            omega
        subst this
        simp
      · rw [if_neg hi, if_neg hi]
        have hst := hq.step hi
        have hlti := hlt i List.mem_cons_self
        have hp : parent i + 1 < n := by unfold parent; omega
        have hpi : parent i < i := by unfold parent; omega
        have hsum : (i :: q).sum = i + q.sum := by simp
        have hmerge : merge (ordered i (node i) (node (sibling i))).1
            (ordered i (node i) (node (sibling i))).2 = node (parent i) := by
          rw [hin _ hp]
          unfold ordered sibling
          by_cases hodd : i % 2 = 1
          · rw [if_pos hodd, if_pos hodd]
            rw [show 2 * parent i + 1 = i by unfold parent; omega,
              show 2 * parent i + 2 = i + 1 by unfold parent; omega]
          · rw [if_neg hodd, if_neg hodd]
            rw [show 2 * parent i + 1 = i - 1 by unfold parent; omega,
              show 2 * parent i + 2 = i by unfold parent; omega]
        by_cases hh : q.head? = some (sibling i)
        · rw [if_pos hh]
          cases q with
          | nil => cases hh
          | cons j q =>
            simp at hh
            subst hh
            have e : takeSibling i (((sibling i) :: q).map fun i => (i, node i))
                (buildLemmas node fuel (((sibling i) :: q).tail ++ [parent i]))
              = some (node (sibling i), q.map (fun i => (i, node i)),
                buildLemmas node fuel (((sibling i) :: q).tail ++ [parent i])) := by
              simp [takeSibling]
            rw [e]
            dsimp only
            rw [hmerge]
            have := ih (q ++ [parent i]) (hst.1 (by simp)) (by simp) (by
              intro j hj
              rcases List.mem_append.1 hj with hj | hj
              · exact hlt j (by simp [hj])
              · rw [List.mem_singleton] at hj; omega) (by
              rw [sum_append_singleton]
              simp at hf
              omega)
            rw [List.map_append] at this
            exact this
        · rw [if_neg hh]
          have e : takeSibling i (q.map fun i => (i, node i))
              (node (sibling i) :: buildLemmas node fuel (q ++ [parent i]))
            = some (node (sibling i), q.map (fun i => (i, node i)),
              buildLemmas node fuel (q ++ [parent i])) := by
            cases q with
            | nil => rfl
            | cons j q =>
              have : j ≠ sibling i := by simpa using hh
              simp [takeSibling, this]
          rw [e]
          dsimp only
          rw [hmerge]
          have := ih (q ++ [parent i]) (hst.2 hh) (by simp) (by
            intro j hj
            rcases List.mem_append.1 hj with hj | hj
            · exact hlt j (by simp [hj])
            · rw [List.mem_singleton] at hj; omega) (by
            rw [sum_append_singleton]
            omega)
          rw [List.map_append] at this
          exact this

/-- **C110, true statements have proofs.**  For every non-empty set of leaves of a tree (given by their
indices, downwards) the proof that is built passes the check. -/
theorem C110_complete {merge : T → T → T} {node : Nat → T} {xs : List T} (ht : IsTree merge node xs)
    (is : List Nat) (hne : is ≠ []) (hs : is.Pairwise (· > ·))
    (hr : ∀ i ∈ is, xs.length - 1 ≤ i ∧ i < 2 * xs.length - 1) :
    verifyProof merge (node 0) is (buildLemmas node (is.sum + 1) is) (is.map node) = true := by
  have hz : is.zip (is.map node) = is.map fun i => (i, node i) := by
    clear hne hs hr
    induction is with
    | nil => rfl
    | cons i is ih => simp [ih]
  have hd : downwards (is.zip (is.map node)) = is.map fun i => (i, node i) := by
    rw [hz]
    unfold downwards
    apply List.mergeSort_of_pairwise
    rw [List.pairwise_map]
    exact hs.imp (by intro a b h; simp; omega)
  have hrd : rounds (is.zip (is.map node)) = is.sum + 1 := by
    rw [hz]
    unfold rounds
    simp [List.map_map, Function.comp_def]
  have hlev : Level is := by
    refine ⟨hs, fun i hi hi0 j hj => ?_⟩
    have h1 := hr i (List.mem_of_mem_head? hi)
    have h2 := hr j hj
    unfold parent
    omega
  have := climb_build ht.inner (is.sum + 1) is hlev hne (fun i hi => (hr i hi).2) (by omega)
  unfold verifyProof proofRoot
  rw [if_neg (by simp [hne]), hd, hrd, this]
  simp

/-- The check for clients accepts the same payloads as the contract. -/
theorem C110_agree (merge : T → T → T) (p : Payload T) :
    clientCheck merge p = true ↔ check merge p = .ok () := by
  unfold clientCheck check
  by_cases h : merge p.rawRoot p.witnessesRoot = p.transactionsRoot
  · simp only [h, bne_self_eq_false, Bool.false_eq_true, if_false, ne_eq, not_true, beq_iff_eq]
    generalize verifyProof merge _ _ _ _ = v
    cases v <;> simp
  · simp [h]

/-- The contract succeeds, for 56000 gas, exactly on inputs that decode and pass the check, and its answer is
then one byte. -/
theorem C110_exec_iff (merge : T → T → T) (parse : Bytes → Option (Payload T)) (input : Bytes)
    (limit : Option Nat) (out : Bytes) (gas : Nat) :
    exec merge parse input limit = .done out gas ↔
      out = [1] ∧ gas = 56000 ∧ (∀ l ∈ limit, 56000 ≤ l) ∧
        ∃ p, parse input = some p ∧ check merge p = .ok () := by
  unfold exec priced
  by_cases hl : limit.any (· < 56000) = true
  · rw [if_pos hl]
    constructor
    · intro h; cases h
    · rintro ⟨_, _, h, _⟩
      cases limit with
      | none => cases hl
      | some l =>
        have h1 := h l rfl
        have h2 : l < 56000 := by simpa using hl
        omega
  · rw [if_neg hl]
    have hl : ∀ l ∈ limit, 56000 ≤ l := by
      intro l h
      cases h
      simpa using hl
    cases hp : parse input with
    | none => simp
    | some p =>
      dsimp only
      cases hc : check merge p with
      | error e => simp [hc]
      | ok u =>
        simp [hc]
        constructor
        · rintro ⟨rfl, rfl⟩; exact ⟨rfl, rfl, hl⟩
        · rintro ⟨rfl, rfl, _⟩; exact ⟨rfl, rfl⟩

/-- **The answer is no Solidity `bool`**, which takes 32 bytes. -/
theorem C110_output_false (merge : T → T → T) (parse : Bytes → Option (Payload T)) (input : Bytes)
    (limit : Option Nat) (out : Bytes) (gas : Nat) (h : exec merge parse input limit = .done out gas) :
    out ≠ beFixed 32 1 := by
  obtain ⟨rfl, _⟩ := (C110_exec_iff merge parse input limit out gas).1 h
  decide

/-! ## Cases that meet the hypotheses -/

/-- Hashes that are their own preimage. -/
inductive H where
  | leaf (n : Nat)
  | pair (a b : H)
deriving DecidableEq

/-- A tree over three leaves: node 1 is inner, nodes 2, 3, 4 are the leaves. -/
def node3 : Nat → H
  | 0 => .pair (.pair (.leaf 20) (.leaf 30)) (.leaf 10)
  | 1 => .pair (.leaf 20) (.leaf 30)
  | 2 => .leaf 10
  | 3 => .leaf 20
  | _ => .leaf 30

theorem tree3 : IsTree H.pair node3 [.leaf 10, .leaf 20, .leaf 30] where
  nonempty := by simp
  inner i hi := by
    have : i = 0 ∨ i = 1 := by simp at hi; omega
    rcases this with rfl | rfl <;> rfl
  leaf k hk := by
    have : k = 0 ∨ k = 1 ∨ k = 2 := by simp at hk; omega
    rcases this with rfl | rfl | rfl <;> rfl

/-- Nothing collides. -/
example (l : List (H × H)) : NoClash H.pair node3 3 l := by
  intro ab _ i hi h
  rw [tree3.inner i hi] at h
  obtain ⟨a, b⟩ := ab
  cases h
  rfl

-- two of the three leaves, on two levels, with one lemma
example : check H.pair ⟨0, .pair (node3 0) (.leaf 7), .leaf 7, node3 0, [2, 4], [.leaf 20],
    [.leaf 10, .leaf 30]⟩ = .ok () := by
  simp [check, verifyProof, proofRoot, downwards, rounds, climb, takeSibling, ordered, sibling, parent,
    node3, List.mergeSort, List.MergeSort.Internal.splitInTwo, List.merge]
-- exchanged leaves are refused
example : check H.pair ⟨0, .pair (node3 0) (.leaf 7), .leaf 7, node3 0, [2, 4], [.leaf 20],
    [.leaf 30, .leaf 10]⟩ = .error .proof := by
  simp [check, verifyProof, proofRoot, downwards, rounds, climb, takeSibling, ordered, sibling, parent,
    node3, List.mergeSort, List.MergeSort.Internal.splitInTwo, List.merge]
-- the indices of `C110_complete`
example : verifyProof H.pair (node3 0) [4, 2] (buildLemmas node3 7 [4, 2]) [.leaf 30, .leaf 10] = true :=
  C110_complete tree3 [4, 2] (by simp) (by simp) (by simp)
-- an inner node accepted as a leaf
example : check H.pair ⟨0, .pair (node3 0) (.leaf 7), .leaf 7, node3 0, [1], [.leaf 10], [node3 1]⟩ = .ok () :=
  C110_child_false H.pair (node3 1) (.leaf 10) (.leaf 7)

end Axon.Cbmt
