import Verif.Util.Assoc
import Verif.Util.Bytes

/-!
# Voters and weight of a block proof

Model of `verify_proof_weight` and the voter extraction of `verify_proof` in
`core/consensus/src/adapter.rs`, and of the light-client verifier `devtools/axon-tools/src/proof.rs`.

Not modelled: the BLS aggregate signature itself and the hashing of the proposal.  `extract_voters` belongs to
the `overlord` crate, which is not part of the repository: it sorts the authority list and keeps the
addresses whose bit is set.
-/

namespace Axon.Proof
open Axon.Assoc

/-- `ValidatorExtend`, `protocol/src/types/primitive.rs:534-542`, restricted to the fields used here.  Public
keys are opaque and ordered, hence natural numbers; `vote` is a `u32`. -/
structure Validator where
  key : Nat
  bls : Nat
  vote : Nat
deriving DecidableEq, Repr

/-- Insertion into a list sorted by key, before entries with the same key. -/
def insertV (v : Validator) : List Validator → List Validator
  | [] => [v]
  | x :: xs => if v.key ≤ x.key then v :: x :: xs else x :: insertV v xs

/-- The order of the list a bitmap refers to: by public key (`overlord::types::Node` sorts by address, which is
the public key, `adapter.rs:509-517`; `axon-tools/src/types.rs:540-544`).  `slice::sort` is stable, and a stable sort is unique. -/
def sortV (vs : List Validator) : List Validator := vs.foldr insertV []

/-- `BitVec::from_bytes`: eight bits per byte, most significant first. -/
def bits (bm : Bytes) : List Bool := bm.flatMap fun b => (List.range 8).map fun i => b.toNat.testBit (7 - i)

/-- Validators whose bit is set; a bitmap that is too short counts as zero-padded, excess bits are ignored
(`zip`). -/
def pick (vs : List Validator) (bs : List Bool) : List Validator :=
  ((vs.zip bs).filter (·.2)).map (·.1)

/-- `extract_voters` (crate `overlord`) as used in `adapter.rs:519-522`. -/
def extractVoters (vs : List Validator) (bm : Bytes) : List Nat := (pick (sortV vs) (bits bm)).map (·.key)

/-- `weight_map`, `adapter.rs:531-534`: collecting into a `HashMap`, the last entry of a key wins. -/
def weightMap (vs : List Validator) : List (Nat × Nat) := vs.foldl (fun m v => put m v.key v.vote) []

inductive ProofErr where
  | validator
  | weight
deriving DecidableEq, Repr

/-- `u64` addition and multiplication with overflow checks. -/
def u64? (n : Nat) : Option Nat := if n < 2 ^ 64 then some n else none

/-- The accumulation loop of `verify_proof_weight`, `adapter.rs:604-628`. -/
def accumulate (m : List (Nat × Nat)) : Nat → List Nat → Option (Except ProofErr Nat)
  | acc, [] => some (.ok acc)
  | acc, k :: rest =>
    match get m k with
    | some w => (u64? (acc + w)).bind fun a => accumulate m a rest
    | none => some (.error .validator)

/-- `verify_proof_weight`, `adapter.rs:593-640`; `none` is an overflow panic. -/
def verifyProofWeight (m : List (Nat × Nat)) (voters : List Nat) : Option (Except ProofErr Unit) :=
  (u64? ((m.map (·.2)).sum)).bind fun total =>
    (accumulate m 0 voters).bind fun r =>
      match r with
      | .error e => some (.error e)
      | .ok acc =>
        (u64? (3 * acc)).bind fun a =>
          (u64? (2 * total)).bind fun b =>
            if a ≤ b then some (.error .weight) else some (.ok ())

/-- The voter part of `verify_proof`, `adapter.rs:509-541`. -/
def nodeAccepts (vs : List Validator) (bm : Bytes) : Option (Except ProofErr Unit) :=
  verifyProofWeight (weightMap (sortV vs)) (extractVoters vs bm)

/-- `extract_pks` of the light client, `axon-tools/src/proof.rs:78-104`; `none` is `NotEnoughSignatures`
(decoding of the keys is not modelled). -/
def extractPks (vs : List Validator) (bm : Bytes) : Option (List Nat) :=
  let picked := pick (sortV vs) (bits bm)
  if picked.length * 3 ≤ (sortV vs).length * 2 then none else some (picked.map (·.bls))

/-! ## Lemmas -/

/-- Weight of the validators whose key satisfies `p`. -/
def wsum (p : Nat → Bool) (vs : List Validator) : Nat := ((vs.filter (fun v => p v.key)).map (·.vote)).sum

theorem wsum_nil (p : Nat → Bool) : wsum p [] = 0 := rfl

theorem wsum_cons (p : Nat → Bool) (v : Validator) (vs : List Validator) :
    wsum p (v :: vs) = (if p v.key then v.vote else 0) + wsum p vs := by
  unfold wsum
  by_cases h : p v.key <;> simp [h]

theorem wsum_perm {p : Nat → Bool} {a b : List Validator} (h : a.Perm b) : wsum p a = wsum p b := by
  unfold wsum
  exact List.Perm.sum_nat ((h.filter _).map _)

theorem wsum_inclusion (p q : Nat → Bool) (vs : List Validator) :
    wsum p vs + wsum q vs ≤ wsum (fun k => p k && q k) vs + (vs.map (·.vote)).sum := by
  induction vs with
  | nil => simp [wsum]
  | cons v vs ih =>
    simp only [wsum_cons, List.map_cons, List.sum_cons]
    cases p v.key <;> cases q v.key <;> simp <;> omega

theorem wsum_congr {p q : Nat → Bool} {vs : List Validator} (h : ∀ v ∈ vs, p v.key = q v.key) :
    wsum p vs = wsum q vs := by
  induction vs with
  | nil => rfl
  | cons v vs ih =>
    rw [wsum_cons, wsum_cons, h v (by simp), ih fun x hx => h x (by simp [hx])]

theorem wsum_le (p : Nat → Bool) (vs : List Validator) : wsum p vs ≤ (vs.map (·.vote)).sum := by
  induction vs with
  | nil => simp [wsum]
  | cons v vs ih =>
    simp only [wsum_cons, List.map_cons, List.sum_cons]
    split <;> omega

theorem pick_sublist (vs : List Validator) (bs : List Bool) : (pick vs bs).Sublist vs := by
  unfold pick
  have h1 : ((vs.zip bs).filter (·.2)).Sublist (vs.zip bs) := List.filter_sublist
  have h2 := h1.map (·.1)
  refine h2.trans ?_
  have : ((vs.zip bs).map (·.1)) = vs.take bs.length := by
    clear h1 h2
    induction vs generalizing bs with
    | nil => simp
    | cons v vs ih =>
      cases bs with
      | nil => simp
      | cons b bs => simp [ih]
  rw [this]
  exact List.take_sublist _ _

/-- A sublist of validators with distinct keys weighs what its keys weigh in the whole list. -/
theorem sublist_weight : ∀ {a vs : List Validator}, a.Sublist vs → (vs.map (·.key)).Nodup →
    (a.map (·.vote)).sum = wsum (fun k => (a.map (·.key)).contains k) vs := by
  intro a vs h
  induction h with
  | slnil => intro _; rfl
  | cons v h ih =>
    intro hn
    simp only [List.map_cons, List.nodup_cons] at hn
    rw [wsum_cons, ih hn.2]
    rw [if_neg]
    · simp
    · intro hc
      rw [List.contains_iff_mem] at hc
      exact hn.1 ((h.map _).subset hc)
  | cons_cons v h ih =>
    intro hn
    simp only [List.map_cons, List.nodup_cons] at hn
    rw [wsum_cons]
    simp only [List.map_cons, List.sum_cons]
    rw [if_pos (by simp), ih hn.2]
    congr 1
    apply wsum_congr
    intro x hx
    have : x.key ≠ v.key := fun e => hn.1 (e ▸ List.mem_map_of_mem hx)
    simp [this]

theorem insertV_perm (v : Validator) (l : List Validator) : (insertV v l).Perm (v :: l) := by
  induction l with
  | nil => exact .refl _
  | cons x xs ih =>
    unfold insertV
    split
    · exact .refl _
    · exact (ih.cons x).trans (.swap v x xs)

theorem sortV_perm (vs : List Validator) : (sortV vs).Perm vs := by
  induction vs with
  | nil => exact .refl _
  | cons v vs ih => exact (insertV_perm v _).trans (ih.cons v)

theorem insertV_sorted {v : Validator} {l : List Validator} (h : l.Pairwise (fun a b => a.key ≤ b.key)) :
    (insertV v l).Pairwise (fun a b => a.key ≤ b.key) := by
  induction l with
  | nil => simp [insertV]
  | cons x xs ih =>
    rw [List.pairwise_cons] at h
    unfold insertV
    split
    · rename_i hle
      rw [List.pairwise_cons, List.pairwise_cons]
      refine ⟨?_, h⟩
      intro b hb
      rcases List.mem_cons.1 hb with rfl | hb
      · exact hle
      · have := h.1 b hb; omega
    · rename_i hle
      rw [List.pairwise_cons]
      refine ⟨?_, ih h.2⟩
      intro b hb
      rcases List.mem_cons.1 ((insertV_perm v xs).mem_iff.1 hb) with rfl | hb
      · omega
      · exact h.1 b hb

theorem sortV_le (vs : List Validator) : (sortV vs).Pairwise (fun a b => a.key ≤ b.key) := by
  induction vs with
  | nil => exact List.Pairwise.nil
  | cons v vs ih => exact insertV_sorted ih

theorem foldl_put_get {vs : List Validator} : ∀ {m : List (Nat × Nat)}, (vs.map (·.key)).Nodup → ∀ k,
    get (vs.foldl (fun m v => put m v.key v.vote) m) k =
      match vs.find? (fun v => v.key = k) with
      | some v => some v.vote
      | none => get m k := by
  induction vs with
  | nil => intro m _ k; rfl
  | cons v vs ih =>
    intro m hn k
    simp only [List.map_cons, List.nodup_cons] at hn
    rw [List.foldl_cons, ih hn.2 k]
    by_cases hk : v.key = k
    · have : vs.find? (fun v => v.key = k) = none := by
        rw [List.find?_eq_none]
        intro x hx
        simp only [decide_eq_true_eq]
        intro e
        exact hn.1 (by rw [hk, ← e]; exact List.mem_map_of_mem hx)
      rw [this, List.find?_cons_of_pos (by simpa using hk)]
      simp only [get_put]
      rw [if_pos hk.symm]
    · rw [List.find?_cons_of_neg (by simpa using hk)]
      cases vs.find? (fun v => v.key = k) with
      | some x => rfl
      | none => simp only [get_put]; rw [if_neg (fun e => hk e.symm)]

theorem weightMap_get {vs : List Validator} (hn : (vs.map (·.key)).Nodup) {v : Validator} (hv : v ∈ vs) :
    get (weightMap vs) v.key = some v.vote := by
  unfold weightMap
  rw [foldl_put_get hn]
  cases hf : vs.find? (fun x => x.key = v.key) with
  | none =>
    rw [List.find?_eq_none] at hf
    exact absurd (by simp) (hf v hv)
  | some x =>
    have h1 := List.mem_of_find?_eq_some hf
    have h2 : x.key = v.key := by simpa using List.find?_some hf
    have : x = v := by
      have hp : vs.Pairwise (fun a b => a.key ≠ b.key) := List.pairwise_map.1 hn
      clear hf
      induction vs with
      | nil => cases hv
      | cons y ys ih =>
        rw [List.pairwise_cons] at hp
        rcases List.mem_cons.1 hv with rfl | hv'
        · rcases List.mem_cons.1 h1 with rfl | h1'
          · rfl
          · exact absurd h2.symm (hp.1 x h1')
        · rcases List.mem_cons.1 h1 with rfl | h1'
          · exact absurd h2 (hp.1 v hv')
          · exact ih (by rw [List.map_cons, List.nodup_cons] at hn; exact hn.2) hv' h1' hp.2
    rw [this]

theorem weightMap_total : ∀ (vs : List Validator) (m : List (Nat × Nat)), (vs.map (·.key)).Nodup →
    (∀ v ∈ vs, ∀ e ∈ m, e.1 ≠ v.key) →
    ((vs.foldl (fun m v => put m v.key v.vote) m).map (·.2)).sum = (m.map (·.2)).sum + (vs.map (·.vote)).sum := by
  intro vs
  induction vs with
  | nil => intro m _ _; simp
  | cons v vs ih =>
    intro m hn hd
    simp only [List.map_cons, List.nodup_cons] at hn
    rw [List.foldl_cons]
    have hput : put m v.key v.vote = (v.key, v.vote) :: m := by
      unfold put
      rw [List.filter_eq_self.2]
      intro e he
      simpa using hd v (by simp) e he
    rw [hput, ih _ hn.2]
    · simp; omega
    · intro x hx e he
      rcases List.mem_cons.1 he with rfl | he
      · exact fun h => hn.1 (by have h' : v.key = x.key := h; rw [h']; exact List.mem_map_of_mem hx)
      · exact hd x (by simp [hx]) e he

theorem accumulate_ok {m : List (Nat × Nat)} : ∀ {l : List Nat} {acc r : Nat}, accumulate m acc l = some (.ok r) →
    ∃ ws, l.mapM (get m) = some ws ∧ r = acc + ws.sum := by
  intro l
  induction l with
  | nil => intro acc r h; simp [accumulate] at h; exact ⟨[], by simp, by simp [h]⟩
  | cons k l ih =>
    intro acc r h
    unfold accumulate at h
    cases hg : get m k with
    | none => simp [hg] at h
    | some w =>
      simp only [hg, Option.bind_eq_some_iff] at h
      obtain ⟨a, ha, h⟩ := h
      have ha' : a = acc + w := by unfold u64? at ha; split at ha <;> simp at ha; exact ha.symm
      obtain ⟨ws, h1, h2⟩ := ih h
      refine ⟨w :: ws, by simp [List.mapM_cons, hg, h1], ?_⟩
      simp only [List.sum_cons]; omega

/-- If nothing can overflow the loop is a plain sum. -/
theorem accumulate_total {m : List (Nat × Nat)} : ∀ (l : List Nat) (acc : Nat) (ws : List Nat),
    l.mapM (get m) = some ws → acc + ws.sum < 2 ^ 64 → accumulate m acc l = some (.ok (acc + ws.sum)) := by
  intro l
  induction l with
  | nil => intro acc ws h _; simp at h; subst h; rfl
  | cons k l ih =>
    intro acc ws h hlt
    rw [List.mapM_cons] at h
    simp only [Option.bind_eq_bind, Option.bind_eq_some_iff, Option.pure_def, Option.some.injEq] at h
    obtain ⟨w, hw, ws', h', rfl⟩ := h
    simp only [List.sum_cons] at hlt ⊢
    unfold accumulate
    simp only [hw]
    unfold u64?
    rw [if_pos (by omega)]
    simp only [Option.bind_some]
    rw [ih (acc + w) ws' h' (by omega), Nat.add_assoc]

end Axon.Proof
