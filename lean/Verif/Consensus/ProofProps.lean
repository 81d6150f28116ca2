import Verif.Consensus.Proof

/-!
# C25, C26: quorums of block proofs
-/

namespace Axon.Proof
open Axon.Assoc

/-! ## Specification -/

/-- Bit `i` of a bitmap: bit `7 - i % 8` of byte `i / 8`; missing bytes are zero. -/
def bitAt (bm : Bytes) (i : Nat) : Bool :=
  match bm[i / 8]? with
  | some b => b.toNat.testBit (7 - i % 8)
  | none => false

/-- Position of a validator: how many validators have a smaller key. -/
def rank (vs : List Validator) (v : Validator) : Nat := (vs.filter (fun x => decide (x.key < v.key))).length

/-- The validators that signed according to the bitmap. -/
def signers (vs : List Validator) (bm : Bytes) : List Validator := vs.filter (fun v => bitAt bm (rank vs v))

/-- Total voting weight of some validators. -/
def weight (vs : List Validator) : Nat := (vs.map (·.vote)).sum

/-- Public keys are distinct. -/
def Distinct (vs : List Validator) : Prop := (vs.map (·.key)).Nodup

/-! ## Lemmas -/

theorem bits_getElem (bm : Bytes) : ∀ i, (bits bm)[i]? = (bm[i / 8]?).map (fun b => b.toNat.testBit (7 - i % 8)) := by
  induction bm with
  | nil => intro i; simp [bits]
  | cons b bm ih =>
    intro i
    have e : bits (b :: bm) = ((List.range 8).map fun i => b.toNat.testBit (7 - i)) ++ bits bm := by simp [bits]
    rw [e]
    by_cases h : i < 8
    · rw [List.getElem?_append_left (by simpa using h)]
      have h0 : i / 8 = 0 := by omega
      have h1 : i % 8 = i := by omega
      rw [h0, h1]
      simp [h]
    · rw [List.getElem?_append_right (by simpa using h)]
      simp only [List.length_map, List.length_range]
      rw [ih]
      have h0 : i / 8 = (i - 8) / 8 + 1 := by omega
      have h1 : i % 8 = (i - 8) % 8 := by omega
      rw [h0, h1, List.getElem?_cons_succ]

theorem mem_pick {vs : List Validator} {bs : List Bool} {v : Validator} :
    v ∈ pick vs bs ↔ ∃ i : Nat, vs[i]? = some v ∧ bs[i]? = some true := by
  induction vs generalizing bs with
  | nil => simp [pick]
  | cons x vs ih =>
    cases bs with
    | nil => simp [pick]
    | cons b bs =>
      have e : pick (x :: vs) (b :: bs) = (if b then [x] else []) ++ pick vs bs := by
        unfold pick; cases b <;> simp
      rw [e, List.mem_append, ih]
      constructor
      · rintro (h | ⟨i, h1, h2⟩)
        · cases b <;> simp at h
          exact ⟨0, by simp [h], by simp⟩
        · exact ⟨i + 1, by simpa using h1, by simpa using h2⟩
      · rintro ⟨i, h1, h2⟩
        cases i with
        | zero =>
          simp at h1 h2
          left; simp [h1, h2]
        | succ i => exact .inr ⟨i, by simpa using h1, by simpa using h2⟩

theorem sortV_sorted {vs : List Validator} (hd : Distinct vs) : (sortV vs).Pairwise (fun a b => a.key < b.key) := by
  have h1 := sortV_le vs
  have h2 : (sortV vs).Pairwise (fun a b => a.key ≠ b.key) :=
    by
    have : ((sortV vs).map (·.key)).Nodup := ((sortV_perm vs).map _).nodup_iff.2 hd
    exact List.pairwise_map.1 this
  refine (h1.and h2).imp ?_
  rintro a b ⟨h, h'⟩
  omega

theorem rank_sorted {l : List Validator} (hl : l.Pairwise (fun a b => a.key < b.key)) {i : Nat} {v : Validator}
    (h : l[i]? = some v) : rank l v = i := by
  induction l generalizing i with
  | nil => simp at h
  | cons x l ih =>
    rw [List.pairwise_cons] at hl
    cases i with
    | zero =>
      simp at h; subst h
      unfold rank
      rw [List.filter_cons_of_neg (by simp), List.filter_eq_nil_iff.2]
      · rfl
      · intro y hy
        have := hl.1 y hy
        simp; omega
    | succ i =>
      simp at h
      have := ih hl.2 h
      unfold rank at this ⊢
      rw [List.filter_cons_of_pos (by simpa using hl.1 v (List.mem_of_getElem? h))]
      simp [this]

theorem rank_perm {a b : List Validator} (h : a.Perm b) (v : Validator) : rank a v = rank b v :=
  (h.filter _).length_eq

/-- Picking by position in the sorted list is signing according to the bitmap. -/
theorem mem_picked {vs : List Validator} (hd : Distinct vs) (bm : Bytes) (v : Validator) :
    v ∈ pick (sortV vs) (bits bm) ↔ v ∈ signers vs bm := by
  unfold signers
  rw [mem_pick, List.mem_filter]
  have hs := sortV_sorted hd
  constructor
  · rintro ⟨i, h1, h2⟩
    have hr := rank_sorted hs h1
    rw [rank_perm (sortV_perm vs)] at hr
    refine ⟨(sortV_perm vs).mem_iff.1 (List.mem_of_getElem? h1), ?_⟩
    rw [hr]
    rw [bits_getElem] at h2
    unfold bitAt
    cases hb : bm[i / 8]? with
    | none => simp [hb] at h2
    | some b => simpa [hb] using h2
  · rintro ⟨hm, hb⟩
    obtain ⟨i, hi⟩ := List.mem_iff_getElem?.1 ((sortV_perm vs).mem_iff.2 hm)
    have hr := rank_sorted hs hi
    rw [rank_perm (sortV_perm vs)] at hr
    refine ⟨i, hi, ?_⟩
    rw [bits_getElem]
    rw [hr] at hb
    unfold bitAt at hb
    cases hx : bm[i / 8]? with
    | none => simp [hx] at hb
    | some b => simpa [hx] using hb

theorem mem_unique {vs : List Validator} (hd : Distinct vs) {a b : Validator} (ha : a ∈ vs) (hb : b ∈ vs)
    (h : a.key = b.key) : a = b := by
  have h1 := weightMap_get hd ha
  have hp : vs.Pairwise (fun a b => a.key ≠ b.key) := List.pairwise_map.1 hd
  clear h1 hd
  induction vs with
  | nil => cases ha
  | cons y ys ih =>
    rw [List.pairwise_cons] at hp
    rcases List.mem_cons.1 hb with rfl | hb'
    · rcases List.mem_cons.1 ha with rfl | ha'
      · rfl
      · exact absurd h.symm (hp.1 a ha')
    · rcases List.mem_cons.1 ha with rfl | ha'
      · exact absurd h (hp.1 b hb')
      · exact ih ha' hb' hp.2

/-- Weight and number of the picked validators. -/
theorem picked_weight {vs : List Validator} (hd : Distinct vs) (bm : Bytes) :
    ((pick (sortV vs) (bits bm)).map (·.vote)).sum = weight (signers vs bm) ∧
    (pick (sortV vs) (bits bm)).length = (signers vs bm).length := by
  have hp : (pick (sortV vs) (bits bm)).Perm (signers vs bm) := by
    rw [List.perm_ext_iff_of_nodup]
    · exact mem_picked hd bm
    · have : (sortV vs).Nodup := (sortV_sorted hd).imp (fun h e => by rw [e] at h; omega)
      exact this.sublist (pick_sublist _ _)
    · have : vs.Nodup := by
        have h := List.pairwise_map.1 hd
        exact h.imp (fun h e => h (by rw [e]))
      exact this.filter _
  exact ⟨List.Perm.sum_nat (hp.map _), hp.length_eq⟩

theorem mapM_get_picked {vs : List Validator} (hd : Distinct vs) : ∀ {l : List Validator}, (∀ v ∈ l, v ∈ vs) →
    (l.map (·.key)).mapM (get (weightMap (sortV vs))) = some (l.map (·.vote)) := by
  intro l
  induction l with
  | nil => intro _; simp
  | cons v l ih =>
    intro h
    have hd' : ((sortV vs).map (·.key)).Nodup := ((sortV_perm vs).map _).nodup_iff.2 hd
    simp only [List.map_cons, List.mapM_cons,
      weightMap_get hd' ((sortV_perm vs).mem_iff.2 (h v (by simp))), ih fun x hx => h x (by simp [hx])]
    rfl

theorem node_decision {vs : List Validator} (hd : Distinct vs) (hw : 3 * weight vs < 2 ^ 64) (bm : Bytes) :
    nodeAccepts vs bm =
      if 3 * weight (signers vs bm) ≤ 2 * weight vs then some (.error .weight) else some (.ok ()) := by
  have hd' : ((sortV vs).map (·.key)).Nodup := ((sortV_perm vs).map _).nodup_iff.2 hd
  have htot : ((weightMap (sortV vs)).map (·.2)).sum = weight vs := by
    unfold weightMap
    rw [weightMap_total _ _ hd' (by simp)]
    simp only [List.map_nil, List.sum_nil, Nat.zero_add]
    exact List.Perm.sum_nat ((sortV_perm vs).map _)
  have hacc := mapM_get_picked hd (l := pick (sortV vs) (bits bm))
    (fun v hv => (sortV_perm vs).mem_iff.1 ((pick_sublist _ _).subset hv))
  obtain ⟨hpw, _⟩ := picked_weight hd bm
  have hle : weight (signers vs bm) ≤ weight vs := by
    have := wsum_le (fun k => (vs.filter (fun v => bitAt bm (rank vs v))).map (·.key) |>.contains k) vs
    have hsub : (signers vs bm).Sublist vs := List.filter_sublist
    rw [show weight (signers vs bm) = _ from sublist_weight hsub hd]
    exact wsum_le _ _
  unfold nodeAccepts verifyProofWeight extractVoters
  rw [htot]
  rw [accumulate_total _ 0 _ hacc (by rw [hpw]; omega)]
  rw [hpw]
  unfold u64?
  rw [if_pos (by omega)]
  simp only [Option.bind_some, Nat.zero_add]
  rw [if_pos (by omega)]
  simp only [Option.bind_some]
  rw [if_pos (by omega)]
  rfl

/-! ## C25 -/

/-- A proof's voter set is accepted iff the signers hold more than two thirds of the voting weight (for
validators with distinct keys whose total weight stays below `2^64 / 3`). -/
theorem C25_accept_iff {vs : List Validator} (hd : Distinct vs) (hw : 3 * weight vs < 2 ^ 64) (bm : Bytes) :
    nodeAccepts vs bm = some (.ok ()) ↔ 2 * weight vs < 3 * weight (signers vs bm) := by
  rw [node_decision hd hw]
  split
  · simp; omega
  · simp; omega

/-- Acceptance implies the two-thirds majority without any bound on the weights: where the sums overflow, the
node panics and accepts nothing. -/
theorem C25_accept_only {vs : List Validator} (hd : Distinct vs) {bm : Bytes}
    (h : nodeAccepts vs bm = some (.ok ())) : 2 * weight vs < 3 * weight (signers vs bm) := by
  have hd' : ((sortV vs).map (·.key)).Nodup := ((sortV_perm vs).map _).nodup_iff.2 hd
  have htot : ((weightMap (sortV vs)).map (·.2)).sum = weight vs := by
    unfold weightMap
    rw [weightMap_total _ _ hd' (by simp)]
    simp only [List.map_nil, List.sum_nil, Nat.zero_add]
    exact List.Perm.sum_nat ((sortV_perm vs).map _)
  have hacc := mapM_get_picked hd (l := pick (sortV vs) (bits bm))
    (fun v hv => (sortV_perm vs).mem_iff.1 ((pick_sublist _ _).subset hv))
  unfold nodeAccepts verifyProofWeight extractVoters at h
  rw [htot] at h
  simp only [Option.bind_eq_some_iff] at h
  obtain ⟨total, ht, r, hr, h⟩ := h
  have hu : ∀ {n m : Nat}, u64? n = some m → m = n := by
    intro n m hh; unfold u64? at hh; split at hh <;> simp at hh; exact hh.symm
  cases r with
  | error e => simp at h
  | ok acc =>
    obtain ⟨ws, hws, hacc'⟩ := accumulate_ok hr
    rw [hacc] at hws
    cases hws
    rw [(picked_weight hd bm).1, Nat.zero_add] at hacc'
    simp only [Option.bind_eq_some_iff] at h
    obtain ⟨a, ha, b, hb, h⟩ := h
    have := hu ha; have := hu hb; have := hu ht
    split at h
    · simp at h
    · omega

/-- An accepted address list consists of validators only, whatever the list is. -/
theorem C25_only_validators {m : List (Nat × Nat)} {voters : List Nat}
    (h : verifyProofWeight m voters = some (.ok ())) : ∀ k ∈ voters, ∃ w, get m k = some w := by
  unfold verifyProofWeight at h
  simp only [Option.bind_eq_some_iff] at h
  obtain ⟨_, _, r, hr, h⟩ := h
  cases r with
  | error e => simp at h
  | ok acc =>
    obtain ⟨ws, hws, hsum⟩ := accumulate_ok hr
    clear h hr hsum
    induction voters generalizing ws with
    | nil => intro k hk; cases hk
    | cons x l ih =>
      rw [List.mapM_cons] at hws
      simp only [Option.bind_eq_bind, Option.bind_eq_some_iff, Option.pure_def, Option.some.injEq] at hws
      obtain ⟨w, hw, ws', h', rfl⟩ := hws
      intro k hk
      rcases List.mem_cons.1 hk with rfl | hk
      · exact ⟨w, hw⟩
      · exact ih ws' h' k hk

/-- Two accepted proofs: the validators that signed both hold more than a third of the voting weight. -/
theorem C25_intersection {vs : List Validator} (hd : Distinct vs) {bm bm' : Bytes}
    (h : nodeAccepts vs bm = some (.ok ())) (h' : nodeAccepts vs bm' = some (.ok ())) :
    weight vs < 3 * weight (vs.filter (fun v => decide (v ∈ signers vs bm ∧ v ∈ signers vs bm'))) := by
  have h := C25_accept_only hd h
  have h' := C25_accept_only hd h'
  have s1 : (signers vs bm).Sublist vs := List.filter_sublist
  have s2 : (signers vs bm').Sublist vs := List.filter_sublist
  have e1 : weight (signers vs bm) = _ := sublist_weight s1 hd
  have e2 : weight (signers vs bm') = _ := sublist_weight s2 hd
  have hinc := wsum_inclusion (fun k => ((signers vs bm).map (·.key)).contains k)
    (fun k => ((signers vs bm').map (·.key)).contains k) vs
  have e3 : wsum (fun k => ((signers vs bm).map (·.key)).contains k && ((signers vs bm').map (·.key)).contains k) vs =
      weight (vs.filter (fun v => decide (v ∈ signers vs bm ∧ v ∈ signers vs bm'))) := by
    unfold wsum weight
    congr 2
    apply List.filter_congr
    intro v hv
    have key : ∀ bm, ((signers vs bm).map (·.key)).contains v.key = true ↔ v ∈ signers vs bm := by
      intro bm
      rw [List.contains_iff_mem, List.mem_map]
      constructor
      · rintro ⟨x, hx, e⟩
        have : x = v := mem_unique hd ((List.filter_sublist).subset hx) hv e
        rwa [this] at hx
      · exact fun hx => ⟨v, hx, rfl⟩
    rw [Bool.eq_iff_iff, Bool.and_eq_true, key, key, decide_eq_true_eq]
  rw [← e3]
  unfold weight at *
  omega

/-- So if the faulty validators hold at most a third, some correct validator signed both. -/
theorem C25_correct_signed_both {vs : List Validator} (hd : Distinct vs)
    {bm bm' : Bytes} (h : nodeAccepts vs bm = some (.ok ())) (h' : nodeAccepts vs bm' = some (.ok ()))
    (faulty : Validator → Bool) (hf : 3 * weight (vs.filter faulty) ≤ weight vs) :
    ∃ v ∈ vs, faulty v = false ∧ v ∈ signers vs bm ∧ v ∈ signers vs bm' := by
  have hi := C25_intersection hd h h'
  refine Classical.byContradiction fun hne => ?_
  have hall : ∀ v ∈ vs, v ∈ signers vs bm ∧ v ∈ signers vs bm' → faulty v = true := by
    intro v hv hs
    cases hfv : faulty v with
    | true => rfl
    | false => exact absurd ⟨v, hv, hfv, hs⟩ hne
  have hle : ∀ l : List Validator, (∀ v ∈ l, v ∈ signers vs bm ∧ v ∈ signers vs bm' → faulty v = true) →
      weight (l.filter (fun v => decide (v ∈ signers vs bm ∧ v ∈ signers vs bm'))) ≤ weight (l.filter faulty) := by
    intro l
    induction l with
    | nil => intro _; exact Nat.le_refl _
    | cons v l ih =>
      intro hl
      have ih' := ih fun x hx => hl x (by simp [hx])
      unfold weight at ih' ⊢
      by_cases hv : v ∈ signers vs bm ∧ v ∈ signers vs bm'
      · rw [List.filter_cons_of_pos (by simpa using hv), List.filter_cons_of_pos (hl v (by simp) hv)]
        simp only [List.map_cons, List.sum_cons]; omega
      · rw [List.filter_cons_of_neg (by simpa using hv)]
        by_cases hfv : faulty v = true
        · rw [List.filter_cons_of_pos hfv]
          simp only [List.map_cons, List.sum_cons]; omega
        · rw [List.filter_cons_of_neg hfv]; exact ih'
  have := hle vs hall
  omega

/-- The distinctness of keys is needed and not checked: with validator 1 listed three times its single
signature is counted three times, so a third of the recorded weight is a quorum. -/
theorem C25_repeated_validator_false :
    let vs : List Validator := [⟨1, 1, 1⟩, ⟨1, 1, 1⟩, ⟨1, 1, 1⟩, ⟨2, 2, 1⟩, ⟨3, 3, 1⟩]
    nodeAccepts vs [0xe0] = some (.ok ()) ∧ extractVoters vs [0xe0] = [1, 1, 1] ∧
    ((weightMap (sortV vs)).map (·.2)).sum = 3 := by
  have h : extractVoters [⟨1, 1, 1⟩, ⟨1, 1, 1⟩, ⟨1, 1, 1⟩, ⟨2, 2, 1⟩, ⟨3, 3, 1⟩] [0xe0] = [1, 1, 1] := by decide +kernel
  have h2 : weightMap (sortV [⟨1, 1, 1⟩, ⟨1, 1, 1⟩, ⟨1, 1, 1⟩, ⟨2, 2, 1⟩, ⟨3, 3, 1⟩]) = [(3, 1), (2, 1), (1, 1)] := by
    decide +kernel
  refine ⟨?_, h, ?_⟩
  · unfold nodeAccepts; rw [h, h2]; rfl
  · rw [h2]; rfl

/-! ## C26 -/

/-- With equal positive weights the light client and the node agree. -/
theorem C26_equal_weights_partial {vs : List Validator} (hd : Distinct vs) {w : Nat} (hw0 : 0 < w)
    (heq : ∀ v ∈ vs, v.vote = w) (hw : 3 * weight vs < 2 ^ 64) (bm : Bytes) :
    (extractPks vs bm).isSome ↔ nodeAccepts vs bm = some (.ok ()) := by
  rw [C25_accept_iff hd hw]
  have hsum : ∀ l : List Validator, (∀ v ∈ l, v.vote = w) → weight l = l.length * w := by
    intro l
    induction l with
    | nil => intro _; simp [weight]
    | cons v l ih =>
      intro h
      have := ih fun x hx => h x (by simp [hx])
      unfold weight at this ⊢
      rw [List.map_cons, List.sum_cons, this, h v (by simp), List.length_cons, Nat.add_mul]; omega
  rw [hsum vs heq, hsum (signers vs bm) (fun v hv => heq v ((List.filter_sublist).subset hv))]
  unfold extractPks
  simp only
  rw [(picked_weight hd bm).2, (sortV_perm vs).length_eq]
  have h1 : 2 * (vs.length * w) = (vs.length * 2) * w := by rw [Nat.mul_comm vs.length 2, Nat.mul_assoc]
  have h2 : 3 * ((signers vs bm).length * w) = ((signers vs bm).length * 3) * w := by
    rw [Nat.mul_comm (signers vs bm).length 3, Nat.mul_assoc]
  rw [h1, h2, Nat.mul_lt_mul_right hw0]
  split
  · simp; omega
  · simp; omega

/-- When they accept, both refer to the same validators. -/
theorem C26_same_signers {vs : List Validator} (hd : Distinct vs) {bm : Bytes} {pks : List Nat}
    (h : extractPks vs bm = some pks) (b : Nat) :
    b ∈ pks ↔ ∃ v ∈ vs, v.key ∈ extractVoters vs bm ∧ v.bls = b := by
  unfold extractPks at h
  simp only at h
  split at h
  · cases h
  · cases h
    rw [List.mem_map]
    unfold extractVoters
    constructor
    · rintro ⟨v, hv, rfl⟩
      exact ⟨v, (sortV_perm vs).mem_iff.1 ((pick_sublist _ _).subset hv), List.mem_map_of_mem hv, rfl⟩
    · rintro ⟨v, hv, hk, rfl⟩
      obtain ⟨x, hx, e⟩ := List.mem_map.1 hk
      have := mem_unique hd ((sortV_perm vs).mem_iff.1 ((pick_sublist _ _).subset hx)) hv e
      exact ⟨v, this ▸ hx, rfl⟩

/-- With unequal weights they disagree in both directions: three of four validators with one eighth of the
weight satisfy the light client only; one validator with seven eighths satisfies the node only. -/
theorem C26_weights_false :
    let vs : List Validator := [⟨1, 1, 1⟩, ⟨2, 2, 1⟩, ⟨3, 3, 1⟩, ⟨4, 4, 21⟩]
    ((extractPks vs [0xe0]).isSome = true ∧ nodeAccepts vs [0xe0] = some (.error .weight)) ∧
    ((extractPks vs [0x10]).isSome = false ∧ nodeAccepts vs [0x10] = some (.ok ())) := by
  have hv : Distinct [⟨1, 1, 1⟩, ⟨2, 2, 1⟩, ⟨3, 3, 1⟩, ⟨4, 4, 21⟩] := by unfold Distinct; decide
  have hw : 3 * weight [⟨1, 1, 1⟩, ⟨2, 2, 1⟩, ⟨3, 3, 1⟩, ⟨4, 4, 21⟩] < 2 ^ 64 := by decide
  refine ⟨⟨by decide +kernel, ?_⟩, ⟨by decide +kernel, ?_⟩⟩
  · rw [node_decision hv hw]
    have : 3 * weight (signers [⟨1, 1, 1⟩, ⟨2, 2, 1⟩, ⟨3, 3, 1⟩, ⟨4, 4, 21⟩] [0xe0]) ≤
        2 * weight [⟨1, 1, 1⟩, ⟨2, 2, 1⟩, ⟨3, 3, 1⟩, ⟨4, 4, 21⟩] := by decide +kernel
    rw [if_pos this]
  · rw [C25_accept_iff hv hw]
    decide +kernel

/-! ## Non-trivial instances -/

/-- Four validators of different weight: `{1, 3, 4}` and `{2, 3, 4}` are quorums. -/
example : Distinct [⟨5, 1, 2⟩, ⟨2, 2, 1⟩, ⟨3, 3, 4⟩, ⟨4, 4, 3⟩] ∧
    3 * weight [⟨5, 1, 2⟩, ⟨2, 2, 1⟩, ⟨3, 3, 4⟩, ⟨4, 4, 3⟩] < 2 ^ 64 ∧
    2 * weight [⟨5, 1, 2⟩, ⟨2, 2, 1⟩, ⟨3, 3, 4⟩, ⟨4, 4, 3⟩] <
      3 * weight (signers [⟨5, 1, 2⟩, ⟨2, 2, 1⟩, ⟨3, 3, 4⟩, ⟨4, 4, 3⟩] [0x70]) := by
  refine ⟨by unfold Distinct; decide, by decide, by decide +kernel⟩

/-- Exactly two thirds is not enough. -/
example : ¬ 2 * weight [⟨1, 1, 1⟩, ⟨2, 2, 1⟩, ⟨3, 3, 1⟩] <
    3 * weight (signers [⟨1, 1, 1⟩, ⟨2, 2, 1⟩, ⟨3, 3, 1⟩] [0xc0]) := by decide +kernel

end Axon.Proof
