import Verif.Metadata.StoreProps

/-!
# C70: the propose counter

Specification: per epoch and validator, the number of blocks of the epoch proposed by the validator.
What the code counts is the number of blocks *credited* to it: those whose last transaction it sent, or
that contain no transaction and that it proposed.
-/

namespace Axon.Meta
open Axon.Assoc

/-- Blocks of an epoch's range, decidable version of `InRange`. -/
def inRangeB (A : List Metadata) (e n : Nat) : Bool :=
  match A[e]? with
  | none => false
  | some m => decide (n ≤ m.last.val) &&
      (if e = 0 then decide (0 < n) else
        match A[e - 1]? with
        | some p => decide (p.last.val < n)
        | none => false)

theorem inRangeB_iff (A : List Metadata) (e n : Nat) : inRangeB A e n = true ↔ InRange A e n := by
  unfold inRangeB InRange
  cases he : A[e]? with
  | none => simp
  | some m =>
    by_cases h0 : e = 0
    · subst h0; simp
    · cases hp : A[e - 1]? with
      | none => simp [h0]
      | some p => simp [h0]

/-- Number of blocks of epoch `e` credited to `a`: the last sender, or the proposer of an empty block. -/
def credited (A : List Metadata) (e a : Nat) : List Op → Nat
  | [] => 0
  | .endBlock n _ p l :: ops =>
    (if inRangeB A e n && decide ((l.getLast?).getD p = a) then 1 else 0) + credited A e a ops
  | .tx _ _ _ :: ops => credited A e a ops

/-- Number of blocks of epoch `e` proposed by `a`. -/
def proposed (A : List Metadata) (e a : Nat) : List Op → Nat
  | [] => 0
  | .endBlock n _ p _ :: ops =>
    (if inRangeB A e n && decide (p = a) then 1 else 0) + proposed A e a ops
  | .tx _ _ _ :: ops => proposed A e a ops

/-! ## Lemmas -/

theorem credited_snoc (A : List Metadata) (e a : Nat) (ops : List Op) (op : Op) :
    credited A e a (ops ++ [op]) = credited A e a ops + credited A e a [op] := by
  induction ops with
  | nil => simp [credited]
  | cons o ops ih =>
    cases o with
    | tx => simpa [credited] using ih
    | endBlock n x p l =>
      simp only [List.cons_append, credited] at ih ⊢
      omega

theorem sorted_zeroCounter (v : List Nat) : ∀ m : List (Nat × Nat), Sorted m →
    Sorted (v.foldl (fun m v => sput v 0 m) m) ∧
    ∀ a, get (v.foldl (fun m v => sput v 0 m) m) a = if a ∈ v then some 0 else get m a := by
  induction v with
  | nil => intro m hm; exact ⟨hm, by simp⟩
  | cons x v ih =>
    intro m hm
    have := ih (sput x 0 m) (sorted_sput hm)
    refine ⟨this.1, ?_⟩
    intro a
    rw [List.foldl_cons, this.2 a, get_sput hm]
    by_cases h1 : a ∈ v
    · simp [h1]
    · by_cases h2 : a = x
      · simp [h2]
      · simp [h1, h2]

theorem bump_get {a : Nat} {l l' : List (Nat × Nat)} (hb : bump a l = some l') (b : Nat) :
    get l' b = if b = a then (get l b).map (· + 1) else get l b := by
  induction l generalizing l' with
  | nil => simp only [bump, Option.some.injEq] at hb; subst hb; simp [get_nil]
  | cons x l ih =>
    obtain ⟨x, c⟩ := x
    unfold bump at hb
    split at hb
    · rename_i hx
      split at hb
      · simp only [Option.some.injEq] at hb
        subst hb
        rw [get_cons, get_cons]
        by_cases hxb : x = b
        · simp [hxb, ← hx]
        · simp only [hxb, if_false]
          rw [if_neg (by omega)]
      · cases hb
    · rename_i hx
      simp only [Option.map_eq_some_iff] at hb
      obtain ⟨l2, hl2, rfl⟩ := hb
      rw [get_cons, get_cons, ih hl2]
      by_cases hxb : x = b
      · have : b ≠ a := by omega
        simp [hxb, this]
      · simp [hxb]

theorem bump_keys {a : Nat} {l l' : List (Nat × Nat)} (hb : bump a l = some l') :
    l'.map (·.1) = l.map (·.1) := by
  induction l generalizing l' with
  | nil => simp only [bump, Option.some.injEq] at hb; subst hb; rfl
  | cons x l ih =>
    obtain ⟨x, c⟩ := x
    unfold bump at hb
    split at hb
    · split at hb
      · simp only [Option.some.injEq] at hb; subst hb; rfl
      · cases hb
    · simp only [Option.map_eq_some_iff] at hb
      obtain ⟨l2, hl2, rfl⟩ := hb
      simp [ih hl2]

/-- Counters equal the credited blocks; no credited block lies behind the last end. -/
structure CountInv (ops : List Op) (s : Store) : Prop where
  counts : ∀ (e : Nat) (m : Metadata) (i : Inner), (appended ops)[e]? = some m →
    get s.inner e = some i → ∀ a, get i.counter a =
      if a ∈ m.verifiers then some (credited (appended ops) e a ops) else none
  seen : ∀ n x p l, Op.endBlock n x p l ∈ ops → n ≤ lastEnd (appended ops)

theorem inRangeB_append_old (A : List Metadata) (m : Metadata) (e n : Nat) (he : e < A.length) :
    inRangeB (A ++ [m]) e n = inRangeB A e n := by
  unfold inRangeB
  rw [List.getElem?_append_left he]
  cases A[e]? with
  | none => rfl
  | some x =>
    simp only
    rw [List.getElem?_append_left (by omega)]

theorem credited_append_old (A : List Metadata) (m : Metadata) (e a : Nat) (ops : List Op)
    (he : e < A.length) : credited (A ++ [m]) e a ops = credited A e a ops := by
  induction ops with
  | nil => rfl
  | cons o ops ih =>
    cases o with
    | tx => simpa [credited] using ih
    | endBlock n x p l => simp only [credited]; rw [ih, inRangeB_append_old A m e n he]

theorem credited_new (A : List Metadata) (m : Metadata) (a : Nat) (ops : List Op)
    (hs : ∀ n x p l, Op.endBlock n x p l ∈ ops → n ≤ lastEnd A) :
    credited (A ++ [m]) A.length a ops = 0 := by
  induction ops with
  | nil => rfl
  | cons o ops ih =>
    have ih := ih (fun n x p l h => hs n x p l (by simp [h]))
    cases o with
    | tx => simpa [credited] using ih
    | endBlock n x p l =>
      simp only [credited]
      rw [ih]
      have hn := hs n x p l (by simp)
      have : inRangeB (A ++ [m]) A.length n = false := by
        rw [← Bool.not_eq_true, inRangeB_iff]
        rintro ⟨m', hm', hle, hif⟩
        unfold lastEnd at hn
        by_cases h0 : A.length = 0
        · rw [if_pos h0] at hif
          have : A = [] := List.eq_nil_of_length_eq_zero h0
          subst this
          simp at hn
          omega
        · rw [if_neg h0] at hif
          obtain ⟨q, hq, hlt⟩ := hif
          rw [List.getElem?_append_left (by omega)] at hq
          rw [List.getLast?_eq_getElem?, hq] at hn
          simp at hn
          omega
      rw [this]
      rfl

theorem lastEnd_append_le {ops : List Op} {s : Store} (h : Reach ops s) {s' : Store} {m : Metadata}
    (ha : appendMetadata s m = .ok s') : lastEnd (appended ops) < lastEnd (appended ops ++ [m]) := by
  have := ((C38_accepted h m).1.1 ⟨s', ha⟩).2.1
  unfold lastEnd at this ⊢
  simpa using this

theorem count_inv {ops : List Op} {s : Store} (h : Reach ops s) : CountInv ops s := by
  induction h with
  | init => exact ⟨by simp [appended], by simp⟩
  | failed hr hs ih =>
    rename_i ops s op s'
    cases op with
    | endBlock n x p l => simp only [step] at hs; split at hs <;> simp at hs
    | tx b a c => rw [exec_false hs]; exact ih
  | done hr hs ih =>
    rename_i ops s op s'
    have hi := reach_inv hr
    cases op with
    | tx b a c =>
      obtain ⟨d, rfl, hd, -⟩ := exec_true hs
      cases d with
      | ckb j =>
        simp only [runCall, Outcome.ok.injEq] at hd
        subst hd
        refine ⟨?_, ?_⟩
        · intro e m i hm hg a'
          rw [appended_snoc] at hm ⊢
          simp only [appended, List.append_nil] at hm ⊢
          rw [ih.counts e m i hm hg a', credited_snoc]
          rfl
        · intro n x p l hmem
          rw [appended_snoc]
          simp only [appended, List.append_nil]
          refine ih.seen n x p l ?_
          simpa using hmem
      | config j =>
        simp only [runCall, Outcome.ok.injEq] at hd
        subst hd
        refine ⟨?_, ?_⟩
        · intro e m i hm hg a'
          rw [appended_snoc] at hm ⊢
          simp only [appended, List.append_nil] at hm ⊢
          rw [ih.counts e m i hm hg a', credited_snoc]
          rfl
        · intro n x p l hmem
          rw [appended_snoc]
          simp only [appended, List.append_nil]
          refine ih.seen n x p l ?_
          simpa using hmem
      | append md =>
        have hlt := lastEnd_append_le hr hd
        have hep := ((C38_accepted hr md).1.1 ⟨s', hd⟩).1
        have happ : appended (ops ++ [.tx b a (some (.append md))]) = appended ops ++ [md] := by
          rw [appended_snoc]; rfl
        refine ⟨?_, ?_⟩
        · intro e m i hm hg a'
          rw [happ] at hm ⊢
          rw [credited_snoc]
          -- the new store
          have hnew : ∃ seg cfg, s' = { s with
              seg := seg
              inner := put s.inner md.epoch.val
                ⟨md.start, md.last, md.epoch, md.verifiers, zeroCounter md.verifiers⟩
              config := cfg } := by
            simp only [runCall] at hd
            unfold appendMetadata at hd
            split at hd
            · cases hd
            split at hd
            · cases hd
            split at hd
            · cases hd
            split at hd
            · cases hd
            split at hd
            · cases hd
            split at hd
            · cases hd
            · cases hd
            simp only [Outcome.ok.injEq] at hd
            exact ⟨_, _, hd.symm⟩
          obtain ⟨seg, cfg, rfl⟩ := hnew
          simp only at hg
          rw [get_put, hep] at hg
          rcases Nat.lt_or_ge e (appended ops).length with he | he
          · rw [List.getElem?_append_left he] at hm
            rw [if_neg (by omega)] at hg
            rw [ih.counts e m i hm hg a', credited_append_old _ _ _ _ _ he]
            rfl
          · have hee : e = (appended ops).length := by
              have := (List.getElem?_eq_some_iff.1 hm).1
              simp at this; omega
            subst hee
            rw [if_pos rfl] at hg
            simp only [Option.some.injEq] at hg
            subst hg
            have hmd : md = m := by simpa using hm
            subst hmd
            rw [credited_new _ _ _ _ ih.seen]
            show get (zeroCounter md.verifiers) a' = _
            unfold zeroCounter
            rw [(sorted_zeroCounter md.verifiers [] List.Pairwise.nil).2 a', get_nil]
            rfl
        · intro n x p l hmem
          rw [happ]
          have : n ≤ lastEnd (appended ops) := by
            refine ih.seen n x p l ?_
            simpa using hmem
          omega
    | endBlock n x p l =>
      have happ : appended (ops ++ [.endBlock n x p l]) = appended ops := by
        rw [appended_snoc]; simp [appended]
      have hhook : hook s n x (originAtEnd p l) = .ok s' := by
        simp only [step] at hs
        split at hs
        · rename_i t ht
          simp only [Outcome.ok.injEq, Prod.mk.injEq, and_true] at hs
          subst hs
          exact ht
        · cases hs
        · cases hs
      by_cases hn : n = 0
      · unfold hook at hhook
        rw [if_pos hn] at hhook
        simp only [Outcome.ok.injEq] at hhook
        subst hhook
        refine ⟨?_, ?_⟩
        · intro e m i hm hg a'
          rw [happ] at hm ⊢
          rw [ih.counts e m i hm hg a', credited_snoc]
          have : inRangeB (appended ops) e n = false := by
            rw [← Bool.not_eq_true, inRangeB_iff]
            rintro ⟨m', -, -, hif⟩
            by_cases h0 : e = 0
            · rw [if_pos h0] at hif; omega
            · rw [if_neg h0] at hif
              obtain ⟨q, -, hq⟩ := hif
              omega
          simp [credited, this]
        · intro n' x' p' l' hmem
          rw [happ]
          rcases List.mem_append.1 hmem with hmem | hmem
          · exact ih.seen n' x' p' l' hmem
          · simp at hmem; omega
      · have hle : n ≤ lastEnd (appended ops) := by
          apply Classical.byContradiction
          intro hgt
          have := (C69_hook_partial hr n x (originAtEnd p l) hn).2.1 (by omega)
          rw [this] at hhook
          cases hhook
        refine ⟨?_, ?_⟩
        · intro e m i hm hg a'
          rw [happ] at hm ⊢
          rw [credited_snoc]
          unfold hook at hhook
          rw [if_neg hn] at hhook
          split at hhook
          · rename_i t ht
            simp only [Outcome.ok.injEq] at hhook
            subst hhook
            have hi' : Inv (appended ops) { s with
                forks := forksAfter s.forks x
                current := forkAt ((forksAfter s.forks x).getD []) n } :=
              ⟨hi.seg, hi.ok, hi.epoch, hi.start, hi.inner, hi.config, hi.readable⟩
            unfold updateCount at ht
            split at ht
            · rename_i k hk
              have hrange := (epochByBlock_spec hi' n k).1 hk
              split at ht
              · rename_i j hj
                split at ht
                · rename_i c hc
                  simp only [Outcome.ok.injEq] at ht
                  subst ht
                  have hjk : get s.inner k = some j := by
                    unfold getInner at hj
                    simp only at hj
                    cases hgk : get s.inner k with
                    | none => rw [hgk] at hj; cases hj
                    | some j' => rw [hgk] at hj; simpa [Outcome.ofOption] using hj
                  obtain ⟨mk, hmk, -⟩ := id hrange
                  have hje : j.epoch.val = k := by
                    have := hi.inner k
                    rw [hmk] at this
                    obtain ⟨j', hj', hmt⟩ := this
                    rw [hjk] at hj'
                    cases hj'
                    rw [hmt.2.2.1]
                    exact hi.epoch k mk hmk
                  simp only at hg
                  rw [get_put, hje] at hg
                  by_cases hek : e = k
                  · subst hek
                    rw [if_pos rfl] at hg
                    simp only [Option.some.injEq] at hg
                    subst hg
                    rw [hmk] at hm
                    cases hm
                    simp only
                    rw [bump_get hc, ih.counts e _ j hmk hjk a']
                    have hb : inRangeB (appended ops) e n = true := (inRangeB_iff _ _ _).2 hrange
                    have hcr : credited (appended ops) e a' [.endBlock n x p l] =
                        if originAtEnd p l = a' then 1 else 0 := by
                      unfold originAtEnd
                      simp only [credited, hb, Bool.true_and, decide_eq_true_eq, Nat.add_zero]
                    rw [hcr]
                    by_cases ha : a' = originAtEnd p l
                    · rw [if_pos ha, ha]
                      split <;> simp
                    · rw [if_neg ha]
                      have : ¬ originAtEnd p l = a' := fun hc => ha hc.symm
                      simp [this]
                  · rw [if_neg hek] at hg
                    rw [ih.counts e m i hm hg a']
                    have hb : inRangeB (appended ops) e n = false := by
                      rw [← Bool.not_eq_true, inRangeB_iff]
                      intro hc
                      exact hek (inRange_unique hi hc hrange)
                    simp [credited, hb]
                · cases ht
              · cases ht
              · cases ht
            · cases ht
            · cases ht
          · cases hhook
          · cases hhook
        · intro n' x' p' l' hmem
          rw [happ]
          rcases List.mem_append.1 hmem with hmem | hmem
          · exact ih.seen n' x' p' l' hmem
          · simp at hmem; omega

/-! ## Theorems -/

/-- C70: for every epoch and validator the stored counter is the number of blocks of the epoch credited
to the validator; nobody else has a counter.  Missing for the full statement: credited is not proposed,
see `C70_proposer_false`; they agree on blocks without transactions, `C70_empty_blocks_partial`. -/
theorem C70_counter_partial {ops : List Op} {s : Store} (h : Reach ops s) (e : Nat) (m : Metadata)
    (hm : (appended ops)[e]? = some m) : ∃ i, getInner s e = .ok i ∧ ∀ a, get i.counter a =
      if a ∈ m.verifiers then some (credited (appended ops) e a ops) else none := by
  have hi := (reach_inv h).inner e
  rw [hm] at hi
  obtain ⟨i, hg, -⟩ := hi
  exact ⟨i, by unfold getInner; rw [hg]; rfl, (count_inv h).counts e m i hm hg⟩

/-- C70: if no block contains a transaction, the counter is the number of blocks proposed. -/
theorem C70_empty_blocks_partial {ops : List Op} {s : Store} (h : Reach ops s) (e a : Nat)
    (m : Metadata) (hm : (appended ops)[e]? = some m) (ha : a ∈ m.verifiers)
    (hempty : ∀ n x p l, Op.endBlock n x p l ∈ ops → l = []) :
    ∃ i, getInner s e = .ok i ∧ get i.counter a = some (proposed (appended ops) e a ops) := by
  obtain ⟨i, hg, hc⟩ := C70_counter_partial h e m hm
  refine ⟨i, hg, ?_⟩
  rw [hc a, if_pos ha]
  congr 1
  generalize appended ops = A
  clear h hm hg hc
  induction ops with
  | nil => rfl
  | cons o ops ih =>
    have ih := ih (fun n x p l hm => hempty n x p l (by simp [hm]))
    cases o with
    | tx => simpa [credited, proposed] using ih
    | endBlock n x p l =>
      have := hempty n x p l (by simp)
      subst this
      simp only [credited, proposed, ih]
      rfl

/-- Validator 1 proposes block 3 of epoch 0, which contains one transaction sent by validator 2. -/
def oneBlock : List Op := genesisOps ++ [.endBlock 3 none 1 [7, 2]]

/-- C70 is false: the block is counted for the sender of its last transaction instead of its
proposer. -/
theorem C70_proposer_false : ∃ s i, Reach oneBlock s ∧ getInner s 0 = .ok i ∧
    i.counter = [(1, 0), (2, 1)] ∧ proposed (appended oneBlock) 0 1 oneBlock = 1 ∧
    proposed (appended oneBlock) 0 2 oneBlock = 0 := by
  refine ⟨(runAll Store.init oneBlock).get (by decide +kernel),
    ⟨u 100, u 10, u 0, [2, 1], [(1, 0), (2, 1)]⟩, ?_, by decide +kernel, rfl, by decide +kernel,
    by decide +kernel⟩
  simpa using reach_runAll Reach.init (Option.some_get _).symm

def threeBlocks : List Op :=
  genesisOps ++ [.endBlock 1 none 2 [], .endBlock 2 none 1 [], .endBlock 3 none 2 []]

/-- Three empty blocks: validator 2 proposed two of them. -/
example : ∃ s i, Reach threeBlocks s ∧
    getInner s 0 = .ok i ∧ i.counter = [(1, 1), (2, 2)] := by
  refine ⟨(runAll Store.init threeBlocks).get (by decide +kernel),
    ⟨u 100, u 10, u 0, [2, 1], [(1, 1), (2, 2)]⟩, ?_, by decide +kernel, rfl⟩
  simpa using reach_runAll Reach.init (Option.some_get _).symm

end Axon.Meta
