import Verif.Api.FeeHistory
import Verif.Api.SelectProps

/-!
# C52, C86: fee history
-/

namespace Axon.Api

open Axon Axon.Block

/-! ## Specification -/

/-- The newest block asked for. -/
def newestOf (chain : List Full) : BlockId → Option Nat
  | .num n => if n.val < chain.length then some n.val else none
  | .latest => some (chain.length - 1)
  | .pending => some (chain.length - 1)
  | .earliest => some 0
  | .hash _ => none

/-- The at most `k` blocks up to block `n`: those with numbers `max 0 (n - k + 1)` to `n`. -/
def described (chain : List Full) (n k : Nat) : List Full := (chain.take (n + 1)).drop (n + 1 - k)

/-- Percentage of the gas limit used by a block. -/
def usedPercent (f : Full) : Rat :=
  if f.block.header.gasLimit.val = 0 then 0
  else (f.block.header.gasUsed.val : Rat) / (f.block.header.gasLimit.val : Rat) * 100

def FeeAnswer.oldest : FeeAnswer → Nat
  | .withReward o _ _ _ => o
  | .withoutReward o _ _ => o
  | .zeroBlocks o => o

def FeeAnswer.baseFees : FeeAnswer → List U64
  | .withReward _ b _ _ => b
  | .withoutReward _ b _ => b
  | .zeroBlocks _ => []

def FeeAnswer.ratios : FeeAnswer → List Rat
  | .withReward _ _ r _ => r
  | .withoutReward _ _ r => r
  | .zeroBlocks _ => []

def FeeAnswer.reward : FeeAnswer → List (List Nat)
  | .withReward _ _ _ r => r
  | _ => []

/-- The row of rewards of a block as the node computes it: for each percentile the gas used by one
of its transactions above the base fee. -/
def rowOf (ps : List Rat) (f : Full) : List Nat :=
  ps.map fun p =>
    ((f.receipts.map fun r => r.usedGas.val - f.block.header.baseFeePerGas.val)[
      (p * (f.receipts.length : Rat) / 100).floor.toNat - 1]?).getD 0

/-- Percentiles that make sense: ascending, between 0 and 100. -/
def Sensible (ps : List Rat) : Prop := ps.Pairwise (· < ·) ∧ ∀ p ∈ ps, 0 ≤ p ∧ p ≤ 100

/-! ## Lemmas -/

/-- The rows of some blocks. -/
def rowsOf (ps : Option (List Rat)) (l : List Full) : List (List Nat) :=
  match ps with
  | some ps => l.map (rowOf ps)
  | none => []

theorem rewards_spec {A : Adapter} {chain : List Full} (hA : Serves A chain) (n : Nat) (f : Full)
    (hf : chain[n]? = some f) (ps : List Rat) : rewards A f.block ps = .ok (rowOf ps f) := by
  unfold rewards rowOf
  rw [hA.wf.number n f hf, hA.receipts n f hf]
  simp only [Reply.internal, Reply.bind, List.map_map, List.length_map, Reply.ok.injEq]
  rfl

theorem collectFees_spec {A : Adapter} {chain : List Full} (hA : Serves A chain)
    (ps : Option (List Rat)) (k : Nat) : ∀ s, s + k ≤ chain.length →
      collectFees A ps (List.range' s k) = .ok
        ⟨((chain.drop s).take k).flatMap fun f => [f.block.header.baseFeePerGas, nextBaseFee],
          ((chain.drop s).take k).map usedPercent,
          rowsOf ps ((chain.drop s).take k)⟩ := by
  induction k with
  | zero => intro s _; cases ps <;> simp [collectFees, rowsOf]
  | succ k ih =>
    intro s hs
    have hlt : s < chain.length := by omega
    have hg : chain[s]? = some chain[s] := List.getElem?_eq_getElem hlt
    have hd : chain.drop s = chain[s] :: chain.drop (s + 1) := List.drop_eq_getElem_cons hlt
    rw [List.range'_succ, collectFees, hA.block s, hg, Option.map_some]
    simp only
    rw [ih (s + 1) (by omega), hd, List.take_succ_cons, List.flatMap_cons, List.map_cons]
    cases ps with
    | none => rfl
    | some l =>
      simp only
      rw [rewards_spec hA s _ hg]
      rfl

theorem collectFees_beyond {A : Adapter} {ps : Option (List Rat)} :
    collectFees A ps [] = .ok ⟨[], [], []⟩ := rfl

/-- The height given to `inner_fee_history`. -/
def heightOf : BlockId → Option Nat
  | .num m => some m.val
  | _ => none

theorem blockAt_newest {A : Adapter} {chain : List Full} (hA : Serves A chain) {id : BlockId} {n : Nat}
    (h : newestOf chain id = some n) (he : id ≠ .earliest) :
    n < chain.length ∧ ∃ f, chain[n]? = some f ∧ ∃ height,
      heightOf id = height ∧
      A.blockAt height = some (some f.block) := by
  have hne : chain.length ≠ 0 := fun h => hA.wf.nonempty (List.eq_nil_of_length_eq_zero h)
  cases id with
  | num m =>
    simp only [newestOf] at h
    split at h
    · rename_i hm
      simp only [Option.some.injEq] at h
      subst h
      exact ⟨hm, chain[m.val], List.getElem?_eq_getElem hm, _, rfl, by
        simp only [heightOf, Adapter.blockAt, hA.block, List.getElem?_eq_getElem hm, Option.map_some]⟩
    · simp at h
  | hash _ => simp [newestOf] at h
  | earliest => exact absurd rfl he
  | latest =>
    simp only [newestOf, Option.some.injEq] at h
    subst h
    have hlt : chain.length - 1 < chain.length := by omega
    refine ⟨hlt, chain[chain.length - 1], List.getElem?_eq_getElem hlt, _, rfl, ?_⟩
    simp only [heightOf, Adapter.blockAt, hA.latest, List.getLast?_eq_getElem?, List.getElem?_eq_getElem hlt,
      Option.map_some]
  | pending =>
    simp only [newestOf, Option.some.injEq] at h
    subst h
    have hlt : chain.length - 1 < chain.length := by omega
    refine ⟨hlt, chain[chain.length - 1], List.getElem?_eq_getElem hlt, _, rfl, ?_⟩
    simp only [heightOf, Adapter.blockAt, hA.latest, List.getLast?_eq_getElem?, List.getElem?_eq_getElem hlt,
      Option.map_some]

/-- What the method computes, for a newest block other than `earliest`. -/
theorem feeHistory_eq {A : Adapter} {chain : List Full} (hA : Serves A chain) (count : U256)
    (id : BlockId) (ps : Option (List Rat)) (n : Nat) (hn : newestOf chain id = some n)
    (he : id ≠ .earliest) (hp : checkPercentiles ps = true) (hk : min count.val 1024 ≠ 0) :
    feeHistory A count id ps =
      (innerFeeHistory A (heightOf id)
        (min count.val 1024) ps).bind fun (o, c) => .ok (answerOf ps o c) := by
  unfold feeHistory
  rw [if_neg (by simp [hp])]
  dsimp only
  rw [if_neg (show ¬ min count.val maxFeeHistory = 0 from hk)]
  cases id with
  | earliest => exact absurd rfl he
  | hash _ => simp [newestOf] at hn
  | _ => rfl

theorem feeHistory_spec {A : Adapter} {chain : List Full} (hA : Serves A chain) (count : U256)
    (id : BlockId) (ps : Option (List Rat)) (n : Nat) (hn : newestOf chain id = some n)
    (he : id ≠ .earliest) (hp : checkPercentiles ps = true) (hk : min count.val 1024 ≠ 0) :
    ∃ o, o = n - min count.val 1024 + 1 ∧
      feeHistory A count id ps = .ok (answerOf ps o
        ⟨((chain.drop o).take (n + 1 - o)).flatMap
            fun f => [f.block.header.baseFeePerGas, nextBaseFee],
          ((chain.drop o).take (n + 1 - o)).map usedPercent,
          rowsOf ps ((chain.drop o).take (n + 1 - o))⟩) := by
  obtain ⟨hlt, f, hf, height, hh, hb⟩ := blockAt_newest hA hn he
  have hnum := hA.wf.number n f hf
  have hn64 : n < 2 ^ 64 := by rw [← hnum]; exact f.block.header.number.lt
  refine ⟨_, rfl, ?_⟩
  rw [feeHistory_eq hA count id ps n hn he hp hk, hh]
  unfold innerFeeHistory
  rw [hb]
  simp only [Reply.internal, Reply.bind, hnum]
  have ho : oldestOf n (min count.val 1024) = n - min count.val 1024 + 1 := by
    unfold oldestOf; omega
  rw [ho]
  unfold rangeIncl
  rw [collectFees_spec hA ps _ _ (by omega)]

theorem described_eq (chain : List Full) (n k : Nat) (hk : k ≤ n) :
    described chain n k = (chain.drop (n - k + 1)).take (n + 1 - (n - k + 1)) := by
  unfold described
  rw [List.drop_take, show n + 1 - k = n - k + 1 from by omega]

theorem answer_ratios (ps : Option (List Rat)) (o : Nat) (c : Collected) :
    (answerOf ps o c).ratios = c.ratios ∧ (answerOf ps o c).baseFees = c.baseFees ∧
      (answerOf ps o c).oldest = o := by
  unfold answerOf
  split <;> exact ⟨rfl, rfl, rfl⟩

theorem length_pairs (l : List Full) :
    (l.flatMap fun f => [f.block.header.baseFeePerGas, nextBaseFee]).length = 2 * l.length := by
  induction l with
  | nil => rfl
  | cons f l ih => simp only [List.flatMap_cons, List.length_append, ih, List.length_cons]; simp; omega

theorem length_described (chain : List Full) (n k : Nat) (hn : n < chain.length) (hk : k ≤ n + 1) :
    (described chain n k).length = k := by
  unfold described
  rw [List.length_drop, List.length_take]
  omega

/-! ## C52 -/

/-- **C52 (part).** `eth_feeHistory` for `k` blocks up to block `n`, where `1 ≤ k ≤ n` (and more than
1024 count as 1024): the oldest block is `n - k + 1`, and there is one ratio for each of the blocks
`n - k + 1` to `n`, in order.  Missing: ranges that reach genesis (`C52_genesis_false`), and the base
fees, which come in pairs (`C52_base_fees_false`). -/
theorem C52_range_partial {A : Adapter} {chain : List Full} (hA : Serves A chain) (count : U256)
    (id : BlockId) (ps : Option (List Rat)) (n : Nat) (hn : newestOf chain id = some n)
    (he : id ≠ .earliest) (hp : checkPercentiles ps = true)
    (hk : 1 ≤ count.val) (hkn : min count.val 1024 ≤ n) :
    ∃ a, feeHistory A count id ps = .ok a ∧ a.oldest = n + 1 - min count.val 1024 ∧
      a.ratios = (described chain n (min count.val 1024)).map usedPercent ∧
      a.baseFees = (described chain n (min count.val 1024)).flatMap
        fun f => [f.block.header.baseFeePerGas, ⟨0x539, by decide⟩] := by
  have hk0 : min count.val 1024 ≠ 0 := by omega
  obtain ⟨o, ho, h⟩ := feeHistory_spec hA count id ps n hn he hp hk0
  refine ⟨_, h, ?_⟩
  obtain ⟨h1, h2, h3⟩ := answer_ratios ps o _
  rw [h1, h2, h3, ho, described_eq chain n _ hkn]
  exact ⟨by omega, rfl, rfl⟩

/-- **C52 (part).** For a single block after genesis the answer is as it should be: the block's ratio,
its base fee and that of the next block. -/
theorem C52_single_partial {A : Adapter} {chain : List Full} (hA : Serves A chain) (count : U256)
    (id : BlockId) (ps : Option (List Rat)) (n : Nat) (hn : newestOf chain id = some n)
    (he : id ≠ .earliest) (hp : checkPercentiles ps = true) (hk : count.val = 1) (hn1 : 1 ≤ n)
    (f : Full) (hf : chain[n]? = some f) :
    ∃ a, feeHistory A count id ps = .ok a ∧ a.oldest = n ∧ a.ratios = [usedPercent f] ∧
      a.baseFees = [f.block.header.baseFeePerGas, ⟨0x539, by decide⟩] := by
  obtain ⟨a, h1, h2, h3, h4⟩ := C52_range_partial hA count id ps n hn he hp (by omega) (by omega)
  have hd : described chain n (min count.val 1024) = [f] := by
    unfold described
    have hlt : n < chain.length := (List.getElem?_eq_some_iff.1 hf).1
    have hm : n + 1 - min count.val 1024 = n := by omega
    rw [hm, List.drop_take, List.drop_eq_getElem_cons hlt, (List.getElem?_eq_some_iff.1 hf).2]
    have : n + 1 - n = 1 := by omega
    rw [this]
    rfl
  rw [hd] at h3 h4
  exact ⟨a, h1, by omega, h3, h4⟩

/-- **C52 (part).** `earliest` describes block 0 alone, with two base fees. -/
theorem C52_earliest_partial {A : Adapter} {chain : List Full} (hA : Serves A chain) (count : U256)
    (ps : Option (List Rat)) (hp : checkPercentiles ps = true) (hk : 1 ≤ count.val) (f : Full)
    (hf : chain[0]? = some f) :
    ∃ a, feeHistory A count .earliest ps = .ok a ∧ a.oldest = 0 ∧
      described chain 0 count.val = [f] ∧ a.ratios = [usedPercent f] ∧
      a.baseFees = [f.block.header.baseFeePerGas, ⟨0x539, by decide⟩] ∧
      (∀ l, ps = some l → l ≠ [] → a.reward = [rowOf l f]) := by
  have hnum := hA.wf.number 0 f hf
  have hdesc : described chain 0 count.val = [f] := by
    unfold described
    cases chain with
    | nil => simp at hf
    | cons g rest =>
      simp only [List.getElem?_cons_zero, Option.some.injEq] at hf
      subst hf
      rw [show 0 + 1 - count.val = 0 from by omega]
      rfl
  unfold feeHistory
  rw [if_neg (by simp [hp])]
  dsimp only
  rw [if_neg (show ¬ min count.val maxFeeHistory = 0 by unfold maxFeeHistory; omega)]
  simp only [earliestHistory, hA.block 0, hf, Option.map_some, Reply.internal, Reply.bind,
    Reply.unwrap]
  cases ps with
  | none =>
    exact ⟨_, rfl, hnum, hdesc, rfl, rfl, fun l hl => by simp at hl⟩
  | some l =>
    cases l with
    | nil =>
      exact ⟨_, rfl, hnum, hdesc, rfl, rfl, fun l hl hne => by
        simp only [Option.some.injEq] at hl; exact absurd hl.symm hne⟩
    | cons p l =>
      simp only [earliestRewards]
      rw [rewards_spec hA 0 f hf]
      refine ⟨_, rfl, hnum, hdesc, rfl, rfl, fun m hm _ => ?_⟩
      simp only [Option.some.injEq] at hm
      subst hm
      rfl

/-- **C52.** The remaining requests: no blocks give an empty answer; a hash and a number beyond the
chain are errors, and so are percentiles that are objected to. -/
theorem C52_refused_partial {A : Adapter} {chain : List Full} (hA : Serves A chain) (count : U256)
    (id : BlockId) (ps : Option (List Rat)) :
    (checkPercentiles ps = false → feeHistory A count id ps = .err .invalidRewardPercentiles) ∧
      (checkPercentiles ps = true → count.val = 0 →
        feeHistory A count id ps = .ok (.zeroBlocks 0)) ∧
      (checkPercentiles ps = true → 1 ≤ count.val → newestOf chain id = none →
        feeHistory A count id ps = .err .invalidNewestBlock ∨
          feeHistory A count id ps = .err .cannotGetLatestBlock) := by
  refine ⟨fun h => by simp [feeHistory, h], fun h h0 => by simp [feeHistory, h, h0], ?_⟩
  intro h h1 hn
  unfold feeHistory
  rw [if_neg (by simp [h])]
  dsimp only
  rw [if_neg (show ¬ min count.val maxFeeHistory = 0 by unfold maxFeeHistory; omega)]
  cases id with
  | num m =>
    right
    simp only [newestOf] at hn
    split at hn
    · simp at hn
    · rename_i hm
      simp only [innerFeeHistory, Adapter.blockAt, hA.block,
        List.getElem?_eq_none (Nat.le_of_not_lt hm), Option.map_none, Reply.internal, Reply.bind]
  | hash _ => exact Or.inl rfl
  | latest => simp [newestOf] at hn
  | pending => simp [newestOf] at hn
  | earliest => simp [newestOf] at hn

/-- **C52, the full statement is false.** If more blocks are asked for than there are after genesis,
genesis is left out, although it belongs to the range; for `0x0` the answer is empty. -/
theorem C52_genesis_false {A : Adapter} {chain : List Full} (hA : Serves A chain) (count : U256)
    (id : BlockId) (ps : Option (List Rat)) (n : Nat) (hn : newestOf chain id = some n)
    (he : id ≠ .earliest) (hp : checkPercentiles ps = true) (hk : n < min count.val 1024) :
    ∃ a, feeHistory A count id ps = .ok a ∧ a.oldest = 1 ∧
      a.ratios = (described chain n (min count.val 1024)).tail.map usedPercent ∧
      a.ratios.length + 1 = (described chain n (min count.val 1024)).length := by
  obtain ⟨hlt, -⟩ := blockAt_newest hA hn he
  obtain ⟨o, ho, h⟩ := feeHistory_spec hA count id ps n hn he hp (by omega)
  have ho1 : o = 1 := by omega
  subst ho1
  obtain ⟨h1, h2, h3⟩ := answer_ratios ps 1 ⟨((chain.drop 1).take (n + 1 - 1)).flatMap
            fun f => [f.block.header.baseFeePerGas, nextBaseFee],
          ((chain.drop 1).take (n + 1 - 1)).map usedPercent,
          rowsOf ps ((chain.drop 1).take (n + 1 - 1))⟩
  have hd : described chain n (min count.val 1024) = chain.take (n + 1) := by
    unfold described
    rw [show n + 1 - min count.val 1024 = 0 from by omega]
    rfl
  have ht : (chain.take (n + 1)).tail = (chain.drop 1).take n := by
    rw [← List.drop_one, List.drop_take]
    rfl
  refine ⟨_, h, h3, ?_, ?_⟩
  · rw [h1, hd, ht]
    rfl
  · rw [h1, hd]
    simp only [List.length_map, List.length_take, List.length_drop]
    omega

/-- **C52, the full statement is false.** For two blocks or more there are too many base fees: two
for each block, not one more than blocks. -/
theorem C52_base_fees_false {A : Adapter} {chain : List Full} (hA : Serves A chain) (count : U256)
    (id : BlockId) (ps : Option (List Rat)) (n : Nat) (hn : newestOf chain id = some n)
    (he : id ≠ .earliest) (hp : checkPercentiles ps = true)
    (hk : 2 ≤ count.val) (hkn : min count.val 1024 ≤ n) :
    ∃ a, feeHistory A count id ps = .ok a ∧
      a.baseFees.length ≠ (described chain n (min count.val 1024)).length + 1 := by
  obtain ⟨hlt, -⟩ := blockAt_newest hA hn he
  obtain ⟨a, h1, -, -, h4⟩ := C52_range_partial hA count id ps n hn he hp (by omega) hkn
  refine ⟨a, h1, ?_⟩
  have h5 := length_pairs (described chain n (min count.val 1024))
  have : a.baseFees.length = 2 * (described chain n (min count.val 1024)).length := by
    rw [h4]; exact h5
  rw [this, length_described chain n _ hlt (by omega)]
  omega

/-! ## C86 -/

theorem zip_tail_all (p : Rat → Prop) (ps : List Rat)
    (h : ∀ w ∈ ps.zip ps.tail, w.1 < w.2 ∧ p w.1) :
    ps.Pairwise (· < ·) ∧ ∀ x ∈ ps.dropLast, p x := by
  induction ps with
  | nil => simp
  | cons a l ih =>
    cases l with
    | nil => simp
    | cons b l =>
      simp only [List.tail_cons] at h ih
      have hab := h (a, b) (by simp)
      obtain ⟨h1, h2⟩ := ih (fun w hw => h w (by rw [List.zip_cons_cons]; exact List.mem_cons_of_mem _ hw))
      refine ⟨List.pairwise_cons.2 ⟨?_, h1⟩, ?_⟩
      · intro x hx
        rcases List.mem_cons.1 hx with rfl | hx
        · exact hab.1
        · exact Std.lt_trans hab.1 ((List.pairwise_cons.1 h1).1 x hx)
      · intro x hx
        rw [List.dropLast_cons_of_ne_nil (by simp)] at hx
        rcases List.mem_cons.1 hx with rfl | hx
        · exact hab.2
        · exact h2 x hx

theorem zip_tail_of (p : Rat → Prop) (ps : List Rat) (h : ps.Pairwise (· < ·))
    (h2 : ∀ x ∈ ps.dropLast, p x) : ∀ w ∈ ps.zip ps.tail, w.1 < w.2 ∧ p w.1 := by
  induction ps with
  | nil => simp
  | cons a l ih =>
    cases l with
    | nil => simp
    | cons b l =>
      rw [List.dropLast_cons_of_ne_nil (by simp)] at h2
      obtain ⟨ha, hl⟩ := List.pairwise_cons.1 h
      intro w hw
      simp only [List.tail_cons, List.zip_cons_cons, List.mem_cons] at hw
      rcases hw with rfl | hw
      · exact ⟨ha b (by simp), h2 a (by simp)⟩
      · exact ih hl (fun x hx => h2 x (List.mem_cons_of_mem _ hx)) w hw

/-- **C86 (part).** The accepted percentiles are exactly the ascending ones of which all but the last
lie between 0 and 100.  Missing: the last one (`C86_last_false`). -/
theorem C86_accepted_partial (ps : List Rat) :
    checkPercentiles (some ps) = true ↔
      ps.Pairwise (· < ·) ∧ ∀ p ∈ ps.dropLast, 0 ≤ p ∧ p ≤ 100 := by
  have key : checkPercentiles (some ps) = true ↔
      ∀ w ∈ ps.zip ps.tail, w.1 < w.2 ∧ (0 ≤ w.1 ∧ w.1 ≤ 100) := by
    simp only [checkPercentiles, Option.getD_some, List.all_eq_true, Bool.not_eq_true',
      Bool.or_eq_false_iff, decide_eq_false_iff_not, Rat.not_le, Rat.not_lt, and_assoc]
  rw [key]
  exact ⟨zip_tail_all (fun x => 0 ≤ x ∧ x ≤ 100) ps,
    fun h => zip_tail_of (fun x => 0 ≤ x ∧ x ≤ 100) ps h.1 h.2⟩

/-- **C86 (part).** Sensible percentiles are accepted. -/
theorem C86_sensible_partial (ps : List Rat) (h : Sensible ps) : checkPercentiles (some ps) = true :=
  (C86_accepted_partial ps).2 ⟨h.1, fun p hp => h.2 p (List.dropLast_subset _ hp)⟩

/-- **C86, the full statement is false.** A single percentile may be anything, and sensible
percentiles may be followed by any larger number. -/
theorem C86_last_false (p : Rat) : checkPercentiles (some [p]) = true ∧
    (∀ ps, Sensible ps → (∀ q ∈ ps, q < p) → checkPercentiles (some (ps ++ [p])) = true) ∧
    (100 < p → ¬ Sensible [p]) := by
  refine ⟨by simp [checkPercentiles], fun ps h hq => ?_, fun hp h => ?_⟩
  · refine (C86_accepted_partial _).2 ⟨?_, ?_⟩
    · rw [List.pairwise_append]
      exact ⟨h.1, List.pairwise_singleton _ _, fun a ha b hb => by
        rw [List.mem_singleton.1 hb]; exact hq a ha⟩
    · rw [List.dropLast_concat]
      exact h.2
  · exact absurd (h.2 p (by simp)).2 (Rat.not_le.2 hp)

/-- **C86 (part).** With percentiles there is one row for each described block, in order, with one
reward for each percentile; the rows of blocks without transactions are zero. -/
theorem C86_rows_partial {A : Adapter} {chain : List Full} (hA : Serves A chain) (count : U256)
    (id : BlockId) (ps : List Rat) (n : Nat) (hn : newestOf chain id = some n)
    (he : id ≠ .earliest) (hp : checkPercentiles (some ps) = true) (hne : ps ≠ [])
    (hk : 1 ≤ count.val) (hkn : min count.val 1024 ≤ n) :
    ∃ a, feeHistory A count id (some ps) = .ok a ∧
      a.reward = (described chain n (min count.val 1024)).map (rowOf ps) ∧
      (∀ row ∈ a.reward, row.length = ps.length) ∧
      ∀ (i : Nat) (f : Full), (described chain n (min count.val 1024))[i]? = some f →
        f.receipts = [] → a.reward[i]? = some (List.replicate ps.length 0) := by
  have hk0 : min count.val 1024 ≠ 0 := by omega
  obtain ⟨o, ho, h⟩ := feeHistory_spec hA count id (some ps) n hn he hp hk0
  rw [show (chain.drop o).take (n + 1 - o) = described chain n (min count.val 1024) by
    rw [described_eq chain n _ hkn, ho]] at h
  refine ⟨_, h, ?_⟩
  have hr : ∀ c, (answerOf (some ps) o c).reward = c.rewards := by
    intro c
    cases ps with
    | nil => exact absurd rfl hne
    | cons p l => rfl
  rw [hr]
  refine ⟨rfl, ?_, ?_⟩
  · intro row hrow
    obtain ⟨f, -, rfl⟩ := List.mem_map.1 hrow
    simp [rowOf]
  · intro i f hi hf
    simp only [rowsOf]
    rw [List.getElem?_map, hi, Option.map_some, Option.some.injEq]
    simp only [rowOf, hf, List.map_nil, List.getElem?_nil, Option.getD_none, List.map_const']

/-- **C86, the full statement is false.** The rewards are made from the gas used: for a block with one
transaction the row of the median is the gas it used less the base fee, whatever price was paid. -/
theorem C86_gas_false (f : Full) (r : Rcpt) (h : f.receipts = [r]) :
    rowOf [50] f = [r.usedGas.val - f.block.header.baseFeePerGas.val] := by
  simp only [rowOf, h, List.map_cons, List.map_nil, List.length_singleton]
  have : ((50 : Rat) * ((1 : Nat) : Rat) / 100).floor.toNat - 1 = 0 := by decide +kernel
  rw [this]
  rfl

/-- **C86, the full statement is false.** The rewards are not sorted before the percentiles are
taken: for a block whose first of two transactions used more gas, the median exceeds the maximum. -/
theorem C86_sorted_false (f : Full) (r s : Rcpt) (h : f.receipts = [r, s])
    (h1 : f.block.header.baseFeePerGas.val < r.usedGas.val) (h2 : s.usedGas.val < r.usedGas.val) :
    ∃ a b, rowOf [50, 100] f = [a, b] ∧ b < a := by
  have e1 : ((50 : Rat) * ((2 : Nat) : Rat) / 100).floor.toNat - 1 = 0 := by decide +kernel
  have e2 : ((100 : Rat) * ((2 : Nat) : Rat) / 100).floor.toNat - 1 = 1 := by decide +kernel
  refine ⟨r.usedGas.val - f.block.header.baseFeePerGas.val,
    s.usedGas.val - f.block.header.baseFeePerGas.val, ?_, by omega⟩
  simp only [rowOf, h, List.map_cons, List.map_nil, List.length_cons, List.length_nil]
  rw [e1, e2]
  rfl

/-- The block that can be read under a number, if any. -/
def readBlock (A : Adapter) (i : Nat) : Option Block :=
  match A.block i with
  | some (some b) => some b
  | _ => none

theorem collectFees_skips (A : Adapter) (l : List Nat) :
    collectFees A none l = .ok ⟨(l.filterMap (readBlock A)).flatMap
      (fun b => [b.header.baseFeePerGas, nextBaseFee]), (l.filterMap (readBlock A)).map gasRatio, []⟩ := by
  induction l with
  | nil => rfl
  | cons i l ih =>
    unfold collectFees
    cases hb : A.block i with
    | none =>
      rw [List.filterMap_cons_none (by simp [readBlock, hb])]
      exact ih
    | some o =>
      cases o with
      | none =>
        rw [List.filterMap_cons_none (by simp [readBlock, hb])]
        exact ih
      | some b =>
        rw [List.filterMap_cons_some (b := b) (by simp [readBlock, hb])]
        simp only
        rw [ih]
        rfl

/-- **C52 (part).** A block that cannot be read is left out without an error, whatever the storage
does: the ratios and base fees are those of the readable blocks of the range, in order, so they no
longer line up with the oldest block number. -/
theorem C52_gap_partial (A : Adapter) (count : U256) (n : U64) (last : Block)
    (h : A.block n.val = some (some last)) (hk : 1 ≤ count.val) (o : Nat)
    (ho : o = last.header.number.val - min count.val 1024 + 1) (l : List Block)
    (hl : l = (List.range' o (last.header.number.val + 1 - o)).filterMap fun i =>
      match A.block i with
      | some (some b) => some b
      | _ => none) :
    feeHistory A count (.num n) none = .ok (.withoutReward o
        (l.flatMap fun b => [b.header.baseFeePerGas, ⟨0x539, by decide⟩])
        (l.map fun b => if b.header.gasLimit.val = 0 then 0
          else (b.header.gasUsed.val : Rat) / (b.header.gasLimit.val : Rat) * 100)) := by
  have hlt := last.header.number.lt
  have ho' : oldestOf last.header.number.val (min count.val 1024) = o := by
    unfold oldestOf; omega
  unfold feeHistory
  rw [if_neg (by simp [checkPercentiles])]
  dsimp only
  rw [if_neg (show ¬ min count.val maxFeeHistory = 0 by unfold maxFeeHistory; omega)]
  unfold innerFeeHistory
  rw [show A.blockAt (some n.val) = some (some last) from h]
  simp only [Reply.internal, Reply.bind]
  rw [show min count.val maxFeeHistory = min count.val 1024 from rfl, ho', collectFees_skips]
  subst hl
  rfl

/-- **C86 (part).** An answer carries rewards exactly if percentiles were given, there is one at least,
and a block was asked for. -/
theorem C86_asked_partial (A : Adapter) (count : U256) (id : BlockId) (ps : Option (List Rat)) (a : FeeAnswer)
    (h : feeHistory A count id ps = .ok a) :
    (∃ o b r w, a = .withReward o b r w) ↔ count.val ≠ 0 ∧ ∃ p t, ps = some (p :: t) := by
  have key : ∀ o c, (∃ o' b r w, answerOf ps o c = .withReward o' b r w) ↔ ∃ p t, ps = some (p :: t) := by
    intro o c
    cases ps with
    | none => simp [answerOf]
    | some l => cases l <;> simp [answerOf]
  have bnd : ∀ {α : Type} (x : Reply α) (f : α → Nat × Collected),
      (x.bind fun y => .ok (answerOf ps (f y).1 (f y).2)) = .ok a →
      ∃ o c, a = answerOf ps o c := by
    intro α x f hx
    cases x with
    | ok v => simp only [Reply.bind, Reply.ok.injEq] at hx; exact ⟨_, _, hx.symm⟩
    | err e => simp [Reply.bind] at hx
    | panic => simp [Reply.bind] at hx
  unfold feeHistory at h
  split at h
  · simp at h
  dsimp only at h
  split at h
  · rename_i h0
    have : count.val = 0 := by unfold maxFeeHistory at h0; omega
    simp only [Reply.ok.injEq] at h
    subst h
    simp [this]
  · rename_i h0
    have hc : count.val ≠ 0 := by unfold maxFeeHistory at h0; omega
    have hx : ∃ o c, a = answerOf ps o c := by
      cases id with
      | num n => exact bnd _ id h
      | latest => exact bnd _ id h
      | pending => exact bnd _ id h
      | hash _ => simp at h
      | earliest =>
        simp only [earliestHistory] at h
        cases hb : (Reply.internal (A.block 0)) with
        | err e => rw [hb] at h; simp [Reply.bind] at h
        | panic => rw [hb] at h; simp [Reply.bind] at h
        | ok ob =>
          rw [hb] at h
          simp only [Reply.bind] at h
          cases hu : Reply.unwrap ob with
          | err e => rw [hu] at h; simp at h
          | panic => rw [hu] at h; simp at h
          | ok first =>
            rw [hu] at h
            simp only at h
            exact bnd _ (fun r => (_, ⟨_, _, r⟩)) h
    obtain ⟨o, c, rfl⟩ := hx
    rw [key]
    simp [hc]

/-! ## Instances -/

namespace Sample

example : newestOf chain .latest = some 1 ∧ checkPercentiles (some [10, 50, 1000]) = true ∧
    checkPercentiles (some [50, 10]) = false ∧ checkPercentiles (some [200, 300]) = false := by
  decide +kernel

example : (match feeHistory (ofChain chain) ⟨1, by decide⟩ .latest none with
    | .ok a => (a.oldest, a.ratios.length, a.baseFees.length)
    | _ => (0, 0, 0)) = (1, 1, 2) := by decide +kernel

/-- The hypotheses of `C52_genesis_false`. -/
example : (match feeHistory (ofChain chain) ⟨5, by decide⟩ .latest none with
    | .ok a => (a.oldest, a.ratios.length, a.baseFees.length)
    | _ => (0, 0, 0)) = (1, 1, 2) ∧ (described chain 1 5).length = 2 := by decide +kernel

def block2 : Full := { block1 with block := { block1.block with
  header := { block1.block.header with number := ⟨2, by decide⟩ } } }

/-- The hypotheses of `C52_base_fees_false`. -/
example : (match feeHistory (ofChain (chain ++ [block2])) ⟨2, by decide⟩ .latest (some [50]) with
    | .ok a => (a.oldest, a.ratios.length, a.baseFees.length, a.reward.length)
    | _ => (0, 0, 0, 0)) = (1, 2, 4, 2) := by decide +kernel

/-- The hypotheses of `C52_gap_partial` with a block that cannot be read. -/
example : (match feeHistory { ofChain (chain ++ [block2]) with
        block := fun i => if i = 1 then none else (ofChain (chain ++ [block2])).block i }
      ⟨2, by decide⟩ (.num ⟨2, by decide⟩) none with
    | .ok a => (a.oldest, a.ratios.length, a.baseFees.length)
    | _ => (0, 0, 0)) = (1, 1, 2) := by decide +kernel

example : (match feeHistory (ofChain (chain ++ [block2])) ⟨2, by decide⟩ .latest (some []) with
    | .ok (.withoutReward _ _ r) => r.length
    | _ => 0) = 2 := by decide +kernel

end Sample

end Axon.Api
