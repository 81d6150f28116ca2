import Verif.Consensus.Hardfork
import Verif.Api.AxonRpcProps

/-!
# C107: proposing, agreeing on and enabling a hardfork
-/

namespace Axon.Fork

open Axon Axon.Block Axon.Meta Axon.AxonRpc

/-! ## Specification -/

/-- The flags in force for the execution of the block that follows a chain. -/
def InForce (g : H256) (chain : List Extra) : H256 := forkAt (forksOf g chain) chain.length

/-- No block of the chain announces a hardfork for its own number or an earlier one. -/
def Ahead (chain : List Extra) : Prop :=
  ∀ (i : Nat) (v : Info), chain[i]? = some (.info v) → i + 1 < v.1

/-- An operator asked for this hardfork, on this node, while its chain was shorter than the start
number and the registered flags did not contain it. -/
def Asked (g : H256) (ops : List Op) (v : Info) : Prop :=
  ∃ pre post, ops = pre ++ .command (some v) :: post ∧ (run g pre).up = false ∧
    (run g pre).chain.length < v.1 ∧ v.2 ≠ zeroH ∧
    ∀ c, (forksOf g (run g pre).chain).getLast? = some c → andH c.2 v.2 ≠ v.2

/-- Operations that end without a refused block. -/
def Clean : List Op → Prop := fun ops => ∀ e, .refused e ∉ ops

/-! ## Theorems -/

/-- **C107, one set of flags.**  Without refused blocks, a running node always executes the next block
under the flags that its chain determines, whatever its operator, its starts and its source of blocks:
nodes with the same chain use the same flags. -/
theorem C107_flags_partial (g : H256) (ops : List Op) (hc : Clean ops) (hu : (run g ops).up = true) :
    (run g ops).flags = InForce g (run g ops).chain := by
  induction ops using snoc_induction with
  | nil => cases hu
  | snoc ops op ih =>
    have ih := ih (fun e he => hc e (List.mem_append_left _ he))
    rw [run_snoc] at hu ⊢
    revert ih hu
    generalize run g ops = n
    intro hu ih
    cases op with
    | command v =>
      unfold step at *
      dsimp only at *
      split at hu
      next h => rw [if_pos h]; exact ih h
      next h =>
        exfalso
        have : (setInfo g n v).up = n.up := by
          unfold setInfo
          cases v with
          | none => rfl
          | some v => dsimp only; split <;> (try split) <;> (try split) <;> rfl
        rw [this] at hu
        exact h hu
    | start =>
      unfold step at *
      dsimp only at *
      split
      next h => exact ih h
      · rfl
    | stop => cases hu
    | propose =>
      unfold step at *
      dsimp only at *
      split at hu
      next h =>
        rw [if_pos h]
        have h1 : (getBlock n).2.flags = n.flags ∧ (getBlock n).2.chain = n.chain := by
          unfold getBlock
          split
          · split <;> exact ⟨rfl, rfl⟩
          · exact ⟨rfl, rfl⟩
        rw [h1.1, h1.2]
        exact ih h
      next h => exact absurd hu h
    | commit e =>
      unfold step at *
      dsimp only at *
      split at hu
      next h =>
        rw [if_pos h]
        have h1 : (commit g n e).flags = flagsAfter g n e ∧ (commit g n e).chain = n.chain ++ [e] := by
          unfold commit
          dsimp only
          split
          · exact ⟨rfl, rfl⟩
          · split <;> exact ⟨rfl, rfl⟩
        rw [h1.1, h1.2]
        unfold flagsAfter InForce
        rw [List.length_append]
        rfl
      next h => exact absurd hu h
    | sync e =>
      unfold step at *
      dsimp only at *
      split at hu
      next h =>
        rw [if_pos h]
        unfold syncBlock flagsAfter InForce
        dsimp only
        rw [List.length_append]
        rfl
      next h => exact absurd hu h
    | refused e => exact absurd (by simp) (hc e)

/-- A restart repairs the flags, whatever happened before. -/
theorem C107_restart (g : H256) (ops : List Op) :
    (run g (ops ++ [.stop, .start])).flags = InForce g (run g (ops ++ [.stop, .start])).chain := by
  rw [show ops ++ [Op.stop, Op.start] = (ops ++ [.stop]) ++ [.start] by simp, run_snoc, run_snoc]
  rfl

/-- **A block from a lying peer changes the flags.**  Block 1 announces the flag for number 2.  A peer
serves block 2 with a wrong state root, which no proof covers: the node executes it, refuses it, and
then executes the right block 2 under flags that its chain does not have. -/
theorem C107_refused_false :
    let g := flag 0
    let ops := [.start, .sync (.info (2, flag 1)), .refused .none]
    (run g ops).up = true ∧ (run g ops).flags = flag 1 ∧ InForce g (run g ops).chain = flag 0 := by
  decide +kernel

/-- The flags under which a block of the chain was executed are not changed by later blocks. -/
theorem C107_final (g : H256) (chain more : List Extra) (h : Ahead (chain ++ more)) :
    forkAt (forksOf g (chain ++ more)) chain.length = InForce g chain := by
  induction more using snoc_induction with
  | nil => rw [List.append_nil]; rfl
  | snoc more e ih =>
    have hpre : Ahead (chain ++ more) := by
      intro i v hi
      apply h i v
      rw [← List.append_assoc]
      rw [List.getElem?_append_left (List.getElem?_eq_some_iff.1 hi).1]
      exact hi
    rw [← List.append_assoc]
    cases e with
    | none => rw [forksOf_snoc]; exact ih hpre
    | garbage => rw [forksOf_snoc]; exact ih hpre
    | info v =>
      have hv : (chain ++ more).length + 1 < v.1 := by
        apply h (chain ++ more).length v
        rw [← List.append_assoc]
        simp
      rw [forksOf_snoc_info]
      rw [C39_stable _ v.1 v.2 _ (by simp at hv; omega)]
      exact ih hpre

/-- **C107, proposals look ahead.**  A node proposes its operator's hardfork only in blocks before the
start number; once the number is reached it forgets it. -/
theorem C107_propose (n : Node) :
    (∀ v, (getBlock n).1 = .info v → n.mem = some v ∧ n.chain.length + 1 < v.1) ∧
    (getBlock n).1 ≠ .garbage ∧
    (∀ v, n.mem = some v → v.1 ≤ n.chain.length + 1 →
      (getBlock n).1 = .none ∧ (getBlock n).2.mem = none ∧ (getBlock n).2.stored = none) ∧
    (∀ v, n.mem = some v → n.chain.length + 1 < v.1 → getBlock n = (.info v, n)) := by
  unfold getBlock
  refine ⟨?_, ?_, ?_, ?_⟩
  · intro v h
    split at h
    · split at h
      · cases h
      next h1 h2 => cases h; exact ⟨h1, by omega⟩
    · cases h
  · split
    · split <;> intro h <;> cases h
    · intro h; cases h
  · intro v hm hv
    rw [hm]
    dsimp only
    rw [if_pos hv]
    exact ⟨rfl, rfl, rfl⟩
  · intro v hm hv
    rw [hm]
    dsimp only
    rw [if_neg (by omega)]

/-- What a stored or remembered proposal of a node means. -/
theorem asked_mono {g : H256} {ops : List Op} {v : Info} (h : Asked g ops v) (op : Op) :
    Asked g (ops ++ [op]) v := by
  obtain ⟨pre, post, rfl, h⟩ := h
  exact ⟨pre, post ++ [op], by simp, h⟩

theorem origin (g : H256) (ops : List Op) (v : Info) :
    ((run g ops).stored = some v → Asked g ops v) ∧ ((run g ops).mem = some v → Asked g ops v) := by
  induction ops using snoc_induction with
  | nil => exact ⟨fun h => (by cases h), fun h => (by cases h)⟩
  | snoc ops op ih =>
    have hm := fun h => asked_mono (ih.1 h) op
    have hm2 := fun h => asked_mono (ih.2 h) op
    rw [run_snoc]
    cases op with
    | command w =>
      unfold step
      dsimp only
      by_cases hu : (run g ops).up = true
      · rw [if_pos hu]; exact ⟨hm, hm2⟩
      · rw [if_neg hu]
        cases w with
        | none => exact ⟨hm, hm2⟩
        | some w =>
          unfold setInfo
          dsimp only
          split
          · exact ⟨hm, hm2⟩
          next h1 =>
            split
            · exact ⟨hm, hm2⟩
            next h2 =>
              split
              · exact ⟨hm, hm2⟩
              next h3 =>
                refine ⟨?_, hm2⟩
                intro h
                cases h
                refine ⟨ops, [], rfl, by simpa using hu, by omega, h2, ?_⟩
                intro c hc he
                rw [hc] at h3
                exact h3 (by simpa using he)
    | start =>
      unfold step
      dsimp only
      split
      · exact ⟨hm, hm2⟩
      · exact ⟨hm, hm⟩
    | stop => exact ⟨hm, fun h => by cases h⟩
    | propose =>
      unfold step
      dsimp only
      split
      · unfold getBlock
        split
        · split
          · exact ⟨fun h => (by cases h), fun h => (by cases h)⟩
          · exact ⟨hm, hm2⟩
        · exact ⟨hm, hm2⟩
      · exact ⟨hm, hm2⟩
    | commit e =>
      unfold step
      dsimp only
      split
      · unfold commit
        dsimp only
        split
        · exact ⟨hm, hm2⟩
        · split
          · exact ⟨fun h => (by cases h), fun h => (by cases h)⟩
          · exact ⟨hm, hm2⟩
      · exact ⟨hm, hm2⟩
    | sync e =>
      unfold step
      dsimp only
      split
      · exact ⟨hm, hm2⟩
      · exact ⟨hm, hm2⟩
    | refused e =>
      unfold step
      dsimp only
      split
      · exact ⟨hm, hm2⟩
      · exact ⟨hm, hm2⟩

/-- **C107, agreement.**  A node accepts or proposes a block that carries a hardfork only if its own
operator asked for exactly this hardfork before its start number; undecodable extra data are refused and
empty ones accepted. -/
theorem C107_agreed (g : H256) (ops : List Op) :
    (∀ v, checkExtra (run g ops) (.info v) = true → Asked g ops v) ∧
    (∀ v, (getBlock (run g ops)).1 = .info v → Asked g ops v) ∧
    checkExtra (run g ops) .garbage = false ∧ checkExtra (run g ops) .none = true := by
  refine ⟨?_, ?_, rfl, rfl⟩
  · intro v h
    exact (origin g ops v).2 (of_decide_eq_true h)
  · intro v h
    exact (origin g ops v).2 ((C107_propose _).1 v h).1

theorem andH_orH_self (a b : H256) : andH (orH a b) a = a := by
  apply bitOf_ext
  intro p _
  rw [bitOf_andH, bitOf_orH]
  cases bitOf a p <;> simp

/-- The last entry includes the flags just registered. -/
theorem last_includes (g : H256) (chain : List Extra) (v : Info)
    (hl : ∀ x ∈ forksOf g chain, x.1 ≤ v.1) :
    (forksOf g (chain ++ [.info v])).getLast?.any (fun c => andH c.2 v.2 = v.2) = true := by
  rw [forksOf_snoc]
  dsimp only [Extra.carried]
  have hi := increasing_registerAll ((0, g) :: chain.filterMap (·.carried))
  change Increasing (forksOf g chain) at hi
  revert hl hi
  generalize forksOf g chain = l
  intro hl hi
  rcases push_cases l v.1 v.2 hi with ⟨rfl, h⟩ | ⟨t, lb, lf, rfl, hor, h⟩ | ⟨t, lf, rfl, h⟩ |
    ⟨t, lb, lf, rfl, hb, h⟩
  · rw [h]
    simp
    have := andH_orH_self v.2 v.2
    rw [orH_self] at this
    exact this
  · rw [h, List.getLast?_concat]
    have := hl (lb, lf) (by simp)
    simp at this
    rcases hor with hor | hor
    · simp
      rw [← hor]
      exact andH_orH_self _ _
    · omega
  · rw [h, List.getLast?_concat]
    simp
    exact andH_orH_self _ _
  · rw [h, List.getLast?_concat]
    simp
    exact andH_orH_self _ _

/-- **C107, registration.**  Committing a block with a hardfork whose start number is not below those
already registered puts its flags in force from that number on, and no flag before it changes; a node
that had proposed it forgets it. -/
theorem C107_registered_partial (g : H256) (n : Node) (v : Info)
    (hl : ∀ x ∈ forksOf g n.chain, x.1 ≤ v.1) :
    (∀ m, v.1 ≤ m → forkAt (forksOf g (commit g n (.info v)).chain) m =
      orH v.2 (forkAt (forksOf g n.chain) m)) ∧
    (∀ m, m < v.1 → forkAt (forksOf g (commit g n (.info v)).chain) m = forkAt (forksOf g n.chain) m) ∧
    (n.mem = some v → (commit g n (.info v)).mem = none ∧ (commit g n (.info v)).stored = none) := by
  have hchain : (commit g n (.info v)).chain = n.chain ++ [.info v] := by
    unfold commit
    dsimp only
    split
    · rfl
    · split <;> rfl
  rw [hchain, forksOf_snoc_info]
  refine ⟨fun m hm => C39_activation _ v.1 v.2 m hm hl, fun m hm => C39_stable _ v.1 v.2 m hm, ?_⟩
  intro hv
  unfold commit
  dsimp only
  rw [hv]
  dsimp only
  rw [if_pos (last_includes g n.chain v hl)]
  exact ⟨rfl, rfl⟩

/-- **A hardfork can get lost.**  With a hardfork registered for number 100, the command accepts another
one for number 50; blocks carry it and every block is accepted, but it is never registered, and at
number 49 the node forgets it. -/
theorem C107_lost_false :
    let g := flag 0
    let ops := [.sync (.info (100, flag 1)), .stop, .command (some (50, flag 2)), .start]
    let n := run g (.start :: ops)
    n.mem = some (50, flag 2) ∧ getBlock n = (.info (50, flag 2), n) ∧
    checkExtra n (.info (50, flag 2)) = true ∧
    forksOf g (commit g n (.info (50, flag 2))).chain = forksOf g n.chain ∧
    (commit g n (.info (50, flag 2))).mem = some (50, flag 2) := by
  decide +kernel

/-- The `check_block` of a node would only accept hardforks that lie ahead. -/
def ChecksAhead (g : H256) : Prop :=
  ∀ ops v, checkExtra (run g ops) (.info v) = true → (run g ops).chain.length + 1 < v.1

/-- **The start number is not checked.**  A node that has not been asked for a block since then accepts
a hardfork whose start number has passed, and the flags in force at an executed block change. -/
theorem C107_stale_false : ¬ ChecksAhead (flag 0) ∧
    let ops := [.command (some (2, flag 1)), .start, .commit .none, .commit .none]
    let n := run (flag 0) ops
    checkExtra n (.info (2, flag 1)) = true ∧ forkAt (forksOf (flag 0) n.chain) 2 = flag 0 ∧
    forkAt (forksOf (flag 0) (commit (flag 0) n (.info (2, flag 1))).chain) 2 = flag 1 := by
  refine ⟨?_, by decide +kernel⟩
  intro h
  have := h [.command (some (2, flag 1)), .start, .commit .none, .commit .none] (2, flag 1)
    (by decide +kernel)
  revert this
  decide +kernel

/-- The command turns names into flags: none given means all of them. -/
theorem C107_input (hs : List Nat) (hn : ∀ h ∈ hs, h ∈ names) (f : Nat) (hf : f ∈ names) :
    Has (inputFlags hs) f ↔ f ≠ 0 ∧ (hs = [] ∨ f ∈ hs) := by
  have hor : ∀ (l : List Nat) (a k : Nat), (l.foldl (· ||| ·) a).testBit k =
      (a.testBit k || l.any fun x => x.testBit k) := by
    intro l
    induction l with
    | nil => simp
    | cons x l ih => intro a k; rw [List.foldl_cons, ih]; simp [Bool.or_assoc]
  have hmask : ∀ x : Nat, Has (mask x) f ↔ ∃ k < 64, f.testBit k = true ∧ x.testBit k = true := by
    intro x
    unfold Has
    constructor
    · rintro ⟨k, hk, h1, h2⟩
      rw [bitOf_mask, Bool.and_eq_true] at h2
      exact ⟨k, hk, h1, by simpa using h2.2⟩
    · rintro ⟨k, hk, h1, h2⟩
      refine ⟨k, hk, h1, ?_⟩
      rw [bitOf_mask, show 192 + k - 192 = k by omega, h2]
      simp
      omega
  have h01 : f = 0 ∨ f = 1 := by simpa [names] using hf
  rcases h01 with rfl | rfl
  · simp [Has]
  · unfold inputFlags
    split
    next h => subst h; rw [hmask]; simp; exact ⟨0, by decide, by decide, by decide⟩
    next h =>
      split
      next h2 => subst h2; simp [has_zero]
      next h2 =>
        rw [hmask]
        simp only [h, false_or, ne_eq, Nat.one_ne_zero, not_false_eq_true, true_and]
        constructor
        · rintro ⟨k, -, h3, h4⟩
          rw [hor] at h4
          simp only [Nat.zero_testBit, Bool.false_or, List.any_eq_true] at h4
          obtain ⟨x, hx, h5⟩ := h4
          have : x = 0 ∨ x = 1 := by simpa [names] using hn x hx
          rcases this with rfl | rfl
          · simp at h5
          · exact hx
        · intro hx
          refine ⟨0, by decide, by decide, ?_⟩
          rw [hor]
          simp only [Nat.zero_testBit, Bool.false_or, List.any_eq_true]
          exact ⟨1, hx, by decide⟩

/-! ## Concrete instances -/

/-- Two operators ask for the same hardfork; it is carried by block 2, registered, forgotten and enabled
with number 4. -/
example :
    let g := flag 0
    let n := run g [.command (some (4, flag 1)), .start, .commit .none, .propose]
    getBlock n = (.info (4, flag 1), n) ∧ checkExtra n (.info (4, flag 1)) = true ∧
    (commit g n (.info (4, flag 1))).mem = none ∧ (commit g n (.info (4, flag 1))).flags = flag 0 ∧
    (commit g (commit g (commit g n (.info (4, flag 1))) .none) .none).flags = flag 1 ∧
    (∀ x ∈ forksOf g n.chain, x.1 ≤ 4) := by
  decide +kernel

example : Clean [.command (some (4, flag 1)), .start, .commit .none, .propose] := by
  intro e h
  simp at h

example : Ahead ([.none, .info (4, flag 1)] ++ [.none]) := by
  intro i v h
  match i, h with
  | 0, h => cases h
  | 1, h => cases h; decide
  | 2, h => cases h
  | i + 3, h => simp at h

end Axon.Fork
