import Verif.Metadata.Config

/-!
# C68, C39: stored consensus configuration and hardfork flags
-/

namespace Axon.Meta
open Axon.Rlp Axon.Block

/-- What is readable of a configuration stored under the given flags: before Andromeda the contract
size limit is fixed. -/
def visible (flags : H256) (c : Config) : Config :=
  if flags.bytes[24]?.any (fun b => b.toNat % 2 = 1) then c
  else { c with maxContractLimit := ⟨24576, by decide⟩ }

theorem isV1_eq (flags : H256) : isV1 flags = flags.bytes[24]?.any (fun b => b.toNat % 2 = 1) := by
  unfold isV1
  cases flags.bytes[24]? with
  | none => rfl
  | some b =>
    have : (b &&& 1 = 1) ↔ b.toNat % 2 = 1 := by
      rw [← UInt8.toNat_inj, UInt8.toNat_and, show (1 : UInt8).toNat = 2 ^ 1 - 1 from rfl,
        Nat.and_two_pow_sub_one_eq_mod]
    simp [this]

theorem configAt_itemsV0 (c : Config) (l : U64) :
    configAt (itemsV0 c) l = some { c with maxContractLimit := l } := by
  simp [configAt, itemsV0]

theorem configAt_itemsV1 (c : Config) (l : U64) :
    configAt (itemsV1 c) l = some { c with maxContractLimit := l } := by
  simp [configAt, itemsV1, itemsV0]

/-- C68: a stored configuration reads back unchanged once Andromeda is active, and with the default
contract size limit before; reading never panics. -/
theorem C68_roundtrip (flags : H256) (c : Config) :
    decodeConfig (encodeConfig flags c) = .ok (visible flags c) := by
  unfold encodeConfig visible
  rw [isV1_eq]
  split
  · show decodeConfig (0 :: 1 :: encode (.list (itemsV1 c))) = _
    unfold decodeConfig
    simp only
    rw [if_neg (by decide), if_pos (by decide), decode_itemsV1]
    simp only
    have h8 : valAt (itemsV1 c) 8 (toUint 64) = some c.maxContractLimit := by simp [itemsV1, itemsV0]
    rw [h8]
    simp only [Option.bind_eq_bind, Option.bind_some]
    rw [configAt_itemsV1]
    rfl
  · show decodeConfig (0 :: 0 :: encode (.list (itemsV0 c))) = _
    unfold decodeConfig
    simp only
    rw [if_pos (by decide), decode_itemsV0]
    simp only
    rw [configAt_itemsV0]
    rfl

/-- C68: exactly the stored values whose reading aborts the node: shorter than two bytes or with an
unknown version. -/
theorem C68_panic_iff (bs : Bytes) :
    decodeConfig bs = .panic ↔ bs.length < 2 ∨ bs[0]? ≠ some 0 ∨ (bs[1]? ≠ some 0 ∧ bs[1]? ≠ some 1) := by
  have hof : ∀ o : Option Config, Outcome.ofOption o ≠ .panic := by
    intro o; cases o <;> simp [Outcome.ofOption]
  match bs with
  | [] => simp [decodeConfig]
  | [a] => simp [decodeConfig]
  | a :: b :: rest =>
    unfold decodeConfig
    simp only [List.length_cons, List.getElem?_cons_zero, List.getElem?_cons_succ, Option.some.injEq,
      ne_eq]
    split
    · rename_i h
      obtain ⟨rfl, rfl⟩ := h
      simp
      split
      · simp [hof]
      · simp
    · split
      · rename_i h
        obtain ⟨rfl, rfl⟩ := h
        simp
        split
        · simp [hof]
        · simp
      · rename_i h1 h2
        simp only [true_iff]
        right
        by_cases ha : a = 0
        · right
          exact ⟨fun hb => h1 ⟨ha, hb⟩, fun hb => h2 ⟨ha, hb⟩⟩
        · exact Or.inl ha

/-! ## C39 -/

theorem orH_bytes (a b : H256) (i : Nat) :
    (orH a b).bytes[i]? = (a.bytes[i]?).bind fun x => (b.bytes[i]?).map fun y => x ||| y := by
  simp only [orH, List.getElem?_zipWith]
  cases a.bytes[i]? <;> cases b.bytes[i]? <;> rfl

theorem zipWith_or_eq (a b c : Bytes) : List.zipWith (· ||| ·) (List.zipWith (· ||| ·) a b) c =
    List.zipWith (· ||| ·) a (List.zipWith (· ||| ·) b c) := by
  induction a generalizing b c with
  | nil => simp
  | cons x a ih =>
    cases b with
    | nil => simp
    | cons y b =>
      cases c with
      | nil => simp
      | cons z c => simp [ih, UInt8.or_assoc]

theorem orH_assoc (a b c : H256) : orH (orH a b) c = orH a (orH b c) :=
  FixedBytes.ext' (zipWith_or_eq _ _ _)

theorem orH_comm (a b : H256) : orH a b = orH b a := by
  apply FixedBytes.ext'
  have : ∀ a b : Bytes, List.zipWith (· ||| ·) a b = List.zipWith (· ||| ·) b a := by
    intro a
    induction a with
    | nil => simp
    | cons x a ih => intro b; cases b with
      | nil => rfl
      | cons y b => simp [ih b, UInt8.or_comm]
  exact this _ _

theorem orH_self (a : H256) : orH a a = a := by
  apply FixedBytes.ext'
  have : ∀ a : Bytes, List.zipWith (· ||| ·) a a = a := by
    intro a
    induction a with
    | nil => rfl
    | cons x a ih => simp
  exact this _

theorem orH_zero (a : H256) : orH a zeroH = a := by
  apply FixedBytes.ext'
  have : ∀ (a : Bytes) n, a.length = n → List.zipWith (· ||| ·) a (List.replicate n 0) = a := by
    intro a
    induction a with
    | nil => simp
    | cons x a ih =>
      intro n hn
      cases n with
      | zero => simp at hn
      | succ n => simp at hn; simp [List.replicate_succ, ih n hn]
  exact this _ _ a.len

/-- Registering hardforks one after the other, beginning with nothing stored. -/
def registerAll (regs : List (Nat × H256)) : Forks :=
  (regs.foldl (fun l r => some (setFork l r.1 r.2)) none).getD []

/-- Strictly increasing start numbers. -/
def Increasing (l : Forks) : Prop := l.Pairwise (fun a b => a.1 < b.1)

theorem push_cases (l : Forks) (b : Nat) (f : H256) (hi : Increasing l) :
    (l = [] ∧ pushFork l b f = [(b, f)]) ∨
    (∃ t lb lf, l = t ++ [(lb, lf)] ∧ (orH f lf = lf ∨ b < lb) ∧ pushFork l b f = l) ∨
    (∃ t lf, l = t ++ [(b, lf)] ∧ pushFork l b f = t ++ [(b, orH f lf)]) ∨
    (∃ t lb lf, l = t ++ [(lb, lf)] ∧ lb < b ∧ pushFork l b f = l ++ [(b, orH f lf)]) := by
  unfold pushFork
  cases hl : l.getLast? with
  | none => left; exact ⟨List.getLast?_eq_none_iff.1 hl, rfl⟩
  | some e =>
    obtain ⟨lb, lf⟩ := e
    obtain ⟨t, rfl⟩ := List.getLast?_eq_some_iff.1 hl
    right
    simp only
    split
    · rename_i h; left; exact ⟨t, lb, lf, rfl, h, rfl⟩
    · rename_i h
      right
      split
      · rename_i h2; subst h2; left; exact ⟨t, lf, rfl, by simp⟩
      · right; exact ⟨t, lb, lf, rfl, by omega, rfl⟩

theorem increasing_push (l : Forks) (b : Nat) (f : H256) (hi : Increasing l) :
    Increasing (pushFork l b f) := by
  rcases push_cases l b f hi with ⟨_, h⟩ | ⟨_, _, _, _, _, h⟩ | ⟨t, lf, rfl, h⟩ | ⟨t, lb, lf, rfl, hb, h⟩
  · rw [h]; simp [Increasing]
  · rw [h]; exact hi
  · rw [h]
    unfold Increasing at *
    rw [List.pairwise_append] at *
    refine ⟨hi.1, by simp, ?_⟩
    intro a ha c hc
    rw [List.mem_singleton] at hc
    subst hc
    exact hi.2.2 a ha (b, lf) (by simp)
  · rw [h]
    unfold Increasing at *
    rw [List.pairwise_append]
    refine ⟨hi, by simp, ?_⟩
    intro a ha c hc
    rw [List.mem_singleton] at hc
    subst hc
    rw [List.pairwise_append] at hi
    rcases List.mem_append.1 ha with ha | ha
    · have := hi.2.2 a ha (lb, lf) (by simp); simp at this ⊢; omega
    · rw [List.mem_singleton] at ha; subst ha; exact hb

theorem setFork_eq (l : Option Forks) (b : Nat) (f : H256) :
    setFork l b f = pushFork (l.getD []) b f := by
  cases l with
  | none => rfl
  | some l => rfl

theorem registerAll_snoc (regs : List (Nat × H256)) (r : Nat × H256) :
    registerAll (regs ++ [r]) = pushFork (registerAll regs) r.1 r.2 := by
  unfold registerAll
  rw [List.foldl_append]
  simp only [List.foldl_cons, List.foldl_nil, Option.getD_some]
  rw [setFork_eq]

theorem increasing_registerAll (regs : List (Nat × H256)) : Increasing (registerAll regs) := by
  induction regs using snoc_induction with
  | nil => exact List.Pairwise.nil
  | snoc l r ih => rw [registerAll_snoc]; exact increasing_push _ _ _ ih

theorem forkAt_snoc (t : Forks) (e : Nat × H256) (n : Nat) :
    forkAt (t ++ [e]) n = if e.1 ≤ n then e.2 else forkAt t n := by
  unfold forkAt
  rw [List.reverse_append]
  simp only [List.reverse_cons, List.reverse_nil, List.nil_append, List.singleton_append,
    List.find?_cons]
  by_cases h : e.1 ≤ n
  · simp [h]
  · simp [h]

/-- C39: the flags in force at a block are those of the registered entry with the largest start
number not above the block, none if there is no such entry. -/
theorem C39_lookup (regs : List (Nat × H256)) (n : Nat) :
    (∃ b f, (b, f) ∈ registerAll regs ∧ b ≤ n ∧ forkAt (registerAll regs) n = f ∧
      ∀ b' f', (b', f') ∈ registerAll regs → b' ≤ n → b' ≤ b) ∨
    ((∀ b f, (b, f) ∈ registerAll regs → n < b) ∧ forkAt (registerAll regs) n = zeroH) := by
  have hi := increasing_registerAll regs
  generalize registerAll regs = l at hi
  induction l using snoc_induction with
  | nil => right; simp [forkAt]
  | snoc t e ih =>
    have hi' : Increasing t := (List.pairwise_append.1 hi).1
    have hlt := (List.pairwise_append.1 hi).2.2
    rw [forkAt_snoc]
    by_cases h : e.1 ≤ n
    · left
      refine ⟨e.1, e.2, by simp, h, by rw [if_pos h], ?_⟩
      intro b' f' hm hb'
      rcases List.mem_append.1 hm with hm | hm
      · have := hlt _ hm e (by simp); simp at this; omega
      · rw [List.mem_singleton] at hm; rw [← hm]; exact Nat.le_refl _
    · rw [if_neg h]
      rcases ih hi' with ⟨b, f, h1, h2, h3, h4⟩ | ⟨h1, h2⟩
      · left
        refine ⟨b, f, by simp [h1], h2, h3, ?_⟩
        intro b' f' hm hb'
        rcases List.mem_append.1 hm with hm | hm
        · exact h4 b' f' hm hb'
        · rw [List.mem_singleton] at hm; rw [← hm] at h; exact absurd hb' h
      · right
        refine ⟨?_, h2⟩
        intro b f hm
        rcases List.mem_append.1 hm with hm | hm
        · exact h1 b f hm
        · rw [List.mem_singleton] at hm; rw [← hm] at h; simp at h; exact h

/-- C39: registering an entry never changes the flags in force before its start number. -/
theorem C39_stable (regs : List (Nat × H256)) (b : Nat) (f : H256) (n : Nat) (hn : n < b) :
    forkAt (registerAll (regs ++ [(b, f)])) n = forkAt (registerAll regs) n := by
  rw [registerAll_snoc]
  have hi := increasing_registerAll regs
  generalize registerAll regs = l at hi
  rcases push_cases l b f hi with ⟨rfl, h⟩ | ⟨_, _, _, _, _, h⟩ | ⟨t, lf, rfl, h⟩ | ⟨t, lb, lf, rfl, hb, h⟩
  · simp only [h]
    rw [show [(b, f)] = [] ++ [(b, f)] from rfl, forkAt_snoc, if_neg (by simpa using hn)]
  · simp only [h]
  · simp only [h]
    rw [forkAt_snoc, forkAt_snoc, if_neg (by simpa using hn), if_neg (by simpa using hn)]
  · simp only [h]
    rw [forkAt_snoc, if_neg (by simpa using hn)]

/-- C39: an accepted entry (not below the last one) adds its flags from its start number on. -/
theorem C39_activation (regs : List (Nat × H256)) (b : Nat) (f : H256) (n : Nat) (hn : b ≤ n)
    (hlast : ∀ x ∈ registerAll regs, x.1 ≤ b) :
    forkAt (registerAll (regs ++ [(b, f)])) n = orH f (forkAt (registerAll regs) n) := by
  rw [registerAll_snoc]
  have hi := increasing_registerAll regs
  generalize registerAll regs = l at hi hlast
  rcases push_cases l b f hi with ⟨rfl, h⟩ | ⟨t, lb, lf, rfl, hor, h⟩ | ⟨t, lf, rfl, h⟩ |
    ⟨t, lb, lf, rfl, hb, h⟩
  · simp only [h]
    rw [show [(b, f)] = [] ++ [(b, f)] from rfl, forkAt_snoc, if_pos (by simpa using hn)]
    show f = orH f zeroH
    rw [orH_zero]
  · simp only [h]
    have hlb := hlast (lb, lf) (by simp)
    simp at hlb
    rw [forkAt_snoc, if_pos (by simp; omega)]
    rcases hor with hor | hor
    · exact hor.symm
    · omega
  · simp only [h]
    rw [forkAt_snoc, forkAt_snoc, if_pos (by simpa using hn), if_pos (by simpa using hn)]
  · simp only [h]
    rw [forkAt_snoc, forkAt_snoc, if_pos (by simpa using hn), if_pos (by simp; omega)]

/-- C39: an entry below the last registered start number is ignored. -/
theorem C39_past_ignored (regs : List (Nat × H256)) (b : Nat) (f : H256) (x : Nat × H256)
    (hx : x ∈ registerAll regs) (hb : b < x.1) : registerAll (regs ++ [(b, f)]) = registerAll regs := by
  rw [registerAll_snoc]
  have hi := increasing_registerAll regs
  generalize registerAll regs = l at hi hx
  rcases push_cases l b f hi with ⟨rfl, h⟩ | ⟨t, lb, lf, rfl, hor, h⟩ | ⟨t, lf, rfl, h⟩ |
    ⟨t, lb, lf, rfl, hlb, h⟩
  · simp at hx
  · exact h
  · exfalso
    rcases List.mem_append.1 hx with hx | hx
    · have := (List.pairwise_append.1 hi).2.2 x hx _ (List.mem_singleton.2 rfl); simp at this; omega
    · rw [List.mem_singleton] at hx; subst hx; simp at hb
  · exfalso
    rcases List.mem_append.1 hx with hx | hx
    · have := (List.pairwise_append.1 hi).2.2 x hx _ (List.mem_singleton.2 rfl); simp at this; omega
    · rw [List.mem_singleton] at hx; subst hx; simp at hb; omega

/-- `f` contains all flags of `g`. -/
def Includes (f g : H256) : Prop := orH f g = f

/-- C39: flags are never switched off again at later blocks. -/
theorem C39_monotone (regs : List (Nat × H256)) (n m : Nat) (h : n ≤ m) :
    Includes (forkAt (registerAll regs) m) (forkAt (registerAll regs) n) := by
  -- all entries of the list include their predecessors
  have key : ∀ regs : List (Nat × H256),
      (registerAll regs).Pairwise (fun a b => Includes b.2 a.2) := by
    intro regs
    induction regs using snoc_induction with
    | nil => exact List.Pairwise.nil
    | snoc l r ih =>
      rw [registerAll_snoc]
      have hi := increasing_registerAll l
      generalize registerAll l = l at hi ih
      rcases push_cases l r.1 r.2 hi with ⟨rfl, h⟩ | ⟨t, lb, lf, rfl, hor, h⟩ | ⟨t, lf, rfl, h⟩ |
        ⟨t, lb, lf, rfl, hlb, h⟩
      · rw [h]; simp
      · rw [h]; exact ih
      · rw [h]
        rw [List.pairwise_append] at ih ⊢
        refine ⟨ih.1, by simp, ?_⟩
        intro a ha c hc
        rw [List.mem_singleton] at hc
        subst hc
        have hinc := ih.2.2 a ha _ (List.mem_singleton.2 rfl)
        unfold Includes at *
        simp only at hinc ⊢
        rw [orH_assoc, hinc]
      · rw [h, List.pairwise_append]
        refine ⟨ih, by simp, ?_⟩
        intro a ha c hc
        rw [List.mem_singleton] at hc
        subst hc
        unfold Includes
        rcases List.mem_append.1 ha with ha | ha
        · have hinc := (List.pairwise_append.1 ih).2.2 a ha _ (List.mem_singleton.2 rfl)
          unfold Includes at hinc
          simp only at hinc ⊢
          rw [orH_assoc, hinc]
        · rw [List.mem_singleton] at ha
          subst ha
          simp only
          rw [orH_assoc, orH_self]
  have hk := key regs
  generalize registerAll regs = l at hk
  induction l using snoc_induction with
  | nil => exact orH_self _
  | snoc t e ih =>
    have ih := ih (List.pairwise_append.1 hk).1
    rw [forkAt_snoc, forkAt_snoc]
    by_cases h1 : e.1 ≤ n
    · rw [if_pos h1, if_pos (by omega)]; exact orH_self _
    · rw [if_neg h1]
      by_cases h2 : e.1 ≤ m
      · rw [if_pos h2]
        -- the flags at n are those of an earlier entry or zero
        unfold forkAt
        cases hf : t.reverse.find? (fun e => decide (e.1 ≤ n)) with
        | none => exact orH_zero _
        | some x =>
          have hx : x ∈ t := by simpa using List.mem_of_find?_eq_some hf
          exact (List.pairwise_append.1 hk).2.2 x hx e (by simp)
      · rw [if_neg h2]; exact ih

/-- Flags with only the given byte 24. -/
def flag (b : UInt8) : H256 := ⟨List.replicate 24 0 ++ [b] ++ List.replicate 7 0, by simp⟩

/-- What is *not* promised: the start number may lie before the block at which the entry arrives, so
the flags of blocks already executed can change.  Entry (20, 2) registered after block 30 has been
executed changes the flags in force at block 25. -/
theorem C39_retroactive : forkAt (registerAll [(10, flag 1)]) 25 = flag 1 ∧
    forkAt (registerAll ([(10, flag 1)] ++ [(20, flag 2)])) 25 = flag 3 := by
  decide +kernel

example : registerAll [(10, flag 1), (5, flag 2), (10, flag 4), (20, flag 1), (30, flag 2)] =
    [(10, flag 5), (30, flag 7)] := by decide +kernel

example : forkAt (registerAll [(10, flag 1)]) 9 = zeroH ∧ forkAt (registerAll [(10, flag 1)]) 10 = flag 1 := by
  decide +kernel

example : visible (flag 1) ⟨⟨1, by decide⟩, ⟨2, by decide⟩, ⟨3, by decide⟩, ⟨4, by decide⟩, ⟨5, by decide⟩,
    ⟨6, by decide⟩, ⟨7, by decide⟩, ⟨8, by decide⟩, ⟨9, by decide⟩⟩ =
  ⟨⟨1, by decide⟩, ⟨2, by decide⟩, ⟨3, by decide⟩, ⟨4, by decide⟩, ⟨5, by decide⟩,
    ⟨6, by decide⟩, ⟨7, by decide⟩, ⟨8, by decide⟩, ⟨9, by decide⟩⟩ := by decide +kernel

end Axon.Meta
