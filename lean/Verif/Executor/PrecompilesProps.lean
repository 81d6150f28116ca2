import Verif.Executor.Blake2F

/-!
# Properties C76, C78, C79 and C80: prices, inputs, CKB-VM calls and the table of precompiled contracts

The specification is appendix E of the Yellow Paper (prices after EIP-1108), with calls to a precompiled contract
ending in failure, in exhaustion, or with an output.
-/

namespace Axon.Precompiles
open Axon.Modexp (Reply)

/-! ## Specification -/

/-- Number of 32-byte words: the least `n` with `32 n ≥ |d|`. -/
def IsWords (d : Bytes) (n : Nat) : Prop := d.length ≤ 32 * n ∧ ∀ k, d.length ≤ 32 * k → n ≤ k

/-- The price of a call to a standard contract other than `MODEXP`, given the word count. -/
def price (c : Contract) (input : Bytes) (words : Nat) : Option Nat :=
  match c with
  | .ecRecover => some 3000
  | .sha256 => some (60 + 12 * words)
  | .ripemd160 => some (600 + 120 * words)
  | .identity => some (15 + 3 * words)
  | .ecAdd => some 150
  | .ecMul => some 6000
  | .ecPairing => some (45000 + 34000 * (input.length / 192))
  | .blake2F => some (beNat (input.take 4))
  | .ckbBlake2b => some (60 + 12 * words)
  | _ => none

/-- What the model does for a contract with such a price. -/
def call (P : Prims) : Contract → Bytes → Option Nat → Reply
  | .ecRecover => ecRecover P
  | .sha256 => sha256 P
  | .ripemd160 => ripemd160 P
  | .identity => identity
  | .ecAdd => ecAdd P
  | .ecMul => ecMul P
  | .ecPairing => ecPairing P
  | .blake2F => Blake2F.exec
  | .ckbBlake2b => ckbBlake2b P
  | _ => fun _ _ => .failed

/-! ## C76: prices -/

theorem isWords_iff (d : Bytes) (n : Nat) : IsWords d n ↔ n = words d := by
  unfold IsWords words
  constructor
  · rintro ⟨h1, h2⟩
    have := h2 ((d.length + 31) / 32) (by omega)
    omega
  · rintro rfl
    exact ⟨by omega, fun k hk => by omega⟩

theorem priced_done {gas : Nat} {limit : Option Nat} {work : Unit → Option Bytes} {out : Bytes} {g : Nat}
    (h : priced gas limit work = .done out g) : g = gas ∧ ∀ l, limit = some l → gas ≤ l := by
  unfold priced at h
  split at h
  · cases h
  · rename_i hl
    split at h
    · simp only [Reply.done.injEq] at h
      refine ⟨h.2.symm, fun l hll => ?_⟩
      rw [hll] at hl
      simp at hl
      exact hl
    · cases h

theorem priced_outOfGas {gas : Nat} {limit : Option Nat} {work : Unit → Option Bytes} :
    priced gas limit work = .outOfGas ↔ ∃ l, limit = some l ∧ l < gas := by
  unfold priced
  cases limit with
  | none =>
    simp only [Option.any_none, Bool.false_eq_true, if_false]
    constructor
    · intro h; split at h <;> cases h
    · rintro ⟨l, h, -⟩; cases h
  | some l =>
    simp only [Option.any_some, decide_eq_true_eq]
    by_cases h : l < gas
    · simp [h]
    · rw [if_neg h]
      constructor
      · intro h; split at h <;> cases h
      · rintro ⟨l', hl, hlt⟩
        simp only [Option.some.injEq] at hl
        omega

/-- The frame a contract runs in. -/
theorem call_priced (P : Prims) (c : Contract) (input : Bytes) (limit : Option Nat) (p : Nat)
    (hp : price c input (words input) = some p) :
    (c = .ecPairing ∧ input = []) ∨ (c = .blake2F ∧ input.length ≠ 213 ∧ call P c input limit = .failed) ∨
      ∃ work, call P c input limit = priced p limit work := by
  cases c <;> simp only [price, Option.some.injEq, reduceCtorEq] at hp <;> subst hp
  case ecPairing =>
    by_cases h : input = []
    · exact .inl ⟨rfl, h⟩
    · exact .inr (.inr ⟨_, by
        show ecPairing P input limit = _
        unfold ecPairing
        rw [if_neg h, Nat.mul_comm, Nat.add_comm]⟩)
  case blake2F =>
    by_cases h : input.length = 213
    · exact .inr (.inr ⟨_, by
        show blake2F _ input limit = _
        unfold blake2F
        rw [if_neg (fun hh => hh h)]⟩)
    · refine .inr (.inl ⟨rfl, h, ?_⟩)
      show blake2F _ input limit = _
      unfold blake2F
      rw [if_pos h]
  case ecRecover => exact .inr (.inr ⟨_, by show ecRecover P input limit = _; unfold ecRecover; rfl⟩)
  case sha256 => exact .inr (.inr ⟨_, by show sha256 P input limit = _; unfold sha256; rw [Nat.mul_comm, Nat.add_comm]⟩)
  case ripemd160 =>
    exact .inr (.inr ⟨_, by show ripemd160 P input limit = _; unfold ripemd160; rw [Nat.mul_comm, Nat.add_comm]⟩)
  case identity =>
    exact .inr (.inr ⟨_, by show identity input limit = _; unfold identity; rw [Nat.mul_comm, Nat.add_comm]⟩)
  case ckbBlake2b =>
    exact .inr (.inr ⟨_, by show ckbBlake2b P input limit = _; unfold ckbBlake2b; rw [Nat.mul_comm, Nat.add_comm]⟩)
  case ecAdd => exact .inr (.inr ⟨_, by show ecAdd P input limit = _; unfold ecAdd; rfl⟩)
  case ecMul => exact .inr (.inr ⟨_, by show ecMul P input limit = _; unfold ecMul; rfl⟩)

/-- A finished call has been charged exactly the price, and never more than the limit; a call ends by exhaustion
exactly if the limit is below the price.  Partial: the empty pairing is answered whatever the limit
(`C76_pairing_false`), and `BLAKE2F` looks at the length of its input first. -/
theorem C76_price_partial (P : Prims) (c : Contract) (input : Bytes) (limit : Option Nat) (n p : Nat)
    (hn : IsWords input n) (hp : price c input n = some p) (he : ¬ (c = .ecPairing ∧ input = []))
    (hb : c = .blake2F → input.length = 213) :
    (∀ out g, call P c input limit = .done out g → g = p ∧ ∀ l, limit = some l → g ≤ l) ∧
      (call P c input limit = .outOfGas ↔ ∃ l, limit = some l ∧ l < p) := by
  rw [isWords_iff] at hn
  subst hn
  rcases call_priced P c input limit p hp with h | ⟨h1, h2, -⟩ | ⟨work, h⟩
  · exact absurd h he
  · exact absurd (hb h1) h2
  · rw [h]
    refine ⟨fun out g hd => ?_, priced_outOfGas⟩
    have := priced_done hd
    exact ⟨this.1, fun l hl => by rw [this.1]; exact this.2 l hl⟩

/-- The empty pairing is computed without looking at the limit: with no gas at all it answers, and reports a
price above the limit. -/
theorem C76_pairing_false (P : Prims) :
    call P .ecPairing [] (some 0) = .done (truth true) 45000 := rfl

/-! ## C78: inputs -/

/-- The identity, hash and table-free contracts return for every paid input the value of their function. -/
theorem C78_hashes (P : Prims) (input : Bytes) :
    (∃ g, identity input none = .done input g) ∧ (∃ g, sha256 P input none = .done (P.sha256 input) g) ∧
      (∃ g, ckbBlake2b P input none = .done (P.ckbBlake2b input) g) ∧
      (∃ g, ripemd160 P input none = .done (List.replicate 12 0 ++ P.ripemd160 input) g) :=
  ⟨⟨_, rfl⟩, ⟨_, rfl⟩, ⟨_, rfl⟩, ⟨_, rfl⟩⟩

/-- Signature recovery depends on the first 128 bytes only, and a shorter input counts as continued by zeros. -/
theorem C78_recover_padding (P : Prims) (a b : Bytes) (limit : Option Nat)
    (h : ∀ i, i < 128 → (a[i]?).getD 0 = (b[i]?).getD 0) : ecRecover P a limit = ecRecover P b limit := by
  have hs : ∀ i n, i + n ≤ 128 → slice a i n = slice b i n := by
    intro i n hn
    unfold slice
    apply List.map_congr_left
    intro j hj
    rw [List.mem_range] at hj
    exact h _ (by omega)
  unfold ecRecover recoverSignature
  rw [hs 32 31 (by omega), hs 64 64 (by omega), hs 0 32 (by omega), h 63 (by omega)]

/-- Only the two values 27 and 28 of the recovery word are tried. -/
theorem C78_recover_v (P : Prims) (input out : Bytes) (limit : Option Nat) (g : Nat)
    (h : ecRecover P input limit = .done out g) :
    beNat (slice input 32 32) = 27 ∨ beNat (slice input 32 32) = 28 := by
  unfold ecRecover priced at h
  split at h
  · cases h
  · split at h
    · rename_i hsome
      cases hr : recoverSignature input with
      | none => rw [hr] at hsome; simp at hsome
      | some sig =>
        unfold recoverSignature at hr
        split at hr
        · rename_i hv
          have hs : slice input 32 32 = slice input 32 31 ++ [(input[63]?).getD 0] := by
            unfold slice
            rw [List.range_succ, List.map_append]
            rfl
          rw [hs, hv.1, beNat_snoc]
          have h0 : beNat (List.replicate 31 (0 : UInt8)) = 0 := by decide +kernel
          rw [h0]
          rcases hv.2 with h | h <;> rw [h] <;> simp
        · cases hr
    · cases h

theorem slice_mid (a b c : Bytes) (i n : Nat) (hi : i = a.length) (hn : n = b.length) :
    slice (a ++ (b ++ c)) i n = b := by
  subst hi hn
  apply List.ext_getElem
  · simp [slice]
  · intro j h1 h2
    simp only [slice, List.getElem_map, List.getElem_range]
    rw [List.getElem?_append_right (by omega), Nat.add_sub_cancel_left,
      List.getElem?_append_left h2, List.getElem?_eq_getElem h2]
    rfl

/-- **What the contracts compute.**  Signature recovery reads hash, recovery word, `r` and `s` one after
another and answers the address: the last twenty bytes of the key's hash, in a word.  Addition reads two
points, multiplication a point and a factor; what follows is not looked at. -/
theorem C78_values (P : Prims) (rest : Bytes) :
    (∀ (hash r s key pre addr : Bytes) (v : UInt8), hash.length = 32 → r.length = 32 → s.length = 32 →
      v = 0 ∨ v = 1 → P.recover hash (r ++ s ++ [v]) = some key → pre.length = 12 →
      P.keccak key = pre ++ addr →
      ecRecover P (hash ++ (List.replicate 31 0 ++ ([27 + v] ++ (r ++ (s ++ rest))))) none =
        .done (List.replicate 12 0 ++ addr) 3000) ∧
    (∀ (x1 y1 x2 y2 : Bytes) (p q : P.G1), x1.length = 32 → y1.length = 32 → x2.length = 32 →
      y2.length = 32 → P.point x1 y1 = some p → P.point x2 y2 = some q →
      ecAdd P (x1 ++ (y1 ++ (x2 ++ (y2 ++ rest)))) none =
        .done ((P.affine (P.add p q)).getD (List.replicate 64 0)) 150) ∧
    (∀ (x y k : Bytes) (p : P.G1) (n : Nat), x.length = 32 → y.length = 32 → k.length = 32 →
      P.point x y = some p → P.scalar k = some n →
      ecMul P (x ++ (y ++ (k ++ rest))) none =
        .done ((P.affine (P.mul p n)).getD (List.replicate 64 0)) 6000) := by
  have hdt : ∀ (a b c : Bytes) (i : Nat), i = a.length → b.length = 32 →
      ((a ++ (b ++ c)).drop i).take 32 = b := by
    intro a b c i hi hb
    subst hi
    rw [List.drop_left, ← hb, List.take_left]
  refine ⟨?_, ?_, ?_⟩
  · intro hash r s key pre addr v h1 h2 h3 hv hk hp ha
    have e0 : slice (hash ++ (List.replicate 31 0 ++ ([27 + v] ++ (r ++ (s ++ rest))))) 0 32 = hash := by
      have := slice_mid [] hash (List.replicate 31 0 ++ ([27 + v] ++ (r ++ (s ++ rest)))) 0 32 rfl h1.symm
      simpa using this
    have e1 : slice (hash ++ (List.replicate 31 0 ++ ([27 + v] ++ (r ++ (s ++ rest))))) 32 31 =
        List.replicate 31 0 := slice_mid _ _ _ 32 31 h1.symm (by simp)
    have e2 : slice (hash ++ (List.replicate 31 0 ++ ([27 + v] ++ (r ++ (s ++ rest))))) 64 64 = r ++ s := by
      have := slice_mid (hash ++ (List.replicate 31 0 ++ [27 + v])) (r ++ s) rest 64 64
        (by simp [h1]) (by simp [h2, h3])
      simpa [List.append_assoc] using this
    have e3 : (hash ++ (List.replicate 31 0 ++ ([27 + v] ++ (r ++ (s ++ rest)))))[63]? = some (27 + v) := by
      rw [List.getElem?_append_right (by omega), List.getElem?_append_right (by simp [h1])]
      simp [h1]
    have e4 : recoverSignature (hash ++ (List.replicate 31 0 ++ ([27 + v] ++ (r ++ (s ++ rest))))) =
        some (r ++ s ++ [v]) := by
      unfold recoverSignature
      rw [e1, e2, e3]
      rcases hv with rfl | rfl <;> simp
    unfold ecRecover
    rw [e4, e0]
    simp only [Option.bind_some, hk, Option.map_some, ha, ← hp, List.drop_left]
    simp [priced, hp]
  · intro x1 y1 x2 y2 p q h1 h2 h3 h4 hp hq
    have e1 : readPoint P (x1 ++ (y1 ++ (x2 ++ (y2 ++ rest)))) 0 = some p := by
      unfold readPoint
      rw [if_neg (by simp [h1, h2]; omega), hdt x1 y1 _ (0 + 32) (by omega) h2]
      have := hdt [] x1 (y1 ++ (x2 ++ (y2 ++ rest))) 0 rfl h1
      simp only [List.nil_append] at this
      rw [this]
      exact hp
    have e2 : readPoint P (x1 ++ (y1 ++ (x2 ++ (y2 ++ rest)))) 64 = some q := by
      unfold readPoint
      rw [if_neg (by simp [h1, h2, h3, h4]; omega)]
      have a1 := hdt (x1 ++ y1) x2 (y2 ++ rest) 64 (by simp [h1, h2]) h3
      have a2 := hdt (x1 ++ (y1 ++ x2)) y2 rest (64 + 32) (by simp [h1, h2, h3]) h4
      simp only [List.append_assoc] at a1 a2
      rw [a1, a2]
      exact hq
    unfold ecAdd
    rw [e1, e2]
    simp [priced, pointOut]
  · intro x y k p n h1 h2 h3 hp hk
    have e1 : readPoint P (x ++ (y ++ (k ++ rest))) 0 = some p := by
      unfold readPoint
      rw [if_neg (by simp [h1, h2]; omega), hdt x y _ (0 + 32) (by omega) h2]
      have := hdt [] x (y ++ (k ++ rest)) 0 rfl h1
      simp only [List.nil_append] at this
      rw [this]
      exact hp
    have e2 : readFr P (x ++ (y ++ (k ++ rest))) 64 = some n := by
      unfold readFr
      rw [if_neg (by simp [h1, h2, h3]; omega)]
      have a1 := hdt (x ++ y) k rest 64 (by simp [h1, h2]) h3
      simp only [List.append_assoc] at a1
      rw [a1]
      exact hk
    unfold ecMul
    rw [e1, e2]
    simp [priced, pointOut]

/-- The Yellow Paper lets a signature that cannot be recovered end with empty output; here the call fails, for
every input with another recovery word. -/
theorem C78_recover_false (P : Prims) (input : Bytes)
    (h : beNat (slice input 32 32) ≠ 27 ∧ beNat (slice input 32 32) ≠ 28) :
    ecRecover P input none = .failed := by
  cases hr : ecRecover P input none with
  | done out g => rcases C78_recover_v P input out none g hr with h' | h' <;> omega
  | outOfGas =>
    have := priced_outOfGas.1 hr
    obtain ⟨l, hl, -⟩ := this
    cases hl
  | failed => rfl

/-- The Yellow Paper continues the input of the curve contracts by zeros; here a shorter input fails, whatever
it contains. -/
theorem C78_short_false (P : Prims) (input : Bytes) :
    (input.length < 128 → ecAdd P input none = .failed) ∧
      (input.length < 96 → ecMul P input none = .failed) := by
  constructor
  · intro h
    have h2 : readPoint P input 64 = none := by unfold readPoint; rw [if_pos (by omega)]
    simp [ecAdd, priced, h2]
  · intro h
    have h2 : readFr P input 64 = none := by unfold readFr; rw [if_pos (by omega)]
    simp [ecMul, priced, h2]

/-- The Yellow Paper refuses pairing inputs that do not consist of whole groups; here what is left over is not
looked at: any bytes may follow, and an input of up to 191 arbitrary bytes is a true statement (if the product
of no pairings is one). -/
theorem C78_leftover_false (P : Prims) (input junk : Bytes) (hi : input ≠ [])
    (hm : input.length % 192 = 0) (hj : junk.length < 192) (limit : Option Nat) :
    ecPairing P (input ++ junk) limit = ecPairing P input limit := by
  have hne : input ++ junk ≠ [] := by simp [hi]
  have hdiv : (input ++ junk).length / 192 = input.length / 192 := by
    rw [List.length_append]; omega
  have hg : groups (input ++ junk) = groups input := by
    unfold groups
    rw [hdiv]
    apply List.map_congr_left
    intro i hi'
    rw [List.mem_range] at hi'
    rw [List.drop_append_of_le_length (by omega), List.take_append_of_le_length (by rw [List.length_drop]; omega)]
  unfold ecPairing
  rw [if_neg hne, if_neg hi, hdiv, hg]

theorem C78_junk_false (P : Prims) (hP : P.pairingIsOne [] = true) (junk : Bytes) (h0 : junk ≠ [])
    (hj : junk.length < 192) : ecPairing P junk none = .done (truth true) 45000 := by
  have hz : junk.length / 192 = 0 := by omega
  have hg : groups junk = [] := by unfold groups; rw [hz]; rfl
  unfold ecPairing priced
  rw [if_neg h0, hz, hg]
  simp [hP]

/-! ## C79: CKB-VM calls -/

/-- A call ends with at most as many cycles as its gas buys, at 6000 cycles for a unit of gas, and is charged
for all but the last fraction of a unit.  Partial: the limit must allow the least price of 500
(`C79_minimum_false`) and must not overflow (`C79_overflow_false`). -/
theorem C79_paid_partial (vm : Vm) (parses : Bytes → Bool) (input out : Bytes) (limit g : Nat)
    (hmin : 500 ≤ limit) (h : callCkbVm vm parses input (some limit) = .ok (.done out g)) :
    g ≤ limit ∧ 500 ≤ g ∧ ∃ code cycles, vm.run input (limit * 6000) = some (code, cycles) ∧ out = [code] ∧
      cycles ≤ limit * 6000 ∧ cycles < (g + 1) * 6000 := by
  unfold callCkbVm at h
  simp only at h
  split at h
  · unfold gasToCycle coef at h
    by_cases ho : 2 ^ 64 ≤ limit * 6000
    · rw [if_pos ho] at h; cases h
    · rw [if_neg ho] at h
      simp only at h
      cases hr : vm.run input (limit * 6000) with
      | none => rw [hr] at h; cases h
      | some r =>
        obtain ⟨code, cycles⟩ := r
        have hb := vm.bounded _ _ _ hr
        rw [hr] at h
        simp only [Outcome.ok.injEq, Reply.done.injEq] at h
        obtain ⟨h1, h2⟩ := h
        unfold cycleToGas coef at h2
        simp only at hb
        refine ⟨by omega, by omega, code, cycles, rfl, h1.symm, hb, by omega⟩
  · cases h

/-- A program runs although the limit does not cover the least price. -/
theorem C79_minimum_false (vm : Vm) (parses : Bytes → Bool) (input : Bytes) (limit : Nat) (hl : limit < 500)
    (code : UInt8) (cycles : Nat) (hp : parses input = true)
    (hr : vm.run input (limit * 6000) = some (code, cycles)) :
    callCkbVm vm parses input (some limit) = .ok (.done [code] 500) := by
  have hb := vm.bounded _ _ _ hr
  simp only at hb
  unfold callCkbVm
  simp only [hp, if_true]
  unfold gasToCycle coef
  rw [if_neg (by omega)]
  simp only [hr, cycleToGas, coef]
  rw [Nat.max_eq_right (by omega)]

/-- A limit above `2^64 / 6000` aborts the node as soon as the input parses. -/
theorem C79_overflow_false (vm : Vm) (parses : Bytes → Bool) (input : Bytes) (limit : Nat)
    (hp : parses input = true) (hl : 2 ^ 64 / 6000 < limit) :
    callCkbVm vm parses input (some limit) = .panic := by
  unfold callCkbVm
  simp only [hp, if_true]
  unfold gasToCycle coef
  rw [if_pos (by omega)]

/-! ## C80: the table -/

/-- No two contracts have the same address, so every registered contract is reached by its address and by no
other. -/
theorem C80_table (c : Contract) (address : Nat) :
    lookup address = some c ↔ c ∈ registered ∧ addressOf c = address := by
  have inj : ∀ a b, addressOf a = addressOf b → a = b := by
    intro a b h
    cases a <;> cases b <;> first | rfl | (exfalso; revert h; decide)
  constructor
  · intro h
    unfold lookup at h
    have h1 := List.mem_of_find?_eq_some h
    have h2 := List.find?_some h
    exact ⟨List.mem_reverse.1 h1, by simpa using h2⟩
  · rintro ⟨hm, ha⟩
    unfold lookup
    cases hf : registered.reverse.find? (fun c => addressOf c = address) with
    | none =>
      have := List.find?_eq_none.1 hf c (List.mem_reverse.2 hm)
      simp [ha] at this
    | some d =>
      have h2 := List.find?_some hf
      have h2 : addressOf d = address := by simpa using h2
      rw [inj d c (h2.trans ha.symm)]

/-- The standard contracts are at 1 to 9, the additional ones at 0x102, 0x104, 0x106 and 0x107, and nothing is
anywhere else. -/
theorem C80_addresses (address : Nat) :
    (lookup address).isSome ↔ (1 ≤ address ∧ address ≤ 9) ∨ address = 0x102 ∨ address = 0x104 ∨
      address = 0x106 ∨ address = 0x107 := by
  constructor
  · intro h
    obtain ⟨c, hc⟩ := Option.isSome_iff_exists.1 h
    obtain ⟨hm, ha⟩ := (C80_table c address).1 hc
    subst ha
    revert hm
    cases c <;> decide
  · intro h
    have : ∀ a, a ∈ [1, 2, 3, 4, 5, 6, 7, 8, 9, 0x102, 0x104, 0x106, 0x107] → (lookup a).isSome := by
      decide +kernel
    apply this
    simp
    omega

/-- The cell-reading contract has an address of its own, to which no call leads. -/
theorem C80_getcell_false : addressOf .getCell = 0x103 ∧ ∀ a, lookup a ≠ some .getCell := by
  refine ⟨rfl, fun a h => ?_⟩
  exact absurd ((C80_table _ _).1 h).1 (by decide)

/-! ## Non-vacuity -/

/-- Some functions. -/
def testPrims : Prims where
  G1 := Nat
  G2 := Unit
  sha256 := fun b => beFixed 32 (beNat b + 1)
  ripemd160 := fun b => beFixed 20 (beNat b + 2)
  keccak := fun b => beFixed 32 (beNat b)
  ckbBlake2b := fun b => beFixed 32 (beNat b + 3)
  recover := fun m s => if s.length = 65 then some (m ++ m) else none
  point := fun x y => if beNat x = beNat y then some (beNat x) else none
  scalar := fun b => some (beNat b)
  add := fun a b => a + b
  mul := fun a k => a * k
  affine := fun a => if a = 0 then none else some (beFixed 64 a)
  pair := fun b => if b.length = 192 then some (beNat b, ()) else none
  pairingIsOne := fun l => l.all fun p => p.1 = 0

example : call testPrims .sha256 (List.replicate 33 7) (some 84) =
    .done (beFixed 32 (beNat (List.replicate 33 7) + 1)) 84 ∧
    call testPrims .sha256 (List.replicate 33 7) (some 83) = .outOfGas ∧
    IsWords (List.replicate 33 7) 2 ∧ price .sha256 (List.replicate 33 7) 2 = some 84 := by
  refine ⟨by decide +kernel, by decide +kernel, (isWords_iff _ _).2 (by decide), rfl⟩

/-- The sum of two points, a multiple of one, and the address of a recovered key. -/
example : ecAdd testPrims (beFixed 32 5 ++ (beFixed 32 5 ++ (beFixed 32 6 ++ (beFixed 32 6 ++ [1, 2])))) none =
      .done (beFixed 64 11) 150 ∧
    ecMul testPrims (beFixed 32 5 ++ (beFixed 32 5 ++ (beFixed 32 6 ++ []))) none = .done (beFixed 64 30) 6000 ∧
    ecRecover testPrims (beFixed 32 5 ++ (List.replicate 31 0 ++ ([27 + 1] ++ (beFixed 32 1 ++ (beFixed 32 2 ++ [3])))))
      none = .done (List.replicate 12 0 ++ beFixed 20 5) 3000 :=
  ⟨by decide +kernel, by decide +kernel, by decide +kernel⟩

/-- A recovered signature, and a machine that runs. -/
example : ∃ out, ecRecover testPrims (List.replicate 63 0 ++ [27] ++ List.replicate 64 9) (some 3000) =
    .done out 3000 := ⟨_, rfl⟩

def testVm : Vm where
  run := fun _ m => if 4000000 ≤ m then some (0, 4000000) else none
  bounded := by
    intro i m r h
    by_cases hm : 4000000 ≤ m
    · rw [if_pos hm] at h; simp only [Option.some.injEq] at h; subst h; exact hm
    · rw [if_neg hm] at h; cases h

example : callCkbVm testVm (fun _ => true) [] (some 700) = .ok (.done [0] 666) ∧
    callCkbVm testVm (fun _ => true) [] (some 600) = .ok .failed := by decide +kernel

end Axon.Precompiles
