import Verif.Executor.Blake2F

/-!
# Property C77: BLAKE2F is the compression function of RFC 7693 as priced by EIP-152

The specification keeps the state as a matrix of four rows; a round mixes the columns, then the diagonals, by
turning the rows.  The initialisation vector is given by the square roots of the first primes.
-/

namespace Axon.Blake2F
open Axon.Modexp (Reply)

/-! ## Specification -/

/-- A row of the 4×4 state. -/
structure Row where
  w0 : UInt64
  w1 : UInt64
  w2 : UInt64
  w3 : UInt64

/-- Apply to all four columns. -/
def Row.map2 (f : UInt64 → UInt64 → UInt64) (r s : Row) : Row :=
  ⟨f r.w0 s.w0, f r.w1 s.w1, f r.w2 s.w2, f r.w3 s.w3⟩

/-- Turn a row to the left by one place. -/
def Row.turn (r : Row) : Row := ⟨r.w1, r.w2, r.w3, r.w0⟩

/-- The state: rows `a`, `b`, `c`, `d`. -/
structure State where
  a : Row
  b : Row
  c : Row
  d : Row

/-- RFC 7693, 3.1: half of the mixing function on all columns at once. -/
def half (r1 r2 : UInt64) (s : State) (x : Row) : State :=
  let a := (s.a.map2 (· + ·) s.b).map2 (· + ·) x
  let d := s.d.map2 (fun d a => rotr (d ^^^ a) r1) a
  let c := s.c.map2 (· + ·) d
  let b := s.b.map2 (fun b c => rotr (b ^^^ c) r2) c
  ⟨a, b, c, d⟩

/-- The mixing function on all columns. -/
def columns (s : State) (x y : Row) : State := half 16 63 (half 32 24 s x) y

/-- Diagonals become columns. -/
def tilt (s : State) : State := ⟨s.a, s.b.turn, s.c.turn.turn, s.d.turn.turn.turn⟩

/-- And back. -/
def untilt (s : State) : State := ⟨s.a, s.b.turn.turn.turn, s.c.turn.turn, s.d.turn⟩

/-- One round with the message words in the order of the round. -/
def roundSpec (w : Nat → UInt64) (s : State) : State :=
  let s := columns s ⟨w 0, w 2, w 4, w 6⟩ ⟨w 1, w 3, w 5, w 7⟩
  untilt (columns (tilt s) ⟨w 8, w 10, w 12, w 14⟩ ⟨w 9, w 11, w 13, w 15⟩)

/-- Rounds `0 .. n - 1`. -/
def roundsSpec (σ : Nat → Nat → Nat) (m : Nat → UInt64) : Nat → State → State
  | 0, s => s
  | n + 1, s => roundSpec (fun k => m (σ (n % 10) k)) (roundsSpec σ m n s)

/-- RFC 7693, 3.2. -/
def F (iv : Nat → UInt64) (σ : Nat → Nat → Nat) (h m : Nat → UInt64) (t0 t1 : UInt64) (final : Bool)
    (rounds : Nat) : Row × Row :=
  let s := roundsSpec σ m rounds
    ⟨⟨h 0, h 1, h 2, h 3⟩, ⟨h 4, h 5, h 6, h 7⟩, ⟨iv 0, iv 1, iv 2, iv 3⟩,
     ⟨iv 4 ^^^ t0, iv 5 ^^^ t1, if final then ~~~ iv 6 else iv 6, iv 7⟩⟩
  ((⟨h 0, h 1, h 2, h 3⟩ : Row).map2 (· ^^^ ·) (s.a.map2 (· ^^^ ·) s.c),
   (⟨h 4, h 5, h 6, h 7⟩ : Row).map2 (· ^^^ ·) (s.b.map2 (· ^^^ ·) s.d))

/-- The words of a row. -/
def Row.list (r : Row) : List UInt64 := [r.w0, r.w1, r.w2, r.w3]

/-! ## Lemmas -/

/-- The state as the code keeps it. -/
def State.list (s : State) : List UInt64 := s.a.list ++ s.b.list ++ s.c.list ++ s.d.list

/-- The mixing function on four words. -/
def mix (a b c d x y : UInt64) : UInt64 × UInt64 × UInt64 × UInt64 :=
  let a := a + b + x
  let d := rotr (d ^^^ a) 32
  let c := c + d
  let b := rotr (b ^^^ c) 24
  let a := a + b + y
  let d := rotr (d ^^^ a) 16
  let c := c + d
  let b := rotr (b ^^^ c) 63
  (a, b, c, d)

theorem set_set (v : List UInt64) (i j : Nat) (x y : UInt64) (h : i ≠ j) :
    (v.set i x).set j y = (v.set j y).set i x := List.set_comm x y h

theorem at_set_self (v : List UInt64) (i : Nat) (x : UInt64) (h : i < v.length) : at' (v.set i x) i = x := by
  simp [at', h]

theorem at_set_ne (v : List UInt64) (i j : Nat) (x : UInt64) (h : i ≠ j) :
    at' (v.set i x) j = at' v j := by
  simp [at', List.getElem?_set, h]

theorem g_eq (v : List UInt64) (a b c d : Nat) (x y : UInt64) (hl : v.length = 16)
    (ha : a < 16) (hb : b < 16) (hc : c < 16) (hd : d < 16)
    (hab : a ≠ b) (hac : a ≠ c) (had : a ≠ d) (hbc : b ≠ c) (hbd : b ≠ d) (hcd : c ≠ d) :
    g v a b c d x y =
      let q := mix (at' v a) (at' v b) (at' v c) (at' v d) x y
      (((v.set a q.1).set b q.2.1).set c q.2.2.1).set d q.2.2.2 := by
  have hba := hab.symm
  have hca := hac.symm
  have hda := had.symm
  have hcb := hbc.symm
  have hdb := hbd.symm
  have hdc := hcd.symm
  simp only [g, mix]
  simp only [at_set_self, at_set_ne, List.length_set, hl, ha, hb, hc, hd, hab, hac, had, hbc, hbd, hcd, hba,
    hca, hda, hcb, hdb, hdc, ne_eq, not_false_eq_true]
  apply List.ext_getElem?
  intro i
  simp only [List.getElem?_set, List.length_set, hl, ha, hb, hc, hd, if_true]
  repeat' split
  all_goals first | rfl | (exfalso; omega)

theorem g0 (v0 v1 v2 v3 v4 v5 v6 v7 v8 v9 v10 v11 v12 v13 v14 v15 x y : UInt64) :
    g [v0, v1, v2, v3, v4, v5, v6, v7, v8, v9, v10, v11, v12, v13, v14, v15] 0 4 8 12 x y =
     [(mix v0 v4 v8 v12 x y).1, v1, v2, v3, (mix v0 v4 v8 v12 x y).2.1, v5, v6, v7, (mix v0 v4 v8 v12 x
      y).2.2.1, v9, v10, v11, (mix v0 v4 v8 v12 x y).2.2.2, v13, v14, v15] := by
  rw [g_eq _ _ _ _ _ _ _ rfl (by decide) (by decide) (by decide) (by decide) (by decide) (by decide) (by decide)
    (by decide) (by decide) (by decide)]
  rfl

theorem g1 (v0 v1 v2 v3 v4 v5 v6 v7 v8 v9 v10 v11 v12 v13 v14 v15 x y : UInt64) :
    g [v0, v1, v2, v3, v4, v5, v6, v7, v8, v9, v10, v11, v12, v13, v14, v15] 1 5 9 13 x y =
     [v0, (mix v1 v5 v9 v13 x y).1, v2, v3, v4, (mix v1 v5 v9 v13 x y).2.1, v6, v7, v8, (mix v1 v5 v9 v13
      x y).2.2.1, v10, v11, v12, (mix v1 v5 v9 v13 x y).2.2.2, v14, v15] := by
  rw [g_eq _ _ _ _ _ _ _ rfl (by decide) (by decide) (by decide) (by decide) (by decide) (by decide) (by decide)
    (by decide) (by decide) (by decide)]
  rfl

theorem g2 (v0 v1 v2 v3 v4 v5 v6 v7 v8 v9 v10 v11 v12 v13 v14 v15 x y : UInt64) :
    g [v0, v1, v2, v3, v4, v5, v6, v7, v8, v9, v10, v11, v12, v13, v14, v15] 2 6 10 14 x y =
     [v0, v1, (mix v2 v6 v10 v14 x y).1, v3, v4, v5, (mix v2 v6 v10 v14 x y).2.1, v7, v8, v9, (mix v2 v6
      v10 v14 x y).2.2.1, v11, v12, v13, (mix v2 v6 v10 v14 x y).2.2.2, v15] := by
  rw [g_eq _ _ _ _ _ _ _ rfl (by decide) (by decide) (by decide) (by decide) (by decide) (by decide) (by decide)
    (by decide) (by decide) (by decide)]
  rfl

theorem g3 (v0 v1 v2 v3 v4 v5 v6 v7 v8 v9 v10 v11 v12 v13 v14 v15 x y : UInt64) :
    g [v0, v1, v2, v3, v4, v5, v6, v7, v8, v9, v10, v11, v12, v13, v14, v15] 3 7 11 15 x y =
     [v0, v1, v2, (mix v3 v7 v11 v15 x y).1, v4, v5, v6, (mix v3 v7 v11 v15 x y).2.1, v8, v9, v10, (mix v3
      v7 v11 v15 x y).2.2.1, v12, v13, v14, (mix v3 v7 v11 v15 x y).2.2.2] := by
  rw [g_eq _ _ _ _ _ _ _ rfl (by decide) (by decide) (by decide) (by decide) (by decide) (by decide) (by decide)
    (by decide) (by decide) (by decide)]
  rfl

theorem g4 (v0 v1 v2 v3 v4 v5 v6 v7 v8 v9 v10 v11 v12 v13 v14 v15 x y : UInt64) :
    g [v0, v1, v2, v3, v4, v5, v6, v7, v8, v9, v10, v11, v12, v13, v14, v15] 0 5 10 15 x y =
     [(mix v0 v5 v10 v15 x y).1, v1, v2, v3, v4, (mix v0 v5 v10 v15 x y).2.1, v6, v7, v8, v9, (mix v0 v5
      v10 v15 x y).2.2.1, v11, v12, v13, v14, (mix v0 v5 v10 v15 x y).2.2.2] := by
  rw [g_eq _ _ _ _ _ _ _ rfl (by decide) (by decide) (by decide) (by decide) (by decide) (by decide) (by decide)
    (by decide) (by decide) (by decide)]
  rfl

theorem g5 (v0 v1 v2 v3 v4 v5 v6 v7 v8 v9 v10 v11 v12 v13 v14 v15 x y : UInt64) :
    g [v0, v1, v2, v3, v4, v5, v6, v7, v8, v9, v10, v11, v12, v13, v14, v15] 1 6 11 12 x y =
     [v0, (mix v1 v6 v11 v12 x y).1, v2, v3, v4, v5, (mix v1 v6 v11 v12 x y).2.1, v7, v8, v9, v10, (mix v1
      v6 v11 v12 x y).2.2.1, (mix v1 v6 v11 v12 x y).2.2.2, v13, v14, v15] := by
  rw [g_eq _ _ _ _ _ _ _ rfl (by decide) (by decide) (by decide) (by decide) (by decide) (by decide) (by decide)
    (by decide) (by decide) (by decide)]
  rfl

theorem g6 (v0 v1 v2 v3 v4 v5 v6 v7 v8 v9 v10 v11 v12 v13 v14 v15 x y : UInt64) :
    g [v0, v1, v2, v3, v4, v5, v6, v7, v8, v9, v10, v11, v12, v13, v14, v15] 2 7 8 13 x y =
     [v0, v1, (mix v2 v7 v8 v13 x y).1, v3, v4, v5, v6, (mix v2 v7 v8 v13 x y).2.1, (mix v2 v7 v8 v13 x
      y).2.2.1, v9, v10, v11, v12, (mix v2 v7 v8 v13 x y).2.2.2, v14, v15] := by
  rw [g_eq _ _ _ _ _ _ _ rfl (by decide) (by decide) (by decide) (by decide) (by decide) (by decide) (by decide)
    (by decide) (by decide) (by decide)]
  rfl

theorem g7 (v0 v1 v2 v3 v4 v5 v6 v7 v8 v9 v10 v11 v12 v13 v14 v15 x y : UInt64) :
    g [v0, v1, v2, v3, v4, v5, v6, v7, v8, v9, v10, v11, v12, v13, v14, v15] 3 4 9 14 x y =
     [v0, v1, v2, (mix v3 v4 v9 v14 x y).1, (mix v3 v4 v9 v14 x y).2.1, v5, v6, v7, v8, (mix v3 v4 v9 v14
      x y).2.2.1, v10, v11, v12, v13, (mix v3 v4 v9 v14 x y).2.2.2, v15] := by
  rw [g_eq _ _ _ _ _ _ _ rfl (by decide) (by decide) (by decide) (by decide) (by decide) (by decide) (by decide)
    (by decide) (by decide) (by decide)]
  rfl

theorem columns_eq (s : State) (x y : Row) :
    columns s x y =
      let q0 := mix s.a.w0 s.b.w0 s.c.w0 s.d.w0 x.w0 y.w0
      let q1 := mix s.a.w1 s.b.w1 s.c.w1 s.d.w1 x.w1 y.w1
      let q2 := mix s.a.w2 s.b.w2 s.c.w2 s.d.w2 x.w2 y.w2
      let q3 := mix s.a.w3 s.b.w3 s.c.w3 s.d.w3 x.w3 y.w3
      ⟨⟨q0.1, q1.1, q2.1, q3.1⟩, ⟨q0.2.1, q1.2.1, q2.2.1, q3.2.1⟩,
       ⟨q0.2.2.1, q1.2.2.1, q2.2.2.1, q3.2.2.1⟩, ⟨q0.2.2.2, q1.2.2.2, q2.2.2.2, q3.2.2.2⟩⟩ := rfl

theorem round_eq (m : List UInt64) (i : Nat) (s : State) :
    round m i s.list = (roundSpec (fun k => at' m ((SIGMA.getD (i % 10) []).getD k 0)) s).list := by
  obtain ⟨⟨a0, a1, a2, a3⟩, ⟨b0, b1, b2, b3⟩, ⟨c0, c1, c2, c3⟩, ⟨d0, d1, d2, d3⟩⟩ := s
  have hl : State.list ⟨⟨a0, a1, a2, a3⟩, ⟨b0, b1, b2, b3⟩, ⟨c0, c1, c2, c3⟩, ⟨d0, d1, d2, d3⟩⟩ =
    [a0, a1, a2, a3, b0, b1, b2, b3, c0, c1, c2, c3, d0, d1, d2, d3] := rfl
  rw [hl]
  unfold round roundSpec
  simp only [g0, g1, g2, g3, g4, g5, g6, g7, columns_eq, tilt, untilt, Row.turn, State.list, Row.list,
    List.cons_append, List.nil_append]

theorem rounds_eq (m : List UInt64) (n : Nat) (s : State) :
    (List.range n).foldl (fun v i => round m i v) s.list =
      (roundsSpec (fun i k => (SIGMA.getD i []).getD k 0) (at' m) n s).list := by
  induction n with
  | zero => rfl
  | succ n ih => rw [List.range_succ, List.foldl_append, ih, List.foldl_cons, List.foldl_nil, round_eq, roundsSpec]

/-- The two tables as functions. -/
def iv (i : Nat) : UInt64 := at' IV i
def sigma (i k : Nat) : Nat := (SIGMA.getD i []).getD k 0

theorem compress_eq (h0 h1 h2 h3 h4 h5 h6 h7 : UInt64) (m : List UInt64) (t0 t1 : UInt64) (f : Bool)
    (rounds : Nat) :
    compress [h0, h1, h2, h3, h4, h5, h6, h7] m t0 t1 f rounds =
      (F iv sigma (at' [h0, h1, h2, h3, h4, h5, h6, h7]) (at' m) t0 t1 f rounds).1.list ++
      (F iv sigma (at' [h0, h1, h2, h3, h4, h5, h6, h7]) (at' m) t0 t1 f rounds).2.list := by
  have hs : initial [h0, h1, h2, h3, h4, h5, h6, h7] t0 t1 f =
      State.list ⟨⟨h0, h1, h2, h3⟩, ⟨h4, h5, h6, h7⟩, ⟨iv 0, iv 1, iv 2, iv 3⟩,
        ⟨iv 4 ^^^ t0, iv 5 ^^^ t1, if f then ~~~ iv 6 else iv 6, iv 7⟩⟩ := by
    cases f <;> simp [initial, State.list, Row.list, iv, at', IV]
  unfold compress F
  simp only
  rw [hs, rounds_eq]
  have e0 : at' [h0, h1, h2, h3, h4, h5, h6, h7] 0 = h0 := rfl
  have e1 : at' [h0, h1, h2, h3, h4, h5, h6, h7] 1 = h1 := rfl
  have e2 : at' [h0, h1, h2, h3, h4, h5, h6, h7] 2 = h2 := rfl
  have e3 : at' [h0, h1, h2, h3, h4, h5, h6, h7] 3 = h3 := rfl
  have e4 : at' [h0, h1, h2, h3, h4, h5, h6, h7] 4 = h4 := rfl
  have e5 : at' [h0, h1, h2, h3, h4, h5, h6, h7] 5 = h5 := rfl
  have e6 : at' [h0, h1, h2, h3, h4, h5, h6, h7] 6 = h6 := rfl
  have e7 : at' [h0, h1, h2, h3, h4, h5, h6, h7] 7 = h7 := rfl
  rw [e0, e1, e2, e3, e4, e5, e6, e7]
  show _ = _
  unfold sigma
  generalize roundsSpec _ _ rounds _ = s
  obtain ⟨⟨a0, a1, a2, a3⟩, ⟨b0, b1, b2, b3⟩, ⟨c0, c1, c2, c3⟩, ⟨d0, d1, d2, d3⟩⟩ := s
  rfl

theorem sigma_lt (i k : Nat) : sigma i k < 16 := by
  unfold sigma
  by_cases hi : i < 10
  · by_cases hk : k < 16
    · have : ∀ i, i < 10 → ∀ k, k < 16 → (SIGMA.getD i []).getD k 0 < 16 := by decide +kernel
      exact this i hi k hk
    · have : ∀ i, i < 10 → (SIGMA.getD i []).length = 16 := by decide +kernel
      rw [List.getD_eq_getElem?_getD, List.getElem?_eq_none (by rw [this i hi]; omega)]
      decide
  · rw [List.getD_eq_getElem?_getD (l := SIGMA), List.getElem?_eq_none (by simp [SIGMA]; omega)]
    simp

/-! ## C77 -/

/-- For every input and limit: an input that is not 213 bytes long fails; otherwise the price is the number of
rounds, and a paid call with a flag of 0 or 1 returns the compression function of RFC 7693. -/
theorem C77_blake2f (input : Bytes) (limit : Option Nat) :
    exec input limit =
      if input.length = 213 then
        if limit.any (· < parseRound input) then .outOfGas
        else if input[212]? = some 0 ∨ input[212]? = some 1 then
          let r := F iv sigma (fun i => leWord ((input.drop (4 + 8 * i)).take 8))
            (fun i => leWord ((input.drop (68 + 8 * i)).take 8)) (leWord ((input.drop 196).take 8))
            (leWord ((input.drop 204).take 8)) (input[212]? = some 1) (parseRound input)
          .done ((r.1.list ++ r.2.list).flatMap leBytes) (parseRound input)
        else .failed
      else .failed := by
  unfold exec Precompiles.blake2F Precompiles.priced
  by_cases hl : input.length = 213
  · rw [if_pos hl, if_neg (fun h => h hl)]
    show (if limit.any (· < parseRound input) then _ else _) = _
    split
    · rfl
    · by_cases hf : input[212]? = some 0 ∨ input[212]? = some 1
      · rw [if_pos hf, if_pos hf.symm]
        simp only
        unfold compute
        have h8 : parseWords input 4 8 = [leWord ((input.drop 4).take 8), leWord ((input.drop 12).take 8),
          leWord ((input.drop 20).take 8), leWord ((input.drop 28).take 8), leWord ((input.drop 36).take 8),
          leWord ((input.drop 44).take 8), leWord ((input.drop 52).take 8), leWord ((input.drop 60).take 8)] := rfl
        have hh : ∀ i, i < 8 → at' (parseWords input 4 8) i = leWord ((input.drop (4 + 8 * i)).take 8) := by
          intro i hi
          simp [at', parseWords, hi, Nat.mul_comm]
        have hm : ∀ i, i < 16 → at' (parseWords input 68 16) i = leWord ((input.drop (68 + 8 * i)).take 8) := by
          intro i hi
          simp [at', parseWords, hi, Nat.mul_comm]
        have hF : F iv sigma (at' (parseWords input 4 8)) (at' (parseWords input 68 16))
            (leWord ((input.drop 196).take 8)) (leWord ((input.drop 204).take 8)) (input[212]? = some 1)
            (parseRound input) =
          F iv sigma (fun i => leWord ((input.drop (4 + 8 * i)).take 8))
            (fun i => leWord ((input.drop (68 + 8 * i)).take 8)) (leWord ((input.drop 196).take 8))
            (leWord ((input.drop 204).take 8)) (input[212]? = some 1) (parseRound input) := by
          have hr : ∀ n s, roundsSpec sigma (at' (parseWords input 68 16)) n s =
              roundsSpec sigma (fun i => leWord ((input.drop (68 + 8 * i)).take 8)) n s := by
            intro n s
            induction n with
            | zero => rfl
            | succ n ih =>
              simp only [roundsSpec, ih]
              congr 1
              funext k
              exact hm _ (sigma_lt _ _)
          unfold F
          simp only [hr, hh 0 (by decide), hh 1 (by decide), hh 2 (by decide), hh 3 (by decide),
            hh 4 (by decide), hh 5 (by decide), hh 6 (by decide), hh 7 (by decide)]
        rw [← hF, h8, compress_eq]
        rfl
      · rw [if_neg hf, if_neg (fun h => hf h.symm)]
  · rw [if_neg hl, if_pos hl]

/-- The initialisation vector: the `i`-th word is made of the first 64 binary digits behind the point of the
square root of the `i`-th prime. -/
theorem C77_iv : ∀ pi ∈ [(2, 0), (3, 1), (5, 2), (7, 3), (11, 4), (13, 5), (17, 6), (19, 7)],
    ∃ k : Nat, (k * 2 ^ 64 + (iv pi.2).toNat) ^ 2 ≤ pi.1 * 2 ^ 128 ∧
      pi.1 * 2 ^ 128 < (k * 2 ^ 64 + (iv pi.2).toNat + 1) ^ 2 ∧ k * k ≤ pi.1 ∧ pi.1 < (k + 1) * (k + 1) := by
  intro pi h
  have hk : pi ∈ [(2, 0), (3, 1), (5, 2), (7, 3), (11, 4), (13, 5), (17, 6), (19, 7)] →
      (((if pi.1 < 4 then 1 else if pi.1 < 9 then 2 else if pi.1 < 16 then 3 else 4) * 2 ^ 64 +
        (iv pi.2).toNat) ^ 2 ≤ pi.1 * 2 ^ 128 ∧
      pi.1 * 2 ^ 128 < ((if pi.1 < 4 then 1 else if pi.1 < 9 then 2 else if pi.1 < 16 then 3 else 4) * 2 ^ 64 +
        (iv pi.2).toNat + 1) ^ 2) := by
    revert pi
    decide +kernel
  refine ⟨_, (hk h).1, (hk h).2, ?_⟩
  revert pi
  decide +kernel

/-- RFC 7693, 2.7: the message schedule, one row of sixteen hexadecimal digits per round. -/
def schedule : List Nat := [
  0x0123456789abcdef, 0xea489fd61c02b753, 0xb8c052fdae367194, 0x7931dcbe265a40f8, 0x905724afe1bc683d,
  0x2c6a0b834d75fe19, 0xc51fed4a0763928b, 0xdb7ec13950f4862a, 0x6fe9b308c2d714a5, 0xa2847615fb9e3cd0]

/-- The message words are taken in the published order; every row is a permutation of the sixteen words, so that
each word enters each round once. -/
theorem C77_sigma : (∀ i, i < 10 → ∀ k, k < 16 →
      sigma i k = schedule.getD i 0 / 16 ^ (15 - k) % 16) ∧
    ∀ i, i < 10 → ∀ j, j < 16 → ∃ k, k < 16 ∧ sigma i k = j := by
  constructor <;> decide +kernel

/-! ## Non-vacuity -/

/-- The example of EIP-152 with 12 rounds and the message "abc". -/
def testInput : Bytes :=
  [0, 0, 0, 12,
   0x48, 0xc9, 0xbd, 0xf2, 0x67, 0xe6, 0x09, 0x6a, 0x3b, 0xa7, 0xca, 0x84, 0x85, 0xae, 0x67, 0xbb,
   0x2b, 0xf8, 0x94, 0xfe, 0x72, 0xf3, 0x6e, 0x3c, 0xf1, 0x36, 0x1d, 0x5f, 0x3a, 0xf5, 0x4f, 0xa5,
   0xd1, 0x82, 0xe6, 0xad, 0x7f, 0x52, 0x0e, 0x51, 0x1f, 0x6c, 0x3e, 0x2b, 0x8c, 0x68, 0x05, 0x9b,
   0x6b, 0xbd, 0x41, 0xfb, 0xab, 0xd9, 0x83, 0x1f, 0x79, 0x21, 0x7e, 0x13, 0x19, 0xcd, 0xe0, 0x5b,
   0x61, 0x62, 0x63] ++ List.replicate 125 0 ++ [3] ++ List.replicate 15 0 ++ [1]

example : exec testInput (some 12) = .done
    [0xba, 0x80, 0xa5, 0x3f, 0x98, 0x1c, 0x4d, 0x0d, 0x6a, 0x27, 0x97, 0xb6, 0x9f, 0x12, 0xf6, 0xe9,
     0x4c, 0x21, 0x2f, 0x14, 0x68, 0x5a, 0xc4, 0xb7, 0x4b, 0x12, 0xbb, 0x6f, 0xdb, 0xff, 0xa2, 0xd1,
     0x7d, 0x87, 0xc5, 0x39, 0x2a, 0xab, 0x79, 0x2d, 0xc2, 0x52, 0xd5, 0xde, 0x45, 0x33, 0xcc, 0x95,
     0x18, 0xd3, 0x8a, 0xa8, 0xdb, 0xf1, 0x92, 0x5a, 0xb9, 0x23, 0x86, 0xed, 0xd4, 0x00, 0x99, 0x23] 12 := by
  decide +kernel

example : exec testInput (some 11) = .outOfGas := by decide +kernel

end Axon.Blake2F
