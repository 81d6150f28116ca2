import Verif.Executor.Precompiles

/-!
# The BLAKE2 compression function

Model of `core/executor/src/precompiles/blake2_f.rs:70-182`: parsing, the tables, `g` and `compress`.  Arrays are
lists.
-/

namespace Axon.Blake2F

/-- `u64::from_le_bytes` -/
def leWord (b : Bytes) : UInt64 := b.foldr (fun x acc => acc * 256 + UInt64.ofNat x.toNat) 0

/-- `u64::to_le_bytes` -/
def leBytes (w : UInt64) : Bytes := (List.range 8).map fun i => UInt8.ofNat (w.toNat / 256 ^ i)

/-- `u64::rotate_right` -/
def rotr (x : UInt64) (n : UInt64) : UInt64 := (x >>> n) ||| (x <<< (64 - n))

/-- `n` little-endian words from position `off` on -/
def parseWords (input : Bytes) (off n : Nat) : List UInt64 :=
  (List.range n).map fun i => leWord ((input.drop (off + i * 8)).take 8)

/-- `parse_round`, `blake2_f.rs:70-74` -/
def parseRound (input : Bytes) : Nat := beNat (input.take 4)

/-- `SIGMA`, `blake2_f.rs:117-128` -/
def SIGMA : List (List Nat) := [
  [0, 1, 2, 3, 4, 5, 6, 7, 8, 9, 10, 11, 12, 13, 14, 15],
  [14, 10, 4, 8, 9, 15, 13, 6, 1, 12, 0, 2, 11, 7, 5, 3],
  [11, 8, 12, 0, 5, 2, 15, 13, 10, 14, 3, 6, 7, 1, 9, 4],
  [7, 9, 3, 1, 13, 12, 11, 14, 2, 6, 5, 10, 4, 0, 15, 8],
  [9, 0, 5, 7, 2, 4, 10, 15, 14, 1, 11, 12, 6, 8, 3, 13],
  [2, 12, 6, 10, 0, 11, 8, 3, 4, 13, 7, 5, 15, 14, 1, 9],
  [12, 5, 1, 15, 14, 13, 4, 10, 0, 7, 6, 3, 9, 2, 8, 11],
  [13, 11, 7, 14, 12, 1, 3, 9, 5, 0, 15, 4, 8, 6, 2, 10],
  [6, 15, 14, 9, 11, 3, 0, 8, 12, 2, 13, 7, 1, 4, 10, 5],
  [10, 2, 8, 4, 7, 6, 1, 5, 15, 11, 9, 14, 3, 12, 13, 0]]

/-- `IV`, `blake2_f.rs:130-139` -/
def IV : List UInt64 := [
  0x6a09e667f3bcc908, 0xbb67ae8584caa73b, 0x3c6ef372fe94f82b, 0xa54ff53a5f1d36f1,
  0x510e527fade682d1, 0x9b05688c2b3e6c1f, 0x1f83d9abfb41bd6b, 0x5be0cd19137e2179]

/-- `v[i]` -/
def at' (v : List UInt64) (i : Nat) : UInt64 := v.getD i 0

/-- `g`, `blake2_f.rs:141-151`, assignment by assignment -/
def g (v : List UInt64) (a b c d : Nat) (x y : UInt64) : List UInt64 :=
  let v := v.set a (at' v a + at' v b + x)
  let v := v.set d (rotr (at' v d ^^^ at' v a) 32)
  let v := v.set c (at' v c + at' v d)
  let v := v.set b (rotr (at' v b ^^^ at' v c) 24)
  let v := v.set a (at' v a + at' v b + y)
  let v := v.set d (rotr (at' v d ^^^ at' v a) 16)
  let v := v.set c (at' v c + at' v d)
  v.set b (rotr (at' v b ^^^ at' v c) 63)

/-- One round, `blake2_f.rs:166-177` -/
def round (m : List UInt64) (i : Nat) (v : List UInt64) : List UInt64 :=
  let s := SIGMA.getD (i % 10) []
  let w := fun k => at' m (s.getD k 0)
  let v := g v 0 4 8 12 (w 0) (w 1)
  let v := g v 1 5 9 13 (w 2) (w 3)
  let v := g v 2 6 10 14 (w 4) (w 5)
  let v := g v 3 7 11 15 (w 6) (w 7)
  let v := g v 0 5 10 15 (w 8) (w 9)
  let v := g v 1 6 11 12 (w 10) (w 11)
  let v := g v 2 7 8 13 (w 12) (w 13)
  g v 3 4 9 14 (w 14) (w 15)

/-- The working vector before the rounds, `blake2_f.rs:154-163` -/
def initial (h : List UInt64) (t0 t1 : UInt64) (f : Bool) : List UInt64 :=
  let v := h ++ IV
  let v := v.set 12 (at' v 12 ^^^ t0)
  let v := v.set 13 (at' v 13 ^^^ t1)
  if f then v.set 14 (~~~ at' v 14) else v

/-- `compress`, `blake2_f.rs:153-182` -/
def compress (h m : List UInt64) (t0 t1 : UInt64) (f : Bool) (rounds : Nat) : List UInt64 :=
  let v := (List.range rounds).foldl (fun v i => round m i v) (initial h t0 t1 f)
  (List.range 8).map fun i => at' h i ^^^ (at' v i ^^^ at' v (i + 8))

/-- What `exec_fn` computes behind its checks, `blake2_f.rs:37-50` -/
def compute (input : Bytes) : Bytes :=
  (compress (parseWords input 4 8) (parseWords input 68 16) (leWord ((input.drop 196).take 8))
    (leWord ((input.drop 204).take 8)) (input[212]? = some 1) (parseRound input)).flatMap leBytes

/-- `Blake2F::exec_fn`, `blake2_f.rs:18-57` -/
def exec (input : Bytes) (limit : Option Nat) : Modexp.Reply := Precompiles.blake2F compute input limit

end Axon.Blake2F
