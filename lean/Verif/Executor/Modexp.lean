import Verif.Util.Bytes
import Verif.Util.Outcome

/-!
# The modular exponentiation precompile

Model of `core/executor/src/precompiles/modexp.rs`.  `rug::Integer` is `Nat`; `usize` is 64 bits wide, additions
are checked (`overflow-checks = true`, `Cargo.toml:56`), `saturating_as` caps.  A vector longer than
`isize::MAX` panics (`reserve_exact`); running out of memory below this limit is not modelled.
-/

namespace Axon.Modexp

/-- `saturating_as::<usize>` / `saturating_as::<u64>` -/
def sat (n : Nat) : Nat := min n (2 ^ 64 - 1)

/-- `Integer::significant_bits` -/
def bits (n : Nat) : Nat := if n = 0 then 0 else Nat.log2 n + 1

/-- `get_data`, `modexp.rs:122-145` -/
def getData (data : Bytes) (start size : Nat) : Outcome Nat :=
  let start := min start data.length
  let stop := min ((start + size) % 2 ^ 64) data.length
  let part := (data.drop start).take (stop - start)
  if 2 ^ 63 ≤ part.length + size then .panic
  else .ok (beNat (part ++ List.replicate (size - (stop - start)) 0))

/-- The input behind the three length words, `modexp.rs:90-94` and `:163-167` -/
def payload (input : Bytes) : Bytes := input.drop 96

/-- `multiplication_complexity`, `modexp.rs:187-192` -/
def complexity (b m : Nat) : Nat := ((max b m + 7) / 8) ^ 2

/-- `iterator_count`, `modexp.rs:194-210` -/
def iterations (e exponent : Nat) : Outcome Nat :=
  if e ≤ 32 ∧ exponent = 0 then .ok (max 0 1)
  else if e ≤ 32 then .ok (max (bits exponent - 1) 1)
  else
    let a := sat (8 * (e - 32))
    let b := bits (exponent % 2 ^ 256) - 1
    if 2 ^ 64 ≤ a + b then .panic else .ok (max (a + b) 1)

/-- `ModExp::gas_cost`, `modexp.rs:78-119` -/
def gasCost (input : Bytes) : Outcome Nat :=
  (getData input 0 32).bind fun b =>
  (getData input 64 32).bind fun m =>
  if b = 0 ∧ m = 0 then .ok 200
  else
    (getData input 32 32).bind fun e =>
    (if 32 < e then getData (payload input) (sat b) 32
      else getData (payload input) (sat b) (sat e)).bind fun x =>
    (iterations e x).bind fun it =>
    .ok (sat (max (complexity b m * it / 3) 200))

/-- `LargeNumber::calc`, `modexp.rs:173-184`; `pow_mod` of GMP -/
def power (base exponent modulo : Nat) : Nat :=
  if modulo = 0 then 0
  else if base = 1 then base % modulo
  else base ^ exponent % modulo

/-- What a precompile reports. -/
inductive Reply where
  /-- output and gas -/
  | done (output : Bytes) (gas : Nat)
  | outOfGas
  | failed
deriving DecidableEq

/-- `ModExp::exec_fn`, `modexp.rs:22-76` -/
def exec (input : Bytes) (limit : Option Nat) : Outcome Reply :=
  (gasCost input).bind fun gas =>
  if limit.any (· < gas) then .ok .outOfGas
  else
    (getData input 0 32).bind fun b =>
    (getData input 64 32).bind fun m =>
    if sat b = 0 ∧ sat m = 0 then .ok (.done [] gas)
    else
      (getData input 32 32).bind fun e =>
      (getData (payload input) 0 (sat b)).bind fun base =>
      (getData (payload input) (sat b) (sat e)).bind fun exponent =>
      (getData (payload input) ((sat b + sat e) % 2 ^ 64) (sat m)).bind fun modulo =>
      let res := beBytes (power base exponent modulo)
      if sat m < res.length then .ok .failed
      else .ok (.done (List.replicate (sat m - res.length) 0 ++ res) gas)

end Axon.Modexp
