import Verif.Executor.Modexp

/-!
# The precompiled contracts

Model of `core/executor/src/precompiles`: prices, limits, input handling and the address table.  Hash functions,
signature recovery, the curve and the CKB virtual machine live in other crates and are parameters (`Prims`).
The compression function of `blake2_f.rs` is modelled in `Verif.Executor.Blake2F`.
-/

namespace Axon.Precompiles
open Axon.Modexp (Reply)

/-- Functions of other crates. -/
structure Prims where
  G1 : Type
  G2 : Type
  sha256 : Bytes → Bytes
  ripemd160 : Bytes → Bytes
  keccak : Bytes → Bytes
  ckbBlake2b : Bytes → Bytes
  /-- public key (64 bytes) from message hash and 65-byte signature -/
  recover : Bytes → Bytes → Option Bytes
  /-- `read_point` behind its length check, `mod.rs:110-125`: two coordinates of 32 bytes -/
  point : Bytes → Bytes → Option G1
  /-- `Fr::from_slice` -/
  scalar : Bytes → Option Nat
  add : G1 → G1 → G1
  mul : G1 → Nat → G1
  /-- affine coordinates as 64 bytes, `none` at infinity -/
  affine : G1 → Option Bytes
  /-- one group of a pairing input, `ec_pairing.rs:50-79` -/
  pair : Bytes → Option (G1 × G2)
  pairingIsOne : List (G1 × G2) → Bool

/-- The common frame: price, limit, work. -/
def priced (gas : Nat) (limit : Option Nat) (work : Unit → Option Bytes) : Reply :=
  if limit.any (· < gas) then .outOfGas
  else match work () with
    | some out => .done out gas
    | none => .failed

/-- `(input.len() + 31) / 32` -/
def words (input : Bytes) : Nat := (input.length + 31) / 32

/-- `Identity::exec_fn`, `identity.rs:18-41` -/
def identity (input : Bytes) (limit : Option Nat) : Reply :=
  priced (words input * 3 + 15) limit fun _ => some input

/-- `Sha256::exec_fn`, `sha256.rs:19-45` -/
def sha256 (P : Prims) (input : Bytes) (limit : Option Nat) : Reply :=
  priced (words input * 12 + 60) limit fun _ => some (P.sha256 input)

/-- `Ripemd160::exec_fn`, `ripemd160.rs:19-47` -/
def ripemd160 (P : Prims) (input : Bytes) (limit : Option Nat) : Reply :=
  priced (words input * 120 + 600) limit fun _ => some (List.replicate 12 0 ++ P.ripemd160 input)

/-- `CkbBlake2b::exec_fn`, `ckb_blake2b.rs:17-43` -/
def ckbBlake2b (P : Prims) (input : Bytes) (limit : Option Nat) : Reply :=
  priced (words input * 12 + 60) limit fun _ => some (P.ckbBlake2b input)

/-- `n` bytes from position `i` on of a zero-padded buffer -/
def slice (input : Bytes) (i n : Nat) : Bytes :=
  (List.range n).map fun j => (input[i + j]?).getD 0

/-- `recover_signature`, `ecrecover.rs:64-79`: `r ‖ s ‖ v - 27` for `v` 27 or 28 -/
def recoverSignature (input : Bytes) : Option Bytes :=
  if slice input 32 31 = List.replicate 31 0 ∧ ((input[63]?).getD 0 = 27 ∨ (input[63]?).getD 0 = 28) then
    some (slice input 64 64 ++ [(input[63]?).getD 0 - 27])
  else none

/-- `EcRecover::exec_fn`, `ecrecover.rs:18-62`: the input is padded with zeros or cut to 128 bytes. -/
def ecRecover (P : Prims) (input : Bytes) (limit : Option Nat) : Reply :=
  priced 3000 limit fun _ =>
    (recoverSignature input).bind fun sig =>
    (P.recover (slice input 0 32) sig).map fun key =>
      List.replicate 12 0 ++ (P.keccak key).drop 12

/-- `read_point`, `mod.rs:105-126`: no padding -/
def readPoint (P : Prims) (input : Bytes) (start : Nat) : Option P.G1 :=
  if input.length < start + 64 then none
  else P.point ((input.drop start).take 32) ((input.drop (start + 32)).take 32)

/-- `read_fr`, `mod.rs:128-134` -/
def readFr (P : Prims) (input : Bytes) (start : Nat) : Option Nat :=
  if input.length < start + 32 then none
  else P.scalar ((input.drop start).take 32)

/-- 64 zero bytes at infinity, `ec_add.rs:34-43` -/
def pointOut (P : Prims) (g : P.G1) : Bytes := (P.affine g).getD (List.replicate 64 0)

/-- `EcAdd::exec_fn`, `ec_add.rs:18-54` -/
def ecAdd (P : Prims) (input : Bytes) (limit : Option Nat) : Reply :=
  priced 150 limit fun _ =>
    (readPoint P input 0).bind fun a => (readPoint P input 64).map fun b => pointOut P (P.add a b)

/-- `EcMul::exec_fn`, `ec_mul.rs:18-54` -/
def ecMul (P : Prims) (input : Bytes) (limit : Option Nat) : Reply :=
  priced 6000 limit fun _ =>
    (readPoint P input 0).bind fun a => (readFr P input 64).map fun k => pointOut P (P.mul a k)

/-- The groups of 192 bytes; what is left over at the end is not looked at, `ec_pairing.rs:47-49`. -/
def groups (input : Bytes) : List Bytes :=
  (List.range (input.length / 192)).map fun i => (input.drop (i * 192)).take 192

/-- A 32-byte truth value. -/
def truth (b : Bool) : Bytes := beFixed 32 (if b then 1 else 0)

/-- `EcPairing::exec_fn`, `ec_pairing.rs:20-97`: the empty input is answered before the limit is looked at. -/
def ecPairing (P : Prims) (input : Bytes) (limit : Option Nat) : Reply :=
  if input = [] then .done (truth true) 45000
  else
    priced (input.length / 192 * 34000 + 45000) limit fun _ =>
      ((groups input).mapM P.pair).map fun ps => truth (P.pairingIsOne ps)

/-- `Blake2F::exec_fn` without the compression, `blake2_f.rs:18-57`: length and price, then the flag -/
def blake2F (compress : Bytes → Bytes) (input : Bytes) (limit : Option Nat) : Reply :=
  if input.length ≠ 213 then .failed
  else
    priced (beNat (input.take 4)) limit fun _ =>
      if input[212]? = some 1 ∨ input[212]? = some 0 then some (compress input) else none

/-! ## CKB-VM calls -/

/-- `GAS_TO_CYCLE_COEF`, `core/interoperation/src/lib.rs:13` -/
def coef : Nat := 6000

/-- `gas_to_cycle`, `lib.rs:15-17`: checked multiplication of `u64` -/
def gasToCycle (gas : Nat) : Outcome Nat := if 2 ^ 64 ≤ gas * coef then .panic else .ok (gas * coef)

/-- `cycle_to_gas`, `lib.rs:19-21` -/
def cycleToGas (cycle : Nat) : Nat := cycle / coef

/-- The machine: program and arguments come from the input; given a cycle limit it ends with an exit code
(`exit_code` is an `i8`, one byte) and the cycles used, or fails. -/
structure Vm where
  run : Bytes → Nat → Option (UInt8 × Nat)
  /-- `AsmCoreMachine` stops when the limit is exceeded. -/
  bounded : ∀ i m r, run i m = some r → r.2 ≤ m

/-- `CallCkbVM::exec_fn`, `call_ckb_vm.rs:22-52`.  Failure to parse the input or to find the program is part of
`Vm.run`; the conversion of the gas happens after parsing, which `parses` stands for. -/
def callCkbVm (vm : Vm) (parses : Bytes → Bool) (input : Bytes) (limit : Option Nat) : Outcome Reply :=
  match limit with
  | none => .ok .outOfGas
  | some gas =>
    if parses input then
      match gasToCycle gas with
      | .ok m => match vm.run input m with
        | some (code, cycles) => .ok (.done [code] (max (cycleToGas cycles) 500))
        | none => .ok .failed
      | .err => .err
      | .panic => .panic
    else .ok .failed

/-! ## The table -/

/-- `eip_precompile_address`, `mod.rs:78-83`, as a number -/
def eipAddress (n : Nat) : Nat := n

/-- `axon_precompile_address`, `mod.rs:85-90` -/
def axonAddress (n : Nat) : Nat := 0x100 + n

/-- The contracts that exist as source files. -/
inductive Contract where
  | ecRecover | sha256 | ripemd160 | identity | modExp | ecAdd | ecMul | ecPairing | blake2F
  | callCkbVm | ckbBlake2b | cmbtVerify | getHeader | getCell
deriving DecidableEq

/-- `ADDRESS` of each contract -/
def addressOf : Contract → Nat
  | .ecRecover => eipAddress 1
  | .sha256 => eipAddress 2
  | .ripemd160 => eipAddress 3
  | .identity => eipAddress 4
  | .modExp => eipAddress 5
  | .ecAdd => eipAddress 6
  | .ecMul => eipAddress 7
  | .ecPairing => eipAddress 8
  | .blake2F => eipAddress 9
  | .getHeader => axonAddress 2
  | .getCell => axonAddress 3
  | .callCkbVm => axonAddress 4
  | .ckbBlake2b => axonAddress 6
  | .cmbtVerify => axonAddress 7

/-- `build_precompile_set`, `mod.rs:92-97`, in order of insertion -/
def registered : List Contract :=
  [.ecRecover, .sha256, .ripemd160, .identity, .modExp, .ecAdd, .ecMul, .ecPairing, .blake2F,
   .callCkbVm, .ckbBlake2b, .cmbtVerify, .getHeader]

/-- The map built by `precompiles!`: a later insertion replaces an earlier one. -/
def lookup (address : Nat) : Option Contract := registered.reverse.find? fun c => addressOf c = address

end Axon.Precompiles
