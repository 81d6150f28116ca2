import Verif.Util.Bytes
import Verif.Util.Outcome

/-!
# The contract ABI codec

Model of `ethabi` 18 (`encoder.rs`, `decoder.rs`; a dependency, `Cargo.lock:2837-2839`), which `ethers` uses for
the call data of the system contracts and for the payloads of the precompiles: `abi::encode` and `abi::decode`
on tokens and parameter types.  Only the types that occur in `/repo` are kept (no `int`, `string`, fixed arrays).
An encoding longer than `u32::MAX` bytes would have wrong offsets; statements assume it is shorter.
-/

namespace Axon.Abi

/-- `ParamType`.  The width of `uint` plays no role in the codec. -/
inductive Ty where
  | address
  | uint
  | bool
  | fixed (n : Nat)
  | bytes
  | array (t : Ty)
  | tuple (ts : List Ty)

/-- `Token`; an address has 20 bytes, an unsigned integer is below `2 ^ 256`. -/
inductive Tok where
  | address (b : Bytes)
  | uint (n : Nat)
  | bool (b : Bool)
  | fixed (b : Bytes)
  | bytes (b : Bytes)
  | array (ts : List Tok)
  | tuple (ts : List Tok)

/-- `pad_u32` -/
def word (n : Nat) : Bytes := beFixed 32 n

/-- `pad_bytes_append`: zeros up to a multiple of 32. -/
def padded (b : Bytes) : Bytes := b ++ List.replicate ((32 - b.length % 32) % 32) 0

mutual
/-- `ParamType::is_dynamic` -/
def Ty.dyn : Ty → Bool
  | .bytes => true
  | .array _ => true
  | .tuple ts => Ty.dynAny ts
  | _ => false
def Ty.dynAny : List Ty → Bool
  | [] => false
  | t :: ts => t.dyn || Ty.dynAny ts
end

mutual
/-- `Token::is_dynamic` -/
def Tok.dyn : Tok → Bool
  | .bytes _ => true
  | .array _ => true
  | .tuple ts => Tok.dynAny ts
  | _ => false
def Tok.dynAny : List Tok → Bool
  | [] => false
  | t :: ts => t.dyn || Tok.dynAny ts
end

mutual
/-- `Mediate::head_len` -/
def Tok.headLen : Tok → Nat
  | .tuple ts => if Tok.dynAny ts then 32 else Tok.headLens ts
  | _ => 32
def Tok.headLens : List Tok → Nat
  | [] => 0
  | t :: ts => t.headLen + Tok.headLens ts
end

mutual
/-- `Mediate::head_append`: the token itself, or the offset of its tail. -/
def Tok.head : Tok → Nat → Bytes
  | .address b, _ => List.replicate 12 0 ++ b
  | .uint n, _ => word n
  | .bool b, _ => word b.toNat
  | .fixed b, _ => padded b
  | .bytes _, off => word off
  | .array _, off => word off
  | .tuple ts, off => if Tok.dynAny ts then word off else Tok.heads ts 0
/-- `Mediate::tail_append` -/
def Tok.tail : Tok → Bytes
  | .bytes b => word b.length ++ padded b
  | .array ts => word ts.length ++ (Tok.heads ts (Tok.headLens ts) ++ Tok.tails ts)
  | .tuple ts => if Tok.dynAny ts then Tok.heads ts (Tok.headLens ts) ++ Tok.tails ts else []
  | _ => []
/-- The loop over the heads in `encode_head_tail_append`: each tail moves the offset. -/
def Tok.heads : List Tok → Nat → Bytes
  | [], _ => []
  | t :: ts, off => t.head off ++ Tok.heads ts (off + t.tail.length)
/-- The loop over the tails. -/
def Tok.tails : List Tok → Bytes
  | [] => []
  | t :: ts => t.tail ++ Tok.tails ts
end

/-- `abi::encode`, `encode_head_tail_append` -/
def encode (ts : List Tok) : Bytes := Tok.heads ts (Tok.headLens ts) ++ Tok.tails ts

/-- `peek` -/
def peek (data : Bytes) (off len : Nat) : Outcome Bytes :=
  if data.length < off + len then .err else .ok ((data.drop off).take len)

/-- `&data[off..]` -/
def slice (data : Bytes) (off : Nat) : Outcome Bytes :=
  if data.length < off then .panic else .ok (data.drop off)

/-- `as_usize` of a word -/
def asUsize (w : Bytes) : Outcome Nat :=
  if (w.take 28).all (· == 0) then .ok (beNat (w.drop 28)) else .err

/-- `as_bool` of a word -/
def asBool (w : Bytes) : Outcome Bool :=
  if (w.take 31).all (· == 0) then .ok (w.drop 31 == [1]) else .err

/-- The offset or length at `off`. -/
def peekUsize (data : Bytes) (off : Nat) : Outcome Nat := (peek data off 32).bind asUsize

/-- The loop over the elements of an array. -/
def loop (f : Nat → Outcome (Tok × Nat)) : Nat → Nat → Outcome (List Tok × Nat)
  | 0, off => .ok ([], off)
  | n + 1, off =>
    (f off).bind fun r => (loop f n r.2).bind fun rs => .ok (r.1 :: rs.1, rs.2)

mutual
/-- `decode_param`: the token and the next offset. -/
def Ty.dec : Ty → Bytes → Nat → Outcome (Tok × Nat)
  | .address, data, off => (peek data off 32).bind fun w => .ok (.address (w.drop 12), off + 32)
  | .uint, data, off => (peek data off 32).bind fun w => .ok (.uint (beNat w), off + 32)
  | .bool, data, off => (peek data off 32).bind fun w => (asBool w).bind fun b => .ok (.bool b, off + 32)
  | .fixed n, data, off => (peek data off n).bind fun w => .ok (.fixed w, off + 32)
  | .bytes, data, off =>
    (peekUsize data off).bind fun o =>
    (peekUsize data o).bind fun len =>
    (peek data (o + 32) len).bind fun b => .ok (.bytes b, off + 32)
  | .array t, data, off =>
    (peekUsize data off).bind fun o =>
    (peekUsize data o).bind fun len =>
    (slice data (o + 32)).bind fun tail =>
    (loop (fun i => t.dec tail i) len 0).bind fun r => .ok (.array r.1, off + 32)
  | .tuple ts, data, off =>
    if Ty.dynAny ts then
      (peekUsize data off).bind fun o =>
      if data.length < o then .err
      else
        (slice data o).bind fun tail =>
        (Ty.decAll ts tail 0).bind fun r => .ok (.tuple r.1, off + 32)
    else (Ty.decAll ts data off).bind fun r => .ok (.tuple r.1, r.2)
/-- The loop over parameters. -/
def Ty.decAll : List Ty → Bytes → Nat → Outcome (List Tok × Nat)
  | [], _, off => .ok ([], off)
  | t :: ts, data, off =>
    (t.dec data off).bind fun r => (Ty.decAll ts data r.2).bind fun rs => .ok (r.1 :: rs.1, rs.2)
end

/-- `ParamType::is_empty_bytes_valid_encoding` -/
def Ty.emptyOk : Ty → Bool
  | .fixed 0 => true
  | _ => false

/-- `abi::decode`: bytes behind what is needed are ignored. -/
def decode (ts : List Ty) (data : Bytes) : Outcome (List Tok) :=
  if !(ts.all Ty.emptyOk) && data.isEmpty then .err
  else (Ty.decAll ts data 0).bind fun r => .ok r.1

mutual
/-- A token of a type; tuples have members and fixed bytes have 1 to 32 bytes. -/
def Tok.fits : Tok → Ty → Prop
  | .address b, .address => b.length = 20
  | .uint n, .uint => n < 2 ^ 256
  | .bool _, .bool => True
  | .fixed b, .fixed n => b.length = n ∧ n ≤ 32 ∧ 0 < n
  | .bytes _, .bytes => True
  | .array ts, .array t => Tok.fitAll ts t
  | .tuple ts, .tuple tys => ts ≠ [] ∧ Tok.fitEach ts tys
  | _, _ => False
def Tok.fitAll : List Tok → Ty → Prop
  | [], _ => True
  | t :: ts, ty => t.fits ty ∧ Tok.fitAll ts ty
def Tok.fitEach : List Tok → List Ty → Prop
  | [], [] => True
  | t :: ts, ty :: tys => t.fits ty ∧ Tok.fitEach ts tys
  | _, _ => False
end

end Axon.Abi
