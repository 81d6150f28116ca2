import Verif.Api.Types
import Verif.Codec.Hex

/-!
# Block identifiers as JSON

`core/api/src/jsonrpc/web3_types.rs:325-459`.  Texts are lists of bytes as in `Verif.Codec.Hex`.
-/

namespace Axon.Api

open Axon Axon.Hex

/-- A JSON value as the visitor sees it (`deserialize_any`): a string, an object with its entries in
order (`none` for a value that is not a string), anything else. -/
inductive Json where
  | str (t : Text)
  | obj (entries : List (Text × Option Text))
  | other
deriving DecidableEq

/-- Text of an ASCII literal. -/
def lit (s : String) : Text := s.toUTF8.toList

/-- The digits of `u64::from_str_radix(_, 16)` from the value `a` on: each step is checked. -/
def radixFrom : Nat → Text → Option Nat
  | a, [] => some a
  | a, c :: r =>
    (digitVal c).bind fun d =>
    if 16 * a + d < 2 ^ 64 then radixFrom (16 * a + d) r else none

/-- `u64::from_str_radix(s, 16)` of the standard library: a leading `+` with something after it is
skipped, the empty text is an error. -/
def radix16 (s : Text) : Option Nat :=
  match s with
  | [] => none
  | c :: r => if c = 0x2b ∧ r ≠ [] then radixFrom 0 r else radixFrom 0 (c :: r)

/-- `U64::from(u64)` of an in-range number. -/
def toNum (n : Nat) : Option BlockId := (UIntN.ofNat? 64 n).map .num

/-- `visit_str`, web3_types.rs:434-451 -/
def visitStr (value : Text) : Option BlockId :=
  if value = lit "latest" then some .latest
  else if value = lit "earliest" then some .earliest
  else if value = lit "pending" then some .pending
  else if pfx.isPrefixOf value then (radix16 (value.drop 2)).bind toNum
  else none

/-- The value of the key `blockNumber`, web3_types.rs:386-401 -/
def numberValue (v : Option Text) : Option BlockId :=
  v.bind fun value =>
  if pfx.isPrefixOf value then (radix16 (value.drop 2)).bind toNum else none

/-- The value of the key `blockHash`, web3_types.rs:402-413 -/
def hashValue (v : Option Text) : Option BlockId :=
  v.bind fun value =>
  (fromStr value).bind fun raw =>
  if h : raw.length = 32 then some (.hash ⟨raw, h⟩) else none

/-- `visit_map`, web3_types.rs:375-432.  The loop ends after the first entry; the JSON deserializers
then report an error if entries are left (`serde_json`, not part of the repository). -/
def visitMap (entries : List (Text × Option Text)) : Option BlockId :=
  match entries with
  | [] => none
  | (key, v) :: rest =>
    (if key = lit "blockNumber" then numberValue v
     else if key = lit "blockHash" then hashValue v
     else none).bind fun id => if rest.isEmpty then some id else none

/-- `Deserialize for BlockId`, web3_types.rs:345-352; `none` is an error. -/
def BlockId.ofJson : Json → Option BlockId
  | .str t => visitStr t
  | .obj l => visitMap l
  | .other => none

/-- `format!("{:x}", x)` of a number: the digits of `serialize_uint` without its prefix. -/
def lowerHex (n : Nat) : Text := (serializeUint n).drop 2

/-- `Serialize for BlockId`, web3_types.rs:354-367; `{:x}` writes no prefix. -/
def BlockId.toJson : BlockId → Json
  | .num n => .str (lowerHex n.val)
  | .hash h => .str (hexEncode h.bytes)
  | .latest => .str (lit "latest")
  | .earliest => .str (lit "earliest")
  | .pending => .str (lit "pending")

end Axon.Api
