import Verif.Codec.Block
import Verif.Codec.Molecule

/-!
# Exit reasons and their codec

`evm::ExitReason`, which receipts and execution responses hold (`protocol/src/types/receipt.rs:19`,
`protocol/src/types/executor.rs:26`), and `bincode::serialize`, `bincode::deserialize` of it
(`protocol/src/codec/receipt.rs:19, 39-43`, `protocol/src/codec/executor.rs:8, 22-27`).  The types are those of the crate
`evm-core` 0.37 and the codec that of `bincode` 1.3 with its default configuration, which are not part of /repo: the
number of a variant in four bytes, the length of a text in eight, all little-endian; bytes left over are ignored.
-/

namespace Axon.Exit
open Axon.Mol

/-- A text (`Cow<'static, str>`), of a length that a `u64` can tell. -/
structure Text where
  str : String
  lt : str.utf8ByteSize < 2 ^ 64
deriving DecidableEq

/-- `evm::ExitSucceed` -/
inductive Succeed where
  | stopped | returned | suicided
deriving DecidableEq, Repr

/-- `evm::ExitError` -/
inductive Error where
  | stackUnderflow | stackOverflow | invalidJump | invalidRange | designatedInvalid | callTooDeep | createCollision
  | createContractLimit
  | invalidCode (op : UInt8)
  | outOfOffset | outOfGas | outOfFund | pcUnderflow | createEmpty
  | other (t : Text)
  | maxNonce
deriving DecidableEq

/-- `evm::ExitFatal` -/
inductive Fatal where
  | notSupported | unhandledInterrupt
  | callErrorAsFatal (e : Error)
  | other (t : Text)
deriving DecidableEq

/-- `evm::ExitReason`; there is one kind of `ExitRevert`. -/
inductive Reason where
  | succeed (s : Succeed)
  | error (e : Error)
  | revert
  | fatal (f : Fatal)
deriving DecidableEq

/-! ## Writing -/

/-- The number of a variant. -/
def tag (n : Nat) : Bytes := le 4 n

/-- `serialize_str` -/
def serText (t : Text) : Bytes := le 8 t.str.utf8ByteSize ++ t.str.toByteArray.data.toList

/-- Derived `Serialize` of `ExitSucceed`, used at `protocol/src/codec/receipt.rs:19`. -/
def serSucceed : Succeed → Bytes
  | .stopped => tag 0
  | .returned => tag 1
  | .suicided => tag 2

/-- Derived `Serialize` of `ExitError`, used at `protocol/src/codec/receipt.rs:19`; `Opcode` is its byte. -/
def serError : Error → Bytes
  | .stackUnderflow => tag 0
  | .stackOverflow => tag 1
  | .invalidJump => tag 2
  | .invalidRange => tag 3
  | .designatedInvalid => tag 4
  | .callTooDeep => tag 5
  | .createCollision => tag 6
  | .createContractLimit => tag 7
  | .invalidCode op => tag 8 ++ [op]
  | .outOfOffset => tag 9
  | .outOfGas => tag 10
  | .outOfFund => tag 11
  | .pcUnderflow => tag 12
  | .createEmpty => tag 13
  | .other t => tag 14 ++ serText t
  | .maxNonce => tag 15

/-- Derived `Serialize` of `ExitFatal`, used at `protocol/src/codec/receipt.rs:19`. -/
def serFatal : Fatal → Bytes
  | .notSupported => tag 0
  | .unhandledInterrupt => tag 1
  | .callErrorAsFatal e => tag 2 ++ serError e
  | .other t => tag 3 ++ serText t

/-- `bincode::serialize(&exit_reason)`, `protocol/src/codec/receipt.rs:19` -/
def ser : Reason → Bytes
  | .succeed s => tag 0 ++ serSucceed s
  | .error e => tag 1 ++ serError e
  | .revert => tag 2 ++ tag 0
  | .fatal f => tag 3 ++ serFatal f

/-! ## Reading -/

/-- `w` bytes and what follows. -/
def takeBytes (w : Nat) (b : Bytes) : Option (Bytes × Bytes) := if w ≤ b.length then some (b.take w, b.drop w) else none

/-- A little-endian number of `w` bytes, used at `protocol/src/codec/receipt.rs:39-43`. -/
def readNat (w : Nat) (b : Bytes) : Option (Nat × Bytes) := (takeBytes w b).map fun x => (leNat x.1, x.2)

/-- `String::from_utf8` -/
def text? (b : Bytes) : Option Text :=
  let a : ByteArray := ⟨b.toArray⟩
  if h : a.validateUTF8 = true then
    if lt : (String.fromUTF8 a (ByteArray.validateUTF8_eq_true_iff.1 h)).utf8ByteSize < 2 ^ 64 then some ⟨_, lt⟩ else none
  else none

/-- `deserialize_string` -/
def readText (b : Bytes) : Option Text :=
  (readNat 8 b).bind fun n => (takeBytes n.1 n.2).bind fun x => text? x.1

/-- Derived `Deserialize` of `ExitSucceed`, used at `protocol/src/codec/receipt.rs:39-43`. -/
def deSucceed (b : Bytes) : Option Succeed :=
  (readNat 4 b).bind fun t =>
    match t.1 with
    | 0 => some .stopped
    | 1 => some .returned
    | 2 => some .suicided
    | _ => none

/-- The variant of `ExitError` with a number, its values read from what follows. -/
def errorOf (n : Nat) (r : Bytes) : Option Error :=
    match n with
    | 0 => some .stackUnderflow
    | 1 => some .stackOverflow
    | 2 => some .invalidJump
    | 3 => some .invalidRange
    | 4 => some .designatedInvalid
    | 5 => some .callTooDeep
    | 6 => some .createCollision
    | 7 => some .createContractLimit
    | 8 => r.head?.map .invalidCode
    | 9 => some .outOfOffset
    | 10 => some .outOfGas
    | 11 => some .outOfFund
    | 12 => some .pcUnderflow
    | 13 => some .createEmpty
    | 14 => (readText r).map .other
    | 15 => some .maxNonce
    | _ => none

/-- Derived `Deserialize` of `ExitError`, used at `protocol/src/codec/receipt.rs:39-43`. -/
def deError (b : Bytes) : Option Error := (readNat 4 b).bind fun t => errorOf t.1 t.2

/-- Derived `Deserialize` of `ExitFatal`, used at `protocol/src/codec/receipt.rs:39-43`. -/
def deFatal (b : Bytes) : Option Fatal :=
  (readNat 4 b).bind fun t =>
    match t.1 with
    | 0 => some .notSupported
    | 1 => some .unhandledInterrupt
    | 2 => (deError t.2).map .callErrorAsFatal
    | 3 => (readText t.2).map .other
    | _ => none

/-- `ExitRevert` -/
def deRevert (b : Bytes) : Option Reason :=
  (readNat 4 b).bind fun t => match t.1 with
    | 0 => some .revert
    | _ => none

/-- `bincode::deserialize`, `protocol/src/codec/receipt.rs:39-43` -/
def de (b : Bytes) : Option Reason :=
  (readNat 4 b).bind fun t =>
    match t.1 with
    | 0 => (deSucceed t.2).map .succeed
    | 1 => (deError t.2).map .error
    | 2 => deRevert t.2
    | 3 => (deFatal t.2).map .fatal
    | _ => none

/-! ## Lemmas -/

theorem readNat_le {w n : Nat} (h : n < 256 ^ w) (r : Bytes) : readNat w (le w n ++ r) = some (n, r) := by
  unfold readNat takeBytes
  rw [if_pos (by rw [List.length_append, le_length]; omega), List.take_left' (le_length _ _),
    List.drop_left' (le_length _ _)]
  simp [leNat_le h]

theorem readTag {n : Nat} (h : n < 16) (r : Bytes) : readNat 4 (tag n ++ r) = some (n, r) :=
  readNat_le (Nat.lt_of_lt_of_le h (by decide)) r

theorem readTag' {n : Nat} (h : n < 16) : readNat 4 (tag n) = some (n, []) := by
  have := readTag h []
  rwa [List.append_nil] at this

theorem text?_bytes (t : Text) : text? t.str.toByteArray.data.toList = some t := by
  have e : (⟨t.str.toByteArray.data.toList.toArray⟩ : ByteArray) = t.str.toByteArray := by simp
  unfold text?
  simp only [e]
  rw [dif_pos (ByteArray.validateUTF8_eq_true_iff.2 t.str.isValidUTF8)]
  exact dif_pos t.lt

theorem readText_ser (t : Text) (r : Bytes) : readText (serText t ++ r) = some t := by
  unfold readText serText
  rw [List.append_assoc, readNat_le (by exact t.lt)]
  have hl : t.str.toByteArray.data.toList.length = t.str.utf8ByteSize := rfl
  simp only [Option.bind_some]
  unfold takeBytes
  rw [if_pos (by rw [List.length_append]; omega), List.take_left' hl]
  exact text?_bytes t

theorem deSucceed_ser (s : Succeed) (r : Bytes) : deSucceed (serSucceed s ++ r) = some s := by
  unfold deSucceed
  cases s <;> simp only [serSucceed] <;> rw [readTag (by decide)] <;> rfl

theorem deError_of {b r : Bytes} {n : Nat} (h : readNat 4 b = some (n, r)) : deError b = errorOf n r := by
  unfold deError
  rw [h]
  rfl

theorem errorOf_other {r : Bytes} {t : Text} (h : readText r = some t) : errorOf 14 r = some (.other t) := by
  show (readText r).map Error.other = _
  rw [h]
  rfl

theorem deError_ser (e : Error) (r : Bytes) : deError (serError e ++ r) = some e := by
  cases e with
  | other t =>
    rw [serError, List.append_assoc, deError_of (readTag (by decide) _)]
    exact errorOf_other (readText_ser t r)
  | invalidCode op =>
    rw [serError, List.append_assoc, deError_of (readTag (by decide) _)]
    rfl
  | _ =>
    rw [serError, deError_of (readTag (by decide) _)]
    rfl

theorem deFatal_error {b r : Bytes} {e : Error} (h : readNat 4 b = some (2, r)) (k : deError r = some e) :
    deFatal b = some (.callErrorAsFatal e) := by
  unfold deFatal
  rw [h]
  show (deError r).map Fatal.callErrorAsFatal = _
  rw [k]
  rfl

theorem deFatal_other {b r : Bytes} {t : Text} (h : readNat 4 b = some (3, r)) (k : readText r = some t) :
    deFatal b = some (.other t) := by
  unfold deFatal
  rw [h]
  show (readText r).map Fatal.other = _
  rw [k]
  rfl

theorem deFatal_plain {b r : Bytes} : (readNat 4 b = some (0, r) → deFatal b = some .notSupported) ∧
    (readNat 4 b = some (1, r) → deFatal b = some .unhandledInterrupt) := by
  constructor <;> (intro h; unfold deFatal; rw [h]; rfl)

theorem deFatal_ser (f : Fatal) (r : Bytes) : deFatal (serFatal f ++ r) = some f := by
  cases f with
  | notSupported => exact deFatal_plain.1 (readTag (by decide) r)
  | unhandledInterrupt => exact deFatal_plain.2 (readTag (by decide) r)
  | callErrorAsFatal e =>
    refine deFatal_error (r := serError e ++ r) ?_ (deError_ser e r)
    rw [serFatal, List.append_assoc]
    exact readTag (by decide) _
  | other t =>
    refine deFatal_other (r := serText t ++ r) ?_ (readText_ser t r)
    rw [serFatal, List.append_assoc]
    exact readTag (by decide) _

theorem de_of {b r : Bytes} {n : Nat} (h : readNat 4 b = some (n, r)) :
    (n = 0 → ∀ {s}, deSucceed r = some s → de b = some (.succeed s)) ∧
    (n = 1 → ∀ {e}, deError r = some e → de b = some (.error e)) ∧
    (n = 2 → ∀ {x}, deRevert r = some x → de b = some x) ∧
    (n = 3 → ∀ {f}, deFatal r = some f → de b = some (.fatal f)) := by
  unfold de
  rw [h]
  refine ⟨?_, ?_, ?_, ?_⟩
  · rintro rfl s k
    show (deSucceed r).map Reason.succeed = _
    rw [k]; rfl
  · rintro rfl e k
    show (deError r).map Reason.error = _
    rw [k]; rfl
  · rintro rfl x k
    exact k
  · rintro rfl f k
    show (deFatal r).map Reason.fatal = _
    rw [k]; rfl

theorem de_ser (x : Reason) (r : Bytes) : de (ser x ++ r) = some x := by
  cases x with
  | succeed s =>
    rw [ser, List.append_assoc]
    exact (de_of (readTag (by decide) _)).1 rfl (deSucceed_ser s r)
  | error e =>
    rw [ser, List.append_assoc]
    exact (de_of (readTag (by decide) _)).2.1 rfl (deError_ser e r)
  | revert =>
    rw [ser, List.append_assoc]
    refine (de_of (readTag (by decide) _)).2.2.1 rfl ?_
    unfold deRevert
    rw [readTag (by decide)]
    rfl
  | fatal f =>
    rw [ser, List.append_assoc]
    exact (de_of (readTag (by decide) _)).2.2.2 rfl (deFatal_ser f r)

/-- The codec that receipts and execution responses use. -/
def codec : Block.ExitCodec Reason where
  ser := ser
  de := de
  de_ser := fun r => by
    have := de_ser r []
    rwa [List.append_nil] at this

end Axon.Exit
