import Verif.Api.Types
import Verif.Consensus.LightClientProps
import Verif.Metadata.ConfigProps

/-!
# The methods for light clients

`core/api/src/jsonrpc/impl/axon.rs:28-205`: blocks, proofs, proposals, metadata and the status of
hardforks.
-/

namespace Axon.AxonRpc

open Axon Axon.Block Axon.Api Axon.Meta

/-- Answers of these methods: `ErrorCode::InvalidRequest`, or `RpcError::Internal` whose text is
omitted. -/
inductive Answer (α : Type) where
  | ok (a : α)
  | invalidRequest
  | internal
  | panic
deriving DecidableEq, Repr

namespace Answer

def bind {α β : Type} (x : Answer α) (f : α → Answer β) : Answer β :=
  match x with
  | .ok a => f a
  | .invalidRequest => .invalidRequest
  | .internal => .internal
  | .panic => .panic

def map {α β : Type} (x : Answer α) (f : α → β) : Answer β := x.bind fun a => .ok (f a)

/-- `.map_err(|e| RpcError::Internal(e.to_string()))?`; `none` stands for the error. -/
def ofOption {α : Type} : Option α → Answer α
  | some a => .ok a
  | none => .internal

/-- `.unwrap()` -/
def unwrap {α : Type} : Option α → Answer α
  | some a => .ok a
  | none => .panic

end Answer

/-- axon.rs:28-42 `get_block_by_id`. -/
def getBlockById (A : Adapter) : BlockId → Answer (Option Block)
  | .hash h => .ofOption (A.blockByHash h)
  | .num n => .ofOption (A.blockAt (some n.val))
  | .latest => .ofOption (A.blockAt none)
  | .earliest => .invalidRequest
  | .pending => .invalidRequest

/-- axon.rs:44-50 `get_proof_by_id`. -/
def getProofById (A : Adapter) (id : BlockId) : Answer (Option Block.Proof) :=
  (getBlockById A id).map fun b => b.map (·.header.proof)

/-- `U256::low_u64`. -/
def lowU64 (n : Nat) : Nat := n % 2 ^ 64

/-- The zero hash. -/
def zeroHash : H256 := ⟨List.replicate 32 0, by simp⟩

/-- axon.rs:62-88 `get_proposal_by_number`. -/
def getProposalByNumber (A : Adapter) (n : Nat) : Answer Block.Proposal :=
  (if lowU64 n = 0 then .ok zeroHash
    else (Answer.ofOption (A.blockAt (some (lowU64 n - 1)))).bind fun b =>
      (Answer.ofOption b).map fun b => b.header.stateRoot).bind fun r =>
  (Answer.ofOption (A.blockAt (some (lowU64 n)))).bind fun b =>
  (Answer.ofOption b).map fun b => Light.proposalOf r b

/-- What the adapter reads for the metadata: the storage's `get_block_header` and
`get_latest_block_header` (`none` stands for an error), and for a state root and a block number the
metadata that `MetadataHandle::new(..).get_metadata_by_block_number` finds below the metadata root kept
in that state (adapter.rs:380-386, handle.rs:20-31; `none` for an error). -/
structure MetaSource (M : Type) where
  header : Nat → Option (Option Header)
  latest : Option Header
  read : H256 → Nat → Option M

/-- adapter.rs:369-378: the state that `get_metadata_root` opens. -/
def MetaSource.stateRoot {M : Type} (S : MetaSource M) : Option Nat → Option H256
  | some n => (S.header n).bind fun h => h.map (·.stateRoot)
  | none => S.latest.map (·.stateRoot)

/-- adapter.rs:333-350 `get_metadata_by_number`. -/
def MetaSource.metadata {M : Type} (S : MetaSource M) : Option Nat → Option M
  | some n => (S.stateRoot (some n)).bind fun r => S.read r n
  | none => S.latest.bind fun h => (S.stateRoot none).bind fun r => S.read r h.number.val

/-- axon.rs:52-60 `get_metadata_by_number`, over the adapter's method (adapter.rs:334-350). -/
def getMetadataByNumber {M : Type} (md : Option Nat → Option M) (n : Nat) : Answer M :=
  .ofOption (md (some (lowU64 n)))

/-- axon.rs:90-98 `get_current_metadata`. -/
def getCurrentMetadata {M : Type} (md : Option Nat → Option M) : Answer M := .ofOption (md none)

/-! ## Hardforks -/

/-- `H256 & H256` -/
def andH (a b : H256) : H256 :=
  ⟨List.zipWith (· &&& ·) a.bytes b.bytes, by simp [a.len, b.len]⟩

/-- `H256 ^ H256` -/
def xorH (a b : H256) : H256 :=
  ⟨List.zipWith (· ^^^ ·) a.bytes b.bytes, by simp [a.len, b.len]⟩

/-- `H256::from_low_u64_be((name as u64).to_be())`: on a little-endian machine the number stands in
the last eight bytes, lowest byte first. -/
def mask (flag : Nat) : H256 := ⟨List.replicate 24 0 ++ (beFixed 8 flag).reverse, by simp⟩

/-- The loop of axon.rs:176-189 over the entries, latest first: `(determined, enabled)`. -/
def scan (current : Nat) : List (Nat × H256) → Option H256 → Option H256 × Option H256
  | [], det => (det, none)
  | e :: l, det =>
    if current < e.1 then
      scan current l (match det with
        | none => some e.2
        | some d => some d)
    else (det, some e.2)

/-- axon.rs:160-205 `enabled_and_determined`. -/
def enabledAndDetermined (l : Forks) (current : Nat) : H256 × H256 :=
  if l.length < 2 then
    match l.getLast? with
    | some e => if current < e.1 then (zeroH, e.2) else (e.2, zeroH)
    | none => (zeroH, zeroH)
  else
    let r := scan current l.reverse none
    let determined := r.1.getD zeroH
    let enabled := r.2.getD zeroH
    (enabled, if determined ≠ zeroH then xorH determined enabled else determined)

/-- `HardforkStatus`, web3_types.rs:825-831 -/
inductive Status where
  | proposed
  | determined
  | enabled
deriving DecidableEq, Repr

/-- The last status inserted for a name, axon.rs:133-153. -/
def statusOf (proposal : Option (Nat × H256)) (enabled determined : H256) (flag : Nat) : Option Status :=
  if andH enabled (mask flag) ≠ zeroH then some .enabled
  else if andH determined (mask flag) ≠ zeroH then some .determined
  else
    match proposal with
    | some p => if andH p.2 (mask flag) ≠ zeroH then some .proposed else none
    | none => none

/-- `HardforkName`, config-parser/src/types/spec.rs:268-273: the values of the names. -/
def names : List Nat := [0, 1]

/-- axon.rs:107-157 `hardfork_infos`: `forks` the list of the latest state, `proposal` the stored
proposal of this node, `header` the number of the latest header; `none` stands for an error.  The map
is a list of pairs. -/
def hardforkInfos (forks : Option Forks) (proposal : Option (Option (Nat × H256)))
    (header : Option Nat) : Answer (List (Nat × Status)) :=
  (Answer.ofOption forks).bind fun l =>
  (Answer.ofOption proposal).bind fun p =>
  (Answer.ofOption (header.map some)).bind fun h =>
  (Answer.unwrap h).map fun current =>
    let r := enabledAndDetermined l current
    names.filterMap fun f => (statusOf p r.1 r.2 f).map fun s => (f, s)

/-- executor/src/lib.rs:502-507 `enable_hardfork`, with the flags in force. -/
def enableHardfork (inForce : H256) (flag : Nat) : Bool := andH inForce (mask flag) = mask flag

/-! ## Lemmas on bits -/

/-- Bit `p` of a hash, bytes from the left and bits from the lowest. -/
def bitOf (h : H256) (p : Nat) : Bool := (h.bytes[p / 8]?.getD 0).toNat.testBit (p % 8)

theorem bitOf_andH (a b : H256) (p : Nat) : bitOf (andH a b) p = (bitOf a p && bitOf b p) := by
  unfold bitOf andH
  dsimp only
  rw [List.getElem?_zipWith]
  cases a.bytes[p / 8]? <;> cases b.bytes[p / 8]? <;> simp

theorem bitOf_xorH (a b : H256) (p : Nat) : bitOf (xorH a b) p = (bitOf a p ^^ bitOf b p) := by
  unfold bitOf xorH
  dsimp only
  rw [List.getElem?_zipWith]
  by_cases h : p / 8 < 32
  · have ha : p / 8 < a.bytes.length := by rw [a.len]; exact h
    have hb : p / 8 < b.bytes.length := by rw [b.len]; exact h
    rw [List.getElem?_eq_getElem ha, List.getElem?_eq_getElem hb]
    simp
  · have ha : a.bytes.length ≤ p / 8 := by rw [a.len]; omega
    have hb : b.bytes.length ≤ p / 8 := by rw [b.len]; omega
    rw [List.getElem?_eq_none ha, List.getElem?_eq_none hb]
    simp

theorem bitOf_orH (a b : H256) (p : Nat) : bitOf (orH a b) p = (bitOf a p || bitOf b p) := by
  unfold bitOf orH
  dsimp only
  rw [List.getElem?_zipWith]
  by_cases h : p / 8 < 32
  · have ha : p / 8 < a.bytes.length := by rw [a.len]; exact h
    have hb : p / 8 < b.bytes.length := by rw [b.len]; exact h
    rw [List.getElem?_eq_getElem ha, List.getElem?_eq_getElem hb]
    simp
  · have ha : a.bytes.length ≤ p / 8 := by rw [a.len]; omega
    have hb : b.bytes.length ≤ p / 8 := by rw [b.len]; omega
    rw [List.getElem?_eq_none ha, List.getElem?_eq_none hb]
    simp

theorem bitOf_zeroH (p : Nat) : bitOf zeroH p = false := by
  unfold bitOf zeroH
  dsimp only
  rw [List.getElem?_replicate]
  split <;> simp

theorem u8_ext {a b : UInt8} (h : ∀ k < 8, a.toNat.testBit k = b.toNat.testBit k) : a = b := by
  apply UInt8.toNat_inj.1
  apply Nat.eq_of_testBit_eq
  intro k
  by_cases hk : k < 8
  · exact h k hk
  · rw [Nat.testBit_lt_two_pow (Nat.lt_of_lt_of_le a.toNat_lt (Nat.pow_le_pow_right (by omega) (by omega))),
      Nat.testBit_lt_two_pow (Nat.lt_of_lt_of_le b.toNat_lt (Nat.pow_le_pow_right (by omega) (by omega)))]

theorem bitOf_ext {a b : H256} (h : ∀ p < 256, bitOf a p = bitOf b p) : a = b := by
  apply FixedBytes.ext'
  apply List.ext_getElem?
  intro i
  by_cases hi : i < 32
  · have ha : i < a.bytes.length := by rw [a.len]; exact hi
    have hb : i < b.bytes.length := by rw [b.len]; exact hi
    rw [List.getElem?_eq_getElem ha, List.getElem?_eq_getElem hb]
    congr 1
    apply u8_ext
    intro k hk
    have := h (8 * i + k) (by omega)
    unfold bitOf at this
    rw [show (8 * i + k) / 8 = i by omega, show (8 * i + k) % 8 = k by omega,
      List.getElem?_eq_getElem ha, List.getElem?_eq_getElem hb] at this
    exact this
  · rw [List.getElem?_eq_none (by rw [a.len]; omega), List.getElem?_eq_none (by rw [b.len]; omega)]

theorem ne_zeroH_iff (a : H256) : a ≠ zeroH ↔ ∃ p, p < 256 ∧ bitOf a p = true := by
  constructor
  · intro h
    refine Classical.byContradiction fun hn => h (bitOf_ext fun p hp => ?_)
    rw [bitOf_zeroH]
    cases hb : bitOf a p with
    | false => rfl
    | true => exact absurd ⟨p, hp, hb⟩ hn
  · rintro ⟨p, -, hp⟩ rfl
    rw [bitOf_zeroH] at hp
    cases hp

theorem beFixed_reverse (w n j : Nat) (h : j < w) :
    (beFixed w n).reverse[j]? = some (UInt8.ofNat (n / 256 ^ j)) := by
  induction w generalizing n j with
  | zero => omega
  | succ w ih =>
    rw [beFixed, List.reverse_append]
    cases j with
    | zero => simp
    | succ j =>
      have := ih (n / 256) j (by omega)
      rw [List.reverse_singleton, List.singleton_append, List.getElem?_cons_succ, this,
        Nat.div_div_eq_div_mul, Nat.pow_succ, Nat.mul_comm]

theorem bitOf_mask (f p : Nat) :
    bitOf (mask f) p = (decide (192 ≤ p ∧ p < 256) && f.testBit (p - 192)) := by
  unfold bitOf mask
  dsimp only
  by_cases h1 : p < 192
  · rw [List.getElem?_append_left (by simp; omega), List.getElem?_replicate, if_pos (by omega)]
    simp
    intro h
    omega
  · by_cases h2 : p < 256
    · rw [List.getElem?_append_right (by simp; omega), List.length_replicate,
        beFixed_reverse _ _ _ (by omega)]
      have e : p - 192 = 8 * (p / 8 - 24) + p % 8 := by omega
      rw [e]
      simp only [Option.getD_some, UInt8.toNat_ofNat']
      rw [show (2 : Nat) ^ 8 = 2 ^ 8 from rfl, Nat.testBit_mod_two_pow,
        show (256 : Nat) ^ (p / 8 - 24) = 2 ^ (8 * (p / 8 - 24)) by rw [Nat.pow_mul],
        Nat.testBit_div_two_pow]
      have h3 : p % 8 < 8 := Nat.mod_lt _ (by omega)
      have h4 : 192 ≤ p ∧ p < 256 := ⟨by omega, h2⟩
      simp [h3, h4, Nat.add_comm]
    · rw [List.getElem?_eq_none (by simp; omega)]
      simp
      omega

end Axon.AxonRpc
