import Verif.Codec.Block
import Verif.Util.Outcome

/-!
# Consensus configuration and hardfork flags

Model of the consensus configuration stored by the metadata contract
(`core/executor/src/system_contract/metadata/store.rs:271-328`, `protocol/src/types/primitive.rs:385-452`)
and of the list of hardforks (`primitive.rs:613-642`, `store.rs:216-261`).
-/

namespace Axon.Meta
open Axon.Rlp Axon.Block

/-- `ConsensusConfig`, `primitive.rs:414-436` -/
structure Config where
  gasLimit : U64
  interval : U64
  proposeRatio : U64
  prevoteRatio : U64
  precommitRatio : U64
  brakeRatio : U64
  txNumLimit : U64
  maxTxSize : U64
  maxContractLimit : U64
deriving DecidableEq

/-- `default_max_contract_limit`, `primitive.rs:450-452` -/
def defaultContractLimit : U64 := ⟨0x6000, by decide⟩

/-- Derived encoding of `ConsensusConfigV0`: eight fields in declaration order, `primitive.rs:382-399`. -/
def itemsV0 (c : Config) : List Item :=
  [ofUint c.gasLimit, ofUint c.interval, ofUint c.proposeRatio, ofUint c.prevoteRatio,
    ofUint c.precommitRatio, ofUint c.brakeRatio, ofUint c.txNumLimit, ofUint c.maxTxSize]

/-- Derived encoding of `ConsensusConfig`: the contract size limit comes last. -/
def itemsV1 (c : Config) : List Item := itemsV0 c ++ [ofUint c.maxContractLimit]

/-- Derived decoding of the first eight fields and a given last one. -/
def configAt (l : List Item) (limit : U64) : Option Config := do
  let gasLimit ← valAt l 0 (toUint 64)
  let interval ← valAt l 1 (toUint 64)
  let proposeRatio ← valAt l 2 (toUint 64)
  let prevoteRatio ← valAt l 3 (toUint 64)
  let precommitRatio ← valAt l 4 (toUint 64)
  let brakeRatio ← valAt l 5 (toUint 64)
  let txNumLimit ← valAt l 6 (toUint 64)
  let maxTxSize ← valAt l 7 (toUint 64)
  some (Config.mk gasLimit interval proposeRatio prevoteRatio precommitRatio brakeRatio txNumLimit
    maxTxSize limit)

/-- `ConsensusConfigFlag::new`, `store.rs:287-298`: is the Andromeda flag set?  The flag is
`H256::from_low_u64_be(1u64.to_be())`; on a little-endian machine that is bit 0 of byte 24. -/
def isV1 (flags : H256) : Bool := flags.bytes[24]?.any (fun b => b &&& 1 = 1)

/-- `encode_consensus_config`, `store.rs:315-328` -/
def encodeConfig (flags : H256) (c : Config) : Bytes :=
  if isV1 flags then [0, 1] ++ encode (.list (itemsV1 c)) else [0, 0] ++ encode (.list (itemsV0 c))

/-- `decode_consensus_config`, `store.rs:300-313`: fewer than two bytes are an index out of range,
an unknown version is `unreachable!()`. -/
def decodeConfig : Bytes → Outcome Config
  | a :: b :: rest =>
    if a = 0 ∧ b = 0 then
      match decode rest with
      | some (.list l) => .ofOption (configAt l defaultContractLimit)
      | _ => .err
    else if a = 0 ∧ b = 1 then
      match decode rest with
      | some (.list l) => .ofOption (do
          let limit ← valAt l 8 (toUint 64)
          configAt l limit)
      | _ => .err
    else .panic
  | _ => .panic

/-! ## Hardforks -/

/-- `H256 | H256`, byte by byte -/
def orH (a b : H256) : H256 :=
  ⟨List.zipWith (· ||| ·) a.bytes b.bytes, by simp [a.len, b.len]⟩

/-- `H256::zero()` -/
def zeroH : H256 := ⟨List.replicate 32 0, by simp⟩

/-- `HardforkInfo`, `primitive.rs:616-618`: block numbers with flags, `u64` kept as `Nat`. -/
abbrev Forks := List (Nat × H256)

/-- `HardforkInfo::push`, `primitive.rs:620-636` -/
def pushFork (l : Forks) (b : Nat) (f : H256) : Forks :=
  match l.getLast? with
  | none => [(b, f)]
  | some (lb, lf) =>
    if orH f lf = lf ∨ b < lb then l
    else if lb = b then l.dropLast ++ [(lb, orH f lf)]
    else l ++ [(b, orH f lf)]

/-- `hardfork_info`, `store.rs:246-261`: the last entry, counted from the end, that is not above. -/
def forkAt (l : Forks) (n : Nat) : H256 :=
  match l.reverse.find? (fun e => e.1 ≤ n) with
  | some e => e.2
  | none => zeroH

/-- `set_hardfork_info`, `store.rs:216-244`: without a stored list the entry becomes the list. -/
def setFork (l : Option Forks) (b : Nat) (f : H256) : Forks :=
  match l with
  | some l => pushFork l b f
  | none => [(b, f)]

/-! ## Lemmas -/

theorem encStr_length_le (b : Bytes) (h : b.length < 56) : (encStr b).length ≤ b.length + 1 := by
  unfold encStr
  split
  · split <;> simp
  · rw [if_pos h]; simp

theorem encode_ofUint_length (x : U64) : (encode (ofUint x)).length ≤ 9 := by
  have h := beBytes_length_le x.val 8 (by have := x.lt; simpa using this)
  unfold ofUint
  rw [encode]
  have := encStr_length_le (beBytes x.val) (by omega)
  omega

theorem encodeMany_length_le (l : List Item) (k : Nat) (h : ∀ x ∈ l, (encode x).length ≤ k) :
    (encodeMany l).length ≤ k * l.length := by
  induction l with
  | nil => simp [encodeMany]
  | cons x xs ih =>
    have h1 := ih (fun y hy => h y (by simp [hy]))
    have h2 := h x (by simp)
    rw [encodeMany, List.length_append, List.length_cons, Nat.mul_succ]
    omega

theorem encode_list_length_lt (l : List Item) (hl : l.length ≤ 9)
    (h : ∀ x ∈ l, (encode x).length ≤ 9) : (encode (.list l)).length < 2 ^ 64 := by
  have h1 := encodeMany_length_le l 9 h
  have h3 : (encodeMany l).length ≤ 81 := by omega
  rw [encode]
  unfold encPayload
  split
  · simp; omega
  · have := beBytes_length_le (encodeMany l).length 8 (by simp; omega)
    simp [longHeader]; omega

theorem decode_itemsV0 (c : Config) :
    decode (encode (.list (itemsV0 c))) = some (.list (itemsV0 c)) := by
  apply decode_encode_item
  apply encode_list_length_lt
  · simp [itemsV0]
  · intro x hx
    simp only [itemsV0, List.mem_cons, List.not_mem_nil, or_false] at hx
    rcases hx with rfl | rfl | rfl | rfl | rfl | rfl | rfl | rfl <;> exact encode_ofUint_length _

theorem decode_itemsV1 (c : Config) :
    decode (encode (.list (itemsV1 c))) = some (.list (itemsV1 c)) := by
  apply decode_encode_item
  apply encode_list_length_lt
  · simp [itemsV1, itemsV0]
  · intro x hx
    simp only [itemsV1, itemsV0, List.cons_append, List.nil_append, List.mem_cons, List.not_mem_nil,
      or_false] at hx
    rcases hx with rfl | rfl | rfl | rfl | rfl | rfl | rfl | rfl | rfl <;> exact encode_ofUint_length _

end Axon.Meta
