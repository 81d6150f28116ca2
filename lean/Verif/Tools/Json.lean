import Verif.Codec.Block
import Verif.Codec.Hex
import Verif.Util.Outcome

/-!
# JSON between the node and clients

The node serialises blocks, proofs, proposals and metadata with the derived serde code of
`protocol/src/types`; clients read them with `devtools/axon-tools/src/types.rs`.  Texts are their UTF-8
bytes.  The serialisers of `ethereum_types` (impl-serde 0.4.0) and `faster_hex` (0.8.1) and the derived
code of serde are modelled from their published sources.
-/

namespace Axon.ToolsJson

open Axon Axon.Hex Axon.Block

/-- A JSON value; numbers are natural. -/
inductive J where
  | str (t : Text)
  | num (n : Nat)
  | arr (l : List J)
  | obj (l : List (String × J))

/-! ## Reading of texts -/

/-- Hex digits of either case. -/
def isHex (c : UInt8) : Bool := (digitVal c).isSome

/-- The value of hex digits, most significant first, from `a` on. -/
def hexFrom : Nat → Text → Nat
  | a, [] => a
  | a, c :: r => hexFrom (16 * a + (digitVal c).getD 0) r

/-- The text from here on starts at a character (`str::is_char_boundary`). -/
def boundary : Text → Bool
  | [] => true
  | c :: _ => !(0x80 ≤ c.toNat && c.toNat < 0xc0)

/-- `u8::from_str_radix(_, 16)` for texts of one or two bytes: a leading `+` is allowed. -/
def radixByte : Text → Option Nat
  | [c] => if c = 0x2b then none else digitVal c
  | [a, b] => if a = 0x2b then digitVal b else
      (digitVal a).bind fun x => (digitVal b).map fun y => 16 * x + y
  | _ => none

/-- The loop of devtools/axon-tools/src/types.rs:649-654; slicing within a character panics. -/
def pairs : Text → Outcome Bytes
  | [] => .ok []
  | [_] => .err
  | a :: b :: r =>
    if boundary r then
      (Outcome.ofOption (radixByte [a, b])).bind fun v =>
      (pairs r).bind fun t => .ok (UInt8.ofNat v :: t)
    else .panic

/-- devtools/axon-tools/src/types.rs:638-657 `from_hex`. -/
def fromHex (t : Text) : Outcome Bytes :=
  if t.length % 2 = 0 then pairs t
  else
    match t with
    | [] => .ok []
    | c :: r =>
      if boundary r then
        (Outcome.ofOption (radixByte [c])).bind fun v =>
        (pairs r).bind fun t => .ok (UInt8.ofNat v :: t)
      else .panic

/-- devtools/axon-tools/src/types.rs:659-693 `deserialize_hex_u32`, `deserialize_hex_u64`:
`U256::from_big_endian` panics beyond 32 bytes, and `low_u64` drops the upper bits. -/
def hexUint (bits : Nat) : J → Outcome (UIntN bits)
  | .str s =>
    if s = pfx ++ [0x30] then .ok ⟨0, Nat.two_pow_pos bits⟩
    else if s.length ≥ 2 then
      if boundary (s.drop 2) then
        if s.take 2 = pfx then
          (fromHex (s.drop 2)).bind fun bytes =>
          if bytes.length > 32 then .panic
          else .ok ⟨beNat bytes % 2 ^ bits, Nat.mod_lt _ (Nat.two_pow_pos bits)⟩
        else .err
      else .panic
    else .err
  | _ => .err

/-- `Deserialize for U64` of ethereum_types: `0x` and up to 16 digits (white space, which impl-serde
skips, is left out). -/
def ethUint (bits : Nat) : J → Outcome (UIntN bits)
  | .str s =>
    if pfx.isPrefixOf s then
      if (s.drop 2).all isHex && (s.drop 2).length ≤ bits / 4 then
        if h : hexFrom 0 (s.drop 2) < 2 ^ bits then .ok ⟨_, h⟩ else .err
      else .err
    else .err
  | _ => .err

/-- `Deserialize` for `H160`, `H256`, `Bloom` of ethereum_types. -/
def ethFixed (n : Nat) : J → Outcome (FixedBytes n)
  | .str s =>
    if pfx.isPrefixOf s then
      Outcome.ofOption ((decodePairs (s.drop 2)).bind (FixedBytes.ofBytes n))
    else .err
  | _ => .err

/-- No upper case digit. -/
def lowerOnly (t : Text) : Bool := t.all fun c => !(0x41 ≤ c.toNat && c.toNat ≤ 0x46)

/-- `faster_hex::withpfx_lowercase::deserialize`. -/
def lowerBytes : J → Outcome Bytes
  | .str s =>
    if pfx.isPrefixOf s && lowerOnly (s.drop 2) then Outcome.ofOption (decodePairs (s.drop 2)) else .err
  | _ => .err

/-- `Deserialize for Hex`, devtools/axon-tools/src/types.rs:93-104, 122-131. -/
def hexField : J → Outcome Bytes
  | .str s => Outcome.ofOption (fromStr s)
  | _ => .err

/-- `Deserialize for BlockVersion` (derived): the name of the variant. -/
def version : J → Outcome Unit
  | .str s => if s = [0x56, 0x30] then .ok () else .err
  | _ => .err

/-- A list (`Vec`). -/
def readAll {α : Type} (r : J → Outcome α) : List J → Outcome (List α)
  | [] => .ok []
  | x :: l => (r x).bind fun a => (readAll r l).bind fun t => .ok (a :: t)

def readList {α : Type} (r : J → Outcome α) : J → Outcome (List α)
  | .arr l => readAll r l
  | _ => .err

/-- Derived code for a required field: missing and repeated fields are errors, unknown ones are
ignored.  Simplified: fields are read in declaration order instead of the order of the text. -/
def req {α : Type} (l : List (String × J)) (k : String) (r : J → Outcome α) : Outcome α :=
  match l.filter (fun e => e.1 == k) with
  | [e] => r e.2
  | _ => .err

/-- Derived code for a struct. -/
def struct {α : Type} (f : List (String × J) → Outcome α) : J → Outcome α
  | .obj l => f l
  | _ => .err

/-! ## What the node writes -/

/-- `serialize_uint`, protocol/src/codec/mod.rs:93-110; also what `U64` of ethereum_types writes. -/
def jUint {bits : Nat} (x : UIntN bits) : J := .str (serializeUint x.val)

/-- `H160`, `H256`, `Bloom` of ethereum_types; `withpfx_lowercase::serialize` for bytes. -/
def jBytes (b : Bytes) : J := .str (pfx ++ hexEncode b)

def jFixed {n : Nat} (b : FixedBytes n) : J := jBytes b.bytes

/-- The derived serialiser of `BlockVersion`, protocol/src/types/block.rs. -/
def jVersion : J := .str [0x56, 0x30]

/-- `ExtraData`, protocol/src/types/block.rs:318-324. -/
def jExtra (b : Bytes) : J := .obj [("inner", jBytes b)]

/-- `Proof`, protocol/src/types/block.rs:349-366; one field is renamed. -/
def jProof (p : Proof) : J :=
  .obj [("number", jUint p.number), ("round", jUint p.round), ("proposal_hash", jFixed p.blockHash),
    ("signature", jBytes p.signature), ("bitmap", jBytes p.bitmap)]

/-- `Header`, protocol/src/types/block.rs:268-293. -/
def jHeader (h : Header) : J :=
  .obj [("version", jVersion), ("prev_hash", jFixed h.prevHash), ("proposer", jFixed h.proposer),
    ("state_root", jFixed h.stateRoot), ("transactions_root", jFixed h.transactionsRoot),
    ("signed_txs_hash", jFixed h.signedTxsHash), ("receipts_root", jFixed h.receiptsRoot),
    ("log_bloom", jFixed h.logBloom), ("timestamp", jUint h.timestamp), ("number", jUint h.number),
    ("gas_used", jUint h.gasUsed), ("gas_limit", jUint h.gasLimit),
    ("extra_data", .arr (h.extraData.map jExtra)), ("base_fee_per_gas", jUint h.baseFeePerGas),
    ("proof", jProof h.proof), ("call_system_script_count", jUint h.callSystemScriptCount),
    ("chain_id", jUint h.chainId)]

/-- `Block`, protocol/src/types/block.rs. -/
def jBlock (b : Block.Block) : J :=
  .obj [("header", jHeader b.header), ("tx_hashes", .arr (b.txHashes.map jFixed))]

/-- `Proposal`, protocol/src/types/block.rs:64-85. -/
def jProposal (p : Proposal) : J :=
  .obj [("version", jVersion), ("prev_hash", jFixed p.prevHash), ("proposer", jFixed p.proposer),
    ("prev_state_root", jFixed p.prevStateRoot), ("transactions_root", jFixed p.transactionsRoot),
    ("signed_txs_hash", jFixed p.signedTxsHash), ("timestamp", jUint p.timestamp),
    ("number", jUint p.number), ("gas_limit", jUint p.gasLimit),
    ("extra_data", .arr (p.extraData.map jExtra)), ("base_fee_per_gas", jUint p.baseFeePerGas),
    ("proof", jProof p.proof), ("chain_id", jUint p.chainId),
    ("call_system_script_count", jUint p.callSystemScriptCount),
    ("tx_hashes", .arr (p.txHashes.map jFixed))]

/-- `MetadataVersion`, protocol/src/types/primitive.rs:285-293. -/
structure Version where
  start : U64
  stop : U64
deriving DecidableEq

/-- `ValidatorExtend`, protocol/src/types/primitive.rs:525-549. -/
structure Validator where
  blsPubKey : Bytes
  pubKey : Bytes
  address : H160
  proposeWeight : U32
  voteWeight : U32
deriving DecidableEq

/-- `ConsensusConfig`, protocol/src/types/primitive.rs:419-441, without its last field; this is
`ConsensusConfig` of axon-tools (types.rs:447-495). -/
structure Ratios where
  gasLimit : U64
  interval : U64
  proposeRatio : U64
  prevoteRatio : U64
  precommitRatio : U64
  brakeRatio : U64
  txNumLimit : U64
  maxTxSize : U64
deriving DecidableEq

/-- `Metadata` of the node, protocol/src/types/primitive.rs:324-334. -/
structure Metadata where
  version : Version
  epoch : U64
  verifiers : List Validator
  counter : List (H160 × U64)
  ratios : Ratios
  maxContractLimit : U64
deriving DecidableEq

/-- `Metadata` of axon-tools, types.rs:425-439: no `max_contract_limit`. -/
structure ToolsMetadata where
  version : Version
  epoch : U64
  verifiers : List Validator
  counter : List (H160 × U64)
  ratios : Ratios
deriving DecidableEq

def jVersionRange (v : Version) : J := .obj [("start", jUint v.start), ("end", jUint v.stop)]

def jValidator (v : Validator) : J :=
  .obj [("bls_pub_key", jBytes v.blsPubKey), ("pub_key", jBytes v.pubKey), ("address", jFixed v.address),
    ("propose_weight", jUint v.proposeWeight), ("vote_weight", jUint v.voteWeight)]

def jCount (c : H160 × U64) : J := .obj [("address", jFixed c.1), ("count", jUint c.2)]

def jConfig (r : Ratios) (maxContractLimit : U64) : J :=
  .obj [("gas_limit", jUint r.gasLimit), ("interval", jUint r.interval),
    ("propose_ratio", jUint r.proposeRatio), ("prevote_ratio", jUint r.prevoteRatio),
    ("precommit_ratio", jUint r.precommitRatio), ("brake_ratio", jUint r.brakeRatio),
    ("tx_num_limit", jUint r.txNumLimit), ("max_tx_size", jUint r.maxTxSize),
    ("max_contract_limit", jUint maxContractLimit)]

def jMetadata (m : Metadata) : J :=
  .obj [("version", jVersionRange m.version), ("epoch", jUint m.epoch),
    ("verifier_list", .arr (m.verifiers.map jValidator)),
    ("propose_counter", .arr (m.counter.map jCount)),
    ("consensus_config", jConfig m.ratios m.maxContractLimit)]

/-! ## What axon-tools reads -/

/-- devtools/axon-tools/src/types.rs:163-178 -/
def readExtra : J → Outcome Bytes := struct fun l => req l "inner" lowerBytes

/-- devtools/axon-tools/src/types.rs:290-334 -/
def readProof : J → Outcome Proof := struct fun l =>
  (req l "number" (hexUint 64)).bind fun number =>
  (req l "round" (hexUint 64)).bind fun round =>
  (req l "proposal_hash" (ethFixed 32)).bind fun blockHash =>
  (req l "signature" lowerBytes).bind fun signature =>
  (req l "bitmap" lowerBytes).bind fun bitmap =>
  .ok { number, round, blockHash, signature, bitmap }

/-- devtools/axon-tools/src/types.rs:181-236 -/
def readHeader : J → Outcome Header := struct fun l =>
  (req l "version" version).bind fun _ =>
  (req l "prev_hash" (ethFixed 32)).bind fun prevHash =>
  (req l "proposer" (ethFixed 20)).bind fun proposer =>
  (req l "state_root" (ethFixed 32)).bind fun stateRoot =>
  (req l "transactions_root" (ethFixed 32)).bind fun transactionsRoot =>
  (req l "signed_txs_hash" (ethFixed 32)).bind fun signedTxsHash =>
  (req l "receipts_root" (ethFixed 32)).bind fun receiptsRoot =>
  (req l "log_bloom" (ethFixed 256)).bind fun logBloom =>
  (req l "timestamp" (hexUint 64)).bind fun timestamp =>
  (req l "number" (hexUint 64)).bind fun number =>
  (req l "gas_used" (ethUint 64)).bind fun gasUsed =>
  (req l "gas_limit" (ethUint 64)).bind fun gasLimit =>
  (req l "extra_data" (readList readExtra)).bind fun extraData =>
  (req l "base_fee_per_gas" (ethUint 64)).bind fun baseFeePerGas =>
  (req l "proof" readProof).bind fun proof =>
  (req l "call_system_script_count" (hexUint 32)).bind fun callSystemScriptCount =>
  (req l "chain_id" (hexUint 64)).bind fun chainId =>
  .ok { prevHash, proposer, stateRoot, transactionsRoot, signedTxsHash, receiptsRoot, logBloom,
        timestamp, number, gasUsed, gasLimit, extraData, baseFeePerGas, proof,
        callSystemScriptCount, chainId }

/-- devtools/axon-tools/src/types.rs:238-248 -/
def readBlock : J → Outcome Block.Block := struct fun l =>
  (req l "header" readHeader).bind fun header =>
  (req l "tx_hashes" (readList (ethFixed 32))).bind fun txHashes =>
  .ok { header, txHashes }

/-- devtools/axon-tools/src/types.rs:250-288 -/
def readProposal : J → Outcome Proposal := struct fun l =>
  (req l "version" version).bind fun _ =>
  (req l "prev_hash" (ethFixed 32)).bind fun prevHash =>
  (req l "proposer" (ethFixed 20)).bind fun proposer =>
  (req l "prev_state_root" (ethFixed 32)).bind fun prevStateRoot =>
  (req l "transactions_root" (ethFixed 32)).bind fun transactionsRoot =>
  (req l "signed_txs_hash" (ethFixed 32)).bind fun signedTxsHash =>
  (req l "timestamp" (hexUint 64)).bind fun timestamp =>
  (req l "number" (hexUint 64)).bind fun number =>
  (req l "gas_limit" (ethUint 64)).bind fun gasLimit =>
  (req l "extra_data" (readList readExtra)).bind fun extraData =>
  (req l "base_fee_per_gas" (ethUint 64)).bind fun baseFeePerGas =>
  (req l "proof" readProof).bind fun proof =>
  (req l "chain_id" (hexUint 64)).bind fun chainId =>
  (req l "call_system_script_count" (hexUint 32)).bind fun callSystemScriptCount =>
  (req l "tx_hashes" (readList (ethFixed 32))).bind fun txHashes =>
  .ok { prevHash, proposer, prevStateRoot, transactionsRoot, signedTxsHash, timestamp, number,
        gasLimit, extraData, baseFeePerGas, proof, chainId, callSystemScriptCount, txHashes }

/-- devtools/axon-tools/src/types.rs:386-403 -/
def readVersion : J → Outcome Version := struct fun l =>
  (req l "start" (hexUint 64)).bind fun start =>
  (req l "end" (hexUint 64)).bind fun stop => .ok { start, stop }

/-- devtools/axon-tools/src/types.rs:509-532 -/
def readValidator : J → Outcome Validator := struct fun l =>
  (req l "bls_pub_key" hexField).bind fun blsPubKey =>
  (req l "pub_key" hexField).bind fun pubKey =>
  (req l "address" (ethFixed 20)).bind fun address =>
  (req l "propose_weight" (hexUint 32)).bind fun proposeWeight =>
  (req l "vote_weight" (hexUint 32)).bind fun voteWeight =>
  .ok { blsPubKey, pubKey, address, proposeWeight, voteWeight }

/-- devtools/axon-tools/src/types.rs:441-495 -/
def readConfig : J → Outcome Ratios := struct fun l =>
  (req l "gas_limit" (hexUint 64)).bind fun gasLimit =>
  (req l "interval" (hexUint 64)).bind fun interval =>
  (req l "propose_ratio" (hexUint 64)).bind fun proposeRatio =>
  (req l "prevote_ratio" (hexUint 64)).bind fun prevoteRatio =>
  (req l "precommit_ratio" (hexUint 64)).bind fun precommitRatio =>
  (req l "brake_ratio" (hexUint 64)).bind fun brakeRatio =>
  (req l "tx_num_limit" (hexUint 64)).bind fun txNumLimit =>
  (req l "max_tx_size" (hexUint 64)).bind fun maxTxSize =>
  .ok { gasLimit, interval, proposeRatio, prevoteRatio, precommitRatio, brakeRatio, txNumLimit,
        maxTxSize }

/-- devtools/axon-tools/src/types.rs:415-439: `propose_counter` is skipped. -/
def readMetadata : J → Outcome ToolsMetadata := struct fun l =>
  (req l "version" readVersion).bind fun version =>
  (req l "epoch" (hexUint 64)).bind fun epoch =>
  (req l "verifier_list" (readList readValidator)).bind fun verifiers =>
  (req l "consensus_config" readConfig).bind fun ratios =>
  .ok { version, epoch, verifiers, counter := [], ratios }

/-! ## Reading back what one wrote -/

/-- The derived `Deserialize` of a `u64` or `u32`: a number; texts are refused. -/
def numUint (bits : Nat) : J → Outcome (UIntN bits)
  | .num n => Outcome.ofOption (UIntN.ofNat? bits n)
  | _ => .err

/-- protocol/src/types/primitive.rs:285-293, derived `Deserialize`: only the serialiser is replaced. -/
def nodeReadVersion : J → Outcome Version := struct fun l =>
  (req l "start" (numUint 64)).bind fun start =>
  (req l "end" (numUint 64)).bind fun stop => .ok { start, stop }

/-- protocol/src/types/block.rs:349-366, derived `Deserialize`.  `bytes` stands for the one of
`Bytes`. -/
def nodeReadProof (bytes : J → Outcome Bytes) : J → Outcome Proof := struct fun l =>
  (req l "number" (numUint 64)).bind fun number =>
  (req l "round" (numUint 64)).bind fun round =>
  (req l "proposal_hash" (ethFixed 32)).bind fun blockHash =>
  (req l "signature" bytes).bind fun signature =>
  (req l "bitmap" bytes).bind fun bitmap =>
  .ok { number, round, blockHash, signature, bitmap }

/-- devtools/axon-tools/src/types.rs:386-403, derived `Serialize`: only the deserialiser is
replaced. -/
def toolsVersionJson (v : Version) : J := .obj [("start", .num v.start.val), ("end", .num v.stop.val)]

/-- devtools/axon-tools/src/types.rs:415-439, derived `Serialize`, up to the fields after the
epoch. -/
def toolsMetadataJson (m : ToolsMetadata) (rest : List (String × J)) : J :=
  .obj ([("version", toolsVersionJson m.version), ("epoch", .num m.epoch.val)] ++ rest)

/-- devtools/axon-tools/src/types.rs:295-334, `Serialize` of `Proof`. -/
def toolsProofJson (p : Proof) : J := jProof p

end Axon.ToolsJson
