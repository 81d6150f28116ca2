import Verif.Metadata.Store
import Verif.Trie.Lists

/-!
# The metadata trie and its records

The values of the metadata trie with all their fields and their RLP form
(`protocol/src/types/primitive.rs:270-280, 371-377, 470-497, 526-547, 602-648`, codecs derived by `rlp_derive`
and `protocol/src/codec/mod.rs:61-72`), and `MetadataStore`
(`core/executor/src/system_contract/metadata/store.rs`) working on a Merkle-Patricia trie of bytes.
-/

namespace Axon.MetaTrie
open Axon.Rlp Axon.Block Axon.Meta

/-! ## Records -/

/-- `ValidatorExtend`, `primitive.rs:536-547` -/
structure Validator where
  bls : Bytes
  pub : Bytes
  address : H160
  propose : U32
  vote : U32
deriving DecidableEq

/-- `ProposeCount`, `primitive.rs:470-475` -/
structure Count where
  address : H160
  count : U64
deriving DecidableEq

/-- `MetadataInner`, `primitive.rs:371-377`, with the two numbers of its `MetadataVersion` (270-280). -/
structure Record where
  start : U64
  last : U64
  epoch : U64
  verifiers : List Validator
  counter : List Count
deriving DecidableEq

/-- `CkbRelatedInfo`, `primitive.rs:602-610` -/
structure CkbInfo where
  metadataTypeId : H256
  checkpointTypeId : H256
  xudtArgs : H256
  stakeSmtTypeId : H256
  delegateSmtTypeId : H256
  rewardSmtTypeId : H256
deriving DecidableEq

/-- `HardforkInfoInner`, `primitive.rs:644-648` -/
structure Fork where
  number : U64
  flags : H256
deriving DecidableEq

/-- `Encodable for Hex`, `codec/mod.rs:61-65`: a list of one string. -/
def hexItem (b : Bytes) : Item := .list [.str b]

/-- `Decodable for Hex`, `codec/mod.rs:67-72`: further elements are ignored. -/
def itemHex : Item → Option Bytes
  | .list l => valAt l 0 toBytes
  | .str _ => none

/-- `Rlp::list_at`: a string counts as an empty list. -/
def toVec {α : Type} (f : Item → Option α) : Item → Option (List α)
  | .str _ => some []
  | .list l => l.mapM f

/-- Derived encoding of `ValidatorExtend`. -/
def validatorItem (v : Validator) : Item :=
  .list [hexItem v.bls, hexItem v.pub, ofFixed v.address, ofUint v.propose, ofUint v.vote]

/-- Derived decoding of `ValidatorExtend`: fields by position. -/
def itemValidator : Item → Option Validator
  | .list l => do
    let bls ← valAt l 0 itemHex
    let pub ← valAt l 1 itemHex
    let address ← valAt l 2 (toFixed 20)
    let propose ← valAt l 3 (toUint 32)
    let vote ← valAt l 4 (toUint 32)
    pure { bls, pub, address, propose, vote }
  | .str _ => none

/-- Derived encoding of `ProposeCount`. -/
def countItem (c : Count) : Item := .list [ofFixed c.address, ofUint c.count]

/-- Derived decoding of `ProposeCount`. -/
def itemCount : Item → Option Count
  | .list l => do
    let address ← valAt l 0 (toFixed 20)
    let count ← valAt l 1 (toUint 64)
    pure { address, count }
  | .str _ => none

/-- Derived encoding of `MetadataVersion`, `primitive.rs:267-275`. -/
def versionItem (start last : U64) : Item := .list [ofUint start, ofUint last]

/-- Derived decoding of `MetadataVersion`. -/
def itemVersion : Item → Option (U64 × U64)
  | .list l => do
    let start ← valAt l 0 (toUint 64)
    let last ← valAt l 1 (toUint 64)
    pure (start, last)
  | .str _ => none

/-- Derived encoding of `MetadataInner`. -/
def recordItem (r : Record) : Item :=
  .list [versionItem r.start r.last, ofUint r.epoch, .list (r.verifiers.map validatorItem),
    .list (r.counter.map countItem)]

/-- Derived decoding of `MetadataInner`. -/
def itemRecord : Item → Option Record
  | .list l => do
    let version ← valAt l 0 itemVersion
    let epoch ← valAt l 1 (toUint 64)
    let verifiers ← valAt l 2 (toVec itemValidator)
    let counter ← valAt l 3 (toVec itemCount)
    pure ⟨version.1, version.2, epoch, verifiers, counter⟩
  | .str _ => none

/-- Derived encoding of `CkbRelatedInfo`. -/
def ckbItem (c : CkbInfo) : Item :=
  .list [ofFixed c.metadataTypeId, ofFixed c.checkpointTypeId, ofFixed c.xudtArgs, ofFixed c.stakeSmtTypeId,
    ofFixed c.delegateSmtTypeId, ofFixed c.rewardSmtTypeId]

/-- Derived decoding of `CkbRelatedInfo`. -/
def itemCkb : Item → Option CkbInfo
  | .list l => do
    let metadataTypeId ← valAt l 0 (toFixed 32)
    let checkpointTypeId ← valAt l 1 (toFixed 32)
    let xudtArgs ← valAt l 2 (toFixed 32)
    let stakeSmtTypeId ← valAt l 3 (toFixed 32)
    let delegateSmtTypeId ← valAt l 4 (toFixed 32)
    let rewardSmtTypeId ← valAt l 5 (toFixed 32)
    pure { metadataTypeId, checkpointTypeId, xudtArgs, stakeSmtTypeId, delegateSmtTypeId, rewardSmtTypeId }
  | .str _ => none

/-- Derived encoding of `HardforkInfoInner`. -/
def forkItem (f : Fork) : Item := .list [ofUint f.number, ofFixed f.flags]

/-- Derived decoding of `HardforkInfoInner`. -/
def itemFork : Item → Option Fork
  | .list l => do
    let number ← valAt l 0 (toUint 64)
    let flags ← valAt l 1 (toFixed 32)
    pure { number, flags }
  | .str _ => none

/-- Derived encoding of `HardforkInfo`: a structure with one field, the list. -/
def forksItem (l : List Fork) : Item := .list [.list (l.map forkItem)]

/-- Derived decoding of `HardforkInfo`. -/
def itemForks : Item → Option (List Fork)
  | .list l => valAt l 0 (toVec itemFork)
  | .str _ => none

/-- `ProtocolCodec::decode`, `codec/mod.rs:29-32`: a failure is an error. -/
def decodeWith {α : Type} (f : Item → Option α) (b : Bytes) : Outcome α := .ofOption ((decode b).bind f)

/-! ## The store -/

/-- `EPOCH_SEGMENT_KEY`, `CKB_RELATED_INFO_KEY`, `CONSENSUS_CONFIG`, `HARDFORK_KEY`, `mod.rs:33-36`: digests
of four words. -/
structure Keys where
  seg : H256
  ckb : H256
  config : H256
  forks : H256

/-- `epoch.to_be_bytes()`, `store.rs:127, 152, 174` -/
def epochKey (e : Nat) : Bytes := beFixed 8 e

/-- What the model takes as given: the hash by which `MPTTrie` places keys
(`adapter/trie/wrapped.rs:12-22`) and the four keys. -/
structure Env where
  H : Bytes → Bytes
  keys : Keys

/-- `MetadataStore` (`store.rs:43-45`) at the current root, with the process-wide `HARDFORK_INFO`
(`mod.rs:37`).  The trie is held in memory; that reopening it by its root gives it back is the business of the
trie database. -/
structure TStore where
  trie : Trie.Node
  current : H256

/-- `self.trie.get` -/
def TStore.look (E : Env) (t : TStore) (k : Bytes) : Option Bytes := Trie.mptGet E.H t.trie k

/-- `self.trie.insert` -/
def TStore.write (E : Env) (t : TStore) (k v : Bytes) : TStore :=
  { t with trie := Trie.mptInsert E.H t.trie k v }

/-- `MetadataStore::new` for the zero root, `store.rs:57-63`: the new segment is inserted. -/
def TStore.init (E : Env) : TStore :=
  TStore.write E ⟨.empty, zeroH⟩ E.keys.seg.bytes (asBytes segNew)

/-- `get_epoch_segment`, `store.rs:160-163`; a missing segment is an `unwrap`. -/
def getSeg (E : Env) (t : TStore) : Outcome Segment :=
  (Outcome.orPanic (t.look E E.keys.seg.bytes)).bind fun raw => .ofOption (fromRaw raw)

/-- `Metadata`, `primitive.rs:324-335`, as submitted: the propose counter of the argument is replaced. -/
structure Submitted where
  start : U64
  last : U64
  epoch : U64
  verifiers : List Validator
  config : Config

/-- An address as a number: the order of `BTreeMap<H160, _>` is that of the bytes. -/
def addr (a : H160) : Nat := beNat a.bytes

/-- `BTreeMap::insert` with a zero. -/
def cput (a : H160) : List Count → List Count
  | [] => [⟨a, ⟨0, by decide⟩⟩]
  | c :: l =>
    if addr a < addr c.address then ⟨a, ⟨0, by decide⟩⟩ :: c :: l
    else if addr a = addr c.address then ⟨a, ⟨0, by decide⟩⟩ :: l
    else c :: cput a l

/-- The propose counter of new metadata, `store.rs:106-113`. -/
def zeroCounts (l : List Validator) : List Count := l.foldl (fun m v => cput v.address m) []

/-- `append_metadata`, `store.rs:84-133` -/
def append (E : Env) (t : TStore) (m : Submitted) : Outcome TStore :=
  (getSeg E t).bind fun seg =>
  if (isEmpty seg = true ∧ m.epoch.val ≠ 0) ∨
      (isEmpty seg = false ∧ m.epoch.val ≠ latestEpoch seg + 1) then .err
  else
    (lastBlock seg).bind fun l =>
    if l + 1 ≥ 2 ^ 64 then .panic
    else if m.start.val ≠ l + 1 ∧ m.epoch.val ≠ 0 then .err
    else
      (appendEndpoint seg m.last.val).bind fun seg' =>
      .ok (((t.write E E.keys.seg.bytes (asBytes seg')).write E (epochKey m.epoch.val)
        (encode (recordItem ⟨m.start, m.last, m.epoch, m.verifiers, zeroCounts m.verifiers⟩))).write E
        E.keys.config.bytes (encodeConfig t.current m.config))

/-- `get_metadata_inner`, `store.rs:171-177` -/
def getRecord (E : Env) (t : TStore) (e : Nat) : Outcome Record :=
  (Outcome.ofOption (t.look E (epochKey e))).bind (decodeWith itemRecord)

/-- `get_consensus_config`, `store.rs:179-186` -/
def getConfig (E : Env) (t : TStore) : Outcome Config :=
  (Outcome.orPanic (t.look E E.keys.config.bytes)).bind decodeConfig

/-- `get_metadata`, `store.rs:165-169` -/
def getMetadata (E : Env) (t : TStore) (e : Nat) : Outcome (Record × Config) :=
  (getRecord E t e).bind fun r => (getConfig E t).bind fun c => .ok (r, c)

/-- `get_epoch_by_block_number`, `store.rs:212-214` -/
def epochByBlock (E : Env) (t : TStore) (n : Nat) : Outcome Nat :=
  (getSeg E t).bind fun seg => .ofOption (epochOf seg n)

/-- `MetadataHandle::get_metadata_by_block_number`, `handle.rs:20-31` -/
def metadataAt (E : Env) (t : TStore) (n : Nat) : Outcome (Record × Config) :=
  if n = 0 then getMetadata E t 0 else (epochByBlock E t n).bind fun e => getMetadata E t e

/-- `is_validator`, `handle.rs:44-47` -/
def isValidator (E : Env) (t : TStore) (n : Nat) (a : H160) : Outcome Bool :=
  (metadataAt E t n).bind fun m => .ok (m.1.verifiers.any fun v => v.address = a)

/-- `get_ckb_related_info`, `store.rs:193-199` -/
def getCkb (E : Env) (t : TStore) : Outcome CkbInfo :=
  (Outcome.ofOption (t.look E E.keys.ckb.bytes)).bind (decodeWith itemCkb)

/-- The counter of the first matching address goes up, `store.rs:142-148` with `primitive.rs:478-482`;
`none` is the overflow of `u64`. -/
def bumpCount (a : H160) : List Count → Option (List Count)
  | [] => some []
  | c :: l =>
    if c.address = a then (UIntN.ofNat? 64 (c.count.val + 1)).map fun n => { c with count := n } :: l
    else (bumpCount a l).map (c :: ·)

/-- `update_propose_count`, `store.rs:135-158` -/
def updateCount (E : Env) (t : TStore) (n : Nat) (a : H160) : Outcome TStore :=
  (epochByBlock E t n).bind fun e =>
  (getRecord E t e).bind fun r =>
  (Outcome.orPanic (bumpCount a r.counter)).bind fun c =>
  .ok (t.write E (epochKey r.epoch.val) (encode (recordItem { r with counter := c })))

/-- `HardforkInfo::push`, `primitive.rs:620-636` -/
def pushFork (l : List Fork) (f : Fork) : List Fork :=
  match l.getLast? with
  | none => [f]
  | some i =>
    let flags := orH f.flags i.flags
    if flags = i.flags ∨ f.number.val < i.number.val then l
    else if i.number = f.number then l.dropLast ++ [{ i with flags := flags }]
    else l ++ [⟨f.number, flags⟩]

/-- `hardfork_infos`, `store.rs:263-268` -/
def getForks (E : Env) (t : TStore) : Outcome (List Fork) :=
  match t.look E E.keys.forks.bytes with
  | some raw => decodeWith itemForks raw
  | none => .ok []

/-- `set_hardfork_info`, `store.rs:216-244` -/
def setFork (E : Env) (t : TStore) (f : Fork) : Outcome TStore :=
  match t.look E E.keys.forks.bytes with
  | some raw => (decodeWith itemForks raw).bind fun l =>
      .ok (t.write E E.keys.forks.bytes (encode (forksItem (pushFork l f))))
  | none => .ok (t.write E E.keys.forks.bytes (encode (forksItem [f])))

/-- The loop of `hardfork_info`, `store.rs:251-257` -/
def forkIn (l : List Fork) (n : Nat) : H256 :=
  match l.reverse.find? (fun f => decide (¬ f.number.val > n)) with
  | some f => f.flags
  | none => zeroH

/-- `hardfork_info`, `store.rs:246-261` -/
def forkAt (E : Env) (t : TStore) (n : Nat) : Outcome H256 :=
  match t.look E E.keys.forks.bytes with
  | some raw => (decodeWith itemForks raw).bind fun l => .ok (forkIn l n)
  | none => .ok zeroH

/-- The hardfork entry of the block's extra data, `mod.rs:119-125`: the first entry, if it decodes. -/
def extraFork (extra : List Bytes) : Option Fork := extra.head?.bind fun b => (decode b).bind itemFork

/-- An error at an `unwrap` or `expect`. -/
def unwrap {α : Type} : Outcome α → Outcome α
  | .ok a => .ok a
  | _ => .panic

/-- `after_block_hook`, `mod.rs:109-137` -/
def hook (E : Env) (t : TStore) (n : Nat) (extra : List Bytes) (origin : H160) : Outcome TStore :=
  if n = 0 then .ok t
  else
    (match extraFork extra with
      | some f => unwrap (setFork E t f)
      | none => .ok t).bind fun t =>
    (unwrap (forkAt E t n)).bind fun flags =>
    unwrap (updateCount E { t with current := flags } n origin)

/-- The calls of the metadata contract, `mod.rs:80-102` -/
inductive Call where
  | append (m : Submitted)
  | ckb (info : CkbInfo)
  | config (c : Config)

/-- `append_metadata`, `set_ckb_related_info` (`store.rs:74-82`), `update_consensus_config`
(`store.rs:201-210`) -/
def runCall (E : Env) (t : TStore) : Call → Outcome TStore
  | .append m => append E t m
  | .ckb i => .ok (t.write E E.keys.ckb.bytes (encode (ckbItem i)))
  | .config c => .ok (t.write E E.keys.config.bytes (encodeConfig t.current c))

/-- `exec_`, `mod.rs:48-107`, without gas and nonce: the new store and whether the call succeeded;
`call = none`: the call data does not decode. -/
def exec (E : Env) (t : TStore) (block : Nat) (sender : H160) (call : Option Call) : Outcome (TStore × Bool) :=
  match (if block = 0 then .ok true else isValidator E t block sender) with
  | .panic => .panic
  | .err => .ok (t, false)
  | .ok false => .ok (t, false)
  | .ok true =>
    match call with
    | none => .ok (t, false)
    | some c =>
      match runCall E t c with
      | .ok t' => .ok (t', true)
      | .err => .ok (t, false)
      | .panic => .panic

/-- What happens to the store: a metadata transaction, or the end of a block with its extra data, its proposer
and the senders of its transactions. -/
inductive Op where
  | tx (block : Nat) (sender : H160) (call : Option Call)
  | endBlock (n : Nat) (extra : List Bytes) (proposer : H160) (senders : List H160)

/-- Effect of an operation and, for a transaction, whether it succeeded; the hook sees the last sender as
origin (`core/executor/src/lib.rs:150`). -/
def step (E : Env) (t : TStore) : Op → Outcome (TStore × Bool)
  | .tx b a c => exec E t b a c
  | .endBlock n x p l => (hook E t n x (l.getLast?.getD p)).bind fun t' => .ok (t', true)

/-! ## Codecs -/

theorem toVec_map {α : Type} (f : Item → Option α) (g : α → Item) (h : ∀ x, f (g x) = some x) (l : List α) :
    toVec f (.list (l.map g)) = some l := mapM_map_of_inverse f g h l

theorem itemHex_hexItem (b : Bytes) : itemHex (hexItem b) = some b := rfl

theorem itemValidator_item (v : Validator) : itemValidator (validatorItem v) = some v := by
  simp [itemValidator, validatorItem, valAt, itemHex_hexItem]

theorem itemCount_item (c : Count) : itemCount (countItem c) = some c := by
  simp [itemCount, countItem, valAt]

theorem itemRecord_item (r : Record) : itemRecord (recordItem r) = some r := by
  simp [itemRecord, recordItem, valAt, itemVersion, versionItem, toVec_map _ _ itemValidator_item,
    toVec_map _ _ itemCount_item]

theorem itemCkb_item (c : CkbInfo) : itemCkb (ckbItem c) = some c := by
  simp [itemCkb, ckbItem, valAt]

theorem itemFork_item (f : Fork) : itemFork (forkItem f) = some f := by
  simp [itemFork, forkItem, valAt]

theorem itemForks_item (l : List Fork) : itemForks (forksItem l) = some l := by
  simp [itemForks, forksItem, valAt, toVec_map _ _ itemFork_item]

theorem decodeWith_encode {α : Type} {f : Item → Option α} {x : Item} {a : α} (h : f x = some a)
    (hl : (encode x).length < 2 ^ 64) : decodeWith f (encode x) = .ok a := by
  unfold decodeWith
  rw [decode_encode_item x hl]
  simp [h, Outcome.ofOption]

theorem encode_ne (x : Item) : encode x ≠ [] := by
  intro h
  have := encode_length_pos x
  rw [h] at this
  simp at this

end Axon.MetaTrie
