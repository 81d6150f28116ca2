import Verif.Codec.Fields
import Verif.Util.Assoc
import Verif.Util.Outcome

/-!
# The executor's view of the chain state

Model of `core/executor/src/adapter/backend/apply.rs`, `core/executor/src/adapter/backend/read_only.rs`
and `core/executor/src/adapter/trie/wrapped.rs`.

* The state trie and every storage trie are finite maps.  `MPTTrie` hashes its keys before use
  (`wrapped.rs:13-43`); distinct keys are assumed to stay distinct.
* `Env.rootOf` stands for the Merkle-Patricia root of a map and `Env.digest` for Keccak-256.  Hashes have
  an abstract type `H`, so that "different contents have different hashes" (`Env.Good`) is a consistent
  assumption; for 32-byte hashes it holds only computationally.
* The trie database keeps every committed trie (`RocksTrieDB::remove` and `remove_batch` do nothing,
  `adapter/trie/db.rs:111-117`).
* An account is stored as the structure itself; its RLP encoding is derived in a dependency
  (`ethereum::Account`).  Storage values are stored as bytes, as in the code.
* An `H256` storage value is identified with its big-endian number (`U256::from_big_endian`,
  `BigEndianHash::from_uint`).
-/

namespace Axon.Exec
open Axon.Assoc

/-- Hash functions and the special hash values. -/
structure Env (H : Type) where
  digest : Bytes → H
  rootOf : List (H256 × Bytes) → H
  zero : H

variable {H : Type} [DecidableEq H]

/-- `RLP_NULL`, `protocol/src/types/primitive.rs:35-40`: root of an empty trie. -/
def Env.rlpNull (env : Env H) : H := env.rootOf []

/-- `NIL_DATA`, `protocol/src/types/primitive.rs:30-33`: hash of the empty string. -/
def Env.nilData (env : Env H) : H := env.digest []

/-- The assumption on hashes: no collisions, and no preimage of the zero hash. -/
structure Env.Good (env : Env H) : Prop where
  root_inj : ∀ m m', env.rootOf m = env.rootOf m' → ∀ k, get m k = get m' k
  digest_inj : ∀ a b, env.digest a = env.digest b → a = b
  digest_ne_zero : ∀ b, env.digest b ≠ env.zero

/-- `Account` (crate `ethereum`, re-exported in `protocol/src/types/executor.rs:1`). -/
structure Account (H : Type) where
  nonce : U256
  balance : U256
  storageRoot : H
  codeHash : H
deriving DecidableEq

/-- `Log` (crate `evm`). -/
structure Log where
  address : H160
  topics : List H256
  data : Bytes
deriving DecidableEq

/-- `AxonExecutorApplyAdapter` with its inner adapter and the two thread-local roots
`CURRENT_HEADER_CELL_ROOT`, `CURRENT_METADATA_ROOT` (`core/executor/src/lib.rs:46-49`).

`accounts`: the state trie; `db`: committed storage tries by root; `codes`: codes by hash in the block
storage; `blocks`: hashes of stored blocks by number; the rest are the fields of `ExecutorContext` used
here. -/
structure World (H : Type) where
  accounts : List (H160 × Account H)
  db : List (H × List (H256 × Bytes))
  codes : List (H × Bytes)
  blocks : List (Nat × H)
  logs : List Log
  blockNumber : U256
  origin : H160
  gasPrice : U256
  headerRoot : U256
  metadataRoot : U256

def U256.zero : U256 := ⟨0, by decide⟩
def U256.max : U256 := ⟨2 ^ 256 - 1, by decide⟩

/-- `Basic` (crate `evm`). -/
structure Basic where
  balance : U256
  nonce : U256
deriving DecidableEq

/-- `Apply` (crate `evm`). -/
inductive Change where
  | modify (address : H160) (basic : Basic) (code : Option Bytes) (storage : List (H256 × U256))
      (resetStorage : Bool)
  | delete (address : H160)
deriving DecidableEq

/-! ## Storage values -/

/-- `U256::from_big_endian(v).encode()`, `apply.rs:190-193` -/
def encVal (v : U256) : Bytes := Rlp.encode (Rlp.ofUint v)

/-- `U256::decode(res)`, `read_only.rs:177` -/
def decVal (b : Bytes) : Option U256 := (Rlp.decode b).bind (Rlp.toUint 256)

/-! ## Reading, `read_only.rs` -/

/-- The account used when the trie has none, `read_only.rs:45-50`, `apply.rs:158-163` -/
def emptyAccount (env : Env H) : Account H :=
  { nonce := U256.zero, balance := U256.zero, storageRoot := env.rlpNull, codeHash := env.nilData }

/-- `get_account`, `read_only.rs:40-51` -/
def getAccount (env : Env H) (w : World H) (a : H160) : Account H :=
  (get w.accounts a).getD (emptyAccount env)

/-- `exists`, `read_only.rs:111-115` -/
def existsAccount (w : World H) (a : H160) : Bool := (get w.accounts a).isSome

/-- `basic`, `read_only.rs:117-133` -/
def basic (w : World H) (a : H160) : Basic :=
  match get w.accounts a with
  | some acc => { balance := acc.balance, nonce := acc.nonce }
  | none => { balance := U256.zero, nonce := U256.zero }

/-- `code`, `read_only.rs:135-155`; a missing code reads as empty. -/
def code (env : Env H) (w : World H) (a : H160) : Bytes :=
  match get w.accounts a with
  | some acc => if acc.codeHash = env.nilData then [] else (get w.codes acc.codeHash).getD []
  | none => []

/-- `storage`, `read_only.rs:162-189`.  `U256::decode(res).unwrap()` may panic; an unknown root reads as
zero. -/
def storage (env : Env H) (w : World H) (a : H160) (k : H256) : Outcome U256 :=
  match get w.accounts a with
  | none => .ok U256.zero
  | some acc =>
    if acc.storageRoot = env.rlpNull then .ok U256.zero
    else match get w.db acc.storageRoot with
      | none => .ok U256.zero
      | some m => match get m k with
        | some b => .orPanic (decVal b)
        | none => .ok U256.zero

/-- `GET_BLOCK_HASH_NUMBER_RANGE`, `read_only.rs:18` -/
def hashRange : Nat := 256

/-- `block_hash`, `read_only.rs:71-85` -/
def blockHash (env : Env H) (w : World H) (number : U256) : H :=
  if w.blockNumber.val ≤ number.val then env.zero
  else if hashRange < w.blockNumber.val - number.val then env.zero
  else (get w.blocks (number.val % 2 ^ 64)).getD env.zero

/-! ## Writing, `apply.rs` -/

/-- `save_account`, `apply.rs:132-140` -/
def saveAccount (w : World H) (a : H160) (acc : Account H) : World H :=
  { w with accounts := put w.accounts a acc }

/-- One storage write, `apply.rs:178-198` -/
def writeSlot (m : List (H256 × Bytes)) (kv : H256 × U256) : List (H256 × Bytes) :=
  if kv.2 = U256.zero then del m kv.1 else put m kv.1 (encVal kv.2)

/-- The storage trie the writes go to, `apply.rs:166-176`; an unknown root panics (`unwrap`). -/
def openStorage (env : Env H) (w : World H) (old : Account H) (reset : Bool) :
    Outcome (List (H256 × Bytes)) :=
  if reset then .ok []
  else if old.storageRoot = env.rlpNull then .ok []
  else .orPanic (get w.db old.storageRoot)

/-- `AxonExecutorApplyAdapter::apply` for one account, `apply.rs:148-239`; the flag says that the account
counts as empty.  A failing trie commit (`panic!`) is not modelled. -/
def applyOne (env : Env H) (w : World H) (a : H160) (b : Basic) (c : Option Bytes)
    (ws : List (H256 × U256)) (reset : Bool) : Outcome (World H × Bool) :=
  let old := getAccount env w a
  match openStorage env w old reset with
  | .ok m0 =>
    let m := ws.foldl writeSlot m0
    let root := env.rootOf m
    let w1 : World H := { w with db := put w.db root m }
    let (w2, hash) : World H × H := match c with
      | some code =>
        if env.digest code ≠ old.codeHash then
          ({ w1 with codes := put w1.codes (env.digest code) code }, env.digest code)
        else (w1, old.codeHash)
      | none => (w1, old.codeHash)
    let acc : Account H :=
      { nonce := b.nonce, balance := b.balance, storageRoot := root, codeHash := hash }
    .ok (saveAccount w2 a acc,
      decide (b.balance = U256.zero ∧ b.nonce = U256.zero ∧ hash = env.zero))
  | .err => .err
  | .panic => .panic

/-- One element of the change list, `apply.rs:254-272` -/
def applyChange (env : Env H) (deleteEmpty : Bool) (w : World H) : Change → Outcome (World H)
  | .modify a b c ws reset =>
    (applyOne env w a b c ws reset).bind fun (w', isEmpty) =>
      .ok (if isEmpty && deleteEmpty then { w' with accounts := del w'.accounts a } else w')
  | .delete a => .ok { w with accounts := del w.accounts a }

def applyChanges (env : Env H) (deleteEmpty : Bool) : List Change → World H → Outcome (World H)
  | [], w => .ok w
  | ch :: cs, w => (applyChange env deleteEmpty w ch).bind (applyChanges env deleteEmpty cs)

/-- `ApplyBackend::apply`, `apply.rs:248-275`: the changes, then the logs replace the earlier ones. -/
def apply (env : Env H) (w : World H) (cs : List Change) (logs : List Log) (deleteEmpty : Bool) :
    Outcome (World H) :=
  (applyChanges env deleteEmpty cs w).bind fun w' => .ok { w' with logs := logs }

/-- `take_logs`, `apply.rs:122-126` -/
def takeLogs (w : World H) : List Log × World H := (w.logs, { w with logs := [] })

/-! ## Well-formed states -/

/-- The state can be read: every storage root and code hash is known, every stored value is the encoding
of a non-zero number, and tries and codes are stored under their own hash. -/
structure WF (env : Env H) (w : World H) : Prop where
  root : ∀ a acc, get w.accounts a = some acc → acc.storageRoot ≠ env.rlpNull →
    ∃ m, get w.db acc.storageRoot = some m
  hash : ∀ a acc, get w.accounts a = some acc → acc.codeHash ≠ env.nilData →
    ∃ c, get w.codes acc.codeHash = some c
  db : ∀ h m, get w.db h = some m → env.rootOf m = h
  vals : ∀ h m k b, get w.db h = some m → get m k = some b → ∃ v, v ≠ U256.zero ∧ b = encVal v
  codes : ∀ h c, get w.codes h = some c → env.digest c = h

/-! ## Lemmas -/

theorem decVal_encVal (v : U256) : decVal (encVal v) = some v := by
  unfold decVal encVal
  rw [Rlp.decode_encode_item]
  · simp
  · have h : (beBytes v.val).length ≤ 32 := beBytes_length_le _ _ (by
      have := v.lt; simpa [show (256 : Nat) ^ 32 = 2 ^ 256 by decide] using this)
    unfold Rlp.ofUint Rlp.encode Rlp.encStr
    split
    · split <;> simp
    · split
      · simp; omega
      · rename_i h2
        omega

/-- The contents of a storage trie as numbers. -/
def slotOf (m : List (H256 × Bytes)) (k : H256) : U256 :=
  match get m k with
  | some b => (decVal b).getD U256.zero
  | none => U256.zero

/-- Every value is the encoding of a non-zero number. -/
def Vals (m : List (H256 × Bytes)) : Prop :=
  ∀ k b, get m k = some b → ∃ v, v ≠ U256.zero ∧ b = encVal v

theorem vals_nil : Vals [] := by intro k b h; simp [get_nil] at h

theorem vals_writeSlot {m : List (H256 × Bytes)} (h : Vals m) (kv : H256 × U256) :
    Vals (writeSlot m kv) := by
  intro k b hb
  unfold writeSlot at hb
  split at hb
  · rw [get_del] at hb
    split at hb
    · cases hb
    · exact h k b hb
  · rename_i hv
    rw [get_put] at hb
    split at hb
    · exact ⟨kv.2, hv, (Option.some.inj hb).symm⟩
    · exact h k b hb

theorem vals_foldl {m : List (H256 × Bytes)} (h : Vals m) (ws : List (H256 × U256)) :
    Vals (ws.foldl writeSlot m) := by
  induction ws generalizing m with
  | nil => exact h
  | cons kv ws ih => exact ih (vals_writeSlot h kv)

theorem slotOf_writeSlot (m : List (H256 × Bytes)) (kv : H256 × U256) (k : H256) :
    slotOf (writeSlot m kv) k = if k = kv.1 then kv.2 else slotOf m k := by
  by_cases hv : kv.2 = U256.zero
  · simp only [slotOf, writeSlot, hv, if_true, get_del]
    by_cases hk : k = kv.1 <;> simp [hk]
  · simp only [slotOf, writeSlot, hv, if_false, get_put]
    by_cases hk : k = kv.1 <;> simp [hk, decVal_encVal]

theorem orPanic_decVal {m : List (H256 × Bytes)} (h : Vals m) (k : H256) (b : Bytes)
    (hb : get m k = some b) : Outcome.orPanic (decVal b) = .ok (slotOf m k) := by
  obtain ⟨v, _, rfl⟩ := h k b hb
  simp [slotOf, hb, decVal_encVal, Outcome.orPanic]

/-- Reading through the storage root. -/
theorem storage_eq {env : Env H} {w : World H} (hw : WF env w) (a : H160) (k : H256) :
    ∃ v, storage env w a k = .ok v := by
  unfold storage
  cases ha : get w.accounts a with
  | none => exact ⟨_, rfl⟩
  | some acc =>
    simp only
    split
    · exact ⟨_, rfl⟩
    · cases hm : get w.db acc.storageRoot with
      | none => exact ⟨_, rfl⟩
      | some m =>
        simp only
        cases hb : get m k with
        | none => exact ⟨_, rfl⟩
        | some b => exact ⟨_, orPanic_decVal (fun k b h => hw.vals _ m k b hm h) k b hb⟩

/-- Storage read as a number (zero if reading panics; it never does in a well-formed state). -/
def slot (env : Env H) (w : World H) (a : H160) (k : H256) : U256 :=
  match storage env w a k with
  | .ok v => v
  | _ => U256.zero

theorem storage_slot {env : Env H} {w : World H} (hw : WF env w) (a : H160) (k : H256) :
    storage env w a k = .ok (slot env w a k) := by
  obtain ⟨v, hv⟩ := storage_eq hw a k
  simp [slot, hv]

theorem slot_of_db {env : Env H} (hg : env.Good) {w : World H} (hw : WF env w) {a : H160}
    {acc : Account H} {m : List (H256 × Bytes)} (ha : get w.accounts a = some acc)
    (hm : get w.db acc.storageRoot = some m) (k : H256) : slot env w a k = slotOf m k := by
  have hv : Vals m := fun k b h => hw.vals _ m k b hm h
  unfold slot storage
  rw [ha]
  simp only
  by_cases hr : acc.storageRoot = env.rlpNull
  · simp only [hr, if_true]
    have h1 := hw.db _ _ hm
    rw [hr] at h1
    have := hg.root_inj m [] h1 k
    rw [get_nil] at this
    simp [slotOf, this]
  · simp only [hr, if_false, hm]
    cases hb : get m k with
    | none => simp [slotOf, hb]
    | some b =>
      simp only
      rw [orPanic_decVal hv k b hb]

/-- Opening the storage trie of an account succeeds and yields its slots. -/
theorem openStorage_ok {env : Env H} (hg : env.Good) {w : World H} (hw : WF env w) (a : H160)
    (reset : Bool) : ∃ m, openStorage env w (getAccount env w a) reset = .ok m ∧ Vals m ∧
      ∀ k, slotOf m k = if reset then U256.zero else slot env w a k := by
  unfold openStorage
  by_cases hr : reset = true
  · subst hr
    exact ⟨[], by simp, vals_nil, fun k => by simp [slotOf, get_nil]⟩
  · simp only [hr]
    cases ha : get w.accounts a with
    | none =>
      refine ⟨[], by simp [getAccount, ha, emptyAccount], vals_nil, fun k => ?_⟩
      simp [slotOf, get_nil, slot, storage, ha]
    | some acc =>
      have hga : getAccount env w a = acc := by simp [getAccount, ha]
      rw [hga]
      by_cases hn : acc.storageRoot = env.rlpNull
      · refine ⟨[], by simp [hn], vals_nil, fun k => ?_⟩
        simp [slotOf, get_nil, slot, storage, ha, hn]
      · obtain ⟨m, hm⟩ := hw.root a acc ha hn
        refine ⟨m, by simp [hn, hm, Outcome.orPanic], fun k b h => hw.vals _ m k b hm h, fun k => ?_⟩
        simp [slot_of_db hg hw ha hm k]

end Axon.Exec
