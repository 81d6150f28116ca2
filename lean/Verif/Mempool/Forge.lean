import Verif.Mempool.Admission
import Verif.Codec.TxProps
import Verif.Cells.Store
import Verif.Executor.Precompiles

/-!
# Who may send a transaction from an account

The parameters of `Verif/Mempool/Admission.lean` filled in: how the sender of a transaction is determined
(`protocol/src/types/transaction.rs`), what an interoperation signature contains
(`protocol/src/types/interoperation.rs`), which program checks it (`core/interoperation/src/lib.rs`) and what
the pool makes of the program's result (`core/mempool/src/adapter/mod.rs`).

Parameters that remain: the digest, recovery and verification of secp256k1, and the CKB machine.  The cells are
the contents of the trie of `Verif/Cells/Store.lean`.
-/

namespace Axon.Forge
open Axon.Rlp Axon.Tx Axon.Admission Axon.Cells
open Axon.Block (valAt)

/-- `CellDep`, `types/interoperation.rs:87-94` -/
structure CellDep where
  txHash : H256
  index : U32
  depType : U8
deriving DecidableEq

/-- `CellDepWithPubKey`, `types/interoperation.rs:56-60` -/
structure DepKey where
  dep : CellDep
  pubKey : Bytes
deriving DecidableEq

/-- Derived encoding of `CellDep` and `CellDepWithPubKey`, `types/interoperation.rs:56-60,87-94` -/
def depItem (d : CellDep) : Item := .list [ofFixed d.txHash, ofUint d.index, ofUint d.depType]

def depKeyItem (d : DepKey) : Item := .list [depItem d.dep, .str d.pubKey]

/-- Derived decoding; fields behind the last one are ignored. -/
def itemDep : Item → Option CellDep
  | .list l => do
    let txHash ← valAt l 0 (toFixed 32)
    let index ← valAt l 1 (toUint 32)
    let depType ← valAt l 2 (toUint 8)
    pure ⟨txHash, index, depType⟩
  | .str _ => none

def itemDepKey : Item → Option DepKey
  | .list l => do
    let dep ← valAt l 0 itemDep
    let pubKey ← valAt l 1 toBytes
    pure ⟨dep, pubKey⟩
  | .str _ => none

/-- `rlp::decode::<CellDepWithPubKey>` -/
def decodeDepKey (b : Bytes) : Option DepKey := (decode b).bind itemDepKey

/-- External code: `Hasher::digest`, `secp256k1_recover` (message and 65 bytes to a public key of 64 bytes),
`Secp256k1Recoverable::verify_signature` (message, 65 bytes, key of 65 bytes), and the CKB machine: a program
loaded with arguments stops with an exit code after some cycles, or fails (`none`). -/
structure Ext where
  digest : Bytes → H256
  recover : H256 → Bytes → Option Bytes
  verify : H256 → Bytes → Bytes → Bool
  run : Bytes → List Bytes → Option (UInt8 × Nat)

/-- `public_to_address`, `types/transaction.rs:519-524`, and the conversion of a digest into an address in
`extract_interoperation_tx_sender`, `:413`: the last 20 bytes of the digest. -/
def Ext.address (x : Ext) (pub : Bytes) : H160 := ⟨(x.digest pub).bytes.drop 12, by have := (x.digest pub).len; simp [this]⟩

/-- `SignatureComponents::as_bytes`, `types/transaction.rs:367-380` -/
def sigBytes (sg : Sig) : Bytes := sg.r ++ sg.s ++ [UInt8.ofNat sg.standardV.val]

/-- `signature_hash(true)`, `types/transaction.rs:318-328`; the payload of a transaction without signature is
always defined. -/
def Ext.message (x : Ext) (t : Unverified) : H256 := x.digest ((signingPayload t.unsigned t.chainId).getD [])

/-- The ways to a sender, `types/transaction.rs:407-417` and `439-461`. -/
def Ext.keys (x : Ext) : Keys where
  recover t := do
    let sg ← t.signature
    let p ← x.recover (x.message t) (sigBytes sg)
    pure (p, x.address p)
  senderOf b := (decodeDepKey b).map fun d => x.address d.pubKey
  digest := x.digest

/-- `InteroperationImpl::call_ckb_vm`, `core/interoperation/src/lib.rs:42-66`: the data of the cell is the
program; running out of cycles is a failure of the machine.  `dep_type` is not looked at. -/
def callVm (x : Ext) (cells : Trie) (d : CellDep) (args : List Bytes) (maxCycles : Nat) : Option (UInt8 × Nat) :=
  match provideData cells ⟨d.txHash, d.index⟩ with
  | none => none
  | some program =>
    match x.run program args with
    | some (code, cycles) => if cycles ≤ maxCycles then some (code, cycles) else none
    | none => none

/-- The external part of `verify_signature`, `adapter/mod.rs:293-321`: the key as 65 bytes
(`recover_intact_pub_key`, `types/transaction.rs:526-530`), and the call of the machine, whose result is
dropped unless it is an error. -/
def Ext.config (x : Ext) (cells : Trie) (chainId : U64) (maxTxSize : Nat) : Config where
  chainId := chainId
  maxTxSize := maxTxSize
  secp t pub :=
    match t.signature with
    | some sg => x.verify (x.message t) (sigBytes sg) (4 :: pub)
    | none => false
  ckbVm rest s :=
    match decodeDepKey rest with
    | none => false
    | some d => (callVm x cells d.dep [d.pubKey, s] (2 ^ 64 - 1)).isSome

/-! ## Lemmas -/

theorem itemDep_depItem (d : CellDep) : itemDep (depItem d) = some d := by
  simp [itemDep, depItem, valAt]

theorem itemDepKey_depKeyItem (d : DepKey) : itemDepKey (depKeyItem d) = some d := by
  simp [itemDepKey, depKeyItem, valAt, itemDep_depItem]

theorem message_eq {x : Ext} {t : Unverified} {pl : Bytes} (h : signingPayload t.unsigned t.chainId = some pl) :
    x.message t = x.digest pl := by simp [Ext.message, h]

theorem payload_defined (u : Unsigned) (c : Option U64) : ∃ pl, signingPayload u c = some pl := by
  unfold signingPayload encodeTx
  cases u with
  | legacy tx => cases c <;> simp [legacyFields]
  | eip2930 tx => exact ⟨_, rfl⟩
  | eip1559 tx => exact ⟨_, rfl⟩

end Axon.Forge
