import Verif.Codec.Fields
import Verif.Util.Outcome

/-!
# Transaction codec

Model of `protocol/src/codec/transaction.rs` and the types in `protocol/src/types/transaction.rs`.

Modelled: the three unsigned transaction kinds, signature components, `UnverifiedTransaction`
encoding and decoding.  Not modelled: the `hash` field, which is a hash of the same bytes
(`codec/transaction.rs:132,201,275`), and public key recovery.
-/

namespace Axon.Tx
open Axon.Rlp

/-- `TransactionAction` (`ethereum` crate). -/
inductive Action where
  | call (to : H160)
  | create
deriving DecidableEq

/-- `AccessListItem` (`ethereum` crate). -/
structure AccessItem where
  address : H160
  storageKeys : List H256
deriving DecidableEq

/-- `types/transaction.rs:172-182` -/
structure LegacyTx where
  nonce : U64
  gasPrice : U64
  gasLimit : U64
  action : Action
  value : U256
  data : Bytes
deriving DecidableEq

/-- `types/transaction.rs:206-217` -/
structure Eip2930Tx where
  nonce : U64
  gasPrice : U64
  gasLimit : U64
  action : Action
  value : U256
  data : Bytes
  accessList : List AccessItem
deriving DecidableEq

/-- `types/transaction.rs:245-255` -/
structure Eip1559Tx where
  nonce : U64
  maxPriorityFee : U64
  gasPrice : U64
  gasLimit : U64
  action : Action
  value : U256
  data : Bytes
  accessList : List AccessItem
deriving DecidableEq

/-- `UnsignedTransaction`, `types/transaction.rs:19-23` -/
inductive Unsigned where
  | legacy (tx : LegacyTx)
  | eip2930 (tx : Eip2930Tx)
  | eip1559 (tx : Eip1559Tx)
deriving DecidableEq

/-- `SignatureComponents`, `types/transaction.rs:346-351` -/
structure Sig where
  r : Bytes
  s : Bytes
  standardV : U8
deriving DecidableEq

/-- `UnverifiedTransaction` without its `hash` field, `types/transaction.rs:284-290` -/
structure Unverified where
  unsigned : Unsigned
  signature : Option Sig
  chainId : Option U64
deriving DecidableEq

/-- `SignatureComponents::is_eth_sig`, `types/transaction.rs:382-384,420-422` -/
def Sig.isEth (sg : Sig) : Bool := sg.r.length + sg.s.length + 1 == 65

/-- `SignatureComponents::add_chain_replay_protection`, `types/transaction.rs:386-388`.
`none` is the overflow panic of `i * 2 + 35 + v` in `u64`. -/
def addReplay (v : U8) : Option U64 → Option U64
  | some i => UIntN.ofNat? 64 (v.val + (i.val * 2 + 35))
  | none => UIntN.ofNat? 64 (v.val + 27)

/-- `SignatureComponents::extract_standard_v`, `types/transaction.rs:390-397` -/
def extractStandardV (v : U64) : Option U8 :=
  if v.val = 27 then some ⟨0, by decide⟩
  else if v.val = 28 then some ⟨1, by decide⟩
  else if 35 ≤ v.val then some ⟨(v.val - 1) % 2, by omega⟩
  else none

/-- `SignatureComponents::extract_chain_id`, `types/transaction.rs:399-405` -/
def extractChainId (v : U64) : Option U64 :=
  if 35 ≤ v.val then some ⟨(v.val - 35) / 2, by have := v.lt; omega⟩ else none

/-- `truncate_slice(.., 32)` followed by `U256::from(&[u8])`,
`codec/transaction.rs:13-18,23-24,103-104`; a slice of at most 32 bytes is read big-endian. -/
def u256OfSlice (b : Bytes) : U256 :=
  ⟨beNat (b.take 32), by
    have h := beNat_lt (b.take 32)
    have h1 : (b.take 32).length ≤ 32 := by rw [List.length_take]; omega
    have h2 : 256 ^ (b.take 32).length ≤ 256 ^ 32 := Nat.pow_le_pow_right (by omega) h1
    have h3 : (256 : Nat) ^ 32 = 2 ^ 256 := by decide
    omega⟩

/-- RLP of `TransactionAction` (`ethereum` crate): the address, or the empty string. -/
def actionItem : Action → Item
  | .call a => ofFixed a
  | .create => .str []

/-- Decoding of `TransactionAction`: the empty string is `Create`. -/
def itemAction : Item → Option Action
  | .str [] => some .create
  | .str b => (FixedBytes.ofBytes 20 b).map .call
  | .list _ => none

/-- `codec/transaction.rs:155-161` -/
def accessItem (a : AccessItem) : Item :=
  .list [ofFixed a.address, .list (a.storageKeys.map ofFixed)]

/-- `codec/transaction.rs:186-194` -/
def itemAccess : Item → Option AccessItem
  | .list [a, ks] => do
    let address ← toFixed 20 a
    let storageKeys ← toList (toFixed 32) ks
    pure { address, storageKeys }
  | _ => none

/-- r and s as written: `codec/transaction.rs:22-28,102-107` -/
def sigRS (sg : Sig) : List Item :=
  if sg.isEth then [ofUint (u256OfSlice sg.r), ofUint (u256OfSlice sg.s)]
  else [.str sg.r, .str sg.s]

/-- Fields of a legacy transaction, `codec/transaction.rs:79-111`.  `none` = overflow panic. -/
def legacyFields (tx : LegacyTx) (chainId : Option U64) (sig : Option Sig) : Option (List Item) :=
  let base := [ofUint tx.nonce, ofUint tx.gasPrice, ofUint tx.gasLimit, actionItem tx.action,
    ofUint tx.value, .str tx.data]
  match sig with
  | some sg => (addReplay sg.standardV chainId).map fun v => base ++ (ofUint v :: sigRS sg)
  | none =>
    match chainId with
    | some id => some (base ++ [ofUint id, .str [], .str []])
    | none => some base

/-- Chain id field of typed transactions, `codec/transaction.rs:146,218` -/
def typedChainId (chainId : Option U64) : U64 := chainId.getD ⟨0, by decide⟩

/-- Signature fields of typed transactions, `codec/transaction.rs:20-30,164-166` -/
def typedSig (sig : Option Sig) : List Item :=
  match sig with
  | some sg => ofUint sg.standardV :: sigRS sg
  | none => []

/-- Fields of an EIP-2930 transaction, `codec/transaction.rs:138-167` -/
def eip2930Fields (tx : Eip2930Tx) (chainId : Option U64) (sig : Option Sig) : List Item :=
  [ofUint (typedChainId chainId), ofUint tx.nonce, ofUint tx.gasPrice, ofUint tx.gasLimit,
    actionItem tx.action, ofUint tx.value, .str tx.data, .list (tx.accessList.map accessItem)]
    ++ typedSig sig

/-- Fields of an EIP-1559 transaction, `codec/transaction.rs:210-240` -/
def eip1559Fields (tx : Eip1559Tx) (chainId : Option U64) (sig : Option Sig) : List Item :=
  [ofUint (typedChainId chainId), ofUint tx.nonce, ofUint tx.maxPriorityFee, ofUint tx.gasPrice,
    ofUint tx.gasLimit, actionItem tx.action, ofUint tx.value, .str tx.data,
    .list (tx.accessList.map accessItem)] ++ typedSig sig

/-- `UnverifiedTransaction::rlp_bytes`, `codec/transaction.rs:283-310`; `none` = overflow panic.
The list header always announces the number of appended fields (9/6, 11/8, 12/9). -/
def encodeTx (t : Unverified) : Option Bytes :=
  match t.unsigned with
  | .legacy tx => (legacyFields tx t.chainId t.signature).map fun l => encode (.list l)
  | .eip2930 tx => some (1 :: encode (.list (eip2930Fields tx t.chainId t.signature)))
  | .eip1559 tx => some (2 :: encode (.list (eip1559Fields tx t.chainId t.signature)))

/-- `Rlp::size`: payload length of a string, `0` for a list. -/
def itemSize : Item → Nat
  | .str b => b.length
  | .list _ => 0

/-- 32-byte big-endian form of a `U256` (`H256::from_uint`). -/
def u256Bytes (x : U256) : Bytes := beFixed 32 x.val

/-- `SignatureComponents::rlp_decode` with an already decoded `v`, `codec/transaction.rs:41-75` -/
def decodeSig (v : U8) (ri si : Item) : Option Sig :=
  if itemSize ri + itemSize si ≤ 64 then do
    let r ← toUint 256 ri
    let s ← toUint 256 si
    pure { r := u256Bytes r, s := u256Bytes s, standardV := v }
  else do
    let r ← toBytes ri
    let s ← toBytes si
    pure { r, s, standardV := v }

/-- `LegacyTransaction::rlp_decode`, `codec/transaction.rs:113-134` -/
def decodeLegacy : Item → Option Unverified
  | .list [a0, a1, a2, a3, a4, a5, a6, a7, a8] => do
    let nonce ← toUint 64 a0
    let gasPrice ← toUint 64 a1
    let gasLimit ← toUint 64 a2
    let action ← itemAction a3
    let value ← toUint 256 a4
    let data ← toBytes a5
    let v ← toUint 64 a6
    let sv ← extractStandardV v
    let sig ← decodeSig sv a7 a8
    let tx : LegacyTx := { nonce, gasPrice, gasLimit, action, value, data }
    pure { unsigned := .legacy tx, signature := some sig, chainId := extractChainId v }
  | _ => none

/-- `Eip2930Transaction::rlp_decode`, `codec/transaction.rs:169-206` -/
def decode2930 : Item → Option Unverified
  | .list [a0, a1, a2, a3, a4, a5, a6, a7, a8, a9, a10] => do
    let id ← toUint 64 a0
    let nonce ← toUint 64 a1
    let gasPrice ← toUint 64 a2
    let gasLimit ← toUint 64 a3
    let action ← itemAction a4
    let value ← toUint 256 a5
    let data ← toBytes a6
    let accessList ← toList itemAccess a7
    let v ← toUint 8 a8
    let sig ← decodeSig v a9 a10
    let tx : Eip2930Tx := { nonce, gasPrice, gasLimit, action, value, data, accessList }
    pure { unsigned := .eip2930 tx, signature := some sig, chainId := some id }
  | _ => none

/-- `Eip1559Transaction::rlp_decode`, `codec/transaction.rs:242-280` -/
def decode1559 : Item → Option Unverified
  | .list [a0, a1, a2, a3, a4, a5, a6, a7, a8, a9, a10, a11] => do
    let id ← toUint 64 a0
    let nonce ← toUint 64 a1
    let maxPriorityFee ← toUint 64 a2
    let gasPrice ← toUint 64 a3
    let gasLimit ← toUint 64 a4
    let action ← itemAction a5
    let value ← toUint 256 a6
    let data ← toBytes a7
    let accessList ← toList itemAccess a8
    let v ← toUint 8 a9
    let sig ← decodeSig v a10 a11
    let tx : Eip1559Tx :=
      { nonce, maxPriorityFee, gasPrice, gasLimit, action, value, data, accessList }
    pure { unsigned := .eip1559 tx, signature := some sig, chainId := some id }
  | _ => none

/-- `UnverifiedTransaction::decode`, `codec/transaction.rs:312-327`; `raw[0]` panics on the empty
string (`:315`). -/
def decodeTx (bs : Bytes) : Outcome Unverified :=
  match bs with
  | [] => .panic
  | h :: t =>
    if h.toNat &&& 0x80 ≠ 0 then .ofOption ((decode (h :: t)).bind decodeLegacy)
    else if h = 1 then .ofOption ((decode t).bind decode2930)
    else if h = 2 then .ofOption ((decode t).bind decode1559)
    else .err

/-- The byte string hashed for signing: `UnverifiedTransaction::signature_hash(true)`,
`types/transaction.rs:318-328` and `UnsignedTransaction::encode`, `:109-121`. -/
def signingPayload (u : Unsigned) (chainId : Option U64) : Option Bytes :=
  encodeTx { unsigned := u, signature := none, chainId }

end Axon.Tx
