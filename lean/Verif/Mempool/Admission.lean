import Verif.Codec.Tx
import Verif.Util.Assoc

/-!
# Admission of transactions

Model of the checks a transaction passes before it reaches the pool:
`core/api/src/jsonrpc/impl/web3.rs` (`send_raw_transaction`), `protocol/src/types/transaction.rs`
(`from_unverified`, accessors, `may_cost`), `core/mempool/src/adapter/mod.rs` (`check_transaction`,
`check_authorization`) and `core/executor/src/system_contract/mod.rs` (`is_call_system_script`).

Abstracted as parameters: secp256k1 recovery and verification, RLP decoding of the cell dependency in an
interoperation signature, running CKB-VM, the state trie (a function from addresses to accounts), and the
validator lookup of system-script transactions.
-/

namespace Axon.Admission
open Axon.Tx Axon.Assoc

/-! ## Accessors, `types/transaction.rs` -/

/-- `UnsignedTransaction::gas_price`, `types/transaction.rs:78-84` -/
def gasPrice : Unsigned → U64
  | .legacy tx => tx.gasPrice
  | .eip2930 tx => tx.gasPrice
  | .eip1559 tx => if tx.gasPrice.val < tx.maxPriorityFee.val then tx.maxPriorityFee else tx.gasPrice

/-- `UnsignedTransaction::gas_limit`, `types/transaction.rs:146-152` -/
def gasLimit : Unsigned → U64
  | .legacy tx => tx.gasLimit
  | .eip2930 tx => tx.gasLimit
  | .eip1559 tx => tx.gasLimit

/-- `UnsignedTransaction::value`, `types/transaction.rs:138-144` -/
def value : Unsigned → U256
  | .legacy tx => tx.value
  | .eip2930 tx => tx.value
  | .eip1559 tx => tx.value

/-- `UnsignedTransaction::nonce`, `types/transaction.rs:154-160` -/
def nonce : Unsigned → U64
  | .legacy tx => tx.nonce
  | .eip2930 tx => tx.nonce
  | .eip1559 tx => tx.nonce

/-- `UnsignedTransaction::action`, `types/transaction.rs:162-168` -/
def action : Unsigned → Action
  | .legacy tx => tx.action
  | .eip2930 tx => tx.action
  | .eip1559 tx => tx.action

/-- `U256::checked_mul` -/
def mul256? (a b : Nat) : Option U256 := UIntN.ofNat? 256 (a * b)

/-- `UnsignedTransaction::may_cost`, `types/transaction.rs:34-44`; `none` is `PrepayGasIsTooLarge`. -/
def mayCost (u : Unsigned) : Option U256 :=
  match mul256? (gasPrice u).val (gasLimit u).val with
  | some res => some ((UIntN.ofNat? 256 (res.val + (value u).val)).getD ⟨2 ^ 256 - 1, by decide⟩)
  | none => none

/-! ## From bytes to a signed transaction -/

/-- `SignedTransaction`, `types/transaction.rs:426-430`; addresses and public keys are opaque. -/
structure SignedTx where
  transaction : Unverified
  sender : H160
  pub : Option Bytes
deriving DecidableEq

/-- External code used when a sender is determined: `recover` is `secp256k1_recover` followed by
`public_to_address` (public key and address, `none` = error); `senderOf` is the RLP decoding of
`CellDepWithPubKey` followed by hashing its public key; `digest` is `Hasher::digest`. -/
structure Keys where
  recover : Unverified → Option (Bytes × H160)
  senderOf : Bytes → Option H160
  digest : Bytes → H256

/-- `SignatureComponents::extract_interoperation_tx_sender`, `types/transaction.rs:407-417`.
`self.r[0]` panics when `r` is empty. -/
def interopSender (k : Keys) (sg : Sig) : Outcome H160 :=
  match sg.r with
  | [] => .panic
  | b :: rest => if b = 0 then .ofOption (k.senderOf rest) else .err

/-- `SignedTransaction::from_unverified`, `types/transaction.rs:433-461`, and the same steps in
`Decodable for SignedTransaction`, `codec/transaction.rs:335-364`.  `signature_hash(true)` and
`calc_hash` encode the transaction, which can only panic for chain ids that do not come from
decoding.  The `hash` field is added in `Verif/Mempool/Identity.lean`. -/
def fromUnverified (k : Keys) (t : Unverified) : Outcome SignedTx :=
  match t.signature with
  | none => .err
  | some sg =>
    if sg.isEth then
      match k.recover t with
      | some (p, a) => .ok { transaction := t, sender := a, pub := some p }
      | none => .err
    else
      match interopSender k sg with
      | .ok a => .ok { transaction := t, sender := a, pub := some (List.replicate 64 0) }
      | .err => .err
      | .panic => .panic

/-- What a peer's message does with each transaction in it: `UnverifiedTransaction::decode` and the
sender's determination, `codec/transaction.rs:335-364`. -/
def receive (k : Keys) (raw : Bytes) : Outcome SignedTx := (decodeTx raw).bind (fromUnverified k)

/-- `MAX_GAS_PRICE`, `constants/configs.rs:9,20` -/
def maxGasPrice : Nat := 500 * 1000000000
/-- `MIN_TRANSACTION_GAS_LIMIT`, `constants/configs.rs:10` -/
def minGasLimit : Nat := 21000
/-- `MAX_GAS_LIMIT`, `constants/configs.rs:6` -/
def maxGasLimit : Nat := 30000000

/-- `check_hash`, `types/transaction.rs:300-314`: decoding hashed all the bytes (`codec/transaction.rs:132,201,275`),
`get_hash` hashes the bytes written anew.  Writing panics on overflow. -/
def checkHash (k : Keys) (raw : Bytes) (t : Unverified) : Outcome Unit :=
  match encodeTx t with
  | none => .panic
  | some e => if k.digest raw = k.digest e then .ok () else .err

/-- `send_raw_transaction` up to the call into the pool, `web3.rs:197-224`. -/
def sendRaw (k : Keys) (maxGasCap : Nat) (raw : Bytes) : Outcome SignedTx :=
  (decodeTx raw).bind fun utx =>
    if (gasPrice utx.unsigned).val = 0 then .err
    else if (gasPrice utx.unsigned).val > maxGasPrice then .err
    else if (gasLimit utx.unsigned).val < minGasLimit then .err
    else if (gasLimit utx.unsigned).val > maxGasCap then .err
    else (checkHash k raw utx).bind fun _ => fromUnverified k utx

/-! ## Stateless checks of the pool -/

/-- Errors of `check_transaction`. -/
inductive CheckErr where
  | missingSignature
  | missingPublic
  | wrongChain
  | exceedSize
  | invalidGasPrice
  | underGasLimit
  | exceedGasLimit
  | verifySignature
deriving DecidableEq, Repr

/-- Configuration of the adapter (`chain_id`, `max_tx_size`) and external verification: `secp` is
`Secp256k1Recoverable::verify_signature`, `ckbVm` decodes the cell dependency and runs CKB-VM
(`none` = the bytes do not decode, `some b` = result). -/
structure Config where
  chainId : U64
  maxTxSize : Nat
  secp : Unverified → Bytes → Bool
  ckbVm : Bytes → Bytes → Bool

/-- `verify_signature`, `adapter/mod.rs:293-321`; `signature.r[1..]` panics when `r` is empty (`none`). -/
def verifySignature (c : Config) (t : Unverified) (sg : Sig) (pub : Bytes) :
    Option (Except CheckErr Unit) :=
  if sg.isEth then
    some (if c.secp t pub then .ok () else .error .verifySignature)
  else
    match sg.r with
    | [] => none
    | _ :: rest => some (if c.ckbVm rest sg.s then .ok () else .error .verifySignature)

/-- `check_transaction`, `adapter/mod.rs:441-457` with `verify_chain_id` 201-218, `verify_tx_size` 220-241,
`verify_gas_price` 243-250, `verify_gas_limit` 252-291.  Outer `none` is a panic: the overflow while encoding
or the slice in `verify_signature`.  Reports to the peer's trust score are not modelled. -/
def checkTransaction (c : Config) (t : SignedTx) : Option (Except CheckErr Unit) :=
  match t.transaction.signature with
  | none => some (.error .missingSignature)
  | some sg =>
    match t.pub with
    | none => some (.error .missingPublic)
    | some pub =>
      if t.transaction.chainId.isSome ∧ some c.chainId ≠ t.transaction.chainId then
        some (.error .wrongChain)
      else
        match encodeTx t.transaction with
        | none => none
        | some bs =>
          if bs.length > c.maxTxSize then some (.error .exceedSize)
          else if (gasPrice t.transaction.unsigned).val = 0 ∨
              (gasPrice t.transaction.unsigned).val ≥ maxGasPrice then
            some (.error .invalidGasPrice)
          else if (gasLimit t.transaction.unsigned).val < minGasLimit then some (.error .underGasLimit)
          else if (gasLimit t.transaction.unsigned).val > maxGasLimit then some (.error .exceedGasLimit)
          else verifySignature c t.transaction sg pub

/-! ## System scripts and authorisation -/

/-- `system_contract_address`, `system_contract/mod.rs:44-49` -/
def systemAddress (b : UInt8) : Bytes := List.replicate 19 0xff ++ [b]

/-- `SYSTEM_CONTRACT_ADDRESSES_SET`, `system_contract/mod.rs:55-60`: native token 0, metadata 1, CKB light
client 2, image cell 3. -/
def systemAddresses : List Bytes := [systemAddress 0, systemAddress 1, systemAddress 2, systemAddress 3]

/-- `is_call_system_script`, `system_contract/mod.rs:325-344`; `none` is `ReservedAddress`. -/
def isCallSystemScript : Action → Option Bool
  | .create => some false
  | .call a =>
    if a.bytes.take 19 = List.replicate 19 0xff then
      if systemAddresses.contains a.bytes then some true else none
    else some false

/-- An account in the state trie as `Backend::basic` returns it (`nonce` and `balance` are `U256`). -/
structure Account where
  nonce : U256
  balance : U256
deriving DecidableEq

/-- Errors of `check_authorization`. -/
inductive AuthErr where
  | reservedAddress
  | notValidator
  | invalidNonce (current txNonce : Nat)
  | exceedBalance
  | prepayTooLarge
deriving DecidableEq, Repr

/-- The cache `addr_nonce`, `adapter/mod.rs:125`. -/
abbrev NonceCache := List (H160 × (Nat × Nat))

/-- The decision on a cached entry, `adapter/mod.rs:397-414`. -/
def authCached (n : Nat × Nat) (u : Unsigned) : Except AuthErr Nat :=
  if (nonce u).val < n.1 then .error (.invalidNonce n.1 (nonce u).val)
  else match mayCost u with
    | none => .error .prepayTooLarge
    | some cost => if n.2 < cost.val then .error .exceedBalance else .ok ((nonce u).val - n.1)

/-- The decision on an account read from the state, `adapter/mod.rs:421-438`; `account.nonce.as_u64()` panics
if the account's nonce does not fit 64 bits (`none`). -/
def authFresh (a : Account) (u : Unsigned) : Option (Except AuthErr Nat) :=
  if a.nonce.val % 2 ^ 64 > (nonce u).val then
    if a.nonce.val < 2 ^ 64 then some (.error (.invalidNonce a.nonce.val (nonce u).val)) else none
  else match mayCost u with
    | none => some (.error .prepayTooLarge)
    | some cost =>
      if a.balance.val < cost.val then some (.error .exceedBalance)
      else some (.ok ((nonce u).val - a.nonce.val % 2 ^ 64))

/-- `check_authorization`, `adapter/mod.rs:387-439`, as one step.  `valid` is the validator lookup of
`check_system_script_tx_authorization` (181-199).  Returns the new cache and the answer, `none` = panic. -/
def checkAuthorization (st : H160 → Account) (valid : H160 → Bool) (cache : NonceCache) (t : SignedTx) :
    Option (NonceCache × Except AuthErr Nat) :=
  match isCallSystemScript (action t.transaction.unsigned) with
  | none => some (cache, .error .reservedAddress)
  | some true => some (cache, if valid t.sender then .ok 0 else .error .notValidator)
  | some false =>
    match get cache t.sender with
    | some n => some (cache, authCached n t.transaction.unsigned)
    | none =>
      (authFresh (st t.sender) t.transaction.unsigned).map fun r =>
        (put cache t.sender ((st t.sender).nonce.val % 2 ^ 64, (st t.sender).balance.val), r)

/-! ## Interleaving of authorisation with commits

`check_authorization` is `async` and suspends while it reads the latest header (`executor_backend`,
`adapter/mod.rs:323-334`); the cache entry is written afterwards.  A commit stores the new block and afterwards
clears the cache (`engine.rs:333-341`, `lib.rs:225-237`; also `set_args`, `adapter/mod.rs:489-499`). -/

/-- The shared state: the state trie of the latest block, the cache, and the account each suspended request
has already read. -/
structure AuthSt where
  state : H160 → Account
  cache : NonceCache
  pending : List (Nat × SignedTx × Account)

/-- Steps of the concurrent system. -/
inductive AuthOp where
  /-- request `id` finds no cache entry and reads the latest state -/
  | read (id : Nat) (t : SignedTx)
  /-- request `id` writes the cache entry and decides -/
  | finish (id : Nat)
  /-- a request that finds a cache entry -/
  | hit (t : SignedTx)
  /-- a block is stored: later reads see its state -/
  | stored (st : H160 → Account)
  /-- `clear_nonce_cache` in `flush` and `set_args` -/
  | clear

/-- One step and the answer given in it, if any (`none` = no answer in this step; panics of `authFresh`
are reported as no answer since they are covered by `checkAuthorization`). -/
def authStep (s : AuthSt) : AuthOp → AuthSt × Option (H160 × Unsigned × Except AuthErr Nat)
  | .read id t =>
    match get s.cache t.sender with
    | some _ => (s, none)
    | none => ({ s with pending := put s.pending id (t, s.state t.sender) }, none)
  | .finish id =>
    match get s.pending id with
    | none => (s, none)
    | some (t, a) =>
      ({ s with cache := put s.cache t.sender (a.nonce.val % 2 ^ 64, a.balance.val)
                pending := del s.pending id },
        (authFresh a t.transaction.unsigned).map fun r => (t.sender, t.transaction.unsigned, r))
  | .hit t =>
    match get s.cache t.sender with
    | none => (s, none)
    | some n => (s, some (t.sender, t.transaction.unsigned, authCached n t.transaction.unsigned))
  | .stored st => ({ s with state := st }, none)
  | .clear => ({ s with cache := [] }, none)

end Axon.Admission
