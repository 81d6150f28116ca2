import Verif.Executor.StateLemmas

/-!
# State proofs

`get_storage_at` and `get_proof` of the API adapter (`core/api/src/adapter.rs:232-331`) over the state of
`Verif.Executor.State`, and the two methods of the JSON-RPC interface on top of them
(`core/api/src/jsonrpc/impl/web3.rs:969-995`, `1030-1054`; the choice of the block is in
`Verif.Api.Select`).

Merkle proofs come from the trie crate and are a parameter (`Prover`).  The root of the state trie has a
type of its own, `R`; in the code both roots are 32 bytes.
-/

namespace Axon.StateProof

open Axon Axon.Assoc Axon.Exec

variable {H : Type} [DecidableEq H]

/-- Making and checking proofs (`Trie::get_proof`, `Trie::verify_proof`).  A check yields `none` for an
invalid proof, `some none` for a proof of absence. -/
structure Prover (H R : Type) where
  stateRoot : List (H160 × Account H) → R
  proveAccount : List (H160 × Account H) → H160 → List Bytes
  checkAccount : R → H160 → List Bytes → Option (Option (Account H))
  proveSlot : List (H256 × Bytes) → H256 → List Bytes
  checkSlot : H → H256 → List Bytes → Option (Option Bytes)

/-- What is known of the proofs: those made are valid, valid ones tell the truth, and an empty list of
nodes proves nothing. -/
structure Prover.Good {R : Type} (P : Prover H R) (env : Env H) : Prop where
  account_complete : ∀ m a, P.checkAccount (P.stateRoot m) a (P.proveAccount m a) = some (get m a)
  account_sound : ∀ m a π r, P.checkAccount (P.stateRoot m) a π = some r → r = get m a
  slot_complete : ∀ m k, P.checkSlot (env.rootOf m) k (P.proveSlot m k) = some (get m k)
  slot_sound : ∀ m k π r, P.checkSlot (env.rootOf m) k π = some r → r = get m k
  empty : ∀ h k, P.checkSlot h k [] = none

/-- `EthStorageProof`, protocol/src/types/executor.rs:110-114 -/
structure SlotProof where
  key : U256
  value : U256
  proof : List Bytes
deriving DecidableEq

/-- `EthAccountProof`, protocol/src/types/executor.rs:98-106 -/
structure AccountProof (H : Type) where
  address : H160
  balance : U256
  codeHash : H
  nonce : U256
  storageHash : H
  accountProof : List Bytes
  storageProof : List SlotProof

/-- `BigEndianHash::from_uint` -/
def keyOf (p : U256) : H256 := ⟨beFixed 32 p.val, by simp⟩

/-- The value at a key of an open storage trie, adapter.rs:250-253 and 280-292; `U256::decode` is
unwrapped. -/
def slotValue (m : List (H256 × Bytes)) (k : H256) : Outcome U256 :=
  match get m k with
  | some b => .orPanic (decVal b)
  | none => .ok U256.zero

/-- `get_storage_at`, adapter.rs:232-255, on an existing state root; the bytes are identified with the
number they encode.  An unknown address and an unknown storage root are errors. -/
def getStorageAt (w : World H) (a : H160) (p : U256) : Outcome U256 :=
  match get w.accounts a with
  | none => .err
  | some acc =>
    match get w.db acc.storageRoot with
    | none => .err
    | some m => slotValue m (keyOf p)

/-- `eth_getStorageAt`, web3.rs:988-994: errors are answered with zero. -/
def ethGetStorageAt (w : World H) (a : H160) (p : U256) : Outcome U256 :=
  match getStorageAt w a p with
  | .err => .ok U256.zero
  | r => r

/-- The loop over positions, adapter.rs:273-294. -/
def slotProofs {R : Type} (P : Prover H R) (m : List (H256 × Bytes)) : List U256 → Outcome (List SlotProof)
  | [] => .ok []
  | p :: ps =>
    match slotValue m (keyOf p) with
    | .panic => .panic
    | .err => .err
    | .ok v =>
      match slotProofs P m ps with
      | .panic => .panic
      | .err => .err
      | .ok l => .ok (⟨p, v, P.proveSlot m (keyOf p)⟩ :: l)

/-- `get_proof`, adapter.rs:257-331. -/
def getProof {R : Type} (env : Env H) (P : Prover H R) (w : World H) (a : H160) (ps : List U256) :
    Outcome (AccountProof H) :=
  match get w.accounts a with
  | some acc =>
    match get w.db acc.storageRoot with
    | none => .err
    | some m =>
      match slotProofs P m ps with
      | .panic => .panic
      | .err => .err
      | .ok l =>
        .ok ⟨a, acc.balance, acc.codeHash, acc.nonce, acc.storageRoot, P.proveAccount w.accounts a, l⟩
  | none =>
    .ok ⟨a, U256.zero, env.zero, U256.zero, env.zero, P.proveAccount w.accounts a,
      ps.map fun p => ⟨p, U256.zero, []⟩⟩

/-- An account of the genesis block, core/run/src/components/storage.rs:91-103: the storage root is
`RLP_NULL`, and no storage trie is committed. -/
def insertAccount (env : Env H) (w : World H) (a : H160) (balance : U256) : World H :=
  { w with accounts := put w.accounts a { emptyAccount env with balance := balance } }

/-! ## Lemmas -/

theorem keyOf_nat (p : U256) : beNat (keyOf p).bytes = p.val := by
  unfold keyOf
  exact beNat_beFixed_of_lt (by
    have := p.lt
    simpa [show (256 : Nat) ^ 32 = 2 ^ 256 by decide] using this)

theorem eq_keyOf {k : H256} {p : U256} (h : beNat k.bytes = p.val) : k = keyOf p := by
  apply FixedBytes.ext'
  have e := beFixed_beNat k.bytes
  rw [k.len, h] at e
  exact e.symm

theorem slotValue_eq {m : List (H256 × Bytes)} (hv : Vals m) (k : H256) :
    slotValue m k = .ok (slotOf m k) := by
  unfold slotValue
  cases h : get m k with
  | none => simp [slotOf, h]
  | some b => exact orPanic_decVal hv k b h

theorem slotProofs_eq {R : Type} (P : Prover H R) {m : List (H256 × Bytes)} (hv : Vals m)
    (ps : List U256) :
    slotProofs P m ps
      = .ok (ps.map fun p => ⟨p, slotOf m (keyOf p), P.proveSlot m (keyOf p)⟩) := by
  induction ps with
  | nil => rfl
  | cons p ps ih => simp [slotProofs, slotValue_eq hv, ih]

theorem getProof_none {R : Type} {env : Env H} (P : Prover H R) {w : World H} {a : H160}
    (ha : get w.accounts a = none) (ps : List U256) :
    getProof env P w a ps = .ok ⟨a, U256.zero, env.zero, U256.zero, env.zero,
      P.proveAccount w.accounts a, ps.map fun p => ⟨p, U256.zero, []⟩⟩ := by
  unfold getProof
  rw [ha]

theorem getProof_some {R : Type} {env : Env H} (P : Prover H R) {w : World H} {a : H160}
    {acc : Account H} {m : List (H256 × Bytes)} (ha : get w.accounts a = some acc)
    (hm : get w.db acc.storageRoot = some m) (hv : Vals m) (ps : List U256) :
    getProof env P w a ps = .ok ⟨a, acc.balance, acc.codeHash, acc.nonce, acc.storageRoot,
      P.proveAccount w.accounts a,
      ps.map fun p => ⟨p, slotOf m (keyOf p), P.proveSlot m (keyOf p)⟩⟩ := by
  unfold getProof
  rw [ha]
  dsimp only
  rw [hm]
  dsimp only
  rw [slotProofs_eq P hv]

/-- Writing an account keeps what the trie database has. -/
theorem applyOne_db {env : Env H} {w w' : World H} {a : H160} {b : Basic} {c : Option Bytes}
    {ws : List (H256 × U256)} {reset e : Bool} (h : applyOne env w a b c ws reset = .ok (w', e))
    (k : H) (hk : get w.db k ≠ none) : get w'.db k ≠ none := by
  unfold applyOne at h
  dsimp only at h
  split at h
  next m0 _ =>
    injection h with h
    injection h with h _
    subst h
    have : ∀ m, get (put w.db (env.rootOf m) m) k ≠ none := by
      intro m
      rw [get_put]
      split
      · simp
      · exact hk
    cases c with
    | none => exact this _
    | some c =>
      dsimp only
      split <;> exact this _
  · cases h
  · cases h

theorem applyChanges_db {env : Env H} {de : Bool} {cs : List Change} {w w' : World H}
    (h : applyChanges env de cs w = .ok w') (k : H) (hk : get w.db k ≠ none) :
    get w'.db k ≠ none := by
  induction cs generalizing w with
  | nil => cases h; exact hk
  | cons ch cs ih =>
    unfold applyChanges at h
    cases h1 : applyChange env de w ch with
    | err => rw [h1] at h; cases h
    | panic => rw [h1] at h; cases h
    | ok w1 =>
      rw [h1] at h
      refine ih h ?_
      cases ch with
      | delete a => cases h1; exact hk
      | modify a b c ws reset =>
        unfold applyChange at h1
        dsimp only at h1
        cases h2 : applyOne env w a b c ws reset with
        | err => rw [h2] at h1; cases h1
        | panic => rw [h2] at h1; cases h1
        | ok r =>
          rw [h2] at h1
          have := applyOne_db h2 k hk
          simp only [Outcome.bind] at h1
          injection h1 with h1
          subst h1
          split <;> exact this

end Axon.StateProof
