import Verif.Util.Bytes
import Verif.Codec.Rlp
import Verif.Codec.Block

/-!
# Signatures of votes

`OverlordCrypto` (`core/consensus/src/util.rs:45-176`), which Overlord signs and checks votes with, its
table of keys (`core/consensus/src/engine.rs:709-726`, `789-800`, `core/run/src/lib.rs:377-396`) and the
events that should keep the table current.  The BLS signatures of the crate `ophelia-blst` are a
parameter.
-/

namespace Axon.Bls

open Axon Axon.Block

/-- BLS signatures with aggregation by addition. -/
structure Scheme where
  Secret : Type
  Key : Type
  Sig : Type
  pub : Secret → Key
  sign : Secret → H256 → Sig
  verify : Sig → H256 → Key → Bool
  addKey : Key → Key → Key
  subKey : Key → Key → Key
  addSig : Sig → Sig → Sig
  parseKey : Bytes → Option Key
  parseSig : Bytes → Option Sig
  sigBytes : Sig → Bytes

/-- What the aggregation of BLS signatures is known to satisfy. -/
structure Laws (S : Scheme) : Prop where
  correct : ∀ x m, S.verify (S.sign x m) m (S.pub x) = true
  add : ∀ s s' m k k', S.verify s m k = true → S.verify s' m k' = true →
    S.verify (S.addSig s s') m (S.addKey k k') = true
  cancel : ∀ p k, S.addKey p (S.subKey k p) = k
  bytes : ∀ s, S.parseSig (S.sigBytes s) = some s

inductive CErr where
  | hash
  | loseKey
  | length
  | crypto
deriving DecidableEq, Repr

/-- `HashValue::try_from` on a slice. -/
def hashValue (h : Bytes) : Option H256 := FixedBytes.ofBytes 32 h

/-- The table: the latest entry of a key counts. -/
abbrev Table (S : Scheme) := List (Bytes × S.Key)

/-- `HashMap::get` -/
def Table.get {S : Scheme} (t : Table S) (a : Bytes) : Option S.Key := t.lookup a

/-- util.rs:57-66 `sign`. -/
def signVote (S : Scheme) (x : S.Secret) (h : Bytes) : Except CErr Bytes :=
  match hashValue h with
  | none => .error .hash
  | some h => .ok (S.sigBytes (S.sign x h))

/-- util.rs:68-90 `verify_signature`. -/
def verifySignature (S : Scheme) (t : Table S) (sig h voter : Bytes) : Except CErr Unit :=
  match hashValue h with
  | none => .error .hash
  | some h =>
    match t.get voter with
    | none => .error .loseKey
    | some k =>
      match S.parseSig sig with
      | none => .error .crypto
      | some s => if S.verify s h k then .ok () else .error .crypto

/-- The loop of util.rs:105-117. -/
def collect (S : Scheme) (t : Table S) : List (Bytes × Bytes) → Except CErr (List S.Sig)
  | [] => .ok []
  | (sig, voter) :: l =>
    match S.parseSig sig with
    | none => .error .crypto
    | some s =>
      match t.get voter with
      | none => .error .loseKey
      | some _ =>
        match collect S t l with
        | .error e => .error e
        | .ok r => .ok (s :: r)

/-- `BlsSignature::combine`: the sum; nothing to sum is an error. -/
def sumSigs (S : Scheme) : List S.Sig → Option S.Sig
  | [] => none
  | s :: l => some (l.foldl S.addSig s)

/-- `BlsPublicKey::aggregate`. -/
def sumKeys (S : Scheme) : List S.Key → Option S.Key
  | [] => none
  | k :: l => some (l.foldl S.addKey k)

/-- util.rs:92-122 `aggregate_signatures`. -/
def aggregate (S : Scheme) (t : Table S) (sigs voters : List Bytes) : Except CErr Bytes :=
  if sigs.length ≠ voters.length then .error .length
  else
    match collect S t (sigs.zip voters) with
    | .error e => .error e
    | .ok l =>
      match sumSigs S l with
      | none => .error .crypto
      | some s => .ok (S.sigBytes s)

/-- The loop of util.rs:133-138. -/
def keysOf (S : Scheme) (t : Table S) : List Bytes → Option (List S.Key)
  | [] => some []
  | a :: l => do
    let k ← t.get a
    let r ← keysOf S t l
    some (k :: r)

/-- util.rs:158-175 `inner_verify_aggregated_signature`. -/
def innerVerify (S : Scheme) (h : Bytes) (keys : List S.Key) (sig : Bytes) : Except CErr Unit :=
  match sumKeys S keys with
  | none => .error .crypto
  | some k =>
    match S.parseSig sig with
    | none => .error .crypto
    | some s =>
      match hashValue h with
      | none => .error .hash
      | some h => if S.verify s h k then .ok () else .error .crypto

/-- util.rs:124-142 `verify_aggregated_signature`. -/
def verifyAggregated (S : Scheme) (t : Table S) (sig h : Bytes) (voters : List Bytes) : Except CErr Unit :=
  match keysOf S t voters with
  | none => .error .loseKey
  | some ks => innerVerify S h ks sig

/-! ## The table of keys -/

/-- A validator of the metadata: its public key and its BLS key, as bytes. -/
abbrev Member := Bytes × Bytes

/-- engine.rs:789-800 `generate_new_crypto_map`, and the loop of run/src/lib.rs:383-390: `none` for a
BLS key that does not parse. -/
def tableOf (S : Scheme) (vs : List Member) : Option (Table S) :=
  vs.foldl (fun t v => t.bind fun t => (S.parseKey v.2).map fun k => (v.1, k) :: t) (some [])

/-- What the metadata of a chain say: the validators for each number, and which blocks are the last of
their epoch. -/
structure Epochs where
  members : Nat → List Member
  last : Nat → Bool

/-- A node: `saved` the latest stored block, `status` the last number of its current status, `table` the
keys in use while the process runs. -/
structure Node (S : Scheme) where
  saved : Nat
  status : Nat
  table : Option (Table S)

inductive Op where
  | start
  | stop
  | commit
  | sync
deriving DecidableEq, Repr

/-- The events.  `start`: run/src/lib.rs:210-221, keys of the metadata for the stored block.  `commit`:
engine.rs:651-757; the block is stored before the new keys are made, and the status changes after that
(what Overlord does after such a failure is not modelled: no theorem speaks of commits from a status
that lags).
`sync`: synchronization.rs:302-375 and its `update_status`, which do not touch the keys. -/
def step (S : Scheme) (E : Epochs) (n : Node S) : Op → Node S
  | .stop => { n with table := none }
  | .start =>
    match n.table with
    | some _ => n
    | none => { n with table := tableOf S (E.members n.saved), status := n.saved }
  | .sync =>
    match n.table with
    | none => n
    | some t => ⟨n.saved + 1, n.saved + 1, some t⟩
  | .commit =>
    match n.table with
    | none => n
    | some t =>
      if E.last (n.saved + 1) then
        match tableOf S (E.members (n.saved + 2)) with
        | none => { n with saved := n.saved + 1 }
        | some t' => ⟨n.saved + 1, n.saved + 1, some t'⟩
      else ⟨n.saved + 1, n.saved + 1, some t⟩

def run (S : Scheme) (E : Epochs) (ops : List Op) : Node S := ops.foldl (step S E) ⟨0, 0, none⟩

/-! ## Lemmas -/

theorem run_snoc (S : Scheme) (E : Epochs) (ops : List Op) (op : Op) :
    run S E (ops ++ [op]) = step S E (run S E ops) op := by
  unfold run
  rw [List.foldl_append]
  rfl

theorem fold_none (S : Scheme) (vs : List Member) :
    vs.foldl (fun t v => t.bind fun t => (S.parseKey v.2).map fun k => (v.1, k) :: t)
      (none : Option (Table S)) = none := by
  induction vs with
  | nil => rfl
  | cons v vs ih => rw [List.foldl_cons]; exact ih

theorem tableOf_snoc (S : Scheme) (vs : List Member) (v : Member) :
    tableOf S (vs ++ [v]) = (tableOf S vs).bind fun t => (S.parseKey v.2).map fun k => (v.1, k) :: t := by
  unfold tableOf
  rw [List.foldl_append]
  rfl

end Axon.Bls
