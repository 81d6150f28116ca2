import Verif.Executor.Precompiles

/-!
# Proofs in CKB's Merkle trees

The precompiled contract `CMBTVerify` (`core/executor/src/precompiles/ckb_mbt_verify.rs`) and the same check
for clients (`devtools/axon-tools/src/precompile.rs:54-92`).

`MerkleProof` and `merkle_root` come from the crates `ckb-types` and `merkle-cbt`, whose sources are not part
of the repository; the algorithm here is the published one, on numbers instead of `u32` indices.  The hash
of two nodes is a parameter, and so is the decoding of the input.
-/

namespace Axon.Cbmt

open Axon Axon.Precompiles
open Axon.Modexp (Reply)

variable {T : Type} [DecidableEq T]

/-- The other child of the parent: nodes `2 i + 1` and `2 i + 2` are the children of `i`. -/
def sibling (i : Nat) : Nat := if i % 2 = 1 then i + 1 else i - 1

def parent (i : Nat) : Nat := (i - 1) / 2

/-- The pair of a node and its sibling, from left to right. -/
def ordered (i : Nat) (x y : T) : T × T := if i % 2 = 1 then (x, y) else (y, x)

/-- The sibling's hash: from the queue if it is next there, else the next lemma. -/
def takeSibling (i : Nat) (q : List (Nat × T)) (ls : List T) : Option (T × List (Nat × T) × List T) :=
  match q with
  | (j, y) :: q' =>
    if j = sibling i then some (y, q', ls)
    else match ls with
      | [] => none
      | y :: ls => some (y, q, ls)
  | [] =>
    match ls with
    | [] => none
    | y :: ls => some (y, [], ls)

/-- The loop of `MerkleProof::root`; every round shrinks the sum of the indices, so `fuel` above that sum
does not run out. -/
def climb (merge : T → T → T) : Nat → List (Nat × T) → List T → Option T
  | 0, _, _ => none
  | _ + 1, [], _ => none
  | fuel + 1, (i, x) :: q, ls =>
    if i = 0 then if ls.isEmpty && q.isEmpty then some x else none
    else
      match takeSibling i q ls with
      | none => none
      | some (y, q, ls) =>
        climb merge fuel (q ++ [(parent i, merge (ordered i x y).1 (ordered i x y).2)]) ls

/-- The pairs hashed on the way. -/
def made (merge : T → T → T) : Nat → List (Nat × T) → List T → List (T × T)
  | 0, _, _ => []
  | _ + 1, [], _ => []
  | fuel + 1, (i, x) :: q, ls =>
    if i = 0 then []
    else
      match takeSibling i q ls with
      | none => []
      | some (y, q, ls) =>
        ordered i x y ::
          made merge fuel (q ++ [(parent i, merge (ordered i x y).1 (ordered i x y).2)]) ls

/-- `sort_by(|a, b| b.0.cmp(&a.0))`: by index, downwards. -/
def downwards (l : List (Nat × T)) : List (Nat × T) := l.mergeSort (fun a b => b.1 ≤ a.1)

/-- Rounds that suffice. -/
def rounds (l : List (Nat × T)) : Nat := (l.map (·.1)).sum + 1

/-- `MerkleProof::root` -/
def proofRoot (merge : T → T → T) (indices : List Nat) (lemmas leaves : List T) : Option T :=
  if leaves.length ≠ indices.length ∨ leaves = [] then none
  else climb merge (rounds (indices.zip leaves)) (downwards (indices.zip leaves)) lemmas

/-- `MerkleProof::verify` -/
def verifyProof (merge : T → T → T) (root : T) (indices : List Nat) (lemmas leaves : List T) : Bool :=
  proofRoot merge indices lemmas leaves == some root

/-- `VerifyProofPayload` and `Proof`, ckb_mbt_verify.rs:15-32 -/
structure Payload (T : Type) where
  verifyType : UInt8
  transactionsRoot : T
  witnessesRoot : T
  rawRoot : T
  indices : List Nat
  lemmas : List T
  leaves : List T

inductive VErr where
  | root
  | proof
deriving DecidableEq, Repr

/-- `inner_verify_proof`, ckb_mbt_verify.rs:75-113; `merkle_root` of two hashes is their merge. -/
def check (merge : T → T → T) (p : Payload T) : Except VErr Unit :=
  if merge p.rawRoot p.witnessesRoot ≠ p.transactionsRoot then .error .root
  else if verifyProof merge (if p.verifyType = 0 then p.rawRoot else p.witnessesRoot)
      p.indices p.lemmas p.leaves then .ok ()
  else .error .proof

/-- `exec_fn`, ckb_mbt_verify.rs:41-62 -/
def exec (merge : T → T → T) (parse : Bytes → Option (Payload T)) (input : Bytes) (limit : Option Nat) :
    Reply :=
  priced 56000 limit fun _ =>
    match parse input with
    | none => none
    | some p =>
      match check merge p with
      | .ok () => some [1]
      | .error _ => none

/-- `verify_proof` of axon-tools, precompile.rs:54-92 -/
def clientCheck (merge : T → T → T) (p : Payload T) : Bool :=
  if merge p.rawRoot p.witnessesRoot != p.transactionsRoot then false
  else
    let root := if p.verifyType == 0 then p.rawRoot else p.witnessesRoot
    verifyProof merge root p.indices p.lemmas p.leaves

/-! ## Building proofs -/

/-- The lemmas for a queue of indices in a tree, `MerkleTree::build_proof`. -/
def buildLemmas (node : Nat → T) : Nat → List Nat → List T
  | 0, _ => []
  | _ + 1, [] => []
  | fuel + 1, i :: q =>
    if i = 0 then []
    else if q.head? = some (sibling i) then buildLemmas node fuel (q.tail ++ [parent i])
    else node (sibling i) :: buildLemmas node fuel (q ++ [parent i])

end Axon.Cbmt
