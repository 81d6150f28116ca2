import Verif.Consensus.Engine

/-!
# The loop of a synchronisation batch and the assembly of a fetched block

`Engine.lean` models a batch step by step among other activities; here the loop of `start_sync` is one
function of which blocks can be fetched, verified and committed, and `get_rich_block_from_remote` is
modelled in full.
-/

namespace Axon.Sync

open Axon Axon.Assoc Axon.Chain

/-- What a batch did: the numbers it requested in order, the last committed number, and whether it
returned `Ok`. -/
structure Batch where
  requested : List Nat
  reached : Nat
  ok : Bool
deriving DecidableEq, Repr

/-- core/consensus/src/synchronization.rs:151-193, the loop of `start_sync`: `left` is
`remote_number - current_consented_number`, positive exactly while the loop condition holds.
`good n` tells whether fetching, verifying and committing block `n` all succeed. -/
def loop (good : Nat → Bool) (cur : Nat) : Nat → Batch
  | 0 => ⟨[], cur, true⟩
  | left + 1 =>
    if good (cur + 1) then
      let r := loop good (cur + 1) left
      ⟨(cur + 1) :: r.requested, r.reached, r.ok⟩
    else ⟨[cur + 1], cur, false⟩

/-- core/consensus/src/synchronization.rs:36-90 `receive_remote_block` when nothing else is running:
`need_sync`, the comparison under the lock, the bound (whose addition is checked) and the loop. -/
def receive (good : Nat → Bool) (cur remote : Nat) : Outcome Batch :=
  if remote = 0 ∨ remote ≤ cur then .ok ⟨[], cur, true⟩
  else if cur + onceSyncBlockLimit ≥ u64Size then .panic
  else .ok (loop good cur (syncTarget cur remote - cur))

/-! ## `get_rich_block_from_remote` -/

/-- core/consensus/src/synchronization.rs:390-400: the first loop.  `res`: transactions found in the
pool by index; `missing`: hash to index, a later index replaces an earlier one; `list`: missing hashes
in order. -/
def split (mem : Nat → Option Tx) : Nat → List Nat →
    List (Nat × Tx) × List (Nat × Nat) × List Nat
  | _, [] => ([], [], [])
  | i, h :: hs =>
    let (res, missing, list) := split mem (i + 1) hs
    match mem h with
    | some tx => ((i, tx) :: res, missing, list)
    | none => (res, (if (get missing h).isSome then missing else put missing h i), h :: list)

/-- `slice::chunks(n)`; `n = 0` panics. -/
def chunks (n : Nat) (l : List Nat) : Nat → List (List Nat)
  | 0 => []
  | k + 1 => if l = [] then [] else l.take n :: chunks n (l.drop n) k

/-- core/consensus/src/synchronization.rs:408-418: the transactions of one answer. -/
def absorb : List Tx → List (Nat × Tx) → List (Nat × Nat) →
    Option (List (Nat × Tx) × List (Nat × Nat))
  | [], res, missing => some (res, missing)
  | tx :: txs, res, missing =>
    match get missing tx.hash with
    | none => none
    | some i => absorb txs (sput i tx res) (del missing tx.hash)

/-- core/consensus/src/synchronization.rs:402-419: one request per chunk. -/
def fetch (remote : List Nat → Option (List Tx)) : List (List Nat) → List (Nat × Tx) →
    List (Nat × Nat) → Option (List (Nat × Tx) × List (Nat × Nat))
  | [], res, missing => some (res, missing)
  | c :: cs, res, missing =>
    match remote c with
    | none => none
    | some txs =>
      match absorb txs res missing with
      | none => none
      | some (res, missing) => fetch remote cs res missing

/-- core/consensus/src/synchronization.rs:374-432 `get_rich_block_from_remote` after the block header
arrived: the transactions in the order of their index. -/
def richTxs (mem : Nat → Option Tx) (remote : List Nat → Option (List Tx)) (chunkSize : Nat)
    (hashes : List Nat) : Outcome (List Tx) :=
  let (res, missing, list) := split mem 0 hashes
  if chunkSize = 0 then .panic
  else match fetch remote (chunks chunkSize list list.length) res missing with
    | none => .err
    | some (res, missing) => if missing = [] then .ok (res.map (·.2)) else .err

end Axon.Sync
