import Verif.Codec.Block

/-!
# Answers of the JSON-RPC interface and the data it reads

`core/api/src/jsonrpc/error.rs`, `core/api/src/adapter.rs` and the stored types of
`Verif.Codec.Block`.
-/

namespace Axon.Api

open Axon Axon.Block

/-- `RpcError`, error.rs:8-61, the variants that occur in the modelled methods; the text of
`Internal` is omitted. -/
inductive RpcError where
  | gasPriceIsZero
  | gasPriceIsTooLarge
  | gasLimitIsTooLow
  | gasLimitIsTooLarge
  | cannotGetLatestBlock
  | invalidBlockHash
  | invalidFromBlockNumber (n : Nat)
  | invalidBlockRange (start stop max : Nat)
  | invalidNewestBlock
  | invalidPosition (n : Nat)
  | cannotFindBlock
  | invalidRewardPercentiles
  | invalidFromBlockAndToBlockUnion
  | cannotFindFilterId (n : Nat)
  | callSystemContract
  | evm
  | internal
deriving DecidableEq, Repr

/-- What a method does: it answers, answers an error, or its thread panics.  A panic stops the whole
node: the hook of `core/run/src/components/system.rs:27-37` makes the process quit. -/
inductive Reply (α : Type) where
  | ok (a : α)
  | err (e : RpcError)
  | panic
deriving DecidableEq, Repr

namespace Reply

def bind {α β : Type} (x : Reply α) (f : α → Reply β) : Reply β :=
  match x with
  | .ok a => f a
  | .err e => .err e
  | .panic => .panic

/-- `Option::unwrap`. -/
def unwrap {α : Type} : Option α → Reply α
  | some a => .ok a
  | none => .panic

/-- `.map_err(|e| RpcError::Internal(e.to_string()))?` on a storage answer, where `none` stands for
a storage error. -/
def internal {α : Type} : Option α → Reply α
  | some a => .ok a
  | none => .err .internal

end Reply

/-- A receipt; of the exit reason only whether it is a success (`Receipt::status`,
`protocol/src/types/receipt.rs:44-49`). -/
abbrev Rcpt := Receipt Bool

/-- The reading methods of `APIAdapter` used below (adapter.rs:84-140).  The outer option is `none`
when the storage reports an error. -/
structure Adapter where
  /-- `get_block_by_number(ctx, Some(n))`, adapter.rs:84-93 -/
  block : Nat → Option (Option Block)
  /-- `get_block_by_number(ctx, None)`: the latest block or a storage error -/
  latest : Option Block
  /-- `get_block_by_hash` -/
  blockByHash : H256 → Option (Option Block)
  /-- `get_block_number_by_hash` -/
  numberByHash : H256 → Option (Option Nat)
  /-- `get_receipts_by_hashes` -/
  receipts : Nat → List H256 → Option (List (Option Rcpt))

/-- `get_block_by_number(ctx, height)`, adapter.rs:84-93 -/
def Adapter.blockAt (A : Adapter) : Option Nat → Option (Option Block)
  | some n => A.block n
  | none => A.latest.map some

/-! ## Chains -/

/-- A block together with its receipts, one for each transaction. -/
structure Full where
  block : Block
  receipts : List Rcpt
deriving DecidableEq

/-- A chain: the block at position `n` has number `n` and one receipt for each of its
transactions. -/
structure Wf (chain : List Full) : Prop where
  number : ∀ (n : Nat) (f : Full), chain[n]? = some f → f.block.header.number.val = n
  receipts : ∀ f ∈ chain, f.receipts.length = f.block.txHashes.length
  nonempty : chain ≠ []

/-- The adapter reads a chain: blocks by number, the last block as the latest one, and all receipts
of every block. -/
structure Serves (A : Adapter) (chain : List Full) : Prop where
  wf : Wf chain
  block : ∀ n, A.block n = some (chain[n]?.map (·.block))
  latest : A.latest = chain.getLast?.map (·.block)
  receipts : ∀ (n : Nat) (f : Full), chain[n]? = some f →
    A.receipts n f.block.txHashes = some (f.receipts.map some)

/-- The block identifier of a request, `BlockId`, web3_types.rs:325-333. -/
inductive BlockId where
  | num (n : U64)
  | hash (h : H256)
  | latest
  | earliest
  | pending
deriving DecidableEq

end Axon.Api
