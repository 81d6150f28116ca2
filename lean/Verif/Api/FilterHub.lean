import Verif.Api.Logs
import Verif.Util.Assoc

/-!
# Installed filters

`core/api/src/jsonrpc/impl/filter.rs`: `eth_newFilter`, `eth_newBlockFilter`,
`eth_getFilterChanges`, `eth_getFilterLogs`, `eth_uninstallFilter` and the task that owns the
filters.  The task handles one command after the other; a command is answered over a one-shot
channel.
-/

namespace Axon.Api

open Axon Axon.Block Axon.Assoc

/-- `LoggerFilter`, filter.rs:31-37 -/
structure LoggerFilter where
  fromBlock : Option BlockId
  toBlock : Option BlockId
  address : Option (List H160)
  topics : List (Option (List (Option H256)))
deriving DecidableEq

/-- `From<RawLoggerFilter> for LoggerFilter`, filter.rs:39-54 -/
def LoggerFilter.ofRaw (f : Filter) : LoggerFilter :=
  { fromBlock := f.fromBlock, toBlock := f.toBlock, address := f.address.toOption,
    topics := compile f.topics }

/-- `FilterHub`, filter.rs:134-140: the two maps with the last instant (seconds) of use. -/
structure Hub where
  logs : List (U256 × (LoggerFilter × Nat)) := []
  blocks : List (U256 × (Nat × Nat)) := []

/-- The commands, filter.rs:127-132, with the random identifier drawn for a new filter
(filter.rs:391-394); `tick` is the timer of 20 seconds (filter.rs:161, 174-176).
`eth_getFilterLogs` and `eth_getFilterChanges` send the same command (filter.rs:93-113). -/
inductive Cmd where
  | newLogs (f : Filter) (id : U256)
  | newBlocks (id : U256)
  | request (id : U256)
  | uninstall (id : U256)
  | tick

/-- A command with its instant, the storage at that instant, and whether the caller still waits for
the answer. -/
structure Event where
  now : Nat
  adapter : Adapter
  cmd : Cmd
  waiting : Bool := true

/-- What the caller gets. -/
inductive Answer where
  | id (n : U256)
  | blocks (l : List H256)
  | logs (l : List Web3Log)
  | err (e : RpcError)
  | removed (b : Bool)
  | none
deriving DecidableEq

/-- `check_hubs`, filter.rs:184-190 -/
def checkHubs (now : Nat) (h : Hub) : Hub :=
  { logs := h.logs.filter fun e => now - e.2.2 < 40,
    blocks := h.blocks.filter fun e => now - e.2.2 < 40 }

/-- The block at which a new log filter starts, filter.rs:203-212; `none` stands for the panic of
`header.number + 1`. -/
def startOf (latest : U64) (from' : Option BlockId) : Option BlockId :=
  match from'.getD .latest with
  | .num n => if n.val < latest.val then (UIntN.ofNat? 64 (latest.val + 1)).map .num else some (.num n)
  | _ => (UIntN.ofNat? 64 (latest.val + 1)).map .num

/-- The hashes of the blocks `n`, `n + 1`, …: loop of filter.rs:268-278.  A storage error and a
missing block panic. -/
def blockHashes (hash : Block → H256) (A : Adapter) : List Nat → Reply (List H256)
  | [] => .ok []
  | n :: rest =>
    (Reply.unwrap (A.block n)).bind fun ob =>
    (Reply.unwrap ob).bind fun b =>
    (blockHashes hash A rest).bind fun l => .ok (hash b :: l)

/-- `filter_block`, filter.rs:254-285: the hashes and the new state of the filter. -/
def filterBlock (hash : Block → H256) (A : Adapter) (now : Nat) (st : Nat × Nat) :
    Reply (List H256 × (Nat × Nat)) :=
  (Reply.unwrap A.latest).bind fun latest =>
  let n := latest.header.number.val
  if n ≤ st.1 then .ok ([], st)
  else
    (blockHashes hash A (List.range' (st.1 + 1) (n - (st.1 + 1)))).bind fun l =>
    .ok (l ++ [hash latest], (n, now))

/-- The closure `extend_logs`, filter.rs:336-346, on the receipts present. -/
def collectLogs (topics : List (Option (List (Option H256)))) (address : List H160)
    (rs : List (Option Rcpt)) : List Web3Log :=
  (rs.filterMap id).zipIdx.flatMap fun (r, i) => fromReceipt i topics address r

/-- The loop of filter.rs:349-367 without the latest block. -/
def collectRange (A : Adapter) (topics : List (Option (List (Option H256)))) (address : List H160)
    (latest : Nat) : List Nat → Reply (List Web3Log)
  | [] => .ok []
  | n :: rest =>
    if n = latest then collectRange A topics address latest rest
    else
      (Reply.internal (A.block n)).bind fun ob =>
      (Reply.unwrap ob).bind fun b =>
      (Reply.internal (A.receipts b.header.number.val b.txHashes)).bind fun rs =>
      (collectRange A topics address latest rest).bind fun l =>
      .ok (collectLogs topics address rs ++ l)

/-- The new start of a filter after an answer up to `stop`, filter.rs:383-385; `none` stands for the
panic of `end + 1`. -/
def advance (stop : Nat) (f : LoggerFilter) : Option LoggerFilter :=
  match f.fromBlock with
  | some (.num _) => (UIntN.ofNat? 64 (stop + 1)).map fun n => { f with fromBlock := some (.num n) }
  | _ => some f

/-- `filter_logs`, filter.rs:287-390: the logs and the new state of the filter. -/
def filterLogs (A : Adapter) (maxRange now : Nat) (st : LoggerFilter × Nat) :
    Reply (List Web3Log × (LoggerFilter × Nat)) :=
  let f := st.1
  (Reply.internal A.latest).bind fun latestBlock =>
  let latest := latestBlock.header.number.val
  let start := (f.fromBlock.map (convertId latest)).getD latest
  let stop := min ((f.toBlock.map (convertId latest)).getD latest) latest
  let address := f.address.getD []
  if latest < start then .ok ([], st)
  else if maxRange < stop - start then .err (.invalidBlockRange start stop maxRange)
  else
    (collectRange A f.topics address latest (rangeIncl start stop)).bind fun l =>
    (if (rangeIncl start stop).contains latest then
        (Reply.internal (A.receipts latest latestBlock.txHashes)).bind fun rs =>
        .ok (l ++ collectLogs f.topics address rs)
      else .ok l).bind fun l' =>
    (Reply.unwrap (advance stop f)).bind fun f' =>
    .ok (l', (f', now))

/-- `U256::as_u64` panics above 64 bits, filter.rs:249. -/
def unknownId (id : U256) : Reply Answer :=
  if id.val < 2 ^ 64 then .ok (.err (.cannotFindFilterId id.val)) else .panic

/-- `impl_filter`, filter.rs:237-252 -/
def implFilter (hash : Block → H256) (A : Adapter) (maxRange now : Nat) (h : Hub) (id : U256) :
    Reply (Hub × Answer) :=
  match get h.blocks id with
  | some st =>
    (filterBlock hash A now st).bind fun (l, st') =>
    .ok ({ h with blocks := put h.blocks id st' }, .blocks l)
  | none =>
    match get h.logs id with
    | some st =>
      match filterLogs A maxRange now st with
      | .ok (l, st') => .ok ({ h with logs := put h.logs id st' }, .logs l)
      | .err e => .ok ({ h with logs := del h.logs id }, .err e)
      | .panic => .panic
    | none => (unknownId id).bind fun a => .ok (h, a)

/-- The tests of `new_filter` before the command is sent, filter.rs:63-71. -/
def newFilterTest (f : Filter) : Option RpcError :=
  if f.fromBlock = some .pending then some .invalidFromBlockAndToBlockUnion
  else match f.toBlock with
    | some .earliest => some .internal
    | some (.num n) => if n.val = 0 then some .internal else none
    | _ => none

/-- `handle`, filter.rs:192-235, and the timer; without the answer channel. -/
def handle (hash : Block → H256) (maxRange : Nat) (h : Hub) (e : Event) : Reply (Hub × Answer) :=
  match e.cmd with
  | .newLogs f id =>
    match newFilterTest f with
    | some err => .ok (h, .err err)
    | none =>
      (Reply.unwrap e.adapter.latest).bind fun latest =>
      (Reply.unwrap (startOf latest.header.number f.fromBlock)).bind fun s =>
      .ok ({ h with logs := put h.logs id ({ LoggerFilter.ofRaw f with fromBlock := some s }, e.now) },
        .id id)
  | .newBlocks id =>
    (Reply.unwrap e.adapter.latest).bind fun latest =>
    .ok ({ h with blocks := put h.blocks id (latest.header.number.val, e.now) }, .id id)
  | .request id => implFilter hash e.adapter maxRange e.now h id
  | .uninstall id =>
    if (get h.blocks id).isSome then .ok ({ h with blocks := del h.blocks id }, .removed true)
    else .ok ({ h with logs := del h.logs id }, .removed (get h.logs id).isSome)
  | .tick => .ok (checkHubs e.now h, .none)

/-- A command is sent to the task; rejected ones and the timer are not. -/
def sent (e : Event) : Bool :=
  match e.cmd with
  | .tick => false
  | .newLogs f _ => (newFilterTest f).isNone
  | _ => true

/-- One step of the task: every arm answers with `sender.send(..).unwrap()` (filter.rs:215, 226, 232,
240, 246, 248-250), which panics when the caller has gone. -/
def step (hash : Block → H256) (maxRange : Nat) (h : Hub) (e : Event) : Reply (Hub × Answer) :=
  (handle hash maxRange h e).bind fun r =>
  if sent e && !e.waiting then .panic else .ok r

/-- A history: the answers, or the panic of the task. -/
def run (hash : Block → H256) (maxRange : Nat) : Hub → List Event → Reply (Hub × List Answer)
  | h, [] => .ok (h, [])
  | h, e :: es =>
    (step hash maxRange h e).bind fun (h', a) =>
    (run hash maxRange h' es).bind fun (h'', as) => .ok (h'', a :: as)

end Axon.Api
