import Verif.Api.BlockReport
import Verif.Api.Logs

/-!
# Subscriptions

`core/api/src/jsonrpc/ws_subscription.rs`.  A task holds the open subscriptions; every three seconds it looks for
new blocks and prepares messages.

`SubscriptionSink::send` of the jsonrpsee release the node is built with (0.20.3, `Cargo.lock`) is an `async fn`:
the call makes a future, and only awaiting the future puts the message into the connection's queue.  The crate is
not part of the repository; this is its documented interface.  A call of `send` is therefore modelled as a
`Future`, which says whether it is awaited.
-/

namespace Axon.Api.Sub

open Axon Axon.Block Axon.Api

/-- Messages; `σ` is the synchronisation status. -/
inductive Msg (σ : Type) where
  | head (h : Web3Header)
  | log (g : Web3Log)
  | sync (s : σ)
deriving DecidableEq

/-- A call of `sink.send(msg)`. -/
structure Future (σ : Type) where
  sink : Nat
  msg : Msg σ
  awaited : Bool
deriving DecidableEq

/-- `let _ignore = hub.sink.send(msg)`, ws_subscription.rs:137, 145, 156, 201: the future is dropped. -/
def send {σ : Type} (sink : Nat) (msg : Msg σ) : Future σ := ⟨sink, msg, false⟩

/-- What arrives at the clients. -/
def delivered {σ : Type} (fs : List (Future σ)) : List (Nat × Msg σ) :=
  (fs.filter (·.awaited)).map fun f => (f.sink, f.msg)

/-- `LoggerFilter` of the subscriptions, ws_subscription.rs:274-278 -/
structure LogFilter where
  address : Option (List H160)
  topics : List (Option (List (Option H256)))
deriving DecidableEq

/-- `From<RawLoggerFilter>`, ws_subscription.rs:280-293 -/
def LogFilter.ofRaw (address : MultiAddr) (topics : Option (List MultiNest)) : LogFilter :=
  { address := address.toOption, topics := compile topics }

/-- `Subscription`, ws_subscription.rs:72-79; a sink is a number. -/
structure State where
  logHubs : List (Nat × LogFilter)
  headerHubs : List Nat
  syncHubs : List Nat
  current : Nat
deriving DecidableEq

/-- `Subscription::new`, ws_subscription.rs:85-100 -/
def init (latest : Option Header) : Reply State :=
  (Reply.unwrap latest).bind fun h =>
    .ok { logHubs := [], headerHubs := [], syncHubs := [], current := h.number.val }

/-- `get_block_by_number(Some(number))`, `unwrap`ped twice, for the numbers in turn, ws_subscription.rs:123-130,
164-170 -/
def blocksAt (A : Adapter) : List Nat → Reply (List Block)
  | [] => .ok []
  | n :: ns =>
    (Reply.unwrap (A.block n)).bind fun ob =>
    (Reply.unwrap ob).bind fun b =>
    (blocksAt A ns).bind fun bs => .ok (b :: bs)

/-- The messages about the receipts of a block, ws_subscription.rs:185-205.  What is passed as the position of the
transaction is the number of logs before it. -/
def receiptLogs {σ : Type} (hubs : List (Nat × LogFilter)) : Nat → List Rcpt → List (Future σ)
  | _, [] => []
  | index, r :: rs =>
    (hubs.flatMap fun (sink, f) =>
      (fromReceipt index f.topics (f.address.getD []) r).map fun g => send sink (.log g)) ++
    receiptLogs hubs (index + r.logs.length) rs

/-- ws_subscription.rs:178-206 -/
def blockLogs {σ : Type} (A : Adapter) (hubs : List (Nat × LogFilter)) :
    List (Nat × List H256) → Reply (List (Future σ))
  | [] => .ok []
  | (number, hashes) :: rest =>
    (Reply.unwrap (A.receipts number hashes)).bind fun rs =>
    (blockLogs A hubs rest).bind fun fs => .ok (receiptLogs hubs 0 (rs.filterMap id) ++ fs)

/-- The open subscriptions, ws_subscription.rs:103-105 -/
def retain (closed : Nat → Bool) (st : State) : State :=
  { st with
    headerHubs := st.headerHubs.filter fun s => !closed s
    syncHubs := st.syncHubs.filter fun s => !closed s
    logHubs := st.logHubs.filter fun p => !closed p.1 }

/-- `notify`, ws_subscription.rs:102-210.  `closed` are the sinks found closed, `sync` the status read.
Simplified: `current_number + 1` is not checked for overflow. -/
def notify {σ : Type} (A : Adapter) (closed : Nat → Bool) (sync : σ) (st0 : State) :
    Reply (State × List (Future σ)) :=
  let st := retain closed st0
  (Reply.unwrap A.latest).bind fun latest =>
  let n := latest.header.number.val
  if st.current = n then .ok (st, [])
  else
    let between := List.range' (st.current + 1) (n - (st.current + 1))
    (if st.headerHubs.isEmpty then .ok ([], [])
      else
        (blocksAt A between).bind fun bs =>
        .ok (bs.map fun b => (b.header.number.val, b.txHashes),
          (bs ++ [latest]).flatMap fun b => st.headerHubs.map fun s => send s (.head (web3Header b.header)))).bind
      fun (vec, heads) =>
    let syncs := st.syncHubs.map fun s => send s (.sync sync)
    (if st.logHubs.isEmpty then .ok []
      else
        (if vec.isEmpty then
          (blocksAt A between).bind fun bs => .ok (bs.map fun b => (b.header.number.val, b.txHashes))
          else .ok vec).bind fun vec =>
        blockLogs A st.logHubs (vec ++ [(n, latest.txHashes)])).bind fun logs =>
    .ok ({ st with current := n }, heads ++ syncs ++ logs)

/-- What the task reacts to, ws_subscription.rs:212-238. -/
inductive Event (σ : Type) where
  | newHeads (sink : Nat)
  | logs (sink : Nat) (address : MultiAddr) (topics : Option (List MultiNest))
  | syncing (sink : Nat)
  | tick (A : Adapter) (closed : Nat → Bool) (sync : σ)

/-- One turn of `run`, ws_subscription.rs:214-237. -/
def step {σ : Type} (st : State) : Event σ → Reply (State × List (Future σ))
  | .newHeads s => .ok ({ st with headerHubs := st.headerHubs ++ [s] }, [])
  | .logs s a t => .ok ({ st with logHubs := st.logHubs ++ [(s, LogFilter.ofRaw a t)] }, [])
  | .syncing s => .ok ({ st with syncHubs := st.syncHubs ++ [s] }, [])
  | .tick A closed sync => notify A closed sync st

/-- `run`, ws_subscription.rs:212-238 -/
def run {σ : Type} : State → List (Event σ) → Reply (State × List (Future σ))
  | st, [] => .ok (st, [])
  | st, e :: es =>
    (step st e).bind fun (st, fs) =>
    (run st es).bind fun (st, gs) => .ok (st, fs ++ gs)

/-- `HexIdProvider::next_id`, ws_subscription.rs:319-324: the identifiers of subscriptions count up; the
counter wraps around at 64 bits.  The text is the hex form of the number. -/
def nextId (counter : Nat) : Nat × Nat := (counter, (counter + 1) % 2 ^ 64)

end Axon.Api.Sub
