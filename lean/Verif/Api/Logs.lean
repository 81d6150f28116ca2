import Verif.Api.Types

/-!
# Searching logs

`core/api/src/jsonrpc/impl/web3.rs:568-758` (`eth_getLogs`) and `:1130-1172`
(`from_receipt_to_web3_log`), `web3_types.rs:511-593`.
-/

namespace Axon.Api

open Axon Axon.Block

/-- `MultiNestType<Hash>`, web3_types.rs:522-528: one position of a topic pattern. -/
inductive MultiNest where
  | single (h : H256)
  | multi (l : List (Option H256))
  | null
deriving DecidableEq

/-- `MultiType<H160>`, web3_types.rs:577-583 -/
inductive MultiAddr where
  | single (h : H160)
  | multi (l : List H160)
  | null
deriving DecidableEq

/-- `From<MultiNestType<T>> for Option<Vec<Option<T>>>`, web3_types.rs:530-538 -/
def MultiNest.toOption : MultiNest → Option (List (Option H256))
  | .null => none
  | .single i => some [some i]
  | .multi i => some i

/-- `From<MultiType<T>> for Option<Vec<T>>`, web3_types.rs:585-593 -/
def MultiAddr.toOption : MultiAddr → Option (List H160)
  | .null => none
  | .single i => some [i]
  | .multi i => some i

/-- The compiled pattern: web3.rs:570-578, filter.rs:45-51, ws_subscription.rs:284-290.  An absent
pattern is the empty one. -/
def compile (topics : Option (List MultiNest)) : List (Option (List (Option H256))) :=
  ((topics.getD []).take 4).map MultiNest.toOption

/-- One conjunct of the macro, web3.rs:1149-1152: pattern position `i` against topic `i`.  The
accesses are in range because of the length tests before them. -/
def offsetOk (topics : List (Option (List (Option H256)))) (log : Log) (i : Nat) : Bool :=
  match topics[i]?.getD none, log.topics[i]? with
  | none, _ => true
  | some alts, some t => alts.contains none || alts.contains (some t)
  | some _, none => false

/-- `contains_topic!($topics, $min_len, $log, $offsets…)`, web3.rs:1147-1154 -/
def topicArm (topics : List (Option (List (Option H256)))) (log : Log) (len : Nat)
    (offsets : List Nat) : Bool :=
  topics.length == len && decide (len ≤ log.topics.length) && offsets.all (offsetOk topics log)

/-- `contains_topic!($topics, $log)`, web3.rs:1138-1145 -/
def containsTopic (topics : List (Option (List (Option H256)))) (log : Log) : Bool :=
  topics.isEmpty || topicArm topics log 1 [0] || topicArm topics log 2 [0, 1]
    || topicArm topics log 3 [0, 1, 2] || topicArm topics log 4 [0, 1, 2, 3]

/-- `Web3Log`, web3_types.rs:632-645; all optional fields are always present. -/
structure Web3Log where
  address : H160
  topics : List H256
  data : Bytes
  blockHash : H256
  blockNumber : Nat
  transactionHash : H256
  transactionIndex : Nat
  logIndex : Nat
  removed : Bool
deriving DecidableEq

/-- The entry for a log, web3.rs:1159-1169 -/
def web3Log (index logIdx : Nat) (r : Rcpt) (log : Log) : Web3Log :=
  { address := log.address, topics := log.topics, data := log.data, blockHash := r.blockHash,
    blockNumber := r.blockNumber.val, transactionHash := r.txHash, transactionIndex := index,
    logIndex := logIdx, removed := false }

/-- `from_receipt_to_web3_log`, web3.rs:1130-1172: the entries pushed, logs numbered from `k`. -/
def fromLogs (index : Nat) (topics : List (Option (List (Option H256)))) (address : List H160)
    (r : Rcpt) : Nat → List Log → List Web3Log
  | _, [] => []
  | k, log :: rest =>
    if (address.isEmpty || address.contains log.address) && containsTopic topics log then
      web3Log index k r log :: fromLogs index topics address r (k + 1) rest
    else fromLogs index topics address r (k + 1) rest

def fromReceipt (index : Nat) (topics : List (Option (List (Option H256)))) (address : List H160)
    (r : Rcpt) : List Web3Log := fromLogs index topics address r 0 r.logs

/-! ## `eth_getLogs` -/

/-- `MAX_LOG_NUM`, web3.rs:28 -/
def maxLogNum : Nat := 10000

/-- The closure `extend_logs`, web3.rs:594-611, on the receipts that are present, numbered from
`index`; the flag is `early_return`. -/
def extendLogs (topics : List (Option (List (Option H256)))) (address : List H160) :
    Nat → List Rcpt → List Web3Log → List Web3Log × Bool
  | _, [], logs => (logs, false)
  | index, r :: rest, logs =>
    let logs' := logs ++ fromReceipt index topics address r
    if maxLogNum < logs'.length then (logs', true)
    else extendLogs topics address (index + 1) rest logs'

/-- The inner `get_logs` for a known block, web3.rs:614-635, 636-652, 653-667: the receipts of the
block, missing ones skipped (`flatten`). -/
def logsOfBlock (A : Adapter) (topics : List (Option (List (Option H256)))) (address : List H160)
    (b : Block) (logs : List Web3Log) : Reply (List Web3Log × Bool) :=
  (Reply.internal (A.receipts b.header.number.val b.txHashes)).bind fun rs =>
  .ok (extendLogs topics address 0 (rs.filterMap id) logs)

/-- The loop over the range without the latest block, web3.rs:723-741: `true` in the result means
that the whole answer is returned early. -/
def logsOfRange (A : Adapter) (topics : List (Option (List (Option H256)))) (address : List H160)
    (latest : Nat) : List Nat → List Web3Log → Reply (List Web3Log × Bool)
  | [], logs => .ok (logs, false)
  | n :: rest, logs =>
    if n = latest then logsOfRange A topics address latest rest logs
    else
      (Reply.internal (A.block n)).bind fun ob =>
      (Reply.unwrap ob).bind fun b =>
      (logsOfBlock A topics address b logs).bind fun (logs', early) =>
      if early then .ok (logs', true) else logsOfRange A topics address latest rest logs'

/-- The closure `convert`, web3.rs:693-699. -/
def convertId (latest : Nat) : BlockId → Nat
  | .num n => n.val
  | .earliest => 0
  | _ => latest

/-- The numbers `start..=end`. -/
def rangeIncl (start stop : Nat) : List Nat := List.range' start (stop + 1 - start)

/-- `Web3Filter`, web3_types.rs:511-519 -/
structure Filter where
  fromBlock : Option BlockId := none
  toBlock : Option BlockId := none
  blockHash : Option H256 := none
  address : MultiAddr := .null
  topics : Option (List MultiNest) := none

/-- The answer for a range, web3.rs:683-755; `maxRange` is `log_filter_max_block_range`. -/
def getLogsRange (A : Adapter) (maxRange : Nat) (f : Filter) : Reply (List Web3Log) :=
  (Reply.internal A.latest).bind fun latestBlock =>
  let latest := latestBlock.header.number.val
  let start := (f.fromBlock.map (convertId latest)).getD latest
  let stop := min ((f.toBlock.map (convertId latest)).getD latest) latest
  let topics := compile f.topics
  let address := f.address.toOption.getD []
  if latest < start then .err (.invalidFromBlockNumber start)
  else if maxRange < stop - start then .err (.invalidBlockRange start stop maxRange)
  else
    (logsOfRange A topics address latest (rangeIncl start stop) []).bind fun (logs, early) =>
    if early then .ok logs
    else if (rangeIncl start stop).contains latest then
      (logsOfBlock A topics address latestBlock logs).bind fun (logs', _) => .ok logs'
    else .ok logs

/-- `eth_getLogs`, web3.rs:568-758 -/
def getLogs (A : Adapter) (maxRange : Nat) (f : Filter) : Reply (List Web3Log) :=
  match f.blockHash with
  | some h =>
    (Reply.internal (A.blockByHash h)).bind fun ob =>
    match ob with
    | none => .err .invalidBlockHash
    | some b =>
      (logsOfBlock A (compile f.topics) (f.address.toOption.getD []) b []).bind fun (logs, _) =>
      .ok logs
  | none => getLogsRange A maxRange f

end Axon.Api
