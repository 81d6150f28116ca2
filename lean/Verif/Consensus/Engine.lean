import Verif.Util.Outcome
import Verif.Util.Assoc

/-!
# The consensus engine and the block synchroniser as one transition system

Two writers advance the chain of a node: `ConsensusEngine::commit` (a block agreed by Overlord) and
`OverlordSynchronization::receive_remote_block` (a batch of blocks fetched from a peer).  They share
the status (`core/consensus/src/status.rs`), the storage and one `tokio` mutex that both only
`try_lock`.  Each `await` between two effects on shared state is a step of its own, so that every
interleaving (and a crash at each point) is an execution of `step`.

Hash functions, the execution function and the quorum check (that is C25) are parameters (`Env`).
-/

namespace Axon.Chain

open Axon Axon.Assoc

/-- `u64::MAX + 1`. -/
def u64Size : Nat := 18446744073709551616

/-- protocol/src/types/block.rs `Proof`; signature and bitmap are one opaque value. -/
structure Proof where
  number : Nat
  round : Nat
  blockHash : Nat
  sig : Nat
deriving DecidableEq, Repr

/-- The fields that `Proposal` (protocol/src/types/block.rs:49-88) and `Header` have in common. -/
structure Common where
  version : Nat
  prevHash : Nat
  proposer : Nat
  txRoot : Nat
  signedTxsHash : Nat
  timestamp : Nat
  number : Nat
  gasLimit : Nat
  extra : List Nat
  baseFee : Nat
  proof : Proof
  chainId : Nat
  sysCount : Nat
deriving DecidableEq, Repr

/-- protocol/src/types/block.rs `Proposal`. -/
structure Proposal where
  common : Common
  prevStateRoot : Nat
  txHashes : List Nat
deriving DecidableEq, Repr

/-- protocol/src/types/block.rs `Header`: the shared fields and the four results of execution. -/
structure Header where
  common : Common
  stateRoot : Nat
  receiptsRoot : Nat
  logBloom : Nat
  gasUsed : Nat
deriving DecidableEq, Repr

/-- protocol/src/types/block.rs:151-154 `Block`. -/
structure Block where
  header : Header
  txHashes : List Nat
deriving DecidableEq, Repr

abbrev Block.number (b : Block) : Nat := b.header.common.number
abbrev Block.timestamp (b : Block) : Nat := b.header.common.timestamp
abbrev Block.prevHash (b : Block) : Nat := b.header.common.prevHash

/-- A signed transaction: its hash and everything else. -/
structure Tx where
  hash : Nat
  body : Nat
deriving DecidableEq, Repr

/-- protocol/src/types/executor.rs `ExecResp`: the parts that reach the header.  The bloom is a
function of the logs of the response, here a component of it. -/
structure ExecResp where
  stateRoot : Nat
  receiptRoot : Nat
  logBloom : Nat
  gasUsed : Nat
deriving DecidableEq, Repr

/-- protocol/src/types/block.rs:157-189 `Block::new`. -/
def Block.new (p : Proposal) (r : ExecResp) : Block :=
  { header := { common := p.common, stateRoot := r.stateRoot, receiptsRoot := r.receiptRoot,
                logBloom := r.logBloom, gasUsed := r.gasUsed },
    txHashes := p.txHashes }

/-- protocol/src/types/block.rs:92-110 `Proposal::new_with_state_root`. -/
def Proposal.ofHeader (h : Header) (root : Nat) (hashes : List Nat) : Proposal :=
  { common := h.common, prevStateRoot := root, txHashes := hashes }

/-- The functions that the engine calls and that are not modelled here. -/
structure Env where
  /-- `Block::hash`, keccak of the encoded header. -/
  blockHash : Header → Nat
  /-- `Proposal::hash`. -/
  proposalHash : Proposal → Nat
  /-- The end of `verify_proof` (adapter.rs:487-573): metadata, bitmap, weight and BLS signature over
  the vote (number, round, block hash); see C25. -/
  quorum : Nat → Proof → Bool
  /-- `Executor::exec` from a state root. -/
  exec : Nat → Proposal → List Tx → Option ExecResp
  /-- `digest_signed_transactions` (util.rs). -/
  digest : List Tx → Nat
  /-- `TrieMerkle::from_iter(hashes.enumerate()).root_hash()`; `RLP_NULL` for the empty list. -/
  txsRoot : List Nat → Nat
  /-- `HardforkInfoInner::decode`. -/
  decodeHardfork : Nat → Option Nat

/-- core/consensus/src/status.rs:25-33 `CurrentStatus` (without the two size limits). -/
structure Status where
  prevHash : Nat
  lastNumber : Nat
  lastStateRoot : Nat
  proof : Proof
deriving DecidableEq, Repr

/-- Progress of a call of `ConsensusEngine::commit` that holds the lock. -/
inductive CommitStage where
  /-- Height checked (engine.rs:271-300). -/
  | checked
  /-- Executed and proof saved (engine.rs:302-333, 680). -/
  | proofSaved (b : Block)
  /-- Block saved (engine.rs:682-693), status not swapped yet. -/
  | blockSaved (b : Block)
  /-- Status swapped (engine.rs:742). -/
  | swapped
deriving DecidableEq, Repr

structure CommitRun where
  cur : Nat
  proposal : Proposal
  proof : Proof
  stage : CommitStage
deriving DecidableEq, Repr

/-- Progress of a call of `receive_remote_block` that holds the `syncing` lock. -/
inductive SyncRun where
  /-- Inside `need_sync` (synchronization.rs:455-483), which may sleep. -/
  | waiting (remote : Nat)
  /-- Inside the loop of `start_sync`: private status, `current_consented_number`, the bound, the
  number it started from, and the block being stored. -/
  | syncing (agent : Status) (start cur target : Nat) (stage : Option (Block × Proof × Bool))
deriving DecidableEq, Repr

structure Node where
  status : Status
  /-- Blocks by number (`BlockSchema`). -/
  chain : List (Nat × Block)
  /-- `LATEST_BLOCK_KEY`. -/
  latest : Block
  /-- `LATEST_PROOF_KEY`. -/
  latestProof : Proof
  /-- `exemption_hash` (engine.rs:48): hashes of own proposals. -/
  exempt : List Nat
  /-- The mutex shared by both writers. -/
  locked : Bool
  /-- `StopSignal`: `stop_at_height` and whether the sender was taken. -/
  stopAt : Option Nat
  stopped : Bool
  commit : Option CommitRun
  sync : Option SyncRun
  /-- The clock `time_now` reads. -/
  clock : Nat
  /-- History (not part of the node): calls of `save_block`, newest first. -/
  saved : List Block
  /-- History: proposals that `check_block` accepted or `get_block` made. -/
  accepted : List Proposal
  /-- History: own proposals since the exemptions were last cleared. -/
  own : List Proposal
deriving DecidableEq, Repr

/-! ## Checks -/

/-- core/consensus/src/engine.rs:815-842 `validate_timestamp`. -/
def validateTimestamp (current proposal previous : Nat) : Bool :=
  if proposal < previous then false
  else if proposal > current then false
  else true

/-- core/consensus/src/adapter.rs:413-447 `verify_block_header`.  `proposal.number - 1` on zero
panics (overflow checks are on). -/
def verifyHeader (env : Env) (chain : List (Nat × Block)) (p : Proposal) : Outcome Unit :=
  if p.common.number = 0 then .panic
  else match get chain (p.common.number - 1) with
    | none => .err
    | some prev =>
      if prev.header.common.version ≠ p.common.version then .err
      else if env.blockHash prev.header ≠ p.common.prevHash then .err
      else .ok ()

/-- core/consensus/src/adapter.rs:450-575 `verify_proof`. -/
def verifyProof (env : Env) (chain : List (Nat × Block)) (b : Block) (pf : Proof) : Outcome Unit :=
  if b.number = 0 then .ok ()
  else if b.number ≠ pf.number then .err
  else match get chain (b.number - 1) with
    | none => .err
    | some prev =>
      if env.proposalHash (Proposal.ofHeader b.header prev.header.stateRoot b.txHashes)
          ≠ pf.blockHash then .err
      else if env.quorum b.number pf then .ok () else .err

/-- core/consensus/src/engine.rs:544-601 `inner_check_block` and 603-643
`check_order_transactions`.  `verifyTxs` is the outcome of `verify_txs` and `full` that of
`get_full_txs` (Mempool/Fetch). -/
def innerCheck (env : Env) (chain : List (Nat × Block)) (now : Nat) (p : Proposal)
    (verifyTxs : Bool) (full : Option (List Tx)) : Outcome Unit :=
  (verifyHeader env chain p).bind fun _ =>
  match get chain (p.common.number - 1) with
  | none => .err
  | some prev =>
    if validateTimestamp now p.common.timestamp prev.timestamp = false then .err
    else (verifyProof env chain prev p.common.proof).bind fun _ =>
      if verifyTxs = false then .err
      else match full with
        | none => .err
        | some txs =>
          if env.digest txs ≠ p.common.signedTxsHash then .err
          else if env.txsRoot p.txHashes ≠ p.common.txRoot then .err
          else .ok ()

/-- The comparison at the start of `get_block` (engine.rs:125-131) and `check_block` (159-165): both
`proof.number + 1` and, in the error value, `proposal.number - 1` are checked arithmetic. -/
def numberFollowsProof (p : Proposal) : Outcome Unit :=
  if p.common.proof.number + 1 = u64Size then .panic
  else if p.common.number ≠ p.common.proof.number + 1 then
    if p.common.number = 0 then .panic else .err
  else .ok ()

/-- engine.rs:167-190: a proposed hardfork must equal the node's own. -/
def hardforkMatches (env : Env) (own : Option Nat) (p : Proposal) : Outcome Unit :=
  match p.common.extra with
  | [] => .ok ()
  | e :: _ =>
    match env.decodeHardfork e with
    | none => .err
    | some d => if own = some d then .ok () else .err

/-- core/consensus/src/engine.rs:148-243 `check_block`, up to writing the log of transactions.
`next_number` is only used as the key of that log.  `hash` is the hash handed over by Overlord (any
byte string: `Hash::from_slice` panics unless it has 32 bytes); `hf` the node's own hardfork
proposal; `full` and `full2` the two calls of `get_full_txs`. -/
def checkBlock (env : Env) (s : Node) (hash hashLen : Nat) (hf : Option Nat) (p : Proposal)
    (verifyTxs : Bool) (full full2 : Option (List Tx)) : Outcome Unit :=
  (numberFollowsProof p).bind fun _ =>
  (hardforkMatches env hf p).bind fun _ =>
  if hashLen ≠ 32 then .panic
  else if s.exempt.contains hash then
    (if full2.isSome then .ok () else .err)
  else
    (innerCheck env s.chain s.clock p verifyTxs full).bind fun _ =>
      if full2.isSome then .ok () else .err

/-- core/consensus/src/engine.rs:63-137 `get_block`.  `c` supplies the fields that do not come from
the status (proposer, roots, limits, extra data). -/
def ownProposal (s : Node) (next : Nat) (c : Common) (txHashes : List Nat) : Proposal :=
  { common := { c with prevHash := s.status.prevHash, timestamp := s.clock, number := next,
                       proof := s.status.proof },
    prevStateRoot := s.status.lastStateRoot, txHashes := txHashes }

/-- core/consensus/src/synchronization.rs:205-281 `verify_block`, for a block whose number was
compared with the requested one (382-388). -/
def verifySynced (env : Env) (chain : List (Nat × Block)) (root : Nat) (b : Block) (txs : List Tx)
    (pf : Proof) : Outcome Unit :=
  (verifyProof env chain b pf).bind fun _ =>
  (verifyHeader env chain (Proposal.ofHeader b.header root b.txHashes)).bind fun _ =>
  match get chain (b.number - 1) with
  | none => .err
  | some prev =>
    (verifyProof env chain prev b.header.common.proof).bind fun _ =>
      if env.digest txs ≠ b.header.common.signedTxsHash then .err else .ok ()

/-- core/consensus/src/synchronization.rs:288-323: execution and the comparison of the results.
`agentRoot` is the private status of the batch, `root` the shared one. -/
def execSynced (env : Env) (agentRoot root : Nat) (b : Block) (txs : List Tx) : Option ExecResp :=
  match env.exec agentRoot (Proposal.ofHeader b.header root b.txHashes) txs with
  | none => none
  | some r =>
    if r.stateRoot ≠ b.header.stateRoot then none
    else if r.receiptRoot ≠ b.header.receiptsRoot then none
    else some r

/-- core/consensus/src/synchronization.rs:18. -/
def onceSyncBlockLimit : Nat := 50

/-- core/consensus/src/synchronization.rs:140-144: bound of a batch. -/
def syncTarget (current remote : Nat) : Nat :=
  if current + onceSyncBlockLimit > remote then remote else current + onceSyncBlockLimit

/-! ## Steps -/

inductive Op where
  /-- The clock shows another value. -/
  | tick (now : Nat)
  /-- Overlord asks for a proposal; `txsOk`: pool and `get_full_txs` answered. -/
  | getBlock (next : Nat) (c : Common) (txHashes : List Nat) (txsOk : Bool)
  /-- Overlord asks to check a proposal. -/
  | check (hash hashLen : Nat) (hf : Option Nat) (p : Proposal) (verifyTxs : Bool)
      (full full2 : Option (List Tx))
  /-- Overlord delivers a commit; `metaOk`: `get_metadata_by_block_number` succeeds. -/
  | commitBegin (cur : Nat) (p : Proposal) (pf : Proof) (metaOk : Bool)
  /-- Fetch the transactions (pool, else write-ahead log), execute, save the proof. -/
  | commitExec (txs : Option (List Tx)) (saveOk : Bool)
  /-- Save transactions, receipts and block. -/
  | commitSave (ok : Bool)
  /-- The steps of `update_status` after saving the block (engine.rs:695-731), then the swap. -/
  | commitSwap (ok : Bool)
  /-- Flush the pool, trim the log, clear exemptions, build the next status; return. -/
  | commitEnd (cleared : Bool)
  /-- A peer announces a height. -/
  | syncBegin (remote : Nat)
  /-- `need_sync` is over: take the lock and start the batch; `metaOk`: metadata was found. -/
  | syncLock (metaOk : Bool)
  /-- Fetch, verify and execute the next block.  `none`: fetching failed. -/
  | syncVerify (answer : Option (Block × List Tx × Proof))
  /-- Save transactions, receipts and the proof in the header. -/
  | syncSaveProof (ok : Bool)
  /-- Save the block; `flushOk`: `flush_mempool` succeeds. -/
  | syncSaveBlock (ok flushOk : Bool)
  /-- The batch is complete. -/
  | syncEnd
  /-- The process stops at this point and is started again. -/
  | crash
deriving Repr

/-- core/run/src/lib.rs:141-143, 396-416 `get_status_agent`: the status after a start. -/
def restart (env : Env) (s : Node) : Node :=
  { s with
    status := { prevHash := env.blockHash s.latest.header, lastNumber := s.latest.number,
                lastStateRoot := s.latest.header.stateRoot, proof := s.latestProof },
    exempt := [], own := [], locked := false, stopped := false, commit := none, sync := none }

/-- core/storage/src/lib.rs:484-515 `insert_block`: the block under its number and the latest block.
Simplification: the four writes are one step (Storage/Batch looks at the writes one by one). -/
def saveBlock (s : Node) (b : Block) : Node :=
  { s with chain := put s.chain b.number b, latest := b, saved := b :: s.saved }

/-- The status after committing `b` with proof `pf` (engine.rs:733-742,
synchronization.rs:332-339). -/
def statusOf (env : Env) (b : Block) (pf : Proof) : Status :=
  { prevHash := env.blockHash b.header, lastNumber := b.number,
    lastStateRoot := b.header.stateRoot, proof := pf }

/-- A commit returns (with or without an error): the guard is dropped. -/
def commitReturn (s : Node) : Node := { s with commit := none, locked := false }

/-- synchronization.rs:72-90, 485-491: the batch ends, the shared status becomes the private one. -/
def syncReturn (s : Node) (agent : Status) : Node :=
  { s with status := agent, sync := none, locked := false }

/-- core/consensus/src/stop_signal.rs:34-44 `check_height_and_send` as called by `commit`
(engine.rs:259-260): the sender is taken when the height before the commit is the configured one. -/
def stopMark (s : Node) (cur : Nat) : Node :=
  if s.stopAt = some (cur - 1) then { s with stopped := true } else s

/-- One step.  A step that the node is not ready for leaves it unchanged. -/
def step (env : Env) (s : Node) : Op → Node
  | .tick now => { s with clock := now }
  | .getBlock next c txHashes txsOk =>
    if txsOk = false then s
    else
      let p := ownProposal s next c txHashes
      match numberFollowsProof p with
      | .panic => restart env s
      | .err => s
      | .ok _ => { s with exempt := env.proposalHash p :: s.exempt, own := p :: s.own,
                          accepted := p :: s.accepted }
  | .check hash hashLen hf p verifyTxs full full2 =>
    match checkBlock env s hash hashLen hf p verifyTxs full full2 with
    | .panic => restart env s
    | .err => s
    | .ok _ => { s with accepted := p :: s.accepted }
  | .commitBegin cur p pf metaOk =>
    -- engine.rs:264-300
    let s := stopMark s cur
    if s.stopped then s
    else if s.locked then s
    else if cur + 1 = u64Size then restart env s
    else if metaOk = false then s
    else if cur = s.status.lastNumber then s
    else if cur ≠ s.status.lastNumber + 1 then s
    else { s with locked := true, commit := some ⟨cur, p, pf, .checked⟩ }
  | .commitExec txs saveOk =>
    match s.commit with
    | some ⟨cur, p, pf, .checked⟩ =>
      match txs with
      | none => commitReturn s
      | some txs =>
        match env.exec s.status.lastStateRoot p txs with
        | none => commitReturn s
        | some r =>
          if saveOk = false then commitReturn s
          else { s with latestProof := pf, commit := some ⟨cur, p, pf, .proofSaved (Block.new p r)⟩ }
    | _ => s
  | .commitSave ok =>
    match s.commit with
    | some ⟨cur, p, pf, .proofSaved b⟩ =>
      if ok = false then commitReturn s
      else { saveBlock s b with commit := some ⟨cur, p, pf, .blockSaved b⟩ }
    | _ => s
  | .commitSwap ok =>
    match s.commit with
    | some ⟨cur, p, pf, .blockSaved b⟩ =>
      if ok = false then commitReturn s
      else { s with status := statusOf env b pf, commit := some ⟨cur, p, pf, .swapped⟩ }
    | _ => s
  | .commitEnd cleared =>
    match s.commit with
    | some ⟨_, _, _, .swapped⟩ =>
      if cleared then { commitReturn s with exempt := [], own := [] } else commitReturn s
    | _ => s
  | .syncBegin remote =>
    match s.sync with
    | some _ => s
    | none =>
      if remote = 0 then s
      else if remote ≤ s.status.lastNumber then s
      else { s with sync := some (.waiting remote) }
  | .syncLock metaOk =>
    match s.sync with
    | some (.waiting remote) =>
      if metaOk = false then { s with sync := none }
      else if s.locked then { s with sync := none }
      else if remote ≤ s.status.lastNumber then { s with sync := none }
      else if s.status.lastNumber + onceSyncBlockLimit ≥ u64Size then restart env s
      else
        let n := s.status.lastNumber
        { s with locked := true, sync := some (.syncing s.status n n (syncTarget n remote) none) }
    | _ => s
  | .syncVerify answer =>
    match s.sync with
    | some (.syncing agent start cur target none) =>
      if cur < target then
        match answer with
        | none => syncReturn s agent
        | some (b, txs, pf) =>
          if b.number ≠ cur + 1 then syncReturn s agent
          else match verifySynced env s.chain s.status.lastStateRoot b txs pf with
            | .panic => restart env s
            | .err => syncReturn s agent
            | .ok _ =>
              match execSynced env agent.lastStateRoot s.status.lastStateRoot b txs with
              | none => syncReturn s agent
              | some _ =>
                { s with sync := some (.syncing agent start cur target (some (b, pf, false))) }
      else s
    | _ => s
  | .syncSaveProof ok =>
    match s.sync with
    | some (.syncing agent start cur target (some (b, pf, false))) =>
      if ok = false then syncReturn s agent
      else { s with latestProof := b.header.common.proof,
                    sync := some (.syncing agent start cur target (some (b, pf, true))) }
    | _ => s
  | .syncSaveBlock ok flushOk =>
    match s.sync with
    | some (.syncing agent start cur target (some (b, pf, true))) =>
      if ok = false then syncReturn s agent
      else if flushOk = false then syncReturn (saveBlock s b) (statusOf env b pf)
      else { saveBlock s b with
             sync := some (.syncing (statusOf env b pf) start (cur + 1) target none) }
    | _ => s
  | .syncEnd =>
    match s.sync with
    | some (.syncing agent _ cur target none) => if cur < target then s else syncReturn s agent
    | _ => s
  | .crash => restart env s

/-- A node that starts on a stored genesis block. -/
def boot (env : Env) (g : Block) (stopAt : Option Nat) (clock : Nat) : Node :=
  { status := statusOf env g g.header.common.proof, chain := [(g.number, g)], latest := g,
    latestProof := g.header.common.proof, exempt := [], locked := false, stopAt, stopped := false,
    commit := none, sync := none, clock, saved := [], accepted := [], own := [] }

/-- States reached by steps that satisfy `ok`. -/
inductive Reach (env : Env) (ok : Node → Op → Prop) (init : Node) : Node → Prop where
  | init : Reach env ok init init
  | step {s : Node} {op : Op} : Reach env ok init s → ok s op → Reach env ok init (step env s op)

def run (env : Env) (s : Node) (ops : List Op) : Node := ops.foldl (step env) s

end Axon.Chain
