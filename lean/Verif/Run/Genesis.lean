import Verif.Executor.Exec
import Verif.Executor.StateProps
import Verif.Metadata.StoreProps
import Verif.Consensus.Hardfork

/-!
# Creating and opening a data directory

Model of `init`, `execute_genesis`, `execute_genesis_transactions` and the reading part of `start`
(`core/run/src/lib.rs`), `build_header` and `generate_hardfork_info`
(`common/config-parser/src/types/spec.rs:207-225`), `insert_accounts` and `save_block`
(`core/run/src/components/storage.rs`), `init` of the system contracts
(`core/executor/src/system_contract/mod.rs:122-203`).

* Creating the directory and every write to the database are single steps, in the order of the code, so
  that the process may stop between any two of them.  The writes of one `apply` are one step.
* Of a header the fields that are not constant in the genesis block are kept.
* `metaRoot` is the root of the metadata trie; the state trie and the storage tries are those of
  `Executor/State.lean`.
* Failures of the file system, the database and the network, and the other services `start` brings up,
  are not modelled.
-/

namespace Axon.Genesis
open Axon.Assoc Axon.Exec
open Axon.Meta (Metadata Inner Config zeroH appendMetadata setFork forkAt metadataAt)

variable {H : Type} [DecidableEq H]

/-- `ChainSpec`, spec.rs:22-48; hardfork names by their numbers. -/
structure Spec where
  timestamp : U64
  hardforks : List Nat
  baseFee : U64
  chainId : U64
  accounts : List (H160 × U256)
  params : Metadata

/-- The fields of `Header` that differ between genesis blocks; the others are constants (number 0, no
transactions, empty proof, spec.rs:209-217). -/
structure Header (H : Type) where
  number : Nat
  timestamp : U64
  baseFee : U64
  chainId : U64
  stateRoot : H
  receiptsRoot : H
deriving DecidableEq

/-- Writes to the data directory. -/
inductive Write (H : Type) where
  /-- nodes of a state trie, with its root -/
  | state (root : H) (accounts : List (H160 × Account H))
  /-- nodes of storage tries, and codes -/
  | tries (db : List (H × List (H256 × Bytes))) (codes : List (H × Bytes))
  /-- nodes of a metadata trie, with its root -/
  | meta_ (root : U256) (s : Meta.Store)
  /-- `update_latest_proof` -/
  | proof
  /-- the block by its number, the header by its number, the number by the block's hash -/
  | block (h : Header H)
  | header (h : Header H)
  | number (h : Header H)
  /-- `set_latest_block` -/
  | latest (h : Header H)
  /-- a batch without entries -/
  | nothing

/-- An existing data directory. -/
structure Disk (H : Type) where
  states : List (H × List (H160 × Account H))
  tries : List (H × List (H256 × Bytes))
  codes : List (H × Bytes)
  metas : List (U256 × Meta.Store)
  proof : Bool
  block0 : Option (Header H)
  latest : Option (Header H)

/-- A directory just created, `RocksAdapter::new`. -/
def Disk.fresh : Disk H := ⟨[], [], [], [], false, none, none⟩

def Disk.write (d : Disk H) : Write H → Disk H
  | .state r m => { d with states := put d.states r m }
  | .tries t c => { d with tries := t, codes := c }
  | .meta_ r s => { d with metas := put d.metas r s }
  | .proof => { d with proof := true }
  | .block h => { d with block0 := some h }
  | .header _ => d
  | .number _ => d
  | .latest h => { d with latest := some h }
  | .nothing => d

def Disk.writes (d : Disk H) (ws : List (Write H)) : Disk H := ws.foldl Disk.write d

/-! ## A computation that writes -/

/-- What was written and how the computation ended. -/
abbrev Run (H α : Type) := List (Write H) × Outcome α

def Run.bind {α β : Type} (x : Run H α) (f : α → Run H β) : Run H β :=
  match x with
  | (ws, .ok a) => (ws ++ (f a).1, (f a).2)
  | (ws, .err) => (ws, .err)
  | (ws, .panic) => (ws, .panic)

/-- A write. -/
def emit (w : Write H) : Run H Unit := ([w], .ok ())

/-- A step without writes. -/
def lift {α : Type} (x : Outcome α) : Run H α := ([], x)

/-! ## The parts of `execute_genesis` -/

/-- `metadata_1`, lib.rs:454-460: additions of `u64` in the order of the code. -/
def secondMetadata (m : Metadata) : Outcome Metadata :=
  (Outcome.orPanic (UIntN.ofNat? 64 (m.epoch.val + 1))).bind fun epoch =>
  (Outcome.orPanic (UIntN.ofNat? 64 (m.last.val + 1))).bind fun start =>
  (Outcome.orPanic (UIntN.ofNat? 64 (start.val + m.last.val))).bind fun sum =>
  (Outcome.orPanic (UIntN.ofNat? 64 (sum.val - 1))).bind fun last =>
  .ok { m with epoch := epoch, start := start, last := last }

/-- `insert_accounts`, components/storage.rs:91-103: in the order of the list. -/
def insertAccounts (env : Env H) (l : List (H160 × U256)) : List (H160 × Account H) :=
  l.foldl (fun m a => put m a.1
    { nonce := U256.zero, balance := a.2, storageRoot := env.rlpNull, codeHash := env.nilData }) []

/-- The adapter over the initial accounts, lib.rs:507-512, with the context of the genesis block
(protocol/src/types/executor.rs:64-78) and the thread-local roots of a new process (zero). -/
def world0 (accounts : List (H160 × Account H)) : World H :=
  { accounts := accounts, db := [], codes := [], blocks := [], logs := [], blockNumber := U256.zero
    origin := ⟨List.replicate 20 0, by simp⟩, gasPrice := ⟨1, by decide⟩
    headerRoot := U256.zero, metadataRoot := U256.zero }

/-- `init_system_contract_db`, system_contract/mod.rs:146-181 -/
def initSystemDb (env : Env H) (vm : Vm H) (w : World H) : Run H (World H) :=
  Run.bind (lift (storage env w (sysAddr 2) vm.headerKey)) fun root =>
    if root = U256.zero then
      Run.bind (lift (apply env w (rootChanges vm w (sysAddr 2)) [] false)) fun w' =>
      Run.bind (emit (.tries w'.db w'.codes)) fun _ => lift (.ok w')
    else lift (.ok w)

/-- `append_metadata` with its commit, store.rs:84-133 -/
def appendW (metaRoot : Meta.Store → U256) (s : Meta.Store) (m : Metadata) : Run H Meta.Store :=
  Run.bind (lift (appendMetadata s m)) fun s' =>
  Run.bind (emit (.meta_ (metaRoot s') s')) fun _ => lift (.ok s')

/-- `init_metadata_and_hardfork`, system_contract/mod.rs:183-203, on an empty metadata trie:
`HARDFORK_INFO` is still zero (`Meta.Store.init`). -/
def initMetadata (env : Env H) (vm : Vm H) (metaRoot : Meta.Store → U256) (w : World H)
    (m0 m1 : Metadata) (flags : H256) : Run H (World H) :=
  Run.bind (appendW metaRoot Meta.Store.init m0) fun s0 =>
  Run.bind (appendW metaRoot s0 m1) fun s1 =>
  let s2 : Meta.Store := { s1 with forks := some (setFork s1.forks 0 flags) }
  Run.bind (emit (.meta_ (metaRoot s2) s2)) fun _ =>
  let w1 := { w with metadataRoot := metaRoot s2 }
  Run.bind (lift (apply env w1 (rootChanges vm w1 (sysAddr 1)) [] false)) fun w2 =>
  Run.bind (emit (.tries w2.db w2.codes)) fun _ => lift (.ok w2)

/-- `execute_genesis_transactions`, lib.rs:496-528, for a block without transactions
(components/chain_spec.rs:13-23). -/
def executeTxs (env : Env H) (vm : Vm H) (metaRoot : Meta.Store → U256) (spec : Spec) (m1 : Metadata) :
    Run H (ExecResp H) :=
  let accounts := insertAccounts env spec.accounts
  Run.bind (emit (.state (vm.stateRoot accounts) accounts)) fun _ =>
  Run.bind (initSystemDb env vm (world0 accounts)) fun w1 =>
  Run.bind (initMetadata env vm metaRoot w1 spec.params m1 (Fork.inputFlags spec.hardforks)) fun w2 =>
  Run.bind (lift (exec env vm w2 [] [])) fun r =>
  Run.bind (emit (.state r.2.stateRoot r.1.accounts)) fun _ => lift (.ok r.2)

/-- The completed header: `build_header`, spec.rs:209-217, with the roots of lib.rs:470-471. -/
def headerOf (spec : Spec) (r : ExecResp H) : Header H :=
  ⟨0, spec.timestamp, spec.baseFee, spec.chainId, r.stateRoot, r.receiptRoot⟩

/-- `save_block`, components/storage.rs:69-81, with `insert_block` (core/storage/src/lib.rs:484-502) and
the two batches each of transactions and receipts, which are empty. -/
def saveBlock (h : Header H) : List (Write H) :=
  [.proof, .block h, .header h, .number h, .latest h, .nothing, .nothing, .nothing, .nothing]

/-- `execute_genesis`, lib.rs:447-494 -/
def executeGenesis (env : Env H) (vm : Vm H) (metaRoot : Meta.Store → U256) (spec : Spec) :
    Run H (Header H) :=
  Run.bind (lift (secondMetadata spec.params)) fun m1 =>
  Run.bind (executeTxs env vm metaRoot spec m1) fun r =>
  (saveBlock (headerOf spec r), .ok (headerOf spec r))

/-! ## Commands -/

/-- `init`, lib.rs:51-78, that the process survives or that is stopped after `k` writes; `none`: there is
no directory.  An existing directory is refused. -/
def initStopped (env : Env H) (vm : Vm H) (metaRoot : Meta.Store → U256) (spec : Spec) (k : Nat) :
    Option (Disk H) → Option (Disk H)
  | some d => some d
  | none => some (Disk.fresh.writes ((executeGenesis env vm metaRoot spec).1.take k))

/-- `init`, lib.rs:51-78: the directory afterwards and the result. -/
def init (env : Env H) (vm : Vm H) (metaRoot : Meta.Store → U256) (spec : Spec) :
    Option (Disk H) → Option (Disk H) × Outcome Unit
  | some d => (some d, .err)
  | none => (some (Disk.fresh.writes (executeGenesis env vm metaRoot spec).1),
      (executeGenesis env vm metaRoot spec).2.bind fun _ => .ok ())

/-- `MetadataStore::new`, store.rs:48-72, in a process whose `HARDFORK_INFO` is `flags`. -/
def openMeta (d : Disk H) (root : U256) (flags : H256) : Outcome Meta.Store :=
  if root = U256.zero then .ok { Meta.Store.init with current := flags }
  else (Outcome.ofOption (get d.metas root)).bind fun s => .ok { s with current := flags }

/-- What a node starts with. -/
structure Started (H : Type) where
  header : Header H
  flags : H256
  world : World H
  store : Meta.Store
  metadata : Inner × Config

/-- The part of `run` and `start` that reads the directory, lib.rs:80-111, 134-135, 170-211, 222 and
395-402 (the system contract databases of a directory made by `init` need no changes, which `initSystemDb`
computes on a copy that is thrown away). -/
def start (env : Env H) (vm : Vm H) : Option (Disk H) → Outcome (Started H)
  | none => .err
  | some d =>
    (Outcome.ofOption d.latest).bind fun h =>
    (Outcome.ofOption (get d.states h.stateRoot)).bind fun accounts =>
    let w : World H := { world0 accounts with db := d.tries, codes := d.codes }
    (storage env w (sysAddr 1) vm.metadataKey).bind fun root =>
    (openMeta d root zeroH).bind fun s =>
    let flags := forkAt (s.forks.getD []) h.number
    (metadataAt s h.number).bind fun m =>
    if d.proof then .ok ⟨h, flags, { w with metadataRoot := root }, { s with current := flags }, m⟩
    else .err

end Axon.Genesis
