import Verif.Api.AxonRpc

/-!
# The life of a hardfork proposal

The operator's command (`core/run/src/lib.rs:530-616`, `common/config-parser/src/types/spec.rs:239-264`),
the proposal in new blocks and its check (`core/consensus/src/engine.rs:89-111`, `170-194`), its
registration by the metadata contract (`metadata/mod.rs:109-137`), the removal after a commit
(`engine.rs:681-708`), the synchronisation of blocks (`synchronization.rs:302-375`) and the flags that a
process executes blocks under (`HARDFORK_INFO`).
-/

namespace Axon.Fork

open Axon Axon.Block Axon.Meta Axon.AxonRpc

/-- `HardforkInfoInner`: start number and flags. -/
abbrev Info := Nat × H256

/-- The first entry of a block's extra data: missing, undecodable, or a hardfork. -/
inductive Extra where
  | none
  | garbage
  | info (v : Info)
deriving DecidableEq

/-- What the metadata contract takes out of it, `metadata/mod.rs:119-125`. -/
def Extra.carried : Extra → Option Info
  | .info v => some v
  | _ => Option.none

/-! ## The command -/

/-- `HardforkName::all()`, spec.rs:276-282, over the values of `names`. -/
def allNames : Nat := names.foldl (· ||| ·) 0

/-- `impl From<HardforkInput> for HardforkInfoInner`, spec.rs:239-264: the flags. -/
def inputFlags (hardforks : List Nat) : H256 :=
  if hardforks = [] then mask allNames
  else if hardforks = [0] then zeroH
  else mask (hardforks.foldl (· ||| ·) 0)

/-- One node. `chain`: the extra data of the blocks after genesis, whose length is the number of the
latest block; `stored`: the proposal in the database; `mem`: `NodeInfo::hardfork_proposals`; `flags`:
`HARDFORK_INFO` of the process; `up`: the process runs (and holds the database). -/
structure Node where
  chain : List Extra
  stored : Option Info
  mem : Option Info
  flags : H256
  up : Bool
deriving DecidableEq

/-- The hardforks in the state after the given blocks; `g` are the flags of genesis, registered for
number 0 (`system_contract/mod.rs:184-197`, spec.rs:219-224). -/
def forksOf (g : H256) (chain : List Extra) : Forks := registerAll ((0, g) :: chain.filterMap (·.carried))

/-- run/src/lib.rs:584-612, for a stopped node: refused for a number not above the current one, no
effect for empty flags and for flags that the last entry has. -/
def setInfo (g : H256) (n : Node) : Option Info → Node
  | none => n
  | some v =>
    if v.1 ≤ n.chain.length then n
    else if v.2 = zeroH then n
    else if (forksOf g n.chain).getLast?.any (fun c => andH c.2 v.2 = v.2) then n
    else { n with stored := some v }

/-! ## Blocks -/

/-- engine.rs:89-111 in `get_block` for the next number: the extra data and the node after it. -/
def getBlock (n : Node) : Extra × Node :=
  match n.mem with
  | some v =>
    if v.1 ≤ n.chain.length + 1 then (.none, { n with mem := none, stored := none })
    else (.info v, n)
  | none => (.none, n)

/-- engine.rs:170-194 in `check_block`. -/
def checkExtra (n : Node) : Extra → Bool
  | .none => true
  | .garbage => false
  | .info v => n.mem = some v

/-- `after_block_hook`, metadata/mod.rs:119-129: the flags after executing the next block. -/
def flagsAfter (g : H256) (n : Node) (e : Extra) : H256 :=
  forkAt (forksOf g (n.chain ++ [e])) (n.chain.length + 1)

/-- A block of the own consensus: execution, then engine.rs:681-708 in `update_status`. -/
def commit (g : H256) (n : Node) (e : Extra) : Node :=
  let m := { n with chain := n.chain ++ [e], flags := flagsAfter g n e }
  match m.mem with
  | none => m
  | some v =>
    if (forksOf g m.chain).getLast?.any (fun c => andH c.2 v.2 = v.2) then
      { m with mem := none, stored := none }
    else m

/-- A block taken from a peer, synchronization.rs:302-375. -/
def syncBlock (g : H256) (n : Node) (e : Extra) : Node :=
  { n with chain := n.chain ++ [e], flags := flagsAfter g n e }

/-- A block taken from a peer, executed, and then refused because of its state root or its receipts root
(synchronization.rs:324-338). -/
def syncRefused (g : H256) (n : Node) (e : Extra) : Node := { n with flags := flagsAfter g n e }

/-- What happens to a node. -/
inductive Op where
  | command (v : Option Info)
  | start
  | stop
  | propose
  | commit (e : Extra)
  | sync (e : Extra)
  | refused (e : Extra)
deriving DecidableEq

/-- A running process has the database locked; `start` is run/src/lib.rs:213 and 240-250. -/
def step (g : H256) (n : Node) : Op → Node
  | .command v => if n.up then n else setInfo g n v
  | .start =>
    if n.up then n
    else { n with up := true, mem := n.stored, flags := forkAt (forksOf g n.chain) n.chain.length }
  | .stop => { n with up := false, mem := none, flags := zeroH }
  | .propose => if n.up then (getBlock n).2 else n
  | .commit e => if n.up then commit g n e else n
  | .sync e => if n.up then syncBlock g n e else n
  | .refused e => if n.up then syncRefused g n e else n

/-- A node after `axon init`. -/
def init : Node := ⟨[], none, none, zeroH, false⟩

def run (g : H256) (ops : List Op) : Node := ops.foldl (step g) init

/-! ## Lemmas -/

theorem run_snoc (g : H256) (ops : List Op) (op : Op) : run g (ops ++ [op]) = step g (run g ops) op := by
  unfold run
  rw [List.foldl_append]
  rfl

theorem forksOf_snoc (g : H256) (chain : List Extra) (e : Extra) :
    forksOf g (chain ++ [e]) = match e.carried with
      | some v => pushFork (forksOf g chain) v.1 v.2
      | none => forksOf g chain := by
  unfold forksOf
  rw [List.filterMap_append]
  cases h : e.carried with
  | none => simp [h]
  | some v =>
    have : (0, g) :: (chain.filterMap (·.carried) ++ [e].filterMap (·.carried)) =
        ((0, g) :: chain.filterMap (·.carried)) ++ [v] := by simp [h]
    rw [this, registerAll_snoc]

theorem forksOf_snoc_info (g : H256) (chain : List Extra) (v : Info) :
    forksOf g (chain ++ [.info v]) = registerAll (((0, g) :: chain.filterMap (·.carried)) ++ [v]) := by
  unfold forksOf
  rw [List.filterMap_append]
  rfl

end Axon.Fork
