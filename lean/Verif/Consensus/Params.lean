import Verif.Metadata.Segment
import Verif.Metadata.Config

/-!
# What a node takes from the metadata when it starts, commits and synchronises

Three pieces of code read the metadata of the chain and hand them to Overlord, to the status and to the
pool: `start` (`core/run/src/lib.rs:115-312`), `ConsensusEngine::commit`
(`core/consensus/src/engine.rs:254-367`, `update_status` 651-755) and
`OverlordSynchronization::receive_remote_block` (`core/consensus/src/synchronization.rs:36-96`,
`commit_block` 304-379, `update_status` 500-529).

The blocks of the chain are given, with the metadata that the state after each of them holds.
Execution and verification of a block are not modelled (C13, C25, C35), nor the BLS keys that are
replaced together with the validators (C108).  Of Overlord only its current height and what it was told
for it are kept; the crate is not part of the repository.
-/

namespace Axon.Params
open Axon.Meta

/-- `ValidatorExtend`, `protocol/src/types/primitive.rs:534-542`, without BLS key and address.  Public
keys are opaque and ordered. -/
structure Validator where
  key : Nat
  propose : Nat
  vote : Nat
deriving DecidableEq, Repr

/-- One registered epoch: `version` and `verifier_list` of `Metadata`, `primitive.rs:324-335`. -/
structure Epoch where
  first : Nat
  last : Nat
  members : List Validator
deriving DecidableEq, Repr

/-- What the metadata contract holds after a block: the registered epochs and the one configuration
shared by all of them (`metadata/store.rs:84-133`; see C38 and C68). -/
structure Reg where
  epochs : List Epoch
  config : Config

/-- The epoch segment of the registered epochs, `metadata/segment.rs:5-25`. -/
def Reg.seg (r : Reg) : Segment := 0 :: r.epochs.map (·.last)

/-- `MetadataHandle::get_metadata_by_block_number`, `metadata/handle.rs:20-31`; `none` is the error for
a block beyond the registered epochs. -/
def Reg.metaAt (r : Reg) (n : Nat) : Option (Epoch × Config) :=
  ((if n = 0 then some 0 else epochOf r.seg n).bind (r.epochs[·]?)).map (·, r.config)

/-- `is_last_block_in_current_epoch`, `metadata/handle.rs:37-42` -/
def Reg.isLast (r : Reg) (n : Nat) : Bool := isLastInEpoch r.seg n

/-- `overlord::types::Node` as all of these functions build it. -/
structure Member where
  address : Nat
  propose : Nat
  vote : Nat
deriving DecidableEq, Repr

/-- `consensus.rs:175-181`, `consensus.rs:203-209`, `engine.rs:466-470`, `engine.rs:805-809` with
`primitive.rs:570-578` -/
def member (v : Validator) : Member := ⟨v.key, v.propose, v.vote⟩

/-- Insertion into a list sorted by address, before entries with the same address. -/
def insertM (v : Member) : List Member → List Member
  | [] => [v]
  | x :: xs => if v.address ≤ x.address then v :: x :: xs else x :: insertM v xs

/-- `authority_list.sort()`; a `Node` is ordered by its address and the sort is stable. -/
def sortM (l : List Member) : List Member := l.foldr insertM []

/-- `convert_to_overlord_authority`, `engine.rs:801-813` -/
def authority (vs : List Validator) : List Member := sortM (vs.map member)

/-- `DurationConfig` of a configuration, `primitive.rs:462-471`, and the interval. -/
structure Timing where
  interval : Nat
  propose : Nat
  prevote : Nat
  precommit : Nat
  brake : Nat
deriving DecidableEq, Repr

def timing (c : Config) : Timing :=
  ⟨c.interval.val, c.proposeRatio.val, c.prevoteRatio.val, c.precommitRatio.val, c.brakeRatio.val⟩

/-- What Overlord was told last: `overlord::types::Status`. -/
structure Told where
  height : Nat
  members : List Member
  timing : Timing
deriving DecidableEq, Repr

/-- A running process: `CurrentStatus` (`status.rs:25-33`, number and limits), the size limit of the
pool (`max_tx_size` in `mempool/src/adapter/mod.rs:126`), Overlord, and the peers tagged as consensus
nodes. -/
structure Running where
  number : Nat
  txNum : Nat
  txSize : Nat
  poolSize : Nat
  told : Told
  tagged : List Nat
deriving DecidableEq, Repr

/-- A node: the number of its stored block and its process. -/
structure Node where
  saved : Nat
  proc : Option Running
deriving DecidableEq, Repr

/-- The metadata in the state after each block. -/
abbrev Chain := Nat → Reg

/-- `gen_overlord_status`, `consensus.rs:192-224`, and the status built by `commit`,
`engine.rs:279-284` and `engine.rs:355-360` -/
def status (height : Nat) (m : Epoch × Config) : Told := ⟨height, authority m.1.members, timing m.2⟩

/-- The start of a process, `run/src/lib.rs:206-300`, on the stored block: metadata for that block give
limits (lines 215-225, 406-407), pool limit (line 224), tags (line 273) and what `run` tells Overlord
(`run/src/lib.rs:418-450`, `consensus.rs:166-189`, without sorting).  `OverlordConsensus::new` unwraps the
metadata for the block after (`consensus.rs:126-129`) and sends a status for it to a node at the genesis
block (`consensus.rs:140-154`), which replaces what `run` told.  `none`: the process does not get up. -/
def start (r : Reg) (saved : Nat) : Option Running :=
  match r.metaAt saved, r.metaAt (saved + 1) with
  | some m, some next => some
    { number := saved, txNum := m.2.txNumLimit.val, txSize := m.2.maxTxSize.val,
      poolSize := m.2.maxTxSize.val,
      told := if saved = 0 then status 1 next else ⟨saved, m.1.members.map member, timing m.2⟩,
      tagged := m.1.members.map (·.key) }
  | _, _ => none

/-- The tags after committing block `n`, `engine.rs:707-723`: replaced at the end of an epoch. -/
def retag (r : Reg) (n : Nat) (old : List Nat) : List Nat :=
  if r.isLast n then
    match r.metaAt (n + 1) with
    | some m => m.1.members.map (·.key)
    | none => old
  else old

/-- `ConsensusEngine::commit` for the height of Overlord, `engine.rs:254-367`.  The metadata for the
next height are read before the block is executed (line 273-276), again before the tags are replaced, and
again for the status that is returned (line 349-360); `exec` needs those for the block (`adapter.rs:344-346`).
`update_status` keeps the limits of the old status and sets the pool to them (lines 728-746).  An error
leaves everything as it is. -/
def commit (C : Chain) (saved : Nat) (p : Running) : Nat × Running :=
  match (C saved).metaAt (p.told.height + 1) with
  | none => (saved, p)
  | some next =>
    if p.told.height = p.number then (saved, { p with told := status (p.told.height + 1) next })
    else if p.told.height ≠ p.number + 1 then (saved, p)
    else
      match (C saved).metaAt p.told.height with
      | none => (saved, p)
      | some _ =>
        let n := p.told.height
        let p' := { p with number := n, poolSize := p.txSize, tagged := retag (C n) n p.tagged }
        match (C n).metaAt (n + 1) with
        | none => (n, p')
        | some m => (n, { p' with told := status (n + 1) m })

/-- `commit_block` of synchronisation for the block after the stored one, `synchronization.rs:304-379`:
the limits are those for this block in the state before it (the stored block is replaced later,
line 358-364). -/
def syncBlock (C : Chain) (saved : Nat) (p : Running) : Nat × Running :=
  match (C saved).metaAt (saved + 1) with
  | none => (saved, p)
  | some m => (saved + 1, { p with
      number := saved + 1, txNum := m.2.txNumLimit.val, txSize := m.2.maxTxSize.val })

/-- `k` blocks are taken over, `start_sync`, `synchronization.rs:133-197` -/
def syncBlocks (C : Chain) : Nat → Nat → Running → Nat × Running
  | 0, saved, p => (saved, p)
  | k + 1, saved, p => syncBlocks C k (syncBlock C saved p).1 (syncBlock C saved p).2

/-- Overlord takes a status only for a height above its own. -/
def tell (p : Running) (t : Told) : Running :=
  if p.told.height < t.height then { p with told := t } else p

/-- A round of synchronisation that takes over up to `k` blocks, `receive_remote_block`,
`synchronization.rs:36-96`: whether it ended with an error or not, Overlord is told the next height
(`update_status`, lines 500-529 with `adapter.rs:132-160`), if its metadata are there. -/
def sync (C : Chain) (k saved : Nat) (p : Running) : Nat × Running :=
  let (s, q) := syncBlocks C k saved p
  match (C s).metaAt (q.number + 1) with
  | none => (s, q)
  | some m => (s, tell q (status (q.number + 1) m))

/-- What happens to a node. -/
inductive Op where
  | start
  | stop
  | commit
  | sync (k : Nat)
deriving DecidableEq, Repr

def step (C : Chain) (n : Node) : Op → Node
  | .start =>
    match n.proc with
    | some _ => n
    | none => { n with proc := start (C n.saved) n.saved }
  | .stop => { n with proc := none }
  | .commit =>
    match n.proc with
    | none => n
    | some p => ⟨(commit C n.saved p).1, some (commit C n.saved p).2⟩
  | .sync k =>
    match n.proc with
    | none => n
    | some p => ⟨(sync C k n.saved p).1, some (sync C k n.saved p).2⟩

/-- A node begins with the genesis block. -/
def run (C : Chain) (ops : List Op) : Node := ops.foldl (step C) ⟨0, none⟩

/-- `get_authority_list`, `engine.rs:443-477`, read in the state `r`: the validators of the block before. -/
def authorityList (r : Reg) (next : Nat) : Option (List Member) :=
  if next = 0 then some []
  else
    match r.metaAt next with
    | none => none
    | some cur =>
      if cur.1.first ≤ next - 1 ∧ next - 1 ≤ cur.1.last then some (authority cur.1.members)
      else (r.metaAt (next - 1)).map (fun old => authority old.1.members)

/-- `alert_missing_next_metadata`, `engine.rs:764-775`: is an error logged?  The number of the next
epoch is used as a block number. -/
def alert (r : Reg) (epoch : Nat) : Bool := (r.metaAt (epoch + 1)).isNone

/-! ## Lemmas -/

theorem insertM_sorted {v : Member} {l : List Member} (h : ∀ x ∈ l, v.address ≤ x.address) :
    insertM v l = v :: l := by
  cases l with
  | nil => rfl
  | cons x xs => simp [insertM, h x (by simp)]

theorem insertM_perm (v : Member) (l : List Member) : (insertM v l).Perm (v :: l) := by
  induction l with
  | nil => exact .refl _
  | cons x xs ih =>
    unfold insertM
    split
    · exact .refl _
    · exact (ih.cons x).trans (.swap v x xs)

theorem sortM_perm (l : List Member) : (sortM l).Perm l := by
  induction l with
  | nil => exact .refl _
  | cons x xs ih => exact (insertM_perm x _).trans (ih.cons x)

theorem insertM_pairwise {v : Member} {l : List Member} (h : l.Pairwise (fun a b => a.address ≤ b.address)) :
    (insertM v l).Pairwise (fun a b => a.address ≤ b.address) := by
  induction l with
  | nil => simp [insertM]
  | cons x xs ih =>
    unfold insertM
    have hx := List.pairwise_cons.1 h
    split
    · rename_i hv
      refine List.pairwise_cons.2 ⟨fun y hy => ?_, h⟩
      rcases List.mem_cons.1 hy with rfl | hy
      · exact hv
      · have := hx.1 y hy; omega
    · rename_i hv
      refine List.pairwise_cons.2 ⟨fun y hy => ?_, ih hx.2⟩
      rcases List.mem_cons.1 ((insertM_perm v xs).mem_iff.1 hy) with rfl | hy
      · omega
      · exact hx.1 y hy

theorem sortM_pairwise (l : List Member) : (sortM l).Pairwise (fun a b => a.address ≤ b.address) := by
  induction l with
  | nil => exact .nil
  | cons x xs ih => exact insertM_pairwise ih

theorem sortM_of_sorted {l : List Member} (h : l.Pairwise (fun a b => a.address ≤ b.address)) :
    sortM l = l := by
  induction l with
  | nil => rfl
  | cons x xs ih =>
    have hx := List.pairwise_cons.1 h
    show insertM x (sortM xs) = _
    rw [ih hx.2]
    exact insertM_sorted hx.1

theorem sortM_idem (l : List Member) : sortM (sortM l) = sortM l := sortM_of_sorted (sortM_pairwise l)

/-- What C38 says of the registered epochs: ends increase from zero and epochs follow each other. -/
structure Reg.Ok (r : Reg) : Prop where
  seg : SegOk r.seg
  next : ∀ (e : Nat) (a b : Epoch), r.epochs[e]? = some a → r.epochs[e + 1]? = some b →
    b.first = a.last + 1

/-- The chain only adds epochs (C38); the configuration may change with every block. -/
structure Lawful (C : Chain) : Prop where
  ok : ∀ k, (C k).Ok
  grows : ∀ k, (C k).epochs <+: (C (k + 1)).epochs

theorem Lawful.le {C : Chain} (h : Lawful C) {a b : Nat} (hab : a ≤ b) :
    (C a).epochs <+: (C b).epochs := by
  induction hab with
  | refl => exact List.prefix_refl _
  | step _ ih => exact ih.trans (h.grows _)

/-- The metadata for a block, in terms of the ends of the epochs. -/
theorem metaAt_iff {r : Reg} (hr : r.Ok) {n : Nat} (hn : n ≠ 0) {m : Epoch × Config} :
    r.metaAt n = some m ↔ m.2 = r.config ∧ ∃ e, r.epochs[e]? = some m.1 ∧ n ≤ m.1.last ∧
      (e ≠ 0 → ∃ p, r.epochs[e - 1]? = some p ∧ p.last < n) := by
  obtain ⟨ep, c⟩ := m
  have hs : ∀ e, epochOf r.seg n = some e ↔
      ∃ a b, r.seg[e]? = some a ∧ r.seg[e + 1]? = some b ∧ a < n ∧ n ≤ b := by
    intro e
    unfold epochOf
    rw [epochFrom_spec r.seg 0 n e hr.seg.incr]
    constructor
    · rintro ⟨k, a, b, he, h⟩; exact ⟨a, b, by rw [he]; simpa using h⟩
    · rintro ⟨a, b, h⟩; exact ⟨e, a, b, by omega, h⟩
  unfold Reg.metaAt
  rw [if_neg hn]
  constructor
  · intro h
    cases he : epochOf r.seg n with
    | none => simp [he] at h
    | some e =>
      simp [he] at h
      obtain ⟨ep', h1, rfl, h2⟩ := h
      obtain ⟨a, b, ha, hb, h3, h4⟩ := (hs e).1 he
      refine ⟨h2.symm, e, h1, ?_, ?_⟩
      · simp [Reg.seg, h1] at hb; show n ≤ ep'.last; omega
      · intro h0
        obtain ⟨j, rfl⟩ := Nat.exists_eq_succ_of_ne_zero h0
        simp [Reg.seg] at ha
        obtain ⟨p, hp, rfl⟩ := ha
        exact ⟨p, by simpa using hp, h3⟩
  · rintro ⟨h1, e, h2, h3, h4⟩
    have he : epochOf r.seg n = some e := by
      rw [hs e]
      cases e with
      | zero => exact ⟨0, ep.last, by simp [Reg.seg], by simp [Reg.seg, h2], by omega, h3⟩
      | succ e =>
        obtain ⟨p, hp, h5⟩ := h4 (by omega)
        exact ⟨p.last, ep.last, by simp only [Nat.add_sub_cancel] at hp; simp [Reg.seg, hp], by simp [Reg.seg, h2], h5, h3⟩
    simp [he, h2]
    exact h1.symm

theorem metaAt_zero (r : Reg) : r.metaAt 0 = r.epochs[0]?.map (·, r.config) := by
  simp [Reg.metaAt]

theorem metaAt_config {r : Reg} {n : Nat} {m : Epoch × Config} (h : r.metaAt n = some m) :
    m.2 = r.config := by
  unfold Reg.metaAt at h
  obtain ⟨e, -, rfl⟩ := Option.map_eq_some_iff.1 h
  rfl

theorem prefix_getElem? {α : Type} {a b : List α} (h : a <+: b) {i : Nat} {x : α} (hx : a[i]? = some x) :
    b[i]? = some x := by
  obtain ⟨t, rfl⟩ := h
  rw [List.getElem?_append_left (List.getElem?_eq_some_iff.1 hx).1]
  exact hx

/-- Registered metadata stay, with the configuration of the later state. -/
theorem metaAt_mono {r r' : Reg} (hr : r.Ok) (hr' : r'.Ok) (hp : r.epochs <+: r'.epochs) {n : Nat}
    {m : Epoch × Config} (h : r.metaAt n = some m) : r'.metaAt n = some (m.1, r'.config) := by
  by_cases hn : n = 0
  · subst hn
    rw [metaAt_zero] at h ⊢
    obtain ⟨e, he, rfl⟩ := Option.map_eq_some_iff.1 h
    rw [prefix_getElem? hp he]; rfl
  · obtain ⟨-, e, h1, h2, h3⟩ := (metaAt_iff hr hn).1 h
    refine (metaAt_iff hr' hn).2 ⟨rfl, e, prefix_getElem? hp h1, h2, fun h0 => ?_⟩
    obtain ⟨p, h4, h5⟩ := h3 h0
    exact ⟨p, prefix_getElem? hp h4, h5⟩

/-- If a block has metadata, so has every earlier one. -/
theorem metaAt_down {r : Reg} (hr : r.Ok) {n m : Nat} (hnm : n ≤ m) {x : Epoch × Config}
    (h : r.metaAt m = some x) : ∃ y, r.metaAt n = some y := by
  by_cases hm : m = 0
  · have : n = m := by omega
    exact ⟨x, this ▸ h⟩
  obtain ⟨-, e, h1, h2, -⟩ := (metaAt_iff hr hm).1 h
  by_cases hn : n = 0
  · subst hn
    have : 0 < r.epochs.length := by have := (List.getElem?_eq_some_iff.1 h1).1; omega
    exact ⟨(r.epochs[0], r.config), by rw [metaAt_zero]; simp [this]⟩
  · -- go down from epoch `e`
    have key : ∀ (e : Nat) (a : Epoch), r.epochs[e]? = some a → n ≤ a.last → ∃ y, r.metaAt n = some y := by
      intro e
      induction e with
      | zero =>
        intro a ha hl
        exact ⟨(a, r.config), (metaAt_iff hr hn).2 ⟨rfl, 0, ha, hl, fun h => absurd rfl h⟩⟩
      | succ e ih =>
        intro a ha hl
        have hlt : e < r.epochs.length := by have := (List.getElem?_eq_some_iff.1 ha).1; omega
        by_cases hp : n ≤ r.epochs[e].last
        · exact ih _ (List.getElem?_eq_getElem hlt) hp
        · exact ⟨(a, r.config), (metaAt_iff hr hn).2 ⟨rfl, e + 1, ha, hl,
            fun _ => ⟨r.epochs[e], by simp [hlt], by omega⟩⟩⟩
    exact key e x.1 h1 (by omega)

theorem run_snoc (C : Chain) (ops : List Op) (op : Op) : run C (ops ++ [op]) = step C (run C ops) op := by
  simp [run]

end Axon.Params
