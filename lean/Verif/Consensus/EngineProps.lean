import Verif.Consensus.EngineLemmas

/-!
# C27, C28: order and timestamps of committed blocks
-/

namespace Axon.Chain

open Axon Axon.Assoc

/-! ## Specification -/

/-- Newest first: each block carries the number after its predecessor's and its predecessor's hash. -/
def Follows (env : Env) (blocks : List Block) : Prop :=
  ∀ (i : Nat) (b a : Block), blocks[i]? = some b → blocks[i + 1]? = some a →
    b.number = a.number + 1 ∧ b.prevHash = env.blockHash a.header

theorem linked_follows (env : Env) : ∀ l : List Block, Linked env l → Follows env l := by
  intro l
  induction l with
  | nil => intro _ i b a h; simp at h
  | cons c l ih =>
    intro h i b a hb ha
    cases l with
    | nil => simp at ha
    | cons d l =>
      cases i with
      | zero =>
        simp at hb ha
        subst hb; subst ha
        exact ⟨h.1, h.2.1⟩
      | succ i =>
        simp only [List.getElem?_cons_succ] at hb ha
        exact ih h.2.2 i b a hb ha

/-! ## C27 -/

/-- Every interleaving of proposals, checks, commits, synchronisation batches, storage failures and
crashes stores blocks one after another: each stored block has the next number and the hash of the
block stored before it.  Assumed: collision-free proposal hash, and `Disciplined` (see there); the
code does not enforce the last two parts of it, see `C27_number_unchecked_false` and
`C27_retry_false`. -/
theorem C27_follows_partial (env : Env)
    (hinj : ∀ p q, env.proposalHash p = env.proposalHash q → p = q) (g : Block)
    (stopAt : Option Nat) (clock : Nat) (s : Node)
    (h : Reach env (Disciplined env) (boot env g stopAt clock) s) :
    Follows env (s.saved ++ [g]) :=
  linked_follows env _ (reach_inv hinj h).linked

/-- … so no number is stored twice, and the block found under a number is the one stored for it. -/
theorem C27_once_partial (env : Env)
    (hinj : ∀ p q, env.proposalHash p = env.proposalHash q → p = q) (g : Block)
    (stopAt : Option Nat) (clock : Nat) (s : Node)
    (h : Reach env (Disciplined env) (boot env g stopAt clock) s) :
    ((s.saved ++ [g]).map Block.number).Nodup ∧
    (∀ b ∈ s.saved ++ [g], get s.chain b.number = some b) ∧
    (∀ n b, get s.chain n = some b → b ∈ s.saved ++ [g] ∧ b.number = n) := by
  have I := reach_inv hinj h
  exact ⟨linked_nodup env _ I.linked, I.stored, I.only⟩

/-- When no writer is active the status describes the newest stored block, also after a crash at any
point. -/
theorem C27_status_partial (env : Env)
    (hinj : ∀ p q, env.proposalHash p = env.proposalHash q → p = q) (g : Block)
    (stopAt : Option Nat) (clock : Nat) (s : Node)
    (h : Reach env (Disciplined env) (boot env g stopAt clock) s) (hl : s.locked = false) :
    ∃ b, (s.saved ++ [g]).head? = some b ∧ s.status.lastNumber = b.number ∧
      s.status.prevHash = env.blockHash b.header ∧ s.status.lastStateRoot = b.header.stateRoot := by
  have I := reach_inv hinj h
  have hx := I.excl.1
  rw [hl] at hx
  have hx := hx.symm
  rw [Bool.or_eq_false_iff] at hx
  obtain ⟨h1, h2⟩ := hx
  have hph := I.phase
  unfold phase at hph
  have hc : s.commit = none := by simpa using h1
  refine ⟨s.latest, I.head, ?_⟩
  rw [hc] at hph
  unfold inBatch at h2
  cases hs : s.sync with
  | none => rw [hs] at hph; exact hph
  | some r =>
    cases r with
    | waiting n => rw [hs] at hph; exact hph
    | syncing => rw [hs] at h2; simp at h2

theorem step_excl (env : Env) (s : Node) (op : Op) (h : Excl s) : Excl (step env s op) := by
  have hrestart : Excl (restart env s) := ⟨rfl, by intro h; simp [restart] at h⟩
  have hcr : Excl (commitReturn s) ∨ s.commit = none := by
    cases hc : s.commit with
    | none => exact Or.inr rfl
    | some c => exact Or.inl (excl_return h (by rw [hc]; rfl))
  have hsr : ∀ (t : Node) (agent : Status), t.commit = s.commit → inBatch s = true →
      Excl (syncReturn t agent) := by
    intro t agent ht hb
    have hcn := commit_none_of_batch h hb
    refine ⟨?_, fun _ => rfl⟩
    show false = (t.commit.isSome || _)
    rw [ht, hcn]; rfl
  have hsync : ∀ (t : Node) (r : SyncRun), t.commit = s.commit → t.locked = s.locked →
      t.sync = some r → inBatch s = true → inBatch t = true → Excl t := by
    intro t r ht hl _ hb hbt
    have hcn := commit_none_of_batch h hb
    refine ⟨?_, ?_⟩
    · rw [hl, h.1, ht, hcn, hb, hbt]
    · intro hq; rw [ht, hcn] at hq; cases hq
  cases op with
  | tick now => exact h
  | getBlock next c hs ok =>
    simp only [step]
    split
    · exact h
    · split
      · exact hrestart
      · exact h
      · exact h
  | check hash len hf p vt full full2 =>
    simp only [step]
    split
    · exact hrestart
    · exact h
    · exact h
  | commitBegin cur p pf ok =>
    simp only [step]
    generalize ht : stopMark s cur = t
    have It : Excl t := by subst ht; unfold stopMark; split <;> exact h
    split
    · exact It
    split
    · exact It
    next hlock =>
      split
      · exact ⟨rfl, by intro h; simp [restart] at h⟩
      split
      · exact It
      split
      · exact It
      split
      · exact It
      · have hl0 : t.locked = false := by simpa using hlock
        have := It.1
        rw [hl0] at this
        have := this.symm
        rw [Bool.or_eq_false_iff] at this
        exact ⟨rfl, fun _ => this.2⟩
  | commitExec txs ok =>
    simp only [step]
    split
    next cur p pf hc =>
      have hsome : s.commit.isSome = true := by rw [hc]; rfl
      split
      · exact excl_return h hsome
      · split
        · exact excl_return h hsome
        · split
          · exact excl_return h hsome
          · exact excl_stage h hsome _ rfl rfl rfl
    · exact h
  | commitSave ok =>
    simp only [step]
    split
    next hc =>
      have hsome : s.commit.isSome = true := by rw [hc]; rfl
      split
      · exact excl_return h hsome
      · exact excl_stage h hsome _ rfl rfl rfl
    · exact h
  | commitSwap ok =>
    simp only [step]
    split
    next hc =>
      have hsome : s.commit.isSome = true := by rw [hc]; rfl
      split
      · exact excl_return h hsome
      · exact excl_stage h hsome _ rfl rfl rfl
    · exact h
  | commitEnd cl =>
    simp only [step]
    split
    next hc =>
      have hsome : s.commit.isSome = true := by rw [hc]; rfl
      have hr := excl_return h hsome
      split
      · exact hr
      · exact hr
    · exact h
  | syncBegin remote =>
    simp only [step]
    split
    · exact h
    next hs =>
      split
      · exact h
      split
      · exact h
      · unfold Excl inBatch at h ⊢
        simp only [hs] at h ⊢
        exact h
  | syncLock ok =>
    simp only [step]
    split
    next remote hs =>
      have hnone : Excl { s with sync := none } := by
        unfold Excl inBatch at h ⊢
        simp only [hs] at h ⊢
        exact h
      split
      · exact hnone
      split
      · exact hnone
      next hlock =>
        split
        · exact hnone
        split
        · exact hrestart
        · have hl0 : s.locked = false := by simpa using hlock
          have := h.1
          rw [hl0] at this
          have := this.symm
          rw [Bool.or_eq_false_iff] at this
          have hcn : s.commit = none := by simpa using this.1
          refine ⟨?_, ?_⟩
          · show true = _
            simp [inBatch]
          · intro hq
            have hq : s.commit.isSome = true := hq
            rw [hcn] at hq; cases hq
    · exact h
  | syncVerify ans =>
    simp only [step]
    split
    next agent start cur target hs =>
      have hb : inBatch s = true := by unfold inBatch; rw [hs]
      have hr := hsr s agent rfl hb
      split
      · split
        · exact hr
        · split
          · exact hr
          · split
            · exact hrestart
            · exact hr
            · split
              · exact hr
              · exact hsync _ _ rfl rfl rfl hb rfl
      · exact h
    · exact h
  | syncSaveProof ok =>
    simp only [step]
    split
    next agent start cur target b pf hs =>
      have hb : inBatch s = true := by unfold inBatch; rw [hs]
      split
      · exact hsr s agent rfl hb
      · exact hsync _ _ rfl rfl rfl hb rfl
    · exact h
  | syncSaveBlock ok fl =>
    simp only [step]
    split
    next agent start cur target b pf hs =>
      have hb : inBatch s = true := by unfold inBatch; rw [hs]
      split
      · exact hsr s agent rfl hb
      · split
        · exact hsr (saveBlock s b) _ rfl hb
        · exact hsync _ _ rfl rfl rfl hb rfl
    · exact h
  | syncEnd =>
    simp only [step]
    split
    next agent start cur target hs =>
      have hb : inBatch s = true := by unfold inBatch; rw [hs]
      split
      · exact h
      · exact hsr s agent rfl hb
    · exact h
  | crash => exact hrestart

/-- Whatever the callers do (no assumption on Overlord or the peers), a commit and a batch are never
in progress together, and the lock is held exactly while one is. -/
theorem C27_exclusive (env : Env) (g : Block) (stopAt : Option Nat) (clock : Nat) (s : Node)
    (h : Reach env (fun _ _ => True) (boot env g stopAt clock) s) :
    ¬ (s.commit.isSome = true ∧ ∃ a st c t x, s.sync = some (.syncing a st c t x)) ∧
    (s.locked = true ↔ s.commit.isSome = true ∨ ∃ a st c t x, s.sync = some (.syncing a st c t x)) := by
  have hx : Excl s := by
    induction h with
    | init => exact ⟨rfl, fun h => by simp [boot] at h⟩
    | step _ _ ih => exact step_excl env _ _ ih
  have hb : (∃ a st c t x, s.sync = some (.syncing a st c t x)) ↔ inBatch s = true := by
    unfold inBatch
    constructor
    · rintro ⟨a, st, c, t, x, h⟩; rw [h]
    · intro h
      split at h
      next a st c t x e => exact ⟨a, st, c, t, x, e⟩
      · cases h
  rw [hb]
  refine ⟨?_, ?_⟩
  · rintro ⟨h1, h2⟩
    have := hx.2 h1
    rw [h2] at this; cases this
  · rw [hx.1, Bool.or_eq_true]

/-- A commit for any height but the next one does not touch the chain, the status or the lock. -/
theorem C27_gap_refused (env : Env) (s : Node) (cur : Nat) (p : Proposal) (pf : Proof) (ok : Bool)
    (hmax : cur + 1 ≠ u64Size) (h : cur ≠ s.status.lastNumber + 1) :
    step env s (.commitBegin cur p pf ok) = s ∨
    step env s (.commitBegin cur p pf ok) = { s with stopped := true } := by
  simp only [step]
  unfold stopMark
  by_cases hs : s.stopAt = some (cur - 1)
  · simp only [if_pos hs]
    right; rfl
  · simp only [if_neg hs, if_neg hmax, if_pos h]
    left
    split
    · rfl
    split
    · rfl
    split
    · rfl
    split <;> rfl

/-! ### Concrete chain -/

/-- A toy environment: hashes are sums with distinct decimal places, every quorum is valid, execution
counts up the state root. -/
def env0 : Env where
  blockHash h := 100000 * h.common.number + 1000 * h.common.timestamp + 10 * h.gasUsed + h.stateRoot
  proposalHash p := 10000000 + 100000 * p.common.number + 1000 * p.common.timestamp +
    10 * p.prevStateRoot + p.common.proposer
  quorum _ _ := true
  exec root _ txs := some ⟨root + 1, txs.length, 0, txs.length⟩
  digest txs := txs.length
  txsRoot hs := hs.length
  decodeHardfork n := some n

def c0 : Common := ⟨0, 0, 1, 0, 0, 5, 0, 0, [], 0, ⟨0, 0, 0, 0⟩, 0, 0⟩

def g0 : Block := ⟨⟨c0, 7, 0, 0, 0⟩, []⟩

/-- A proposal on top of `prev`, whose proof vouches for `prev`. -/
def propOn (env : Env) (prev : Block) (prevRoot grandRoot ts : Nat) : Proposal :=
  { common := { c0 with prevHash := env.blockHash prev.header, timestamp := ts,
                        number := prev.number + 1,
                        proof := ⟨prev.number, 0,
                          env.proposalHash (Proposal.ofHeader prev.header grandRoot prev.txHashes), 0⟩ },
    prevStateRoot := prevRoot, txHashes := [] }

def p1 : Proposal := propOn env0 g0 7 0 6
def b1 : Block := Block.new p1 ⟨8, 0, 0, 0⟩
def p2 : Proposal := propOn env0 b1 8 7 7
def b2 : Block := Block.new p2 ⟨9, 0, 0, 0⟩
/-- A second block 1, proposed when block 2 is already committed. -/
def p1' : Proposal := propOn env0 g0 7 0 8

/-- Check and commit `p` at height `cur`. -/
def commitOps (cur : Nat) (p : Proposal) : List Op :=
  [.check (env0.proposalHash p) 32 none p true (some []) (some []),
   .commitBegin cur p ⟨cur, 0, env0.proposalHash p, 0⟩ true, .commitExec (some []) true,
   .commitSave true, .commitSwap true, .commitEnd true]

/-- A node that commits blocks 1 and 2 through consensus. -/
example : ((run env0 (boot env0 g0 none 10) (commitOps 1 p1 ++ commitOps 2 p2)).saved,
    (run env0 (boot env0 g0 none 10) (commitOps 1 p1 ++ commitOps 2 p2)).status.lastNumber) =
    ([b2, b1], 2) := by decide +kernel

/-- A node that commits block 1 and obtains block 2 from a peer; a commit of block 2 arrives in the
middle of the batch and is refused. -/
example : ((run env0 (boot env0 g0 none 10) (commitOps 1 p1 ++
      [.syncBegin 2, .syncLock true, .commitBegin 2 p2 ⟨2, 0, 0, 0⟩ true,
       .syncVerify (some (b2, [], ⟨2, 0, env0.proposalHash p2, 0⟩)), .syncSaveProof true,
       .syncSaveBlock true true, .syncEnd])).saved) = [b2, b1] := by decide +kernel

/-- False without "the committed proposal carries the height of the commit": neither `check_block`
nor `commit` compares the proposal's number with the height.  A proposal for an old number on top of
its old parent passes every check of `check_block`, is committed at the current height, replaces the
old block and sets the node back. -/
theorem C27_number_unchecked_false :
    let s := run env0 (boot env0 g0 none 10) (commitOps 1 p1 ++ commitOps 2 p2)
    let t := run env0 s (commitOps 3 p1')
    checkBlock env0 s (env0.proposalHash p1') 32 none p1' true (some []) (some []) = .ok () ∧
    s.exempt = [] ∧ s.status.lastNumber = 2 ∧ get s.chain 1 = some b1 ∧
    t.status.lastNumber = 1 ∧ get t.chain 1 ≠ some b1 ∧
    t.saved.map Block.number = [1, 2, 1] := by
  decide +kernel

/-- False without "nothing fails between saving the block and updating the status": when a step after
`save_block` fails (for example reading the metadata), the block is stored but the status is not
advanced, so the same height is committed again, here with another block. -/
theorem C27_retry_false :
    let s := run env0 (boot env0 g0 none 10)
      ((commitOps 1 p1).take 4 ++ [.commitSwap false])
    let t := run env0 s (commitOps 1 p1')
    s.saved.map Block.number = [1] ∧ s.status.lastNumber = 0 ∧ s.latest = b1 ∧ s.locked = false ∧
    t.saved.map Block.number = [1, 1] ∧ get t.chain 1 ≠ some b1 := by
  decide +kernel

/-! ## C28 -/

/-- A proposal of another node is accepted only if its timestamp lies between its parent's and the
local clock. -/
theorem C28_checked (env : Env) (s : Node) (hash len : Nat) (hf : Option Nat) (p : Proposal)
    (vt : Bool) (full full2 : Option (List Tx)) (hex : hash ∉ s.exempt)
    (h : checkBlock env s hash len hf p vt full full2 = .ok ()) :
    ∃ prev, get s.chain (p.common.number - 1) = some prev ∧
      p.common.prevHash = env.blockHash prev.header ∧
      prev.timestamp ≤ p.common.timestamp ∧ p.common.timestamp ≤ s.clock := by
  obtain ⟨_, _, h⟩ := checkBlock_ok h
  rcases h with h | h
  · exact absurd h hex
  · obtain ⟨prev, _, _, hg, hp, _, ht, _⟩ := innerCheck_ok h
    refine ⟨prev, hg, hp, ?_⟩
    unfold validateTimestamp at ht
    split at ht
    · cases ht
    · split at ht
      · cases ht
      · omega

/-- **A vote for a hardfork.**  A node accepts a proposal, even one of its own that it recognises by its
hash, only if the proposal asks for no hardfork or for exactly the one the node itself proposes.  A node
that proposes none accepts none, and one whose bytes do not decode is refused by everybody. -/
theorem C107_checked (env : Env) (s : Node) (hash len : Nat) (hf : Option Nat) (p : Proposal)
    (vt : Bool) (full full2 : Option (List Tx))
    (h : checkBlock env s hash len hf p vt full full2 = .ok ()) :
    p.common.extra = [] ∨
      ∃ e rest d, p.common.extra = e :: rest ∧ env.decodeHardfork e = some d ∧ hf = some d := by
  obtain ⟨_, h, _⟩ := checkBlock_ok h
  unfold hardforkMatches at h
  split at h
  · rename_i he
    exact .inl he
  · rename_i e rest he
    split at h
    · cases h
    · rename_i d hd
      split at h
      · rename_i ho
        exact .inr ⟨e, rest, d, he, hd, ho⟩
      · cases h

/-- The first block asking for hardfork 3: accepted by a node that proposes 3, refused by one that proposes
none or 4. -/
example :
    let p : Proposal := { p1 with common := { p1.common with extra := [3] } }
    let s := boot env0 g0 none 10
    checkBlock env0 s (env0.proposalHash p) 32 (some 3) p true (some []) (some []) = .ok () ∧
    checkBlock env0 s (env0.proposalHash p) 32 none p true (some []) (some []) = .err ∧
    checkBlock env0 s (env0.proposalHash p) 32 (some 4) p true (some []) (some []) = .err := by
  decide +kernel

/-- The clock does not go back and the node does not synchronise. -/
def Steady (s : Node) : Op → Prop
  | .tick now => s.clock ≤ now
  | .syncBegin _ => False
  | _ => True

/-- Timestamps newest first. -/
def TsSorted (l : List Block) : Prop := l.Pairwise (fun b a => a.timestamp ≤ b.timestamp)

structure TsInv (g : Block) (s : Node) : Prop where
  sorted : TsSorted (hist g s)
  past : ∀ b ∈ hist g s, b.timestamp ≤ s.clock
  accepted : ∀ p ∈ s.accepted, p.common.timestamp ≤ s.clock ∧
    ∀ b ∈ hist g s, p.common.number = b.number + 1 → b.timestamp ≤ p.common.timestamp
  idle : s.sync = none
  stage : match s.commit with
    | some ⟨_, p, _, .checked⟩ => s.latest.timestamp ≤ p.common.timestamp ∧
        p.common.timestamp ≤ s.clock
    | some ⟨_, _, _, .proofSaved b⟩ => s.latest.timestamp ≤ b.timestamp ∧ b.timestamp ≤ s.clock
    | _ => True

theorem same_number {env : Env} {g : Block} {s : Node} (I : Inv env g s) {a b : Block}
    (ha : a ∈ hist g s) (hb : b ∈ hist g s) (h : a.number = b.number) : a = b := by
  have h1 := I.stored a ha
  have h2 := I.stored b hb
  rw [h, h2] at h1
  injection h1 with h1
  exact h1.symm

theorem TsInv.frame {g : Block} {s t : Node} (T : TsInv g s) (hs : t.saved = s.saved)
    (ha : t.accepted = s.accepted) (hc : s.clock ≤ t.clock) (hy : t.sync = none)
    (hst : match t.commit with
      | some ⟨_, p, _, .checked⟩ => t.latest.timestamp ≤ p.common.timestamp ∧
          p.common.timestamp ≤ t.clock
      | some ⟨_, _, _, .proofSaved b⟩ => t.latest.timestamp ≤ b.timestamp ∧ b.timestamp ≤ t.clock
      | _ => True) : TsInv g t := by
  have hh : hist g t = hist g s := by unfold hist; rw [hs]
  exact {
    sorted := by rw [hh]; exact T.sorted
    past := by rw [hh]; exact fun b hb => Nat.le_trans (T.past b hb) hc
    accepted := by
      rw [hh, ha]
      exact fun p hp => ⟨Nat.le_trans (T.accepted p hp).1 hc, (T.accepted p hp).2⟩
    idle := hy
    stage := hst }

theorem step_ts {env : Env} (hinj : ∀ p q, env.proposalHash p = env.proposalHash q → p = q)
    {g : Block} {s : Node} (I : Inv env g s) (T : TsInv g s) {op : Op}
    (hd : Disciplined env s op) (hs : Steady s op) : TsInv g (step env s op) := by
  have hrestart : TsInv g (restart env s) :=
    T.frame rfl rfl (Nat.le_refl _) rfl trivial
  have hret : TsInv g (commitReturn s) :=
    T.frame rfl rfl (Nat.le_refl _) T.idle trivial
  cases op with
  | tick now =>
    have hs : s.clock ≤ now := hs
    refine T.frame rfl rfl hs T.idle ?_
    have := T.stage
    simp only [step]
    split at this
    · exact ⟨this.1, Nat.le_trans this.2 hs⟩
    · exact ⟨this.1, Nat.le_trans this.2 hs⟩
    · trivial
  | getBlock next c hs ok =>
    simp only [step]
    split
    · exact T
    · split
      · exact hrestart
      · exact T
      next =>
        have hd : next = s.status.lastNumber + 1 := hd
        obtain ⟨b, hb, h1, _⟩ := I.status
        exact {
          sorted := T.sorted, past := T.past, idle := T.idle, stage := T.stage
          accepted := by
            intro p hp
            rcases List.mem_cons.1 hp with rfl | hp
            · refine ⟨Nat.le_refl _, fun a ha _ => T.past a ha⟩
            · exact T.accepted p hp }
  | check hash len hf p vt full full2 =>
    simp only [step]
    split
    · exact hrestart
    · exact T
    next hok =>
      obtain ⟨_, _, h⟩ := checkBlock_ok hok
      have hp : p.common.timestamp ≤ s.clock ∧
          ∀ b ∈ hist g s, p.common.number = b.number + 1 → b.timestamp ≤ p.common.timestamp := by
        rcases h with h | h
        · obtain ⟨q, hq, e⟩ := I.exempt _ h
          have hd : hash = env.proposalHash p := hd
          have : q = p := hinj _ _ (by rw [e, hd])
          subst this
          exact T.accepted _ (I.own _ hq)
        · obtain ⟨prev, _, h0, hg, _, _, ht, _⟩ := innerCheck_ok h
          obtain ⟨hm, hn⟩ := I.only _ _ hg
          have ht2 : prev.timestamp ≤ p.common.timestamp ∧ p.common.timestamp ≤ s.clock := by
            unfold validateTimestamp at ht
            split at ht
            · cases ht
            · split at ht
              · cases ht
              · omega
          refine ⟨ht2.2, ?_⟩
          intro b hb hbn
          have : b = prev := same_number I hb hm (by omega)
          rw [this]; exact ht2.1
      exact {
        sorted := T.sorted, past := T.past, idle := T.idle, stage := T.stage
        accepted := by
          intro q hq
          rcases List.mem_cons.1 hq with rfl | hq
          · exact hp
          · exact T.accepted q hq }
  | commitBegin cur p pf ok =>
    simp only [step]
    generalize ht : stopMark s cur = t
    have It : TsInv g t ∧ t.status = s.status ∧ t.latest = s.latest ∧ t.accepted = s.accepted ∧
        Inv env g t := by
      subst ht
      unfold stopMark
      split
      · exact ⟨T.frame rfl rfl (Nat.le_refl _) T.idle T.stage, rfl, rfl, rfl,
          I.frame rfl rfl rfl rfl (fun q h => h) I.exempt I.status I.excl I.phase⟩
      · exact ⟨T, rfl, rfl, rfl, I⟩
    obtain ⟨Tt, hst, hlt, hacc, It⟩ := It
    split
    · exact Tt
    split
    · exact Tt
    next hlock =>
      split
      · exact Tt.frame rfl rfl (Nat.le_refl _) rfl trivial
      split
      · exact Tt
      split
      · exact Tt
      split
      · exact Tt
      next hcur =>
        have hcur := Classical.not_not.1 hcur
        obtain ⟨hp, hpn⟩ := hd
        have hl0 : t.locked = false := by simpa using hlock
        have hcn : t.commit = none := by
          have := It.excl.1; rw [hl0] at this
          have := this.symm
          rw [Bool.or_eq_false_iff] at this
          simpa using this.1
        have hat : At env t.status t.latest := by
          have hph := It.phase
          unfold phase at hph
          rw [hcn, Tt.idle] at hph
          exact hph
        refine Tt.frame rfl rfl (Nat.le_refl _) Tt.idle ?_
        show t.latest.timestamp ≤ p.common.timestamp ∧ p.common.timestamp ≤ t.clock
        have hp' : p ∈ t.accepted := by rw [hacc]; exact hp
        have h := Tt.accepted p hp'
        refine ⟨h.2 _ (head_mem It.head) ?_, h.1⟩
        rw [hpn, hcur, hat.1]
  | commitExec txs ok =>
    simp only [step]
    split
    next cur p pf hc =>
      have hst := T.stage
      rw [hc] at hst
      split
      · exact hret
      · split
        · exact hret
        · split
          · exact hret
          · exact T.frame rfl rfl (Nat.le_refl _) T.idle hst
    · exact T
  | commitSave ok =>
    simp only [step]
    split
    next cur p pf b hc =>
      have hst := T.stage
      rw [hc] at hst
      simp only at hst
      have hph := (phase_commit_sync hc).1 I.phase
      simp only at hph
      split
      · exact hret
      · refine {
          sorted := ?_, past := ?_, accepted := ?_, idle := T.idle, stage := trivial }
        · refine List.pairwise_cons.2 ⟨?_, T.sorted⟩
          intro a ha
          have hhead := I.head
          have hsrt := T.sorted
          have ha : a ∈ hist g s := ha
          have : a.timestamp ≤ s.latest.timestamp := by
            cases hq : hist g s with
            | nil => rw [hq] at ha; simp at ha
            | cons x l =>
              rw [hq] at hhead ha
              unfold TsSorted at hsrt
              rw [hq] at hsrt
              simp at hhead
              subst hhead
              rcases List.mem_cons.1 ha with h | h
              · rw [h]; exact Nat.le_refl _
              · exact (List.pairwise_cons.1 hsrt).1 a h
          exact Nat.le_trans this hst.1
        · intro a ha
          have ha : a ∈ b :: hist g s := ha
          rcases List.mem_cons.1 ha with rfl | ha
          · exact hst.2
          · exact T.past a ha
        · intro q hq
          have h := T.accepted q hq
          refine ⟨h.1, ?_⟩
          intro a ha hn
          have ha : a ∈ b :: hist g s := ha
          rcases List.mem_cons.1 ha with rfl | ha
          · obtain ⟨c, hc, hcn, _⟩ := I.accepted q hq
            have := linked_le_head I.linked I.head hc
            omega
          · exact h.2 a ha hn
    · exact T
  | commitSwap ok =>
    simp only [step]
    split
    · split
      · exact hret
      · exact T.frame rfl rfl (Nat.le_refl _) T.idle trivial
    · exact T
  | commitEnd cl =>
    simp only [step]
    split
    · split
      · exact T.frame rfl rfl (Nat.le_refl _) T.idle trivial
      · exact hret
    · exact T
  | syncBegin remote => exact absurd hs (by intro h; exact h)
  | syncLock ok => simp only [step, T.idle]; exact T
  | syncVerify ans => simp only [step, T.idle]; exact T
  | syncSaveProof ok => simp only [step, T.idle]; exact T
  | syncSaveBlock ok fl => simp only [step, T.idle]; exact T
  | syncEnd => simp only [step, T.idle]; exact T
  | crash => exact hrestart

/-- Along every chain of blocks that a node with a clock that never goes back commits through
consensus (own proposals and those of others, with crashes at any point), timestamps never decrease
and never exceed the local clock.  Not covered: blocks obtained by synchronisation, whose timestamps
are not checked at all (`C28_sync_false`), and a clock that goes back (`C28_own_false`). -/
theorem C28_chain_partial (env : Env)
    (hinj : ∀ p q, env.proposalHash p = env.proposalHash q → p = q) (g : Block)
    (stopAt : Option Nat) (clock : Nat) (hg : g.timestamp ≤ clock) (s : Node)
    (h : Reach env (fun s op => Disciplined env s op ∧ Steady s op) (boot env g stopAt clock) s) :
    (s.saved ++ [g]).Pairwise (fun b a => a.timestamp ≤ b.timestamp) ∧
    (∀ b ∈ s.saved ++ [g], b.timestamp ≤ s.clock) := by
  have : Inv env g s ∧ TsInv g s := by
    induction h with
    | init =>
      refine ⟨boot_inv env g stopAt clock, ?_⟩
      exact {
        sorted := by simp [TsSorted, hist, boot]
        past := by intro b hb; simp [hist, boot] at hb; subst hb; exact hg
        accepted := by intro p hp; simp [boot] at hp
        idle := rfl
        stage := trivial }
    | step _ hd ih => exact ⟨step_inv hinj ih.1 hd.1, step_ts hinj ih.1 ih.2 hd.1 hd.2⟩
  exact ⟨this.2.sorted, this.2.past⟩

example : ((run env0 (boot env0 g0 none 10) (commitOps 1 p1 ++ commitOps 2 p2)).saved ++ [g0]).map
    Block.timestamp = [7, 6, 5] := by decide +kernel

/-- The own proposal of a node is not checked: after the clock went back the node proposes, accepts
and commits a block that is older than its parent, which no other node accepts. -/
theorem C28_own_false :
    let s := run env0 (boot env0 g0 none 10) (commitOps 1 p1 ++ [.tick 3])
    let p := ownProposal s 2 c0 []
    let t := run env0 s (.getBlock 2 c0 [] true :: commitOps 2 p)
    t.saved.map Block.timestamp = [3, 6] ∧
    checkBlock env0 s (env0.proposalHash p) 32 none p true (some []) (some []) = .err := by
  decide +kernel

/-- A block obtained from a peer is stored although it is older than its parent and later than the
clock allows. -/
theorem C28_sync_false :
    let early : Block := Block.new (propOn env0 b1 8 7 2) ⟨9, 0, 0, 0⟩
    let late : Block := Block.new (propOn env0 b1 8 7 99) ⟨9, 0, 0, 0⟩
    let batch := fun (b : Block) (r : Nat) => [Op.syncBegin 2, .syncLock true,
       .syncVerify (some (b, [], ⟨2, 0, r, 0⟩)), .syncSaveProof true, .syncSaveBlock true true,
       .syncEnd]
    let s := run env0 (boot env0 g0 none 10) (commitOps 1 p1)
    (run env0 s (batch early (env0.proposalHash (propOn env0 b1 8 7 2)))).saved.map Block.timestamp
      = [2, 6] ∧
    (run env0 s (batch late (env0.proposalHash (propOn env0 b1 8 7 99)))).saved.map Block.timestamp
      = [99, 6] := by
  decide +kernel

end Axon.Chain
