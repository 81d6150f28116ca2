import Verif.Consensus.Progress
import Verif.Consensus.EngineProps

/-!
# C111: what `eth_syncing` reports
-/

namespace Axon.Progress

open Axon Axon.Assoc Axon.Chain

/-! ## Specification -/

/-- A batch of the synchroniser is in progress. -/
def Syncing (s : Node) : Prop := ∃ a st c t y, s.sync = some (.syncing a st c t y)

/-- Operations of consensus: proposals, commits and the clock. -/
def Consensus : Op → Prop
  | .tick _ | .commitExec .. | .commitSave .. | .commitSwap .. | .commitEnd .. => True
  | .commitBegin cur _ _ _ => cur + 1 ≠ u64Size
  | _ => False

/-- Operations whose `update_status`, if any, succeeds. -/
def fine (ops : List Op) : List (Op × Bool) := ops.map (·, true)

theorem batch_none {s : Node} : batch s = none ↔ ¬ Syncing s := by
  unfold batch Syncing
  constructor
  · intro h
    rintro ⟨a, st, c, t, y, e⟩
    rw [e] at h; cases h
  · intro h
    split
    next a st c t y e => exact absurd ⟨a, st, c, t, y, e⟩ h
    · rfl

/-! ## While a batch runs -/

/-- While a batch is in progress `eth_syncing` answers with an object, whatever happened before and
whatever Overlord, the peers and the storage do: it starts at the number the batch started from, its
current number is the one the batch has reached, its highest number is the bound of the batch, in this
order, and the bound is at most 50 blocks ahead. -/
theorem C111_running (env : Env) (g : Block) (stopAt : Option Nat) (clock : Nat) (w : Watch)
    (h : ReachW env (fun _ _ _ => True) (bootW env g stopAt clock) w)
    (a : Status) (st c t : Nat) (y : Option (Block × Proof × Bool))
    (hb : w.node.sync = some (.syncing a st c t y)) :
    ethSyncing w = some { startingBlock := st, currentBlock := c, highestBlock := t,
                          knownStates := 0, pulledStates := 0 } ∧
      st ≤ c ∧ c ≤ t ∧ t ≤ st + 50 := by
  have hx := (reachW_exact h).2 st c t (by unfold batch; rw [hb])
  refine ⟨?_, hx.2.1, hx.2.2.1, hx.2.2.2⟩
  unfold ethSyncing
  rw [hx.1]

/-- The statement one would like: `eth_syncing` is `false` exactly when no batch is in progress, and
otherwise its current number is the number of the newest stored block and its starting number not
beyond it.  Proved for runs in which `update_status` never fails at the end of a batch (false without:
`C111_stale_false`) and, for the newest stored block, under the assumptions of C27. -/
theorem C111_report_partial (env : Env)
    (hinj : ∀ p q, env.proposalHash p = env.proposalHash q → p = q) (g : Block)
    (stopAt : Option Nat) (clock : Nat) (w : Watch)
    (h : ReachW env (fun s op u => Disciplined env s op ∧ u = true) (bootW env g stopAt clock) w) :
    (ethSyncing w = none ↔ ¬ Syncing w.node) ∧
    (∀ r, ethSyncing w = some r → r.currentBlock = w.node.latest.number ∧
      r.startingBlock ≤ r.currentBlock ∧ r.currentBlock ≤ r.highestBlock ∧
      (w.node.saved ++ [g]).head? = some w.node.latest) := by
  have hx := (reachW_exact h).2
  have hi := reachW_idle (fun _ _ _ hk => hk.2) h
  have I := reach_inv hinj (reachW_reach (fun _ _ _ hk => hk.1) h)
  have key : ∀ r, ethSyncing w = some r → ∃ a st c t y,
      w.node.sync = some (.syncing a st c t y) ∧ r = ⟨st, c, t, 0, 0⟩ ∧ st ≤ c ∧ c ≤ t := by
    intro r hr
    cases hb : batch w.node with
    | none =>
      have := hi hb
      unfold ethSyncing at hr
      rw [this] at hr; cases hr
    | some q =>
      obtain ⟨st, c, t⟩ := q
      have he := hx st c t hb
      unfold ethSyncing at hr
      rw [he.1] at hr
      unfold batch at hb
      split at hb
      next a st' c' t' y e =>
        simp only [Option.some.injEq, Prod.mk.injEq] at hb
        obtain ⟨rfl, rfl, rfl⟩ := hb
        exact ⟨a, _, _, _, y, e, (Option.some.inj hr).symm, he.2.1, he.2.2.1⟩
      · cases hb
  refine ⟨⟨?_, ?_⟩, ?_⟩
  · intro hn hs
    obtain ⟨a, st, c, t, y, e⟩ := hs
    have he := (hx st c t (by unfold batch; rw [e])).1
    unfold ethSyncing at hn
    rw [he] at hn; cases hn
  · intro hs
    cases hr : ethSyncing w with
    | none => rfl
    | some r =>
      obtain ⟨a, st, c, t, y, e, _⟩ := key r hr
      exact absurd ⟨a, st, c, t, y, e⟩ hs
  · intro r hr
    obtain ⟨a, st, c, t, y, e, rfl, h1, h2⟩ := key r hr
    refine ⟨?_, h1, h2, I.head⟩
    have hc : w.node.commit = none :=
      commit_none_of_batch I.excl (by unfold inBatch; rw [e])
    have hp := I.phase
    unfold phase at hp
    rw [hc, e] at hp
    show c = _
    rcases y with _ | ⟨b, pf, f⟩
    · exact hp.2
    · exact hp.2.1

/-- A batch in progress: the answer follows the stored blocks, and is `false` afterwards. -/
example :
    let w := runW env0 (bootW env0 g0 none 10)
      (fine (commitOps 1 p1 ++ [.syncBegin 1000, .syncLock true]))
    let w' := runW env0 w (fine [.syncVerify (some (b2, [], ⟨2, 0, env0.proposalHash p2, 0⟩)),
      .syncSaveProof true, .syncSaveBlock true true])
    ethSyncing w = some ⟨1, 1, 51, 0, 0⟩ ∧ w.node.latest = b1 ∧
    ethSyncing w' = some ⟨1, 2, 51, 0, 0⟩ ∧ w'.node.latest = b2 ∧
    ethSyncing (runW env0 w' [(.syncVerify none, true)]) = none := by decide +kernel

/-- Progress never goes back within a batch: as long as a step leaves a batch in progress that was in
progress before, the answer keeps its starting and highest number and its current number grows by at
most one. -/
theorem C111_monotone (env : Env) (g : Block) (stopAt : Option Nat) (clock : Nat) (w : Watch)
    (h : ReachW env (fun _ _ _ => True) (bootW env g stopAt clock) w) (op : Op) (u : Bool)
    (hs : Syncing w.node) (hs' : Syncing (stepW env w op u).node) :
    ∃ st c c' t, ethSyncing w = some ⟨st, c, t, 0, 0⟩ ∧
      ethSyncing (stepW env w op u) = some ⟨st, c', t, 0, 0⟩ ∧ (c' = c ∨ c' = c + 1) := by
  obtain ⟨a, st, c, t, y, e⟩ := hs
  obtain ⟨a', st', c', t', y', e'⟩ := hs'
  have r1 := (C111_running env g stopAt clock w h a st c t y e).1
  have r2 := (C111_running env g stopAt clock _ (.step h trivial) a' st' c' t' y' e').1
  have m := step_moves env w.node w.shown u op (reachW_exact h).1
  have hb : batch w.node = some (st, c, t) := by unfold batch; rw [e]
  have hb' : batch (step env w.node op) = some (st', c', t') := by
    have e'' : (step env w.node op).sync = _ := e'
    unfold batch; rw [e'']
  rw [hb, hb'] at m
  generalize note env w.node w.shown u op = z at m
  generalize w.shown = x at m
  cases m with
  | same => exact ⟨st, c, c, t, r1, r2, .inl rfl⟩
  | adds => exact ⟨st, c, c + 1, t, r1, r2, .inr rfl⟩

/-! ## After a batch -/

/-- The last operations of a batch that fails, and whose `update_status` fails too. -/
def brokenBatch : List (Op × Bool) :=
  [(.syncBegin 1000, true), (.syncLock true, true), (.syncVerify none, false)]

/-- False: when `update_status` fails at the end of a batch (for example because the metadata of the
next block cannot be read), `finish` is skipped.  No batch is running, both locks are free, the node
goes on to commit blocks 1 and 2 by consensus, and `eth_syncing` still answers that it is at block 0
of 50. -/
theorem C111_stale_false :
    let w := runW env0 (bootW env0 g0 none 10) brokenBatch
    let w' := runW env0 w (fine (commitOps 1 p1 ++ commitOps 2 p2))
    w.node.sync = none ∧ w.node.locked = false ∧ ethSyncing w = some ⟨0, 0, 50, 0, 0⟩ ∧
    w'.node.sync = none ∧ w'.node.latest = b2 ∧ w'.node.status.lastNumber = 2 ∧
    ethSyncing w' = some ⟨0, 0, 50, 0, 0⟩ := by decide +kernel

/-- A stale answer stays for as long as blocks arrive by consensus. -/
theorem C111_stale_stays (env : Env) (w : Watch) (ops : List (Op × Bool))
    (h : ∀ o ∈ ops, Consensus o.1) : ethSyncing (runW env w ops) = ethSyncing w := by
  induction ops generalizing w with
  | nil => rfl
  | cons o ops ih =>
    have h1 := ih (stepW env w o.1 o.2) (fun q hq => h q (List.mem_cons_of_mem _ hq))
    have h2 := h o (List.mem_cons_self ..)
    show ethSyncing (runW env (stepW env w o.1 o.2) ops) = _
    rw [h1]
    have h3 : (stepW env w o.1 o.2).shown = w.shown := by
      show note env w.node w.shown o.2 o.1 = w.shown
      cases ho : o.1 <;> rw [ho] at h2 <;> try (exact absurd h2 id)
      all_goals try rfl
      simp only [note]
      split
      · rfl
      split
      · rfl
      rw [if_neg h2]
    unfold ethSyncing
    rw [h3]

example : ∀ o ∈ fine ((commitOps 1 p1).drop 1), Consensus o.1 := by
  intro o ho
  simp only [fine, commitOps, List.drop, List.map, List.mem_cons, List.not_mem_nil, or_false] at ho
  rcases ho with rfl | rfl | rfl | rfl | rfl <;> simp [Consensus, u64Size]

/-- The highest number is not what the peers announced: it is the smaller of the announced height and
50 blocks ahead of the node, for every batch. -/
theorem C111_highest (env : Env) (w : Watch) (remote : Nat) (u : Bool)
    (hw : w.node.sync = some (.waiting remote)) (hl : w.node.locked = false)
    (hr : w.node.status.lastNumber < remote) (hm : w.node.status.lastNumber + 50 < u64Size) :
    ethSyncing (stepW env w (.syncLock true) u) =
      some ⟨w.node.status.lastNumber, w.node.status.lastNumber,
        min remote (w.node.status.lastNumber + 50), 0, 0⟩ := by
  have h3 : ¬ remote ≤ w.node.status.lastNumber := by omega
  have h4 : ¬ w.node.status.lastNumber + onceSyncBlockLimit ≥ u64Size := by
    unfold onceSyncBlockLimit; omega
  have hn : (stepW env w (.syncLock true) u).shown =
      .syncing w.node.status.lastNumber w.node.status.lastNumber
        (min remote (w.node.status.lastNumber + 50)) := by
    show note env w.node w.shown u (.syncLock true) = _
    simp only [note, hw, hl]
    rw [if_neg (by simp), if_neg (by simp), if_neg h3, if_neg h4]
    unfold SyncStatus.begin syncTarget onceSyncBlockLimit
    congr 1
    split <;> omega
  unfold ethSyncing
  rw [hn]

/-- … so a node far behind reports that it is done after every batch: here peers announced height
1000, the node stands at block 1 and answers that the highest block is 51; when the batch breaks off
it answers `false`, although it is 999 blocks behind. -/
theorem C111_highest_false :
    let w := runW env0 (bootW env0 g0 none 10)
      (fine (commitOps 1 p1 ++ [.syncBegin 1000, .syncLock true]))
    ethSyncing w = some ⟨1, 1, 51, 0, 0⟩ ∧
    ethSyncing (runW env0 w [(.syncVerify none, true)]) = none ∧
    (runW env0 w [(.syncVerify none, true)]).node.status.lastNumber = 1 := by decide +kernel

end Axon.Progress
