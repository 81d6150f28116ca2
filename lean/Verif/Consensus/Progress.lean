import Verif.Consensus.EngineLemmas

/-!
# The progress that `eth_syncing` reports

`SYNC_STATUS` is a global that a synchronisation batch writes and that the RPC method `eth_syncing`
(and the `syncing` subscription) reads.  It is put beside the engine and synchroniser of `Engine.lean`:
every step of the node also tells what becomes of the global.
-/

namespace Axon.Progress

open Axon Axon.Assoc Axon.Chain

/-- core/consensus/src/synchronization.rs:532-541 `SyncStatus`. -/
inductive SyncStatus where
  | off
  | syncing (start current highest : Nat)
deriving DecidableEq, Repr

/-- core/consensus/src/synchronization.rs:544-550 `start`. -/
def SyncStatus.begin (_ : SyncStatus) (start highest : Nat) : SyncStatus :=
  .syncing start start highest

/-- core/consensus/src/synchronization.rs:552-554 `finish`. -/
def SyncStatus.finish (_ : SyncStatus) : SyncStatus := .off

/-- core/consensus/src/synchronization.rs:556-565 `add_one`.  Simplification: the addition is not
bounded (the values are `U256` that start as `u64`). -/
def SyncStatus.addOne : SyncStatus → SyncStatus
  | .off => .off
  | .syncing start current highest => .syncing start (current + 1) highest

/-- core/consensus/src/synchronization.rs:74-94 the end of a batch, with or without an error:
`update_status` first (501-529), whose failure returns before `finish`. -/
def SyncStatus.close (x : SyncStatus) (updateOk : Bool) : SyncStatus :=
  if updateOk then x.finish else x

/-- A node and the global. -/
structure Watch where
  node : Node
  shown : SyncStatus
deriving DecidableEq, Repr

/-- What a step of the node does to the global.  A panic stops the process, and the global of the next
one is `SyncStatus::default()` (synchronization.rs:20-22, 534).  `updateOk`: `update_status` succeeds,
should the step end a batch.  Simplification: storing a block, flushing the pool and `add_one`
(synchronization.rs:182-202) are one step, as in `Engine.lean`. -/
def note (env : Env) (s : Node) (x : SyncStatus) (updateOk : Bool) : Op → SyncStatus
  | .tick _ => x
  | .getBlock next c txHashes txsOk =>
    if txsOk = false then x
    else match numberFollowsProof (ownProposal s next c txHashes) with
      | .panic => .off
      | .err => x
      | .ok _ => x
  | .check hash hashLen hf p verifyTxs full full2 =>
    match checkBlock env s hash hashLen hf p verifyTxs full full2 with
    | .panic => .off
    | .err => x
    | .ok _ => x
  | .commitBegin cur _ _ _ =>
    if (stopMark s cur).stopped then x
    else if s.locked then x
    else if cur + 1 = u64Size then .off
    else x
  | .commitExec _ _ => x
  | .commitSave _ => x
  | .commitSwap _ => x
  | .commitEnd _ => x
  | .syncBegin _ => x
  | .syncLock metaOk =>
    match s.sync with
    | some (.waiting remote) =>
      if metaOk = false then x
      else if s.locked then x
      else if remote ≤ s.status.lastNumber then x
      else if s.status.lastNumber + onceSyncBlockLimit ≥ u64Size then .off
      else x.begin s.status.lastNumber (syncTarget s.status.lastNumber remote)
    | _ => x
  | .syncVerify answer =>
    match s.sync with
    | some (.syncing agent _ cur target none) =>
      if cur < target then
        match answer with
        | none => x.close updateOk
        | some (b, txs, pf) =>
          if b.number ≠ cur + 1 then x.close updateOk
          else match verifySynced env s.chain s.status.lastStateRoot b txs pf with
            | .panic => .off
            | .err => x.close updateOk
            | .ok _ =>
              match execSynced env agent.lastStateRoot s.status.lastStateRoot b txs with
              | none => x.close updateOk
              | some _ => x
      else x
    | _ => x
  | .syncSaveProof ok =>
    match s.sync with
    | some (.syncing _ _ _ _ (some (_, _, false))) => if ok = false then x.close updateOk else x
    | _ => x
  | .syncSaveBlock ok flushOk =>
    match s.sync with
    | some (.syncing _ _ _ _ (some (_, _, true))) =>
      if ok = false then x.close updateOk
      else if flushOk = false then x.close updateOk
      else x.addOne
    | _ => x
  | .syncEnd =>
    match s.sync with
    | some (.syncing _ _ cur target none) => if cur < target then x else x.close updateOk
    | _ => x
  | .crash => .off

/-- A step, and whether `update_status` succeeds in it. -/
def stepW (env : Env) (w : Watch) (op : Op) (updateOk : Bool) : Watch :=
  ⟨step env w.node op, note env w.node w.shown updateOk op⟩

/-- A node that starts on a stored genesis block. -/
def bootW (env : Env) (g : Block) (stopAt : Option Nat) (clock : Nat) : Watch :=
  ⟨boot env g stopAt clock, .off⟩

/-- States reached by steps that satisfy `ok`. -/
inductive ReachW (env : Env) (ok : Node → Op → Bool → Prop) (init : Watch) : Watch → Prop where
  | init : ReachW env ok init init
  | step {w : Watch} {op : Op} {u : Bool} : ReachW env ok init w → ok w.node op u →
      ReachW env ok init (stepW env w op u)

def runW (env : Env) (w : Watch) (ops : List (Op × Bool)) : Watch :=
  ops.foldl (fun w o => stepW env w o.1 o.2) w

/-- core/api/src/jsonrpc/web3_types.rs:684-692 `SyncStatus`, the object of the answer. -/
structure Web3Progress where
  startingBlock : Nat
  currentBlock : Nat
  highestBlock : Nat
  knownStates : Nat
  pulledStates : Nat
deriving DecidableEq, Repr

/-- core/api/src/jsonrpc/impl/node.rs:44-46 `syncing` with web3_types.rs:653-682: `none` is the JSON
value `false`. -/
def ethSyncing (w : Watch) : Option Web3Progress :=
  match w.shown with
  | .off => none
  | .syncing start current highest => some ⟨start, current, highest, 0, 0⟩

/-! ## Lemmas -/

/-- The batch that is running: where it started, how far it is and where it ends. -/
def batch (s : Node) : Option (Nat × Nat × Nat) :=
  match s.sync with
  | some (.syncing _ start cur target _) => some (start, cur, target)
  | _ => none

/-- While a batch runs the global describes it. -/
def Exact (w : Watch) : Prop :=
  ∀ st c t, batch w.node = some (st, c, t) → w.shown = .syncing st c t ∧ st ≤ c ∧ c ≤ t ∧
    t ≤ st + onceSyncBlockLimit

/-- Without a batch the global is off. -/
def Idle (w : Watch) : Prop := batch w.node = none → w.shown = .off

theorem batch_restart (env : Env) (s : Node) : batch (restart env s) = none := rfl
theorem batch_commitReturn (s : Node) : batch (commitReturn s) = batch s := rfl
theorem batch_syncReturn (s : Node) (a : Status) : batch (syncReturn s a) = none := rfl

theorem batch_congr {s t : Node} (h : t.sync = s.sync) : batch t = batch s := by
  unfold batch; rw [h]

/-- The pair `(batch, global)` after a step, in terms of the pair before. -/
inductive Moves : Option (Nat × Nat × Nat) → SyncStatus → Bool →
    Option (Nat × Nat × Nat) → SyncStatus → Prop where
  /-- Nothing changes. -/
  | same (b x u) : Moves b x u b x
  /-- The process starts again. -/
  | fresh (b x u) : Moves b x u none .off
  /-- A batch begins. -/
  | begins (x u st t) (h : st < t) (hb : t ≤ st + onceSyncBlockLimit) :
      Moves none x u (some (st, st, t)) (.syncing st st t)
  /-- A block was stored. -/
  | adds (x u st c t) (h : c < t) : Moves (some (st, c, t)) x u (some (st, c + 1, t)) x.addOne
  /-- The batch ends. -/
  | ends (b x u) : Moves (some b) x u none (x.close u)

/-- A block is being stored only below the bound of the batch. -/
def Staged (s : Node) : Prop :=
  ∀ a st c t y, s.sync = some (.syncing a st c t (some y)) → c < t

theorem target_bounds {n remote : Nat} (h : ¬ remote ≤ n) :
    n < syncTarget n remote ∧ syncTarget n remote ≤ n + onceSyncBlockLimit ∧
      syncTarget n remote ≤ remote := by
  unfold syncTarget onceSyncBlockLimit
  split <;> omega

theorem step_moves (env : Env) (s : Node) (x : SyncStatus) (u : Bool) (op : Op) (hs : Staged s) :
    Moves (batch s) x u (batch (step env s op)) (note env s x u op) := by
  have same : ∀ {t : Node}, t.sync = s.sync → Moves (batch s) x u (batch t) x := by
    intro t h; rw [batch_congr h]; exact .same _ _ _
  cases op with
  | tick now => exact same rfl
  | getBlock next c hs ok =>
    simp only [step, note]
    by_cases h : ok = false
    · rw [if_pos h, if_pos h]; exact same rfl
    · rw [if_neg h, if_neg h]
      cases numberFollowsProof (ownProposal s next c hs) with
      | panic => exact .fresh _ _ _
      | err => exact same rfl
      | ok _ => exact same rfl
  | check hash len hf p v f f2 =>
    simp only [step, note]
    cases checkBlock env s hash len hf p v f f2 with
    | panic => exact .fresh _ _ _
    | err => exact same rfl
    | ok _ => exact same rfl
  | commitBegin cur p pf mo =>
    simp only [step, note]
    have hsy : (stopMark s cur).sync = s.sync := by unfold stopMark; split <;> rfl
    have hlk : (stopMark s cur).locked = s.locked := by unfold stopMark; split <;> rfl
    rw [hlk]
    by_cases h1 : (stopMark s cur).stopped = true
    · rw [if_pos h1, if_pos h1]; exact same hsy
    · rw [if_neg h1, if_neg h1]
      by_cases h2 : s.locked = true
      · rw [if_pos h2, if_pos h2]; exact same hsy
      · rw [if_neg h2, if_neg h2]
        by_cases h3 : cur + 1 = u64Size
        · rw [if_pos h3, if_pos h3]; exact .fresh _ _ _
        · rw [if_neg h3, if_neg h3]
          split
          · exact same hsy
          split
          · exact same hsy
          split
          · exact same hsy
          · exact same hsy
  | commitExec txs ok =>
    simp only [step, note]
    repeat' split
    all_goals exact same rfl
  | commitSave ok =>
    simp only [step, note]
    repeat' split
    all_goals exact same rfl
  | commitSwap ok =>
    simp only [step, note]
    repeat' split
    all_goals exact same rfl
  | commitEnd ok =>
    simp only [step, note]
    repeat' split
    all_goals exact same rfl
  | syncBegin remote =>
    simp only [step, note]
    cases hy : s.sync with
    | some r => exact same rfl
    | none =>
      have hb : batch s = none := by unfold batch; rw [hy]
      dsimp only
      split
      · exact same rfl
      split
      · exact same rfl
      · have : batch { s with sync := some (.waiting remote) } = none := rfl
        rw [this, hb]; exact .same _ _ _
  | syncLock ok =>
    simp only [step, note]
    cases hy : s.sync with
    | none => exact same rfl
    | some r =>
      cases r with
      | syncing a st c t y => exact same rfl
      | waiting remote =>
        have hb : batch s = none := by unfold batch; rw [hy]
        rw [hb]
        dsimp only
        by_cases h1 : ok = false
        · rw [if_pos h1, if_pos h1]; exact .same _ _ _
        rw [if_neg h1, if_neg h1]
        by_cases h2 : s.locked = true
        · rw [if_pos h2, if_pos h2]; exact .same _ _ _
        rw [if_neg h2, if_neg h2]
        by_cases h3 : remote ≤ s.status.lastNumber
        · rw [if_pos h3, if_pos h3]; exact .same _ _ _
        rw [if_neg h3, if_neg h3]
        by_cases h4 : s.status.lastNumber + onceSyncBlockLimit ≥ u64Size
        · rw [if_pos h4, if_pos h4]; exact .fresh _ _ _
        rw [if_neg h4, if_neg h4]
        have ht := target_bounds h3
        exact .begins _ _ _ _ ht.1 ht.2.1
  | syncVerify ans =>
    simp only [step, note]
    cases hy : s.sync with
    | none => exact same rfl
    | some r =>
      cases r with
      | waiting remote => exact same rfl
      | syncing a st c t y =>
        cases y with
        | some y => exact same rfl
        | none =>
          have hb : batch s = some (st, c, t) := by unfold batch; rw [hy]
          have fin : ∀ a, Moves (batch s) x u (batch (syncReturn s a)) (x.close u) := by
            intro a; rw [hb]; exact .ends _ _ _
          dsimp only
          by_cases h1 : c < t
          · rw [if_pos h1, if_pos h1]
            cases ans with
            | none => exact fin _
            | some q =>
              obtain ⟨b, txs, pf⟩ := q
              dsimp only
              by_cases h2 : b.number ≠ c + 1
              · rw [if_pos h2, if_pos h2]; exact fin _
              rw [if_neg h2, if_neg h2]
              cases verifySynced env s.chain s.status.lastStateRoot b txs pf with
              | panic => exact .fresh _ _ _
              | err => exact fin _
              | ok _ =>
                dsimp only
                cases execSynced env a.lastStateRoot s.status.lastStateRoot b txs with
                | none => exact fin _
                | some _ =>
                  dsimp only
                  have : batch { s with sync := some (.syncing a st c t (some (b, pf, false))) } =
                      some (st, c, t) := rfl
                  rw [this, hb]; exact .same _ _ _
          · rw [if_neg h1, if_neg h1]; exact same rfl
  | syncSaveProof ok =>
    simp only [step, note]
    cases hy : s.sync with
    | none => exact same rfl
    | some r =>
      cases r with
      | waiting remote => exact same rfl
      | syncing a st c t y =>
        rcases y with _ | ⟨b, pf, f⟩
        · exact same rfl
        have hb : batch s = some (st, c, t) := by unfold batch; rw [hy]
        cases f with
        | true => exact same rfl
        | false =>
          dsimp only
          by_cases h1 : ok = false
          · rw [if_pos h1, if_pos h1, hb]; exact .ends _ _ _
          · rw [if_neg h1, if_neg h1, hb]; exact .same _ _ _
  | syncSaveBlock ok fl =>
    simp only [step, note]
    cases hy : s.sync with
    | none => exact same rfl
    | some r =>
      cases r with
      | waiting remote => exact same rfl
      | syncing a st c t y =>
        rcases y with _ | ⟨b, pf, f⟩
        · exact same rfl
        have hb : batch s = some (st, c, t) := by unfold batch; rw [hy]
        cases f with
        | false => exact same rfl
        | true =>
          dsimp only
          by_cases h1 : ok = false
          · rw [if_pos h1, if_pos h1, hb]; exact .ends _ _ _
          rw [if_neg h1, if_neg h1]
          by_cases h2 : fl = false
          · rw [if_pos h2, if_pos h2, hb]; exact .ends _ _ _
          · rw [if_neg h2, if_neg h2, hb]
            exact .adds _ _ _ _ _ (hs _ _ _ _ _ hy)
  | syncEnd =>
    simp only [step, note]
    cases hy : s.sync with
    | none => exact same rfl
    | some r =>
      cases r with
      | waiting remote => exact same rfl
      | syncing a st c t y =>
        cases y with
        | some y => exact same rfl
        | none =>
          have hb : batch s = some (st, c, t) := by unfold batch; rw [hy]
          dsimp only
          by_cases h1 : c < t
          · rw [if_pos h1, if_pos h1]; exact same rfl
          · rw [if_neg h1, if_neg h1, hb]; exact .ends _ _ _
  | crash => exact .fresh _ _ _

theorem step_staged (env : Env) (s : Node) (op : Op) (hs : Staged s) : Staged (step env s op) := by
  have keep : ∀ {t : Node}, t.sync = s.sync → Staged t := by
    intro t h a st c t' y hy; exact hs a st c t' y (h ▸ hy)
  have gone : ∀ {t : Node}, (∀ a st c t' y, t.sync ≠ some (.syncing a st c t' (some y))) → Staged t :=
    fun h a st c t' y hy => absurd hy (h a st c t' y)
  have hr : Staged (restart env s) := gone (by intro a st c t y; simp [restart])
  have hret : ∀ (t : Node) a, Staged (syncReturn t a) :=
    fun t a => gone (by intro a st c t y; simp [syncReturn])
  cases op with
  | tick now => exact keep rfl
  | getBlock next c hs ok =>
    simp only [step]
    repeat' split
    all_goals first | exact keep rfl | exact hr
  | check hash len hf p v f f2 =>
    simp only [step]
    repeat' split
    all_goals first | exact keep rfl | exact hr
  | commitBegin cur p pf mo =>
    simp only [step]
    have hsy : (stopMark s cur).sync = s.sync := by unfold stopMark; split <;> rfl
    repeat' split
    all_goals first
      | exact keep hsy
      | exact gone (by intro a st c t y; simp [restart])
  | commitExec txs ok =>
    simp only [step]
    repeat' split
    all_goals exact keep rfl
  | commitSave ok =>
    simp only [step]
    repeat' split
    all_goals exact keep rfl
  | commitSwap ok =>
    simp only [step]
    repeat' split
    all_goals exact keep rfl
  | commitEnd ok =>
    simp only [step]
    repeat' split
    all_goals exact keep rfl
  | syncBegin remote =>
    simp only [step]
    repeat' split
    all_goals first | exact keep rfl | exact gone (by intro a st c t y; simp)
  | syncLock ok =>
    simp only [step]
    repeat' split
    all_goals first | exact keep rfl | exact hr | exact gone (by intro a st c t y; simp)
  | syncVerify ans =>
    simp only [step]
    cases hy : s.sync with
    | none => exact keep rfl
    | some r =>
      cases r with
      | waiting remote => exact keep rfl
      | syncing a st c t y =>
        cases y with
        | some y => exact keep rfl
        | none =>
          dsimp only
          by_cases h1 : c < t
          · rw [if_pos h1]
            repeat' split
            all_goals first
              | exact hret _ _
              | exact hr
              | (intro a' st' c' t' y' hy'
                 simp only [Option.some.injEq, SyncRun.syncing.injEq] at hy'
                 obtain ⟨_, _, rfl, rfl, _⟩ := hy'
                 exact h1)
          · rw [if_neg h1]; exact keep rfl
  | syncSaveProof ok =>
    simp only [step]
    cases hy : s.sync with
    | none => exact keep rfl
    | some r =>
      cases r with
      | waiting remote => exact keep rfl
      | syncing a st c t y =>
        rcases y with _ | ⟨b, pf, f⟩
        · exact keep rfl
        cases f with
        | true => exact keep rfl
        | false =>
          have h0 := hs _ _ _ _ _ hy
          dsimp only
          split
          · exact hret _ _
          · intro a' st' c' t' y' hy'
            simp only [Option.some.injEq, SyncRun.syncing.injEq] at hy'
            obtain ⟨_, _, rfl, rfl, _⟩ := hy'
            exact h0
  | syncSaveBlock ok fl =>
    simp only [step]
    repeat' split
    all_goals first | exact keep rfl | exact hret _ _ | exact gone (by intro a st c t y; simp)
  | syncEnd =>
    simp only [step]
    repeat' split
    all_goals first | exact keep rfl | exact hret _ _
  | crash => exact hr

theorem moves_exact {b b' : Option (Nat × Nat × Nat)} {x x' : SyncStatus} {u : Bool}
    (m : Moves b x u b' x')
    (h : ∀ st c t, b = some (st, c, t) → x = .syncing st c t ∧ st ≤ c ∧ c ≤ t ∧
      t ≤ st + onceSyncBlockLimit) :
    ∀ st c t, b' = some (st, c, t) → x' = .syncing st c t ∧ st ≤ c ∧ c ≤ t ∧
      t ≤ st + onceSyncBlockLimit := by
  intro st c t hb
  cases m with
  | same => exact h st c t hb
  | fresh => cases hb
  | ends => cases hb
  | begins _ _ _ _ hlt hle =>
    simp only [Option.some.injEq, Prod.mk.injEq] at hb
    obtain ⟨rfl, rfl, rfl⟩ := hb
    exact ⟨rfl, Nat.le_refl _, Nat.le_of_lt hlt, hle⟩
  | adds _ _ _ _ _ hlt =>
    simp only [Option.some.injEq, Prod.mk.injEq] at hb
    obtain ⟨rfl, rfl, rfl⟩ := hb
    obtain ⟨hx, h1, h2, h3⟩ := h _ _ _ rfl
    subst hx
    exact ⟨rfl, by omega, by omega, h3⟩

theorem moves_idle {b b' : Option (Nat × Nat × Nat)} {x x' : SyncStatus}
    (m : Moves b x true b' x') (h : b = none → x = .off) : b' = none → x' = .off := by
  intro hb
  cases m with
  | same => exact h hb
  | fresh => rfl
  | ends => rfl
  | begins => cases hb
  | adds => cases hb

theorem reachW_exact {env : Env} {ok : Node → Op → Bool → Prop} {g : Block} {stopAt : Option Nat}
    {clock : Nat} {w : Watch} (h : ReachW env ok (bootW env g stopAt clock) w) :
    Staged w.node ∧ Exact w := by
  induction h with
  | init =>
    refine ⟨?_, ?_⟩
    · intro a st c t y hy; cases hy
    · intro st c t hb; cases hb
  | step _ _ ih =>
    exact ⟨step_staged env _ _ ih.1, moves_exact (step_moves env _ _ _ _ ih.1) ih.2⟩

theorem reachW_idle {env : Env} {ok : Node → Op → Bool → Prop} {g : Block} {stopAt : Option Nat}
    {clock : Nat} {w : Watch} (hok : ∀ s op u, ok s op u → u = true)
    (h : ReachW env ok (bootW env g stopAt clock) w) : Idle w := by
  induction h with
  | init => intro _; rfl
  | step hr hk ih =>
    have hu := hok _ _ _ hk
    subst hu
    exact moves_idle (step_moves env _ _ _ _ (reachW_exact hr).1) ih

/-- The node of a watched run is a run of the node. -/
theorem reachW_reach {env : Env} {ok : Node → Op → Bool → Prop} {ok' : Node → Op → Prop} {g : Block}
    {stopAt : Option Nat} {clock : Nat} {w : Watch} (hok : ∀ s op u, ok s op u → ok' s op)
    (h : ReachW env ok (bootW env g stopAt clock) w) :
    Reach env ok' (boot env g stopAt clock) w.node := by
  induction h with
  | init => exact .init
  | step _ hk ih => exact .step ih (hok _ _ _ hk)

end Axon.Progress
