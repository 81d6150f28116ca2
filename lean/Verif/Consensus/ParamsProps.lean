import Verif.Consensus.Params
import Verif.Mempool.AdmissionProps

/-!
# C126: validators, timings and limits follow the chain

Whatever way a node got to a height, Overlord works there with the validators registered for it.  The
limits on transactions do not follow the chain, and an epoch that is registered too late stops the node.
-/

namespace Axon.Params
open Axon.Meta

/-! ## Specification -/

/-- `e` is the epoch that the chain ever registers for block `h`: `h` is not above its end, and above
the end of the epoch before it. -/
def Serves (C : Chain) (h : Nat) (e : Epoch) : Prop :=
  ∃ k i, (C k).epochs[i]? = some e ∧ h ≤ e.last ∧
    (i ≠ 0 → ∃ p, (C k).epochs[i - 1]? = some p ∧ p.last < h)

/-- The limits on transactions that a configuration prescribes. -/
def Limits (c : Config) (p : Running) : Prop :=
  p.txNum = c.txNumLimit.val ∧ p.txSize = c.maxTxSize.val

/-! ## The chain registers one epoch for a block -/

theorem serves_of_metaAt {C : Chain} (hC : Lawful C) {k h : Nat} {m : Epoch × Config}
    (hm : (C k).metaAt h = some m) : Serves C h m.1 := by
  by_cases h0 : h = 0
  · subst h0
    rw [metaAt_zero] at hm
    obtain ⟨e, he, rfl⟩ := Option.map_eq_some_iff.1 hm
    exact ⟨k, 0, he, Nat.zero_le _, fun h => absurd rfl h⟩
  · obtain ⟨-, i, h1, h2, h3⟩ := (metaAt_iff (hC.ok k) h0).1 hm
    exact ⟨k, i, h1, h2, h3⟩

theorem metaAt_of_serves {C : Chain} (hC : Lawful C) {h : Nat} {e : Epoch} (hs : Serves C h e) :
    ∃ k, ∀ j, k ≤ j → (C j).metaAt h = some (e, (C j).config) := by
  obtain ⟨k, i, h1, h2, h3⟩ := hs
  refine ⟨k, fun j hj => ?_⟩
  have hm : (C k).metaAt h = some (e, (C k).config) := by
    by_cases h0 : h = 0
    · subst h0
      have hi : i = 0 := by
        refine Classical.byContradiction fun hi => ?_
        obtain ⟨p, -, hp⟩ := h3 hi
        omega
      subst hi
      rw [metaAt_zero, h1]; rfl
    · exact (metaAt_iff (hC.ok k) h0).2 ⟨rfl, i, h1, h2, h3⟩
  exact metaAt_mono (hC.ok k) (hC.ok j) (hC.le hj) hm

/-- There is at most one such epoch. -/
theorem serves_unique {C : Chain} (hC : Lawful C) {h : Nat} {e e' : Epoch} (h1 : Serves C h e)
    (h2 : Serves C h e') : e = e' := by
  obtain ⟨k, hk⟩ := metaAt_of_serves hC h1
  obtain ⟨k', hk'⟩ := metaAt_of_serves hC h2
  have a := hk (max k k') (Nat.le_max_left ..)
  have b := hk' (max k k') (Nat.le_max_right ..)
  rw [a] at b
  simpa using b

/-! ## The invariant -/

structure Inv (C : Chain) (saved : Nat) (p : Running) : Prop where
  number : p.number = saved
  height : p.told.height ≤ saved + 1
  members : ∃ m, (C saved).metaAt p.told.height = some m ∧
    (p.told.members = m.1.members.map member ∨ p.told.members = authority m.1.members)
  current : (C saved).metaAt (saved + 1) ≠ none →
    saved ≤ p.told.height ∧ p.told.timing = timing (C saved).config

theorem status_inv {C : Chain} {saved : Nat} {p : Running} {m : Epoch × Config}
    (hn : p.number = saved) (hm : (C saved).metaAt (saved + 1) = some m)
    (ht : p.told = status (saved + 1) m) : Inv C saved p := by
  refine ⟨hn, by simp [ht, status], ⟨m, by simp [ht, status, hm], .inr (by simp [ht, status])⟩, fun _ => ?_⟩
  simp [ht, status, metaAt_config hm]

theorem start_inv {C : Chain} {saved : Nat} {p : Running} (h : start (C saved) saved = some p) :
    Inv C saved p := by
  unfold start at h
  cases hm : (C saved).metaAt saved with
  | none => simp [hm] at h
  | some m =>
    cases hn : (C saved).metaAt (saved + 1) with
    | none => simp [hm, hn] at h
    | some next =>
      simp only [hm, hn, Option.some.injEq] at h
      subst h
      by_cases h0 : saved = 0
      · subst h0
        exact status_inv rfl hn (by simp)
      · refine ⟨rfl, by simp [h0], ⟨m, by simp [h0, hm], .inl (by simp [h0])⟩, fun _ => ?_⟩
        simp [h0, metaAt_config hm]

theorem commit_inv {C : Chain} (hC : Lawful C) {saved : Nat} {p : Running} (hi : Inv C saved p) :
    Inv C (commit C saved p).1 (commit C saved p).2 := by
  unfold commit
  cases hn : (C saved).metaAt (p.told.height + 1) with
  | none => exact hi
  | some next =>
    dsimp only
    by_cases h1 : p.told.height = p.number
    · rw [if_pos h1]
      have e : p.told.height = saved := by rw [h1, hi.number]
      rw [e] at hn ⊢
      exact status_inv hi.number hn rfl
    · rw [if_neg h1]
      by_cases h2 : p.told.height = p.number + 1
      · rw [if_neg (by simpa using h2)]
        obtain ⟨m, hm, -⟩ := hi.members
        rw [hm]
        dsimp only
        have e : p.told.height = saved + 1 := by rw [h2, hi.number]
        have hg := metaAt_mono (hC.ok saved) (hC.ok (saved + 1)) (hC.grows saved) hn
        rw [e] at hg
        rw [e, hg]
        exact status_inv rfl hg rfl
      · rw [if_pos h2]; exact hi

/-- What taking over blocks does: Overlord, pool and tags stay; the limits are those of the state before
the last block taken. -/
theorem syncBlocks_spec (C : Chain) (k : Nat) : ∀ (saved : Nat) (p : Running), p.number = saved →
    saved ≤ (syncBlocks C k saved p).1 ∧ (syncBlocks C k saved p).1 ≤ saved + k ∧
    (syncBlocks C k saved p).2.number = (syncBlocks C k saved p).1 ∧
    (syncBlocks C k saved p).2.told = p.told ∧ (syncBlocks C k saved p).2.poolSize = p.poolSize ∧
    (syncBlocks C k saved p).2.tagged = p.tagged ∧
    ((syncBlocks C k saved p).1 = saved → (syncBlocks C k saved p).2 = p) ∧
    ((syncBlocks C k saved p).1 ≠ saved →
      Limits (C ((syncBlocks C k saved p).1 - 1)).config (syncBlocks C k saved p).2) := by
  induction k with
  | zero => intro saved p hp; simp [syncBlocks, hp]
  | succ k ih =>
    intro saved p hp
    unfold syncBlocks syncBlock
    cases hm : (C saved).metaAt (saved + 1) with
    | none =>
      obtain ⟨h1, h2, h3, h4, h5, h6, h7, h8⟩ := ih saved p hp
      exact ⟨h1, by dsimp only; omega, h3, h4, h5, h6, h7, h8⟩
    | some m =>
      dsimp only
      obtain ⟨h1, h2, h3, h4, h5, h6, h7, h8⟩ := ih (saved + 1) { p with
        number := saved + 1, txNum := m.2.txNumLimit.val, txSize := m.2.maxTxSize.val } rfl
      refine ⟨by omega, by omega, h3, h4, h5, h6, fun h => absurd h (by omega), fun _ => ?_⟩
      by_cases he : (syncBlocks C k (saved + 1) { p with
          number := saved + 1, txNum := m.2.txNumLimit.val, txSize := m.2.maxTxSize.val }).1 = saved + 1
      · rw [h7 he, he]
        simp only [Nat.add_sub_cancel]
        exact ⟨by simp [metaAt_config hm], by simp [metaAt_config hm]⟩
      · exact h8 he

theorem sync_inv {C : Chain} (hC : Lawful C) {k saved : Nat} {p : Running} (hi : Inv C saved p) :
    Inv C (sync C k saved p).1 (sync C k saved p).2 := by
  obtain ⟨h1, -, h3, h4, -, -, h7, -⟩ := syncBlocks_spec C k saved p hi.number
  unfold sync
  revert h1 h3 h4 h7
  generalize syncBlocks C k saved p = r
  obtain ⟨s, q⟩ := r
  intro h1 h3 h4 h7
  dsimp only at h1 h3 h4 h7 ⊢
  obtain ⟨m0, hm0, hmem⟩ := hi.members
  have hmono := metaAt_mono (hC.ok saved) (hC.ok s) (hC.le h1) hm0
  rw [h3]
  cases hn : (C s).metaAt (s + 1) with
  | none =>
    refine ⟨h3, ?_, ?_, fun h => absurd hn h⟩
    · rw [h4]; have := hi.height; show _ ≤ s + 1; omega
    · rw [h4]; exact ⟨_, hmono, hmem⟩
  | some m =>
    dsimp only
    unfold tell
    by_cases hlt : q.told.height < (status (s + 1) m).height
    · rw [if_pos hlt]
      exact status_inv h3 hn rfl
    · rw [if_neg hlt]
      simp only [status] at hlt
      have : s = saved := by have := hi.height; rw [h4] at hlt; omega
      subst this
      rw [h7 rfl]
      exact hi

theorem run_inv {C : Chain} (hC : Lawful C) (ops : List Op) {p : Running}
    (hp : (run C ops).proc = some p) : Inv C (run C ops).saved p := by
  induction ops using snoc_induction generalizing p with
  | nil => cases hp
  | snoc ops op ih =>
    rw [run_snoc] at hp ⊢
    revert ih hp
    generalize run C ops = n
    intro ih hp
    cases op with
    | stop => cases hp
    | start =>
      unfold step at hp ⊢
      cases hn : n.proc with
      | some q => simp only [hn] at hp ⊢; exact ih (hn ▸ hp)
      | none => simp only [hn] at hp ⊢; exact start_inv hp
    | commit =>
      unfold step at hp ⊢
      cases hn : n.proc with
      | none => simp only [hn] at hp; cases hp
      | some q =>
        simp only [hn, Option.some.injEq] at hp ⊢
        subst hp
        exact commit_inv hC (ih hn)
    | sync k =>
      unfold step at hp ⊢
      cases hn : n.proc with
      | none => simp only [hn] at hp; cases hp
      | some q =>
        simp only [hn, Option.some.injEq] at hp ⊢
        subst hp
        exact sync_inv hC (ih hn)

/-! ## Validators and timings -/

/-- **C126, validators.**  Whatever way a node got to a height, by starts, commits and rounds of
synchronisation in any order, Overlord works there with exactly the validators and weights that the
chain registers for this height, and the height is at most one above the stored block. -/
theorem C126_members {C : Chain} (hC : Lawful C) (ops : List Op) {p : Running}
    (hp : (run C ops).proc = some p) :
    p.told.height ≤ (run C ops).saved + 1 ∧
    ∃ e, Serves C p.told.height e ∧
      (p.told.members.map fun m => (m.address, m.propose, m.vote)).Perm
        (e.members.map fun v => (v.key, v.propose, v.vote)) ∧
      sortM p.told.members = authority e.members := by
  have hi := run_inv hC ops hp
  obtain ⟨m, hm, h⟩ := hi.members
  refine ⟨hi.height, m.1, serves_of_metaAt hC hm, ?_, ?_⟩
  · have e : (e : List Validator) → (e.map fun v => (v.key, v.propose, v.vote)) =
        (e.map member).map fun m => (m.address, m.propose, m.vote) := by
      intro e; rw [List.map_map]; rfl
    rw [e]
    refine List.Perm.map _ ?_
    rcases h with h | h
    · rw [h]
    · rw [h]; exact sortM_perm _
  · rcases h with h | h
    · rw [h]; rfl
    · rw [h]; exact sortM_idem _

/-- **C126, timings.**  As long as the epoch of the next block is registered, a node is at the height of
its stored block or the one after, with interval and ratios of the state after the stored block.
Without registration: `C126_timing_false`. -/
theorem C126_timing_partial {C : Chain} (hC : Lawful C) (ops : List Op) {p : Running}
    (hp : (run C ops).proc = some p) {e : Epoch × Config}
    (hr : (C (run C ops).saved).metaAt ((run C ops).saved + 1) = some e) :
    p.number = (run C ops).saved ∧
    (p.told.height = (run C ops).saved ∨ p.told.height = (run C ops).saved + 1) ∧
    p.told.timing.interval = (C (run C ops).saved).config.interval.val ∧
    p.told.timing.propose = (C (run C ops).saved).config.proposeRatio.val ∧
    p.told.timing.prevote = (C (run C ops).saved).config.prevoteRatio.val ∧
    p.told.timing.precommit = (C (run C ops).saved).config.precommitRatio.val ∧
    p.told.timing.brake = (C (run C ops).saved).config.brakeRatio.val := by
  have hi := run_inv hC ops hp
  obtain ⟨h1, h2⟩ := hi.current (by rw [hr]; simp)
  have := hi.height
  exact ⟨hi.number, by omega, by rw [h2]; exact ⟨rfl, rfl, rfl, rfl, rfl⟩⟩

/-- **C126, agreement.**  Two nodes at the same height have the same validators in the same order (after
Overlord's sort), however they got there. -/
theorem C126_agree {C : Chain} (hC : Lawful C) (ops ops' : List Op) {p p' : Running}
    (hp : (run C ops).proc = some p) (hp' : (run C ops').proc = some p')
    (hh : p.told.height = p'.told.height) : sortM p.told.members = sortM p'.told.members := by
  obtain ⟨-, e, h1, -, h2⟩ := C126_members hC ops hp
  obtain ⟨-, e', h3, -, h4⟩ := C126_members hC ops' hp'
  rw [hh] at h1
  rw [h2, h4, serves_unique hC h1 h3]

/-- A commit at the current height moves the node on: block stored, Overlord told the next height, if the
metadata for it are registered before. -/
theorem C126_commit {C : Chain} (hC : Lawful C) (ops : List Op) {p : Running}
    (hp : (run C ops).proc = some p) {m : Epoch × Config}
    (hm : (C (run C ops).saved).metaAt ((run C ops).saved + 2) = some m) :
    ∃ p', (run C (ops ++ [.commit])).proc = some p' ∧
      p'.told.height = p.told.height + 1 ∧
      ((run C (ops ++ [.commit])).saved = (run C ops).saved + 1 ↔
        p.told.height = (run C ops).saved + 1) ∧
      ((run C (ops ++ [.commit])).saved = (run C ops).saved ↔ p.told.height = (run C ops).saved) := by
  have hi := run_inv hC ops hp
  rw [run_snoc]
  revert hi hm hp
  generalize run C ops = n
  intro hp hm hi
  obtain ⟨x, hx⟩ := metaAt_down (hC.ok n.saved) (Nat.le_succ (n.saved + 1)) hm
  have hh := hi.current (by rw [hx]; simp)
  have hle := hi.height
  obtain ⟨y, hy⟩ := metaAt_down (hC.ok n.saved) (show p.told.height + 1 ≤ n.saved + 2 by omega) hm
  unfold step
  rw [hp]
  dsimp only
  unfold commit
  rw [hy]
  dsimp only
  rw [hi.number]
  by_cases h1 : p.told.height = n.saved
  · rw [if_pos h1]
    exact ⟨_, rfl, rfl, by simp [h1], by simp [h1]⟩
  · have h2 : p.told.height = n.saved + 1 := by omega
    rw [if_neg h1, if_neg (by simpa using h2)]
    obtain ⟨m0, hm0, -⟩ := hi.members
    have hg := metaAt_mono (hC.ok n.saved) (hC.ok (n.saved + 1)) (hC.grows n.saved) hm
    rw [hm0, h2]
    dsimp only
    rw [hg]
    exact ⟨_, rfl, rfl, by simp, by simp⟩

/-- **The validators of the block before.**  For every height with registered metadata Overlord gets the
validators of the block below it, across the ends of epochs. -/
theorem C126_previous {C : Chain} (hC : Lawful C) (k next : Nat) (h0 : next ≠ 0) {m : Epoch × Config}
    (hm : (C k).metaAt next = some m) :
    ∃ e, Serves C (next - 1) e ∧ authorityList (C k) next = some (authority e.members) := by
  obtain ⟨y, hy⟩ := metaAt_down (hC.ok k) (Nat.sub_le next 1) hm
  unfold authorityList
  rw [if_neg h0, hm]
  dsimp only
  by_cases hc : m.1.first ≤ next - 1 ∧ next - 1 ≤ m.1.last
  · rw [if_pos hc]
    refine ⟨m.1, ?_, rfl⟩
    obtain ⟨-, i, h1, h2, h3⟩ := (metaAt_iff (hC.ok k) h0).1 hm
    refine ⟨k, i, h1, hc.2, fun hi => ?_⟩
    obtain ⟨q, h4, h5⟩ := h3 hi
    refine ⟨q, h4, ?_⟩
    obtain ⟨j, rfl⟩ := Nat.exists_eq_succ_of_ne_zero hi
    have := (hC.ok k).next j q m.1 (by simpa using h4) h1
    omega
  · rw [if_neg hc, hy]
    exact ⟨y.1, serves_of_metaAt hC hy, rfl⟩

/-! ## Limits on transactions -/

theorem commit_limits (C : Chain) (saved : Nat) (p : Running) :
    (commit C saved p).2.txNum = p.txNum ∧ (commit C saved p).2.txSize = p.txSize ∧
    ((commit C saved p).2.poolSize = p.poolSize ∨ (commit C saved p).2.poolSize = p.txSize) := by
  unfold commit
  cases (C saved).metaAt (p.told.height + 1) with
  | none => simp
  | some next =>
    dsimp only
    split
    · simp
    · split
      · simp
      · cases (C saved).metaAt p.told.height with
        | none => simp
        | some _ =>
          dsimp only
          split <;> simp

theorem sync_limits (C : Chain) (k saved : Nat) (p : Running) (hp : p.number = saved) :
    (sync C k saved p).2.poolSize = p.poolSize ∧ (sync C k saved p).2.tagged = p.tagged ∧
    ((sync C k saved p).1 = saved →
      (sync C k saved p).2.txNum = p.txNum ∧ (sync C k saved p).2.txSize = p.txSize) ∧
    ((sync C k saved p).1 ≠ saved →
      Limits (C ((sync C k saved p).1 - 1)).config (sync C k saved p).2) := by
  obtain ⟨-, -, -, -, h5, h6, h7, h8⟩ := syncBlocks_spec C k saved p hp
  unfold sync
  revert h5 h6 h7 h8
  generalize syncBlocks C k saved p = r
  obtain ⟨s, q⟩ := r
  intro h5 h6 h7 h8
  dsimp only at h5 h6 h7 h8 ⊢
  cases (C s).metaAt (q.number + 1) with
  | none => exact ⟨h5, h6, fun h => by rw [h7 h]; exact ⟨rfl, rfl⟩, h8⟩
  | some m =>
    dsimp only
    unfold tell
    split
    · exact ⟨h5, h6, fun h => by rw [h7 h]; exact ⟨rfl, rfl⟩, h8⟩
    · exact ⟨h5, h6, fun h => by rw [h7 h]; exact ⟨rfl, rfl⟩, h8⟩

/-- **C126, limits.**  On a chain whose configuration never changes, the limits in use are always those
of the configuration, in the status and in the pool.  When it changes: `C126_limits_frozen`. -/
theorem C126_limits_partial {C : Chain} (hC : Lawful C) (c : Config) (hc : ∀ k, (C k).config = c)
    (ops : List Op) {p : Running} (hp : (run C ops).proc = some p) :
    Limits c p ∧ p.poolSize = c.maxTxSize.val := by
  induction ops using snoc_induction generalizing p with
  | nil => cases hp
  | snoc ops op ih =>
    have hinv := @run_inv C hC ops
    rw [run_snoc] at hp
    revert ih hp hinv
    generalize run C ops = n
    intro ih hp hinv
    cases op with
    | stop => cases hp
    | start =>
      unfold step at hp
      cases hn : n.proc with
      | some q => simp only [hn] at hp; exact ih (hn ▸ hp)
      | none =>
        simp only [hn] at hp
        unfold start at hp
        cases hm : (C n.saved).metaAt n.saved with
        | none => simp [hm] at hp
        | some m =>
          cases hx : (C n.saved).metaAt (n.saved + 1) with
          | none => simp [hm, hx] at hp
          | some next =>
            simp only [hm, hx, Option.some.injEq] at hp
            subst hp
            have := metaAt_config hm
            rw [hc] at this
            simp [Limits, this]
    | commit =>
      unfold step at hp
      cases hn : n.proc with
      | none => simp only [hn] at hp; cases hp
      | some q =>
        simp only [hn, Option.some.injEq] at hp
        subst hp
        obtain ⟨h1, h2, h3⟩ := commit_limits C n.saved q
        obtain ⟨⟨a, b⟩, d⟩ := ih hn
        exact ⟨⟨h1.trans a, h2.trans b⟩, by rcases h3 with h | h <;> omega⟩
    | sync k =>
      unfold step at hp
      cases hn : n.proc with
      | none => simp only [hn] at hp; cases hp
      | some q =>
        simp only [hn, Option.some.injEq] at hp
        subst hp
        obtain ⟨h1, -, h2, h3⟩ := sync_limits C k n.saved q (hinv hn).number
        obtain ⟨⟨a, b⟩, d⟩ := ih hn
        refine ⟨?_, h1.trans d⟩
        by_cases hs : (sync C k n.saved q).1 = n.saved
        · exact ⟨(h2 hs).1.trans a, (h2 hs).2.trans b⟩
        · have := h3 hs; rwa [hc] at this

/-- **Frozen limits.**  However many blocks a node commits after its start, its limits stay those of the
state it started from, whatever the blocks change. -/
theorem C126_limits_frozen (C : Chain) (n : Node) (hn : n.proc = none) {p0 p : Running}
    (h0 : (step C n .start).proc = some p0) (k : Nat)
    (hp : ((List.replicate k Op.commit).foldl (step C) (step C n .start)).proc = some p) :
    Limits (C n.saved).config p ∧ p.poolSize = (C n.saved).config.maxTxSize.val := by
  have hs : Limits (C n.saved).config p0 ∧ p0.poolSize = (C n.saved).config.maxTxSize.val := by
    unfold step at h0
    simp only [hn] at h0
    unfold start at h0
    cases hm : (C n.saved).metaAt n.saved with
    | none => simp [hm] at h0
    | some m =>
      cases hx : (C n.saved).metaAt (n.saved + 1) with
      | none => simp [hm, hx] at h0
      | some next =>
        simp only [hm, hx, Option.some.injEq] at h0
        subst h0
        simp [Limits, metaAt_config hm]
  have gen : ∀ (k : Nat) (x : Node) (q p : Running), x.proc = some q →
      (Limits (C n.saved).config q ∧ q.poolSize = (C n.saved).config.maxTxSize.val) →
      ((List.replicate k Op.commit).foldl (step C) x).proc = some p →
      Limits (C n.saved).config p ∧ p.poolSize = (C n.saved).config.maxTxSize.val := by
    intro k
    induction k with
    | zero =>
      intro x q p hx hq hp
      simp only [List.replicate_zero, List.foldl_nil, hx, Option.some.injEq] at hp
      exact hp ▸ hq
    | succ k ih =>
      intro x q p hx hq hp
      rw [List.replicate_succ, List.foldl_cons] at hp
      have e : step C x .commit = ⟨(commit C x.saved q).1, some (commit C x.saved q).2⟩ := by
        simp only [step, hx]
      rw [e] at hp
      refine ih _ _ p rfl ?_ hp
      obtain ⟨h1, h2, h3⟩ := commit_limits C x.saved q
      obtain ⟨⟨a, b⟩, d⟩ := hq
      exact ⟨⟨h1.trans a, h2.trans b⟩, by rcases h3 with h | h <;> omega⟩
  exact gen k _ p0 p h0 hs hp

/-- **Synchronisation changes one limit of two.**  A node that takes over blocks has the limits of the
state before the last of them in its status, while its pool keeps the size limit it had. -/
theorem C126_limits_sync {C : Chain} (hC : Lawful C) (ops : List Op) (k : Nat) {p q : Running}
    (hp : (run C ops).proc = some p) (hq : (run C (ops ++ [.sync k])).proc = some q)
    (hs : (run C (ops ++ [.sync k])).saved ≠ (run C ops).saved) :
    Limits (C ((run C (ops ++ [.sync k])).saved - 1)).config q ∧ q.poolSize = p.poolSize := by
  have hi := (run_inv hC ops hp).number
  rw [run_snoc] at hq hs ⊢
  revert hp hq hs hi
  generalize run C ops = n
  intro hp hq hs hi
  simp only [step, hp, Option.some.injEq] at hq hs ⊢
  subst hq
  obtain ⟨h1, -, -, h3⟩ := sync_limits C k n.saved p hi
  exact ⟨h3 hs, h1⟩

/-- **The pool follows the status at the next commit.**  A commit that stores a block sets the size limit
of the pool to that of the status, and keeps those of the status. -/
theorem C126_limits_commit (C : Chain) (n : Node) {p q : Running} (hp : n.proc = some p)
    (hq : (step C n .commit).proc = some q) (hs : (step C n .commit).saved ≠ n.saved) :
    q.txNum = p.txNum ∧ q.txSize = p.txSize ∧ q.poolSize = p.txSize := by
  simp only [step, hp, Option.some.injEq] at hq hs
  subst hq
  obtain ⟨h1, h2, -⟩ := commit_limits C n.saved p
  refine ⟨h1, h2, ?_⟩
  unfold commit at hs ⊢
  cases h3 : (C n.saved).metaAt (p.told.height + 1) with
  | none => simp [h3] at hs
  | some next =>
    simp only [h3] at hs ⊢
    split
    · rename_i h; simp [h] at hs
    · split
      · rename_i h1 h2; simp [h1, h2] at hs
      · cases h4 : (C n.saved).metaAt p.told.height with
        | none => rename_i h1 h2; simp [h1, h2, h4] at hs
        | some _ =>
          dsimp only
          split <;> rfl

/-! ## Tags -/

/-- Unless a block is the last of an epoch, the next one is in the same epoch. -/
theorem metaAt_succ {r : Reg} (hr : r.Ok) {n : Nat} {m : Epoch × Config} (hm : r.metaAt n = some m)
    (hl : r.isLast n = false ∨ n = 0) : r.metaAt (n + 1) = some m := by
  by_cases h0 : n = 0
  · subst h0
    rw [metaAt_zero] at hm
    obtain ⟨e, he, rfl⟩ := Option.map_eq_some_iff.1 hm
    refine (metaAt_iff hr (by omega)).2 ⟨rfl, 0, he, ?_, fun h => absurd rfl h⟩
    have := (List.pairwise_cons.1 hr.seg.incr).1 e.last
      (List.mem_map.2 ⟨e, List.mem_of_getElem? he, rfl⟩)
    show 1 ≤ e.last
    omega
  · obtain ⟨h1, i, h2, h3, h4⟩ := (metaAt_iff hr h0).1 hm
    refine (metaAt_iff hr (by omega)).2 ⟨h1, i, h2, ?_, fun hi => ?_⟩
    · have hl := hl.resolve_right h0
      have hne : n ≠ m.1.last := by
        intro e
        unfold Reg.isLast isLastInEpoch at hl
        rw [List.any_eq_false] at hl
        exact hl m.1.last (List.mem_cons_of_mem _ (List.mem_map.2 ⟨m.1, List.mem_of_getElem? h2, rfl⟩))
          (by simpa using e)
      omega
    · obtain ⟨p, h5, h6⟩ := h4 hi
      exact ⟨p, h5, by omega⟩

/-- No round of synchronisation, and no start on the last block of an epoch (other than the genesis). -/
def Quiet (C : Chain) (ops : List Op) : Prop :=
  ∀ pre op post, ops = pre ++ op :: post → (∀ k, op ≠ .sync k) ∧
    (op = .start → (C (run C pre).saved).isLast (run C pre).saved = false ∨ (run C pre).saved = 0)

/-- **C126, tags.**  As long as a node neither starts on the last block of an epoch nor synchronises, the
peers it tags as consensus nodes are the validators of the block after its stored one.  Otherwise:
`C126_tags_false`. -/
theorem C126_tags_partial {C : Chain} (hC : Lawful C) (ops : List Op) (hq : Quiet C ops) {p : Running}
    (hp : (run C ops).proc = some p) :
    ∃ e, Serves C ((run C ops).saved + 1) e ∧ p.tagged = e.members.map (·.key) := by
  suffices h : ∃ m, (C (run C ops).saved).metaAt ((run C ops).saved + 1) = some m ∧
      p.tagged = m.1.members.map (·.key) by
    obtain ⟨m, h1, h2⟩ := h
    exact ⟨m.1, serves_of_metaAt hC h1, h2⟩
  induction ops using snoc_induction generalizing p with
  | nil => cases hp
  | snoc ops op ih =>
    have ih := @ih (fun pre op' post e => hq pre op' (post ++ [op]) (by rw [e]; simp))
    have hop := hq ops op [] rfl
    have hinv := @run_inv C hC ops
    rw [run_snoc] at hp ⊢
    revert ih hp hop hinv
    generalize run C ops = n
    intro hp ih hop hinv
    cases op with
    | stop => cases hp
    | sync k => exact absurd rfl (hop.1 k)
    | start =>
      unfold step at hp ⊢
      cases hn : n.proc with
      | some q => simp only [hn] at hp ⊢; exact ih (hn ▸ hp)
      | none =>
        simp only [hn] at hp ⊢
        unfold start at hp
        cases hm : (C n.saved).metaAt n.saved with
        | none => simp [hm] at hp
        | some m =>
          cases hx : (C n.saved).metaAt (n.saved + 1) with
          | none => simp [hm, hx] at hp
          | some next =>
            simp only [hm, hx, Option.some.injEq] at hp
            subst hp
            rw [metaAt_succ (hC.ok _) hm (hop.2 rfl)] at hx
            cases hx
            exact ⟨m, rfl, rfl⟩
    | commit =>
      unfold step at hp ⊢
      cases hn : n.proc with
      | none => simp only [hn] at hp; cases hp
      | some q =>
        simp only [hn, Option.some.injEq] at hp ⊢
        subst hp
        have hi := hinv hn
        obtain ⟨m, h1, h2⟩ := ih hn
        unfold commit
        cases h3 : (C n.saved).metaAt (q.told.height + 1) with
        | none => exact ⟨m, h1, h2⟩
        | some next =>
          dsimp only
          by_cases h4 : q.told.height = q.number
          · rw [if_pos h4]; exact ⟨m, h1, h2⟩
          · rw [if_neg h4]
            by_cases h5 : q.told.height = q.number + 1
            · rw [if_neg (by simpa using h5)]
              have e : q.told.height = n.saved + 1 := by rw [h5, hi.number]
              rw [e] at h3
              rw [e, h1]
              dsimp only
              have hg := metaAt_mono (hC.ok _) (hC.ok (n.saved + 1)) (hC.grows n.saved) h3
              have hg1 := metaAt_mono (hC.ok _) (hC.ok (n.saved + 1)) (hC.grows n.saved) h1
              rw [hg]
              refine ⟨_, hg, ?_⟩
              dsimp only
              unfold retag
              by_cases hl : (C (n.saved + 1)).isLast (n.saved + 1) = true
              · rw [if_pos hl, hg]
              · rw [if_neg hl, h2]
                have := metaAt_succ (hC.ok _) hg1 (.inl (by simpa using hl))
                rw [hg] at this
                simp only [Option.some.injEq, Prod.mk.injEq, and_true] at this
                rw [this]
            · rw [if_pos h5]; exact ⟨m, h1, h2⟩

/-! ## The end of the registered epochs -/

/-- **Stalled.**  If the epoch after block `height` is not registered before that block, the node never
commits it: not even when the block itself, or anything the other nodes do, registers the epoch. -/
theorem C126_stall (C : Chain) (n : Node) {p : Running} (hp : n.proc = some p)
    (hm : (C n.saved).metaAt (p.told.height + 1) = none) (k : Nat) :
    (List.replicate k Op.commit).foldl (step C) n = n := by
  induction k with
  | zero => rfl
  | succ k ih =>
    rw [List.replicate_succ, List.foldl_cons]
    have e : step C n .commit = n := by
      obtain ⟨s, pr⟩ := n
      simp only at hp hm
      subst hp
      simp only [step, commit, hm]
    rw [e, ih]

/-- ... while a node that takes the same block from a peer stores it, ... -/
theorem C126_stall_sync {C : Chain} (hC : Lawful C) (ops : List Op) {p : Running}
    (hp : (run C ops).proc = some p) {m : Epoch × Config}
    (hm : (C (run C ops).saved).metaAt ((run C ops).saved + 1) = some m) :
    (run C (ops ++ [.sync 1])).saved = (run C ops).saved + 1 := by
  have hi := (run_inv hC ops hp).number
  rw [run_snoc]
  revert hp hm hi
  generalize run C ops = n
  intro hp hm hi
  simp only [step, hp]
  unfold sync
  simp only [syncBlocks, syncBlock, hm]
  split <;> rfl

/-- ... and a node whose stored block is the last of the registered epochs does not start, however often
it is tried. -/
theorem C126_no_start (C : Chain) (n : Node) (hn : n.proc = none)
    (hm : (C n.saved).metaAt (n.saved + 1) = none) (k : Nat) :
    ((List.replicate k Op.start).foldl (step C) n) = n := by
  induction k with
  | zero => rfl
  | succ k ih =>
    rw [List.replicate_succ, List.foldl_cons]
    have e : step C n .start = n := by
      obtain ⟨s, pr⟩ := n
      simp only at hn hm
      subst hn
      have : start (C s) s = none := by
        unfold start
        rw [hm]
        cases (C s).metaAt s <;> rfl
      simp only [step, this]
    rw [e, ih]

/-- Ends of epochs grow at least by one each. -/
theorem last_ge {r : Reg} (hr : r.Ok) (i : Nat) {e : Epoch} (he : r.epochs[i]? = some e) : i + 1 ≤ e.last := by
  have hp := hr.seg.incr
  unfold Reg.seg at hp
  induction i generalizing e with
  | zero =>
    have := (List.pairwise_cons.1 hp).1 e.last (List.mem_map.2 ⟨e, List.mem_of_getElem? he, rfl⟩)
    omega
  | succ i ih =>
    have hlt : i < r.epochs.length := by have := (List.getElem?_eq_some_iff.1 he).1; omega
    have h1 := ih (List.getElem?_eq_getElem hlt)
    have h2 := List.pairwise_iff_getElem.1 (List.pairwise_cons.1 hp).2 i (i + 1)
      (by simpa using hlt) (by simpa using (List.getElem?_eq_some_iff.1 he).1) (by omega)
    have h3 := (List.getElem?_eq_some_iff.1 he).2
    simp only [List.getElem_map, h3] at h2
    omega

/-- **The alarm never sounds.**  After every commit the node looks for the metadata of the next epoch to
warn its operator, but asks for the block with the number of that epoch: for no registered epoch, not
even the last one, is there a warning. -/
theorem C126_alert_false {r : Reg} (hr : r.Ok) (i : Nat) {e : Epoch} (he : r.epochs[i]? = some e) :
    alert r i = false := by
  have hl := last_ge hr i he
  unfold alert
  rw [Option.isNone_eq_false_iff, Option.isSome_iff_exists]
  -- the end of the epoch has metadata, and so has every block below
  have h0 : e.last ≠ 0 := by omega
  have hm : r.metaAt e.last = some (e, r.config) := by
    refine (metaAt_iff hr h0).2 ⟨rfl, i, he, Nat.le_refl _, fun hi => ?_⟩
    obtain ⟨j, rfl⟩ := Nat.exists_eq_succ_of_ne_zero hi
    have hlt : j < r.epochs.length := by have := (List.getElem?_eq_some_iff.1 he).1; omega
    have h2 := List.pairwise_iff_getElem.1 (List.pairwise_cons.1 hr.seg.incr).2 j (j + 1)
      (by simpa using hlt) (by simpa using (List.getElem?_eq_some_iff.1 he).1) (by omega)
    have h3 := (List.getElem?_eq_some_iff.1 he).2
    simp only [List.getElem_map, h3] at h2
    exact ⟨r.epochs[j], by simp [hlt], h2⟩
  exact metaAt_down hr hl hm

/-! ## Consequences -/

/-- **The same transaction, the same chain, two answers.**  If a configuration raises the size limit, a
node that has been running since before refuses what a node started later accepts: every transaction
that passes with the limit of the second and is longer than that of the first. -/
theorem C126_admission_false (c : Admission.Config) (old new : Running) (t : Admission.SignedTx) {bs : Bytes}
    (he : Tx.encodeTx t.transaction = some bs) (h1 : old.poolSize < bs.length)
    (ok : Admission.checkTransaction { c with maxTxSize := new.poolSize } t = some (.ok ())) :
    Admission.checkTransaction { c with maxTxSize := old.poolSize } t = some (.error .exceedSize) := by
  unfold Admission.checkTransaction at ok ⊢
  cases hs : t.transaction.signature with
  | none => simp [hs] at ok
  | some sg =>
    cases hp : t.pub with
    | none => simp [hs, hp] at ok
    | some pub =>
      simp only [hs, hp] at ok ⊢
      split at ok
      · cases ok
      · rename_i hc
        rw [if_neg hc]
        simp only [he] at ok ⊢
        rw [if_pos h1]

/-! ## Examples -/

def u (n : Nat) (h : n < 2 ^ 64 := by decide) : U64 := ⟨n, h⟩

def cfg (interval txNum txSize : Nat) (h1 : interval < 2 ^ 64 := by decide)
    (h2 : txNum < 2 ^ 64 := by decide) (h3 : txSize < 2 ^ 64 := by decide) : Config :=
  ⟨u 30000000, ⟨interval, h1⟩, u 15, u 10, u 10, u 10, ⟨txNum, h2⟩, ⟨txSize, h3⟩, u 0x6000⟩

def epochA : Epoch := ⟨1, 3, [⟨7, 1, 1⟩, ⟨5, 2, 2⟩]⟩
def epochB : Epoch := ⟨4, 9, [⟨8, 1, 1⟩, ⟨6, 3, 3⟩, ⟨5, 2, 2⟩]⟩

/-- Two epochs from the genesis on; block 2 changes the configuration. -/
def chain : Chain := fun k =>
  if k < 2 then ⟨[epochA, epochB], cfg 3000 100 1000⟩ else ⟨[epochA, epochB], cfg 2000 50 4000⟩

theorem ok_two (c : Config) : (Reg.mk [epochA, epochB] c).Ok := by
  refine ⟨⟨rfl, ?_⟩, ?_⟩
  · simp [Reg.seg, epochA, epochB]
  · intro e a b h1 h2
    cases e with
    | zero => simp at h1 h2; subst h1 h2; rfl
    | succ e => simp at h2

theorem chain_lawful : Lawful chain := by
  refine ⟨fun k => ?_, fun k => ?_⟩
  · unfold chain; split <;> exact ok_two _
  · unfold chain; split <;> split <;> exact List.prefix_refl _

/-- A committing node crosses the end of the first epoch: at height 4 it has the new validators in order
of their keys, the new interval, and the old limits. -/
example : (run chain [.start, .commit, .commit, .commit]).proc = some
    ⟨3, 100, 1000, 1000, ⟨4, [⟨5, 2, 2⟩, ⟨6, 3, 3⟩, ⟨8, 1, 1⟩], ⟨2000, 15, 10, 10, 10⟩⟩, [8, 6, 5]⟩ := by
  decide +kernel

/-- A node that takes the same blocks from a peer: the same validators and interval, other limits in the
status, the old one in the pool, and the old tags. -/
example : (run chain [.start, .sync 3]).proc = some
    ⟨3, 50, 4000, 1000, ⟨4, [⟨5, 2, 2⟩, ⟨6, 3, 3⟩, ⟨8, 1, 1⟩], ⟨2000, 15, 10, 10, 10⟩⟩, [7, 5]⟩ := by
  decide +kernel

/-- A node that restarts on block 3: back at height 3 with the validators of block 3, then on to 4. -/
example : (run chain [.start, .sync 3, .stop, .start]).proc = some
    ⟨3, 50, 4000, 4000, ⟨3, [⟨7, 1, 1⟩, ⟨5, 2, 2⟩], ⟨2000, 15, 10, 10, 10⟩⟩, [7, 5]⟩ ∧
    ((run chain [.start, .sync 3, .stop, .start, .commit]).proc.map (·.told.height)) = some 4 := by
  decide +kernel

/-- **C126 is false of the limits.**  Three nodes with the same three blocks and three pairs of limits. -/
theorem C126_limits_false : ∃ (C : Chain) (ops ops' : List Op) (p p' : Running), Lawful C ∧
    (run C ops).proc = some p ∧ (run C ops').proc = some p' ∧ (run C ops).saved = (run C ops').saved ∧
    p.told = p'.told ∧ ¬ Limits (C (run C ops).saved).config p ∧
    Limits (C (run C ops').saved).config p' ∧ p'.poolSize ≠ (C (run C ops').saved).config.maxTxSize.val :=
  ⟨chain, [.start, .commit, .commit, .commit], [.start, .sync 3],
    ⟨3, 100, 1000, 1000, ⟨4, [⟨5, 2, 2⟩, ⟨6, 3, 3⟩, ⟨8, 1, 1⟩], ⟨2000, 15, 10, 10, 10⟩⟩, [8, 6, 5]⟩,
    ⟨3, 50, 4000, 1000, ⟨4, [⟨5, 2, 2⟩, ⟨6, 3, 3⟩, ⟨8, 1, 1⟩], ⟨2000, 15, 10, 10, 10⟩⟩, [7, 5]⟩,
    chain_lawful, by decide +kernel, by decide +kernel, by decide +kernel, rfl,
    by unfold Limits; decide +kernel, by unfold Limits; decide +kernel, by decide +kernel⟩

/-- One epoch until block 3 registers the next. -/
def late : Chain := fun k =>
  if k < 3 then ⟨[epochA], cfg (if k < 2 then 3000 else 2000) 100 1000 (by split <;> decide)⟩
  else ⟨[epochA, epochB], cfg 2000 100 1000⟩

theorem late_lawful : Lawful late := by
  refine ⟨fun k => ?_, fun k => ?_⟩
  · unfold late; split
    · refine ⟨⟨rfl, ?_⟩, ?_⟩
      · simp [Reg.seg, epochA]
      · intro e a b _ h2; simp at h2
    · exact ok_two _
  · unfold late
    by_cases h : k + 1 < 3
    · rw [if_pos (by omega), if_pos h]; exact List.prefix_refl _
    · by_cases h' : k < 3
      · rw [if_pos h', if_neg h]; exact ⟨[epochB], rfl⟩
      · rw [if_neg h', if_neg h]; exact List.prefix_refl _

/-- **C126 is false at the end of the registered epochs.**  Block 3 is the last of the registered epochs
and registers the next one.  The node at height 3 never commits it, although with it everything for
block 4 would be there; a node that takes it from a peer goes on to height 4. -/
theorem C126_stall_false :
    (∀ k, (run late ([.start, .commit, .commit] ++ List.replicate k .commit)).saved = 2) ∧
    ((run late [.start, .commit, .commit]).proc.map (·.told.height)) = some 3 ∧
    (run late [.start, .commit, .commit, .sync 1]).saved = 3 ∧
    ((run late [.start, .commit, .commit, .sync 1]).proc.map (·.told.height)) = some 4 := by
  refine ⟨fun k => ?_, by decide +kernel, by decide +kernel, by decide +kernel⟩
  obtain ⟨p, hp⟩ : ∃ p, (run late [.start, .commit, .commit]).proc = some p :=
    Option.isSome_iff_exists.1 (by decide +kernel)
  have hh : p.told.height = 3 := by
    have : ((run late [.start, .commit, .commit]).proc.map (·.told.height)) = some 3 := by decide +kernel
    rw [hp] at this
    simpa using this
  have hs : (run late [.start, .commit, .commit]).saved = 2 := by decide +kernel
  have := C126_stall late (run late [.start, .commit, .commit]) hp (by rw [hh, hs]; decide +kernel) k
  unfold run at this ⊢
  rw [List.foldl_append, this]
  exact hs

/-- The chain ends with the first epoch: block 3 registers nothing. -/
def ending : Chain := fun k =>
  ⟨[epochA], cfg (if k < 2 then 3000 else 2000) 100 1000 (by split <;> decide)⟩

theorem ending_lawful : Lawful ending := by
  refine ⟨fun k => ?_, fun k => List.prefix_refl _⟩
  refine ⟨⟨rfl, ?_⟩, ?_⟩
  · simp [ending, Reg.seg, epochA]
  · intro e a b _ h2; simp [ending] at h2

/-- A node that took over the last block of the registered epochs keeps the timings of an earlier state,
and does not start again. -/
theorem C126_timing_false : ∃ p, (run ending [.start, .sync 3]).proc = some p ∧
    (run ending [.start, .sync 3]).saved = 3 ∧ p.told.timing ≠ timing (ending 3).config ∧
    ∀ k, (run ending ([.start, .sync 3, .stop] ++ List.replicate k .start)).proc = none := by
  refine ⟨⟨3, 100, 1000, 1000, ⟨1, [⟨5, 2, 2⟩, ⟨7, 1, 1⟩], ⟨3000, 15, 10, 10, 10⟩⟩, [7, 5]⟩,
    by decide +kernel, by decide +kernel, by decide +kernel, fun k => ?_⟩
  have hs : (run ending [.start, .sync 3, .stop]).saved = 3 := by decide +kernel
  have hn : (run ending [.start, .sync 3, .stop]).proc = none := by decide +kernel
  have := C126_no_start ending (run ending [.start, .sync 3, .stop]) hn (by rw [hs]; decide +kernel) k
  unfold run at this hn ⊢
  rw [List.foldl_append, this]
  exact hn

/-- **Tags.**  Committing the last block of an epoch tags the new validators as consensus peers, taking it
from a peer does not. -/
theorem C126_tags_false : ∃ (C : Chain) (p p' : Running), Lawful C ∧
    (run C [.start, .commit, .commit, .commit]).proc = some p ∧ (run C [.start, .sync 3]).proc = some p' ∧
    p.told = p'.told ∧ (∀ m ∈ p.told.members, m.address ∈ p.tagged) ∧
    ∃ m ∈ p'.told.members, m.address ∉ p'.tagged := by
  refine ⟨chain, ⟨3, 100, 1000, 1000, ⟨4, [⟨5, 2, 2⟩, ⟨6, 3, 3⟩, ⟨8, 1, 1⟩], ⟨2000, 15, 10, 10, 10⟩⟩, [8, 6, 5]⟩,
    ⟨3, 50, 4000, 1000, ⟨4, [⟨5, 2, 2⟩, ⟨6, 3, 3⟩, ⟨8, 1, 1⟩], ⟨2000, 15, 10, 10, 10⟩⟩, [7, 5]⟩,
    chain_lawful, by decide +kernel, by decide +kernel, rfl, by decide, ⟨8, 1, 1⟩, by decide, by decide⟩

/-- The histories of `C126_tags_partial`: a committing node across the end of an epoch. -/
example : Quiet chain [.start, .commit, .commit, .commit] := by
  intro pre op post e
  have h : op = .start → pre = [] := by
    rintro rfl
    rcases pre with _ | ⟨a, _ | ⟨b, _ | ⟨c, _ | ⟨d, t⟩⟩⟩⟩ <;> simp at e ⊢
  refine ⟨fun k hk => ?_, fun ho => ?_⟩
  · subst hk
    have : Op.sync k ∈ [Op.start, .commit, .commit, .commit] := by rw [e]; simp
    simp at this
  · rw [h ho]; exact .inr rfl

/-- The validators of block 3 at height 4, and those of block 4 at height 5. -/
example : authorityList (chain 4) 4 = some [⟨5, 2, 2⟩, ⟨7, 1, 1⟩] ∧
    authorityList (chain 4) 5 = some [⟨5, 2, 2⟩, ⟨6, 3, 3⟩, ⟨8, 1, 1⟩] := by decide +kernel

/-- A transaction that a node with a limit of 1000 bytes admits and one with 10 bytes does not. -/
example (p : Running) : Admission.checkTransaction { Admission.okConfig with maxTxSize := { p with poolSize := 10 }.poolSize }
    (Admission.okTx ⟨5, by decide⟩ ⟨21000, by decide⟩) = some (.error .exceedSize) := by
  have hs : (Tx.encodeTx (Admission.okTx ⟨5, by decide⟩ ⟨21000, by decide⟩).transaction).isSome = true := by
    decide +kernel
  obtain ⟨bs, he⟩ := Option.isSome_iff_exists.1 hs
  have hl : 10 < bs.length := by
    have : ((Tx.encodeTx (Admission.okTx ⟨5, by decide⟩ ⟨21000, by decide⟩).transaction).map
      fun b => decide (10 < b.length)) = some true := by decide +kernel
    rw [he] at this
    simpa using this
  have hok : ((Admission.checkTransaction { Admission.okConfig with maxTxSize := 1000 }
      (Admission.okTx ⟨5, by decide⟩ ⟨21000, by decide⟩)).map (·.toOption.isSome)) = some true := by
    decide +kernel
  refine C126_admission_false Admission.okConfig { p with poolSize := 10 } { p with poolSize := 1000 } _ he hl ?_
  dsimp only
  revert hok
  cases Admission.checkTransaction { Admission.okConfig with maxTxSize := 1000 }
      (Admission.okTx ⟨5, by decide⟩ ⟨21000, by decide⟩) with
  | none => simp
  | some r => cases r with
    | error e => simp [Except.toOption]
    | ok v => intro _; rfl

/-- No warning although epoch 1 is missing. -/
example : alert (ending 2) 0 = false := C126_alert_false (ending_lawful.ok 2) 0 rfl

end Axon.Params
