import Verif.Consensus.Sync
import Verif.Consensus.EngineProps

/-!
# C29, C60 – C64: synchronisation, restart and stopping
-/

namespace Axon.Sync

open Axon Axon.Assoc Axon.Chain

/-! ## C29 -/

/-- The bound of a batch is the remote height or 50 blocks ahead, whichever is lower. -/
theorem C29_target (cur remote : Nat) : syncTarget cur remote = min remote (cur + 50) := by
  unfold syncTarget onceSyncBlockLimit
  split <;> omega

theorem loop_spec (good : Nat → Bool) : ∀ (left cur : Nat),
    let r := loop good cur left
    r.requested = List.range' (cur + 1) r.requested.length ∧ r.requested.length ≤ left ∧
    cur ≤ r.reached ∧ r.reached ≤ cur + left ∧
    (∀ n, cur < n → n ≤ r.reached → good n = true) ∧
    (r.ok = true → r.reached = cur + left ∧ r.requested.length = left) ∧
    (r.ok = false → r.reached < cur + left ∧ good (r.reached + 1) = false ∧
      r.requested.length = r.reached - cur + 1) := by
  intro left
  induction left with
  | zero =>
    intro cur
    refine ⟨rfl, Nat.le_refl _, Nat.le_refl _, Nat.le_refl _, ?_, fun _ => ⟨rfl, rfl⟩, ?_⟩
    · intro n h1 h2
      have : n ≤ cur := h2
      omega
    · intro h; cases h
  | succ left ih =>
    intro cur
    by_cases hg : good (cur + 1) = true
    · have e : loop good cur (left + 1) =
          ⟨(cur + 1) :: (loop good (cur + 1) left).requested, (loop good (cur + 1) left).reached,
            (loop good (cur + 1) left).ok⟩ := by
        simp only [loop, hg, if_true]
      obtain ⟨h1, h2, h3, h4, h5, h6, h7⟩ := ih (cur + 1)
      rw [e]
      refine ⟨?_, ?_, ?_, ?_, ?_, ?_, ?_⟩
      · simp only [List.length_cons, List.range'_succ]
        rw [← h1]
      · simp only [List.length_cons]; omega
      · simp only; omega
      · simp only; omega
      · intro n hn1 hn2
        by_cases hn : n = cur + 1
        · rw [hn]; exact hg
        · exact h5 n (by omega) hn2
      · intro ho
        have := h6 ho
        simp only [List.length_cons]
        omega
      · intro ho
        obtain ⟨a, b, c⟩ := h7 ho
        refine ⟨by simp only; omega, b, ?_⟩
        simp only [List.length_cons]
        omega
    · have e : loop good cur (left + 1) = ⟨[cur + 1], cur, false⟩ := by
        simp only [loop]
        rw [if_neg hg]
      rw [e]
      refine ⟨rfl, by simp, Nat.le_refl _, by simp, ?_, ?_, ?_⟩
      · intro n h1 h2
        have : n ≤ cur := h2
        omega
      · intro h; cases h
      · intro _
        exact ⟨by simp, by simpa using hg, by simp⟩

/-- One synchronisation call, for every height, announced height and failure pattern: it requests
consecutive numbers starting after the local one, at most 50 of them and none above the announced
height; the local height advances by one for each block that succeeds, up to the first that fails;
an `Ok` batch reaches its bound. -/
theorem C29_batch (good : Nat → Bool) (cur remote : Nat) (r : Batch)
    (h : receive good cur remote = .ok r) :
    r.requested = List.range' (cur + 1) r.requested.length ∧
    r.requested.length ≤ 50 ∧
    (∀ n ∈ r.requested, cur < n ∧ n ≤ remote) ∧
    cur ≤ r.reached ∧ r.reached ≤ max cur remote ∧
    (∀ n, cur < n → n ≤ r.reached → good n = true) ∧
    (r.ok = true → cur < remote → r.reached = min remote (cur + 50)) ∧
    (r.ok = false → good (r.reached + 1) = false ∧ r.reached < remote) := by
  unfold receive at h
  split at h
  next hz =>
    injection h with h
    subst h
    refine ⟨rfl, by simp, by simp, Nat.le_refl _, by simp only; omega, ?_, ?_, ?_⟩
    · intro n h1 h2
      have : n ≤ cur := h2
      omega
    · intro _ h3
      have : remote ≠ 0 := by omega
      omega
    · intro h; cases h
  next hz =>
    split at h
    · cases h
    · injection h with h
      subst h
      have ht := C29_target cur remote
      have hlt : cur < remote := by omega
      obtain ⟨h1, h2, h3, h4, h5, h6, h7⟩ := loop_spec good (syncTarget cur remote - cur) cur
      rw [ht] at h1 h2 h3 h4 h5 h6 h7 ⊢
      refine ⟨h1, by omega, ?_, h3, by omega, h5, ?_, ?_⟩
      · intro n hn
        rw [h1, List.mem_range'_1] at hn
        omega
      · intro ho _
        have := (h6 ho).1
        omega
      · intro ho
        obtain ⟨a, b, _⟩ := h7 ho
        exact ⟨b, by omega⟩

/-- Repeating the call: `k` calls towards an announced height. -/
def repeatReceive (good : Nat → Bool) (remote : Nat) : Nat → Nat → Outcome Nat
  | cur, 0 => .ok cur
  | cur, k + 1 =>
    match receive good cur remote with
    | .ok r => repeatReceive good remote r.reached k
    | .err => .err
    | .panic => .panic

/-- If all blocks up to the announced height can be had, repeated calls reach it, 50 blocks per call,
and never pass it. -/
theorem C29_catches_up (good : Nat → Bool) (remote : Nat) (hr : remote + 50 < u64Size)
    (hgood : ∀ n, n ≤ remote → good n = true) :
    ∀ (k cur : Nat), cur ≤ remote →
      repeatReceive good remote cur k = .ok (min remote (cur + 50 * k)) := by
  intro k
  induction k with
  | zero =>
    intro cur hc
    simp only [repeatReceive]
    congr 1
    omega
  | succ k ih =>
    intro cur hc
    cases hv : receive good cur remote with
    | err =>
      unfold receive at hv
      split at hv
      · cases hv
      · split at hv <;> cases hv
    | panic =>
      unfold receive onceSyncBlockLimit at hv
      split at hv
      · cases hv
      · split at hv
        · omega
        · cases hv
    | ok r =>
      obtain ⟨_, _, _, h4, h5, _, h7, h8⟩ := C29_batch good cur remote r hv
      simp only [repeatReceive, hv]
      have hok : r.ok = true := by
        cases ho : r.ok with
        | true => rfl
        | false =>
          obtain ⟨a, b⟩ := h8 ho
          rw [hgood (r.reached + 1) (by omega)] at a
          cases a
      rw [ih r.reached (by omega)]
      congr 1
      by_cases hlt : cur < remote
      · have := h7 hok hlt
        omega
      · omega

/-- In particular the announced height is reached after one call per started fifty. -/
theorem C29_terminates (good : Nat → Bool) (remote cur : Nat) (hr : remote + 50 < u64Size)
    (hgood : ∀ n, n ≤ remote → good n = true) (hc : cur ≤ remote) :
    repeatReceive good remote cur ((remote - cur + 49) / 50) = .ok remote := by
  rw [C29_catches_up good remote hr hgood _ cur hc]
  congr 1
  omega

example : receive (fun n => n ≠ 14) 10 120 = .ok ⟨[11, 12, 13, 14], 13, false⟩ := by decide +kernel
example : (match receive (fun _ => true) 10 120 with | .ok r => (r.requested.length, r.reached) | _ => (0, 0))
    = (50, 60) := by decide +kernel
example : repeatReceive (fun _ => true) 120 10 3 = .ok 120 := by decide +kernel

/-- The same bound inside the interleaved system, for every behaviour of callers and peers. -/
theorem C29_interleaved (env : Env) (g : Block) (stopAt : Option Nat) (clock : Nat) (s : Node)
    (h : Reach env (fun _ _ => True) (boot env g stopAt clock) s)
    (agent : Status) (start cur target : Nat) (x : Option (Block × Proof × Bool))
    (hs : s.sync = some (.syncing agent start cur target x)) :
    start ≤ cur ∧ cur ≤ target ∧ target ≤ start + 50 ∧ (x.isSome → cur < target) := by
  have key : ∀ (t : Node), Reach env (fun _ _ => True) (boot env g stopAt clock) t →
      ∀ agent start cur target x, t.sync = some (.syncing agent start cur target x) →
      start ≤ cur ∧ cur ≤ target ∧ target ≤ start + 50 ∧ (x.isSome → cur < target) := by
    intro t ht
    induction ht with
    | init => intro _ _ _ _ _ hs; simp [boot] at hs
    | @step s op _ _ ih =>
      intro agent start cur target x hs
      have hrestart : ∀ t : Node, (restart env t).sync = none := fun _ => rfl
      cases op with
      | tick now => exact ih _ _ _ _ _ hs
      | getBlock next c l ok =>
        simp only [step] at hs
        split at hs
        · exact ih _ _ _ _ _ hs
        · split at hs
          · rw [hrestart] at hs; cases hs
          · exact ih _ _ _ _ _ hs
          · exact ih _ _ _ _ _ hs
      | check hash len hf p vt full full2 =>
        simp only [step] at hs
        split at hs
        · rw [hrestart] at hs; cases hs
        · exact ih _ _ _ _ _ hs
        · exact ih _ _ _ _ _ hs
      | commitBegin c p pf ok =>
        simp only [step] at hs
        have e : (stopMark s c).sync = s.sync := by unfold stopMark; split <;> rfl
        split at hs
        · rw [e] at hs; exact ih _ _ _ _ _ hs
        split at hs
        · rw [e] at hs; exact ih _ _ _ _ _ hs
        split at hs
        · rw [hrestart] at hs; cases hs
        split at hs
        · rw [e] at hs; exact ih _ _ _ _ _ hs
        split at hs
        · rw [e] at hs; exact ih _ _ _ _ _ hs
        split at hs
        · rw [e] at hs; exact ih _ _ _ _ _ hs
        · have hs : (stopMark s c).sync = some (.syncing agent start cur target x) := hs
          rw [e] at hs; exact ih _ _ _ _ _ hs
      | commitExec txs ok =>
        simp only [step] at hs
        split at hs
        · split at hs
          · exact ih _ _ _ _ _ hs
          · split at hs
            · exact ih _ _ _ _ _ hs
            · split at hs <;> exact ih _ _ _ _ _ hs
        · exact ih _ _ _ _ _ hs
      | commitSave ok =>
        simp only [step] at hs
        split at hs
        · split at hs <;> exact ih _ _ _ _ _ hs
        · exact ih _ _ _ _ _ hs
      | commitSwap ok =>
        simp only [step] at hs
        split at hs
        · split at hs <;> exact ih _ _ _ _ _ hs
        · exact ih _ _ _ _ _ hs
      | commitEnd ok =>
        simp only [step] at hs
        split at hs
        · split at hs <;> exact ih _ _ _ _ _ hs
        · exact ih _ _ _ _ _ hs
      | syncBegin remote =>
        simp only [step] at hs
        split at hs
        · exact ih _ _ _ _ _ hs
        · split at hs
          · exact ih _ _ _ _ _ hs
          · split at hs
            · exact ih _ _ _ _ _ hs
            · cases hs
      | syncLock ok =>
        simp only [step] at hs
        split at hs
        next remote _ =>
          split at hs
          · cases hs
          split at hs
          · cases hs
          split at hs
          · cases hs
          next hgt =>
            split at hs
            · rw [hrestart] at hs; cases hs
            · injection hs with hs
              injection hs with h1 h2 h3 h4 h5
              rw [C29_target] at h4
              subst h5
              refine ⟨by omega, by omega, by omega, by intro h; simp at h⟩
        · exact ih _ _ _ _ _ hs
      | syncVerify ans =>
        simp only [step] at hs
        split at hs
        next a st c t hs0 =>
          have hold := ih _ _ _ _ _ hs0
          split at hs
          next hct =>
            split at hs
            · cases hs
            · split at hs
              · cases hs
              · split at hs
                · rw [hrestart] at hs; cases hs
                · cases hs
                · split at hs
                  · cases hs
                  · injection hs with hs
                    injection hs with h1 h2 h3 h4 h5
                    subst h2; subst h3; subst h4
                    exact ⟨hold.1, hold.2.1, hold.2.2.1, fun _ => hct⟩
          · exact ih _ _ _ _ _ hs
        · exact ih _ _ _ _ _ hs
      | syncSaveProof ok =>
        simp only [step] at hs
        split at hs
        next a st c t b pf hs0 =>
          have hold := ih _ _ _ _ _ hs0
          split at hs
          · cases hs
          · injection hs with hs
            injection hs with h1 h2 h3 h4 h5
            subst h2; subst h3; subst h4
            exact ⟨hold.1, hold.2.1, hold.2.2.1, fun _ => hold.2.2.2 rfl⟩
        · exact ih _ _ _ _ _ hs
      | syncSaveBlock ok fl =>
        simp only [step] at hs
        split at hs
        next a st c t b pf hs0 =>
          have hold := ih _ _ _ _ _ hs0
          split at hs
          · cases hs
          · split at hs
            · cases hs
            · injection hs with hs
              injection hs with h1 h2 h3 h4 h5
              subst h2; subst h3; subst h4; subst h5
              have := hold.2.2.2 rfl
              exact ⟨by omega, by omega, hold.2.2.1, by intro h; simp at h⟩
        · exact ih _ _ _ _ _ hs
      | syncEnd =>
        simp only [step] at hs
        split at hs
        · split at hs
          · exact ih _ _ _ _ _ hs
          · cases hs
        · exact ih _ _ _ _ _ hs
      | crash => rw [show step env s .crash = restart env s from rfl, hrestart] at hs; cases hs
  exact key s h agent start cur target x hs

/-- A peer that announces a height makes the node panic when the local height is within 50 of
`u64::MAX`; no chain gets there, but the addition is not guarded. -/
example : receive (fun _ => true) (u64Size - 50) (u64Size - 1) = .panic := by decide +kernel

/-! ## C63: assembling a block -/

/-- The transactions at hand by index, and what is missing. -/
structure Asm (hashes : List Nat) (lo : Nat) (res : List (Nat × Tx)) (missing : List (Nat × Nat)) :
    Prop where
  sorted : Sorted res
  right : ∀ e ∈ res, lo ≤ e.1 ∧ hashes[e.1]? = some e.2.hash
  index : ∀ h i, get missing h = some i → lo ≤ i ∧ hashes[i]? = some h
  cover : ∀ i, lo ≤ i → i < hashes.length → (∃ t, (i, t) ∈ res) ∨ ∃ h, get missing h = some i

theorem split_asm (mem : Nat → Option Tx) (hmem : ∀ h t, mem h = some t → t.hash = h)
    (hashes : List Nat) (hn : hashes.Nodup) :
    ∀ (k i : Nat), i + k = hashes.length →
      Asm hashes i (split mem i (hashes.drop i)).1 (split mem i (hashes.drop i)).2.1 := by
  intro k
  induction k with
  | zero =>
    intro i hi
    have e : hashes.drop i = [] := List.drop_eq_nil_of_le (by omega)
    rw [e]
    refine ⟨List.Pairwise.nil, by intro e he; simp [split] at he, ?_, ?_⟩
    · intro h j hj; simp [split, get_nil] at hj
    · intro j h1 h2; omega
  | succ k ih =>
    intro i hi
    have hlt : i < hashes.length := by omega
    have e : hashes.drop i = hashes[i] :: hashes.drop (i + 1) := List.drop_eq_getElem_cons hlt
    have A := ih (i + 1) (by omega)
    rw [e]
    have hget : hashes[i]? = some hashes[i] := List.getElem?_eq_getElem hlt
    cases hm : mem hashes[i] with
    | some t =>
      simp only [split, hm]
      refine ⟨?_, ?_, ?_, ?_⟩
      · refine List.pairwise_cons.2 ⟨?_, A.sorted⟩
        intro x hx
        have := (A.right x hx).1
        show i < x.1
        omega
      · intro x hx
        rcases List.mem_cons.1 hx with rfl | hx
        · exact ⟨Nat.le_refl _, by rw [hmem _ _ hm]; exact hget⟩
        · exact ⟨by have := (A.right x hx).1; omega, (A.right x hx).2⟩
      · intro h j hj
        have := A.index h j hj
        exact ⟨by omega, this.2⟩
      · intro j h1 h2
        by_cases hj : j = i
        · subst hj; exact Or.inl ⟨t, by simp⟩
        · rcases A.cover j (by omega) h2 with ⟨t, ht⟩ | h
          · exact Or.inl ⟨t, List.mem_cons_of_mem _ ht⟩
          · exact Or.inr h
    | none =>
      simp only [split, hm]
      have hnew : (get (split mem (i + 1) (hashes.drop (i + 1))).2.1 hashes[i]) = none := by
        cases hq : get (split mem (i + 1) (hashes.drop (i + 1))).2.1 hashes[i] with
        | none => rfl
        | some j =>
          obtain ⟨h1, h2⟩ := A.index _ _ hq
          obtain ⟨hjl, hje⟩ := List.getElem?_eq_some_iff.1 h2
          have := (List.getElem_inj hn).1 hje
          omega
      rw [hnew]
      simp only [Option.isSome_none, Bool.false_eq_true, if_false]
      refine ⟨A.sorted, ?_, ?_, ?_⟩
      · intro x hx
        exact ⟨by have := (A.right x hx).1; omega, (A.right x hx).2⟩
      · intro h j hj
        rw [get_put] at hj
        split at hj
        next he => injection hj with hj; subst hj; subst he; exact ⟨Nat.le_refl _, hget⟩
        · have := A.index h j hj
          exact ⟨by omega, this.2⟩
      · intro j h1 h2
        by_cases hj : j = i
        · exact Or.inr ⟨hashes[i], by rw [get_put, if_pos rfl, hj]⟩
        · rcases A.cover j (by omega) h2 with h | ⟨h, hh⟩
          · exact Or.inl h
          · refine Or.inr ⟨h, ?_⟩
            rw [get_put]
            split
            next he => rw [he, hnew] at hh; cases hh
            · exact hh

theorem absorb_asm {hashes : List Nat} : ∀ (txs : List Tx) {res missing res' missing'},
    Asm hashes 0 res missing → absorb txs res missing = some (res', missing') →
    Asm hashes 0 res' missing' := by
  intro txs
  induction txs with
  | nil =>
    intro res missing res' missing' A h
    simp only [absorb, Option.some.injEq, Prod.mk.injEq] at h
    obtain ⟨rfl, rfl⟩ := h
    exact A
  | cons tx txs ih =>
    intro res missing res' missing' A h
    simp only [absorb] at h
    split at h
    · cases h
    next i hg =>
      refine ih ?_ h
      have hi := A.index _ _ hg
      refine ⟨sorted_sput A.sorted, ?_, ?_, ?_⟩
      · intro e he
        rcases (mem_sput A.sorted e).1 he with he | ⟨he, _⟩
        · subst he; exact ⟨Nat.zero_le _, hi.2⟩
        · exact A.right e he
      · intro h' j hj
        rw [get_del] at hj
        split at hj
        · cases hj
        · exact A.index h' j hj
      · intro j h1 h2
        by_cases hj : j = i
        · exact Or.inl ⟨tx, (mem_sput A.sorted _).2 (Or.inl (by rw [hj]))⟩
        · rcases A.cover j h1 h2 with ⟨t, ht⟩ | ⟨h', hh⟩
          · exact Or.inl ⟨t, (mem_sput A.sorted _).2 (Or.inr ⟨ht, hj⟩)⟩
          · refine Or.inr ⟨h', ?_⟩
            rw [get_del, if_neg]
            · exact hh
            · intro he
              rw [he, hg] at hh
              injection hh with hh
              exact hj hh.symm

theorem fetch_asm {hashes : List Nat} (remote : List Nat → Option (List Tx)) :
    ∀ (cs : List (List Nat)) {res missing res' missing'}, Asm hashes 0 res missing →
    fetch remote cs res missing = some (res', missing') → Asm hashes 0 res' missing' := by
  intro cs
  induction cs with
  | nil =>
    intro res missing res' missing' A h
    simp only [fetch, Option.some.injEq, Prod.mk.injEq] at h
    obtain ⟨rfl, rfl⟩ := h
    exact A
  | cons c cs ih =>
    intro res missing res' missing' A h
    simp only [fetch] at h
    split at h
    · cases h
    · split at h
      · cases h
      next r m ha => exact ih (absorb_asm _ A ha) h

theorem full_range {hashes : List Nat} : ∀ (n a : Nat) (res : List (Nat × Tx)), a + n = hashes.length →
    Sorted res → (∀ e ∈ res, a ≤ e.1 ∧ hashes[e.1]? = some e.2.hash) →
    (∀ i, a ≤ i → i < hashes.length → ∃ t, (i, t) ∈ res) →
    res.map (fun e => e.2.hash) = hashes.drop a := by
  intro n
  induction n with
  | zero =>
    intro a res ha _ hr _
    have : res = [] := by
      cases res with
      | nil => rfl
      | cons e l =>
        have := hr e List.mem_cons_self
        obtain ⟨h1, h2⟩ := this
        obtain ⟨h3, _⟩ := List.getElem?_eq_some_iff.1 h2
        omega
    rw [this, List.drop_eq_nil_of_le (by omega)]; rfl
  | succ n ih =>
    intro a res ha hs hr hc
    have hlt : a < hashes.length := by omega
    cases res with
    | nil =>
      obtain ⟨t, ht⟩ := hc a (Nat.le_refl _) hlt
      simp at ht
    | cons e l =>
      have hs' := List.pairwise_cons.1 hs
      have he : e.1 = a := by
        obtain ⟨t, ht⟩ := hc a (Nat.le_refl _) hlt
        rcases List.mem_cons.1 ht with h | h
        · rw [← h]
        · have h1 := hs'.1 _ h
          have h2 := (hr e List.mem_cons_self).1
          simp only at h1
          omega
      rw [List.drop_eq_getElem_cons hlt, List.map_cons]
      have h2 := (hr e List.mem_cons_self).2
      rw [he, List.getElem?_eq_getElem hlt] at h2
      injection h2 with h2
      rw [h2, ih (a + 1) l (by omega) hs'.2 ?_ ?_]
      · intro x hx
        have := hs'.1 _ hx
        exact ⟨by omega, (hr x (List.mem_cons_of_mem _ hx)).2⟩
      · intro i h1 h3
        obtain ⟨t, ht⟩ := hc i (by omega) h3
        rcases List.mem_cons.1 ht with h | h
        · rw [← h] at he; simp only at he; omega
        · exact ⟨t, h⟩

/-- Whatever the peer answers, a block assembled from the pool and from a peer carries exactly the
transactions named in the block, in that order (for pairwise distinct hashes, and a pool that returns
a transaction only under its own hash). -/
theorem C63_order (mem : Nat → Option Tx) (hmem : ∀ h t, mem h = some t → t.hash = h)
    (remote : List Nat → Option (List Tx)) (chunkSize : Nat) (hashes : List Nat) (hn : hashes.Nodup)
    (txs : List Tx) (h : richTxs mem remote chunkSize hashes = .ok txs) :
    txs.map Tx.hash = hashes := by
  unfold richTxs at h
  have A := split_asm mem hmem hashes hn hashes.length 0 (by omega)
  rw [List.drop_zero] at A
  simp only at h
  split at h
  · cases h
  · split at h
    · cases h
    next res missing hf =>
      have B := fetch_asm remote _ A hf
      split at h
      next hm =>
        injection h with h
        subst h
        have := full_range hashes.length 0 res (by omega) B.sorted B.right (by
          intro i h1 h2
          rcases B.cover i h1 h2 with h | ⟨h', hh⟩
          · exact h
          · rw [hm, get_nil] at hh; cases hh)
        rw [List.drop_zero] at this
        rw [List.map_map]
        exact this
      · cases h

theorem chunks_spec (n : Nat) (hn : 0 < n) : ∀ (k : Nat) (l : List Nat), l.length ≤ k →
    (chunks n l k).flatten = l ∧ ∀ c ∈ chunks n l k, c ≠ [] ∧ c.length ≤ n := by
  intro k
  induction k with
  | zero =>
    intro l hl
    have : l = [] := List.length_eq_zero_iff.1 (by omega)
    subst this
    exact ⟨rfl, by intro c hc; simp [chunks] at hc⟩
  | succ k ih =>
    intro l hl
    by_cases h : l = []
    · subst h
      simp only [chunks, if_true]
      exact ⟨rfl, by intro c hc; simp at hc⟩
    · simp only [chunks, if_neg h]
      have hpos : 0 < l.length := List.length_pos_iff.2 h
      obtain ⟨h1, h2⟩ := ih (l.drop n) (by rw [List.length_drop]; omega)
      refine ⟨by rw [List.flatten_cons, h1, List.take_append_drop], ?_⟩
      intro c hc
      rcases List.mem_cons.1 hc with rfl | hc
      · refine ⟨?_, by rw [List.length_take]; omega⟩
        intro h0
        have := congrArg List.length h0
        rw [List.length_take, List.length_nil] at this
        omega
      · exact h2 c hc

/-- What a peer is asked for: every missing hash once, in requests of at most the configured size. -/
theorem C63_requests (chunkSize : Nat) (hc : 0 < chunkSize) (list : List Nat) :
    (chunks chunkSize list list.length).flatten = list ∧
    ∀ c ∈ chunks chunkSize list list.length, c ≠ [] ∧ c.length ≤ chunkSize :=
  chunks_spec chunkSize hc _ _ (Nat.le_refl _)

/-- A pool with transaction 5 and a peer that answers out of order. -/
example : richTxs (fun h => if h = 5 then some ⟨5, 0⟩ else none)
    (fun c => some ((c.map fun h => (⟨h, 1⟩ : Tx)).reverse)) 2 [7, 5, 9, 4] =
    .ok [⟨7, 1⟩, ⟨5, 0⟩, ⟨9, 1⟩, ⟨4, 1⟩] := by decide +kernel

/-- With a hash repeated in the block, the assembled list is shorter than the list of hashes: the
distinctness is not checked here. -/
theorem C63_repeated_false :
    richTxs (fun _ => none) (fun c => some ((c.map fun h => (⟨h, 1⟩ : Tx)).eraseDups)) 10 [7, 8, 7] =
    .ok [⟨8, 1⟩, ⟨7, 1⟩] := by decide +kernel

/-- A configured chunk size of zero panics on every block. -/
theorem C63_chunk_zero (mem : Nat → Option Tx) (remote : List Nat → Option (List Tx))
    (hashes : List Nat) : richTxs mem remote 0 hashes = .panic := by
  unfold richTxs
  rfl

end Axon.Sync

namespace Axon.Chain

open Axon Axon.Assoc

/-! ## C60: proposing after a restart -/

/-- Is a commit between saving the proof and saving the block? -/
def betweenWrites (s : Node) : Prop := ∃ cur p pf b, s.commit = some ⟨cur, p, pf, .proofSaved b⟩

/-- No synchronisation, commits carry a proof of their own height, and a commit is not interrupted
(by a crash, a panic or a storage error) between saving the proof and saving the block. -/
def Clean (env : Env) (s : Node) (op : Op) : Prop :=
  (match op with
    | .syncBegin _ => False
    | .commitBegin cur _ pf _ => pf.number = cur
    | _ => True) ∧
  (betweenWrites s → (step env s op).commit ≠ none)

/-- Bookkeeping of proofs during a commit. -/
def proofStage (s : Node) : Prop :=
  match s.commit with
  | some ⟨_, p, pf, .checked⟩ => s.latestProof.number = s.latest.number ∧
      pf.number = p.common.number
  | some ⟨_, _, pf, .proofSaved b⟩ => s.latestProof.number = b.number ∧ pf.number = b.number
  | some ⟨_, _, pf, .blockSaved b⟩ => s.latestProof.number = s.latest.number ∧ pf.number = b.number
  | some ⟨_, _, _, .swapped⟩ => s.latestProof.number = s.latest.number
  | none => s.latestProof.number = s.latest.number

structure ProofInv (s : Node) : Prop where
  idle : s.sync = none
  stage : proofStage s
  status : s.status.proof.number = s.status.lastNumber

theorem proofStage_none {s : Node} (h : s.commit = none)
    (hl : s.latestProof.number = s.latest.number) : proofStage s := by
  unfold proofStage; rw [h]; exact hl

theorem latest_of_stage {s : Node} (h : proofStage s) (hb : ¬ betweenWrites s) :
    s.latestProof.number = s.latest.number := by
  unfold proofStage at h
  split at h
  · exact h.1
  next cur p pf b hc => exact absurd ⟨cur, p, pf, b, hc⟩ hb
  · exact h.1
  · exact h
  · exact h

theorem restart_pinv {env : Env} {s : Node} (P : ProofInv s) (hb : ¬ betweenWrites s) :
    ProofInv (restart env s) := by
  have := latest_of_stage P.stage hb
  exact ⟨rfl, proofStage_none rfl this, this⟩

theorem commitReturn_pinv {s : Node} (P : ProofInv s) (hb : ¬ betweenWrites s) :
    ProofInv (commitReturn s) := by
  have := latest_of_stage P.stage hb
  exact ⟨P.idle, proofStage_none rfl this, P.status⟩

theorem ProofInv.same {s t : Node} (P : ProofInv s) (h1 : t.sync = s.sync) (h2 : t.commit = s.commit)
    (h3 : t.latestProof = s.latestProof) (h4 : t.latest = s.latest) (h5 : t.status = s.status) :
    ProofInv t := by
  refine ⟨by rw [h1]; exact P.idle, ?_, by rw [h5]; exact P.status⟩
  have := P.stage
  unfold proofStage at this ⊢
  rw [h2, h3, h4]
  exact this

theorem step_pinv {env : Env} {g : Block} {s : Node} (I : Inv env g s) (P : ProofInv s) {op : Op}
    (hd : Disciplined env s op) (hc : Clean env s op) : ProofInv (step env s op) := by
  have hrs : step env s op = restart env s → ProofInv (step env s op) := by
    intro h
    have : ¬ betweenWrites s := fun hb => hc.2 hb (by rw [h]; rfl)
    rw [h]; exact restart_pinv P this
  have hrt : step env s op = commitReturn s → ProofInv (step env s op) := by
    intro h
    have : ¬ betweenWrites s := fun hb => hc.2 hb (by rw [h]; rfl)
    rw [h]; exact commitReturn_pinv P this
  cases op with
  | tick now => exact P.same rfl rfl rfl rfl rfl
  | getBlock next c hs ok =>
    by_cases h0 : ok = false
    · simp only [step, h0, if_true]; exact P
    · cases hn : numberFollowsProof (ownProposal s next c hs) with
      | panic => exact hrs (by simp only [step, if_neg h0, hn])
      | err =>
        have e : step env s (.getBlock next c hs ok) = s := by simp only [step, if_neg h0, hn]
        rw [e]; exact P
      | ok u =>
        refine P.same ?_ ?_ ?_ ?_ ?_ <;> simp only [step, if_neg h0, hn]
  | check hash len hf p vt full full2 =>
    cases hn : checkBlock env s hash len hf p vt full full2 with
    | panic => exact hrs (by simp only [step, hn])
    | err =>
      have e : step env s (.check hash len hf p vt full full2) = s := by simp only [step, hn]
      rw [e]; exact P
    | ok u => refine P.same ?_ ?_ ?_ ?_ ?_ <;> simp only [step, hn]
  | commitBegin cur p pf ok =>
    have hpf : pf.number = cur := hc.1
    obtain ⟨hp, hpn⟩ := hd
    simp only [step]
    generalize ht : stopMark s cur = t
    have Pt : ProofInv t ∧ Inv env g t := by
      subst ht
      unfold stopMark
      split
      · exact ⟨P.same rfl rfl rfl rfl rfl,
          I.frame rfl rfl rfl rfl (fun q h => h) I.exempt I.status I.excl I.phase⟩
      · exact ⟨P, I⟩
    obtain ⟨Pt, It⟩ := Pt
    split
    · exact Pt
    split
    · exact Pt
    next hlock =>
      have hl0 : t.locked = false := by simpa using hlock
      have hcn : t.commit = none := by
        have := It.excl.1; rw [hl0] at this
        have := this.symm
        rw [Bool.or_eq_false_iff] at this
        simpa using this.1
      have hnb : ¬ betweenWrites t := by
        rintro ⟨_, _, _, _, h⟩
        rw [hcn] at h; cases h
      split
      · exact restart_pinv Pt hnb
      split
      · exact Pt
      split
      · exact Pt
      split
      · exact Pt
      · refine ⟨Pt.idle, ?_, Pt.status⟩
        show t.latestProof.number = t.latest.number ∧ pf.number = p.common.number
        exact ⟨latest_of_stage Pt.stage hnb, by rw [hpf, hpn]⟩
  | commitExec txs ok =>
    cases hcm : s.commit with
    | none =>
      have e : step env s (.commitExec txs ok) = s := by simp only [step, hcm]
      rw [e]; exact P
    | some c =>
      obtain ⟨cur, p, pf, stage⟩ := c
      cases stage with
      | checked =>
        have hst := P.stage
        unfold proofStage at hst
        rw [hcm] at hst
        cases txs with
        | none => exact hrt (by simp only [step, hcm])
        | some txs =>
          cases he : env.exec s.status.lastStateRoot p txs with
          | none => exact hrt (by simp only [step, hcm, he])
          | some r =>
            by_cases h0 : ok = false
            · exact hrt (by simp only [step, hcm, he, if_pos h0])
            · simp only [step, hcm, he, if_neg h0]
              exact ⟨P.idle, ⟨hst.2, hst.2⟩, P.status⟩
      | proofSaved b =>
        have e : step env s (.commitExec txs ok) = s := by simp only [step, hcm]
        rw [e]; exact P
      | blockSaved b =>
        have e : step env s (.commitExec txs ok) = s := by simp only [step, hcm]
        rw [e]; exact P
      | swapped =>
        have e : step env s (.commitExec txs ok) = s := by simp only [step, hcm]
        rw [e]; exact P
  | commitSave ok =>
    cases hcm : s.commit with
    | none =>
      have e : step env s (.commitSave ok) = s := by simp only [step, hcm]
      rw [e]; exact P
    | some c =>
      obtain ⟨cur, p, pf, stage⟩ := c
      cases stage with
      | proofSaved b =>
        have hst := P.stage
        unfold proofStage at hst
        rw [hcm] at hst
        by_cases h0 : ok = false
        · exact hrt (by simp only [step, hcm, if_pos h0])
        · simp only [step, hcm, if_neg h0]
          exact ⟨P.idle, ⟨hst.1, hst.2⟩, P.status⟩
      | checked =>
        have e : step env s (.commitSave ok) = s := by simp only [step, hcm]
        rw [e]; exact P
      | blockSaved b =>
        have e : step env s (.commitSave ok) = s := by simp only [step, hcm]
        rw [e]; exact P
      | swapped =>
        have e : step env s (.commitSave ok) = s := by simp only [step, hcm]
        rw [e]; exact P
  | commitSwap ok =>
    cases hcm : s.commit with
    | none =>
      have e : step env s (.commitSwap ok) = s := by simp only [step, hcm]
      rw [e]; exact P
    | some c =>
      obtain ⟨cur, p, pf, stage⟩ := c
      cases stage with
      | blockSaved b =>
        have hst := P.stage
        unfold proofStage at hst
        rw [hcm] at hst
        by_cases h0 : ok = false
        · exact hrt (by simp only [step, hcm, if_pos h0])
        · simp only [step, hcm, if_neg h0]
          exact ⟨P.idle, hst.1, hst.2⟩
      | checked =>
        have e : step env s (.commitSwap ok) = s := by simp only [step, hcm]
        rw [e]; exact P
      | proofSaved b =>
        have e : step env s (.commitSwap ok) = s := by simp only [step, hcm]
        rw [e]; exact P
      | swapped =>
        have e : step env s (.commitSwap ok) = s := by simp only [step, hcm]
        rw [e]; exact P
  | commitEnd cl =>
    cases hcm : s.commit with
    | none =>
      have e : step env s (.commitEnd cl) = s := by simp only [step, hcm]
      rw [e]; exact P
    | some c =>
      obtain ⟨cur, p, pf, stage⟩ := c
      cases stage with
      | swapped =>
        have hst := P.stage
        unfold proofStage at hst
        rw [hcm] at hst
        simp only [step, hcm]
        split
        · exact ⟨P.idle, hst, P.status⟩
        · exact ⟨P.idle, hst, P.status⟩
      | checked =>
        have e : step env s (.commitEnd cl) = s := by simp only [step, hcm]
        rw [e]; exact P
      | proofSaved b =>
        have e : step env s (.commitEnd cl) = s := by simp only [step, hcm]
        rw [e]; exact P
      | blockSaved b =>
        have e : step env s (.commitEnd cl) = s := by simp only [step, hcm]
        rw [e]; exact P
  | syncBegin remote => exact absurd hc.1 (by intro h; exact h)
  | syncLock ok => simp only [step, P.idle]; exact P
  | syncVerify ans => simp only [step, P.idle]; exact P
  | syncSaveProof ok => simp only [step, P.idle]; exact P
  | syncSaveBlock ok fl => simp only [step, P.idle]; exact P
  | syncEnd => simp only [step, P.idle]; exact P
  | crash => exact hrs rfl

theorem reach_pinv {env : Env}
    (hinj : ∀ p q, env.proposalHash p = env.proposalHash q → p = q) {g : Block}
    (hg : g.header.common.proof.number = g.number) {stopAt : Option Nat} {clock : Nat} {s : Node}
    (h : Reach env (fun s op => Disciplined env s op ∧ Clean env s op) (boot env g stopAt clock) s) :
    Inv env g s ∧ ProofInv s := by
  induction h with
  | init => exact ⟨boot_inv env g stopAt clock, rfl, hg, hg⟩
  | step _ hd ih => exact ⟨step_inv hinj ih.1 hd.1, step_pinv ih.1 ih.2 hd.1 hd.2⟩

/-- A node that only commits through consensus can propose the block after its last one, also after a
restart at any point except between the writes of proof and block.  Not covered, and false: a restart
after a synchronisation (`C60_sync_false`) and a crash between the two writes (`C60_crash_false`). -/
theorem C60_can_propose_partial (env : Env)
    (hinj : ∀ p q, env.proposalHash p = env.proposalHash q → p = q) (g : Block)
    (hg : g.header.common.proof.number = g.number) (stopAt : Option Nat) (clock : Nat) (s : Node)
    (h : Reach env (fun s op => Disciplined env s op ∧ Clean env s op) (boot env g stopAt clock) s)
    (hmax : s.latest.number + 1 < u64Size) (hb : ¬ betweenWrites s)
    (c : Common) (hashes : List Nat) :
    ∃ p, p ∈ (step env (restart env s)
        (.getBlock (s.latest.number + 1) c hashes true)).accepted ∧
      p.common.number = s.latest.number + 1 ∧ p.common.prevHash = env.blockHash s.latest.header ∧
      p.common.proof = s.latestProof ∧ p.txHashes = hashes := by
  obtain ⟨_, P⟩ := reach_pinv hinj hg h
  have hl := latest_of_stage P.stage hb
  refine ⟨ownProposal (restart env s) (s.latest.number + 1) c hashes, ?_, rfl, rfl, rfl, rfl⟩
  have hn : numberFollowsProof (ownProposal (restart env s) (s.latest.number + 1) c hashes) = .ok () := by
    have e1 : (ownProposal (restart env s) (s.latest.number + 1) c hashes).common.proof.number =
        s.latestProof.number := rfl
    have e2 : (ownProposal (restart env s) (s.latest.number + 1) c hashes).common.number =
        s.latest.number + 1 := rfl
    unfold numberFollowsProof
    rw [e1, e2, hl, if_neg (by omega), if_neg (by omega)]
  simp only [step, Bool.true_eq_false, if_false, hn]
  exact List.mem_cons_self

/-- The hypotheses are met by the two-block chain of `EngineProps`. -/
example : (step env0 (restart env0 (run env0 (boot env0 g0 none 10) (commitOps 1 p1 ++ commitOps 2 p2)))
    (.getBlock 3 c0 [] true)).own.map (·.common.number) = [3] := by decide +kernel

/-- Synchronising block 2 stores the proof found in its header, which is the proof of block 1, as the
latest proof.  The node can propose block 3 as long as it runs; after a restart it cannot: the
proposal is refused for its proof's number. -/
theorem C60_sync_false :
    let s := run env0 (boot env0 g0 none 10) (commitOps 1 p1 ++
      [.syncBegin 2, .syncLock true, .syncVerify (some (b2, [], ⟨2, 0, env0.proposalHash p2, 0⟩)),
       .syncSaveProof true, .syncSaveBlock true true, .syncEnd])
    s.status.lastNumber = 2 ∧ s.status.proof.number = 2 ∧ s.latestProof.number = 1 ∧
    numberFollowsProof (ownProposal s 3 c0 []) = .ok () ∧
    numberFollowsProof (ownProposal (restart env0 s) 3 c0 []) = .err := by
  decide +kernel

/-- A crash between saving the proof and saving the block has the same effect: the stored proof is
one ahead of the stored block. -/
theorem C60_crash_false :
    let s := run env0 (boot env0 g0 none 10) ((commitOps 1 p1).take 3 ++ [.crash])
    s.status.lastNumber = 0 ∧ s.status.proof.number = 1 ∧
    numberFollowsProof (ownProposal s 1 c0 []) = .err := by
  decide +kernel

/-! ## C61: a block obtained from a peer is the block that was agreed -/

/-- A synchronised block with a valid proof for proposal `p` agrees with `p` in every field of the
proposal, and its state and receipt roots are those that executing it produces, which are also those of
the block that a node committing `p` stores.  (Collision-free
proposal hash and digest; execution does not look at the previous state root in the proposal.)  The
fields `log_bloom` and `gas_used` are not covered: see `C61_results_false`. -/
theorem C61_agrees_partial (env : Env)
    (hinj : ∀ p q, env.proposalHash p = env.proposalHash q → p = q)
    (hdig : ∀ a b, env.digest a = env.digest b → a = b)
    (hexec : ∀ root p q txs, p.common = q.common → p.txHashes = q.txHashes →
      env.exec root p txs = env.exec root q txs)
    (chain : List (Nat × Block)) (b prev : Block) (txs : List Tx) (pf : Proof)
    (hprev : get chain (b.number - 1) = some prev)
    (p : Proposal) (ptxs : List Tx) (hp : p.common.signedTxsHash = env.digest ptxs)
    (hpf : pf.blockHash = env.proposalHash p) (root : Nat)
    (hv : verifySynced env chain root b txs pf = .ok ())
    (r : ExecResp) (he : execSynced env prev.header.stateRoot root b txs = some r) :
    b.header.common = p.common ∧ b.txHashes = p.txHashes ∧ txs = ptxs ∧
    p.prevStateRoot = prev.header.stateRoot ∧
    ∃ r', env.exec prev.header.stateRoot p ptxs = some r' ∧
      b.header.stateRoot = r'.stateRoot ∧ b.header.receiptsRoot = r'.receiptRoot ∧
      b.header.stateRoot = (Block.new p r').header.stateRoot ∧
      b.header.receiptsRoot = (Block.new p r').header.receiptsRoot ∧
      (Block.new p r').header.common = p.common ∧ (Block.new p r').txHashes = p.txHashes ∧
      (Block.new p r').header.gasUsed = r'.gasUsed ∧ (Block.new p r').header.logBloom = r'.logBloom := by
  obtain ⟨prev', h0, hg, _, hvp, _, hd⟩ := verifySynced_ok hv
  rw [hprev] at hg
  injection hg with hg
  subst hg
  unfold verifyProof at hvp
  rw [if_neg h0] at hvp
  split at hvp
  · cases hvp
  · rw [hprev] at hvp
    simp only at hvp
    split at hvp
    · cases hvp
    next hh =>
      have hh := Classical.not_not.1 hh
      rw [hpf] at hh
      have hq := hinj _ _ hh
      have h1 : b.header.common = p.common := by rw [← hq]; rfl
      have h2 : b.txHashes = p.txHashes := by rw [← hq]; rfl
      have h3 : p.prevStateRoot = prev.header.stateRoot := by rw [← hq]; rfl
      have h4 : txs = ptxs := hdig _ _ (by rw [hd, h1, hp])
      refine ⟨h1, h2, h4, h3, ?_⟩
      unfold execSynced at he
      split at he
      · cases he
      next r0 hr0 =>
        split at he
        · cases he
        next hs =>
          split at he
          · cases he
          next hrr =>
            refine ⟨r0, ?_, (Classical.not_not.1 hs).symm, (Classical.not_not.1 hrr).symm,
              (Classical.not_not.1 hs).symm, (Classical.not_not.1 hrr).symm, rfl, rfl, rfl, rfl⟩
            rw [← h4, ← hr0]
            exact hexec _ _ _ _ h1.symm h2.symm

/-- Hypotheses are met: block 2 of the chain above passes both checks. -/
example : verifySynced env0 [(1, b1), (0, g0)] 0 b2 [] ⟨2, 0, env0.proposalHash p2, 0⟩ = .ok () ∧
    execSynced env0 8 0 b2 [] = some ⟨9, 0, 0, 0⟩ := by decide +kernel

/-- The proof covers the proposal only, and after execution just two roots are compared: a peer can
deliver block 1 with another `gas_used` (or bloom).  It is stored, its hash differs from the hash of
the agreed block, and from then on the node refuses the real block 2, by synchronisation and as a
proposal. -/
theorem C61_results_false :
    let bad : Block := { b1 with header := { b1.header with gasUsed := 3, logBloom := 4 } }
    let s := run env0 (boot env0 g0 none 10)
      [.syncBegin 2, .syncLock true, .syncVerify (some (bad, [], ⟨1, 0, env0.proposalHash p1, 0⟩)),
       .syncSaveProof true, .syncSaveBlock true true,
       .syncVerify (some (b2, [], ⟨2, 0, env0.proposalHash p2, 0⟩))]
    s.saved = [bad] ∧ bad ≠ b1 ∧ s.sync = none ∧ s.status.lastNumber = 1 ∧
    verifySynced env0 s.chain s.status.lastStateRoot b2 [] ⟨2, 0, env0.proposalHash p2, 0⟩ = .err ∧
    checkBlock env0 s (env0.proposalHash p2) 32 none p2 true (some []) (some []) = .err ∧
    checkBlock env0 (run env0 (boot env0 g0 none 10) (commitOps 1 p1)) (env0.proposalHash p2) 32 none
      p2 true (some []) (some []) = .ok () := by
  decide +kernel

/-! ## C62: an accepted block can be built upon -/

/-- If the previous state root in a committed proposal is the state root of its parent, the proof that
consensus delivers for it is accepted for the stored block, which the next proposal and every
synchronising node require. -/
theorem C62_proof_fits_partial (env : Env) (chain : List (Nat × Block)) (p : Proposal) (r : ExecResp)
    (parent : Block) (pf : Proof) (hparent : get chain (p.common.number - 1) = some parent)
    (hroot : p.prevStateRoot = parent.header.stateRoot)
    (hnum : pf.number = p.common.number) (hhash : pf.blockHash = env.proposalHash p)
    (hq : env.quorum p.common.number pf = true) :
    verifyProof env chain (Block.new p r) pf = .ok () := by
  unfold verifyProof
  have e : (Block.new p r).number = p.common.number := rfl
  rw [e]
  split
  · rfl
  · rw [if_neg (by omega), hparent]
    simp only
    have : Proposal.ofHeader (Block.new p r).header parent.header.stateRoot (Block.new p r).txHashes
        = p := by
      rw [← hroot]; rfl
    rw [this]
    simp [hhash]

/-- `check_block` does not compare the previous state root, so the hypothesis is not enforced: a
proposal with a wrong one is accepted and committed, and then no proof fits the stored block; every
next proposal is refused by every node that checks it, and the block cannot be synchronised. -/
theorem C62_state_root_false :
    let bad : Proposal := { p1 with prevStateRoot := 6 }
    let pf : Proof := ⟨1, 0, env0.proposalHash bad, 0⟩
    let s0 := boot env0 g0 none 10
    let s := run env0 s0 (commitOps 1 bad)
    let b := s.latest
    let next : Proposal := { propOn env0 b 8 7 7 with
      common := { (propOn env0 b 8 7 7).common with proof := pf } }
    checkBlock env0 s0 (env0.proposalHash bad) 32 none bad true (some []) (some []) = .ok () ∧
    s.status.lastNumber = 1 ∧ s.status.proof = pf ∧
    ownProposal { s with clock := 7 } 2 c0 [] = next ∧
    verifyProof env0 s.chain b pf = .err ∧
    checkBlock env0 s (env0.proposalHash next) 32 none next true (some []) (some []) = .err ∧
    verifySynced env0 s0.chain 7 b [] pf = .err := by
  decide +kernel

/-- The same chain with the right state root goes on. -/
example :
    checkBlock env0 (run env0 (boot env0 g0 none 10) (commitOps 1 p1)) (env0.proposalHash p2) 32 none
      p2 true (some []) (some []) = .ok () := by
  decide +kernel

/-! ## Malformed proposals -/

/-- `check_block` panics exactly on: a proof number of `u64::MAX`; number zero (which never equals the
proof's number plus one); or a hash that is not 32 bytes long after the other checks passed. -/
theorem C64_panics_iff (env : Env) (s : Node) (hash len : Nat) (hf : Option Nat) (p : Proposal)
    (vt : Bool) (full full2 : Option (List Tx)) :
    checkBlock env s hash len hf p vt full full2 = .panic ↔
      p.common.proof.number + 1 = u64Size ∨ p.common.number = 0 ∨
      (p.common.number = p.common.proof.number + 1 ∧ hardforkMatches env hf p = .ok () ∧ len ≠ 32) := by
  have hhf : hardforkMatches env hf p ≠ .panic := by
    unfold hardforkMatches
    split
    · intro h; cases h
    · split
      · intro h; cases h
      · split <;> intro h <;> cases h
  unfold checkBlock
  by_cases h1 : p.common.proof.number + 1 = u64Size
  · simp [numberFollowsProof, h1, Outcome.bind]
  · by_cases h2 : p.common.number = p.common.proof.number + 1
    · have h0 : p.common.number ≠ 0 := by omega
      have hn : numberFollowsProof p = .ok () := by
        unfold numberFollowsProof
        rw [if_neg h1, if_neg (by simpa using h2)]
      rw [hn]
      simp only [Outcome.bind]
      cases hh : hardforkMatches env hf p with
      | panic => exact absurd hh hhf
      | err => simp [h1, h0]
      | ok u =>
        simp only
        by_cases hl : len = 32
        · rw [if_neg (by simpa using hl)]
          constructor
          · intro h
            exfalso
            split at h
            · split at h <;> cases h
            · have hi : innerCheck env s.chain s.clock p vt full = .panic := by
                cases hi : innerCheck env s.chain s.clock p vt full with
                | ok a => rw [hi] at h; simp only at h; split at h <;> cases h
                | err => rw [hi] at h; cases h
                | panic => rfl
              unfold innerCheck at hi
              unfold verifyHeader at hi
              rw [if_neg h0] at hi
              split at hi
              · simp [Outcome.bind] at hi
              next prev hg =>
                have hvp : verifyProof env s.chain prev p.common.proof ≠ .panic := by
                  unfold verifyProof
                  split
                  · intro h; cases h
                  · split
                    · intro h; cases h
                    · split
                      · intro h; cases h
                      · split
                        · intro h; cases h
                        · split <;> intro h <;> cases h
                split at hi
                · simp [Outcome.bind] at hi
                · split at hi
                  · simp [Outcome.bind] at hi
                  · simp only [Outcome.bind] at hi
                    split at hi
                    · cases hi
                    · split at hi
                      · split at hi
                        · cases hi
                        · split at hi
                          · cases hi
                          · split at hi
                            · cases hi
                            · split at hi <;> cases hi
                      · cases hi
                      next he => exact hvp he
          · rintro (h | h | ⟨_, _, h⟩)
            · exact absurd h h1
            · exact absurd h h0
            · exact absurd hl h
        · rw [if_pos hl]
          simp [h2, hl]
    · by_cases h0 : p.common.number = 0
      · have hn : numberFollowsProof p = .panic := by
          unfold numberFollowsProof
          rw [if_neg h1, if_pos h2, if_pos h0]
        rw [hn]
        simp [Outcome.bind, h0]
      · have hn : numberFollowsProof p = .err := by
          unfold numberFollowsProof
          rw [if_neg h1, if_pos h2, if_neg h0]
        rw [hn]
        simp [Outcome.bind, h0, h1, h2]

/-- The claim "checking a proposal never panics" is false: number zero. -/
theorem C64_zero_false :
    checkBlock env0 (boot env0 g0 none 10) 0 32 none
      { p1 with common := { p1.common with number := 0 } } true (some []) (some []) = .panic := by
  decide +kernel

/-! ## C65: stopping at a height -/

/-- No synchronisation. -/
def NoSync : Op → Prop
  | .syncBegin _ => False
  | _ => True

def StopInv (h : Nat) (s : Node) : Prop :=
  s.stopAt = some h ∧ s.sync = none ∧ s.latest.number ≤ h ∧
  match s.commit with
  | some ⟨_, p, _, .checked⟩ => p.common.number ≤ h
  | some ⟨_, _, _, .proofSaved b⟩ => b.number ≤ h
  | _ => True

theorem step_stop {env : Env} {g : Block} {s : Node} {h : Nat} (I : Inv env g s) (S : StopInv h s)
    {op : Op} (hd : Disciplined env s op) (hn : NoSync op) : StopInv h (step env s op) := by
  obtain ⟨s1, s2, s3, s4⟩ := S
  have hrestart : ∀ t : Node, t.stopAt = some h → t.latest.number ≤ h → StopInv h (restart env t) :=
    fun t a b => ⟨a, rfl, b, trivial⟩
  have hret : StopInv h (commitReturn s) := ⟨s1, s2, s3, trivial⟩
  cases op with
  | tick now => exact ⟨s1, s2, s3, s4⟩
  | getBlock next c hs ok =>
    simp only [step]
    split
    · exact ⟨s1, s2, s3, s4⟩
    · split
      · exact hrestart s s1 s3
      · exact ⟨s1, s2, s3, s4⟩
      · exact ⟨s1, s2, s3, s4⟩
  | check hash len hf p vt full full2 =>
    simp only [step]
    split
    · exact hrestart s s1 s3
    · exact ⟨s1, s2, s3, s4⟩
    · exact ⟨s1, s2, s3, s4⟩
  | commitBegin cur p pf ok =>
    simp only [step]
    generalize ht : stopMark s cur = t
    have Pt : StopInv h t ∧ Inv env g t ∧ (t.stopped = false → s.stopAt ≠ some (cur - 1)) := by
      subst ht
      unfold stopMark
      split
      next hst =>
        refine ⟨⟨s1, s2, s3, s4⟩,
          I.frame rfl rfl rfl rfl (fun q h => h) I.exempt I.status I.excl I.phase, ?_⟩
        intro h0; cases h0
      next hst => exact ⟨⟨s1, s2, s3, s4⟩, I, fun _ => hst⟩
    obtain ⟨St, It, hstop⟩ := Pt
    split
    · exact St
    next hns =>
      split
      · exact St
      next hlock =>
        split
        · exact hrestart t St.1 St.2.2.1
        split
        · exact St
        split
        · exact St
        split
        · exact St
        next hcur =>
          have hcur := Classical.not_not.1 hcur
          obtain ⟨hp, hpn⟩ := hd
          have hl0 : t.locked = false := by simpa using hlock
          have hcn : t.commit = none := by
            have := It.excl.1; rw [hl0] at this
            have := this.symm
            rw [Bool.or_eq_false_iff] at this
            simpa using this.1
          have hat : At env t.status t.latest := by
            have hph := It.phase
            unfold phase at hph
            rw [hcn, St.2.1] at hph
            exact hph
          refine ⟨St.1, St.2.1, St.2.2.1, ?_⟩
          show p.common.number ≤ h
          have h1 := hstop (by simpa using hns)
          rw [s1] at h1
          have h2 : h ≠ cur - 1 := fun e => h1 (by rw [e])
          have h3 := hat.1
          have h4 := St.2.2.1
          omega
  | commitExec txs ok =>
    simp only [step]
    split
    next cur p pf hc =>
      rw [hc] at s4
      split
      · exact hret
      · split
        · exact hret
        · split
          · exact hret
          · exact ⟨s1, s2, s3, s4⟩
    · exact ⟨s1, s2, s3, s4⟩
  | commitSave ok =>
    simp only [step]
    split
    next cur p pf b hc =>
      rw [hc] at s4
      split
      · exact hret
      · exact ⟨s1, s2, s4, trivial⟩
    · exact ⟨s1, s2, s3, s4⟩
  | commitSwap ok =>
    simp only [step]
    split
    · split
      · exact hret
      · exact ⟨s1, s2, s3, trivial⟩
    · exact ⟨s1, s2, s3, s4⟩
  | commitEnd cl =>
    simp only [step]
    split
    · split
      · exact ⟨s1, s2, s3, trivial⟩
      · exact hret
    · exact ⟨s1, s2, s3, s4⟩
  | syncBegin remote => exact absurd hn (by intro h; exact h)
  | syncLock ok => simp only [step, s2]; exact ⟨s1, s2, s3, s4⟩
  | syncVerify ans => simp only [step, s2]; exact ⟨s1, s2, s3, s4⟩
  | syncSaveProof ok => simp only [step, s2]; exact ⟨s1, s2, s3, s4⟩
  | syncSaveBlock ok fl => simp only [step, s2]; exact ⟨s1, s2, s3, s4⟩
  | syncEnd => simp only [step, s2]; exact ⟨s1, s2, s3, s4⟩
  | crash => exact hrestart s s1 s3

/-- A node told to stop at height `h` (and not yet above it) never stores a block above `h` through
consensus.  With synchronisation it does, see `C65_sync_false`. -/
theorem C65_stops_partial (env : Env)
    (hinj : ∀ p q, env.proposalHash p = env.proposalHash q → p = q) (g : Block) (h clock : Nat)
    (hg : g.number ≤ h) (s : Node)
    (hr : Reach env (fun s op => Disciplined env s op ∧ NoSync op) (boot env g (some h) clock) s) :
    ∀ b ∈ s.saved ++ [g], b.number ≤ h := by
  have key : Inv env g s ∧ StopInv h s := by
    induction hr with
    | init => exact ⟨boot_inv env g (some h) clock, rfl, rfl, hg, trivial⟩
    | step _ hd ih => exact ⟨step_inv hinj ih.1 hd.1, step_stop ih.1 ih.2 hd.1 hd.2⟩
  intro b hb
  have := linked_le_head key.1.linked key.1.head hb
  exact Nat.le_trans this key.2.2.2.1

/-- Once the signal was given no commit starts until the process is started again. -/
theorem C65_stopped (env : Env) (s : Node) (hs : s.stopped = true) (cur : Nat) (p : Proposal)
    (pf : Proof) (ok : Bool) : step env s (.commitBegin cur p pf ok) = s := by
  have e : stopMark s cur = s := by
    unfold stopMark
    split
    · have : s.stopped = true := hs
      cases s
      simp only at this
      subst this
      rfl
    · rfl
  simp only [step]
  rw [e, if_pos hs]

example : (run env0 (boot env0 g0 (some 1) 10) (commitOps 1 p1 ++ commitOps 2 p2)).saved.map
    Block.number = [1] := by decide +kernel

/-- The height is only compared for equality when a commit starts, and synchronisation does not
compare it at all: a node told to stop at height 1 goes past it in a batch and then also commits
through consensus. -/
theorem C65_sync_false :
    let s := run env0 (boot env0 g0 (some 1) 10) (
      [.syncBegin 2, .syncLock true, .syncVerify (some (b1, [], ⟨1, 0, env0.proposalHash p1, 0⟩)),
       .syncSaveProof true, .syncSaveBlock true true,
       .syncVerify (some (b2, [], ⟨2, 0, env0.proposalHash p2, 0⟩)),
       .syncSaveProof true, .syncSaveBlock true true, .syncEnd] ++
      commitOps 3 (propOn env0 b2 9 8 8))
    s.saved.map Block.number = [3, 2, 1] ∧ s.stopped = false := by
  decide +kernel

end Axon.Chain
