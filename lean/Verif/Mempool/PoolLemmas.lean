import Verif.Mempool.Pool

/-!
# Invariants of the pool
-/

namespace Axon.Pool
open Axon.Assoc

/-- Pointer `p` is stored in the pending queue of `k` at nonce `n`. -/
def Mem (pend : Nat → Option PQ) (k n p : Nat) : Prop := ∃ q, pend k = some q ∧ (n, p) ∈ q.queue

/-- Pointer `p` is stored in the queue of its sender at its nonce. -/
def Here (s : Pool) (p : Nat) : Prop := Mem s.pending (s.heap.tx p).sender (s.heap.tx p).nonce p

/-- What holds between two operations. -/
structure Inv (s : Pool) : Prop where
  mapLt : ∀ p ∈ s.txMap, p < s.next
  mapHash : s.txMap.Pairwise (fun a b => (s.heap.tx a).hash ≠ (s.heap.tx b).hash)
  coNodup : (s.co.map (·.1)).Nodup
  coOk : ∀ p ∈ s.co.map (·.1), p ∈ s.txMap ∧ s.heap.pkg p = false ∧ s.heap.drp p = false
  coPend : ∀ p ∈ s.co.map (·.1), ∀ k n, ¬ Mem s.pending k n p
  sorted : ∀ k q, s.pending k = some q → Sorted q.queue
  pend : ∀ k n p, Mem s.pending k n p →
    (s.heap.tx p).sender = k ∧ (s.heap.tx p).nonce = n ∧ s.heap.drp p = false ∧ p ∈ s.txMap
  realNodup : s.real.Nodup
  realOk : ∀ p ∈ s.real, p ∈ s.txMap ∧ s.heap.pkg p = true ∧ (s.heap.drp p = true ∨ Here s p)
  pkgReal : ∀ k n p, Mem s.pending k n p → s.heap.pkg p = true → p ∈ s.real
  mapCases : ∀ p ∈ s.txMap, p ∈ s.co.map (·.1) ∨ s.heap.drp p = true ∨ Here s p

theorem upd_same {α : Type} (f : Nat → α) (k : Nat) (v : α) : upd f k v k = v := by simp [upd]

theorem upd_ne {α : Type} (f : Nat → α) {k i : Nat} (v : α) (h : i ≠ k) : upd f k v i = f i := by
  simp [upd, h]

theorem upd_upd {α : Type} (f : Nat → α) (k : Nat) (v w : α) : upd (upd f k v) k w = upd f k w := by
  funext i; unfold upd; split <;> rfl

theorem mem_upd {pend : Nat → Option PQ} {k0 : Nat} {q : PQ} {k n p : Nat} :
    Mem (upd pend k0 (some q)) k n p ↔ (k = k0 ∧ (n, p) ∈ q.queue) ∨ (k ≠ k0 ∧ Mem pend k n p) := by
  unfold Mem
  by_cases h : k = k0
  · subst h; simp [upd_same]
  · simp [upd_ne _ _ h, h]

theorem inv_init (cap gap : Nat) : Inv (init cap gap) := by
  constructor <;> simp [init, Mem, Here]

/-- The invariant only depends on the content of the pending queues, not on their tips. -/
theorem Inv.congrPending {s : Pool} (hi : Inv s) {pend : Nat → Option PQ}
    (hm : ∀ k n p, Mem pend k n p ↔ Mem s.pending k n p)
    (hs : ∀ k q, pend k = some q → Sorted q.queue) : Inv { s with pending := pend } where
  mapLt := hi.mapLt
  mapHash := hi.mapHash
  coNodup := hi.coNodup
  coOk := hi.coOk
  coPend := fun p hp k n h => hi.coPend p hp k n ((hm _ _ _).1 h)
  sorted := hs
  pend := fun k n p h => hi.pend k n p ((hm _ _ _).1 h)
  realNodup := hi.realNodup
  realOk := fun p hp => by
    obtain ⟨a, b, c⟩ := hi.realOk p hp
    exact ⟨a, b, c.imp id (fun h => (hm _ _ _).2 h)⟩
  pkgReal := fun k n p h => hi.pkgReal k n p ((hm _ _ _).1 h)
  mapCases := fun p hp => (hi.mapCases p hp).imp id (fun h => h.imp id (fun h => (hm _ _ _).2 h))

/-- Creating the default queue of a sender. -/
theorem Inv.orDefault {s : Pool} (hi : Inv s) (k : Nat) :
    Inv { s with pending := upd s.pending k (some ((s.pending k).getD PQ.empty)) } := by
  apply hi.congrPending
  · intro k' n p
    rw [mem_upd]
    unfold Mem
    by_cases h : k' = k
    · subst h
      cases hq : s.pending k' with
      | none => simp [PQ.empty]
      | some q => simp
    · simp [h]
  · intro k' q hq
    by_cases h : k' = k
    · subst h
      rw [upd_same] at hq
      cases hq' : s.pending k' with
      | none => rw [hq'] at hq; simp [PQ.empty] at hq; subst hq; exact List.Pairwise.nil
      | some q' => rw [hq'] at hq; simp at hq; subst hq; exact hi.sorted _ _ hq'
    · rw [upd_ne _ _ h] at hq; exact hi.sorted _ _ hq

/-- The head of `co_queue` is dropped. -/
theorem Inv.dropCo {s : Pool} {p d : Nat} {rest : List (Nat × Nat)}
    (hi : Inv { s with co := (p, d) :: rest }) :
    Inv { s with co := rest, heap := s.heap.setDrp p } := by
  have hnd := List.nodup_cons.1 hi.coNodup
  have hne : ∀ k n p', Mem s.pending k n p' → p' ≠ p := fun k n p' h hp =>
    hi.coPend p (by simp) k n (hp ▸ h)
  constructor
  · exact hi.mapLt
  · exact hi.mapHash
  · exact hnd.2
  · intro x hx
    have hxp : x ≠ p := fun h => hnd.1 (h ▸ hx)
    obtain ⟨a, b, c⟩ := hi.coOk x (List.mem_cons_of_mem _ hx)
    exact ⟨a, b, by simpa [Heap.setDrp, hxp] using c⟩
  · intro x hx; exact hi.coPend x (List.mem_cons_of_mem _ hx)
  · exact hi.sorted
  · intro k n p' h
    obtain ⟨a, b, c, d'⟩ := hi.pend k n p' h
    exact ⟨a, b, by simpa [Heap.setDrp, hne k n p' h] using c, d'⟩
  · exact hi.realNodup
  · intro x hx
    obtain ⟨a, b, c⟩ := hi.realOk x hx
    refine ⟨a, b, ?_⟩
    rcases c with c | c
    · left; simp only [Heap.setDrp]; split <;> simp_all
    · exact .inr c
  · exact hi.pkgReal
  · intro x hx
    by_cases hxp : x = p
    · right; left; simp [Heap.setDrp, hxp]
    · rcases hi.mapCases x hx with h | h | h
      · rcases List.mem_cons.1 h with h | h
        · exact absurd h hxp
        · exact .inl h
      · right; left; simp only [Heap.setDrp]; split <;> simp_all
      · exact .inr (.inr h)

/-- The head of `co_queue` enters a free place of its sender's queue. -/
theorem Inv.placeCo {s : Pool} {p d : Nat} {rest : List (Nat × Nat)}
    (hi : Inv { s with co := (p, d) :: rest }) {q q' : PQ}
    (hq : s.pending (s.heap.tx p).sender = some q)
    (hfree : get q.queue (s.heap.tx p).nonce = none)
    (hq' : q'.queue = sput (s.heap.tx p).nonce p q.queue) :
    Inv { s with co := rest, pending := upd s.pending (s.heap.tx p).sender (some q') } := by
  have hnd := List.nodup_cons.1 hi.coNodup
  have hsq : Sorted q.queue := hi.sorted _ _ hq
  have hp := hi.coOk p (by simp)
  have hmem : ∀ k n x, Mem (upd s.pending (s.heap.tx p).sender (some q')) k n x ↔
      (k = (s.heap.tx p).sender ∧ n = (s.heap.tx p).nonce ∧ x = p) ∨ Mem s.pending k n x := by
    intro k n x
    rw [mem_upd, hq', mem_sput hsq]
    constructor
    · rintro (⟨rfl, h | ⟨h, _⟩⟩ | ⟨_, h⟩)
      · simp only [Prod.mk.injEq] at h; exact .inl ⟨rfl, h.1, h.2⟩
      · exact .inr ⟨q, hq, h⟩
      · exact .inr h
    · rintro (⟨rfl, rfl, rfl⟩ | h)
      · exact .inl ⟨rfl, .inl rfl⟩
      · by_cases hk : k = (s.heap.tx p).sender
        · subst hk
          obtain ⟨q0, h0, h1⟩ := h
          rw [hq] at h0; cases h0
          refine .inl ⟨rfl, .inr ⟨h1, ?_⟩⟩
          intro hn
          simp only at hn
          subst hn
          have := get_of_mem hsq.nodupKeys h1
          rw [hfree] at this; cases this
        · exact .inr ⟨hk, h⟩
  constructor
  · exact hi.mapLt
  · exact hi.mapHash
  · exact hnd.2
  · intro x hx; exact hi.coOk x (List.mem_cons_of_mem _ hx)
  · intro x hx k n h
    rcases (hmem k n x).1 h with ⟨_, _, h⟩ | h
    · exact hnd.1 (h ▸ hx)
    · exact hi.coPend x (List.mem_cons_of_mem _ hx) k n h
  · intro k r hr
    by_cases hk : k = (s.heap.tx p).sender
    · subst hk; simp only [upd_same, Option.some.injEq] at hr
      subst hr; rw [hq']; exact sorted_sput hsq
    · exact hi.sorted k r (by rw [← hr]; exact (upd_ne _ _ hk).symm)
  · intro k n x h
    rcases (hmem k n x).1 h with ⟨rfl, rfl, rfl⟩ | h
    · exact ⟨rfl, rfl, hp.2.2, hp.1⟩
    · exact hi.pend k n x h
  · exact hi.realNodup
  · intro x hx
    obtain ⟨a, b, c⟩ := hi.realOk x hx
    exact ⟨a, b, c.imp id (fun h => (hmem _ _ _).2 (.inr h))⟩
  · intro k n x h hpk
    rcases (hmem k n x).1 h with ⟨_, _, rfl⟩ | h
    · have := hp.2.1; simp only at this hpk; rw [this] at hpk; cases hpk
    · exact hi.pkgReal k n x h hpk
  · intro x hx
    rcases hi.mapCases x hx with h | h | h
    · rcases List.mem_cons.1 h with h | h
      · right; right; exact (hmem _ _ _).2 (.inl ⟨by rw [h], by rw [h], h⟩)
      · exact .inl h
    · exact .inr (.inl h)
    · exact .inr (.inr ((hmem _ _ _).2 (.inr h)))

/-- The head of `co_queue` replaces `old` in its sender's queue; `pk` tells whether `old` was packaged. -/
theorem Inv.replaceCo {s : Pool} {p d old : Nat} {rest : List (Nat × Nat)}
    (hi : Inv { s with co := (p, d) :: rest }) {q q' : PQ}
    (hq : s.pending (s.heap.tx p).sender = some q)
    (hold : get q.queue (s.heap.tx p).nonce = some old)
    (hq' : q'.queue = sput (s.heap.tx p).nonce p q.queue)
    {h' : Heap} {real' : List Nat}
    (hh : (s.heap.pkg old = true ∧ h' = (s.heap.setDrp old).setPkg p ∧ real' = s.real ++ [p]) ∨
      (s.heap.pkg old = false ∧ h' = s.heap.setDrp old ∧ real' = s.real)) :
    Inv { s with co := rest, heap := h', real := real',
                 pending := upd s.pending (s.heap.tx p).sender (some q') } := by
  have hnd := List.nodup_cons.1 hi.coNodup
  have hsq : Sorted q.queue := hi.sorted _ _ hq
  have hp := hi.coOk p (by simp)
  have hmo : Mem s.pending (s.heap.tx p).sender (s.heap.tx p).nonce old := ⟨q, hq, mem_of_get hold⟩
  have hpo : old ≠ p := fun h => hi.coPend p (by simp) _ _ (h ▸ hmo)
  have ho := hi.pend _ _ _ hmo
  have htx : h'.tx = s.heap.tx := by rcases hh with ⟨_, rfl, _⟩ | ⟨_, rfl, _⟩ <;> rfl
  have hdr : ∀ x, h'.drp x = true ↔ x = old ∨ s.heap.drp x = true := by
    intro x
    rcases hh with ⟨_, rfl, _⟩ | ⟨_, rfl, _⟩ <;>
      (simp only [Heap.setDrp, Heap.setPkg]; split <;> simp_all)
  have hpk : ∀ x, x ≠ p → h'.pkg x = s.heap.pkg x := by
    intro x hx
    rcases hh with ⟨_, rfl, _⟩ | ⟨_, rfl, _⟩ <;> simp [Heap.setDrp, Heap.setPkg, hx]
  have hpk' : ∀ x, s.heap.pkg x = true → h'.pkg x = true := by
    intro x hx
    rcases hh with ⟨_, rfl, _⟩ | ⟨_, rfl, _⟩ <;> simp [Heap.setDrp, Heap.setPkg, hx]
  have hrm : ∀ x, x ∈ s.real → x ∈ real' := by
    intro x hx; rcases hh with ⟨_, _, rfl⟩ | ⟨_, _, rfl⟩ <;> simp [hx]
  have hmem : ∀ k n x, Mem (upd s.pending (s.heap.tx p).sender (some q')) k n x ↔
      (k = (s.heap.tx p).sender ∧ n = (s.heap.tx p).nonce ∧ x = p) ∨ (x ≠ old ∧ Mem s.pending k n x) := by
    intro k n x
    rw [mem_upd, hq', mem_sput hsq]
    constructor
    · rintro (⟨rfl, h | ⟨h, hn⟩⟩ | ⟨hk, h⟩)
      · simp only [Prod.mk.injEq] at h; exact .inl ⟨rfl, h.1, h.2⟩
      · refine .inr ⟨?_, q, hq, h⟩
        rintro rfl
        have := (hi.pend _ _ _ ⟨q, hq, h⟩).2.1
        exact hn (this.symm.trans ho.2.1)
      · refine .inr ⟨?_, h⟩
        rintro rfl
        exact hk ((hi.pend _ _ _ h).1.symm.trans ho.1)
    · rintro (⟨rfl, rfl, rfl⟩ | ⟨hx, h⟩)
      · exact .inl ⟨rfl, .inl rfl⟩
      · by_cases hk : k = (s.heap.tx p).sender
        · subst hk
          obtain ⟨q0, h0, h1⟩ := h
          rw [hq] at h0; cases h0
          refine .inl ⟨rfl, .inr ⟨h1, ?_⟩⟩
          intro hn
          simp only at hn
          subst hn
          have := get_of_mem hsq.nodupKeys h1
          rw [hold] at this; cases this; exact hx rfl
        · exact .inr ⟨hk, h⟩
  constructor
  · exact hi.mapLt
  · simp only [htx]; exact hi.mapHash
  · exact hnd.2
  · intro x hx
    obtain ⟨a, b, c⟩ := hi.coOk x (List.mem_cons_of_mem _ hx)
    have hxp : x ≠ p := fun h => hnd.1 (h ▸ hx)
    have hxo : x ≠ old := fun h => hi.coPend x (List.mem_cons_of_mem _ hx) _ _ (h ▸ hmo)
    refine ⟨a, (hpk x hxp).trans b, ?_⟩
    cases hd : h'.drp x with
    | false => rfl
    | true =>
      rcases (hdr x).1 hd with h | h
      · exact absurd h hxo
      · simp only at c; rw [c] at h; cases h
  · intro x hx k n h
    rcases (hmem k n x).1 h with ⟨_, _, h⟩ | ⟨_, h⟩
    · exact hnd.1 (h ▸ hx)
    · exact hi.coPend x (List.mem_cons_of_mem _ hx) k n h
  · intro k r hr
    by_cases hk : k = (s.heap.tx p).sender
    · subst hk; simp only [upd_same, Option.some.injEq] at hr
      subst hr; rw [hq']; exact sorted_sput hsq
    · exact hi.sorted k r (by rw [← hr]; exact (upd_ne _ _ hk).symm)
  · intro k n x h
    simp only [htx]
    have hf : ∀ y, y ≠ old → s.heap.drp y = false → h'.drp y = false := by
      intro y hy hyd
      cases hd : h'.drp y with
      | false => rfl
      | true =>
        rcases (hdr y).1 hd with h | h
        · exact absurd h hy
        · rw [hyd] at h; cases h
    rcases (hmem k n x).1 h with ⟨rfl, rfl, rfl⟩ | ⟨hx, h⟩
    · exact ⟨rfl, rfl, hf x (fun h => hpo h.symm) hp.2.2, hp.1⟩
    · obtain ⟨a, b, c, d'⟩ := hi.pend k n x h
      exact ⟨a, b, hf x hx c, d'⟩
  · rcases hh with ⟨_, _, rfl⟩ | ⟨_, _, rfl⟩
    · simp only [List.nodup_append, List.nodup_cons, List.not_mem_nil, not_false_eq_true,
        List.nodup_nil, and_true, List.mem_singleton]
      refine ⟨hi.realNodup, trivial, ?_⟩
      rintro a ha b rfl rfl
      have h1 := (hi.realOk a ha).2.1
      have h2 := hp.2.1
      simp only at h1 h2; rw [h1] at h2; cases h2
    · exact hi.realNodup
  · intro x hx
    have hcase : x ∈ s.real ∨ (x = p ∧ h'.pkg p = true) := by
      rcases hh with ⟨_, rfl, rfl⟩ | ⟨_, _, rfl⟩
      · rcases List.mem_append.1 hx with h | h
        · exact .inl h
        · exact .inr ⟨by simpa using h, by simp [Heap.setPkg]⟩
      · exact .inl hx
    rcases hcase with hx | ⟨rfl, hx⟩
    · obtain ⟨a, b, c⟩ := hi.realOk x hx
      refine ⟨a, hpk' x b, ?_⟩
      by_cases hxo : x = old
      · left; exact (hdr x).2 (.inl hxo)
      · rcases c with c | c
        · exact .inl ((hdr x).2 (.inr c))
        · right; unfold Here; simp only [htx]; exact (hmem _ _ _).2 (.inr ⟨hxo, c⟩)
    · refine ⟨hp.1, hx, .inr ?_⟩
      unfold Here; simp only [htx]; exact (hmem _ _ _).2 (.inl ⟨rfl, rfl, rfl⟩)
  · intro k n x h hpx
    rcases (hmem k n x).1 h with ⟨_, _, rfl⟩ | ⟨hx, h⟩
    · rcases hh with ⟨_, _, rfl⟩ | ⟨ho', rfl, rfl⟩
      · simp
      · have := hp.2.1
        simp only [Heap.setDrp] at this hpx; rw [this] at hpx; cases hpx
    · refine hrm _ (hi.pkgReal k n x h ?_)
      have hxp : x ≠ p := fun hxp => hi.coPend p (by simp) k n (hxp ▸ h)
      exact (hpk x hxp).symm.trans hpx
  · intro x hx
    unfold Here; simp only [htx]
    rcases hi.mapCases x hx with h | h | h
    · rcases List.mem_cons.1 h with h | h
      · right; right; exact (hmem _ _ _).2 (.inl ⟨by rw [h], by rw [h], h⟩)
      · exact .inl h
    · exact .inr (.inl ((hdr x).2 (.inr h)))
    · by_cases hxo : x = old
      · exact .inr (.inl ((hdr x).2 (.inl hxo)))
      · exact .inr (.inr ((hmem _ _ _).2 (.inr ⟨hxo, h⟩)))

/-- A stored transaction becomes packageable. -/
theorem Inv.mark {s : Pool} (hi : Inv s) {k n v : Nat} (hm : Mem s.pending k n v)
    (hv : s.heap.pkg v = false) :
    Inv { s with heap := s.heap.setPkg v, real := s.real ++ [v] } := by
  have hv' := hi.pend k n v hm
  constructor
  · exact hi.mapLt
  · exact hi.mapHash
  · exact hi.coNodup
  · intro x hx
    obtain ⟨a, b, c⟩ := hi.coOk x hx
    have : x ≠ v := fun h => hi.coPend x hx k n (h ▸ hm)
    exact ⟨a, by simpa [Heap.setPkg, this] using b, c⟩
  · exact hi.coPend
  · exact hi.sorted
  · exact hi.pend
  · simp only [List.nodup_append, List.nodup_cons, List.not_mem_nil, not_false_eq_true,
        List.nodup_nil, and_true, List.mem_singleton]
    refine ⟨hi.realNodup, trivial, ?_⟩
    rintro a ha b rfl rfl
    have h1 := (hi.realOk a ha).2.1
    rw [h1] at hv; cases hv
  · intro x hx
    rcases List.mem_append.1 hx with h | h
    · obtain ⟨a, b, c⟩ := hi.realOk x h
      exact ⟨a, by simp [Heap.setPkg, b], c⟩
    · simp only [List.mem_singleton] at h; subst h
      refine ⟨hv'.2.2.2, by simp [Heap.setPkg], .inr ?_⟩
      show Mem s.pending (s.heap.tx x).sender (s.heap.tx x).nonce x
      rw [hv'.1, hv'.2.1]; exact hm
  · intro k' n' x h hx
    by_cases hxv : x = v
    · simp [hxv]
    · exact List.mem_append.2 (.inl (hi.pkgReal k' n' x h (by simpa [Heap.setPkg, hxv] using hx)))
  · exact hi.mapCases

theorem searchLoop_tx {l : List (Nat × Nat)} {c : Nat} {h : Heap} {real : List Nat} {r}
    (hr : searchLoop l c h real = some r) : r.1.tx = h.tx ∧ r.1.drp = h.drp := by
  induction l generalizing c h real with
  | nil => simp only [searchLoop, Option.some.injEq] at hr; subst hr; exact ⟨rfl, rfl⟩
  | cons e l ih =>
    obtain ⟨k, v⟩ := e
    simp only [searchLoop] at hr
    split at hr
    · split at hr
      · split at hr
        · exact ih hr
        · have := ih hr; exact this
      · cases hr
    · simp only [Option.some.injEq] at hr; subst hr; exact ⟨rfl, rfl⟩

theorem Inv.searchLoop {s : Pool} (hi : Inv s) {k : Nat} {q : PQ} (hq : s.pending k = some q)
    {l : List (Nat × Nat)} (hl : ∀ e ∈ l, e ∈ q.queue) {c : Nat} {r}
    (hr : searchLoop l c s.heap s.real = some r) : Inv { s with heap := r.1, real := r.2.1 } := by
  induction l generalizing c s with
  | nil => simp only [Pool.searchLoop, Option.some.injEq] at hr; subst hr; exact hi
  | cons e l ih =>
    obtain ⟨a, v⟩ := e
    simp only [Pool.searchLoop] at hr
    split at hr
    · split at hr
      · split at hr
        · exact ih hi hq (fun e he => hl e (List.mem_cons_of_mem _ he)) hr
        · rename_i hv
          have hm := hi.mark (k := k) (n := a) (v := v) ⟨q, hq, hl _ (by simp)⟩
            (by cases h : s.heap.pkg v <;> simp_all)
          exact ih (s := { s with heap := s.heap.setPkg v, real := s.real ++ [v] }) hm hq (fun e he => hl e (List.mem_cons_of_mem _ he)) hr
      · cases hr
    · simp only [Option.some.injEq] at hr; subst hr; exact hi

theorem Inv.search {s : Pool} (hi : Inv s) {k : Nat} {q : PQ} (hq : s.pending k = some q)
    {h' : Heap} {q' : PQ} {real' : List Nat} (hr : q.search s.heap s.real = some (h', q', real')) :
    Inv { s with heap := h', real := real', pending := upd s.pending k (some q') } := by
  simp only [PQ.search, Option.map_eq_some_iff] at hr
  obtain ⟨⟨h1, real1, c⟩, hr, he⟩ := hr
  simp only [Prod.mk.injEq] at he
  obtain ⟨rfl, rfl, rfl⟩ := he
  have h := hi.searchLoop hq (fun e he => (List.mem_filter.1 he).1) hr
  refine h.congrPending (pend := upd s.pending k (some { q with pop := c })) ?_ ?_
  · intro k' n p
    rw [mem_upd]
    constructor
    · rintro (⟨rfl, h⟩ | ⟨_, h⟩)
      · exact ⟨q, hq, h⟩
      · exact h
    · intro h
      by_cases hk : k' = k
      · subst hk
        obtain ⟨q0, h0, h1⟩ := h
        rw [show s.pending k' = some q0 from h0] at hq; cases hq
        exact .inl ⟨rfl, h1⟩
      · exact .inr ⟨hk, h⟩
  · intro k' r hr'
    by_cases hk : k' = k
    · subst hk; rw [upd_same] at hr'; cases hr'
      exact hi.sorted k' q hq
    · rw [upd_ne _ _ hk] at hr'; exact hi.sorted _ _ hr'

theorem PQ.raise_queue (q : PQ) (t : Nat) : (q.raise t).queue = q.queue := by
  unfold PQ.raise; split <;> rfl

/-- Moving the head of `co_queue` to the queues keeps the invariant. -/
theorem Inv.popOne {s : Pool} {p d : Nat} {rest : List (Nat × Nat)} {s' : Pool}
    (hi : Inv { s with co := (p, d) :: rest })
    (hr : popOne { s with co := rest } p d = some s') : Inv s' := by
  simp only [Pool.popOne] at hr
  have hi1 : Inv { s with co := (p, d) :: rest, pending := (upd s.pending (s.heap.tx p).sender
      (some ((s.pending (s.heap.tx p).sender).getD PQ.empty))) } :=
    hi.orDefault (s.heap.tx p).sender
  generalize (s.pending (s.heap.tx p).sender).getD PQ.empty = q at hr hi1
  have hself := upd_same s.pending (s.heap.tx p).sender (some q)
  split at hr
  · simp only [Option.some.injEq] at hr; subst hr
    exact Inv.dropCo (s := { s with pending := upd s.pending (s.heap.tx p).sender (some q) }) hi1
  · split at hr
    · cases hr
    · rename_i h1 q1 push hins
      split at hr
      · cases hr
      · rename_i h2 q2 real2 hsearch
        simp only [Option.some.injEq] at hr; subst hr
        -- the state between `insert` and `try_search_package_list`
        have hmid : Inv { s with
            co := rest
            heap := h1
            real := if push then s.real ++ [p] else s.real
            pending := upd s.pending (s.heap.tx p).sender (some q1) } := by
          simp only [PQ.insert] at hins
          split at hins
          · cases hins
          · split at hins
            · simp only [Option.some.injEq, Prod.mk.injEq] at hins
              obtain ⟨rfl, rfl, rfl⟩ := hins
              exact Inv.dropCo (s := { s with pending := upd s.pending (s.heap.tx p).sender (some q) }) hi1
            · simp only [Option.some.injEq] at hins
              have hi2 := hi1.congrPending (pend := upd s.pending (s.heap.tx p).sender
                  (some (q.raise ((s.heap.tx p).nonce - d))))
                (by intro k n x; simp only [mem_upd, PQ.raise_queue])
                (by
                  intro k r hk
                  by_cases h : k = (s.heap.tx p).sender
                  · subst h; rw [upd_same] at hk; cases hk
                    rw [PQ.raise_queue]; exact hi1.sorted _ _ hself
                  · rw [upd_ne _ _ h] at hk
                    exact hi1.sorted k r (by simp only [upd_ne _ _ h]; exact hk))
              generalize q.raise ((s.heap.tx p).nonce - d) = qr at hins hi2
              have hself2 := upd_same s.pending (s.heap.tx p).sender (some qr)
              simp only [PQ.place] at hins
              split at hins
              · rename_i old hold
                split at hins
                · split at hins
                  · rename_i hpk
                    simp only [Prod.mk.injEq] at hins
                    obtain ⟨rfl, rfl, rfl⟩ := hins
                    have := Inv.replaceCo (s := { s with pending := upd s.pending (s.heap.tx p).sender (some qr) }) hi2 (q := qr) (old := old)
                      (q' := { qr with queue := sput (s.heap.tx p).nonce p qr.queue })
                      hself2 hold rfl (.inl ⟨hpk, rfl, rfl⟩)
                    simp only [upd_upd] at this
                    exact this
                  · rename_i hpk
                    simp only [Prod.mk.injEq] at hins
                    obtain ⟨rfl, rfl, rfl⟩ := hins
                    have := Inv.replaceCo (s := { s with pending := upd s.pending (s.heap.tx p).sender (some qr) }) hi2 (q := qr) (old := old)
                      (q' := { qr with queue := sput (s.heap.tx p).nonce p qr.queue })
                      hself2 hold rfl (.inr ⟨by simpa using hpk, rfl, rfl⟩)
                    simp only [upd_upd] at this
                    exact this
                · simp only [Prod.mk.injEq] at hins
                  obtain ⟨rfl, rfl, rfl⟩ := hins
                  exact Inv.dropCo (s := { s with pending := upd s.pending (s.heap.tx p).sender (some qr) }) hi2
              · rename_i hfree
                simp only [Prod.mk.injEq] at hins
                obtain ⟨rfl, rfl, rfl⟩ := hins
                have := Inv.placeCo (s := { s with pending := upd s.pending (s.heap.tx p).sender (some qr) }) hi2 (q := qr)
                  (q' := { qr with queue := sput (s.heap.tx p).nonce p qr.queue })
                  hself2 hfree rfl
                simp only [upd_upd] at this
                exact this
        have := hmid.search (k := (s.heap.tx p).sender) (q := q1) (upd_same _ _ _) hsearch
        simp only [upd_upd] at this
        exact this

/-- What emptying `co_queue` does not touch. -/
structure Same (s s' : Pool) : Prop where
  cap : s'.cap = s.cap
  gap : s'.gap = s.gap
  next : s'.next = s.next
  tx : s'.heap.tx = s.heap.tx
  txMap : s'.txMap = s.txMap
  stock : s'.stock = s.stock
  timeouts : s'.timeouts = s.timeouts
  sys : s'.sys = s.sys

theorem Same.trans {a b c : Pool} (h1 : Same a b) (h2 : Same b c) : Same a c :=
  ⟨h2.cap.trans h1.cap, h2.gap.trans h1.gap, h2.next.trans h1.next, h2.tx.trans h1.tx,
   h2.txMap.trans h1.txMap, h2.stock.trans h1.stock, h2.timeouts.trans h1.timeouts,
   h2.sys.trans h1.sys⟩

theorem Same.refl (s : Pool) : Same s s := ⟨rfl, rfl, rfl, rfl, rfl, rfl, rfl, rfl⟩

theorem insert_tx {q : PQ} {h : Heap} {p d : Nat} {r} (hr : q.insert h p d = some r) :
    r.1.tx = h.tx := by
  simp only [PQ.insert] at hr
  split at hr
  · cases hr
  · split at hr
    · simp only [Option.some.injEq] at hr; subst hr; rfl
    · simp only [Option.some.injEq] at hr; subst hr
      simp only [PQ.place]
      split
      · split
        · split <;> rfl
        · rfl
      · rfl

theorem search_tx {q : PQ} {h : Heap} {real : List Nat} {r} (hr : q.search h real = some r) :
    r.1.tx = h.tx := by
  simp only [PQ.search, Option.map_eq_some_iff] at hr
  obtain ⟨⟨h1, real1, c⟩, hr, he⟩ := hr
  subst he
  exact (searchLoop_tx hr).1

theorem popOne_same {s : Pool} {p d : Nat} {s' : Pool} (hr : popOne s p d = some s') :
    Same s s' ∧ s'.co = s.co := by
  simp only [Pool.popOne] at hr
  split at hr
  · simp only [Option.some.injEq] at hr; subst hr; exact ⟨⟨rfl, rfl, rfl, rfl, rfl, rfl, rfl, rfl⟩, rfl⟩
  · split at hr
    · cases hr
    · rename_i hins
      split at hr
      · cases hr
      · rename_i hse
        simp only [Option.some.injEq] at hr; subst hr
        exact ⟨⟨rfl, rfl, rfl, (search_tx hse).trans (insert_tx hins), rfl, rfl, rfl, rfl⟩, rfl⟩

theorem drain_inv {l : List (Nat × Nat)} {s s' : Pool} (hi : Inv { s with co := l })
    (hr : drain l s = some s') : Inv s' ∧ Same s s' ∧ s'.co = [] := by
  induction l generalizing s with
  | nil =>
    simp only [drain, Option.some.injEq] at hr; subst hr
    exact ⟨hi, ⟨rfl, rfl, rfl, rfl, rfl, rfl, rfl, rfl⟩, rfl⟩
  | cons e l ih =>
    obtain ⟨p, d⟩ := e
    simp only [drain] at hr
    split at hr
    · cases hr
    · rename_i s1 h1
      have hi1 := hi.popOne h1
      obtain ⟨hs1, hc1⟩ := popOne_same h1
      have hi1' : Inv { s1 with co := l } := by
        have : { s1 with co := l } = s1 := by cases s1; simp_all
        rw [this]; exact hi1
      obtain ⟨a, b, c⟩ := ih hi1' hr
      exact ⟨a, ⟨b.cap.trans hs1.cap, b.gap.trans hs1.gap, b.next.trans hs1.next,
        b.tx.trans hs1.tx, b.txMap.trans hs1.txMap, b.stock.trans hs1.stock,
        b.timeouts.trans hs1.timeouts, b.sys.trans hs1.sys⟩, c⟩

theorem flushToPending_inv {s s' : Pool} (hi : Inv s) (hr : flushToPending s = some s') :
    Inv s' ∧ Same s s' ∧ s'.co = [] := drain_inv hi hr

end Axon.Pool
