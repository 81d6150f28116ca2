import Verif.Mempool.Concurrent

/-!
# Invariants of the pool under concurrent calls
-/

namespace Axon.Pool
open Axon.Assoc

/-! ## Locks -/

structure Locks (s : Conc) : Prop where
  readers : s.readers = total Pc.holds s.threads
  real : total Pc.drains s.threads = s.real.toNat
  owes : total Pc.owes s.threads ≤ s.pool.co.length

theorem After.drains (a : After) : a.pc.drains = 0 := by cases a <;> rfl
theorem After.owes (a : After) : a.pc.owes = 0 := by cases a <;> rfl
theorem After.holds (a : After) : a.pc.holds = 1 := by cases a <;> rfl
theorem Call.drains (a : Call) : a.pc.drains = 0 := by cases a <;> rfl
theorem Call.owes (a : Call) : a.pc.owes = 0 := by cases a <;> rfl
theorem Call.holds (a : Call) : a.pc.holds = 0 := by cases a <;> rfl

theorem owes_le_drains : ∀ {l : List (Call × Pc)}, total Pc.drains l = 0 → total Pc.owes l = 0
  | [], _ => rfl
  | (c, pc) :: l, h => by
    simp only [total, List.map_cons, List.sum_cons] at *
    have h1 : pc.drains = 0 := by omega
    have h2 := owes_le_drains (l := l) (by simp only [total]; omega)
    simp only [total] at h2
    cases pc <;> simp_all [Pc.drains, Pc.owes]

theorem holds_of_drains : ∀ {l : List (Call × Pc)}, total Pc.drains l ≤ total Pc.holds l
  | [] => by simp [total]
  | (c, pc) :: l => by
    have h2 := holds_of_drains (l := l)
    simp only [total, List.map_cons, List.sum_cons] at *
    have : pc.drains ≤ pc.holds := by cases pc <;> simp [Pc.drains, Pc.holds]
    omega

theorem popOne_co {s : Pool} {p d : Nat} {s' : Pool} (h : popOne s p d = some s') : s'.co = s.co :=
  (popOne_same h).2

theorem drain_co {l : List (Nat × Nat)} {s s' : Pool} (h : drain l s = some s') : s'.co = [] := by
  induction l generalizing s with
  | nil => simp only [drain, Option.some.injEq] at h; subst h; rfl
  | cons e l ih =>
    simp only [drain] at h
    split at h
    · cases h
    · exact ih h

/-- The invariant when a thread moves. -/
theorem Locks.move {s : Conc} (hl : Locks s) {i : Nat} {c : Call} {pc pc' : Pc}
    (hi : s.threads[i]? = some (c, pc)) {s' : Conc} (ht : s'.threads = s.threads.set i (c, pc'))
    (hr : s'.readers + pc.holds = s.readers + pc'.holds)
    (hq : s'.real.toNat + pc.drains = s.real.toNat + pc'.drains)
    (ho : pc'.owes + s.pool.co.length ≤ pc.owes + s'.pool.co.length) : Locks s' := by
  have a := total_set (f := Pc.holds) (pc' := pc') hi
  have b := total_set (f := Pc.drains) (pc' := pc') hi
  have e := total_set (f := Pc.owes) (pc' := pc') hi
  have e2 := total_ge (f := Pc.owes) hi
  have h1 := hl.readers
  have h2 := hl.real
  have h3 := hl.owes
  rw [← ht] at a b e
  exact ⟨by omega, by omega, by omega⟩

theorem Locks.step {s s' : Conc} {i : Nat} (hl : Locks s) (h : s.step i = .state s') : Locks s' := by
  unfold Conc.step at h
  split at h
  · cases h
  · rename_i c pc hi
    cases pc with
    | insert t lim d =>
      simp only [Conc.move] at h
      split at h <;> cases h
      · exact hl.move hi rfl (by simp [Conc.goto, Pc.holds]) (by simp [Conc.goto, Pc.drains]) (by simp [Conc.goto, Pc.owes])
      · exact hl.move hi rfl (by simp [Conc.goto, Pc.holds]) (by simp [Conc.goto, Pc.drains]) (by simp [Conc.goto, Pc.owes])
    | reserved t lim d =>
      simp only [Conc.move] at h
      cases h
      exact hl.move hi rfl (by simp [Conc.goto, Pc.holds]) (by simp [Conc.goto, Pc.drains]) (by simp [Conc.goto, Pc.owes])
    | checked t lim d =>
      simp only [Conc.move] at h
      split at h <;> cases h
      · exact hl.move hi rfl (by simp [Conc.goto, Pc.holds]) (by simp [Conc.goto, Pc.drains]) (by simp [Conc.goto, Pc.owes])
      · exact hl.move hi rfl (by simp [Conc.goto, Pc.holds]) (by simp [Conc.goto, Pc.drains]) (by simp [Conc.goto, Pc.owes])
    | enter t d =>
      simp only [Conc.move] at h
      split at h <;> cases h
      · exact hl.move hi rfl (by simp [Conc.goto, Pc.holds]) (by simp [Conc.goto, Pc.drains]) (by simp [Conc.goto, Pc.owes])
      · exact hl.move hi rfl (by simp [Conc.goto, Pc.holds]) (by simp [Conc.goto, Pc.drains]) (by simp [Conc.goto, Pc.owes])
    | push t d =>
      simp only [Conc.move] at h
      cases h
      refine hl.move hi rfl (by simp [Conc.goto, Pc.holds]) (by simp [Conc.goto, Pc.drains]) ?_
      simp only [Conc.goto, Pc.owes]
      split <;> simp
    | insertSys t =>
      simp only [Conc.move] at h
      cases h
      exact hl.move hi rfl (by simp [Conc.goto, Pc.holds]) (by simp [Conc.goto, Pc.drains]) (by simp [Conc.goto, Pc.owes])
    | bucket t =>
      simp only [Conc.move] at h
      cases h
      refine hl.move hi rfl ?_ ?_ ?_
      · simp only [Conc.goto]; split <;> simp [Pc.holds]
      · simp only [Conc.goto]; split <;> simp [Pc.drains]
      · simp only [Conc.goto]; split <;> simp [Pc.owes]
    | count =>
      simp only [Conc.move] at h
      cases h
      exact hl.move hi rfl (by simp [Conc.goto, Pc.holds]) (by simp [Conc.goto, Pc.drains]) (by simp [Conc.goto, Pc.owes])
    | package l st =>
      simp only [Conc.move] at h
      cases h
      exact hl.move hi rfl (by simp [Conc.goto, Pc.holds]) (by simp [Conc.goto, Pc.drains]) (by simp [Conc.goto, Pc.owes])
    | packSys l st =>
      simp only [Conc.move] at h
      split at h <;> cases h
      exact hl.move hi rfl (by simp [Conc.goto, Pc.holds]) (by simp [Conc.goto, Pc.drains]) (by simp [Conc.goto, Pc.owes])
    | packLook hs l st =>
      simp only [Conc.move] at h
      split at h <;> cases h
      · exact hl.move hi rfl (by simp [Conc.goto, Pc.holds]) (by simp [Conc.goto, Pc.drains]) (by simp [Conc.goto, Pc.owes])
      · exact hl.move hi rfl (by simp [Conc.goto, Pc.holds]) (by simp [Conc.goto, Pc.drains]) (by simp [Conc.goto, Pc.owes])
    | pick hs l st =>
      simp only [Conc.move] at h
      split at h <;> cases h
      exact hl.move hi rfl (by simp [Conc.goto, Pc.holds]) (by simp [Conc.goto, Pc.drains]) (by simp [Conc.goto, Pc.owes])
    | refresh =>
      simp only [Conc.move] at h
      split at h <;> cases h
      · exact hl.move hi rfl (by simp [Conc.goto, Pc.holds]) (by simp [Conc.goto, Pc.drains]) (by simp [Conc.goto, Pc.owes])
      · exact hl.move hi rfl (by simp [Conc.goto, Pc.holds]) (by simp [Conc.goto, Pc.drains]) (by simp [Conc.goto, Pc.owes])
    | refreshLock =>
      simp only [Conc.move] at h
      cases h
      exact hl.move hi rfl (by simp [Conc.goto, Pc.holds]) (by simp [Conc.goto, Pc.drains]) (by simp [Conc.goto, Pc.owes])
    | flush hs n =>
      simp only [Conc.move] at h
      split at h
      · cases h
      · rename_i hz
        have hz : s.readers = 0 := by omega
        split at h <;> cases h
        have a := total_set (f := Pc.holds) (pc' := .done .done) hi
        have b := total_set (f := Pc.drains) (pc' := .done .done) hi
        have e := total_set (f := Pc.owes) (pc' := .done .done) hi
        have h1 := hl.readers
        have h2 := hl.real
        have h4 := holds_of_drains (l := s.threads)
        have h5 := owes_le_drains (l := s.threads) (by omega)
        simp only [Pc.holds, Pc.drains, Pc.owes, Nat.add_zero] at a b e
        refine ⟨?_, ?_, ?_⟩
        · simp only [Conc.goto]; omega
        · simp only [Conc.goto]; omega
        · simp only [Conc.goto]; omega
    | wantReal a =>
      simp only [Conc.move] at h
      split at h
      · cases h
      · rename_i hf
        cases h
        have a' := total_set (f := Pc.holds) (pc' := .draining s.pool.co.length a) hi
        have b := total_set (f := Pc.drains) (pc' := .draining s.pool.co.length a) hi
        have e := total_set (f := Pc.owes) (pc' := .draining s.pool.co.length a) hi
        have h1 := hl.readers
        have h2 := hl.real
        have hf : s.real = false := by simpa using hf
        rw [hf, Bool.toNat_false] at h2
        have h5 := owes_le_drains h2
        simp only [Pc.holds, Pc.drains, Pc.owes, Nat.add_zero] at a' b e
        refine ⟨?_, ?_, ?_⟩
        · simp only [Conc.goto]; omega
        · simp only [Conc.goto, Bool.toNat_true]; omega
        · simp only [Conc.goto]; omega
    | draining k a =>
      cases k with
      | zero =>
        simp only [Conc.move] at h
        cases h
        have h2 := hl.real
        have hb := total_ge (f := Pc.drains) hi
        have : s.real = true := by
          cases hr : s.real with
          | true => rfl
          | false => rw [hr] at h2; simp [Pc.drains] at hb h2; omega
        refine hl.move hi rfl ?_ ?_ ?_
        · rw [After.holds]; simp [Conc.goto, Pc.holds]
        · rw [After.drains]; simp [Conc.goto, Pc.drains, this]
        · rw [After.owes]; simp [Conc.goto, Pc.owes]
      | succ k =>
        simp only [Conc.move] at h
        split at h
        · cases h
        · rename_i p d rest hco
          split at h
          · cases h
          · rename_i pool hp
            cases h
            have := popOne_co hp
            refine hl.move hi rfl (by simp [Conc.goto, Pc.holds]) (by simp [Conc.goto, Pc.drains]) ?_
            simp only [Conc.goto, Pc.owes, this, hco, List.length_cons]; omega
    | leave r =>
      simp only [Conc.move] at h
      cases h
      have h1 := hl.readers
      have hb := total_ge (f := Pc.holds) hi
      refine hl.move hi rfl ?_ (by simp [Conc.goto, Pc.drains]) (by simp [Conc.goto, Pc.owes])
      simp only [Pc.holds] at hb
      simp only [Conc.goto, Pc.holds]; omega
    | done r => simp only [Conc.move] at h; cases h

theorem Reach.locks {cap gap : Nat} {s : Conc} (h : Reach cap gap s) : Locks s := by
  induction h with
  | init => exact ⟨rfl, rfl, Nat.zero_le _⟩
  | spawn c _ ih =>
    refine ⟨?_, ?_, ?_⟩
    · simp only [Conc.spawn, total_append, Call.holds]; exact ih.readers
    · simp only [Conc.spawn, total_append, Call.drains]; exact ih.real
    · simp only [Conc.spawn, total_append, Call.owes]; exact ih.owes
  | step i _ h ih => exact ih.step h

/-! ## What emptying the queue depends on -/

/-- `popOne` as a function of wrappers and pending queues; the last component is what it adds to `real`. -/
def core (h : Heap) (pend : Nat → Option PQ) (p d : Nat) : Option (Heap × (Nat → Option PQ) × List Nat) :=
  let sender := (h.tx p).sender
  let q := (pend sender).getD PQ.empty
  if q.queue.length > 64 then some (h.setDrp p, upd pend sender (some q), [])
  else
    match q.insert h p d with
    | none => none
    | some (h1, q1, push) =>
      match q1.search h1 (if push then [p] else []) with
      | none => none
      | some (h2, q2, ext) => some (h2, upd pend sender (some q2), ext)

theorem searchLoop_append (l : List (Nat × Nat)) (c : Nat) (h : Heap) (a b : List Nat) :
    searchLoop l c h (a ++ b) = (searchLoop l c h b).map fun r => (r.1, a ++ r.2.1, r.2.2) := by
  induction l generalizing c h b with
  | nil => rfl
  | cons e l ih =>
    simp only [searchLoop]
    split
    · split
      · split
        · exact ih ..
        · rw [List.append_assoc]; exact ih ..
      · rfl
    · rfl

theorem search_append (q : PQ) (h : Heap) (a b : List Nat) :
    q.search h (a ++ b) = (q.search h b).map fun r => (r.1, r.2.1, a ++ r.2.2) := by
  unfold PQ.search
  rw [searchLoop_append]
  cases searchLoop (q.queue.filter (fun e => q.pop ≤ e.1)) q.pop h b <;> rfl

theorem popOne_core (s : Pool) (p d : Nat) :
    popOne s p d = (core s.heap s.pending p d).map fun r =>
      { s with heap := r.1, pending := r.2.1, real := s.real ++ r.2.2 } := by
  unfold popOne core
  dsimp only
  split
  · simp
  · cases PQ.insert ((s.pending (s.heap.tx p).sender).getD PQ.empty) s.heap p d with
    | none => rfl
    | some r =>
      obtain ⟨h1, q1, push⟩ := r
      have e : (if push then s.real ++ [p] else s.real) = s.real ++ (if push then [p] else []) := by
        cases push <;> simp
      simp only [e, search_append]
      cases q1.search h1 (if push then [p] else []) <;> rfl

/-- Emptying a list of queue elements. -/
def coreN : List (Nat × Nat) → Heap → (Nat → Option PQ) → Option (Heap × (Nat → Option PQ) × List Nat)
  | [], h, pend => some (h, pend, [])
  | (p, d) :: l, h, pend =>
    match core h pend p d with
    | none => none
    | some (h1, pend1, ext) => (coreN l h1 pend1).map fun r => (r.1, r.2.1, ext ++ r.2.2)

theorem drain_core (l : List (Nat × Nat)) (s : Pool) :
    drain l s = (coreN l s.heap s.pending).map fun r =>
      { s with heap := r.1, pending := r.2.1, real := s.real ++ r.2.2, co := [] } := by
  induction l generalizing s with
  | nil => simp [drain, coreN]
  | cons e l ih =>
    obtain ⟨p, d⟩ := e
    simp only [drain, coreN]
    rw [popOne_core]
    cases hc : core s.heap s.pending p d with
    | none => rfl
    | some r =>
      simp only [Option.map_some]
      rw [ih]
      cases coreN l r.1 r.2.1 with
      | none => rfl
      | some r' => simp [List.append_assoc]

theorem coreN_append (l m : List (Nat × Nat)) (h : Heap) (pend : Nat → Option PQ) :
    coreN (l ++ m) h pend = (coreN l h pend).bind fun r =>
      (coreN m r.1 r.2.1).map fun r' => (r'.1, r'.2.1, r.2.2 ++ r'.2.2) := by
  induction l generalizing h pend with
  | nil => simp [coreN]
  | cons e l ih =>
    obtain ⟨p, d⟩ := e
    simp only [List.cons_append, coreN]
    cases core h pend p d with
    | none => rfl
    | some r =>
      simp only [ih]
      cases coreN l r.1 r.2.1 with
      | none => rfl
      | some r' =>
        simp only [Option.bind_some, Option.map_some]
        cases coreN m r'.1 r'.2.1 with
        | none => rfl
        | some r'' => simp [List.append_assoc]

/-! ## A new wrapper -/

theorem alloc_setDrp {h : Heap} {n p : Nat} {t : PoolTx} (hp : p ≠ n) :
    (h.alloc n t).setDrp p = (h.setDrp p).alloc n t := by
  unfold Heap.alloc Heap.setDrp
  simp only [Heap.mk.injEq, true_and]
  funext i
  by_cases e : i = p
  · subst e; simp [hp]
  · simp [e]

theorem alloc_setPkg {h : Heap} {n p : Nat} {t : PoolTx} (hp : p ≠ n) :
    (h.alloc n t).setPkg p = (h.setPkg p).alloc n t := by
  unfold Heap.alloc Heap.setPkg
  simp only [Heap.mk.injEq, true_and]
  refine ⟨?_, trivial⟩
  funext i
  by_cases e : i = p
  · subst e; simp [hp]
  · simp [e]

theorem alloc_tx {h : Heap} {n p : Nat} {t : PoolTx} (hp : p ≠ n) : (h.alloc n t).tx p = h.tx p := by
  simp [Heap.alloc, hp]

theorem alloc_pkg {h : Heap} {n p : Nat} {t : PoolTx} (hp : p ≠ n) : (h.alloc n t).pkg p = h.pkg p := by
  simp [Heap.alloc, hp]

theorem searchLoop_alloc {n : Nat} {t : PoolTx} (l : List (Nat × Nat)) (c : Nat) (h : Heap) (real : List Nat)
    (hl : ∀ e ∈ l, e.2 ≠ n) :
    searchLoop l c (h.alloc n t) real = (searchLoop l c h real).map fun r => (r.1.alloc n t, r.2.1, r.2.2) := by
  induction l generalizing c h real with
  | nil => rfl
  | cons e l ih =>
    obtain ⟨k, v⟩ := e
    have hv : v ≠ n := hl (k, v) (by simp)
    have ih := fun c h real => ih c h real (fun e he => hl e (by simp [he]))
    simp only [searchLoop, alloc_pkg hv, alloc_setPkg hv]
    split
    · split
      · split
        · exact ih ..
        · exact ih ..
      · rfl
    · rfl

theorem search_alloc {n : Nat} {t : PoolTx} (q : PQ) (h : Heap) (real : List Nat)
    (hl : ∀ e ∈ q.queue, e.2 ≠ n) :
    q.search (h.alloc n t) real = (q.search h real).map fun r => (r.1.alloc n t, r.2.1, r.2.2) := by
  unfold PQ.search
  rw [searchLoop_alloc _ _ _ _ (fun e he => hl e (List.mem_filter.1 he).1)]
  cases searchLoop (q.queue.filter (fun e => q.pop ≤ e.1)) q.pop h real <;> rfl

theorem sput_mem {α : Type} {k : Nat} {v : α} {m : List (Nat × α)} {e : Nat × α} (h : e ∈ sput k v m) :
    e = (k, v) ∨ e ∈ m := by
  induction m with
  | nil => simp only [sput, List.mem_singleton] at h; exact .inl h
  | cons x m ih =>
    unfold sput at h
    split at h
    · rcases List.mem_cons.1 h with h | h
      · exact .inl h
      · exact .inr h
    · split at h
      · rcases List.mem_cons.1 h with h | h
        · exact .inl h
        · exact .inr (by simp [h])
      · rcases List.mem_cons.1 h with h | h
        · exact .inr (by simp [h])
        · rcases ih h with h | h
          · exact .inl h
          · exact .inr (by simp [h])

theorem insert_alloc {n : Nat} {t : PoolTx} (q : PQ) (h : Heap) (p d : Nat) (hp : p ≠ n)
    (hl : ∀ e ∈ q.queue, e.2 ≠ n) :
    q.insert (h.alloc n t) p d = (q.insert h p d).map fun r => (r.1.alloc n t, r.2.1, r.2.2) := by
  unfold PQ.insert
  simp only [alloc_tx hp]
  split
  · rfl
  · split
    · simp [alloc_setDrp hp]
    · unfold PQ.place
      simp only [alloc_tx hp, PQ.raise_queue]
      cases hg : get q.queue (h.tx p).nonce with
      | none => simp
      | some old =>
        have ho : old ≠ n := hl (_, old) (mem_of_get hg)
        simp only [alloc_tx ho, alloc_pkg ho]
        split
        · split
          · simp [alloc_setDrp ho, alloc_setPkg hp]
          · simp [alloc_setDrp ho]
        · simp [alloc_setDrp hp]

theorem insert_queue {q : PQ} {h : Heap} {p d : Nat} {r} (hr : q.insert h p d = some r) :
    ∀ e ∈ r.2.1.queue, e.2 = p ∨ e ∈ q.queue := by
  intro e he
  unfold PQ.insert at hr
  dsimp only at hr
  split at hr
  · cases hr
  · split at hr
    · simp only [Option.some.injEq] at hr; subst hr; exact .inr he
    · simp only [Option.some.injEq] at hr; subst hr
      have key : ∀ e, e ∈ sput (h.tx p).nonce p q.queue → e.2 = p ∨ e ∈ q.queue := by
        intro e he
        rcases sput_mem he with h | h
        · exact .inl (by rw [h])
        · exact .inr h
      unfold PQ.place at he
      dsimp only at he
      split at he
      · split at he
        · split at he
          · simp only [PQ.raise_queue] at he; exact key _ he
          · simp only [PQ.raise_queue] at he; exact key _ he
        · simp only [PQ.raise_queue] at he; exact .inr he
      · simp only [PQ.raise_queue] at he; exact key _ he

theorem search_queue {q : PQ} {h : Heap} {real : List Nat} {r} (hr : q.search h real = some r) :
    r.2.1.queue = q.queue := by
  unfold PQ.search at hr
  simp only [Option.map_eq_some_iff] at hr
  obtain ⟨x, -, rfl⟩ := hr
  rfl

/-- The pending queues do not mention this address. -/
def Free (n : Nat) (pend : Nat → Option PQ) : Prop := ∀ k q, pend k = some q → ∀ e ∈ q.queue, e.2 ≠ n

theorem Free.default {n : Nat} {pend : Nat → Option PQ} (h : Free n pend) (k : Nat) :
    ∀ e ∈ ((pend k).getD PQ.empty).queue, e.2 ≠ n := by
  cases hk : pend k with
  | none => simp [PQ.empty]
  | some q => exact h k q hk

theorem Free.upd {n : Nat} {pend : Nat → Option PQ} (h : Free n pend) {k : Nat} {q : PQ}
    (hq : ∀ e ∈ q.queue, e.2 ≠ n) : Free n (upd pend k (some q)) := by
  intro k' q' hk e he
  by_cases e1 : k' = k
  · subst e1; rw [upd_same] at hk; cases hk; exact hq e he
  · rw [upd_ne _ _ e1] at hk; exact h k' q' hk e he

theorem core_free {n : Nat} {h : Heap} {pend : Nat → Option PQ} {p d : Nat} (hf : Free n pend) (hp : p ≠ n)
    {r} (hr : core h pend p d = some r) : Free n r.2.1 := by
  unfold core at hr
  dsimp only at hr
  have hq := hf.default (h.tx p).sender
  split at hr
  · simp only [Option.some.injEq] at hr; subst hr
    exact hf.upd hq
  · split at hr
    · cases hr
    · rename_i hins
      split at hr
      · cases hr
      · rename_i hse
        simp only [Option.some.injEq] at hr; subst hr
        refine hf.upd ?_
        intro e he
        have e1 := search_queue hse
        rw [e1] at he
        rcases insert_queue hins e he with h | h
        · rw [h]; exact hp
        · exact hq e h

theorem core_alloc {n : Nat} {t : PoolTx} {h : Heap} {pend : Nat → Option PQ} {p d : Nat} (hf : Free n pend)
    (hp : p ≠ n) :
    core (h.alloc n t) pend p d = (core h pend p d).map fun r => (r.1.alloc n t, r.2.1, r.2.2) := by
  unfold core
  simp only [alloc_tx hp]
  have hq := hf.default (h.tx p).sender
  split
  · simp [alloc_setDrp hp]
  · rw [insert_alloc _ _ _ _ hp hq]
    cases hins : PQ.insert ((pend (h.tx p).sender).getD PQ.empty) h p d with
    | none => rfl
    | some r =>
      obtain ⟨h1, q1, push⟩ := r
      simp only [Option.map_some]
      have hq1 : ∀ e ∈ q1.queue, e.2 ≠ n := by
        intro e he
        rcases insert_queue hins e he with h | h
        · rw [h]; exact hp
        · exact hq e h
      rw [search_alloc _ _ _ hq1]
      cases q1.search h1 (if push then [p] else []) with
      | none => rfl
      | some r => rfl

theorem coreN_alloc {n : Nat} {t : PoolTx} (l : List (Nat × Nat)) (hl : ∀ e ∈ l, e.1 ≠ n) {h : Heap}
    {pend : Nat → Option PQ} (hf : Free n pend) :
    coreN l (h.alloc n t) pend = (coreN l h pend).map fun r => (r.1.alloc n t, r.2.1, r.2.2) := by
  induction l generalizing h pend with
  | nil => rfl
  | cons e l ih =>
    obtain ⟨p, d⟩ := e
    have hp : p ≠ n := hl (p, d) (by simp)
    simp only [coreN]
    rw [core_alloc hf hp]
    cases hc : core h pend p d with
    | none => rfl
    | some r =>
      simp only [Option.map_some]
      rw [ih (fun e he => hl e (by simp [he])) (core_free hf hp hc)]
      cases coreN l r.1 r.2.1 <;> rfl

theorem Inv.free {s : Pool} (hi : Inv s) : Free s.next s.pending := by
  intro k q hk e he
  have := hi.mapLt e.2 (hi.pend k e.1 e.2 ⟨q, hk, he⟩).2.2.2
  omega

theorem Inv.coFree {s : Pool} (hi : Inv s) : ∀ e ∈ s.co, e.1 ≠ s.next := by
  intro e he
  have := hi.mapLt e.1 (hi.coOk e.1 (List.mem_map_of_mem he)).1
  omega

/-! ## What a flush depends on -/

/-- `flush` without the counter: the pool, and by how much to lower the counter. -/
def flushCore (s : Pool) (hashes : List Nat) (number : Nat) : Option (Pool × Nat) :=
  match flushToPending s with
  | none => none
  | some s1 =>
    match flushInner s1 hashes number with
    | none => none
    | some (s2, n) => some ({ s2 with sys := (s2.sys.flush hashes).1 }, n + (s2.sys.flush hashes).2)

theorem flush_core (s : Pool) (hashes : List Nat) (number : Nat) :
    flush s hashes number = (flushCore s hashes number).map fun r => { r.1 with stock := s.stock - r.2 } := by
  unfold flush flushCore
  rw [flushToPending, drain_core]
  cases coreN s.co s.heap s.pending with
  | none => rfl
  | some r =>
    simp only [Option.map_some]
    unfold flushInner
    dsimp only
    split
    · rename_i h; revert h; split <;> simp
    · rename_i s2 n h
      revert h
      split
      · simp
      · simp only [Option.some.injEq, Prod.mk.injEq, and_imp]
        intro h1 h2
        subst h1 h2
        rfl

theorem flushCore_like (s : Pool) (hashes : List Nat) (number k : Nat) (l : List Nat) (hp : l.Perm s.real) :
    (flushCore s hashes number = none ∧ flushCore { s with stock := k, real := l } hashes number = none) ∨
    ∃ p m l', flushCore s hashes number = some (p, m) ∧ l'.Perm p.real ∧
      flushCore { s with stock := k, real := l } hashes number = some ({ p with stock := k, real := l' }, m) := by
  unfold flushCore
  simp only [flushToPending, drain_core]
  cases hc : coreN s.co s.heap s.pending with
  | none => exact .inl ⟨rfl, rfl⟩
  | some r =>
    simp only [Option.map_some]
    unfold flushInner
    dsimp only [expiring]
    cases hd : dropTips (commitLoop r.1 hashes s.txMap [] 0).2.1 r.1 r.2.1 with
    | none => left; simp [hd]
    | some x =>
      right
      simp only [hd]
      exact ⟨_, _, _, rfl, (hp.append_right _).filter _, rfl⟩

end Axon.Pool
