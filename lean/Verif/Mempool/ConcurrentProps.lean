import Verif.Mempool.ConcurrentSim
import Verif.Mempool.PoolProps

/-!
# C122: concurrent calls of the pool act as if made one after another
-/

namespace Axon.Pool
open Axon.Assoc

/-! ## Specification -/

/-- Reading a pool: whether and which transaction it holds, and what it knows of a sender. -/
structure Alike (p q : Pool) : Prop where
  contains : ∀ h, Pool.contains p h = Pool.contains q h
  get : ∀ h, Pool.getByHash p h = Pool.getByHash q h
  count : ∀ a, Pool.txCount p a = Pool.txCount q a
  pending : p.pending = q.pending
  waiting : p.co = q.co
  system : p.sys = q.sys
  packageable : p.real.Perm q.real
  timeouts : p.timeouts = q.timeouts

/-- What a call that is at this point has done to the pool, apart from sorting in waiting transactions: an
insertion took effect when it was answered as new, one of a system call when its bucket was changed, a flush
when it ended; a package and the background task have no effect. -/
def effect : Call → Pc → List Op
  | .insert t _ d, .leave .inserted => [Op.insert t false d]
  | .insert t _ d, .done .inserted => [Op.insert t false d]
  | .insertSys t, .count => [Op.insertSys t]
  | .insertSys t, .leave _ => [Op.insertSys t]
  | .insertSys t, .done _ => [Op.insertSys t]
  | .flush hs n, .done _ => [Op.flush hs n]
  | _, _ => []

def Op.isRefresh : Op → Bool
  | .refresh => true
  | _ => false

/-- What the log says of thread `i`. -/
def effects (log : List (Nat × Op)) (i : Nat) : List Op :=
  (log.filter fun e => e.1 == i && !e.2.isRefresh).map (·.2)

/-- Every insertion of the calls is a limited one. -/
def AllLimited (l : List (Call × Pc)) : Prop :=
  ∀ t lim d pc, (Call.insert t lim d, pc) ∈ l → lim = true

def Pc.isDone : Pc → Bool
  | .done _ => true
  | _ => false

/-! ## No panic of the queue, no deadlock -/

/-- However the calls interleave, the loop that empties `co_queue` never pops an empty queue: `pop_all_item` reads
the length once, and the lock of `real_queue` keeps every other consumer away. -/
theorem C122_no_empty_pop {cap gap : Nat} {s : Conc} (h : Reach cap gap s) (i : Nat) : s.step i ≠ .popPanic := by
  intro hp
  have hl := h.locks
  unfold Conc.step at hp
  split at hp
  · cases hp
  · rename_i c pc hi
    have ho := total_ge (f := Pc.owes) hi
    have := hl.owes
    unfold Conc.move at hp
    split at hp <;> try (split at hp <;> try split at hp) <;> cases hp
    all_goals first
      | cases hp
      | (rename_i hco
         simp only [Pc.owes, hco, List.length_nil] at ho this
         omega)

theorem total_pos {f : Pc → Nat} {l : List (Call × Pc)} (h : 0 < total f l) :
    ∃ (i : Nat) (c : Call) (pc : Pc), l[i]? = some (c, pc) ∧ 0 < f pc := by
  induction l with
  | nil => simp [total] at h
  | cons x l ih =>
    by_cases hx : 0 < f x.2
    · exact ⟨0, x.1, x.2, rfl, hx⟩
    · have : 0 < total f l := by
        simp only [total, List.map_cons, List.sum_cons] at h ⊢; omega
      obtain ⟨i, c, pc, h1, h2⟩ := ih this
      exact ⟨i + 1, c, pc, by simpa using h1, h2⟩

/-- No deadlock: as long as some call has not returned, some thread can move. -/
theorem C122_progress {cap gap : Nat} {s : Conc} (h : Reach cap gap s) {i : Nat} {c : Call} {pc : Pc}
    (hi : s.threads[i]? = some (c, pc)) (hd : pc.isDone = false) : ∃ j, s.step j ≠ .blocked := by
  have hl := h.locks
  cases hr : s.real with
  | true =>
    have h1 := hl.real
    rw [hr] at h1
    obtain ⟨j, c', pc', hj, hp⟩ := total_pos (f := Pc.drains) (l := s.threads) (by rw [h1]; decide)
    refine ⟨j, ?_⟩
    unfold Conc.step
    rw [hj]
    cases pc' <;> try (simp [Pc.drains] at hp; done)
    rename_i k a
    cases k with
    | zero => simp [Conc.move]
    | succ k =>
      simp only [Conc.move]
      split
      · simp
      · split <;> simp
  | false =>
    by_cases hz : s.readers = 0
    · refine ⟨i, ?_⟩
      unfold Conc.step
      rw [hi]
      cases pc with
      | done r => cases hd
      | draining k a =>
        have h1 := hl.real
        have h2 := total_ge (f := Pc.drains) hi
        rw [hr] at h1
        simp only [Pc.drains, Bool.toNat_false] at h1 h2
        omega
      | _ =>
        simp only [Conc.move, hr, hz, ne_eq, not_true_eq_false, Bool.false_eq_true, if_false]
        first
          | (split <;> simp; done)
          | simp
    · have h1 := hl.readers
      obtain ⟨j, c', pc', hj, hp⟩ := total_pos (f := Pc.holds) (l := s.threads) (by omega)
      refine ⟨j, ?_⟩
      unfold Conc.step
      rw [hj]
      cases pc' with
      | draining k a =>
        have h1 := hl.real
        have h2 := total_ge (f := Pc.drains) hj
        rw [hr] at h1
        simp only [Pc.drains, Bool.toNat_false] at h1 h2
        omega
      | done r => cases hp
      | flush hs n => cases hp
      | _ =>
        simp only [Conc.move, hr, Bool.false_eq_true, if_false]
        first
          | (split <;> simp; done)
          | simp

/-! ## The order -/

theorem alike_of_ahead {p q : Pool} (heq : q = { p with real := q.real, stock := q.stock })
    (hr : q.real.Perm p.real) : Alike p q := by
  generalize q.real = r at *
  generalize q.stock = n at *
  subst heq
  exact ⟨fun _ => rfl, fun _ => rfl, fun _ => rfl, rfl, rfl, rfl, hr.symm, rfl⟩

/-- Whenever nobody is emptying `co_queue` and no push was lost: the pool is, up to the order of the packageable
transactions, what the calls of the log, made one after another in this order, lead to; the counter is ahead by
the insertions that raised it and have not finished, and behind by the system calls that have not raised it. -/
theorem C122_order_partial {cap gap : Nat} (hc : 0 < cap) {s : Conc} (h : Reach cap gap s) (h0 : s.lost = false)
    (hr : s.real = false) :
    ∃ q, run (init cap gap) (s.log.map (·.2)) = some q ∧ Alike s.pool q ∧
      s.pool.stock + total Pc.counts s.threads = q.stock + total Pc.reserves s.threads := by
  have hl := h.locks
  have h1 := hl.real
  rw [hr, Bool.toNat_false] at h1
  have h5 := owes_le_drains h1
  have := h.lin hc h0
  unfold Lin at this
  rw [h5] at this
  rcases this with ⟨n1, -⟩ | ⟨q, r, n1, ⟨hcore, heq, hreal⟩, h3⟩
  · simp [coreN] at n1
  · simp only [List.take_zero, coreN, Option.some.injEq] at hcore
    subst hcore
    simp only [List.drop_zero, List.append_nil] at heq hreal
    exact ⟨q, n1, alike_of_ahead heq hreal, h3⟩

theorem done_zero {f : Pc → Nat} (hf : ∀ r, f (.done r) = 0) {l : List (Call × Pc)}
    (h : ∀ e ∈ l, e.2.isDone = true) : total f l = 0 := by
  induction l with
  | nil => rfl
  | cons x l ih =>
    have hx := h x (by simp)
    simp only [total, List.map_cons, List.sum_cons] at ih ⊢
    rw [ih fun e he => h e (by simp [he])]
    obtain ⟨c, pc⟩ := x
    cases pc <;> first | (cases hx; done) | simp [hf]

/-- Once every call has returned, the counter agrees too. -/
theorem C122_settled_partial {cap gap : Nat} (hc : 0 < cap) {s : Conc} (h : Reach cap gap s) (h0 : s.lost = false)
    (hd : ∀ e ∈ s.threads, e.2.isDone = true) :
    ∃ q, run (init cap gap) (s.log.map (·.2)) = some q ∧ Alike s.pool q ∧ s.pool.stock = q.stock := by
  have hr : s.real = false := by
    have := h.locks.real
    rw [done_zero (fun _ => rfl) hd] at this
    cases hs : s.real with
    | false => rfl
    | true => rw [hs] at this; cases this
  obtain ⟨q, a, b, e⟩ := C122_order_partial hc h h0 hr
  rw [done_zero (fun _ => rfl) hd, done_zero (fun _ => rfl) hd] at e
  exact ⟨q, a, b, e⟩

/-- Even while somebody is emptying `co_queue`: the pool holds what the calls of the log lead to.  (If these calls
panic when made one after another, then on elements of the queue that are still to be sorted in.) -/
theorem C122_reads_partial {cap gap : Nat} (hc : 0 < cap) {s : Conc} (h : Reach cap gap s) (h0 : s.lost = false)
    {q : Pool} (hq : run (init cap gap) (s.log.map (·.2)) = some q) (hash : Nat) :
    Pool.contains s.pool hash = Pool.contains q hash ∧ Pool.getByHash s.pool hash = Pool.getByHash q hash := by
  rcases h.lin hc h0 with ⟨-, n1⟩ | ⟨q', r, n1, ⟨hcore, heq, hreal⟩, h3⟩
  · rw [hq] at n1; cases n1
  · rw [hq] at n1
    cases n1
    have hm : q.txMap = s.pool.txMap := by rw [heq]
    have hy : q.sys = s.pool.sys := by rw [heq]
    have ht : q.heap.tx = s.pool.heap.tx := by rw [heq]; exact coreN_tx hcore
    have hfi := find_congr hm ht hash
    unfold Pool.contains Pool.getByHash
    rw [hfi, hy, ht]
    exact ⟨rfl, rfl⟩

/-- A run of the log that panics is one that will panic: while it has not, somebody is emptying `co_queue`. -/
theorem C122_panics_partial {cap gap : Nat} (hc : 0 < cap) {s : Conc} (h : Reach cap gap s) (h0 : s.lost = false)
    (hq : run (init cap gap) (s.log.map (·.2)) = none) :
    ∃ (i : Nat) (c : Call) (k : Nat) (a : After), s.threads[i]? = some (c, Pc.draining (k + 1) a) := by
  rcases h.lin hc h0 with ⟨n1, -⟩ | ⟨q', r, n1, -⟩
  · have hpos : 0 < total Pc.owes s.threads := by
      apply Nat.pos_of_ne_zero
      intro hz
      rw [hz] at n1
      simp [coreN] at n1
    obtain ⟨i, c, pc, h1, h2⟩ := total_pos hpos
    cases pc <;> try (simp [Pc.owes] at h2; done)
    rename_i k a
    cases k with
    | zero => simp [Pc.owes] at h2
    | succ k => exact ⟨i, c, k, a, h1⟩
  · rw [hq] at n1; cases n1

/-! ## The log is made of the calls -/

def After.fits : After → Call → Prop
  | .enter t d, .insert t' _ d' => t = t' ∧ d = d'
  | .pick .., .package .. => True
  | .leave, .refresh => True
  | _, _ => False

/-- Which positions belong to a call. -/
def Pc.fits : Pc → Call → Prop
  | .insert t lim d, c | .reserved t lim d, c | .checked t lim d, c => c = .insert t lim d
  | .enter t d, c | .push t d, c => ∃ lim, c = .insert t lim d
  | .insertSys t, c | .bucket t, c => c = .insertSys t
  | .count, c => ∃ t, c = .insertSys t
  | .package l st, c | .packSys l st, c | .packLook _ l st, c | .pick _ l st, c => c = .package l st
  | .refresh, c | .refreshLock, c => c = .refresh
  | .flush hs n, c => c = .flush hs n
  | .wantReal a, c | .draining _ a, c =>
    match a with
    | .enter t d => ∃ lim, c = .insert t lim d
    | .pick _ l st => c = .package l st
    | .leave => c = .refresh
  | .leave r, c =>
    match c with
    | .insert .. => r = .inserted ∨ r = .duplicate
    | .insertSys .. => r = .done
    | .package .. => ∃ p, r = .packed p
    | .refresh => r = .done
    | .flush .. => False
  | .done r, c =>
    match c with
    | .insert .. => r = .inserted ∨ r = .duplicate ∨ ∃ n, r = .refused n
    | .insertSys .. => r = .done
    | .package .. => ∃ p, r = .packed p
    | .refresh => r = .done
    | .flush .. => r = .done

structure Logged (s : Conc) : Prop where
  fits : ∀ (i : Nat) c pc, s.threads[i]? = some (c, pc) → pc.fits c
  own : ∀ (i : Nat) c pc, s.threads[i]? = some (c, pc) → effects s.log i = effect c pc
  none : ∀ (i : Nat), s.threads.length ≤ i → effects s.log i = []

theorem effects_snoc (log : List (Nat × Op)) (i j : Nat) (op : Op) :
    effects (log ++ [(j, op)]) i = effects log i ++ if j = i ∧ op.isRefresh = false then [op] else [] := by
  unfold effects
  rw [List.filter_append, List.map_append]
  congr 1
  by_cases h : j = i
  · subst h
    cases hr : op.isRefresh <;> simp [hr]
  · simp [h]

theorem Logged.move {s : Conc} (hl : Logged s) {i : Nat} {c : Call} {pc pc' : Pc}
    (hi : s.threads[i]? = some (c, pc)) {s' : Conc} (ht : s'.threads = s.threads.set i (c, pc'))
    (add : List Op) (hg : ∀ j, effects s'.log j = effects s.log j ++ if i = j then add else [])
    (hf : pc'.fits c) (he : effect c pc' = effect c pc ++ add) : Logged s' := by
  have hlt : i < s.threads.length := (List.getElem?_eq_some_iff.1 hi).1
  refine ⟨?_, ?_, ?_⟩
  · intro j c' pc'' h
    rw [ht] at h
    rcases getElem?_set_cases h with ⟨-, e⟩ | ⟨-, e⟩
    · cases e; exact hf
    · exact hl.fits j _ _ e
  · intro j c' pc'' h
    rw [ht] at h
    rw [hg]
    rcases getElem?_set_cases h with ⟨ej, e⟩ | ⟨ej, e⟩
    · cases e; subst ej
      rw [if_pos rfl, hl.own i c pc hi, he]
    · rw [if_neg ej, hl.own j _ _ e, List.append_nil]
  · intro j hj
    rw [ht, List.length_set] at hj
    rw [hg, if_neg (by omega), hl.none j hj]; rfl

theorem Logged.step {s s' : Conc} {i : Nat} (hl : Logged s) (h : s.step i = .state s') : Logged s' := by
  unfold Conc.step at h
  split at h
  · cases h
  · rename_i c pc hi
    have hf := hl.fits i c pc hi
    have same : ∀ {log : List (Nat × Op)} (j : Nat), effects log j = effects log j ++ if i = j then [] else [] := by
      intro log j; simp
    cases pc with
    | insert t lim d =>
      simp only [Pc.fits] at hf; subst hf
      simp only [Conc.move] at h
      split at h <;> cases h
      · exact hl.move hi rfl [] same (.inr (.inr ⟨_, rfl⟩)) rfl
      · exact hl.move hi rfl [] same rfl rfl
    | reserved t lim d =>
      simp only [Pc.fits] at hf; subst hf
      simp only [Conc.move] at h
      cases h
      exact hl.move hi rfl [] same rfl rfl
    | checked t lim d =>
      simp only [Pc.fits] at hf; subst hf
      simp only [Conc.move] at h
      split at h <;> cases h
      · exact hl.move hi rfl [] same ⟨_, rfl⟩ rfl
      · exact hl.move hi rfl [] same ⟨_, rfl⟩ rfl
    | enter t d =>
      simp only [Pc.fits] at hf; obtain ⟨lim, rfl⟩ := hf
      simp only [Conc.move] at h
      split at h <;> cases h
      · exact hl.move hi rfl [] same (.inr rfl) rfl
      · exact hl.move hi rfl [] same ⟨_, rfl⟩ rfl
    | push t d =>
      simp only [Pc.fits] at hf; obtain ⟨lim, rfl⟩ := hf
      simp only [Conc.move] at h
      cases h
      refine hl.move hi rfl [Op.insert t false d] (fun j => ?_) (.inl rfl) rfl
      simp only [Conc.goto, effects_snoc, Op.isRefresh, and_true]
    | insertSys t =>
      simp only [Pc.fits] at hf; subst hf
      simp only [Conc.move] at h
      cases h
      exact hl.move hi rfl [] same rfl rfl
    | bucket t =>
      simp only [Pc.fits] at hf; subst hf
      simp only [Conc.move] at h
      cases h
      refine hl.move hi rfl [Op.insertSys t] (fun j => ?_) ?_ ?_
      · simp only [Conc.goto, effects_snoc, Op.isRefresh, and_true]
      · split
        · exact ⟨_, rfl⟩
        · rfl
      · split <;> rfl
    | count =>
      simp only [Pc.fits] at hf; obtain ⟨t, rfl⟩ := hf
      simp only [Conc.move] at h
      cases h
      exact hl.move hi rfl [] same rfl rfl
    | package l st =>
      simp only [Pc.fits] at hf; subst hf
      simp only [Conc.move] at h
      cases h
      exact hl.move hi rfl [] same rfl rfl
    | packSys l st =>
      simp only [Pc.fits] at hf; subst hf
      simp only [Conc.move] at h
      split at h <;> cases h
      exact hl.move hi rfl [] same rfl rfl
    | packLook hs l st =>
      simp only [Pc.fits] at hf; subst hf
      simp only [Conc.move] at h
      split at h <;> cases h
      · exact hl.move hi rfl [] same rfl rfl
      · exact hl.move hi rfl [] same rfl rfl
    | pick hs l st =>
      simp only [Pc.fits] at hf; subst hf
      simp only [Conc.move] at h
      split at h <;> cases h
      exact hl.move hi rfl [] same ⟨_, rfl⟩ rfl
    | refresh =>
      simp only [Pc.fits] at hf; subst hf
      simp only [Conc.move] at h
      split at h <;> cases h
      · exact hl.move hi rfl [] same rfl rfl
      · exact hl.move hi rfl [] same rfl rfl
    | refreshLock =>
      simp only [Pc.fits] at hf; subst hf
      simp only [Conc.move] at h
      cases h
      exact hl.move hi rfl [] same rfl rfl
    | flush hs n =>
      simp only [Pc.fits] at hf; subst hf
      simp only [Conc.move] at h
      split at h
      · cases h
      · split at h <;> cases h
        refine hl.move hi rfl [Op.flush hs n] (fun j => ?_) rfl rfl
        simp only [Conc.goto, effects_snoc, Op.isRefresh, and_true]
    | wantReal a =>
      simp only [Conc.move] at h
      split at h
      · cases h
      · cases h
        refine hl.move hi rfl [] (fun j => ?_) hf ?_
        · simp only [Conc.goto, effects_snoc, Op.isRefresh]; simp
        · cases c <;> rfl
    | draining k a =>
      cases k with
      | zero =>
        simp only [Conc.move] at h
        cases h
        cases a with
        | enter t d =>
          simp only [Pc.fits] at hf; obtain ⟨lim, rfl⟩ := hf
          exact hl.move hi rfl [] same ⟨_, rfl⟩ rfl
        | pick hs l st =>
          simp only [Pc.fits] at hf; subst hf
          exact hl.move hi rfl [] same rfl rfl
        | leave =>
          simp only [Pc.fits] at hf; subst hf
          exact hl.move hi rfl [] same rfl rfl
      | succ k =>
        simp only [Conc.move] at h
        split at h
        · cases h
        · split at h
          · cases h
          · cases h
            refine hl.move hi rfl [] same hf ?_
            cases c <;> rfl
    | leave r =>
      simp only [Conc.move] at h
      cases h
      cases c with
      | insert t lim d =>
        rcases hf with rfl | rfl
        · exact hl.move hi rfl [] same (.inl rfl) rfl
        · exact hl.move hi rfl [] same (.inr (.inl rfl)) rfl
      | insertSys t => exact hl.move hi rfl [] same hf rfl
      | package l st => exact hl.move hi rfl [] same hf rfl
      | refresh => exact hl.move hi rfl [] same hf rfl
      | flush hs n => exact hf.elim
    | done r => simp only [Conc.move] at h; cases h

theorem Call.pc_fits (c : Call) : c.pc.fits c := by cases c <;> rfl

theorem Call.pc_effect (c : Call) : effect c c.pc = [] := by cases c <;> rfl

theorem Reach.logged {cap gap : Nat} {s : Conc} (h : Reach cap gap s) : Logged s := by
  induction h with
  | init => exact ⟨by simp [Conc.init], by simp [Conc.init], by simp [Conc.init, effects]⟩
  | @spawn s c _ ih =>
    refine ⟨?_, ?_, ?_⟩
    · intro i c' pc h
      have h : (s.threads ++ [(c, c.pc)])[i]? = some (c', pc) := h
      rw [List.getElem?_append] at h
      split at h
      · exact ih.fits i c' pc h
      · have := List.mem_of_getElem? h
        simp only [List.mem_singleton, Prod.mk.injEq] at this
        obtain ⟨rfl, rfl⟩ := this
        exact c'.pc_fits
    · intro i c' pc h
      have h : (s.threads ++ [(c, c.pc)])[i]? = some (c', pc) := h
      rw [List.getElem?_append] at h
      split at h
      · exact ih.own i c' pc h
      · rename_i hlt
        have := List.mem_of_getElem? h
        simp only [List.mem_singleton, Prod.mk.injEq] at this
        obtain ⟨rfl, rfl⟩ := this
        rw [c'.pc_effect]
        exact ih.none i (by omega)
    · intro i hi
      have hi : (s.threads ++ [(c, c.pc)]).length ≤ i := hi
      rw [List.length_append] at hi
      exact ih.none i (by omega)
  | step i _ h ih => exact ih.step h

/-- The order consists of the calls: apart from sorting in waiting transactions, the log has of every call exactly
what it has done so far, each once, entered between its begin and its return, and nothing else. -/
theorem C122_effects {cap gap : Nat} {s : Conc} (h : Reach cap gap s) :
    (∀ (i : Nat) c pc, s.threads[i]? = some (c, pc) → effects s.log i = effect c pc) ∧
    (∀ (i : Nat), s.threads.length ≤ i → effects s.log i = []) := ⟨h.logged.own, h.logged.none⟩

/-- What a call returns. -/
theorem C122_answers {cap gap : Nat} {s : Conc} (h : Reach cap gap s) {i : Nat} {c : Call} {r : Answer}
    (hi : s.threads[i]? = some (c, Pc.done r)) :
    match c with
    | .insert .. => r = .inserted ∨ r = .duplicate ∨ ∃ n, r = .refused n
    | .package .. => ∃ p, r = .packed p
    | _ => r = .done := by
  have := h.logged.fits i c _ hi
  cases c <;> exact this

/-! ## Limited insertions -/

theorem move_calls {s s' : Conc} {i : Nat} (h : s.step i = .state s') :
    s'.threads.map (·.1) = s.threads.map (·.1) := by
  unfold Conc.step at h
  split at h
  · cases h
  · rename_i c pc hi
    have key : ∀ pc' : Pc, (s.threads.set i (c, pc')).map (·.1) = s.threads.map (·.1) := by
      intro pc'
      rw [List.map_set]
      apply List.ext_getElem?
      intro j
      rw [List.getElem?_set]
      split
      · rename_i e
        subst e
        have hlt : i < s.threads.length := (List.getElem?_eq_some_iff.1 hi).1
        have he := (List.getElem?_eq_some_iff.1 hi).2
        simp [hlt, he]
      · rfl
    unfold Conc.move at h
    split at h <;> (try split at h) <;> (try split at h) <;> cases h <;> exact key _

theorem allLimited_step {s s' : Conc} {i : Nat} (h : s.step i = .state s') (hl : AllLimited s'.threads) :
    AllLimited s.threads := by
  intro t lim d pc hm
  have h1 : Call.insert t lim d ∈ s.threads.map (·.1) := List.mem_map_of_mem hm
  rw [← move_calls h, List.mem_map] at h1
  obtain ⟨⟨c, pc'⟩, h2, h3⟩ := h1
  subst h3
  exact hl t lim d pc' h2

theorem limited_room {cap gap : Nat} (hc : 0 < cap) {s : Conc} (h : Reach cap gap s) :
    AllLimited s.threads → s.lost = false ∧ s.pool.cap = cap ∧
      s.pool.txMap.length + total Pc.reserves s.threads ≤ cap := by
  induction h with
  | init => intro _; simp [Conc.init, Pool.init, total]
  | @spawn s c _ ih =>
    intro hl
    have := ih fun t lim d pc hm => hl t lim d pc (List.mem_append_left _ hm)
    simp only [Conc.spawn, total_append, Call.reserves]
    exact this
  | @step s s' i hr h ih =>
    intro hl'
    have hl := allLimited_step h hl'
    obtain ⟨l0, hcap, hroom⟩ := ih hl
    have hs := hr.sound hc l0
    obtain ⟨c, pc, hi, hk⟩ := step_kind h hs.reserves
    have hst := hs.stock
    have hct := hs.counted
    cases hk with
    | quiet pc' n ht hp hlog hlost hpu ho hn hcnt hres =>
      have a := total_set (f := Pc.reserves) (pc' := pc') hi
      rw [← ht] at a
      refine ⟨by rw [hlost]; exact l0, by rw [hp]; exact hcap, ?_⟩
      rw [hp]
      dsimp only
      rcases hres with hle | ⟨t, lim, d, rfl, h1, h2⟩
      · omega
      · -- only the start of an insertion raises the counter
        have hf := hr.logged.fits i c _ hi
        simp only [Pc.fits] at hf; subst hf
        have := h2 (hl t lim d _ (List.mem_of_getElem? hi))
        have e1 : (Pc.insert t lim d).reserves = 0 := rfl
        rw [e1, h1] at a
        omega
    | claim t d hpc hf hc' e =>
      subst hpc e
      have a := total_set (f := Pc.reserves) (pc' := .push t d) hi
      simp only [Pc.reserves] at a
      exact ⟨l0, hcap, by simp only [Conc.goto]; omega⟩
    | push t d hpc full hf e =>
      subst hpc e
      have a := total_set (f := Pc.reserves) (pc' := .leave .inserted) hi
      have a2 := total_ge (f := Pc.reserves) hi
      simp only [Pc.reserves] at a a2
      have hco := hs.inv.co_length
      refine ⟨?_, hcap, ?_⟩
      · simp only [Conc.goto, l0, hf, Bool.false_or, decide_eq_false_iff_not]; omega
      · simp only [Conc.goto, List.length_append, List.length_singleton]; omega
    | bucket t hpc e =>
      subst hpc e
      have a := total_set (f := Pc.reserves) (pc' := if (s.pool.sys.insert t).2 then .count else .leave .done) hi
      have a0 : (if (s.pool.sys.insert t).2 then Pc.count else .leave .done).reserves = 0 := by split <;> rfl
      rw [a0] at a
      simp only [Pc.reserves] at a
      exact ⟨l0, hcap, by simp only [Conc.goto]; omega⟩
    | pick hs' l st hpc hr' r e =>
      subst hpc e
      have a := total_set (f := Pc.reserves) (pc' := .leave (.packed r)) hi
      simp only [Pc.reserves] at a
      exact ⟨l0, hcap, by simp only [Conc.goto]; omega⟩
    | flush hashes n hpc hr' p hp e =>
      subst hpc e
      obtain ⟨z1, z2, z3⟩ := counts_of_readers hr.locks hr'
      have a := total_set (f := Pc.reserves) (pc' := .done .done) hi
      simp only [Pc.reserves] at a
      have g := hs.good z2
      obtain ⟨s1, s2, n', g1, sm1, co1, f, i2, m2, rfl⟩ := flush_steps g hp
      have e1 := f.num
      have e2 := sm1.txMap
      rw [e2] at e1
      refine ⟨l0, ?_, ?_⟩
      · simp only [Conc.goto, f.cap, sm1.cap]; exact hcap
      · simp only [Conc.goto]; omega
    | want w hpc hr' e =>
      subst hpc e
      have a := total_set (f := Pc.reserves) (pc' := .draining s.pool.co.length w) hi
      have e1 : (Pc.draining s.pool.co.length w).reserves = (Pc.wantReal w).reserves := by cases w <;> rfl
      exact ⟨l0, hcap, by simp only [Conc.goto]; omega⟩
    | pop k w hpc q d rest hco pool hp e =>
      subst hpc e
      have a := total_set (f := Pc.reserves) (pc' := .draining k w) hi
      have e1 : (Pc.draining (k + 1) w).reserves = (Pc.draining k w).reserves := by cases w <;> rfl
      have sm := (popOne_same hp).1
      exact ⟨l0, by simp only [Conc.goto, sm.cap]; exact hcap, by simp only [Conc.goto, sm.txMap]; omega⟩

/-- If every insertion is a limited one, no push is lost and the pool never holds more ordinary transactions than
its capacity, however the calls interleave (the check and the raise of the counter are one atomic step). -/
theorem C122_limited {cap gap : Nat} (hc : 0 < cap) {s : Conc} (h : Reach cap gap s) (hl : AllLimited s.threads) :
    s.lost = false ∧ s.pool.txMap.length ≤ cap := by
  obtain ⟨a, -, b⟩ := limited_room hc h hl
  exact ⟨a, by omega⟩

/-- So calls of which every insertion is a limited one act as if made one after another. -/
theorem C122_order_limited {cap gap : Nat} (hc : 0 < cap) {s : Conc} (h : Reach cap gap s)
    (hl : AllLimited s.threads) (hd : ∀ e ∈ s.threads, e.2.isDone = true) :
    ∃ q, run (init cap gap) (s.log.map (·.2)) = some q ∧ Alike s.pool q ∧ s.pool.stock = q.stock :=
  C122_settled_partial hc h (C122_limited hc h hl).1 hd

/-! ## Packages -/

/-- What a package answers: the system part read before, then at most `limit` different hashes of live
packageable transactions that the pool holds at this moment, all of them if they are at most `limit`. -/
theorem C122_package_partial {cap gap : Nat} (hc : 0 < cap) {s s' : Conc} (h : Reach cap gap s)
    (h0 : s.lost = false) {i : Nat} {c : Call} {hs : List Nat} {l : Nat} {st : Sorter}
    (hi : s.threads[i]? = some (c, Pc.pick hs l st)) (hst : s.step i = .state s') :
    ∃ r, s'.threads[i]? = some (c, Pc.leave (.packed r)) ∧ r.system = hs ∧ r.ordinary.length ≤ l ∧
      r.ordinary.Nodup ∧ (∀ x ∈ r.ordinary, Pool.contains s.pool x = true) ∧
      ((s.pool.real.filter (fun p => !s.pool.heap.drp p)).length ≤ l →
        ∀ p ∈ s.pool.real, s.pool.heap.drp p = false → (s.pool.heap.tx p).hash ∈ r.ordinary) := by
  have hsd := h.sound hc h0
  unfold Conc.step at hst
  rw [hi] at hst
  simp only [Conc.move] at hst
  split at hst
  · cases hst
  · cases hst
    have hlt : i < s.threads.length := (List.getElem?_eq_some_iff.1 hi).1
    refine ⟨_, by simp [Conc.goto, hlt]; rfl, ?_, ?_, ?_, ?_, ?_⟩
    · simp [Packed.system]
    · simp only [Packed.ordinary, List.drop_left]; exact List.length_take_le _ _
    · simp only [Packed.ordinary, List.drop_left]
      have := live_hashes_nodup (hsd.inv.permReal (st.perm s.pool.heap.tx s.pool.real))
      exact this.sublist (List.take_sublist _ _)
    · intro x hx
      simp only [Packed.ordinary, List.drop_left] at hx
      have hx := List.mem_of_mem_take hx
      obtain ⟨p, hp, rfl⟩ := List.mem_map.1 hx
      have hp := (st.perm _ _).mem_iff.1 (List.mem_filter.1 hp).1
      have hm := (hsd.inv.realOk p hp).1
      unfold Pool.contains
      rw [(find_isSome (s := s.pool)).2 ⟨p, hm, rfl⟩]; rfl
    · intro hle p hp hd
      simp only [Packed.ordinary, List.drop_left]
      rw [List.take_of_length_le]
      · refine List.mem_map.2 ⟨p, List.mem_filter.2 ⟨(st.perm _ _).mem_iff.2 hp, by simp [hd]⟩, rfl⟩
      · rw [List.length_map, ((st.perm s.pool.heap.tx s.pool.real).filter _).length_eq]; exact hle

/-! ## Schedules -/

/-- A schedule: new calls, and threads that move. -/
inductive Act where
  | call (c : Call)
  | go (i : Nat)

def exec (s : Conc) : List Act → Option Conc
  | [] => some s
  | .call c :: l => exec (s.spawn c) l
  | .go i :: l =>
    match s.step i with
    | .state s' => exec s' l
    | _ => none

theorem exec_reach {cap gap : Nat} {l : List Act} {s s' : Conc} (h : Reach cap gap s) (he : exec s l = some s') :
    Reach cap gap s' := by
  induction l generalizing s with
  | nil => cases he; exact h
  | cons a l ih =>
    cases a with
    | call c => exact ih (.spawn c h) he
    | go i =>
      simp only [exec] at he
      split at he
      · rename_i s1 h1; exact ih (.step i h h1) he
      · cases he

theorem of_map {α β : Type} {o : Option α} {f : α → β} {b : β} (h : o.map f = some b) : ∃ a, o = some a ∧ f a = b := by
  cases o with
  | none => cases h
  | some a => exact ⟨a, rfl, by simpa using h⟩

namespace Demo

def tx (hash sender nonce : Nat) : PoolTx := ⟨hash, sender, nonce, 1, 0⟩

/-- A `sort_unstable` that changes nothing. -/
def keep : Sorter := ⟨fun _ l => l, fun _ _ => .refl _⟩

def answers (s : Conc) : List (Option Answer) := s.threads.map fun p =>
  match p.2 with
  | .done r => some r
  | _ => none

/-- The hashes of the packages returned so far. -/
def packed (s : Conc) : List (List Nat) := s.threads.filterMap fun p =>
  match p.2 with
  | .done (.packed r) => some r.hashes
  | _ => none

/-- Two unlimited insertions look at `co_queue` before either pushes. -/
def race : List Act :=
  [.call (.insert (tx 1 10 0) false 0), .call (.insert (tx 2 20 0) false 0)] ++
  [.go 0, .go 1, .go 0, .go 1, .go 0, .go 1, .go 0, .go 1, .go 0, .go 1, .go 0, .go 1] ++
  [.call (.package 10 keep)] ++ List.replicate 8 (.go 2)

/-- The same calls one after another. -/
def calm : List Act :=
  [.call (.insert (tx 1 10 0) false 0)] ++ List.replicate 6 (.go 0) ++
  [.call (.insert (tx 2 20 0) false 0)] ++ List.replicate 9 (.go 1) ++
  [.call (.package 10 keep)] ++ List.replicate 8 (.go 2)

end Demo

open Demo in
/-- Insertions that are not limited can lose: the look at the full queue and the push are two steps, and the answer
of the push is thrown away.  Both are answered as new and both are held, but the second is in no package and never
will be (it is neither waiting nor pending), whereas after the same calls one after another, in either order, it
is. -/
theorem C122_lost_false :
    (∃ s, Reach 1 5 s ∧ answers s = [some .inserted, some .inserted, some (.packed ⟨[1], 0⟩)] ∧
      Pool.contains s.pool 2 = true ∧ s.pool.co = [] ∧ s.pool.pending 20 = none) ∧
    (∃ s, Reach 1 5 s ∧ answers s = [some .inserted, some .inserted, some (.packed ⟨[1, 2], 0⟩)]) := by
  constructor
  · obtain ⟨s, hs, h⟩ := of_map (show (exec (Conc.init 1 5) race).map (fun s => (answers s,
      Pool.contains s.pool 2, s.pool.co, (s.pool.pending 20).isNone)) =
      some ([some .inserted, some .inserted, some (.packed ⟨[1], 0⟩)], true, [], true) by decide +kernel)
    simp only [Prod.mk.injEq, Option.isNone_iff_eq_none] at h
    exact ⟨s, exec_reach .init hs, h.1, h.2.1, h.2.2.1, h.2.2.2⟩
  · obtain ⟨s, hs, h⟩ := of_map (show (exec (Conc.init 1 5) calm).map answers =
      some [some .inserted, some .inserted, some (.packed ⟨[1, 2], 0⟩)] by decide +kernel)
    exact ⟨s, exec_reach .init hs, h⟩

open Demo in
/-- An insertion can be refused although the pool never held as many transactions as its capacity: the counter is
raised before the pool is asked whether it knows the hash, so that a duplicate on its way counts. -/
theorem C122_refused_false :
    ∃ s, Reach 2 5 s ∧ answers s = [some .inserted, some .duplicate, some (.refused 2)] ∧
      s.log.length = 1 ∧ s.pool.txMap.length = 1 ∧ s.pool.sys.buckets.isEmpty = true := by
  obtain ⟨s, hs, h⟩ := of_map (show (exec (Conc.init 2 5)
      ([.call (.insert (tx 1 10 0) true 0)] ++ List.replicate 6 (.go 0) ++
       [.call (.insert (tx 1 10 0) true 0), .go 1, .call (.insert (tx 2 20 0) true 0), .go 2] ++
       List.replicate 4 (.go 1))).map (fun s => (answers s, s.log.length, s.pool.txMap.length,
        s.pool.sys.buckets.isEmpty)) =
      some ([some .inserted, some .duplicate, some (.refused 2)], 1, 1, true) by decide +kernel)
  simp only [Prod.mk.injEq] at h
  exact ⟨s, exec_reach .init hs, h⟩

/-! ## A case meeting the hypotheses -/

namespace Demo

/-- Two insertions of one hash, one of another, the background task, a package and a flush, interleaved. -/
def mixed : List Act :=
  [.call (.insert (tx 1 10 0) true 0), .call (.insert (tx 1 10 0) true 0), .call (.insert (tx 2 20 0) true 0),
   .call (.insertSys (tx 7 30 0))] ++
  [.go 0, .go 1, .go 2, .go 3, .go 1, .go 0, .go 1, .go 0, .go 1, .go 0, .go 0, .go 3, .go 1, .go 2, .go 3] ++
  [.call .refresh, .call (.package 5 keep)] ++
  [.go 4, .go 5, .go 5, .go 2, .go 2, .go 4, .go 4, .go 5, .go 2, .go 4, .go 4, .go 2, .go 4, .go 5, .go 5, .go 1,
   .go 3, .go 5, .go 5, .go 5] ++
  [.call (.flush [1] 3), .go 6]

end Demo

open Demo in
example : (exec (Conc.init 4 5) mixed).map (fun s => (answers s, Pool.contains s.pool 1, Pool.contains s.pool 2,
    s.pool.stock, s.log.map (·.1))) =
    some ([some .duplicate, some .inserted, some .inserted, some .done, some .done,
      some (.packed ⟨[7, 1, 2], 1⟩), some .done], false, true, 2, [3, 1, 4, 2, 5, 6]) := by decide +kernel

end Axon.Pool
