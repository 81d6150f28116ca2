import Verif.Mempool.PoolSteps

/-!
# The transaction pool under concurrent calls

`Verif/Mempool/Pool.lean` takes every call of `core/mempool/src/pool.rs` as one step.  Here a call is a thread
that advances by the atomic steps of its shared data (an atomic counter, a lock-free queue, two locks and
sharded maps), and the threads interleave in any order.

Simplified: `flush` runs under the write lock as one step (what others can do meanwhile is to raise the
counter, which commutes with everything in it); taking one element off `co_queue` and sorting it into the
pending queues is one step (both under the lock of `real_queue`, see `popOne`); so are the walk over the system
buckets and the sorting of `real_queue`.  A thread that waits for a lock does not move.  The fairness of
`parking_lot` (readers wait behind a waiting writer) only removes executions.
-/

namespace Axon.Pool
open Axon.Assoc

/-- The calls. -/
inductive Call where
  /-- `insert`, pool.rs:111 -/
  | insert (t : PoolTx) (checkLimit : Bool) (diff : Nat)
  /-- `insert_system_script_tx`, pool.rs:103 -/
  | insertSys (t : PoolTx)
  /-- `package`, pool.rs:155 -/
  | package (limit : Nat) (sorter : Sorter)
  /-- one round of the task of `new`, pool.rs:64-88 -/
  | refresh
  /-- `flush`, pool.rs:238 -/
  | flush (hashes : List Nat) (number : Nat)

/-- What calls return; whether an insertion met its own hash is not visible to the caller. -/
inductive Answer where
  | inserted
  | duplicate
  | refused (n : Nat)
  | packed (r : Packed)
  | done
deriving DecidableEq

/-- Where a thread goes on after emptying `co_queue`. -/
inductive After where
  | enter (t : PoolTx) (diff : Nat)
  | pick (hashes : List Nat) (limit : Nat) (sorter : Sorter)
  | leave

/-- Where a thread is. -/
inductive Pc where
  /-- before the counter, pool.rs:117 -/
  | insert (t : PoolTx) (checkLimit : Bool) (diff : Nat)
  /-- the counter is raised, before the read lock, pool.rs:132 -/
  | reserved (t : PoolTx) (checkLimit : Bool) (diff : Nat)
  /-- before the look at `is_full`, pool.rs:136 -/
  | checked (t : PoolTx) (checkLimit : Bool) (diff : Nat)
  /-- before the entry of `tx_map`, pool.rs:142 -/
  | enter (t : PoolTx) (diff : Nat)
  /-- the entry is made, before the push, pool.rs:148.  The wrapper is counted as part of `txMap` from the push
  on; until then this position is its entry. -/
  | push (t : PoolTx) (diff : Nat)
  /-- before the read lock, pool.rs:104 -/
  | insertSys (t : PoolTx)
  /-- before the bucket, pool.rs:105 -/
  | bucket (t : PoolTx)
  /-- before the counter, pool.rs:106 -/
  | count
  /-- before the read lock, pool.rs:156 -/
  | package (limit : Nat) (sorter : Sorter)
  /-- before the system buckets, pool.rs:158 -/
  | packSys (limit : Nat) (sorter : Sorter)
  /-- before the look at `is_empty`, pool.rs:161 -/
  | packLook (hashes : List Nat) (limit : Nat) (sorter : Sorter)
  /-- before the lock of `real_queue`, pool.rs:164 -/
  | pick (hashes : List Nat) (limit : Nat) (sorter : Sorter)
  /-- before the look at `is_empty`, pool.rs:65 -/
  | refresh
  /-- before the read lock, pool.rs:66 -/
  | refreshLock
  /-- before the write lock, pool.rs:239 -/
  | flush (hashes : List Nat) (number : Nat)
  /-- before the lock of `real_queue`, pool.rs:67, 187 -/
  | wantReal (next : After)
  /-- in the loop over the `k` elements that `pop_all_item` counted, pool.rs:69, 189, 391-393 -/
  | draining (k : Nat) (next : After)
  /-- before the release of the read lock -/
  | leave (r : Answer)
  | done (r : Answer)

def After.pc : After → Pc
  | .enter t d => .enter t d
  | .pick hs l st => .pick hs l st
  | .leave => .leave .done

def Call.pc : Call → Pc
  | .insert t c d => .insert t c d
  | .insertSys t => .insertSys t
  | .package l st => .package l st
  | .refresh => .refresh
  | .flush hs n => .flush hs n

/-- The pool with its threads.  `readers` counts the read guards of `flush_lock`, `real` tells whether
`real_queue` is locked.  Only observed: `log`, the calls in the order in which they took effect, with the number
of their thread; `lost`, whether a push met a full queue. -/
structure Conc where
  pool : Pool
  threads : List (Call × Pc)
  readers : Nat
  real : Bool
  log : List (Nat × Op)
  lost : Bool

def Conc.init (cap gap : Nat) : Conc := ⟨Pool.init cap gap, [], 0, false, [], false⟩

/-- A new call. -/
def Conc.spawn (s : Conc) (c : Call) : Conc := { s with threads := s.threads ++ [(c, c.pc)] }

/-- Moves a thread. -/
def Conc.goto (s : Conc) (i : Nat) (c : Call) (pc : Pc) : Conc := { s with threads := s.threads.set i (c, pc) }

/-- What an attempt of a thread to move leads to. -/
inductive Next where
  | state (s : Conc)
  /-- it waits, or has finished -/
  | blocked
  /-- `pop().unwrap()` of an empty queue, pool.rs:392 -/
  | popPanic
  /-- a panic in the arithmetic of nonces or in an empty bucket, see `C55` -/
  | txPanic

/-- Another thread has made the entry of this hash. -/
def claimed (l : List (Call × Pc)) (hash : Nat) : Bool :=
  l.any fun p => match p.2 with
    | .push t _ => t.hash == hash
    | _ => false

/-- One step of thread `i`, whose call is `c`, from `pc`. -/
def Conc.move (s : Conc) (i : Nat) (c : Call) : Pc → Next
  | .insert t lim d =>
    if s.pool.cap ≤ s.pool.stock ∧ lim = true then .state (s.goto i c (.done (.refused s.pool.stock)))
    else .state ({ s with pool := { s.pool with stock := s.pool.stock + 1 } }.goto i c (.reserved t lim d))
  | .reserved t lim d => .state ({ s with readers := s.readers + 1 }.goto i c (.checked t lim d))
  | .checked t lim d =>
    if lim = false ∧ s.pool.cap ≤ s.pool.co.length then .state (s.goto i c (.wantReal (.enter t d)))
    else .state (s.goto i c (.enter t d))
  | .enter t d =>
    if (find s.pool t.hash).isSome || claimed s.threads t.hash then
      .state ({ s with pool := { s.pool with stock := s.pool.stock - 1 } }.goto i c (.leave .duplicate))
    else .state (s.goto i c (.push t d))
  | .push t d =>
    let full := decide (s.pool.cap ≤ s.pool.co.length)
    .state ({ s with
      pool := { s.pool with
        next := s.pool.next + 1
        heap := s.pool.heap.alloc s.pool.next t
        txMap := s.pool.txMap ++ [s.pool.next]
        co := if full then s.pool.co else s.pool.co ++ [(s.pool.next, d)] }
      log := s.log ++ [(i, Op.insert t false d)]
      lost := s.lost || full }.goto i c (.leave .inserted))
  | .insertSys t => .state ({ s with readers := s.readers + 1 }.goto i c (.bucket t))
  | .bucket t =>
    let r := s.pool.sys.insert t
    .state ({ s with pool := { s.pool with sys := r.1 }, log := s.log ++ [(i, Op.insertSys t)] }.goto i c
      (if r.2 then .count else .leave .done))
  | .count =>
    .state ({ s with pool := { s.pool with stock := s.pool.stock + 1 } }.goto i c (.leave .done))
  | .package l st => .state ({ s with readers := s.readers + 1 }.goto i c (.packSys l st))
  | .packSys l st =>
    match s.pool.sys.package with
    | none => .txPanic
    | some hs => .state (s.goto i c (.packLook hs l st))
  | .packLook hs l st =>
    if s.pool.co.isEmpty then .state (s.goto i c (.pick hs l st))
    else .state (s.goto i c (.wantReal (.pick hs l st)))
  | .pick hs l st =>
    if s.real then .blocked
    else
      let q := st.run s.pool.heap.tx s.pool.real
      .state ({ s with pool := { s.pool with real := q } }.goto i c
        (.leave (.packed ⟨hs ++ ((q.filter (fun p => !s.pool.heap.drp p)).map
          (fun p => (s.pool.heap.tx p).hash)).take l, hs.length⟩)))
  | .refresh => if s.pool.co.isEmpty then .state (s.goto i c (.done .done)) else .state (s.goto i c .refreshLock)
  | .refreshLock => .state ({ s with readers := s.readers + 1 }.goto i c (.wantReal .leave))
  | .flush hs n =>
    if s.readers ≠ 0 then .blocked
    else
      match flush s.pool hs n with
      | none => .txPanic
      | some p => .state ({ s with pool := p, log := s.log ++ [(i, Op.flush hs n)] }.goto i c (.done .done))
  | .wantReal a =>
    if s.real then .blocked
    else .state ({ s with real := true, log := s.log ++ [(i, Op.refresh)] }.goto i c (.draining s.pool.co.length a))
  | .draining 0 a => .state ({ s with real := false }.goto i c a.pc)
  | .draining (k + 1) a =>
    match s.pool.co with
    | [] => .popPanic
    | (p, d) :: rest =>
      match popOne { s.pool with co := rest } p d with
      | none => .txPanic
      | some pool => .state ({ s with pool := pool }.goto i c (.draining k a))
  | .leave r => .state ({ s with readers := s.readers - 1 }.goto i c (.done r))
  | .done _ => .blocked

/-- One step of thread `i`. -/
def Conc.step (s : Conc) (i : Nat) : Next :=
  match s.threads[i]? with
  | none => .blocked
  | some (c, pc) => s.move i c pc

/-- The states that any number of calls, made at any time, can lead to in any interleaving. -/
inductive Reach (cap gap : Nat) : Conc → Prop where
  | init : Reach cap gap (Conc.init cap gap)
  | spawn {s : Conc} (c : Call) : Reach cap gap s → Reach cap gap (s.spawn c)
  | step {s s' : Conc} (i : Nat) : Reach cap gap s → s.step i = .state s' → Reach cap gap s'

/-! ## Counting threads -/

/-- Sum of a weight over the threads. -/
def total (f : Pc → Nat) (l : List (Call × Pc)) : Nat := (l.map fun p => f p.2).sum

theorem total_set {f : Pc → Nat} {l : List (Call × Pc)} {i : Nat} {c : Call} {pc pc' : Pc}
    (h : l[i]? = some (c, pc)) : total f (l.set i (c, pc')) + f pc = total f l + f pc' := by
  induction l generalizing i with
  | nil => simp at h
  | cons x l ih =>
    cases i with
    | zero =>
      simp only [List.getElem?_cons_zero, Option.some.injEq] at h
      subst h
      simp only [total, List.set_cons_zero, List.map_cons, List.sum_cons]; omega
    | succ i =>
      simp only [List.getElem?_cons_succ] at h
      have := ih h
      simp only [total, List.set_cons_succ, List.map_cons, List.sum_cons] at *
      omega

theorem total_append (f : Pc → Nat) (l : List (Call × Pc)) (c : Call) (pc : Pc) :
    total f (l ++ [(c, pc)]) = total f l + f pc := by
  simp [total]

theorem total_ge {f : Pc → Nat} {l : List (Call × Pc)} {i : Nat} {c : Call} {pc : Pc}
    (h : l[i]? = some (c, pc)) : f pc ≤ total f l := by
  induction l generalizing i with
  | nil => simp at h
  | cons x l ih =>
    cases i with
    | zero =>
      simp only [List.getElem?_cons_zero, Option.some.injEq] at h
      subst h
      simp [total]
    | succ i =>
      simp only [List.getElem?_cons_succ] at h
      have := ih h
      simp only [total, List.map_cons, List.sum_cons] at *
      omega

/-- Read guards held. -/
def Pc.holds : Pc → Nat
  | .insert .. | .reserved .. | .insertSys .. | .package .. | .refresh | .refreshLock | .flush .. | .done .. => 0
  | _ => 1

/-- Guards of `real_queue` held. -/
def Pc.drains : Pc → Nat
  | .draining .. => 1
  | _ => 0

/-- Elements of `co_queue` still to be taken. -/
def Pc.owes : Pc → Nat
  | .draining k _ => k
  | _ => 0

/-- Raises of the counter whose transaction is not in `tx_map`. -/
def Pc.reserves : Pc → Nat
  | .reserved .. | .checked .. | .enter .. | .push .. | .wantReal (.enter ..) | .draining _ (.enter ..) => 1
  | _ => 0

/-- Transactions in a bucket that are not counted. -/
def Pc.counts : Pc → Nat
  | .count => 1
  | _ => 0

end Axon.Pool
