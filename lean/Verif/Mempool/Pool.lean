import Verif.Util.Assoc
import Verif.Util.Outcome

/-!
# The transaction pool

Model of `core/mempool/src/pool.rs` and `core/mempool/src/tx_wrapper.rs`.

Representation.  A `TxPtr = Arc<TxWrapper>` is an address (`Nat`) into a heap: the transaction it
points to never changes, its two state bits do.  Hashes, senders and call data are natural numbers
(`H256`/`H160`/`Bytes` compared as big-endian numbers).  Of a transaction only the fields the pool
looks at are kept.  Every operation is atomic: in the code `flush` excludes the others by the write
lock, the remaining ones run under the read lock and may interleave; their interleavings are the
subject of `Verif/Mempool/Concurrent.lean`.  A panic is `none`: the node installs a panic hook that makes the process exit
(`core/run/src/components/system.rs:24-37`), so no state follows it.  The background task of `PriorityPool::new` is the
operation `refresh`, which may happen at any moment.
-/

namespace Axon.Pool
open Axon.Assoc

/-- `U64` arithmetic of `ethereum_types` panics at this bound. -/
def u64Bound : Nat := 2 ^ 64

/-- What the pool reads of a `SignedTransaction` (`tx_wrapper.rs:52-71`, `pool.rs:330-331`). -/
structure PoolTx where
  hash : Nat
  sender : Nat
  nonce : Nat
  price : Nat
  data : Nat
deriving DecidableEq, Repr

/-- All `TxWrapper`s ever allocated (`tx_wrapper.rs:11-18`): transaction and the two bits of `state`. -/
structure Heap where
  tx : Nat → PoolTx
  pkg : Nat → Bool
  drp : Nat → Bool

/-- `set_dropped`, `tx_wrapper.rs:77-79` -/
def Heap.setDrp (h : Heap) (p : Nat) : Heap :=
  { h with drp := fun i => if i = p then true else h.drp i }

/-- `set_package`, `tx_wrapper.rs:81-83` -/
def Heap.setPkg (h : Heap) (p : Nat) : Heap :=
  { h with pkg := fun i => if i = p then true else h.pkg i }

/-- `TxWrapper::from`, `tx_wrapper.rs:20-27`: a fresh wrapper with state 0. -/
def Heap.alloc (h : Heap) (p : Nat) (t : PoolTx) : Heap :=
  { tx := fun i => if i = p then t else h.tx i
    pkg := fun i => if i = p then false else h.pkg i
    drp := fun i => if i = p then false else h.drp i }

/-- `PendingQueue`, `tx_wrapper.rs:90-97`; `queue` sorted by nonce, `pop` is `pop_tip_nonce`,
`cur` is `current_tip_nonce`. -/
structure PQ where
  queue : List (Nat × Nat)
  pop : Nat
  cur : Nat
  needRemove : Bool

/-- `PendingQueue::default()` -/
def PQ.empty : PQ := ⟨[], 0, 0, false⟩

/-- The first half of `PendingQueue::insert`, `tx_wrapper.rs:108-111`. -/
def PQ.raise (q : PQ) (tip : Nat) : PQ :=
  if q.cur < tip then { q with pop := tip, cur := tip } else q

/-- The entry match of `PendingQueue::insert`, `tx_wrapper.rs:112-131`. -/
def PQ.place (q : PQ) (h : Heap) (p : Nat) : Heap × PQ × Bool :=
  let nonce := (h.tx p).nonce
  match get q.queue nonce with
  | some old =>
    if (h.tx old).price < (h.tx p).price then
      let q' := { q with queue := sput nonce p q.queue }
      if h.pkg old then ((h.setDrp old).setPkg p, q', true) else (h.setDrp old, q', false)
    else (h.setDrp p, q, false)
  | none => (h, { q with queue := sput nonce p q.queue }, false)

/-- `PendingQueue::insert`, `tx_wrapper.rs:100-132`; `none` is the underflow of `nonce - nonce_diff`. -/
def PQ.insert (q : PQ) (h : Heap) (p diff : Nat) : Option (Heap × PQ × Bool) :=
  let nonce := (h.tx p).nonce
  if nonce < diff then none
  else if q.cur > nonce then some (h.setDrp p, q, false)
  else some ((q.raise (nonce - diff)).place h p)

/-- The loop of `try_search_package_list`, `tx_wrapper.rs:136-147`: `none` is the overflow of
`current + 1`. -/
def searchLoop : List (Nat × Nat) → Nat → Heap → List Nat → Option (Heap × List Nat × Nat)
  | [], cur, h, real => some (h, real, cur)
  | (k, v) :: rest, cur, h, real =>
    if k = cur then
      if cur + 1 < u64Bound then
        if h.pkg v then searchLoop rest (cur + 1) h real
        else searchLoop rest (cur + 1) (h.setPkg v) (real ++ [v])
      else none
    else some (h, real, cur)

/-- `PendingQueue::try_search_package_list`, `tx_wrapper.rs:134-149` -/
def PQ.search (q : PQ) (h : Heap) (real : List Nat) : Option (Heap × PQ × List Nat) :=
  (searchLoop (q.queue.filter (fun e => q.pop ≤ e.1)) q.pop h real).map
    fun (h', real', c) => (h', { q with pop := c }, real')

/-- `PendingQueue::clear_droped`, `tx_wrapper.rs:151-156` -/
def PQ.clear (q : PQ) (h : Heap) : PQ :=
  { q with needRemove := q.needRemove || q.queue.isEmpty
           queue := q.queue.filter (fun e => !h.drp e.2) }

/-- `PendingQueue::count`, `tx_wrapper.rs:166-168` -/
def PQ.count (q : PQ) (h : Heap) : Nat := (q.queue.filter (fun e => !h.drp e.2)).length

/-- The loop of `set_drop_by_nonce_tip`, `tx_wrapper.rs:158-161`. -/
def dropUpTo (l : List (Nat × Nat)) (tip : Nat) (h : Heap) : Heap :=
  l.foldl (fun h e => if e.1 ≤ tip then h.setDrp e.2 else h) h

/-- `BuiltInContractTxBucket`, `pool.rs:317-320`; `buckets` maps call data to the transactions carrying
it, sorted by hash.  Its iteration order (`DashMap`) is arbitrary in the code. -/
structure Sys where
  hashData : List (Nat × Nat)
  buckets : List (Nat × List (Nat × PoolTx))

/-- `BuiltInContractTxBucket::insert`, `pool.rs:330-339`: true if the hash is new in its bucket. -/
def Sys.insert (b : Sys) (t : PoolTx) : Sys × Bool :=
  let old := (get b.buckets t.data).getD []
  (⟨put b.hashData t.hash t.data, put b.buckets t.data (sput t.hash t old)⟩,
   (get old t.hash).isNone)

/-- `BuiltInContractTxBucket::package`, `pool.rs:341-353`: the smallest hash of each bucket; an empty
bucket would panic (`none`). -/
def Sys.package (b : Sys) : Option (List Nat) := b.buckets.mapM (fun e => e.2.head?.map (·.1))

/-- `BuiltInContractTxBucket::get_tx_by_hash`, `pool.rs:355-363` -/
def Sys.getByHash (b : Sys) (hash : Nat) : Option PoolTx :=
  (get b.hashData hash).bind fun d => (get b.buckets d).bind fun m => get m hash

/-- `BuiltInContractTxBucket::contains`, `pool.rs:375-383` -/
def Sys.contains (b : Sys) (hash : Nat) : Bool :=
  match get b.hashData hash with
  | some d =>
    match get b.buckets d with
    | some m => (get m hash).isSome
    | none => false
  | none => false

/-- `BuiltInContractTxBucket::flush`, `pool.rs:365-373`; the number returned is added to `reduce_len`. -/
def Sys.flush (b : Sys) : List Nat → Sys × Nat
  | [] => (b, 0)
  | hash :: rest =>
    match get b.hashData hash with
    | none => Sys.flush b rest
    | some d =>
      let b' : Sys := ⟨del b.hashData hash, del b.buckets d⟩
      let r := Sys.flush b' rest
      (r.1, r.2 + if (get b.buckets d).isSome then 1 else 0)

/-- `PriorityPool`, `pool.rs:21-42`.  `cap` is the capacity of `co_queue`, `gap` is `timeout_config`,
`next` the next unused heap address.  `txMap` lists the values of `tx_map`; their keys are their hashes. -/
structure Pool where
  cap : Nat
  gap : Nat
  next : Nat
  heap : Heap
  pending : Nat → Option PQ
  co : List (Nat × Nat)
  real : List Nat
  txMap : List Nat
  stock : Nat
  timeouts : List (Nat × List Nat)
  sys : Sys

/-- `PriorityPool::new`, `pool.rs:45-56` -/
def init (cap gap : Nat) : Pool where
  cap := cap
  gap := gap
  next := 0
  heap := ⟨fun _ => ⟨0, 0, 0, 0, 0⟩, fun _ => false, fun _ => false⟩
  pending := fun _ => none
  co := []
  real := []
  txMap := []
  stock := 0
  timeouts := []
  sys := ⟨[], []⟩

/-- Function update. -/
def upd {α : Type} (f : Nat → α) (k : Nat) (v : α) : Nat → α := fun i => if i = k then v else f i

/-- One round of the loop of `flush_to_pending_queue`, `pool.rs:189-204` (same loop in the background
task, `pool.rs:69-84`). -/
def popOne (s : Pool) (p diff : Nat) : Option Pool :=
  let sender := (s.heap.tx p).sender
  let q := (s.pending sender).getD PQ.empty
  if q.queue.length > 64 then
    some { s with heap := s.heap.setDrp p, pending := upd s.pending sender (some q) }
  else
    match q.insert s.heap p diff with
    | none => none
    | some (h1, q1, push) =>
      match q1.search h1 (if push then s.real ++ [p] else s.real) with
      | none => none
      | some (h2, q2, real2) =>
        some { s with heap := h2, pending := upd s.pending sender (some q2), real := real2 }

/-- The loop over the popped items, with the remaining ones still in `co`. -/
def drain : List (Nat × Nat) → Pool → Option Pool
  | [], s => some { s with co := [] }
  | (p, d) :: rest, s =>
    match popOne { s with co := rest } p d with
    | none => none
    | some s' => drain rest s'

/-- `flush_to_pending_queue`, `pool.rs:186-205` -/
def flushToPending (s : Pool) : Option Pool := drain s.co s

/-- Lookup in `tx_map`. -/
def find (s : Pool) (hash : Nat) : Option Nat :=
  s.txMap.find? (fun p => (s.heap.tx p).hash = hash)

/-- Result of `PriorityPool::insert`. -/
inductive InsertRes where
  | ok
  | reachLimit (n : Nat)
deriving DecidableEq, Repr

/-- `pool.rs:132-150`, after the counter was incremented.  A push to a full `co_queue` is lost. -/
def insertTail (s : Pool) (t : PoolTx) (diff : Nat) : Pool :=
  match find s t.hash with
  | some _ => { s with stock := s.stock - 1 }
  | none =>
    { s with
      next := s.next + 1
      heap := s.heap.alloc s.next t
      txMap := s.txMap ++ [s.next]
      co := if s.co.length < s.cap then s.co ++ [(s.next, diff)] else s.co }

/-- `PriorityPool::insert`, `pool.rs:111-153` -/
def insert (s : Pool) (t : PoolTx) (checkLimit : Bool) (diff : Nat) : Option (Pool × InsertRes) :=
  if s.cap ≤ s.stock ∧ checkLimit = true then some (s, .reachLimit s.stock)
  else
    let s1 := { s with stock := s.stock + 1 }
    if checkLimit = false ∧ s1.cap ≤ s1.co.length then
      (flushToPending s1).map fun s2 => (insertTail s2 t diff, .ok)
    else some (insertTail s1 t diff, .ok)

/-- `insert_system_script_tx`, `pool.rs:103-109` -/
def insertSys (s : Pool) (t : PoolTx) : Pool :=
  let r := s.sys.insert t
  { s with sys := r.1, stock := if r.2 then s.stock + 1 else s.stock }

/-- `sort_unstable` for some (possibly not total) order: any rearrangement of its argument. -/
structure Sorter where
  run : (Nat → PoolTx) → List Nat → List Nat
  perm : ∀ f l, (run f l).Perm l

/-- `PackedTxHashes`, `protocol/src/types/block.rs:133-136` -/
structure Packed where
  hashes : List Nat
  sysCount : Nat
deriving DecidableEq, Repr

/-- `PriorityPool::package`, `pool.rs:155-184`.  `sorter` stands for `sort_unstable`, which with the
order of `TxWrapper` guarantees no more than a rearrangement. -/
def package (s : Pool) (limit : Nat) (sorter : Sorter) : Option (Pool × Packed) :=
  match s.sys.package with
  | none => none
  | some sysHashes =>
    match (if s.co.isEmpty then some s else flushToPending s) with
    | none => none
    | some s1 =>
      let q := sorter.run s1.heap.tx s1.real
      some ({ s1 with real := q },
        ⟨sysHashes ++ ((q.filter (fun p => !s1.heap.drp p)).map (fun p => (s1.heap.tx p).hash)).take limit,
          sysHashes.length⟩)

/-- Background task, `pool.rs:63-89`. -/
def refresh (s : Pool) : Option Pool := if s.co.isEmpty then some s else flushToPending s

/-- `remove_tip_nonce` of `flush_inner`: keep the largest nonce per sender, `pool.rs:257-266`. -/
def tipPut (tips : List (Nat × Nat)) (sender nonce : Nat) : List (Nat × Nat) :=
  match get tips sender with
  | some v => if v < nonce then put tips sender nonce else tips
  | none => put tips sender nonce

/-- First loop of `flush_inner`, `pool.rs:254-269`: remaining `tx_map`, tips, number removed. -/
def commitLoop (h : Heap) : List Nat → List Nat → List (Nat × Nat) → Nat →
    List Nat × List (Nat × Nat) × Nat
  | [], m, tips, n => (m, tips, n)
  | hash :: rest, m, tips, n =>
    match m.find? (fun p => (h.tx p).hash = hash) with
    | none => commitLoop h rest m tips n
    | some p =>
      commitLoop h rest (m.filter (fun p => (h.tx p).hash ≠ hash))
        (tipPut tips (h.tx p).sender (h.tx p).nonce) (n + 1)

/-- Second loop of `flush_inner`, `pool.rs:271-275` with `set_drop_by_nonce_tip`,
`tx_wrapper.rs:158-164`; `none` is the overflow of `nonce + 1`.  (The code visits the senders in
`HashMap` order; they have disjoint queues.) -/
def dropTips : List (Nat × Nat) → Heap → (Nat → Option PQ) → Option (Heap × (Nat → Option PQ))
  | [], h, pend => some (h, pend)
  | (k, v) :: rest, h, pend =>
    match pend k with
    | none => dropTips rest h pend
    | some q =>
      if v + 1 < u64Bound then
        dropTips rest (dropUpTo q.queue v h)
          (upd pend k (some { q with pop := v + 1, cur := v + 1 }))
      else none

/-- `tx_map.retain`, `pool.rs:286-295`: pointers that are not kept are marked as dropped. -/
def keeps (h : Heap) (expired : List Nat) (p : Nat) : Bool :=
  !h.drp p && !(expired.contains (h.tx p).hash)

/-- Mark all pointers of a list as dropped. -/
def dropAll (l : List Nat) (h : Heap) : Heap := l.foldl (fun h p => h.setDrp p) h

/-- `pending_queue.retain`, `pool.rs:301-304` -/
def clearPending (h : Heap) (pend : Nat → Option PQ) : Nat → Option PQ := fun k =>
  match pend k with
  | none => none
  | some q => if (q.clear h).needRemove then none else some (q.clear h)

/-- The hashes that time out at this flush, `pool.rs:277-283`. -/
def expiring (s : Pool) (number : Nat) : List Nat :=
  if s.gap ≤ number then (get s.timeouts (number - s.gap)).getD [] else []

/-- `flush_inner`, `pool.rs:250-305`, with the number added to `reduce_len`. -/
def flushInner (s : Pool) (hashes : List Nat) (number : Nat) : Option (Pool × Nat) :=
  let (m1, tips, n1) := commitLoop s.heap hashes s.txMap [] 0
  match dropTips tips s.heap s.pending with
  | none => none
  | some (h1, pend1) =>
    let expired := expiring s number
    let to1 := if s.gap ≤ number then del s.timeouts (number - s.gap) else s.timeouts
    let kept := m1.filter (fun p => keeps h1 expired p)
    let gone := m1.filter (fun p => !keeps h1 expired p)
    let h2 := dropAll gone h1
    let to2 := put to1 number ((get to1 number).getD [] ++ kept.map (fun p => (h2.tx p).hash))
    some ({ s with
      heap := h2
      txMap := kept
      timeouts := to2
      real := s.real.filter (fun p => !h2.drp p)
      pending := clearPending h2 pend1 }, n1 + gone.length)

/-- `PriorityPool::flush`, `pool.rs:238-248`.  (`fetch_sub` would wrap below zero; `C20` shows it never
gets there.) -/
def flush (s : Pool) (hashes : List Nat) (number : Nat) : Option Pool :=
  match flushToPending s with
  | none => none
  | some s1 =>
    match flushInner s1 hashes number with
    | none => none
    | some (s2, n) =>
      let r := s2.sys.flush hashes
      some { s2 with sys := r.1, stock := s2.stock - (n + r.2) }

/-- `contains`, `pool.rs:215-218` -/
def contains (s : Pool) (hash : Nat) : Bool := (find s hash).isSome || s.sys.contains hash

/-- `get_by_hash`, `pool.rs:229-236` -/
def getByHash (s : Pool) (hash : Nat) : Option PoolTx :=
  match find s hash with
  | some p => some (s.heap.tx p)
  | none => s.sys.getByHash hash

/-- `reach_limit`, `pool.rs:220-227` -/
def reachLimit (s : Pool) : Bool := s.cap < s.stock

/-- `get_tx_count_by_address`, `pool.rs:94-101`; the second component is the largest block number that
has a timeout record. -/
def txCount (s : Pool) (addr : Nat) : Nat × Option Nat :=
  (match s.pending addr with
   | some q => q.count s.heap
   | none => 0,
   (s.timeouts.map (·.1)).max?)

/-- Operations on the pool. -/
inductive Op where
  | insert (t : PoolTx) (checkLimit : Bool) (diff : Nat)
  | insertSys (t : PoolTx)
  | package (limit : Nat) (sorter : Sorter)
  | refresh
  | flush (hashes : List Nat) (number : Nat)

def step (s : Pool) : Op → Option Pool
  | .insert t c d => (insert s t c d).map (·.1)
  | .insertSys t => some (insertSys s t)
  | .package l st => (package s l st).map (·.1)
  | .refresh => refresh s
  | .flush hs n => flush s hs n

def run (s : Pool) : List Op → Option Pool
  | [] => some s
  | op :: ops =>
    match step s op with
    | none => none
    | some s' => run s' ops

theorem run_append (s : Pool) (a b : List Op) : run s (a ++ b) = (run s a).bind (run · b) := by
  induction a generalizing s with
  | nil => rfl
  | cons op a ih =>
    simp only [List.cons_append, run]
    cases step s op with
    | none => rfl
    | some s' => exact ih s'

end Axon.Pool
