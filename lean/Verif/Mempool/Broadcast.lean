/-!
# Spreading of new transactions

`MemPoolImpl::insert_tx` (core/mempool/src/lib.rs:95-136), `broadcast_tx` and the task `IntervalTxsBroadcaster`
(core/mempool/src/adapter/mod.rs:42-115, 366-384), and `NewTxsHandler` (core/mempool/src/adapter/message.rs:17-79).

Transactions are known by their hash, here by themselves.  The verdicts of the checks, of the pool and of the
network are parameters of the events, and so is the order in which a `HashMap` is drained.  Senders of the channel
are not dropped while the node runs.
-/

namespace Axon.Broadcast

variable {τ : Type} [DecidableEq τ]

/-- Where a transaction came from: `none` from a client, `some s` from session `s`; lib.rs:124-132. -/
abbrev Origin := Option Nat

/-- An entry of `txs_cache`, adapter/mod.rs:55. -/
abbrev Entry (τ : Type) := Origin × List τ

/-- A call of `gossip` and whether it succeeded. -/
structure Call (τ : Type) where
  origin : Origin
  txs : List τ
  ok : Bool
deriving DecidableEq

/-- The node: the pool, the stored transactions, the channel `stx_tx`/`stx_rx`, the cache of the task, the number of
errors in `err_tx`/`err_rx`, and the calls of `gossip` so far, oldest first. -/
structure Node (τ : Type) where
  pool : List τ := []
  stored : List τ := []
  chan : List (Origin × τ) := []
  cache : List (Entry τ) := []
  errs : Nat := 0
  calls : List (Call τ) := []

/-- `insert` as asked for.  `full`: `reach_limit`; `checks`: `check_authorization` and `check_transaction`; `room`:
the answer of the pool; `locked`: another caller holds `err_rx`. -/
structure Req (τ : Type) where
  origin : Origin
  tx : τ
  full : Bool := false
  checks : Bool := true
  room : Bool := true
  locked : Bool := false

/-- What happens.  `recv` and `tick` carry the order of draining and the verdicts of `gossip`. -/
inductive Event (τ : Type) where
  | insert (r : Req τ)
  | commit (txs : List τ)
  | evict (txs : List τ)
  | recv (ord : List (Entry τ) → List (Entry τ)) (net : Entry τ → Bool)
  | tick (ord : List (Entry τ) → List (Entry τ)) (net : Entry τ → Bool)

/-- Answers of `insert`: `blamed` is an error of `broadcast_tx`, which is an error of an earlier batch. -/
inductive Answer where
  | ok
  | known
  | refused
  | blamed
deriving DecidableEq

/-- `insert_tx`, lib.rs:95-136, with `broadcast_tx`, adapter/mod.rs:366-384.  Checks that refuse are not told
apart. -/
def insert (s : Node τ) (r : Req τ) : Node τ × Answer :=
  if r.full then (s, .refused)
  else if r.tx ∈ s.pool then (s, .known)
  else if !r.checks then (s, .refused)
  else if r.tx ∈ s.stored then (s, .refused)
  else if !r.room then (s, .refused)
  else
    let s := { s with pool := s.pool ++ [r.tx], chan := s.chan ++ [(r.origin, r.tx)] }
    if !r.locked && 0 < s.errs then ({ s with errs := s.errs - 1 }, .blamed) else (s, .ok)

/-- `txs_cache.entry(origin).or_default().push(stx)`, adapter/mod.rs:63. -/
def push : List (Entry τ) → Origin → τ → List (Entry τ)
  | [], o, t => [(o, [t])]
  | e :: es, o, t => if e.1 = o then (o, e.2 ++ [t]) :: es else e :: push es o t

/-- adapter/mod.rs:65-67. -/
def total (c : List (Entry τ)) : Nat := (c.map (·.2.length)).sum

/-- `do_broadcast`, adapter/mod.rs:84-114. -/
def doBroadcast (s : Node τ) (ord : List (Entry τ) → List (Entry τ)) (net : Entry τ → Bool) : Node τ :=
  let new := (ord s.cache).map fun e => Call.mk e.1 e.2 (net e)
  { s with cache := [], calls := s.calls ++ new, errs := s.errs + (new.filter (!·.ok)).length }

/-- One iteration of the loop, adapter/mod.rs:59-81, and the other events.  A commit stores the transactions and
then removes them from the pool; an eviction removes them. -/
def step (size : Nat) (s : Node τ) : Event τ → Node τ
  | .insert r => (insert s r).1
  | .commit txs => { s with stored := s.stored ++ txs, pool := s.pool.filter (· ∉ txs) }
  | .evict txs => { s with pool := s.pool.filter (· ∉ txs) }
  | .recv ord net =>
    match s.chan with
    | [] => s
    | (o, t) :: rest =>
      let s := { s with chan := rest, cache := push s.cache o t }
      if total s.cache = size then doBroadcast s ord net else s
  | .tick ord net => doBroadcast s ord net

/-- A run. -/
def run (size : Nat) (s : Node τ) (es : List (Event τ)) : Node τ := es.foldl (step size) s

/-- Draining yields the entries, in any order. -/
def Event.Valid : Event τ → Prop
  | .recv ord _ => ∀ c, (ord c).Perm c
  | .tick ord _ => ∀ c, (ord c).Perm c
  | _ => True

/-- The counters of `NewTxsHandler::process`, message.rs:49-60, after a batch with these results: the failures and
the successes counted. -/
def count : List Bool → Nat × Nat
  | [] => (0, 0)
  | ok :: rs =>
    let c := count rs
    ((if ok then c.1 else c.1 + 1), c.2 + 1)

/-! ## Lemmas -/

/-- The transactions of an origin in the cache. -/
def cached (c : List (Entry τ)) (o : Origin) : List τ := ((c.filter (·.1 = o)).map (·.2)).flatten

/-- The transactions of an origin in the channel. -/
def queued (q : List (Origin × τ)) (o : Origin) : List τ := (q.filter (·.1 = o)).map (·.2)

/-- The transactions of an origin in calls of `gossip`. -/
def gossiped (cs : List (Call τ)) (o : Origin) : List τ := ((cs.filter (·.origin = o)).map (·.txs)).flatten

theorem total_push (c : List (Entry τ)) (o : Origin) (t : τ) : total (push c o t) = total c + 1 := by
  induction c with
  | nil => simp [push, total]
  | cons e es ih =>
    unfold push
    split
    · simp [total]; omega
    · simp only [total, List.map_cons, List.sum_cons] at ih ⊢
      omega

theorem keys_push (c : List (Entry τ)) (o : Origin) (t : τ) (h : (c.map (·.1)).Nodup) :
    ((push c o t).map (·.1)).Nodup ∧ ∀ k, k ∈ (push c o t).map (·.1) ↔ k = o ∨ k ∈ c.map (·.1) := by
  induction c with
  | nil => simp [push]
  | cons e es ih =>
    rw [List.map_cons, List.nodup_cons] at h
    obtain ⟨h1, h2⟩ := ih h.2
    unfold push
    split
    next heq =>
      subst heq
      refine ⟨by rw [List.map_cons, List.nodup_cons]; exact h, fun k => ?_⟩
      simp
    next hne =>
      refine ⟨?_, fun k => ?_⟩
      · rw [List.map_cons, List.nodup_cons]
        refine ⟨fun hm => ?_, h1⟩
        rcases (h2 _).1 hm with h3 | h3
        · exact hne h3
        · exact h.1 h3
      · rw [List.map_cons, List.mem_cons, h2, List.map_cons, List.mem_cons]
        grind

theorem cached_push (c : List (Entry τ)) (o o' : Origin) (t : τ) (h : (c.map (·.1)).Nodup) :
    cached (push c o t) o' = cached c o' ++ if o = o' then [t] else [] := by
  induction c with
  | nil =>
    unfold push cached
    by_cases ho : o = o' <;> simp [ho]
  | cons e es ih =>
    rw [List.map_cons, List.nodup_cons] at h
    have ih' := ih h.2
    unfold push
    split
    next heq =>
      subst heq
      have hnone : es.filter (fun x => decide (x.1 = e.1)) = [] := by
        rw [List.filter_eq_nil_iff]
        intro x hx hxe
        exact h.1 (List.mem_map.2 ⟨x, hx, of_decide_eq_true hxe⟩)
      unfold cached
      by_cases ho : e.1 = o'
      · subst ho
        simp [hnone]
      · simp [ho]
    next hne =>
      unfold cached at ih' ⊢
      by_cases ho : e.1 = o'
      · simp only [List.filter_cons, ho, decide_true, if_true, List.map_cons, List.flatten_cons, ih',
          List.append_assoc]
      · simp only [List.filter_cons, ho, decide_false, Bool.false_eq_true, if_false, ih']

theorem keys_perm_filter {c d : List (Entry τ)} (h : d.Perm c) (hn : (c.map (·.1)).Nodup) (o : Origin) :
    d.filter (·.1 = o) = c.filter (·.1 = o) := by
  have hp : (d.filter (fun x => decide (x.1 = o))).Perm (c.filter fun x => decide (x.1 = o)) := h.filter _
  have hl : (c.filter fun x => decide (x.1 = o)).length ≤ 1 := by
    clear h hp
    induction c with
    | nil => simp
    | cons e es ih =>
      rw [List.map_cons, List.nodup_cons] at hn
      by_cases ho : e.1 = o
      · have hnone : es.filter (fun x => decide (x.1 = o)) = [] := by
          rw [List.filter_eq_nil_iff]
          intro x hx hxe
          exact hn.1 (List.mem_map.2 ⟨x, hx, by rw [ho]; exact of_decide_eq_true hxe⟩)
        simp [ho, hnone]
      · simp only [List.filter_cons, ho, decide_false, Bool.false_eq_true, if_false]
        exact ih hn.2
  show d.filter (fun x => decide (x.1 = o)) = c.filter fun x => decide (x.1 = o)
  generalize c.filter (fun x => decide (x.1 = o)) = l at hp hl ⊢
  match l, hl with
  | [], _ => exact hp.eq_nil
  | [x], _ => exact List.perm_singleton.1 hp
  | _ :: _ :: _, hl => simp at hl

/-- Induction from the end. -/
theorem snoc_induction {α : Type} {P : List α → Prop} (nil : P []) (snoc : ∀ l a, P l → P (l ++ [a])) (l : List α) :
    P l := by
  rw [← l.reverse_reverse]
  induction l.reverse with
  | nil => exact nil
  | cons a l ih => rw [List.reverse_cons]; exact snoc _ _ ih

theorem pair_of_nodup {α β : Type} (l : List (α × β)) (hn : (l.map (·.2)).Nodup) {x y : α × β} (hx : x ∈ l)
    (hy : y ∈ l) (h : x.2 = y.2) : x = y := by
  induction l with
  | nil => cases hx
  | cons z l ih =>
    rw [List.map_cons, List.nodup_cons] at hn
    rcases List.mem_cons.1 hx with e1 | h1 <;> rcases List.mem_cons.1 hy with e2 | h2
    · rw [e1, e2]
    · rw [← e1] at hn; exact absurd (List.mem_map.2 ⟨y, h2, h.symm⟩) hn.1
    · rw [← e2] at hn; exact absurd (List.mem_map.2 ⟨x, h1, h⟩) hn.1
    · exact ih hn.2 h1 h2

theorem flatten_twice (l : List (Call τ)) (hn : ((l.map (·.txs)).flatten).Nodup) {c d : Call τ} (hc : c ∈ l)
    (hd : d ∈ l) (hne : c ≠ d) {t : τ} (h1 : t ∈ c.txs) (h2 : t ∈ d.txs) : False := by
  induction l with
  | nil => cases hc
  | cons z l ih =>
    rw [List.map_cons, List.flatten_cons, List.nodup_append] at hn
    have inTail : ∀ e ∈ l, t ∈ e.txs → t ∈ (l.map (·.txs)).flatten := fun e he ht =>
      List.mem_flatten.2 ⟨e.txs, List.mem_map.2 ⟨e, he, rfl⟩, ht⟩
    rcases List.mem_cons.1 hc with e1 | g1 <;> rcases List.mem_cons.1 hd with e2 | g2
    · exact hne (e1.trans e2.symm)
    · rw [← e1] at hn; exact hn.2.2 t h1 t (inTail d g2 h2) rfl
    · rw [← e2] at hn; exact hn.2.2 t h2 t (inTail c g1 h1) rfl
    · exact ih hn.2.1 g1 g2

theorem gossiped_broadcast (s : Node τ) (ord : List (Entry τ) → List (Entry τ)) (net : Entry τ → Bool)
    (ho : ∀ c, (ord c).Perm c) (hn : (s.cache.map (·.1)).Nodup) (o : Origin) :
    gossiped (doBroadcast s ord net).calls o = gossiped s.calls o ++ cached s.cache o := by
  unfold doBroadcast gossiped cached
  dsimp only
  rw [List.filter_append, List.map_append, List.flatten_append]
  congr 1
  rw [← keys_perm_filter (ho s.cache) hn o, List.filter_map, List.map_map]
  rfl

end Axon.Broadcast
