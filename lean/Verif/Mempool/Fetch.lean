import Verif.Mempool.PoolProps
import Verif.Mempool.PoolPanic

/-!
# Fetching full transactions and checking a proposal's transactions

Model of `MemPoolImpl::get_full_txs`, `ensure_order_txs` and `check_dup_order_hashes`,
`core/mempool/src/lib.rs:242-324,344-356`, with the storage reads they use.
-/

namespace Axon.Pool
open Axon.Assoc

/-- Errors of `MemPoolError` that occur here. -/
inductive FetchErr where
  | misMatch (require response : Nat)
  | ensureBreak (require response : Nat)
  | ensureDup (hash : Nat)
  | pull
  | verify
  | reserved
deriving DecidableEq, Repr

/-- `get_transactions_from_storage` without a height, `core/mempool/src/adapter/mod.rs:480-486`: one
lookup per hash.  (Storage errors are not modelled.) -/
def storageByHash (db : Nat → Option PoolTx) (hashes : List Nat) : List (Option PoolTx) := hashes.map db

/-- The scan of `get_transactions`, `core/storage/src/lib.rs:262-286`: walk over the transactions of the
block in key order, keep the requested ones, stop when `count` were found. -/
def scanBlock (wanted : List Nat) : List (Nat × PoolTx) → Nat → List (Nat × PoolTx)
  | [], _ => []
  | e :: rest, count =>
    if count = 0 then []
    else if wanted.contains e.1 then e :: scanBlock wanted rest (count - 1)
    else scanBlock wanted rest count

/-- `hashes.iter().map(|h| found.remove(h))`, `core/storage/src/lib.rs:323` -/
def takeFound : List Nat → List (Nat × PoolTx) → List (Option PoolTx)
  | [], _ => []
  | h :: hs, found => get found h :: takeFound hs (del found h)

/-- `get_transactions` of storage, `core/storage/src/lib.rs:246-324`.  `block` holds the transactions of
the block in key order; the batching of the decoding is not modelled. -/
def storageAtHeight (block : List (Nat × PoolTx)) (hashes : List Nat) : List (Option PoolTx) :=
  takeFound hashes (scanBlock hashes block hashes.length)

/-- `get_full_txs`, `core/mempool/src/lib.rs:242-281` -/
def getFullTxs (pool : Nat → Option PoolTx) (storage : List Nat → List (Option PoolTx)) (hashes : List Nat) :
    Except FetchErr (List PoolTx) :=
  let hits := hashes.filterMap pool
  let missing := hashes.filter (fun h => (pool h).isNone)
  let full := hits ++ (if missing.isEmpty then [] else (storage missing).filterMap id)
  if full.length ≠ hashes.length then .error (.misMatch hashes.length full.length) else .ok full

/-- `check_dup_order_hashes`, `core/mempool/src/lib.rs:344-356` -/
def checkDup : List Nat → List Nat → Except FetchErr Unit
  | [], _ => .ok ()
  | h :: hs, seen => if seen.contains h then .error (.ensureDup h) else checkDup hs (h :: seen)

/-- `verify_tx_in_parallel`, `core/mempool/src/lib.rs:135-176`: all checks must succeed.  `check` stands
for authorisation, stateless checks and the storage lookup, and yields the nonce difference. -/
def verifyAll (check : PoolTx → Option Nat) (txs : List PoolTx) : Option (List Nat) := txs.mapM check

/-- The insertion loop of `ensure_order_txs`, `core/mempool/src/lib.rs:309-318`; `isSys` is
`is_call_system_script` (`none`: its error).  The outer `none` is a panic of the pool. -/
def insertAll (isSys : PoolTx → Option Bool) : Pool → List (PoolTx × Nat) → Option (Pool × Except FetchErr Unit)
  | s, [] => some (s, .ok ())
  | s, (t, d) :: rest =>
    match isSys t with
    | none => some (s, .error .reserved)
    | some true => insertAll isSys (insertSys s t) rest
    | some false =>
      match insert s t false d with
      | none => none
      | some (s', _) => insertAll isSys s' rest

/-- `ensure_order_txs`, `core/mempool/src/lib.rs:283-324`.  `pull` is what the peer answers
(`none`: the call failed). -/
def ensureOrder (pull : List Nat → Option (List PoolTx)) (check : PoolTx → Option Nat)
    (isSys : PoolTx → Option Bool) (s : Pool) (hashes : List Nat) : Option (Pool × Except FetchErr Unit) :=
  match checkDup hashes [] with
  | .error e => some (s, .error e)
  | .ok () =>
    let unknown := hashes.filter (fun h => !contains s h)
    if unknown.isEmpty then some (s, .ok ())
    else
      match pull unknown with
      | none => some (s, .error .pull)
      | some txs =>
        if txs.length ≠ unknown.length then some (s, .error (.ensureBreak unknown.length txs.length))
        else
          match verifyAll check txs with
          | none => some (s, .error .verify)
          | some diffs => insertAll isSys s (txs.zip diffs)

/-! ## Lemmas -/

theorem checkDup_ok : ∀ (hs seen : List Nat), checkDup hs seen = .ok () ↔ hs.Nodup ∧ ∀ h ∈ hs, h ∉ seen := by
  intro hs
  induction hs with
  | nil => intro seen; simp [checkDup]
  | cons h hs ih =>
    intro seen
    unfold checkDup
    by_cases hc : h ∈ seen
    · simp [hc]
    · simp only [List.contains_iff_mem, hc, if_false]
      rw [ih, List.nodup_cons]
      constructor
      · rintro ⟨a, b⟩
        refine ⟨⟨fun hm => b h hm (by simp), a⟩, ?_⟩
        intro x hx
        rcases List.mem_cons.1 hx with rfl | hx
        · exact hc
        · exact fun hs' => b x hx (by simp [hs'])
      · rintro ⟨⟨a, b⟩, c⟩
        refine ⟨b, ?_⟩
        intro x hx hs'
        rcases List.mem_cons.1 hs' with rfl | hs'
        · exact a hx
        · exact c x (by simp [hx]) hs'

theorem scanBlock_all {wanted : List Nat} : ∀ {block : List (Nat × PoolTx)} {count : Nat},
    (block.filter (fun e => wanted.contains e.1)).length ≤ count →
    scanBlock wanted block count = block.filter (fun e => wanted.contains e.1) := by
  intro block
  induction block with
  | nil => intro count _; rfl
  | cons e rest ih =>
    intro count hc
    unfold scanBlock
    by_cases he : wanted.contains e.1 = true
    · rw [List.filter_cons_of_pos (by exact he)] at hc ⊢
      simp only [List.length_cons] at hc
      rw [if_neg (by omega), if_pos he, ih (by omega)]
    · rw [List.filter_cons_of_neg (by exact he)] at hc ⊢
      split
      · rename_i h0
        subst h0
        exact (List.length_eq_zero_iff.1 (by omega)).symm
      · exact ih hc

/-- Scanning a block finds exactly the requested transactions of the block. -/
theorem scanBlock_get {block : List (Nat × PoolTx)} (hn : NodupKeys block) (hashes : List Nat) (h : Nat) :
    get (scanBlock hashes block hashes.length) h = if h ∈ hashes then get block h else none := by
  have hl : (block.filter (fun e => hashes.contains e.1)).length ≤ hashes.length := by
    have h1 : ((block.filter (fun e => hashes.contains e.1)).map (·.1)).Nodup := by
      rw [List.nodup_iff_pairwise_ne, List.pairwise_map]
      exact List.Pairwise.filter _ hn
    have := nodup_length_le h1 (m := hashes) (by
      intro x hx
      obtain ⟨e, he, rfl⟩ := List.mem_map.1 hx
      simpa using (List.mem_filter.1 he).2)
    simpa using this
  rw [scanBlock_all hl]
  have hn' : NodupKeys (block.filter (fun e => hashes.contains e.1)) := List.Pairwise.filter _ hn
  split
  · rename_i hm
    cases hg : get block h with
    | none =>
      cases hg' : get (block.filter (fun e => hashes.contains e.1)) h with
      | none => rfl
      | some v =>
        have := get_of_mem hn (List.mem_filter.1 (mem_of_get hg')).1
        rw [hg] at this; cases this
    | some v => exact get_of_mem hn' (List.mem_filter.2 ⟨mem_of_get hg, by simpa using hm⟩)
  · rename_i hm
    cases hg' : get (block.filter (fun e => hashes.contains e.1)) h with
    | none => rfl
    | some v =>
      have := (List.mem_filter.1 (mem_of_get hg')).2
      simp at this; exact absurd this hm

theorem takeFound_nodup : ∀ {hs : List Nat} {found : List (Nat × PoolTx)}, hs.Nodup →
    takeFound hs found = hs.map (get found) := by
  intro hs
  induction hs with
  | nil => intro found _; rfl
  | cons h hs ih =>
    intro found hn
    have hn' := List.nodup_cons.1 hn
    simp only [takeFound, List.map_cons]
    rw [ih hn'.2]
    congr 1
    apply List.map_congr_left
    intro x hx
    rw [get_del]
    rw [if_neg]
    rintro rfl; exact hn'.1 hx

/-- Without repetitions, reading a block by height is a lookup per hash. -/
theorem storageAtHeight_nodup {block : List (Nat × PoolTx)} (hn : NodupKeys block) {hashes : List Nat}
    (hh : hashes.Nodup) : storageAtHeight block hashes = hashes.map (get block) := by
  unfold storageAtHeight
  rw [takeFound_nodup hh]
  apply List.map_congr_left
  intro x hx
  rw [scanBlock_get hn, if_pos hx]

theorem filterMap_length_iff {f : Nat → Option PoolTx} {l : List Nat} :
    (l.filterMap f).length = l.length ↔ ∀ h ∈ l, (f h).isSome := by
  induction l with
  | nil => simp
  | cons h l ih =>
    have := List.length_filterMap_le f l
    cases hf : f h with
    | none =>
      rw [List.filterMap_cons_none hf]
      simp only [List.length_cons, List.mem_cons, forall_eq_or_imp, hf]
      constructor
      · intro h; omega
      · rintro ⟨h, _⟩; simp at h
    | some t =>
      rw [List.filterMap_cons_some hf]
      simp only [List.length_cons, List.mem_cons, forall_eq_or_imp, hf, Option.isSome_some, true_and]
      rw [← ih]; omega

theorem filterMap_hash {f : Nat → Option PoolTx} (hf : ∀ h t, f h = some t → t.hash = h) (l : List Nat) :
    (l.filterMap f).map (·.hash) = l.filter (fun h => (f h).isSome) := by
  induction l with
  | nil => rfl
  | cons h l ih =>
    cases hh : f h with
    | none => rw [List.filterMap_cons_none hh, List.filter_cons_of_neg (by simp [hh]), ih]
    | some t =>
      rw [List.filterMap_cons_some hh, List.filter_cons_of_pos (by simp [hh]), List.map_cons, ih, hf h t hh]

theorem fetch_split_length (l : List Nat) (f : Nat → Option PoolTx) :
    (l.filterMap f).length + (l.filter (fun h => (f h).isNone)).length = l.length := by
  induction l with
  | nil => rfl
  | cons h l ih =>
    cases hh : f h with
    | none => rw [List.filterMap_cons_none hh, List.filter_cons_of_pos (by simp [hh])]; simp; omega
    | some t => rw [List.filterMap_cons_some hh, List.filter_cons_of_neg (by simp [hh])]; simp; omega

/-- What the pool returns for a hash has this hash. -/
theorem getByHash_hash {s : Pool} (g : Good s) {h : Nat} {t : PoolTx} (hg : getByHash s h = some t) : t.hash = h := by
  unfold getByHash at hg
  split at hg
  · rename_i p hf
    simp only [Option.some.injEq] at hg; subst hg
    exact (find_some hf).2
  · simp only [Sys.getByHash, Option.bind_eq_some_iff] at hg
    obtain ⟨d, _, m, hm, ht⟩ := hg
    exact ((g.sys.ok d m (mem_of_get hm)).2.2 h t (mem_of_get ht)).1

end Axon.Pool
