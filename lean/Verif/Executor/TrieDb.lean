import Verif.Util.Assoc
import Verif.Util.Bytes
import Verif.Util.Outcome

/-!
# The trie node database and its cache

Model of `core/executor/src/adapter/trie/db.rs` (`RocksTrieDB`): one column of RocksDB with a cache in front.
The order in which a `HashMap` enumerates its keys and the random numbers are parameters, so every statement
holds for all evictions.  Metrics and locks are left out; each operation runs alone.  A write to RocksDB may
fail (`ok = false`); reads do not.
-/

namespace Axon.TrieDb
open Axon.Assoc

/-- `RocksTrieDB`, `db.rs:29-34`: the column, the cache and `cache_size` -/
structure Db where
  disk : List (Bytes × Bytes)
  cache : List (Bytes × Bytes)
  size : Nat

/-- `RocksTrieDB::new`, `db.rs:168-177` -/
def new (disk : List (Bytes × Bytes)) (size : Nat) : Db := ⟨disk, [], size⟩

/-- What is not determined by the code: the enumeration order of the cache and the numbers the generator
yields (`rng i` is used for the `i`-th call, reduced to the requested range). -/
structure Env where
  order : List Bytes → List Bytes
  perm : ∀ l, (order l).Perm l
  rng : Nat → Nat

/-- `rand_remove_list`, `db.rs:187-202`, from its `i`-th round on with the remaining indices.
`gen_range(0, 0)` panics. -/
def pick (e : Env) (keys : List Bytes) : Nat → Nat → List Nat → Outcome (List Bytes)
  | 0, _, _ => .ok []
  | num + 1, i, idx =>
    if idx.length = 0 then .panic
    else
      let tmp := e.rng i % idx.length
      match idx[tmp]? with
      | none => .panic
      | some j =>
        match keys[j]? with
        | none => .panic
        | some k =>
          match pick e keys num (i + 1) (idx.eraseIdx tmp) with
          | .ok l => .ok (k :: l)
          | .err => .err
          | .panic => .panic

/-- `rand_remove_list`, `db.rs:187-202`: the last key is never a candidate. -/
def removeList (e : Env) (keys : List Bytes) (num : Nat) : Outcome (List Bytes) :=
  pick e keys num 0 (List.range (keys.length - 1))

/-- `flush`, `db.rs:132-152`; `cache_size * 2` is checked arithmetic. -/
def flush (e : Env) (s : Db) : Outcome Db :=
  if 2 ^ 64 ≤ s.size * 2 then .panic
  else if s.cache.length ≤ s.size * 2 then .ok s
  else
    match removeList e (e.order (s.cache.map (·.1))) (s.cache.length - s.size) with
    | .ok l => .ok { s with cache := l.foldl del s.cache }
    | .err => .err
    | .panic => .panic

/-- `get`, `db.rs:37-57` -/
def get' (e : Env) (s : Db) (k : Bytes) : Outcome (Db × Option Bytes) :=
  match get s.cache k with
  | some v => .ok (s, some v)
  | none =>
    match get s.disk k with
    | none => .ok (s, none)
    | some v =>
      match flush e { s with cache := put s.cache k v } with
      | .ok s' => .ok (s', some v)
      | .err => .err
      | .panic => .panic

/-- `contains`, `db.rs:59-70`: caches without flushing -/
def contains (s : Db) (k : Bytes) : Db × Bool :=
  match get s.cache k with
  | some _ => (s, true)
  | none =>
    match get s.disk k with
    | some v => ({ s with cache := put s.cache k v }, true)
    | none => (s, false)

/-- `insert`, `db.rs:72-84`: first RocksDB, then the cache -/
def insert (e : Env) (s : Db) (k v : Bytes) (ok : Bool) : Outcome (Db × Bool) :=
  if ok then
    match flush e { s with disk := put s.disk k v, cache := put s.cache k v } with
    | .ok s' => .ok (s', true)
    | .err => .err
    | .panic => .panic
  else .ok (s, false)

/-- The pairs of a batch written one after the other. -/
def putAll (m : List (Bytes × Bytes)) (kvs : List (Bytes × Bytes)) : List (Bytes × Bytes) :=
  kvs.foldl (fun m kv => put m kv.1 kv.2) m

/-- `insert_batch`, `db.rs:86-122`: first the cache, then RocksDB -/
def insertBatch (e : Env) (s : Db) (keys values : List Bytes) (ok : Bool) : Outcome (Db × Bool) :=
  if keys.length ≠ values.length then .ok (s, false)
  else if ok then
    match flush e { s with disk := putAll s.disk (keys.zip values)
                           cache := putAll s.cache (keys.zip values) } with
    | .ok s' => .ok (s', true)
    | .err => .err
    | .panic => .panic
  else .ok ({ s with cache := putAll s.cache (keys.zip values) }, false)

/-- `remove` and `remove_batch`, `db.rs:124-130`: nothing is ever removed. -/
def remove (s : Db) (_keys : List Bytes) : Db := s

/-- An operation; `ok` says whether RocksDB accepts the write. -/
inductive Op where
  | get (k : Bytes)
  | contains (k : Bytes)
  | insert (k v : Bytes) (ok : Bool)
  | batch (keys values : List Bytes) (ok : Bool)
  | remove (keys : List Bytes)
  | flush

/-- One operation and its effect on the database. -/
def step (e : Env) (s : Db) : Op → Outcome Db
  | .get k => match get' e s k with
    | .ok (s', _) => .ok s'
    | .err => .err
    | .panic => .panic
  | .contains k => .ok (contains s k).1
  | .insert k v ok => match insert e s k v ok with
    | .ok (s', _) => .ok s'
    | .err => .err
    | .panic => .panic
  | .batch ks vs ok => match insertBatch e s ks vs ok with
    | .ok (s', _) => .ok s'
    | .err => .err
    | .panic => .panic
  | .remove ks => .ok (remove s ks)
  | .flush => flush e s

/-- States after a history; every operation has its own enumeration order and random numbers. -/
inductive Run : Db → List Op → Db → Prop
  | nil (s : Db) : Run s [] s
  | snoc {s s' s'' : Db} {ops : List Op} {op : Op} (e : Env) : Run s ops s' → step e s' op = .ok s'' →
      Run s (ops ++ [op]) s''

/-! ## Lemmas -/

theorem eraseIdx_perm {α : Type} {l : List α} {i : Nat} {x : α} (h : l[i]? = some x) :
    (x :: l.eraseIdx i).Perm l := by
  induction l generalizing i with
  | nil => simp at h
  | cons a l ih =>
    cases i with
    | zero => simp only [List.getElem?_cons_zero, Option.some.injEq] at h; subst h; simp
    | succ i =>
      simp only [List.getElem?_cons_succ] at h
      simp only [List.eraseIdx_cons_succ]
      exact (List.Perm.swap a x _).trans ((ih h).cons a)

/-- Enough indices: the picked keys are distinct members, as many as asked for. -/
theorem pick_ok (e : Env) (keys : List Bytes) (hk : keys.Nodup) (num i : Nat) (idx : List Nat)
    (hn : idx.Nodup) (hb : ∀ j ∈ idx, j < keys.length) (hl : num ≤ idx.length) :
    ∃ l, pick e keys num i idx = .ok l ∧ l.length = num ∧ l.Nodup ∧
      ∀ k ∈ l, ∃ j ∈ idx, keys[j]? = some k := by
  induction num generalizing i idx with
  | zero => exact ⟨[], rfl, rfl, List.nodup_nil, by simp⟩
  | succ num ih =>
    unfold pick
    rw [if_neg (by omega)]
    simp only
    have hlt : e.rng i % idx.length < idx.length := Nat.mod_lt _ (by omega)
    obtain ⟨j, hj⟩ : ∃ j, idx[e.rng i % idx.length]? = some j :=
      ⟨_, List.getElem?_eq_getElem hlt⟩
    rw [hj]
    simp only
    have hp := eraseIdx_perm hj
    have hjm : j ∈ idx := hp.mem_iff.1 (by simp)
    rw [List.getElem?_eq_getElem (hb j hjm)]
    simp only
    have hnd : (j :: idx.eraseIdx (e.rng i % idx.length)).Nodup := hp.nodup_iff.2 hn
    rw [List.nodup_cons] at hnd
    have hlen := hp.length_eq
    simp only [List.length_cons] at hlen
    obtain ⟨l, h1, h2, h3, h4⟩ := ih (i + 1) (idx.eraseIdx (e.rng i % idx.length)) hnd.2
      (fun j' hj' => hb j' (hp.mem_iff.1 (by simp [hj']))) (by omega)
    rw [h1]
    refine ⟨keys[j]'(hb j hjm) :: l, rfl, by simp [h2], ?_, ?_⟩
    · rw [List.nodup_cons]
      refine ⟨fun hc => ?_, h3⟩
      obtain ⟨j', hj', he⟩ := h4 _ hc
      have hj'' := hb j' (hp.mem_iff.1 (by simp [hj']))
      have := (List.getElem?_inj hj'' hk).1 (he.trans (List.getElem?_eq_getElem (hb j hjm)).symm)
      exact hnd.1 (this ▸ hj')
    · intro k hk'
      rcases List.mem_cons.1 hk' with hk' | hk'
      · exact ⟨j, hjm, by rw [hk', List.getElem?_eq_getElem (hb j hjm)]⟩
      · obtain ⟨j', hj', he⟩ := h4 k hk'
        exact ⟨j', hp.mem_iff.1 (by simp [hj']), he⟩

/-- Too few indices: a panic. -/
theorem pick_panic (e : Env) (keys : List Bytes) (num i : Nat) (idx : List Nat)
    (hb : ∀ j ∈ idx, j < keys.length) (hl : idx.length < num) :
    pick e keys num i idx = .panic := by
  induction num generalizing i idx with
  | zero => omega
  | succ num ih =>
    unfold pick
    by_cases h0 : idx.length = 0
    · rw [if_pos h0]
    · rw [if_neg h0]
      simp only
      have hlt : e.rng i % idx.length < idx.length := Nat.mod_lt _ (by omega)
      obtain ⟨j, hj⟩ : ∃ j, idx[e.rng i % idx.length]? = some j :=
        ⟨_, List.getElem?_eq_getElem hlt⟩
      rw [hj]
      simp only
      have hp := eraseIdx_perm hj
      have hjm : j ∈ idx := hp.mem_iff.1 (by simp)
      rw [List.getElem?_eq_getElem (hb j hjm)]
      simp only
      have hlen := hp.length_eq
      simp only [List.length_cons] at hlen
      rw [ih (i + 1) _ (fun j' hj' => hb j' (hp.mem_iff.1 (by simp [hj']))) (by omega)]

theorem get_foldl_del (l : List Bytes) (m : List (Bytes × Bytes)) (k : Bytes) :
    get (l.foldl del m) k = if k ∈ l then none else get m k := by
  induction l generalizing m with
  | nil => simp
  | cons a l ih =>
    rw [List.foldl_cons, ih, get_del]
    by_cases h1 : k = a <;> by_cases h2 : k ∈ l <;> simp [h1, h2]

theorem nodup_foldl_del (l : List Bytes) {m : List (Bytes × Bytes)} (h : NodupKeys m) :
    NodupKeys (l.foldl del m) := by
  induction l generalizing m with
  | nil => exact h
  | cons a l ih => exact ih (nodupKeys_del h a)

theorem del_length {m : List (Bytes × Bytes)} (h : NodupKeys m) {k : Bytes} (hk : k ∈ m.map (·.1)) :
    (del m k).length + 1 = m.length := by
  induction m with
  | nil => simp at hk
  | cons x m ih =>
    have h := List.pairwise_cons.1 h
    unfold del at ih ⊢
    by_cases hx : x.1 = k
    · rw [List.filter_cons_of_neg (by simp [hx])]
      have : m.filter (fun e => decide (e.1 ≠ k)) = m := by
        rw [List.filter_eq_self]
        intro y hy
        simp only [decide_eq_true_eq]
        intro hc
        exact h.1 y hy (hx.trans hc.symm)
      rw [this]; simp
    · rw [List.filter_cons_of_pos (by simp [hx])]
      have : k ∈ m.map (·.1) := by
        rcases List.mem_cons.1 hk with hk | hk
        · exact absurd hk.symm hx
        · exact hk
      have := ih h.2 this
      simp only [List.length_cons]; omega

theorem foldl_del_length (l : List Bytes) {m : List (Bytes × Bytes)} (h : NodupKeys m) (hn : l.Nodup)
    (hs : ∀ k ∈ l, k ∈ m.map (·.1)) : (l.foldl del m).length + l.length = m.length := by
  induction l generalizing m with
  | nil => simp
  | cons a l ih =>
    rw [List.nodup_cons] at hn
    rw [List.foldl_cons]
    have h1 := del_length h (hs a (by simp))
    have h2 := ih (nodupKeys_del h a) hn.2 (fun k hk => by
      have := hs k (by simp [hk])
      obtain ⟨x, hx, he⟩ := List.mem_map.1 this
      refine List.mem_map.2 ⟨x, ?_, he⟩
      unfold del
      rw [List.mem_filter]
      refine ⟨hx, ?_⟩
      simp only [decide_eq_true_eq]
      intro hc
      exact hn.1 (hc.symm.trans he ▸ hk))
    simp only [List.length_cons]; omega

/-- A flush with a positive cache size: no panic, at most `2 * size` entries are left, all of them from before;
if anything is evicted, exactly `size` entries are left. -/
theorem flush_spec (e : Env) (s : Db) (hn : NodupKeys s.cache) (h0 : 0 < s.size)
    (hs : s.size * 2 < 2 ^ 64) :
    ∃ s', flush e s = .ok s' ∧ s'.disk = s.disk ∧ s'.size = s.size ∧ NodupKeys s'.cache ∧
      s'.cache.length ≤ s.size * 2 ∧
      (s.cache.length ≤ s.size * 2 → s'.cache = s.cache) ∧
      (s.size * 2 < s.cache.length → s'.cache.length = s.size) ∧
      ∀ k v, get s'.cache k = some v → get s.cache k = some v := by
  unfold flush
  rw [if_neg (by omega)]
  split
  · rename_i hl
    exact ⟨s, rfl, rfl, rfl, hn, hl, fun _ => rfl, fun hc => absurd hl (by omega), fun _ _ h => h⟩
  · rename_i hl
    unfold removeList
    have hp := e.perm (s.cache.map (·.1))
    have hnd : (e.order (s.cache.map (·.1))).Nodup :=
      hp.nodup_iff.2 (List.pairwise_map.2 hn)
    have hlen : (e.order (s.cache.map (·.1))).length = s.cache.length := by
      rw [hp.length_eq, List.length_map]
    obtain ⟨l, h1, h2, h3, h4⟩ := pick_ok e _ hnd (s.cache.length - s.size) 0
      (List.range ((e.order (s.cache.map (·.1))).length - 1)) List.nodup_range
      (fun j hj => by rw [List.mem_range] at hj; omega)
      (by rw [List.length_range, hlen]; omega)
    rw [h1]
    have hsub : ∀ k ∈ l, k ∈ s.cache.map (·.1) := by
      intro k hk
      obtain ⟨j, -, hj⟩ := h4 k hk
      exact hp.mem_iff.1 (List.mem_of_getElem? hj)
    have hfl := foldl_del_length l hn h3 hsub
    refine ⟨_, rfl, rfl, rfl, nodup_foldl_del l hn, ?_, fun hc => absurd hc (by omega), ?_, ?_⟩
    · simp only; omega
    · intro _; simp only; omega
    · intro k v hv
      simp only at hv
      rw [get_foldl_del] at hv
      split at hv
      · cases hv
      · exact hv

theorem get_putAll (kvs m : List (Bytes × Bytes)) (k : Bytes) :
    get (putAll m kvs) k = match kvs.reverse.find? (·.1 = k) with
      | some kv => some kv.2
      | none => get m k := by
  induction kvs using snoc_induction with
  | nil => rfl
  | snoc kvs kv ih =>
    have e : putAll m (kvs ++ [kv]) = put (putAll m kvs) kv.1 kv.2 := by
      simp [putAll, List.foldl_append]
    rw [e, get_put, ih, List.reverse_append]
    by_cases h : k = kv.1
    · subst h; simp
    · rw [if_neg h]
      simp only [List.reverse_cons, List.reverse_nil, List.nil_append, List.singleton_append,
        List.find?_cons]
      have : kv.1 ≠ k := fun hh => h hh.symm
      simp [this]

theorem nodup_putAll (kvs : List (Bytes × Bytes)) {m : List (Bytes × Bytes)} (h : NodupKeys m) :
    NodupKeys (putAll m kvs) := by
  induction kvs generalizing m with
  | nil => exact h
  | cons kv kvs ih => exact ih (nodupKeys_put h kv.1 kv.2)

end Axon.TrieDb
