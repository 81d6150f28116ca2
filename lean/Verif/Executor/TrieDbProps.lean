import Verif.Executor.TrieDb

/-!
# Property C41: the trie database and its cache

The specification is the list of pairs RocksDB has accepted: a key reads as the newest pair written under it.
-/

namespace Axon.TrieDb
open Axon.Assoc

/-! ## Specification -/

/-- The pairs an operation puts into RocksDB. -/
def writes : Op → List (Bytes × Bytes)
  | .insert k v true => [(k, v)]
  | .batch ks vs true => if ks.length = vs.length then ks.zip vs else []
  | _ => []

/-- The value of `k`: the newest accepted one, else the one the database started with. -/
def newest (init : List (Bytes × Bytes)) (ops : List Op) (k : Bytes) : Option Bytes :=
  match (ops.flatMap writes).reverse.find? (fun kv => kv.1 = k) with
  | some kv => some kv.2
  | none => get init k

/-- The operation is a batch RocksDB refuses. -/
def refusedBatch : Op → Bool
  | .batch _ _ ok => !ok
  | _ => false

/-- The operation is `contains`. -/
def isContains : Op → Bool
  | .contains _ => true
  | _ => false

/-- The pairs an operation tries to write, accepted or not. -/
def attempts : Op → List (Bytes × Bytes)
  | .insert k v _ => [(k, v)]
  | .batch ks vs _ => ks.zip vs
  | _ => []

/-! ## Effects of a step -/

theorem mem_of_get_putAll {m kvs : List (Bytes × Bytes)} {k v : Bytes} (h : get (putAll m kvs) k = some v) :
    get m k = some v ∨ (k, v) ∈ kvs := by
  rw [get_putAll] at h
  split at h
  · rename_i kv hf
    simp only [Option.some.injEq] at h
    have h1 := List.mem_of_find?_eq_some hf
    have h2 := List.find?_some hf
    simp only [decide_eq_true_eq] at h2
    exact .inr (by rw [← h2, ← h]; exact List.mem_reverse.1 h1)
  · exact .inl h

theorem coherent_putAll {c d : List (Bytes × Bytes)} (kvs : List (Bytes × Bytes))
    (h : ∀ k v, get c k = some v → get d k = some v) :
    ∀ k v, get (putAll c kvs) k = some v → get (putAll d kvs) k = some v := by
  intro k v hv
  rw [get_putAll] at hv ⊢
  split
  · rename_i hf; rw [hf] at hv; exact hv
  · rename_i hf; rw [hf] at hv; exact h k v hv

/-- What a step does, for a positive cache size. -/
theorem step_spec (e : Env) (s : Db) (op : Op) (hn : NodupKeys s.cache) (h0 : 0 < s.size)
    (hs : s.size * 2 < 2 ^ 64) :
    ∃ s', step e s op = .ok s' ∧ s'.size = s.size ∧ NodupKeys s'.cache ∧
      s'.disk = putAll s.disk (writes op) ∧
      (isContains op = false → refusedBatch op = false → s.cache.length ≤ s.size * 2 →
        s'.cache.length ≤ s.size * 2) ∧
      (∀ k v, get s'.cache k = some v →
        get s.cache k = some v ∨ get s.disk k = some v ∨ (k, v) ∈ attempts op) ∧
      (refusedBatch op = false → (∀ k v, get s.cache k = some v → get s.disk k = some v) →
        ∀ k v, get s'.cache k = some v → get s'.disk k = some v) := by
  have same : ∀ o, writes o = [] → ∃ s', (Outcome.ok s : Outcome Db) = .ok s' ∧ s'.size = s.size ∧
      NodupKeys s'.cache ∧ s'.disk = putAll s.disk (writes o) ∧
      (isContains o = false → refusedBatch o = false → s.cache.length ≤ s.size * 2 →
        s'.cache.length ≤ s.size * 2) ∧
      (∀ k v, get s'.cache k = some v →
        get s.cache k = some v ∨ get s.disk k = some v ∨ (k, v) ∈ attempts o) ∧
      (refusedBatch o = false → (∀ k v, get s.cache k = some v → get s.disk k = some v) →
        ∀ k v, get s'.cache k = some v → get s'.disk k = some v) := fun o ho =>
    ⟨s, rfl, rfl, hn, by rw [ho]; rfl, fun _ _ h => h, fun _ _ h => .inl h, fun _ h => h⟩
  -- a value read from disk put into the cache
  have cached : ∀ k v, get s.disk k = some v →
      (∀ k' v', get (put s.cache k v) k' = some v' → get s.cache k' = some v' ∨ get s.disk k' = some v') := by
    intro k v hd k' v' hv
    rw [get_put] at hv
    split at hv
    · rename_i hk
      simp only [Option.some.injEq] at hv
      exact .inr (by rw [hk, hd, hv])
    · exact .inl hv
  cases op with
  | get k =>
    simp only [step, get']
    cases hc : get s.cache k with
    | some v => exact same (.get k) rfl
    | none =>
      simp only
      cases hd : get s.disk k with
      | none => exact same (.get k) rfl
      | some v =>
        simp only
        obtain ⟨s', h1, h2, h3, h4, h5, -, -, h8⟩ :=
          flush_spec e { s with cache := put s.cache k v } (nodupKeys_put hn k v) h0 hs
        rw [h1]
        simp only at h2 h3 h5 h8
        refine ⟨s', rfl, h3, h4, h2, fun _ _ _ => h5, ?_, ?_⟩
        · intro k' v' hv
          rcases cached k v hd k' v' (h8 k' v' hv) with h | h
          · exact .inl h
          · exact .inr (.inl h)
        · intro _ hco k' v' hv
          rw [h2]
          rcases cached k v hd k' v' (h8 k' v' hv) with h | h
          · exact hco _ _ h
          · exact h
  | contains k =>
    simp only [step, contains]
    cases hc : get s.cache k with
    | some v => exact same (.contains k) rfl
    | none =>
      simp only
      cases hd : get s.disk k with
      | none => exact same (.contains k) rfl
      | some v =>
        refine ⟨_, rfl, rfl, nodupKeys_put hn k v, rfl, fun h => by simp [isContains] at h, ?_, ?_⟩
        · intro k' v' hv
          rcases cached k v hd k' v' hv with h | h
          · exact .inl h
          · exact .inr (.inl h)
        · intro _ hco k' v' hv
          rcases cached k v hd k' v' hv with h | h
          · exact hco _ _ h
          · exact h
  | insert k v ok =>
    simp only [step, insert]
    cases ok with
    | false => exact same (.insert k v false) rfl
    | true =>
      simp only [if_true]
      obtain ⟨s', h1, h2, h3, h4, h5, -, -, h8⟩ :=
        flush_spec e { s with disk := put s.disk k v, cache := put s.cache k v }
          (nodupKeys_put hn k v) h0 hs
      rw [h1]
      simp only at h2 h3 h5 h8
      refine ⟨s', rfl, h3, h4, h2, fun _ _ _ => h5, ?_, ?_⟩
      · intro k' v' hv
        rcases mem_of_get_putAll (kvs := [(k, v)]) (h8 k' v' hv) with h | h
        · exact .inl h
        · exact .inr (.inr h)
      · intro _ hco k' v' hv
        rw [h2]
        exact coherent_putAll [(k, v)] hco k' v' (h8 k' v' hv)
  | batch ks vs ok =>
    simp only [step, insertBatch]
    by_cases hl : ks.length = vs.length
    · rw [if_neg (by simp [hl])]
      cases ok with
      | false =>
        simp only [Bool.false_eq_true, if_false]
        refine ⟨_, rfl, rfl, nodup_putAll _ hn, rfl, fun _ h => by simp [refusedBatch] at h, ?_,
          fun h => by simp [refusedBatch] at h⟩
        intro k' v' hv
        rcases mem_of_get_putAll hv with h | h
        · exact .inl h
        · exact .inr (.inr h)
      | true =>
        simp only [if_true]
        obtain ⟨s', h1, h2, h3, h4, h5, -, -, h8⟩ :=
          flush_spec e { s with disk := putAll s.disk (ks.zip vs)
                                cache := putAll s.cache (ks.zip vs) } (nodup_putAll _ hn) h0 hs
        rw [h1]
        simp only at h2 h3 h5 h8
        have hw : writes (.batch ks vs true) = ks.zip vs := by simp [writes, hl]
        refine ⟨s', rfl, h3, h4, by rw [h2, hw], fun _ _ _ => h5, ?_, ?_⟩
        · intro k' v' hv
          rcases mem_of_get_putAll (h8 k' v' hv) with h | h
          · exact .inl h
          · exact .inr (.inr h)
        · intro _ hco k' v' hv
          rw [h2]
          exact coherent_putAll _ hco k' v' (h8 k' v' hv)
    · rw [if_pos hl]
      exact same (.batch ks vs ok) (by cases ok <;> simp [writes, hl])
  | remove ks => exact same (.remove ks) rfl
  | flush =>
    simp only [step]
    obtain ⟨s', h1, h2, h3, h4, h5, -, -, h8⟩ := flush_spec e s hn h0 hs
    refine ⟨s', h1, h3, h4, h2, fun _ _ _ => h5, fun k v hv => .inl (h8 k v hv), ?_⟩
    intro _ hco k v hv
    rw [h2]
    exact hco _ _ (h8 k v hv)

/-- Facts that hold after every history. -/
theorem run_spec {init : List (Bytes × Bytes)} {size : Nat} (h0 : 0 < size) (hs : size * 2 < 2 ^ 64)
    {ops : List Op} {s : Db} (hr : Run (new init size) ops s) :
    s.size = size ∧ NodupKeys s.cache ∧ s.disk = putAll init (ops.flatMap writes) ∧
      ((∀ op ∈ ops, refusedBatch op = false) → ∀ k v, get s.cache k = some v → get s.disk k = some v) ∧
      ((∀ op ∈ ops, refusedBatch op = false ∧ isContains op = false) → s.cache.length ≤ size * 2) ∧
      (∀ k v, get s.cache k = some v → (k, v) ∈ init ∨ (k, v) ∈ ops.flatMap attempts) ∧
      (∀ k v, get s.disk k = some v → (k, v) ∈ init ∨ (k, v) ∈ ops.flatMap attempts) := by
  generalize hb : new init size = b at hr
  induction hr with
  | nil =>
    subst hb
    refine ⟨rfl, List.Pairwise.nil, rfl, fun _ k v h => ?_, fun _ => ?_, fun k v h => ?_, fun k v h => ?_⟩
    · simp [new, get_nil] at h
    · simp [new]
    · simp [new, get_nil] at h
    · exact .inl (mem_of_get h)
  | @snoc s' s'' ops op e hr' hstep ih =>
    obtain ⟨i1, i2, i3, i4, i5, i6, i7⟩ := ih
    obtain ⟨t, h1, h2, h3, h4, h5, h6, h7⟩ := step_spec e s' op i2 (by omega) (by omega)
    rw [hstep] at h1
    simp only [Outcome.ok.injEq] at h1
    subst h1
    have hwa : ∀ kv ∈ writes op, kv ∈ attempts op := by
      intro kv hkv
      cases op with
      | insert k v ok => cases ok <;> simp_all [writes, attempts]
      | batch ks vs ok =>
        cases ok with
        | false => simp [writes] at hkv
        | true =>
          simp only [writes] at hkv
          split at hkv
          · exact hkv
          · simp at hkv
      | _ => simp [writes] at hkv
    refine ⟨by omega, h3, ?_, ?_, ?_, ?_, ?_⟩
    · rw [h4, i3, List.flatMap_append]
      simp [putAll, List.foldl_append]
    · intro hall
      exact h7 (hall op (by simp)) (i4 fun o ho => hall o (by simp [ho]))
    · intro hall
      have h := hall op (by simp)
      have := h5 h.2 h.1 (by rw [i1]; exact i5 fun o ho => hall o (by simp [ho]))
      omega
    · intro k v hv
      rw [List.flatMap_append]
      rcases h6 k v hv with h | h | h
      · rcases i6 k v h with h | h
        · exact .inl h
        · exact .inr (List.mem_append_left _ h)
      · rcases i7 k v h with h | h
        · exact .inl h
        · exact .inr (List.mem_append_left _ h)
      · exact .inr (List.mem_append_right _ (by simpa using h))
    · intro k v hv
      rw [List.flatMap_append]
      rw [h4] at hv
      rcases mem_of_get_putAll hv with h | h
      · rcases i7 k v h with h | h
        · exact .inl h
        · exact .inr (List.mem_append_left _ h)
      · exact .inr (List.mem_append_right _ (by simpa using hwa _ h))

/-! ## C41 -/

/-- RocksDB holds exactly the newest accepted value of every key, after every history, refused writes
included. -/
theorem C41_stored {init : List (Bytes × Bytes)} {size : Nat} (h0 : 0 < size) (hs : size * 2 < 2 ^ 64)
    {ops : List Op} {s : Db} (hr : Run (new init size) ops s) (k : Bytes) :
    get s.disk k = newest init ops k := by
  obtain ⟨-, -, h, -⟩ := run_spec h0 hs hr
  rw [h, get_putAll]
  rfl

/-- A read, cached or not, returns the stored value, and `contains` says whether there is one; for every
history, order of enumeration and choice of evictions.  Partial: no batch of the history was refused by
RocksDB (`C41_refused_false`) and the cache size is neither `0` (`C41_zero_false`) nor `≥ 2^63`. -/
theorem C41_read_partial {init : List (Bytes × Bytes)} {size : Nat} (h0 : 0 < size) (hs : size * 2 < 2 ^ 64)
    {ops : List Op} {s : Db} (hr : Run (new init size) ops s) (hok : ∀ op ∈ ops, refusedBatch op = false)
    (e : Env) (k : Bytes) :
    (∃ s', get' e s k = .ok (s', newest init ops k)) ∧
      (contains s k).2 = (newest init ops k).isSome := by
  obtain ⟨h1, h2, -, h4, -⟩ := run_spec h0 hs hr
  have hd := C41_stored h0 hs hr k
  have hco := h4 hok k
  rw [← hd]
  constructor
  · unfold get'
    cases hc : get s.cache k with
    | some v => exact ⟨s, by rw [hco v hc]⟩
    | none =>
      simp only
      cases hk : get s.disk k with
      | none => exact ⟨s, rfl⟩
      | some v =>
        simp only
        obtain ⟨s', h, -⟩ := flush_spec e { s with cache := put s.cache k v }
          (nodupKeys_put h2 k v) (by simp only; omega) (by simp only; omega)
        exact ⟨s', by rw [h]⟩
  · unfold contains
    cases hc : get s.cache k with
    | some v => simp [hco v hc]
    | none =>
      cases hk : get s.disk k with
      | none => rfl
      | some v => rfl

/-- The cache never holds more than twice the configured number of entries.  Partial: for histories without
`contains` (`C41_contains_false`) and without refused batches. -/
theorem C41_bound_partial {init : List (Bytes × Bytes)} {size : Nat} (h0 : 0 < size) (hs : size * 2 < 2 ^ 64)
    {ops : List Op} {s : Db} (hr : Run (new init size) ops s)
    (hok : ∀ op ∈ ops, refusedBatch op = false ∧ isContains op = false) :
    s.cache.length ≤ size * 2 :=
  (run_spec h0 hs hr).2.2.2.2.1 hok

/-- Whatever the history, a flush brings the cache back under its bound; an eviction leaves exactly
`cache_size` entries, and none of them is new. -/
theorem C41_flush {init : List (Bytes × Bytes)} {size : Nat} (h0 : 0 < size) (hs : size * 2 < 2 ^ 64)
    {ops : List Op} {s : Db} (hr : Run (new init size) ops s) (e : Env) :
    ∃ s', flush e s = .ok s' ∧
      (s.cache.length ≤ size * 2 → s'.cache = s.cache) ∧
      (size * 2 < s.cache.length → s'.cache.length = size) ∧
      (∀ k v, get s'.cache k = some v → get s.cache k = some v) ∧ s'.disk = s.disk := by
  obtain ⟨h1, h2, -⟩ := run_spec h0 hs hr
  obtain ⟨s', g1, g2, -, -, -, g6, g7, g8⟩ := flush_spec e s h2 (by omega) (by omega)
  rw [h1] at g6 g7
  exact ⟨s', g1, g6, g7, g8, g2⟩

/-- No operation aborts the node. -/
theorem C41_total {init : List (Bytes × Bytes)} {size : Nat} (h0 : 0 < size) (hs : size * 2 < 2 ^ 64)
    {ops : List Op} {s : Db} (hr : Run (new init size) ops s) (e : Env) (op : Op) :
    ∃ s', step e s op = .ok s' := by
  obtain ⟨h1, h2, -⟩ := run_spec h0 hs hr
  obtain ⟨s', h, -⟩ := step_spec e s op h2 (by omega) (by omega)
  exact ⟨s', h⟩

/-- If keys are determined by values, as the keys of trie nodes are, then a read never returns a value that
does not belong to its key, even after refused writes. -/
theorem C41_addressed {init : List (Bytes × Bytes)} {size : Nat} (h0 : 0 < size) (hs : size * 2 < 2 ^ 64)
    (addr : Bytes → Bytes) {ops : List Op} {s : Db} (hr : Run (new init size) ops s)
    (hi : ∀ kv ∈ init, kv.1 = addr kv.2) (ho : ∀ op ∈ ops, ∀ kv ∈ attempts op, kv.1 = addr kv.2)
    (e : Env) (k v : Bytes) (s' : Db) (hg : get' e s k = .ok (s', some v)) : k = addr v := by
  obtain ⟨h1, h2, -, -, -, h6, h7⟩ := run_spec h0 hs hr
  have fin : ((k, v) ∈ init ∨ (k, v) ∈ ops.flatMap attempts) → k = addr v := by
    rintro (h | h)
    · exact hi _ h
    · obtain ⟨op, hop, hm⟩ := List.mem_flatMap.1 h
      exact ho op hop _ hm
  unfold get' at hg
  cases hc : get s.cache k with
  | some w =>
    rw [hc] at hg
    simp only [Outcome.ok.injEq, Prod.mk.injEq, Option.some.injEq] at hg
    exact fin (h6 k v (hg.2 ▸ hc))
  | none =>
    rw [hc] at hg
    simp only at hg
    cases hk : get s.disk k with
    | none => rw [hk] at hg; simp at hg
    | some w =>
      rw [hk] at hg
      simp only at hg
      split at hg
      · simp only [Outcome.ok.injEq, Prod.mk.injEq, Option.some.injEq] at hg
        exact fin (h7 k v (hg.2 ▸ hk))
      · cases hg
      · cases hg

/-! ## What fails -/

/-- After a refused batch the cache serves values RocksDB does not hold: for every database, a batch with a
new pair that RocksDB refuses makes the pair readable, though it was never stored. -/
theorem C41_refused_false (init : List (Bytes × Bytes)) (size : Nat) (e : Env) (k v : Bytes)
    (hk : get init k = none) :
    ∃ s, insertBatch e (new init size) [k] [v] false = .ok (s, false) ∧
      newest init [.batch [k] [v] false] k = none ∧ get s.disk k = none ∧
      ∀ e', get' e' s k = .ok (s, some v) := by
  refine ⟨_, rfl, by simp [newest, writes, hk], hk, fun e' => ?_⟩
  simp [get', new, putAll, get_put]

/-- The keys `i` copies of a byte, as many as asked for. -/
def manyKeys : Nat → List (Bytes × Bytes)
  | 0 => []
  | n + 1 => (List.replicate n 7, [1]) :: manyKeys n

theorem manyKeys_lt {n : Nat} {kv : Bytes × Bytes} (h : kv ∈ manyKeys n) : kv.1.length < n := by
  induction n with
  | zero => simp [manyKeys] at h
  | succ n ih =>
    rcases List.mem_cons.1 h with h | h
    · subst h; simp
    · have := ih h; omega

theorem nodup_manyKeys (n : Nat) : NodupKeys (manyKeys n) := by
  induction n with
  | zero => exact List.Pairwise.nil
  | succ n ih =>
    refine List.pairwise_cons.2 ⟨?_, ih⟩
    intro b hb hc
    have := manyKeys_lt hb
    rw [← hc] at this
    simp at this

theorem put_fresh {m : List (Bytes × Bytes)} {k v : Bytes} (h : get m k = none) : put m k v = (k, v) :: m := by
  unfold put
  congr 1
  rw [List.filter_eq_self]
  intro x hx
  simp only [ne_eq, decide_not, Bool.not_eq_eq_eq_not, Bool.not_true, decide_eq_false_iff_not]
  intro hc
  have : (get m k).isSome := get_isSome_iff.2 ⟨x.2, by rw [← hc]; exact hx⟩
  rw [h] at this
  exact absurd this (by simp)

/-- `contains` has no bound: whatever the cache size, asking for `n` stored keys leaves `n` entries in the
cache. -/
theorem C41_contains_false (size n : Nat) (e : Env) :
    ∃ ops s, (∀ op ∈ ops, isContains op = true) ∧ Run (new (manyKeys n) size) ops s ∧ s.cache.length = n := by
  suffices H : ∀ m, m ≤ n → ∃ ops, (∀ op ∈ ops, isContains op = true) ∧
      Run (new (manyKeys n) size) ops ⟨manyKeys n, manyKeys m, size⟩ by
    obtain ⟨ops, h1, h2⟩ := H n (Nat.le_refl n)
    refine ⟨ops, _, h1, h2, ?_⟩
    simp only
    clear H h1 h2 ops
    induction n with
    | zero => rfl
    | succ n ih => simp [manyKeys, ih]
  intro m
  induction m with
  | zero => exact fun _ => ⟨[], by simp, .nil _⟩
  | succ m ih =>
    intro hm
    obtain ⟨ops, h1, h2⟩ := ih (by omega)
    refine ⟨ops ++ [.contains (List.replicate m 7)], ?_, .snoc e h2 ?_⟩
    · intro op hop
      rcases List.mem_append.1 hop with h | h
      · exact h1 op h
      · rw [List.mem_singleton.1 h]; rfl
    · have hc : get (manyKeys m) (List.replicate m 7) = none := by
        cases hg : get (manyKeys m) (List.replicate m (7 : UInt8)) with
        | none => rfl
        | some v => exact absurd (manyKeys_lt (mem_of_get hg)) (by simp)
      have hd : get (manyKeys n) (List.replicate m 7) = some [1] := by
        refine get_of_mem (nodup_manyKeys n) ?_
        clear hc h1 h2 ih ops
        induction n with
        | zero => omega
        | succ n ih =>
          by_cases h : m = n
          · subst h; simp [manyKeys]
          · exact List.mem_cons_of_mem _ (ih (by omega))
      simp only [step, contains]
      rw [hc]
      simp only
      rw [hd]
      simp only [put_fresh hc, manyKeys]

/-- With `cache_size = 0` the first read of a stored key aborts the node. -/
theorem C41_zero_false (init : List (Bytes × Bytes)) (e : Env) (k v : Bytes) (h : get init k = some v) :
    get' e (new init 0) k = .panic := by
  simp only [get', new, get_nil, h]
  have hp : flush e ⟨init, put [] k v, 0⟩ = .panic := by
    unfold flush
    rw [if_neg (by simp), if_neg (by simp [put])]
    unfold removeList
    have hl : (e.order ((put ([] : List (Bytes × Bytes)) k v).map (·.1))).length = 1 := by
      rw [(e.perm _).length_eq]; simp [put]
    have := pick_panic e (e.order ((put ([] : List (Bytes × Bytes)) k v).map (·.1)))
      ((put ([] : List (Bytes × Bytes)) k v).length - 0) 0
      (List.range ((e.order ((put ([] : List (Bytes × Bytes)) k v).map (·.1))).length - 1))
      (by rw [hl]; simp) (by rw [hl]; simp [put])
    simp only
    rw [this]
  rw [hp]

/-! ## Non-vacuity -/


/-- Some order and some numbers. -/
def testEnv : Env := ⟨id, fun _ => List.Perm.refl _, fun i => 3 * i + 1⟩

/-- Cache size 1, four pairs: evictions happen. -/
def testOps : List Op :=
  [.insert [1] [10] true, .batch [[2], [3], [1]] [[20], [30], [11]] true, .get [1], .contains [2],
   .insert [4] [40] false, .get [2]]

/-- Runs a list of operations. -/
def exec (e : Env) : List Op → Db → Outcome Db
  | [], s => .ok s
  | op :: ops, s => match step e s op with
    | .ok s' => exec e ops s'
    | .err => .err
    | .panic => .panic

theorem run_of_exec (e : Env) {b s s' : Db} {done ops : List Op} (hr : Run b done s)
    (h : exec e ops s = .ok s') : Run b (done ++ ops) s' := by
  induction ops generalizing s done with
  | nil => simp only [exec, Outcome.ok.injEq] at h; subst h; simpa using hr
  | cons op ops ih =>
    unfold exec at h
    split at h
    · rename_i t ht
      have := ih (hr.snoc e ht) h
      simpa using this
    · cases h
    · cases h

/-- The hypotheses of the theorems are met by a history with evictions, overwritten keys and a refused
single write. -/
example : ∃ s, Run (new [([9], [90])] 1) testOps s ∧ (∀ op ∈ testOps, refusedBatch op = false) ∧
    newest [([9], [90])] testOps [1] = some [11] ∧ newest [([9], [90])] testOps [4] = none ∧
    newest [([9], [90])] testOps [9] = some [90] ∧ s.cache.length = 2 ∧ s.disk.length = 4 := by
  refine ⟨⟨[([1], [11]), ([3], [30]), ([2], [20]), ([9], [90])], [([1], [11]), ([2], [20])], 1⟩,
    by simpa using run_of_exec testEnv (.nil _) (by rfl), by decide +kernel, by decide +kernel,
    by decide +kernel, by decide +kernel, rfl, rfl⟩

end Axon.TrieDb
