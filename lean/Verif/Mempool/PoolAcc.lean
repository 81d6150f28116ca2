import Verif.Mempool.PoolProps

/-!
# Size accounting of the pool: lemmas
-/

namespace Axon.Pool
open Axon.Assoc

/-- `len`, `pool.rs:211-213` -/
def len (s : Pool) : Nat := s.stock

/-- Hashes of all stored transactions. -/
def stored (s : Pool) : List Nat :=
  s.txMap.map (fun p => (s.heap.tx p).hash) ++ s.sys.buckets.flatMap (fun e => e.2.map (·.1))

theorem stored_length (s : Pool) : (stored s).length = s.txMap.length + s.sys.total := by
  unfold stored Sys.total
  rw [List.length_append, List.length_map, List.length_flatMap]
  congr 2
  apply List.map_congr_left
  intro e _; simp

theorem mem_stored_of_contains {s : Pool} {h : Nat} (hc : contains s h = true) : h ∈ stored s := by
  unfold contains at hc
  rw [Bool.or_eq_true] at hc
  unfold stored
  rw [List.mem_append]
  rcases hc with hc | hc
  · obtain ⟨p, hp, he⟩ := find_isSome.1 hc
    exact .inl (List.mem_map.2 ⟨p, hp, he⟩)
  · right
    unfold Sys.contains at hc
    split at hc
    · rename_i d hd
      split at hc
      · rename_i m hm
        obtain ⟨t, ht⟩ := get_isSome_iff.1 hc
        exact List.mem_flatMap.2 ⟨(d, m), mem_of_get hm, List.mem_map.2 ⟨(h, t), ht, rfl⟩⟩
      · cases hc
    · cases hc

/-- Every bucket holds one transaction, known to `hash_data_map`, and the counter is exact. -/
structure Exact (P : PoolTx → Prop) (s : Pool) : Prop where
  from' : ∀ d m h t, (d, m) ∈ s.sys.buckets → (h, t) ∈ m → P t
  known : ∀ d m h t, (d, m) ∈ s.sys.buckets → (h, t) ∈ m → get s.sys.hashData h = some d
  single : ∀ d m, (d, m) ∈ s.sys.buckets → m.length = 1
  stock : s.stock = s.txMap.length + s.sys.total

theorem Exact.congr {P : PoolTx → Prop} {s s' : Pool} (e : Exact P s) (h : s'.sys = s.sys)
    (hs : s'.stock = s'.txMap.length + s'.sys.total) : Exact P s' :=
  ⟨by rw [h]; exact e.from', by rw [h]; exact e.known, by rw [h]; exact e.single, hs⟩

theorem insertTail_exact {P : PoolTx → Prop} {s : Pool} {t : PoolTx} {d : Nat} (e : Exact P { s with stock := s.stock - 1 })
    (hp : 0 < s.stock) : Exact P (insertTail s t d) := by
  have := e.stock
  simp only at this
  unfold Pool.insertTail
  split
  · exact ⟨e.from', e.known, e.single, e.stock⟩
  · exact ⟨e.from', e.known, e.single, by simp only [List.length_append, List.length_singleton]; omega⟩

theorem Exact.insert {P : PoolTx → Prop} {s : Pool} {t : PoolTx} {c : Bool} {d : Nat} (g : Good s)
    (e : Exact P s) {r} (hr : insert s t c d = some r) : Exact P r.1 := by
  unfold Pool.insert at hr
  split at hr
  · simp only [Option.some.injEq] at hr; subst hr; exact e
  · simp only at hr
    split at hr
    · simp only [Option.map_eq_some_iff] at hr
      obtain ⟨s2, h2, he⟩ := hr
      subst he
      obtain ⟨i2, same, co2⟩ := flushToPending_inv (g.inv.withStock (s.stock + 1)) h2
      refine insertTail_exact (e.congr same.sys ?_) (by rw [same.stock]; exact Nat.succ_pos _)
      simp only [same.sys, same.txMap, same.stock]; exact e.stock
    · simp only [Option.some.injEq] at hr; subst hr
      exact insertTail_exact ⟨e.from', e.known, e.single, e.stock⟩ (Nat.succ_pos _)

theorem Exact.insertSys {P : PoolTx → Prop} {s : Pool} {t : PoolTx} (g : Good s) (e : Exact P s) (ht : P t)
    (hash : ∀ a b, P a → P b → a.hash = b.hash → a = b)
    (data : ∀ a b, P a → P b → a.data = b.data → a.hash = b.hash) : Exact P (insertSys s t) := by
  obtain ⟨_, htot⟩ := g.sys.insert t
  obtain ⟨ho, hc⟩ := g.sys.oldOk t.data
  -- the bucket of this data holds at most this transaction
  have hold : ∀ hh t', (hh, t') ∈ (get s.sys.buckets t.data).getD [] → hh = t.hash ∧ t' = t := by
    intro hh t' hm
    obtain ⟨a, b⟩ := hc hh t' hm
    have hP : P t' := by
      cases hg : get s.sys.buckets t.data with
      | none => rw [hg] at hm; simp at hm
      | some m => rw [hg] at hm; exact e.from' _ m hh t' (mem_of_get hg) hm
    have := data t' t hP ht b
    exact ⟨by rw [← a, this], hash t' t hP ht this⟩
  have hnew : sput t.hash t ((get s.sys.buckets t.data).getD []) = [(t.hash, t)] := by
    cases hg : (get s.sys.buckets t.data).getD [] with
    | nil => rfl
    | cons x l =>
      have hx := hold x.1 x.2 (by rw [hg]; simp)
      cases l with
      | nil => simp [sput, hx.1]
      | cons y l =>
        have hy := hold y.1 y.2 (by rw [hg]; simp)
        rw [hg] at ho
        have := (List.pairwise_cons.1 ho).1 y (by simp)
        omega
  have hb : (Pool.insertSys s t).sys.buckets = (t.data, [(t.hash, t)]) :: s.sys.buckets.filter (fun e => e.1 ≠ t.data) := by
    simp only [Pool.insertSys, Sys.insert, put, hnew]
  refine ⟨?_, ?_, ?_, ?_⟩
  · intro d m h t' hm hm'
    rw [hb] at hm
    rcases List.mem_cons.1 hm with hm | hm
    · simp only [Prod.mk.injEq] at hm
      rw [hm.2] at hm'; simp at hm'; rw [hm'.2]; exact ht
    · exact e.from' d m h t' (List.mem_filter.1 hm).1 hm'
  · intro d m h t' hm hm'
    rw [hb] at hm
    have hd : (Pool.insertSys s t).sys.hashData = put s.sys.hashData t.hash t.data := rfl
    rw [hd, get_put]
    rcases List.mem_cons.1 hm with hm | hm
    · simp only [Prod.mk.injEq] at hm
      rw [hm.2] at hm'; simp at hm'; simp [hm'.1, hm.1]
    · obtain ⟨hm1, hm2⟩ := List.mem_filter.1 hm
      have hP := e.from' d m h t' hm1 hm'
      have hok := (g.sys.ok d m hm1).2.2 h t' hm'
      have : h ≠ t.hash := by
        intro hh
        have := hash t' t hP ht (hok.1.trans hh)
        simp only [ne_eq, decide_not, Bool.not_eq_eq_eq_not, Bool.not_true, decide_eq_false_iff_not] at hm2
        exact hm2 (by rw [← hok.2, this])
      simp only [this, if_false]
      exact e.known d m h t' hm1 hm'
  · intro d m hm
    rw [hb] at hm
    rcases List.mem_cons.1 hm with hm | hm
    · simp only [Prod.mk.injEq] at hm; rw [hm.2]; rfl
    · exact e.single d m (List.mem_filter.1 hm).1
  · have := e.stock
    simp only [Pool.insertSys]
    rw [htot]
    split <;> omega

theorem sysFlush_exact (hashes : List Nat) : ∀ (b : Sys), SysOk b →
    (∀ d m h t, (d, m) ∈ b.buckets → (h, t) ∈ m → get b.hashData h = some d) →
    (∀ d m, (d, m) ∈ b.buckets → m.length = 1) →
    (∀ d m h t, (d, m) ∈ (b.flush hashes).1.buckets → (h, t) ∈ m →
      get (b.flush hashes).1.hashData h = some d) ∧
    (b.flush hashes).1.total + (b.flush hashes).2 = b.total := by
  induction hashes with
  | nil => intro b _ hk _; exact ⟨hk, rfl⟩
  | cons hash rest ih =>
    intro b ok hk hs
    unfold Sys.flush
    split
    · exact ih b ok hk hs
    · rename_i d hd
      have h' : SysOk ⟨del b.hashData hash, del b.buckets d⟩ :=
        ⟨nodupKeys_del ok.keys _, fun d' m hm => ok.ok d' m (List.mem_filter.1 hm).1⟩
      obtain ⟨a, c⟩ := ih ⟨del b.hashData hash, del b.buckets d⟩ h'
        (by
          intro d' m h t hm hm'
          obtain ⟨hm1, hm2⟩ := List.mem_filter.1 hm
          have := hk d' m h t hm1 hm'
          simp only
          rw [get_del]
          have hne : h ≠ hash := by
            rintro rfl
            rw [hd] at this
            cases this
            simp at hm2
          simp [hne, this])
        (fun d' m hm => hs d' m (List.mem_filter.1 hm).1)
      refine ⟨a, ?_⟩
      simp only
      cases hg : get b.buckets d with
      | none =>
        have : (⟨del b.hashData hash, del b.buckets d⟩ : Sys).total = b.total := by
          unfold Sys.total del; simp only [filter_ne_of_get_none hg]
        simp only [Option.isSome_none, Bool.false_eq_true, if_false]
        omega
      | some m =>
        have hlen : (⟨del b.hashData hash, del b.buckets d⟩ : Sys).total + m.length = b.total := by
          unfold Sys.total del
          exact sum_filter_ne (fun e : Nat × List (Nat × PoolTx) => e.2.length) ok.keys hg
        have := hs d m (mem_of_get hg)
        simp only [Option.isSome_some, if_true]
        omega

theorem Exact.flush {P : PoolTx → Prop} {s s' : Pool} {hashes : List Nat} {number : Nat} (g : Good s)
    (e : Exact P s) (hr : flush s hashes number = some s') : Exact P s' := by
  obtain ⟨s1, s2, n, g1, sm1, co1, f, i2, m2, hs'⟩ := flush_steps g hr
  have esys : s2.sys = s.sys := f.sys.trans sm1.sys
  obtain ⟨a, b⟩ := sysFlush_exact hashes s2.sys (by rw [esys]; exact g.sys)
    (by rw [esys]; exact e.known) (by rw [esys]; exact e.single)
  have e1 : s'.sys = (s2.sys.flush hashes).1 := by rw [hs']
  have e2 : s'.txMap = s2.txMap := by rw [hs']
  have e3 : s'.stock = s2.stock - (n + (s2.sys.flush hashes).2) := by rw [hs']
  refine ⟨?_, by rw [e1]; exact a, ?_, ?_⟩
  · intro d m h t hm ht
    rw [e1] at hm
    exact e.from' d m h t (esys ▸ Sys.flush_sub hashes s2.sys _ hm) ht
  · intro d m hm
    rw [e1] at hm
    exact e.single d m (esys ▸ Sys.flush_sub hashes s2.sys _ hm)
  · have h1 := f.num
    have h2 := e.stock
    have h3 := f.stock
    rw [sm1.txMap] at h1
    rw [sm1.stock] at h3
    rw [esys] at b
    rw [e1, e2, e3, esys]
    omega

theorem Exact.step {P : PoolTx → Prop} (hash : ∀ a b, P a → P b → a.hash = b.hash → a = b)
    (data : ∀ a b, P a → P b → a.data = b.data → a.hash = b.hash) {s s' : Pool} {op : Op}
    (hop : ∀ t, op = .insertSys t → P t) (g : Good s) (e : Exact P s) (hr : step s op = some s') :
    Exact P s' := by
  cases op with
  | insert t c d =>
    simp only [Pool.step, Option.map_eq_some_iff] at hr
    obtain ⟨r, h, rfl⟩ := hr
    exact e.insert g h
  | insertSys t =>
    simp only [Pool.step, Option.some.injEq] at hr; subst hr
    exact e.insertSys g (hop t rfl) hash data
  | package l st =>
    simp only [Pool.step, Option.map_eq_some_iff] at hr
    obtain ⟨r, h, rfl⟩ := hr
    have sm := (g.package h).2.1
    exact e.congr sm.sys (by rw [sm.sys, sm.stock, sm.txMap]; exact e.stock)
  | refresh =>
    have sm := (g.refresh hr).2.1
    exact e.congr sm.sys (by rw [sm.sys, sm.stock, sm.txMap]; exact e.stock)
  | flush hs n => exact e.flush g hr

theorem Exact.run {P : PoolTx → Prop} (hash : ∀ a b, P a → P b → a.hash = b.hash → a = b)
    (data : ∀ a b, P a → P b → a.data = b.data → a.hash = b.hash) {ops : List Op} {s s' : Pool}
    (hop : ∀ t, Op.insertSys t ∈ ops → P t) (g : Good s) (e : Exact P s) (hr : run s ops = some s') :
    Exact P s' := by
  induction ops generalizing s with
  | nil => simp only [Pool.run, Option.some.injEq] at hr; subst hr; exact e
  | cons op ops ih =>
    simp only [Pool.run] at hr
    split at hr
    · cases hr
    · rename_i s1 h1
      exact ih (fun t ht => hop t (List.mem_cons_of_mem _ ht)) (g.step h1)
        (e.step hash data (fun t ht => hop t (by rw [ht]; simp)) g h1) hr

/-! ## Configuration -/

theorem insertTail_cfg (s : Pool) (t : PoolTx) (d : Nat) :
    (insertTail s t d).cap = s.cap ∧ (insertTail s t d).gap = s.gap := by
  unfold Pool.insertTail; split <;> exact ⟨rfl, rfl⟩

theorem step_cfg {s s' : Pool} {op : Op} (g : Good s) (hr : step s op = some s') :
    s'.cap = s.cap ∧ s'.gap = s.gap := by
  cases op with
  | insert t c d =>
    simp only [Pool.step, Option.map_eq_some_iff] at hr
    obtain ⟨r, h, rfl⟩ := hr
    unfold Pool.insert at h
    split at h
    · simp only [Option.some.injEq] at h; subst h; exact ⟨rfl, rfl⟩
    · simp only at h
      split at h
      · simp only [Option.map_eq_some_iff] at h
        obtain ⟨s2, h2, he⟩ := h
        subst he
        obtain ⟨i2, same, co2⟩ := flushToPending_inv (g.inv.withStock (s.stock + 1)) h2
        obtain ⟨a, b⟩ := insertTail_cfg s2 t d
        exact ⟨a.trans same.cap, b.trans same.gap⟩
      · simp only [Option.some.injEq] at h; subst h
        exact insertTail_cfg _ t d
  | insertSys t => simp only [Pool.step, Option.some.injEq] at hr; subst hr; exact ⟨rfl, rfl⟩
  | package l st =>
    simp only [Pool.step, Option.map_eq_some_iff] at hr
    obtain ⟨r, h, rfl⟩ := hr
    have sm := (g.package h).2.1
    exact ⟨sm.cap, sm.gap⟩
  | refresh =>
    have sm := (g.refresh hr).2.1
    exact ⟨sm.cap, sm.gap⟩
  | flush hs n =>
    obtain ⟨s1, s2, k, g1, sm1, co1, f, i2, m2, rfl⟩ := flush_steps g hr
    exact ⟨f.cap.trans sm1.cap, f.gap.trans sm1.gap⟩

theorem run_cfg {ops : List Op} {s s' : Pool} (g : Good s) (hr : run s ops = some s') :
    s'.cap = s.cap ∧ s'.gap = s.gap := by
  induction ops generalizing s with
  | nil => simp only [Pool.run, Option.some.injEq] at hr; subst hr; exact ⟨rfl, rfl⟩
  | cons op ops ih =>
    simp only [Pool.run] at hr
    split at hr
    · cases hr
    · rename_i s1 h1
      obtain ⟨a, b⟩ := ih (g.step h1) hr
      obtain ⟨c, d⟩ := step_cfg g h1
      exact ⟨a.trans c, b.trans d⟩

theorem insert_refused_iff (s : Pool) (t : PoolTx) (d : Nat) :
    (∃ r n, insert s t true d = some (r, .reachLimit n)) ↔ s.cap ≤ s.stock := by
  unfold Pool.insert
  by_cases h : s.cap ≤ s.stock
  · simp [h]
  · simp [h]

/-! ## The leak -/

/-- Two system-script transactions of round `k` with the same call data. -/
def leakA (k : Nat) : PoolTx := ⟨2 * k, 1, k, 5, 0⟩
def leakB (k : Nat) : PoolTx := ⟨2 * k + 1, 2, k, 5, 0⟩

/-- Both are inserted, one of them is committed. -/
def leakRound (k : Nat) : List Op := [.insertSys (leakA k), .insertSys (leakB k), .flush [2 * k] k]

def leakOps : Nat → List Op
  | 0 => []
  | k + 1 => leakOps k ++ leakRound k

structure Leaked (cap k : Nat) (s : Pool) : Prop where
  cap : s.cap = cap
  co : s.co = []
  map : s.txMap = []
  buckets : s.sys.buckets = []
  stock : s.stock = k

theorem commitLoop_nil (h : Heap) (hashes : List Nat) (tips : List (Nat × Nat)) (n : Nat) :
    commitLoop h hashes [] tips n = ([], tips, n) := by
  induction hashes with
  | nil => rfl
  | cons x l ih => simp [commitLoop, ih]

/-- Flushing a pool without ordinary transactions. -/
theorem flush_empty {s : Pool} (h1 : s.co = []) (h2 : s.txMap = []) (hashes : List Nat) (number : Nat) :
    ∃ s', flush s hashes number = some s' ∧ s'.cap = s.cap ∧ s'.co = [] ∧ s'.txMap = [] ∧
      s'.sys = (s.sys.flush hashes).1 ∧ s'.stock = s.stock - (s.sys.flush hashes).2 := by
  unfold flush flushToPending
  rw [h1]
  simp only [drain]
  unfold flushInner
  simp only [h2, commitLoop_nil, dropTips]
  exact ⟨_, rfl, rfl, rfl, rfl, rfl, by simp⟩

theorem leakRound_run {cap k : Nat} {s : Pool} (h : Leaked cap k s) :
    ∃ s', run s (leakRound k) = some s' ∧ Leaked cap (k + 1) s' := by
  obtain ⟨h1, h2, h3, h4, h5⟩ := h
  have hne : ¬ 2 * k + 1 < 2 * k := by omega
  have e1 : (insertSys (insertSys s (leakA k)) (leakB k)).sys.buckets =
      [(0, [(2 * k, leakA k), (2 * k + 1, leakB k)])] := by
    simp [insertSys, Sys.insert, h4, get_nil, get_cons, put, leakA, leakB, sput, hne]
  have e2 : (insertSys (insertSys s (leakA k)) (leakB k)).stock = k + 2 := by
    simp [insertSys, Sys.insert, h4, h5, get_nil, get_cons, put, leakA, leakB, sput]
  have e3 : get (insertSys (insertSys s (leakA k)) (leakB k)).sys.hashData (2 * k) = some 0 := by
    simp only [insertSys, Sys.insert, get_put, leakA, leakB]
    simp
  obtain ⟨s', hf, a, b, c, d, e⟩ := flush_empty (s := insertSys (insertSys s (leakA k)) (leakB k))
    (by simpa [insertSys] using h2) (by simpa [insertSys] using h3) [2 * k] k
  have e4 : (insertSys (insertSys s (leakA k)) (leakB k)).sys.flush [2 * k] =
      (⟨del (insertSys (insertSys s (leakA k)) (leakB k)).sys.hashData (2 * k), []⟩, 1) := by
    simp only [Sys.flush, e3, e1]
    simp [del, get_cons]
  refine ⟨s', ?_, ?_, b, c, ?_, ?_⟩
  · simp only [leakRound, run, step, hf]
  · rw [a]; simpa [insertSys] using h1
  · rw [d, e4]
  · rw [e, e4, e2]; rfl

theorem leakOps_run (cap gap k : Nat) :
    ∃ s, run (init cap gap) (leakOps k) = some s ∧ Leaked cap k s := by
  induction k with
  | zero => exact ⟨init cap gap, rfl, rfl, rfl, rfl, rfl, rfl⟩
  | succ k ih =>
    obtain ⟨s, h1, h2⟩ := ih
    obtain ⟨s', h3, h4⟩ := leakRound_run h2
    exact ⟨s', by simp only [leakOps, run_append, h1, Option.bind_some, h3], h4⟩

theorem leakOps_mem {k : Nat} {op : Op} (h : op ∈ leakOps k) :
    ∃ j, op = .insertSys (leakA j) ∨ op = .insertSys (leakB j) ∨ op = .flush [2 * j] j := by
  induction k with
  | zero => simp [leakOps] at h
  | succ k ih =>
    rcases List.mem_append.1 h with h | h
    · exact ih h
    · refine ⟨k, ?_⟩
      simpa [leakRound] using h

theorem leakOps_consistent (k : Nat) : Consistent (leakOps k) := by
  constructor
  · intro t c d t' c' d' h
    obtain ⟨j, h | h | h⟩ := leakOps_mem h <;> cases h
  · intro t t' h h' he
    obtain ⟨j, h | h | h⟩ := leakOps_mem h <;> obtain ⟨i, h' | h' | h'⟩ := leakOps_mem h' <;>
      cases h <;> cases h' <;> simp only [leakA, leakB] at he ⊢ <;> (try omega) <;>
      (have : j = i := by omega) <;> subst this <;> rfl
  · intro t c d t' h
    obtain ⟨j, h | h | h⟩ := leakOps_mem h <;> cases h

end Axon.Pool
