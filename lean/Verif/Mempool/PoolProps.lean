import Verif.Mempool.PoolSteps

/-!
# C16, C19, C20, C22: packaging, committing, accounting and order of the pool
-/

namespace Axon.Pool
open Axon.Assoc

/-! ## Specification -/

/-- A transaction hash stands for one transaction, and whether a transaction calls a system script is a
property of the transaction (`is_call_system_script(action)`, `core/mempool/src/lib.rs:188-197`). -/
structure Consistent (ops : List Op) : Prop where
  ord : ∀ t c d t' c' d', Op.insert t c d ∈ ops → Op.insert t' c' d' ∈ ops → t.hash = t'.hash → t = t'
  sys : ∀ t t', Op.insertSys t ∈ ops → Op.insertSys t' ∈ ops → t.hash = t'.hash → t = t'
  kind : ∀ t c d t', Op.insert t c d ∈ ops → Op.insertSys t' ∈ ops → t.hash ≠ t'.hash

/-- The ordinary transactions of a package. -/
def Packed.ordinary (r : Packed) : List Nat := r.hashes.drop r.sysCount

/-- The system-script transactions of a package. -/
def Packed.system (r : Packed) : List Nat := r.hashes.take r.sysCount

/-! ## Lemmas -/

theorem mapM_heads {l : List (Nat × List (Nat × PoolTx))} {r : List Nat}
    (h : l.mapM (fun e => e.2.head?.map (·.1)) = some r) :
    r.length = l.length ∧ ∀ i (hi : i < l.length) (hr : i < r.length),
      (l[i].2.head?).map (·.1) = some r[i] := by
  induction l generalizing r with
  | nil => simp at h; subst h; simp
  | cons e l ih =>
    rw [List.mapM_cons] at h
    cases h1 : e.2.head?.map (·.1) with
    | none => rw [h1] at h; simp at h
    | some a =>
      rw [h1] at h
      cases h2 : l.mapM (fun e => e.2.head?.map (·.1)) with
      | none => rw [h2] at h; simp at h
      | some r' =>
        rw [h2] at h
        simp at h
        subst h
        obtain ⟨a1, a2⟩ := ih h2
        refine ⟨by simp [a1], ?_⟩
        intro i hi hr
        cases i with
        | zero => simpa using h1
        | succ i => simpa using a2 i (by simpa using hi) (by simpa using hr)

theorem sysPackage_mem {b : Sys} (ok : SysOk b) {r : List Nat} (h : b.package = some r) {x : Nat}
    (hx : x ∈ r) : ∃ d m t, (d, m) ∈ b.buckets ∧ (x, t) ∈ m ∧ t.hash = x ∧ t.data = d := by
  obtain ⟨hl, hg⟩ := mapM_heads h
  obtain ⟨i, hi, rfl⟩ := List.getElem_of_mem hx
  have hi' : i < b.buckets.length := by omega
  have := hg i hi' hi
  generalize hbe : b.buckets[i] = e at this
  have hmem : e ∈ b.buckets := hbe ▸ List.getElem_mem hi'
  obtain ⟨d, m⟩ := e
  cases m with
  | nil => simp at this
  | cons y m =>
    simp at this
    have hh := (ok.ok d _ hmem).2.2 y.1 y.2 (by simp)
    exact ⟨d, _, y.2, hmem, by rw [← this]; simp, by rw [← this]; exact hh.1, hh.2⟩

theorem sysPackage_nodup {b : Sys} (ok : SysOk b)
    (hu : ∀ d m d' m' x t t', (d, m) ∈ b.buckets → (d', m') ∈ b.buckets → (x, t) ∈ m → (x, t') ∈ m' → t = t')
    {r : List Nat} (h : b.package = some r) : r.Nodup := by
  obtain ⟨hl, hg⟩ := mapM_heads h
  rw [List.nodup_iff_pairwise_ne, List.pairwise_iff_getElem]
  intro i j hi hj hij heq
  have hi' : i < b.buckets.length := by omega
  have hj' : j < b.buckets.length := by omega
  have g1 := hg i hi' hi
  have g2 := hg j hj' hj
  have hk := List.pairwise_iff_getElem.1 ok.keys i j hi' hj' hij
  generalize hbi : b.buckets[i] = e1 at g1 hk
  generalize hbj : b.buckets[j] = e2 at g2 hk
  have m1 : e1 ∈ b.buckets := hbi ▸ List.getElem_mem hi'
  have m2 : e2 ∈ b.buckets := hbj ▸ List.getElem_mem hj'
  obtain ⟨d1, l1⟩ := e1
  obtain ⟨d2, l2⟩ := e2
  cases l1 with
  | nil => simp at g1
  | cons y1 l1 =>
    cases l2 with
    | nil => simp at g2
    | cons y2 l2 =>
      simp only [List.head?_cons, Option.map_some, Option.some.injEq] at g1 g2
      have hy : y1.1 = y2.1 := by rw [g1, g2, heq]
      have ht := hu d1 _ d2 _ y1.1 y1.2 y2.2 m1 m2 (by simp) (by rw [hy]; simp)
      have a1 := (ok.ok d1 _ m1).2.2 y1.1 y1.2 (by simp)
      have a2 := (ok.ok d2 _ m2).2.2 y2.1 y2.2 (by simp)
      apply hk
      simp only
      rw [← a1.2, ← a2.2, ht]

/-- The live packageable transactions carry different hashes. -/
theorem live_hashes_nodup {s : Pool} (hi : Inv s) :
    ((s.real.filter (fun p => !s.heap.drp p)).map (fun p => (s.heap.tx p).hash)).Nodup := by
  rw [List.nodup_iff_pairwise_ne, List.pairwise_map]
  have hnd : (s.real.filter (fun p => !s.heap.drp p)).Pairwise (· ≠ ·) :=
    (hi.realNodup.sublist List.filter_sublist)
  refine List.Pairwise.imp_of_mem ?_ hnd
  intro a b ha hb hab
  have ha' := (hi.realOk a (List.mem_filter.1 ha).1).1
  have hb' := (hi.realOk b (List.mem_filter.1 hb).1).1
  intro heq
  exact hab (hash_inj hi.mapHash ha' hb' heq)
where
  hash_inj {f : Nat → PoolTx} {m : List Nat} (hd : m.Pairwise (fun a b => (f a).hash ≠ (f b).hash))
      {a b : Nat} (ha : a ∈ m) (hb : b ∈ m) (h : (f a).hash = (f b).hash) : a = b := by
    induction m with
    | nil => simp at ha
    | cons x m ih =>
      have hd' := List.pairwise_cons.1 hd
      rcases List.mem_cons.1 ha with ha' | ha' <;> rcases List.mem_cons.1 hb with hb' | hb'
      · rw [ha', hb']
      · subst ha'; exact absurd h (hd'.1 b hb')
      · subst hb'; exact absurd h.symm (hd'.1 a ha')
      · exact ih hd'.2 ha' hb'

theorem find_of_mem {s : Pool} (hi : Inv s) {p : Nat} (hp : p ∈ s.txMap) :
    find s (s.heap.tx p).hash = some p := by
  cases h : find s (s.heap.tx p).hash with
  | none => exact absurd rfl (find_none h p hp)
  | some q =>
    obtain ⟨a, b⟩ := find_some h
    rw [live_hashes_nodup.hash_inj hi.mapHash a hp b]

/-! ## C16 -/

/-- Packaging in any reachable pool: the number of ordinary transactions respects the limit, no hash
occurs twice, every ordinary hash is stored in the pool, no two of them have the same sender and nonce,
and if the pool did not hold such a hash at some earlier moment (never inserted, committed, replaced
and swept, or expired) then it was inserted after that moment. -/
theorem C16_package_partial {cap gap : Nat} (hc : 0 < cap) {ops : List Op} {s : Pool}
    (hrun : run (init cap gap) ops = some s) (hcons : Consistent ops)
    {limit : Nat} {st : Sorter} {s' : Pool} {r : Packed} (hp : package s limit st = some (s', r)) :
    r.ordinary.length ≤ limit ∧ r.hashes.Nodup ∧
    (∀ h ∈ r.ordinary, contains s' h = true) ∧
    (∀ h1 ∈ r.ordinary, ∀ h2 ∈ r.ordinary, ∀ t1 t2, getByHash s' h1 = some t1 → getByHash s' h2 = some t2 →
      t1.sender = t2.sender → t1.nonce = t2.nonce → h1 = h2) ∧
    (∀ h ∈ r.ordinary, ∀ a b sa, ops = a ++ b → run (init cap gap) a = some sa → contains sa h = false →
      ∃ t c d, Op.insert t c d ∈ b ∧ t.hash = h) := by
  have g := good_run hc hrun
  obtain ⟨g', sm, co', sh, hsh, hcount, hhash⟩ := g.package hp
  simp only at g' sm co' hcount hhash
  have i' := g'.inv
  have hord : r.ordinary =
      ((s'.real.filter (fun p => !s'.heap.drp p)).map (fun p => (s'.heap.tx p).hash)).take limit := by
    unfold Packed.ordinary; rw [hhash, hcount, List.drop_left]
  have hmem : ∀ h ∈ r.ordinary, ∃ p ∈ s'.txMap, (s'.heap.tx p).hash = h ∧ Here s' p := by
    intro h hh
    rw [hord] at hh
    obtain ⟨p, hp, rfl⟩ := List.mem_map.1 (List.mem_of_mem_take hh)
    obtain ⟨hp1, hp2⟩ := List.mem_filter.1 hp
    obtain ⟨a, b, c⟩ := i'.realOk p hp1
    refine ⟨p, a, rfl, ?_⟩
    rcases c with c | c
    · simp [c] at hp2
    · exact c
  refine ⟨?_, ?_, ?_, ?_, ?_⟩
  · rw [hord, List.length_take]; omega
  · rw [hhash, List.nodup_append]
    have o := run_origin (Good.init hc gap) hrun
    have osys : ∀ d m h t, (d, m) ∈ s.sys.buckets → (h, t) ∈ m → Op.insertSys t ∈ ops := by
      intro d m h t h1 h2
      rcases o.sysMap d m h t h1 h2 with ⟨m0, h3, _⟩ | h3
      · simp [init] at h3
      · exact h3
    refine ⟨?_, ?_, ?_⟩
    · apply sysPackage_nodup g.sys ?_ hsh
      intro d m d' m' x t t' h1 h2 h3 h4
      apply hcons.sys t t' (osys d m x t h1 h3) (osys d' m' x t' h2 h4)
      rw [((g.sys.ok d m h1).2.2 x t h3).1, ((g.sys.ok d' m' h2).2.2 x t' h4).1]
    · exact (live_hashes_nodup i').sublist (List.take_sublist _ _)
    · intro x hx y hy hxy
      subst hxy
      obtain ⟨d, m, t, h1, h2, h3, h4⟩ := sysPackage_mem g.sys hsh hx
      obtain ⟨p, hp1, hp2, _⟩ := hmem x (hord ▸ hy)
      rw [sm.txMap] at hp1
      rcases o.map p hp1 with ⟨h5, _⟩ | ⟨_, c, d', h5⟩
      · simp [init] at h5
      · apply hcons.kind _ c d' t h5 (osys d m x t h1 h2)
        rw [h3, ← sm.tx]; exact hp2
  · intro h hh
    obtain ⟨p, hp1, hp2, _⟩ := hmem h hh
    unfold contains
    have : (find s' h).isSome := find_isSome.2 ⟨p, hp1, hp2⟩
    simp [this]
  · intro h1 hh1 h2 hh2 t1 t2 ht1 ht2 hs hn
    obtain ⟨p1, a1, b1, c1⟩ := hmem h1 hh1
    obtain ⟨p2, a2, b2, c2⟩ := hmem h2 hh2
    have f1 := find_of_mem i' a1
    have f2 := find_of_mem i' a2
    rw [b1] at f1; rw [b2] at f2
    simp only [getByHash, f1, f2, Option.some.injEq] at ht1 ht2
    subst ht1; subst ht2
    unfold Here at c1 c2
    rw [hs, hn] at c1
    obtain ⟨q1, hq1, m1⟩ := c1
    obtain ⟨q2, hq2, m2⟩ := c2
    rw [hq1] at hq2; cases hq2
    rw [← b1, ← b2, (i'.sorted _ _ hq1).unique m1 m2]
  · intro h hh a b sa hab hra hno
    obtain ⟨p, hp1, hp2, _⟩ := hmem h hh
    rw [sm.txMap] at hp1; rw [sm.tx] at hp2
    have ga := good_run hc hra
    rw [hab, run_append, hra] at hrun
    have o := run_origin ga hrun
    rcases o.map p hp1 with ⟨h5, h6⟩ | ⟨_, c, d', h5⟩
    · have : (find sa h).isSome := find_isSome.2 ⟨p, h5, by rw [← o.tx p h6]; exact hp2⟩
      simp [contains, this] at hno
    · exact ⟨_, c, d', h5, hp2⟩

/-- The limit does not bound the whole package: system-script transactions come on top of it. -/
theorem C16_limit_false : ∃ (ops : List Op) (s s' : Pool) (r : Packed) (st : Sorter),
    run (init 10 20) ops = some s ∧ package s 0 st = some (s', r) ∧ r.hashes = [7] := by
  refine ⟨[.insertSys ⟨7, 1, 0, 5, 3⟩], _, _, _, ⟨fun _ l => l, fun _ l => List.Perm.refl l⟩, rfl, rfl, rfl⟩

/-- Non-vacuity of `C16_package_partial`: two senders, a replacement, packaging with limit 1. -/
example : ∃ (s s' : Pool) (r : Packed), run (init 10 20)
      [.insert ⟨1, 1, 0, 5, 0⟩ true 0, .insert ⟨2, 1, 0, 9, 0⟩ true 0, .insert ⟨3, 2, 0, 6, 0⟩ true 0] = some s ∧
    package s 1 ⟨fun _ l => l, fun _ l => List.Perm.refl l⟩ = some (s', r) ∧ r.hashes = [2] :=
  ⟨_, _, _, rfl, rfl, rfl⟩

/-! ## C19 -/

theorem sysFlush_hashData (hashes : List Nat) : ∀ (b : Sys) (h : Nat),
    get (b.flush hashes).1.hashData h = if h ∈ hashes then none else get b.hashData h := by
  induction hashes with
  | nil => intro b h; simp [Sys.flush]
  | cons x rest ih =>
    intro b h
    unfold Sys.flush
    split
    · rename_i hn
      rw [ih]
      by_cases h1 : h ∈ rest
      · simp [h1]
      · by_cases h2 : h = x
        · subst h2; simp [h1, hn]
        · simp [h1, h2]
    · rename_i d hd
      simp only
      rw [ih]
      simp only
      rw [get_del]
      by_cases h1 : h ∈ rest
      · simp [h1]
      · by_cases h2 : h = x
        · simp [h2]
        · simp [h1, h2]

/-- After a flush none of the committed hashes is contained in the pool, and no ordinary transaction of
the sender of a committed pool transaction with a nonce up to the committed one is. -/
theorem C19_flush_removes {cap gap : Nat} (hc : 0 < cap) {ops : List Op} {s s' : Pool}
    (hrun : run (init cap gap) ops = some s) {hashes : List Nat} {number : Nat}
    (hf : flush s hashes number = some s') :
    (∀ h ∈ hashes, contains s' h = false) ∧
    (∀ h ∈ hashes, ∀ p, find s h = some p → ∀ h' p', find s' h' = some p' →
      ¬ ((s'.heap.tx p').sender = (s.heap.tx p).sender ∧ (s'.heap.tx p').nonce ≤ (s.heap.tx p).nonce)) := by
  have g := good_run hc hrun
  obtain ⟨s1, s2, n, g1, sm1, co1, f, i2, m2, hs'⟩ := flush_steps g hf
  have e1 : s'.txMap = s2.txMap := by rw [hs']
  have e2 : s'.heap = s2.heap := by rw [hs']
  have e3 : s'.sys = (s2.sys.flush hashes).1 := by rw [hs']
  have htx : s'.heap.tx = s.heap.tx := by rw [e2, f.tx, sm1.tx]
  constructor
  · intro h hh
    have h1 : find s' h = none := by
      cases hfind : find s' h with
      | none => rfl
      | some p =>
        obtain ⟨a, b⟩ := find_some hfind
        rw [e1] at a; rw [e2, f.tx] at b
        obtain ⟨c1, c2, c3⟩ := (f.map p).1 a
        exact absurd (b ▸ hh) c2
    unfold contains
    rw [h1, e3]
    unfold Sys.contains
    rw [sysFlush_hashData]
    simp [hh]
  · intro h hh p hp h' p' hp' hcon
    obtain ⟨a, b⟩ := find_some hp
    obtain ⟨a', b'⟩ := find_some hp'
    rw [e1] at a'
    rw [htx] at hcon
    obtain ⟨c1, c2, c3⟩ := (f.map p').1 a'
    have hhere : Here s1 p' := by
      rcases g1.inv.mapCases p' c1 with h1 | h1 | h1
      · rw [co1] at h1; simp at h1
      · rw [(f.drp p').2 (.inl h1)] at c3; cases c3
      · exact h1
    have : s2.heap.drp p' = true := by
      refine (f.drp p').2 (.inr (.inl ⟨hhere, p, ?_, ?_, ?_, ?_⟩))
      · rw [sm1.txMap]; exact a
      · rw [sm1.tx, b]; exact hh
      · rw [sm1.tx]; exact hcon.1.symm
      · rw [sm1.tx]; exact hcon.2
    rw [this] at c3; cases c3

/-- Whatever happens after the flush, a committed hash is packaged as an ordinary transaction again only
if it was inserted anew. -/
theorem C19_committed_never_repackaged {cap gap : Nat} (hc : 0 < cap) {a b : List Op} {hashes : List Nat}
    {number : Nat} {s : Pool} (hcons : Consistent (a ++ [.flush hashes number] ++ b))
    (hrun : run (init cap gap) (a ++ [.flush hashes number] ++ b) = some s)
    {limit : Nat} {st : Sorter} {s' : Pool} {r : Packed} (hp : package s limit st = some (s', r)) :
    ∀ h ∈ hashes, h ∈ r.ordinary → ∃ t c d, Op.insert t c d ∈ b ∧ t.hash = h := by
  intro h hh hr
  have hrun' := hrun
  rw [run_append] at hrun'
  cases hA : run (init cap gap) (a ++ [.flush hashes number]) with
  | none => rw [hA] at hrun'; simp at hrun'
  | some sa =>
    have hA' := hA
    rw [run_append] at hA'
    cases hB : run (init cap gap) a with
    | none => rw [hB] at hA'; simp at hA'
    | some s0 =>
      rw [hB] at hA'
      simp only [Option.bind_some, run, step] at hA'
      cases hfl : flush s0 hashes number with
      | none => rw [hfl] at hA'; simp at hA'
      | some s1 =>
        rw [hfl] at hA'
        simp only [Option.some.injEq] at hA'; subst hA'
        have hno := (C19_flush_removes hc hB hfl).1 h hh
        exact (C16_package_partial hc hrun hcons hp).2.2.2.2 h hr _ b s1 rfl hA hno

/-- Non-vacuity: nonce 1 of sender 1 is committed, nonces 0 and 1 leave the pool, nonce 2 stays. -/
example : ∃ s s' : Pool, run (init 10 20) [.insert ⟨1, 1, 0, 5, 0⟩ true 0, .insert ⟨2, 1, 1, 5, 0⟩ true 1,
      .insert ⟨3, 1, 2, 5, 0⟩ true 2, .insertSys ⟨4, 9, 0, 1, 3⟩] = some s ∧
    flush s [2, 4] 1 = some s' ∧ contains s 2 = true ∧ contains s 4 = true ∧ contains s' 1 = false ∧
    contains s' 2 = false ∧ contains s' 3 = true ∧ contains s' 4 = false :=
  ⟨_, _, rfl, rfl, by decide +kernel, by decide +kernel, by decide +kernel, by decide +kernel,
    by decide +kernel, by decide +kernel⟩

/-! ## C22 -/

/-- `Ord for TxWrapper`, `tx_wrapper.rs:29-36`: strictly less. -/
def cmpLt (a b : PoolTx) : Prop :=
  if a.sender ≠ b.sender then a.price < b.price else a.nonce < b.nonce

instance (a b : PoolTx) : Decidable (cmpLt a b) := by unfold cmpLt; exact inferInstance

/-- What a sort by this order has to produce: nothing is smaller than something before it. -/
def SortedBy (f : Nat → PoolTx) (l : List Nat) : Prop := l.Pairwise (fun a b => ¬ cmpLt (f b) (f a))

/-- If the sort succeeds in producing a sorted list, the transactions of one sender are packaged in
nonce order. -/
theorem C22_sender_order_partial {s s' : Pool} {limit : Nat} {st : Sorter} {r : Packed}
    (hp : package s limit st = some (s', r)) (hs : SortedBy s'.heap.tx s'.real) :
    s'.real.Pairwise (fun a b => (s'.heap.tx a).sender = (s'.heap.tx b).sender →
      (s'.heap.tx a).nonce ≤ (s'.heap.tx b).nonce) ∧
    r.ordinary = ((s'.real.filter (fun p => !s'.heap.drp p)).map (fun p => (s'.heap.tx p).hash)).take limit := by
  constructor
  · refine List.Pairwise.imp ?_ hs
    intro a b h heq
    simp only [cmpLt, heq, ne_eq, not_true_eq_false, if_false] at h
    omega
  · unfold Pool.package at hp
    split at hp
    · cases hp
    · split at hp
      · cases hp
      · simp only [Option.some.injEq, Prod.mk.injEq] at hp
        obtain ⟨rfl, rfl⟩ := hp
        simp [Packed.ordinary]

theorem package_perm {s s' : Pool} {limit : Nat} {st : Sorter} {r : Packed} (hco : s.co = [])
    (hp : package s limit st = some (s', r)) : s'.real.Perm s.real ∧ s'.heap = s.heap := by
  unfold Pool.package at hp
  split at hp
  · cases hp
  · rw [hco] at hp
    simp only [List.isEmpty_nil, if_true, Option.some.injEq, Prod.mk.injEq] at hp
    obtain ⟨rfl, _⟩ := hp
    exact ⟨st.perm _ _, rfl⟩

theorem perm_pair {l : List Nat} (h : l.Perm [0, 1]) : l = [0, 1] ∨ l = [1, 0] := by
  have hl := h.length_eq
  have hn : l.Nodup := h.nodup_iff.2 (by simp)
  match l, hl with
  | [x, y], _ =>
    have hx := h.mem_iff.1 (show x ∈ [x, y] by simp)
    have hy := h.mem_iff.1 (show y ∈ [x, y] by simp)
    simp at hx hy hn
    rcases hx with rfl | rfl <;> rcases hy with rfl | rfl <;> simp_all

/-- A pool with two packageable transactions: hash 1 of sender 1 at price 5, hash 2 of sender 2 at
price 900. -/
def twoOps : List Op :=
  [.insert ⟨1, 1, 0, 5, 0⟩ true 0, .insert ⟨2, 2, 0, 900, 0⟩ true 0, .refresh]

theorem twoOps_run : (run (init 10 20) twoOps).map (fun s => decide (s.real = [0, 1] ∧ s.co = [] ∧
      s.heap.tx 0 = ⟨1, 1, 0, 5, 0⟩ ∧ s.heap.tx 1 = ⟨2, 2, 0, 900, 0⟩ ∧ s.heap.drp 0 = false ∧
      s.heap.drp 1 = false ∧ s.txMap = [0, 1])) = some true := by
  decide +kernel

/-- The order is ascending in the gas price: with one slot, the cheaper of two transactions is packaged,
by every sort that sorts. -/
theorem C22_price_order_false : ∃ (ops : List Op) (s : Pool), run (init 10 20) ops = some s ∧
    getByHash s 1 = some ⟨1, 1, 0, 5, 0⟩ ∧ getByHash s 2 = some ⟨2, 2, 0, 900, 0⟩ ∧
    ∀ (st : Sorter) (s' : Pool) (r : Packed), package s 1 st = some (s', r) →
      SortedBy s'.heap.tx s'.real → r.ordinary = [1] := by
  have h := twoOps_run
  simp only [Option.map_eq_some_iff, decide_eq_true_eq] at h
  obtain ⟨s, hrun, hreal, hco, ht0, ht1, hd0, hd1, hmap⟩ := h
  refine ⟨twoOps, s, hrun, ?_, ?_, ?_⟩
  · simp [getByHash, find, hmap, ht0]
  · simp [getByHash, find, hmap, ht0, ht1]
  · intro st s' r hp hs
    obtain ⟨hperm, hheap⟩ := package_perm hco hp
    rw [(C22_sender_order_partial hp hs).2]
    rw [hheap] at hs ⊢
    rw [hreal] at hperm
    rcases perm_pair hperm with h | h
    · rw [h]; simp [hd0, hd1, ht0, ht1]
    · rw [h] at hs
      have := (List.pairwise_cons.1 hs).1 0 (by simp)
      simp [cmpLt, ht0, ht1] at this

theorem perm_triple {l : List Nat} (h : l.Perm [0, 1, 2]) :
    l = [0, 1, 2] ∨ l = [0, 2, 1] ∨ l = [1, 0, 2] ∨ l = [1, 2, 0] ∨ l = [2, 0, 1] ∨ l = [2, 1, 0] := by
  have hl := h.length_eq
  have hn : l.Nodup := h.nodup_iff.2 (by simp)
  match l, hl with
  | [x, y, z], _ =>
    have hx := h.mem_iff.1 (show x ∈ [x, y, z] by simp)
    have hy := h.mem_iff.1 (show y ∈ [x, y, z] by simp)
    have hz := h.mem_iff.1 (show z ∈ [x, y, z] by simp)
    simp at hx hy hz hn
    rcases hx with rfl | rfl | rfl <;> rcases hy with rfl | rfl | rfl <;>
      rcases hz with rfl | rfl | rfl <;> simp_all

/-- Sender 1 with nonces 0, 1 and prices 10, 1; sender 2 with price 5. -/
def cycleOps : List Op :=
  [.insert ⟨1, 1, 0, 10, 0⟩ true 0, .insert ⟨2, 1, 1, 1, 0⟩ true 1, .insert ⟨3, 2, 0, 5, 0⟩ true 0, .refresh]

theorem cycleOps_run : (run (init 10 20) cycleOps).map (fun s => (s.real, s.heap.tx 0, s.heap.tx 1,
      s.heap.tx 2)) = some ([0, 1, 2], ⟨1, 1, 0, 10, 0⟩, ⟨2, 1, 1, 1, 0⟩, ⟨3, 2, 0, 5, 0⟩) := by
  decide +kernel

/-- The comparison is not an order: there is a reachable pool whose packageable transactions cannot be
sorted at all. -/
theorem C22_not_sortable_false : ∃ (ops : List Op) (s : Pool), run (init 10 20) ops = some s ∧
    s.real.length = 3 ∧ ∀ l : List Nat, l.Perm s.real → ¬ SortedBy s.heap.tx l := by
  have h := cycleOps_run
  simp only [Option.map_eq_some_iff, Prod.mk.injEq] at h
  obtain ⟨s, hrun, hreal, ht0, ht1, ht2⟩ := h
  refine ⟨cycleOps, s, hrun, by rw [hreal]; rfl, ?_⟩
  intro l hp hs
  rw [hreal] at hp
  unfold SortedBy at hs
  rcases perm_triple hp with h | h | h | h | h | h <;> rw [h] at hs <;>
    simp [cmpLt, ht0, ht1, ht2] at hs

/-- Non-vacuity of `C22_sender_order_partial`: two senders with interleaved prices. -/
example : ((run (init 10 20) [.insert ⟨1, 1, 0, 2, 0⟩ true 0, .insert ⟨2, 1, 1, 3, 0⟩ true 1,
      .insert ⟨3, 2, 0, 5, 0⟩ true 0, .refresh]).bind fun s =>
    (package s 9 ⟨fun _ l => l, fun _ l => List.Perm.refl l⟩).map fun r =>
      (r.2.hashes, decide (r.1.real.Pairwise (fun a b => ¬ cmpLt (r.1.heap.tx b) (r.1.heap.tx a))))) =
    some ([1, 2, 3], true) := by decide +kernel

end Axon.Pool
