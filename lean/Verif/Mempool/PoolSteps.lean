import Verif.Mempool.PoolFlush

/-!
# Invariants over histories of pool operations
-/

namespace Axon.Pool
open Axon.Assoc

/-- Number of system-script transactions stored. -/
def Sys.total (b : Sys) : Nat := (b.buckets.map (fun e => e.2.length)).sum

structure SysOk (b : Sys) : Prop where
  keys : NodupKeys b.buckets
  ok : ∀ d m, (d, m) ∈ b.buckets → m ≠ [] ∧ Sorted m ∧ ∀ h t, (h, t) ∈ m → t.hash = h ∧ t.data = d

structure Good (s : Pool) : Prop where
  inv : Inv s
  mark : NoMark s
  capPos : 0 < s.cap
  sys : SysOk s.sys
  stock : s.txMap.length + s.sys.total ≤ s.stock

theorem nodup_length_le {α : Type} [DecidableEq α] {l m : List α} (h : l.Nodup)
    (hs : ∀ x ∈ l, x ∈ m) : l.length ≤ m.length := by
  induction l generalizing m with
  | nil => simp
  | cons a l ih =>
    have hn := List.nodup_cons.1 h
    have ha : a ∈ m := hs a (by simp)
    have : l.length ≤ (m.erase a).length := by
      apply ih hn.2
      intro x hx
      refine (List.mem_erase_of_ne ?_).2 (hs x (List.mem_cons_of_mem _ hx))
      rintro rfl; exact hn.1 hx
    have hl := List.length_erase_of_mem ha
    have hp : 0 < m.length := List.length_pos_of_mem ha
    simp only [List.length_cons]; omega

theorem Inv.co_length {s : Pool} (hi : Inv s) : s.co.length ≤ s.txMap.length := by
  have := nodup_length_le hi.coNodup (m := s.txMap) (fun x hx => (hi.coOk x hx).1)
  simpa using this

theorem find_none {s : Pool} {hash : Nat} (h : find s hash = none) :
    ∀ p ∈ s.txMap, (s.heap.tx p).hash ≠ hash := by
  intro p hp
  simpa using (List.find?_eq_none.1 h) p hp

theorem find_some {s : Pool} {hash p : Nat} (h : find s hash = some p) :
    p ∈ s.txMap ∧ (s.heap.tx p).hash = hash :=
  ⟨List.mem_of_find?_eq_some h, by simpa using List.find?_some h⟩

theorem find_isSome {s : Pool} {hash : Nat} :
    (find s hash).isSome ↔ ∃ p ∈ s.txMap, (s.heap.tx p).hash = hash := by
  unfold find; rw [List.find?_isSome]; simp

/-- A new transaction gets a fresh wrapper at the end of `co_queue`. -/
theorem Inv.alloc {s : Pool} (hi : Inv s) {t : PoolTx} {d : Nat} (hf : find s t.hash = none) :
    Inv { s with
      next := s.next + 1
      heap := s.heap.alloc s.next t
      txMap := s.txMap ++ [s.next]
      co := s.co ++ [(s.next, d)] } := by
  have hne : ∀ p ∈ s.txMap, p ≠ s.next := fun p hp h => by have := hi.mapLt p hp; omega
  have htx : ∀ p ∈ s.txMap, (s.heap.alloc s.next t).tx p = s.heap.tx p := fun p hp => by
    simp [Heap.alloc, hne p hp]
  have hpk : ∀ p ∈ s.txMap, (s.heap.alloc s.next t).pkg p = s.heap.pkg p := fun p hp => by
    simp [Heap.alloc, hne p hp]
  have hdr : ∀ p ∈ s.txMap, (s.heap.alloc s.next t).drp p = s.heap.drp p := fun p hp => by
    simp [Heap.alloc, hne p hp]
  have hnm : ∀ k n, ¬ Mem s.pending k n s.next := fun k n h => hne _ (hi.pend k n _ h).2.2.2 rfl
  have hco : ∀ p ∈ s.co.map (·.1), p ≠ s.next := fun p hp => hne p (hi.coOk p hp).1
  constructor
  · intro p hp
    simp only at hp ⊢
    rcases List.mem_append.1 hp with h | h
    · have := hi.mapLt p h; omega
    · simp at h; omega
  · simp only
    rw [List.pairwise_append]
    refine ⟨?_, by simp, ?_⟩
    · refine List.Pairwise.imp_of_mem ?_ hi.mapHash
      intro a b ha hb h
      rw [htx a ha, htx b hb]; exact h
    · intro a ha b hb
      simp only [List.mem_singleton] at hb; subst hb
      rw [htx a ha]
      simpa [Heap.alloc] using find_none hf a ha
  · simp only [List.map_append, List.map_cons, List.map_nil]
    rw [List.nodup_append]
    refine ⟨hi.coNodup, by simp, ?_⟩
    intro a ha b hb
    simp only [List.mem_singleton] at hb; subst hb
    exact hco a ha
  · intro p hp
    simp only [List.map_append, List.map_cons, List.map_nil, List.mem_append, List.mem_singleton] at hp ⊢
    rcases hp with h | h
    · obtain ⟨a, b, c⟩ := hi.coOk p h
      exact ⟨.inl a, (hpk p a).trans b, (hdr p a).trans c⟩
    · subst h; exact ⟨.inr rfl, by simp [Heap.alloc], by simp [Heap.alloc]⟩
  · intro p hp
    simp only [List.map_append, List.map_cons, List.map_nil, List.mem_append, List.mem_singleton] at hp ⊢
    rcases hp with h | h
    · exact hi.coPend p h
    · subst h; exact hnm
  · exact hi.sorted
  · intro k n p h
    simp only
    obtain ⟨a, b, c, e⟩ := hi.pend k n p h
    rw [htx p e]
    exact ⟨a, b, (hdr p e).trans c, by simp [e]⟩
  · exact hi.realNodup
  · intro p hp
    obtain ⟨a, b, c⟩ := hi.realOk p hp
    refine ⟨by simp [a], (hpk p a).trans b, ?_⟩
    unfold Here; simp only [htx p a]
    rcases c with c | c
    · exact .inl ((hdr p a).trans c)
    · exact .inr c
  · intro k n p h hp
    have e := (hi.pend k n p h).2.2.2
    exact hi.pkgReal k n p h ((hpk p e).symm.trans hp)
  · intro p hp
    simp only [List.map_append, List.map_cons, List.map_nil, List.mem_append, List.mem_singleton] at hp ⊢
    rcases hp with h | h
    · unfold Here; simp only [htx p h]
      rcases hi.mapCases p h with h1 | h1 | h1
      · exact .inl (.inl h1)
      · exact .inr (.inl ((hdr p h).trans h1))
      · exact .inr (.inr h1)
    · exact .inl (.inr h)

theorem Good.insertTail {s : Pool} {t : PoolTx} {d : Nat} (hi : Inv s) (hm : NoMark s)
    (hc : 0 < s.cap) (hsys : SysOk s.sys) (hco : s.co.length < s.cap)
    (hst : s.txMap.length + s.sys.total + 1 ≤ s.stock) : Good (insertTail s t d) := by
  unfold Pool.insertTail
  split
  · exact ⟨⟨hi.mapLt, hi.mapHash, hi.coNodup, hi.coOk, hi.coPend, hi.sorted, hi.pend, hi.realNodup,
      hi.realOk, hi.pkgReal, hi.mapCases⟩, hm, hc, hsys, by simp only; omega⟩
  · rename_i hf
    simp only [hco, if_true]
    refine ⟨hi.alloc hf, hm, hc, hsys, ?_⟩
    simp only [List.length_append, List.length_singleton]; omega

theorem Inv.withStock {s : Pool} (hi : Inv s) (n : Nat) : Inv { s with stock := n } :=
  ⟨hi.mapLt, hi.mapHash, hi.coNodup, hi.coOk, hi.coPend, hi.sorted, hi.pend, hi.realNodup,
      hi.realOk, hi.pkgReal, hi.mapCases⟩

theorem Good.insert {s : Pool} {t : PoolTx} {c : Bool} {d : Nat} (g : Good s) {r}
    (hr : insert s t c d = some r) : Good r.1 := by
  unfold Pool.insert at hr
  split at hr
  · simp only [Option.some.injEq] at hr; subst hr; exact g
  · rename_i hlim
    simp only at hr
    split at hr
    · simp only [Option.map_eq_some_iff] at hr
      obtain ⟨s2, h2, he⟩ := hr
      subst he
      obtain ⟨i2, same, co2⟩ := flushToPending_inv (g.inv.withStock (s.stock + 1)) h2
      have m2 : NoMark s2 := drain_noMark (s := { s with stock := s.stock + 1 }) g.mark h2
      refine Good.insertTail i2 m2 ?_ ?_ ?_ ?_
      · rw [same.cap]; exact g.capPos
      · rw [same.sys]; exact g.sys
      · rw [co2, same.cap]; exact g.capPos
      · rw [same.txMap, same.sys, same.stock]; have := g.stock; simp only; omega
    · rename_i hfull
      simp only [Option.some.injEq] at hr; subst hr
      refine Good.insertTail (g.inv.withStock (s.stock + 1)) g.mark g.capPos g.sys ?_ ?_
      · simp only
        have h1 := g.inv.co_length
        have h2 := g.stock
        cases c with
        | true => simp at hlim; omega
        | false => simp at hfull; exact hfull
      · have := g.stock; simp only; omega

theorem sum_filter_ne {κ α : Type} [DecidableEq κ] (f : κ × α → Nat) {m : List (κ × α)} (hn : NodupKeys m)
    {k : κ} {v : α} (h : get m k = some v) :
    ((m.filter (fun e => e.1 ≠ k)).map f).sum + f (k, v) = (m.map f).sum := by
  induction m with
  | nil => simp [get_nil] at h
  | cons e m ih =>
    have hn' := List.pairwise_cons.1 hn
    rw [get_cons] at h
    by_cases hk : e.1 = k
    · simp only [hk, if_true, Option.some.injEq] at h
      rw [List.filter_cons_of_neg (by simp [hk])]
      have : m.filter (fun e => e.1 ≠ k) = m := by
        rw [List.filter_eq_self]
        intro y hy
        have := hn'.1 y hy
        rw [hk] at this
        simpa using fun h => this h.symm
      rw [this]
      have he : e = (k, v) := by cases e; simp_all
      rw [he]; simp; omega
    · simp only [hk, if_false] at h
      rw [List.filter_cons_of_pos (by simp [hk])]
      have := ih hn'.2 h
      simp only [List.map_cons, List.sum_cons]; omega

theorem filter_ne_of_get_none {κ α : Type} [DecidableEq κ] {m : List (κ × α)} {k : κ}
    (h : get m k = none) : m.filter (fun e => e.1 ≠ k) = m := by
  rw [List.filter_eq_self]
  intro e he
  simp only [ne_eq, decide_not, Bool.not_eq_eq_eq_not, Bool.not_true, decide_eq_false_iff_not]
  intro hk
  have : (get m k).isSome := get_isSome_iff.2 ⟨e.2, by rw [← hk]; exact he⟩
  rw [h] at this; cases this

theorem sput_length {α : Type} {k : Nat} {v : α} {m : List (Nat × α)} (hs : Sorted m) :
    (sput k v m).length = m.length + if (get m k).isNone then 1 else 0 := by
  induction m with
  | nil => simp [sput, get_nil]
  | cons e m ih =>
    have hs' := List.pairwise_cons.1 hs
    unfold sput
    rw [get_cons]
    split
    · rename_i h
      have h1 : e.1 ≠ k := by omega
      have h2 : get m k = none := by
        cases hg : get m k with
        | none => rfl
        | some w => have := hs'.1 _ (mem_of_get hg); simp only at this; omega
      simp [h1, h2]
    · split
      · rename_i h; simp [h]
      · rename_i h1 h2
        have h3 : e.1 ≠ k := fun h => h2 h.symm
        simp only [h3, if_false, List.length_cons]
        rw [ih hs'.2]; omega

theorem SysOk.oldOk {b : Sys} (h : SysOk b) (d : Nat) :
    Sorted ((get b.buckets d).getD []) ∧
      ∀ hh t, (hh, t) ∈ (get b.buckets d).getD [] → t.hash = hh ∧ t.data = d := by
  cases hg : get b.buckets d with
  | none => exact ⟨List.Pairwise.nil, by simp⟩
  | some m => exact (h.ok d m (mem_of_get hg)).2

theorem SysOk.insert {b : Sys} (h : SysOk b) (t : PoolTx) :
    SysOk (b.insert t).1 ∧ (b.insert t).1.total = b.total + if (b.insert t).2 then 1 else 0 := by
  obtain ⟨ho, hc⟩ := h.oldOk t.data
  constructor
  · refine ⟨nodupKeys_put h.keys _ _, ?_⟩
    intro d m hm
    simp only [Sys.insert, put, List.mem_cons, List.mem_filter, Prod.mk.injEq] at hm
    rcases hm with ⟨rfl, rfl⟩ | ⟨hm, _⟩
    · refine ⟨?_, sorted_sput ho, ?_⟩
      · intro he
        have := sput_length (k := t.hash) (v := t) ho
        rw [he] at this
        have hmem := (mem_sput (k := t.hash) (v := t) ho (t.hash, t)).2 (.inl rfl)
        rw [he] at hmem; simp at hmem
      · intro hh t' hm'
        rcases (mem_sput ho _).1 hm' with h1 | ⟨h1, _⟩
        · simp only [Prod.mk.injEq] at h1; rw [h1.1, h1.2]; exact ⟨rfl, rfl⟩
        · exact hc hh t' h1
    · exact h.ok d m hm
  · unfold Sys.total Sys.insert put
    simp only [List.map_cons, List.sum_cons]
    rw [sput_length ho]
    cases hg : get b.buckets t.data with
    | none =>
      have := filter_ne_of_get_none hg
      rw [this]; simp [get_nil]; omega
    | some m =>
      have := sum_filter_ne (fun e : Nat × List (Nat × PoolTx) => e.2.length) h.keys hg
      simp only [Option.getD_some]
      simp only at this
      omega

theorem SysOk.flush (hashes : List Nat) : ∀ {b : Sys}, SysOk b →
    SysOk (b.flush hashes).1 ∧ (b.flush hashes).1.total + (b.flush hashes).2 ≤ b.total := by
  induction hashes with
  | nil => intro b h; exact ⟨h, by simp [Sys.flush]⟩
  | cons hash rest ih =>
    intro b h
    unfold Sys.flush
    split
    · exact ih h
    · rename_i d hd
      have h' : SysOk ⟨del b.hashData hash, del b.buckets d⟩ :=
        ⟨nodupKeys_del h.keys _, fun d' m hm => h.ok d' m (List.mem_filter.1 hm).1⟩
      obtain ⟨a, c⟩ := ih h'
      refine ⟨a, ?_⟩
      simp only
      cases hg : get b.buckets d with
      | none =>
        have : (⟨del b.hashData hash, del b.buckets d⟩ : Sys).total = b.total := by
          unfold Sys.total del; simp only [filter_ne_of_get_none hg]
        simp only [Option.isSome_none, Bool.false_eq_true, if_false]
        omega
      | some m =>
        have hlen : (⟨del b.hashData hash, del b.buckets d⟩ : Sys).total + m.length = b.total := by
          unfold Sys.total del
          exact sum_filter_ne (fun e : Nat × List (Nat × PoolTx) => e.2.length) h.keys hg
        have hne := (h.ok d m (mem_of_get hg)).1
        have : 0 < m.length := List.length_pos_iff.2 hne
        simp only [Option.isSome_some, if_true]
        omega

theorem Good.insertSys {s : Pool} (g : Good s) (t : PoolTx) : Good (insertSys s t) := by
  obtain ⟨a, b⟩ := g.sys.insert t
  have hi := g.inv
  refine ⟨⟨hi.mapLt, hi.mapHash, hi.coNodup, hi.coOk, hi.coPend, hi.sorted, hi.pend, hi.realNodup,
      hi.realOk, hi.pkgReal, hi.mapCases⟩, g.mark, g.capPos, a, ?_⟩
  have := g.stock
  simp only [Pool.insertSys]
  rw [b]
  split <;> omega

theorem Good.same {s s' : Pool} (g : Good s) (hi : Inv s') (hm : NoMark s') (h : Same s s') :
    Good s' :=
  ⟨hi, hm, by rw [h.cap]; exact g.capPos, by rw [h.sys]; exact g.sys,
    by rw [h.txMap, h.sys, h.stock]; exact g.stock⟩

theorem Good.flushToPending {s s' : Pool} (g : Good s) (hr : flushToPending s = some s') :
    Good s' ∧ Same s s' ∧ s'.co = [] := by
  obtain ⟨a, b, c⟩ := flushToPending_inv g.inv hr
  exact ⟨g.same a (drain_noMark g.mark hr) b, b, c⟩

theorem Good.refresh {s s' : Pool} (g : Good s) (hr : refresh s = some s') :
    Good s' ∧ Same s s' ∧ s'.co = [] := by
  unfold Pool.refresh at hr
  split at hr
  · rename_i he
    simp only [Option.some.injEq] at hr; subst hr
    exact ⟨g, Same.refl s, by simpa using he⟩
  · exact g.flushToPending hr

theorem Inv.permReal {s : Pool} (hi : Inv s) {l : List Nat} (hp : l.Perm s.real) :
    Inv { s with real := l } :=
  ⟨hi.mapLt, hi.mapHash, hi.coNodup, hi.coOk, hi.coPend, hi.sorted, hi.pend,
    hp.nodup_iff.2 hi.realNodup, fun p h => hi.realOk p (hp.mem_iff.1 h),
    fun k n p h h' => hp.mem_iff.2 (hi.pkgReal k n p h h'), hi.mapCases⟩

/-- `package` empties `co_queue` and rearranges the packageable transactions. -/
theorem Good.package {s : Pool} (g : Good s) {limit : Nat} {st : Sorter} {r}
    (hr : package s limit st = some r) :
    Good r.1 ∧ Same s r.1 ∧ r.1.co = [] ∧ ∃ sysHashes, s.sys.package = some sysHashes ∧
      r.2.sysCount = sysHashes.length ∧
      r.2.hashes = sysHashes ++
        ((r.1.real.filter (fun p => !r.1.heap.drp p)).map (fun p => (r.1.heap.tx p).hash)).take limit := by
  unfold Pool.package at hr
  split at hr
  · cases hr
  · rename_i sh hsh
    split at hr
    · cases hr
    · rename_i s1 h1
      obtain ⟨g1, sm1, co1⟩ := g.refresh (s' := s1) h1
      simp only [Option.some.injEq] at hr; subst hr
      refine ⟨⟨g1.inv.permReal (st.perm _ _), g1.mark, g1.capPos, g1.sys, g1.stock⟩,
        ⟨sm1.cap, sm1.gap, sm1.next, sm1.tx, sm1.txMap, sm1.stock, sm1.timeouts, sm1.sys⟩, co1,
        sh, hsh, rfl, rfl⟩

theorem flushInner_noMark {s : Pool} (hi : Inv s) (hm : NoMark s) {hashes : List Nat} {number : Nat}
    {s' : Pool} {n : Nat} (hr : flushInner s hashes number = some (s', n)) : NoMark s' := by
  intro k q hq
  obtain ⟨_, _, _, h, _⟩ := (flushInner_spec hi hm hr).qs k q hq
  exact h

/-- `flush` = empty `co_queue`, then `flush_inner`, then the system-script bucket. -/
theorem flush_steps {s s' : Pool} {hashes : List Nat} {number : Nat} (g : Good s)
    (hr : flush s hashes number = some s') :
    ∃ s1 s2 n, Good s1 ∧ Same s s1 ∧ s1.co = [] ∧ FlushSpec s1 hashes number s2 n ∧ Inv s2 ∧ NoMark s2 ∧
      s' = { s2 with sys := (s2.sys.flush hashes).1, stock := s2.stock - (n + (s2.sys.flush hashes).2) } := by
  unfold Pool.flush at hr
  split at hr
  · cases hr
  · rename_i s1 h1
    obtain ⟨g1, sm1, co1⟩ := g.flushToPending h1
    split at hr
    · cases hr
    · rename_i s2 n h2
      simp only [Option.some.injEq] at hr
      have f := flushInner_spec g1.inv g1.mark h2
      exact ⟨s1, s2, n, g1, sm1, co1, f, f.inv g1.inv co1, flushInner_noMark g1.inv g1.mark h2, hr.symm⟩

theorem Good.flush {s s' : Pool} {hashes : List Nat} {number : Nat} (g : Good s)
    (hr : flush s hashes number = some s') : Good s' := by
  obtain ⟨s1, s2, n, g1, sm1, co1, f, i2, m2, rfl⟩ := flush_steps g hr
  have hsys2 : SysOk s2.sys := by rw [f.sys]; exact g1.sys
  obtain ⟨a, b⟩ := SysOk.flush hashes hsys2
  refine ⟨⟨i2.mapLt, i2.mapHash, i2.coNodup, i2.coOk, i2.coPend, i2.sorted, i2.pend, i2.realNodup,
      i2.realOk, i2.pkgReal, i2.mapCases⟩, m2, ?_, a, ?_⟩
  · simp only [f.cap]; exact g1.capPos
  · simp only
    have h1 := g1.stock
    have h2 := f.num
    rw [f.stock]
    rw [← f.sys] at h1
    omega

theorem Good.init {cap : Nat} (h : 0 < cap) (gap : Nat) : Good (init cap gap) :=
  ⟨inv_init cap gap, by intro k q h; simp [Pool.init] at h, h,
    ⟨List.Pairwise.nil, by simp [Pool.init]⟩, by simp [Pool.init, Sys.total]⟩

theorem Good.step {s s' : Pool} {op : Op} (g : Good s) (hr : step s op = some s') : Good s' := by
  cases op with
  | insert t c d =>
    simp only [Pool.step, Option.map_eq_some_iff] at hr
    obtain ⟨r, h, rfl⟩ := hr
    exact g.insert h
  | insertSys t =>
    simp only [Pool.step, Option.some.injEq] at hr; subst hr; exact g.insertSys t
  | package l st =>
    simp only [Pool.step, Option.map_eq_some_iff] at hr
    obtain ⟨r, h, rfl⟩ := hr
    exact (g.package h).1
  | refresh => exact (g.refresh hr).1
  | flush hs n => exact g.flush hr

theorem Good.run {ops : List Op} {s s' : Pool} (g : Good s) (hr : run s ops = some s') : Good s' := by
  induction ops generalizing s with
  | nil => simp only [Pool.run, Option.some.injEq] at hr; subst hr; exact g
  | cons op ops ih =>
    simp only [Pool.run] at hr
    split at hr
    · cases hr
    · rename_i s1 h1
      exact ih (g.step h1) hr

theorem good_run {cap gap : Nat} (hc : 0 < cap) {ops : List Op} {s : Pool}
    (hr : run (init cap gap) ops = some s) : Good s := (Good.init hc gap).run hr

/-! ## Where stored transactions come from -/

/-- Wrappers are never overwritten, and a stored wrapper that was not there before stands for an
ordinary insertion among the operations. -/
structure Origin (s s' : Pool) (ops : List Op) : Prop where
  next : s.next ≤ s'.next
  tx : ∀ p, p < s.next → s'.heap.tx p = s.heap.tx p
  map : ∀ p ∈ s'.txMap, (p ∈ s.txMap ∧ p < s.next) ∨
    (s.next ≤ p ∧ ∃ c d, Op.insert (s'.heap.tx p) c d ∈ ops)
  sysMap : ∀ d m h t, (d, m) ∈ s'.sys.buckets → (h, t) ∈ m →
    (∃ m0, (d, m0) ∈ s.sys.buckets ∧ (h, t) ∈ m0) ∨ Op.insertSys t ∈ ops

theorem Origin.trans {s1 s2 s3 : Pool} {a b : List Op} (h1 : Origin s1 s2 a) (h2 : Origin s2 s3 b) :
    Origin s1 s3 (a ++ b) := by
  have hn := h1.next
  refine ⟨Nat.le_trans h1.next h2.next, ?_, ?_, ?_⟩
  · intro p hp
    rw [h2.tx p (by omega), h1.tx p hp]
  · intro p hp
    rcases h2.map p hp with ⟨h, hlt⟩ | ⟨hlt, c, d, h⟩
    · rcases h1.map p h with h | ⟨hlt', c, d, h⟩
      · exact .inl h
      · refine .inr ⟨hlt', c, d, ?_⟩
        rw [h2.tx p hlt]; exact List.mem_append.2 (.inl h)
    · exact .inr ⟨by omega, c, d, List.mem_append.2 (.inr h)⟩
  · intro d m h t hm ht
    rcases h2.sysMap d m h t hm ht with ⟨m0, h3, h4⟩ | h3
    · rcases h1.sysMap d m0 h t h3 h4 with h5 | h5
      · exact .inl h5
      · exact .inr (List.mem_append.2 (.inl h5))
    · exact .inr (List.mem_append.2 (.inr h3))

theorem Origin.same {s s' : Pool} (hlt : ∀ p ∈ s.txMap, p < s.next) (h : Same s s') (ops : List Op) :
    Origin s s' ops :=
  ⟨by rw [h.next]; exact Nat.le_refl _, fun p _ => by rw [h.tx],
    fun p hp => .inl (by rw [h.txMap] at hp; exact ⟨hp, hlt p hp⟩),
    fun d m hh t hm ht => .inl ⟨m, by rw [← h.sys]; exact hm, ht⟩⟩

theorem insertTail_origin {s : Pool} (hlt : ∀ p ∈ s.txMap, p < s.next) (t : PoolTx) (c : Bool) (d d' : Nat) :
    Origin s (insertTail s t d) [.insert t c d'] := by
  unfold Pool.insertTail
  split
  · exact Origin.same hlt ⟨rfl, rfl, rfl, rfl, rfl, rfl, rfl, rfl⟩ _ |> fun h =>
      ⟨h.next, h.tx, h.map, h.sysMap⟩
  · refine ⟨by simp, ?_, ?_, fun d m hh t hm ht => .inl ⟨m, hm, ht⟩⟩
    · intro p hp; simp [Heap.alloc]; omega
    · intro p hp
      simp only [List.mem_append, List.mem_singleton] at hp
      rcases hp with h | h
      · exact .inl ⟨h, hlt p h⟩
      · refine .inr ⟨by omega, c, d', ?_⟩
        subst h; simp [Heap.alloc]

theorem Sys.flush_sub (hashes : List Nat) : ∀ (b : Sys) (e), e ∈ (b.flush hashes).1.buckets → e ∈ b.buckets := by
  induction hashes with
  | nil => intro b e h; exact h
  | cons hash rest ih =>
    intro b e h
    unfold Sys.flush at h
    split at h
    · exact ih b e h
    · exact (List.mem_filter.1 (ih _ e h)).1

theorem step_origin {s s' : Pool} {op : Op} (g : Good s) (hr : step s op = some s') :
    Origin s s' [op] := by
  have hlt := g.inv.mapLt
  cases op with
  | insert t c d =>
    simp only [Pool.step, Option.map_eq_some_iff] at hr
    obtain ⟨r, h, rfl⟩ := hr
    unfold Pool.insert at h
    split at h
    · simp only [Option.some.injEq] at h; subst h; exact Origin.same hlt (Same.refl s) _
    · simp only at h
      split at h
      · simp only [Option.map_eq_some_iff] at h
        obtain ⟨s2, h2, he⟩ := h
        subst he
        obtain ⟨i2, same, co2⟩ := flushToPending_inv (g.inv.withStock (s.stock + 1)) h2
        have o1 : Origin s s2 [] := by
          refine ⟨by rw [same.next]; exact Nat.le_refl _, fun p _ => by rw [same.tx],
            fun p hp => .inl ?_, fun d m hh t hm ht => .inl ⟨m, by rw [same.sys] at hm; exact hm, ht⟩⟩
          rw [same.txMap] at hp; exact ⟨hp, hlt p hp⟩
        exact o1.trans (insertTail_origin i2.mapLt t c d d)
      · simp only [Option.some.injEq] at h; subst h
        have o := insertTail_origin (s := { s with stock := s.stock + 1 }) hlt t c d d
        exact ⟨o.next, o.tx, o.map, o.sysMap⟩
  | insertSys t =>
    simp only [Pool.step, Option.some.injEq] at hr; subst hr
    refine ⟨Nat.le_refl _, fun p _ => rfl, fun p hp => .inl ⟨hp, hlt p hp⟩, ?_⟩
    intro d m h t' hm ht
    simp only [Pool.insertSys, Sys.insert, put, List.mem_cons, List.mem_filter, Prod.mk.injEq] at hm
    rcases hm with ⟨rfl, rfl⟩ | ⟨hm, _⟩
    · rcases (mem_sput (g.sys.oldOk _).1 _).1 ht with h1 | ⟨h1, _⟩
      · simp only [Prod.mk.injEq] at h1; right; simp [h1.2]
      · left
        cases hg : get s.sys.buckets t.data with
        | none => rw [hg] at h1; simp at h1
        | some m0 => rw [hg] at h1; exact ⟨m0, mem_of_get hg, h1⟩
    · exact .inl ⟨m, hm, ht⟩
  | package l st =>
    simp only [Pool.step, Option.map_eq_some_iff] at hr
    obtain ⟨r, h, rfl⟩ := hr
    exact Origin.same hlt (g.package h).2.1 _
  | refresh => exact Origin.same hlt (g.refresh hr).2.1 _
  | flush hs n =>
    obtain ⟨s1, s2, k, g1, sm1, co1, f, i2, m2, rfl⟩ := flush_steps g hr
    refine ⟨?_, ?_, ?_, ?_⟩
    · simp only [f.next, sm1.next]; exact Nat.le_refl _
    · intro p hp; simp only [f.tx, sm1.tx]
    · intro p hp
      have := ((f.map p).1 hp).1
      rw [sm1.txMap] at this
      exact .inl ⟨this, hlt p this⟩
    · intro d m h t hm ht
      have := Sys.flush_sub hs s2.sys _ hm
      rw [f.sys, sm1.sys] at this
      exact .inl ⟨m, this, ht⟩

theorem run_origin {ops : List Op} {s s' : Pool} (g : Good s) (hr : run s ops = some s') :
    Origin s s' ops := by
  induction ops generalizing s with
  | nil =>
    simp only [Pool.run, Option.some.injEq] at hr; subst hr
    exact Origin.same g.inv.mapLt (Same.refl s) _
  | cons op ops ih =>
    simp only [Pool.run] at hr
    split at hr
    · cases hr
    · rename_i s1 h1
      exact (step_origin g h1).trans (ih (g.step h1) hr)

end Axon.Pool
