import Verif.Mempool.PoolRbf

/-!
# The pool does not panic: lemmas
-/

namespace Axon.Pool
open Axon.Assoc

/-- Nonces leave room for `+ 1`, and differences do not exceed the nonce. -/
structure Room (s : Pool) : Prop where
  map : ∀ p ∈ s.txMap, (s.heap.tx p).nonce + 1 < u64Bound
  co : ∀ p d, (p, d) ∈ s.co → d ≤ (s.heap.tx p).nonce

theorem searchLoop_total {l : List (Nat × Nat)} (hl : ∀ e ∈ l, e.1 + 1 < u64Bound) (c : Nat) (h : Heap)
    (real : List Nat) : ∃ r, searchLoop l c h real = some r := by
  induction l generalizing c h real with
  | nil => exact ⟨_, rfl⟩
  | cons e l ih =>
    obtain ⟨k, v⟩ := e
    have ih' := ih (fun e he => hl e (List.mem_cons_of_mem _ he))
    simp only [searchLoop]
    split
    · rename_i hk
      have : c + 1 < u64Bound := by rw [← hk]; exact hl (k, v) (by simp)
      simp only [this, if_true]
      split
      · exact ih' _ _ _
      · exact ih' _ _ _
    · exact ⟨_, rfl⟩

theorem search_total {q : PQ} (hl : ∀ e ∈ q.queue, e.1 + 1 < u64Bound) (h : Heap) (real : List Nat) :
    ∃ r, q.search h real = some r := by
  obtain ⟨⟨a, b, c⟩, hr⟩ := searchLoop_total (l := q.queue.filter (fun e => q.pop ≤ e.1))
    (fun e he => hl e (List.mem_filter.1 he).1) q.pop h real
  exact ⟨_, by rw [PQ.search, hr]; rfl⟩

theorem popOne_total {s : Pool} {p d : Nat} {rest : List (Nat × Nat)}
    (hi : Inv { s with co := (p, d) :: rest }) (ro : Room { s with co := (p, d) :: rest }) :
    ∃ s', popOne { s with co := rest } p d = some s' := by
  have hd := ro.co p d (by simp)
  have hpm := (hi.coOk p (by simp)).1
  simp only at hd hpm
  have hmemq : ∀ n x, (n, x) ∈ ((s.pending (s.heap.tx p).sender).getD PQ.empty).queue →
      n + 1 < u64Bound := by
    intro n x hm
    cases h : s.pending (s.heap.tx p).sender with
    | none => rw [h] at hm; simp [PQ.empty] at hm
    | some q0 =>
      rw [h] at hm
      obtain ⟨_, b, _, e⟩ := hi.pend _ n x ⟨q0, h, hm⟩
      rw [← b]; exact ro.map x e
  have hsq : Sorted ((s.pending (s.heap.tx p).sender).getD PQ.empty).queue := by
    cases h : s.pending (s.heap.tx p).sender with
    | none => exact List.Pairwise.nil
    | some q0 => exact hi.sorted _ _ h
  simp only [Pool.popOne]
  generalize (s.pending (s.heap.tx p).sender).getD PQ.empty = q at hmemq hsq ⊢
  split
  · exact ⟨_, rfl⟩
  · have hins : ∃ r, q.insert s.heap p d = some r := by
      simp only [PQ.insert]
      rw [if_neg (by omega)]
      split <;> exact ⟨_, rfl⟩
    obtain ⟨⟨h1, q1, push⟩, hr⟩ := hins
    rw [hr]
    simp only
    have hq1 : ∀ e ∈ q1.queue, e.1 + 1 < u64Bound := by
      rintro ⟨n, x⟩ he
      rcases (insert_mem hsq hr).2 n x he with h | ⟨h, _⟩
      · exact hmemq n x h
      · simp only at h ⊢; rw [h]; exact ro.map p hpm
    obtain ⟨⟨a, b, c⟩, hse⟩ := search_total hq1 h1 (if push = true then s.real ++ [p] else s.real)
    rw [hse]
    exact ⟨_, rfl⟩

theorem drain_total {l : List (Nat × Nat)} {s : Pool} (hi : Inv { s with co := l })
    (ro : Room { s with co := l }) : ∃ s', drain l s = some s' := by
  induction l generalizing s with
  | nil => exact ⟨_, rfl⟩
  | cons e l ih =>
    obtain ⟨p, d⟩ := e
    obtain ⟨s1, h1⟩ := popOne_total hi ro
    simp only [Pool.drain, h1]
    have hi1 := hi.popOne h1
    obtain ⟨sm, hc1⟩ := popOne_same h1
    have : { s1 with co := l } = s1 := by cases s1; simp_all
    apply ih
    · rw [this]; exact hi1
    · rw [this]
      refine ⟨?_, ?_⟩
      · rw [sm.txMap, sm.tx]; exact ro.map
      · rw [hc1, sm.tx]; intro x e hx; exact ro.co x e (List.mem_cons_of_mem _ hx)

theorem flushToPending_total {s : Pool} (hi : Inv s) (ro : Room s) :
    ∃ s', flushToPending s = some s' ∧ Room s' ∧ Inv s' ∧ Same s s' ∧ s'.co = [] := by
  obtain ⟨s', h⟩ := drain_total (s := s) (l := s.co) hi ro
  obtain ⟨a, sm, c⟩ := flushToPending_inv hi h
  refine ⟨s', h, ⟨?_, ?_⟩, a, sm, c⟩
  · rw [sm.txMap, sm.tx]; exact ro.map
  · rw [c]; simp

theorem tipPut_mem {tips : List (Nat × Nat)} {a b : Nat} {e : Nat × Nat} (h : e ∈ tipPut tips a b) :
    e ∈ tips ∨ e = (a, b) := by
  unfold tipPut at h
  have hput : e ∈ put tips a b → e ∈ tips ∨ e = (a, b) := by
    intro h
    simp only [put, List.mem_cons, List.mem_filter] at h
    rcases h with h | ⟨h, _⟩
    · exact .inr h
    · exact .inl h
  split at h
  · split at h
    · exact hput h
    · exact .inl h
  · exact hput h

theorem commitLoop_tips {h : Heap} {hashes m : List Nat} {tips : List (Nat × Nat)} {n : Nat}
    (hm : ∀ p ∈ m, (h.tx p).nonce + 1 < u64Bound) (ht : ∀ e ∈ tips, e.2 + 1 < u64Bound) :
    ∀ e ∈ (commitLoop h hashes m tips n).2.1, e.2 + 1 < u64Bound := by
  induction hashes generalizing m tips n with
  | nil => exact ht
  | cons hash rest ih =>
    unfold commitLoop
    split
    · exact ih hm ht
    · rename_i p hp
      apply ih
      · intro x hx; exact hm x (List.mem_filter.1 hx).1
      · intro e he
        rcases tipPut_mem he with h | h
        · exact ht e h
        · rw [h]; exact hm p (List.mem_of_find?_eq_some hp)

theorem dropTips_total {tips : List (Nat × Nat)} (ht : ∀ e ∈ tips, e.2 + 1 < u64Bound) (h : Heap)
    (pend : Nat → Option PQ) : ∃ r, dropTips tips h pend = some r := by
  induction tips generalizing h pend with
  | nil => exact ⟨_, rfl⟩
  | cons e tips ih =>
    obtain ⟨k, v⟩ := e
    have ih' := ih (fun e he => ht e (List.mem_cons_of_mem _ he))
    unfold dropTips
    split
    · exact ih' _ _
    · have : v + 1 < u64Bound := ht (k, v) (by simp)
      simp only [this, if_true]
      exact ih' _ _

theorem flushInner_total {s : Pool} (ro : Room s) (hashes : List Nat) (number : Nat) :
    ∃ r, flushInner s hashes number = some r := by
  unfold flushInner
  have ht := commitLoop_tips (h := s.heap) (hashes := hashes) (m := s.txMap) (tips := []) (n := 0)
    ro.map (by simp)
  rcases hc : commitLoop s.heap hashes s.txMap [] 0 with ⟨m1, tips, n1⟩
  rw [hc] at ht
  obtain ⟨⟨h1, pend1⟩, hd⟩ := dropTips_total ht s.heap s.pending
  simp only [hd]
  exact ⟨_, rfl⟩

theorem Sys.package_total {b : Sys} (ok : SysOk b) : ∃ r, b.package = some r := by
  have : ∀ l : List (Nat × List (Nat × PoolTx)), (∀ e ∈ l, e.2 ≠ []) →
      ∃ r, l.mapM (fun e => e.2.head?.map (·.1)) = some r := by
    intro l
    induction l with
    | nil => intro _; exact ⟨[], rfl⟩
    | cons e l ih =>
      intro h
      obtain ⟨r, hr⟩ := ih (fun x hx => h x (List.mem_cons_of_mem _ hx))
      have hne := h e (by simp)
      cases he : e.2 with
      | nil => exact absurd he hne
      | cons y ys => exact ⟨y.1 :: r, by rw [List.mapM_cons, he, hr]; rfl⟩
  exact this b.buckets (fun e he => (ok.ok e.1 e.2 he).1)

theorem Room.insertTail {s : Pool} (hi : Inv s) (ro : Room s) {t : PoolTx} {d : Nat}
    (h1 : t.nonce + 1 < u64Bound) (h2 : d ≤ t.nonce) : Room (insertTail s t d) := by
  unfold Pool.insertTail
  split
  · exact ⟨ro.map, ro.co⟩
  · have htx : ∀ p ∈ s.txMap, (s.heap.alloc s.next t).tx p = s.heap.tx p := fun p hp => by
      have := hi.mapLt p hp
      have : p ≠ s.next := by omega
      simp [Heap.alloc, this]
    have hco : ∀ p e, (p, e) ∈ s.co → e ≤ ((s.heap.alloc s.next t).tx p).nonce := by
      intro p e hm
      rw [htx p (hi.coOk p (List.mem_map.2 ⟨_, hm, rfl⟩)).1]
      exact ro.co p e hm
    refine ⟨?_, ?_⟩
    · intro p hp
      simp only [List.mem_append, List.mem_singleton] at hp
      rcases hp with hp | rfl
      · simp only; rw [htx p hp]; exact ro.map p hp
      · simpa [Heap.alloc] using h1
    · intro p e hm
      simp only at hm ⊢
      split at hm
      · rcases List.mem_append.1 hm with hm | hm
        · exact hco p e hm
        · simp only [List.mem_singleton, Prod.mk.injEq] at hm
          obtain ⟨rfl, rfl⟩ := hm
          simpa [Heap.alloc] using h2
      · exact hco p e hm

theorem step_total {s : Pool} {op : Op} (g : Good s) (ro : Room s)
    (hop : ∀ t c d, op = .insert t c d → d ≤ t.nonce ∧ t.nonce + 1 < u64Bound) :
    ∃ s', step s op = some s' ∧ Room s' := by
  have href : ∃ s1, Pool.refresh s = some s1 ∧ Room s1 := by
    unfold Pool.refresh
    split
    · exact ⟨s, rfl, ro⟩
    · obtain ⟨s1, h1, r1, _⟩ := flushToPending_total g.inv ro
      exact ⟨s1, h1, r1⟩
  cases op with
  | insert t c d =>
    obtain ⟨h1, h2⟩ := hop t c d rfl
    simp only [Pool.step]
    unfold Pool.insert
    split
    · exact ⟨s, rfl, ro⟩
    · simp only
      split
      · obtain ⟨s2, e, r2, i2, _⟩ := flushToPending_total (s := { s with stock := s.stock + 1 })
          (g.inv.withStock _) ⟨ro.map, ro.co⟩
        rw [e]
        exact ⟨_, rfl, r2.insertTail i2 h2 h1⟩
      · exact ⟨_, rfl, Room.insertTail (s := { s with stock := s.stock + 1 }) (g.inv.withStock _)
          ⟨ro.map, ro.co⟩ h2 h1⟩
  | insertSys t => exact ⟨_, rfl, ⟨ro.map, ro.co⟩⟩
  | package l st =>
    obtain ⟨r, hr⟩ := Sys.package_total g.sys
    obtain ⟨s1, h1, r1⟩ := href
    unfold Pool.refresh at h1
    simp only [Pool.step, Pool.package, hr, h1]
    exact ⟨_, rfl, ⟨r1.map, r1.co⟩⟩
  | refresh => exact href
  | flush hs n =>
    obtain ⟨s1, h1, r1, i1, sm1, co1⟩ := flushToPending_total g.inv ro
    obtain ⟨⟨s2, m⟩, h2⟩ := flushInner_total r1 hs n
    have hst : Pool.step s (.flush hs n) = some { s2 with
        sys := (s2.sys.flush hs).1, stock := s2.stock - (m + (s2.sys.flush hs).2) } := by
      simp only [Pool.step, Pool.flush, h1, h2]
    refine ⟨_, hst, ?_⟩
    have f := flushInner_spec i1 (drain_noMark g.mark h1) h2
    refine ⟨?_, ?_⟩
    · intro p hp
      have := ((f.map p).1 hp).1
      simp only [f.tx]
      exact r1.map p this
    · intro p d hm
      have : s2.co = s1.co := by
        unfold flushInner at h2
        rcases hc : commitLoop s1.heap hs s1.txMap [] 0 with ⟨m1, tips, n1⟩
        rw [hc] at h2
        simp only at h2
        split at h2
        · cases h2
        · simp only [Option.some.injEq, Prod.mk.injEq] at h2
          rw [← h2.1]
      simp only at hm
      rw [this, co1] at hm
      simp at hm

end Axon.Pool
