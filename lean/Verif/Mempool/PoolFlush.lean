import Verif.Mempool.PoolLemmas

/-!
# What `insert`, `package` and `flush` do to the pool
-/

namespace Axon.Pool
open Axon.Assoc

/-! ## Committed hashes -/

theorem tipPut_get (tips : List (Nat × Nat)) (k n k' : Nat) :
    get (tipPut tips k n) k' =
      if k' = k then some (max ((get tips k).getD 0) n) else get tips k' := by
  unfold tipPut
  split
  · rename_i v hv
    rw [hv]; simp only [Option.getD_some]
    split
    · rw [get_put]; split
      · simp only [Option.some.injEq]; omega
      · rfl
    · split
      · rename_i h; subst h; rw [hv]; simp only [Option.some.injEq]; omega
      · rfl
  · rename_i hv
    rw [get_put, hv]; simp

theorem tipPut_nodup {tips : List (Nat × Nat)} (h : NodupKeys tips) (k n : Nat) :
    NodupKeys (tipPut tips k n) := by
  unfold tipPut
  split
  · split
    · exact nodupKeys_put h _ _
    · exact h
  · exact nodupKeys_put h _ _

/-- Everything about the first loop of `flush_inner`. -/
structure CommitSpec (h : Heap) (hashes m : List Nat) (tips : List (Nat × Nat)) (n : Nat)
    (r : List Nat × List (Nat × Nat) × Nat) : Prop where
  map : r.1 = m.filter (fun p => !hashes.contains (h.tx p).hash)
  nodup : NodupKeys r.2.1
  mono : ∀ k v, get tips k = some v → ∃ w, get r.2.1 k = some w ∧ v ≤ w
  covers : ∀ p ∈ m, (h.tx p).hash ∈ hashes → ∃ v, get r.2.1 (h.tx p).sender = some v ∧ (h.tx p).nonce ≤ v
  only : ∀ k v, get r.2.1 k = some v → get tips k = some v ∨
    ∃ p ∈ m, (h.tx p).hash ∈ hashes ∧ (h.tx p).sender = k ∧ (h.tx p).nonce = v
  num : r.2.2 + r.1.length = n + m.length

theorem filter_hash_length {f : Nat → PoolTx} {m : List Nat} {hash p : Nat}
    (hd : m.Pairwise (fun a b => (f a).hash ≠ (f b).hash))
    (hp : m.find? (fun p => (f p).hash = hash) = some p) :
    (m.filter (fun p => (f p).hash ≠ hash)).length + 1 = m.length := by
  induction m with
  | nil => simp at hp
  | cons x m ih =>
    have hd' := List.pairwise_cons.1 hd
    by_cases hx : (f x).hash = hash
    · rw [List.filter_cons_of_neg (by simp [hx])]
      have : m.filter (fun p => (f p).hash ≠ hash) = m := by
        rw [List.filter_eq_self]
        intro y hy
        have := hd'.1 y hy
        rw [hx] at this
        simpa using fun h => this h.symm
      rw [this]; rfl
    · rw [List.filter_cons_of_pos (by simp [hx])]
      rw [List.find?_cons_of_neg (by simp [hx])] at hp
      have := ih hd'.2 hp
      simp only [List.length_cons]; omega

theorem commitLoop_spec (h : Heap) (hashes : List Nat) : ∀ (m : List Nat) (tips : List (Nat × Nat)) (n : Nat),
    m.Pairwise (fun a b => (h.tx a).hash ≠ (h.tx b).hash) → NodupKeys tips →
    CommitSpec h hashes m tips n (commitLoop h hashes m tips n) := by
  induction hashes with
  | nil =>
    intro m tips n hd ht
    unfold commitLoop
    refine ⟨(List.filter_eq_self.2 (by simp)).symm, ht, fun k v hv => ⟨v, hv, Nat.le_refl _⟩, by simp, fun k v hv => .inl hv, rfl⟩
  | cons hash rest ih =>
    intro m tips n hd ht
    unfold commitLoop
    split
    · rename_i hnone
      have hnone' : ∀ p ∈ m, (h.tx p).hash ≠ hash := by
        intro p hp; simpa using (List.find?_eq_none.1 hnone) p hp
      have r := ih m tips n hd ht
      refine ⟨?_, r.nodup, r.mono, ?_, ?_, r.num⟩
      · rw [r.map]
        apply List.filter_congr
        intro p hp
        have := hnone' p hp
        simp [this]
      · intro p hp hh
        rcases List.mem_cons.1 hh with hh | hh
        · exact absurd hh (hnone' p hp)
        · exact r.covers p hp hh
      · intro k v hv
        rcases r.only k v hv with h1 | ⟨p, hp, h1, h2⟩
        · exact .inl h1
        · exact .inr ⟨p, hp, List.mem_cons_of_mem _ h1, h2⟩
    · rename_i p0 hp0
      have hp0m : p0 ∈ m := List.mem_of_find?_eq_some hp0
      have hp0h : (h.tx p0).hash = hash := by simpa using List.find?_some hp0
      have huniq : ∀ p ∈ m, (h.tx p).hash = hash → p = p0 := by
        intro p hp hh
        clear ih ht
        induction m with
        | nil => simp at hp
        | cons x m ih =>
          have hd' := List.pairwise_cons.1 hd
          by_cases hx : (h.tx x).hash = hash
          · rw [List.find?_cons_of_pos (by simp [hx])] at hp0
            cases hp0
            rcases List.mem_cons.1 hp with h1 | h1
            · exact h1
            · exact absurd (hx.trans hh.symm) (hd'.1 p h1)
          · rw [List.find?_cons_of_neg (by simp [hx])] at hp0
            rcases List.mem_cons.1 hp with h1 | h1
            · exact absurd (h1 ▸ hh) hx
            · exact ih hd'.2 hp0 (List.mem_of_find?_eq_some hp0) h1
      have r := ih (m.filter (fun p => (h.tx p).hash ≠ hash)) (tipPut tips (h.tx p0).sender (h.tx p0).nonce)
        (n + 1) (List.Pairwise.filter _ hd) (tipPut_nodup ht _ _)
      refine ⟨?_, r.nodup, ?_, ?_, ?_, ?_⟩
      · rw [r.map, List.filter_filter]
        apply List.filter_congr
        intro p hp
        by_cases hx : (h.tx p).hash = hash <;> simp [hx]
      · intro k v hv
        by_cases hk : k = (h.tx p0).sender
        · obtain ⟨w, hw, hle⟩ := r.mono k (max v (h.tx p0).nonce) (by
            rw [tipPut_get, if_pos hk, ← hk, hv]; rfl)
          exact ⟨w, hw, by omega⟩
        · exact r.mono k v (by rw [tipPut_get, if_neg hk]; exact hv)
      · intro p hp hh
        by_cases hx : (h.tx p).hash = hash
        · have := huniq p hp hx; subst this
          obtain ⟨w, hw, hle⟩ := r.mono (h.tx p).sender _ (by rw [tipPut_get, if_pos rfl])
          exact ⟨w, hw, by omega⟩
        · rcases List.mem_cons.1 hh with hh | hh
          · exact absurd hh hx
          · exact r.covers p (List.mem_filter.2 ⟨hp, by simpa using hx⟩) hh
      · intro k v hv
        rcases r.only k v hv with h1 | ⟨p, hp, h1, h2⟩
        · rw [tipPut_get] at h1
          split at h1
          · rename_i hk
            simp only [Option.some.injEq] at h1
            cases hg : get tips (h.tx p0).sender with
            | none =>
              rw [hg] at h1
              simp only [Option.getD_none] at h1
              exact .inr ⟨p0, hp0m, by simp [hp0h], hk.symm, by omega⟩
            | some w =>
              rw [hg] at h1
              simp only [Option.getD_some] at h1
              by_cases hw : v = w
              · left; rw [hk, hg, hw]
              · exact .inr ⟨p0, hp0m, by simp [hp0h], hk.symm, by omega⟩
          · exact .inl h1
        · exact .inr ⟨p, (List.mem_filter.1 hp).1, List.mem_cons_of_mem _ h1, h2⟩
      · have := r.num
        have := filter_hash_length hd hp0
        omega

/-! ## Dropping by nonce tip -/

theorem dropUpTo_spec (l : List (Nat × Nat)) (tip : Nat) : ∀ (h : Heap),
    (dropUpTo l tip h).tx = h.tx ∧ (dropUpTo l tip h).pkg = h.pkg ∧
    ∀ x, (dropUpTo l tip h).drp x = true ↔ h.drp x = true ∨ ∃ n, (n, x) ∈ l ∧ n ≤ tip := by
  induction l with
  | nil => intro h; simp [dropUpTo]
  | cons e l ih =>
    intro h
    obtain ⟨a, b⟩ := e
    have : dropUpTo ((a, b) :: l) tip h = dropUpTo l tip (if a ≤ tip then h.setDrp b else h) := rfl
    rw [this]
    obtain ⟨h1, h2, h3⟩ := ih (if a ≤ tip then h.setDrp b else h)
    refine ⟨?_, ?_, ?_⟩
    · rw [h1]; split <;> rfl
    · rw [h2]; split <;> rfl
    · intro x
      rw [h3]
      by_cases ha : a ≤ tip
      · simp only [ha, if_true, Heap.setDrp]
        constructor
        · rintro (h | ⟨n, h, hn⟩)
          · split at h
            · rename_i hx; subst hx; exact .inr ⟨a, by simp, ha⟩
            · exact .inl h
          · exact .inr ⟨n, List.mem_cons_of_mem _ h, hn⟩
        · rintro (h | ⟨n, h, hn⟩)
          · left; simp [h]
          · rcases List.mem_cons.1 h with h | h
            · simp only [Prod.mk.injEq] at h; left; simp [h.2]
            · exact .inr ⟨n, h, hn⟩
      · simp only [ha, if_false]
        constructor
        · rintro (h | ⟨n, h, hn⟩)
          · exact .inl h
          · exact .inr ⟨n, List.mem_cons_of_mem _ h, hn⟩
        · rintro (h | ⟨n, h, hn⟩)
          · exact .inl h
          · rcases List.mem_cons.1 h with h | h
            · simp only [Prod.mk.injEq] at h; omega
            · exact .inr ⟨n, h, hn⟩

/-- The queue of `k` after the tips were set. -/
def tipped (tips : List (Nat × Nat)) (pend : Nat → Option PQ) (k : Nat) : Option PQ :=
  (pend k).map fun q =>
    match get tips k with
    | some v => { q with pop := v + 1, cur := v + 1 }
    | none => q

structure TipSpec (tips : List (Nat × Nat)) (h : Heap) (pend : Nat → Option PQ)
    (r : Heap × (Nat → Option PQ)) : Prop where
  tx : r.1.tx = h.tx
  pkg : r.1.pkg = h.pkg
  drp : ∀ x, r.1.drp x = true ↔ h.drp x = true ∨
    ∃ k v n, get tips k = some v ∧ Mem pend k n x ∧ n ≤ v
  pend : ∀ k, r.2 k = tipped tips pend k

theorem dropTips_spec : ∀ (tips : List (Nat × Nat)) (h : Heap) (pend : Nat → Option PQ) (r),
    NodupKeys tips → dropTips tips h pend = some r → TipSpec tips h pend r := by
  intro tips
  induction tips with
  | nil =>
    intro h pend r _ hr
    simp only [dropTips, Option.some.injEq] at hr; subst hr
    refine ⟨rfl, rfl, by simp [get_nil], ?_⟩
    intro k; simp [tipped, get_nil]
  | cons e tips ih =>
    obtain ⟨k0, v0⟩ := e
    intro h pend r hn hr
    have hn' := List.pairwise_cons.1 hn
    have hk0 : get tips k0 = none := by
      cases hg : get tips k0 with
      | none => rfl
      | some w => exact absurd rfl (hn'.1 (k0, w) (mem_of_get hg))
    simp only [dropTips] at hr
    split at hr
    · rename_i hp0
      have i := ih h pend r hn'.2 hr
      refine ⟨i.tx, i.pkg, ?_, ?_⟩
      · intro x
        rw [i.drp]
        constructor
        · rintro (h | ⟨k, v, n, h1, h2⟩)
          · exact .inl h
          · refine .inr ⟨k, v, n, ?_, h2⟩
            rw [get_cons]
            have : k0 ≠ k := by rintro rfl; rw [hk0] at h1; cases h1
            simp [this, h1]
        · rintro (h | ⟨k, v, n, h1, h2⟩)
          · exact .inl h
          · rw [get_cons] at h1
            split at h1
            · rename_i hk; simp only at hk; subst hk
              obtain ⟨⟨q, hq, _⟩, _⟩ := h2
              rw [hp0] at hq; cases hq
            · exact .inr ⟨k, v, n, h1, h2⟩
      · intro k
        rw [i.pend]
        unfold tipped
        rw [get_cons]
        by_cases hk : k0 = k
        · subst hk; simp [hp0]
        · simp [hk]
    · rename_i q0 hp0
      split at hr
      · have i := ih _ _ r hn'.2 hr
        obtain ⟨d1, d2, d3⟩ := dropUpTo_spec q0.queue v0 h
        refine ⟨i.tx.trans d1, i.pkg.trans d2, ?_, ?_⟩
        · intro x
          rw [i.drp, d3]
          constructor
          · rintro ((h | ⟨n, h1, h2⟩) | ⟨k, v, n, h1, h2, h3⟩)
            · exact .inl h
            · exact .inr ⟨k0, v0, n, by rw [get_cons]; simp, ⟨q0, hp0, h1⟩, h2⟩
            · have hk : k ≠ k0 := by rintro rfl; rw [hk0] at h1; cases h1
              refine .inr ⟨k, v, n, ?_, ?_, h3⟩
              · rw [get_cons, if_neg (fun h => hk h.symm)]; exact h1
              · rcases mem_upd.1 h2 with ⟨h, _⟩ | ⟨_, h⟩
                · exact absurd h hk
                · exact h
          · rintro (h | ⟨k, v, n, h1, h2, h3⟩)
            · exact .inl (.inl h)
            · rw [get_cons] at h1
              split at h1
              · rename_i hk; simp only at hk; subst hk
                simp only [Option.some.injEq] at h1; subst h1
                obtain ⟨q, hq, hm⟩ := h2
                rw [hp0] at hq; cases hq
                exact .inl (.inr ⟨n, hm, h3⟩)
              · rename_i hk; simp only at hk
                exact .inr ⟨k, v, n, h1, mem_upd.2 (.inr ⟨fun h => hk h.symm, h2⟩), h3⟩
        · intro k
          rw [i.pend]
          unfold tipped
          rw [get_cons]
          by_cases hk : k0 = k
          · subst hk; rw [upd_same, hp0, hk0]; simp
          · rw [upd_ne _ _ (fun h => hk h.symm)]; simp [hk]
      · cases hr

theorem mem_tipped {tips : List (Nat × Nat)} {pend : Nat → Option PQ} {k n p : Nat} :
    Mem (tipped tips pend) k n p ↔ Mem pend k n p := by
  unfold Mem tipped
  cases pend k with
  | none => simp
  | some q => simp; split <;> rfl

theorem dropAll_spec (l : List Nat) : ∀ (h : Heap),
    (dropAll l h).tx = h.tx ∧ (dropAll l h).pkg = h.pkg ∧
    ∀ x, (dropAll l h).drp x = true ↔ h.drp x = true ∨ x ∈ l := by
  induction l with
  | nil => intro h; simp [dropAll]
  | cons a l ih =>
    intro h
    have : dropAll (a :: l) h = dropAll l (h.setDrp a) := rfl
    rw [this]
    obtain ⟨h1, h2, h3⟩ := ih (h.setDrp a)
    refine ⟨h1, h2, ?_⟩
    intro x
    rw [h3]
    simp only [Heap.setDrp, List.mem_cons]
    split
    · rename_i hx; simp [hx]
    · rename_i hx; simp [hx]

/-! ## The queues carry no removal mark between operations -/

def NoMark (s : Pool) : Prop := ∀ k q, s.pending k = some q → q.needRemove = false

theorem insert_needRemove {q : PQ} {h : Heap} {p d : Nat} {r} (hr : q.insert h p d = some r) :
    r.2.1.needRemove = q.needRemove := by
  simp only [PQ.insert] at hr
  split at hr
  · cases hr
  · split at hr
    · simp only [Option.some.injEq] at hr; subst hr; rfl
    · simp only [Option.some.injEq] at hr; subst hr
      have : (q.raise ((h.tx p).nonce - d)).needRemove = q.needRemove := by
        unfold PQ.raise; split <;> rfl
      rw [← this]
      simp only [PQ.place]
      split
      · split
        · split <;> rfl
        · rfl
      · rfl

theorem popOne_noMark {s : Pool} {p d : Nat} {s' : Pool} (hi : NoMark s)
    (hr : popOne s p d = some s') : NoMark s' := by
  have h0 : ((s.pending (s.heap.tx p).sender).getD PQ.empty).needRemove = false := by
    cases h : s.pending (s.heap.tx p).sender with
    | none => rfl
    | some q => exact hi _ _ h
  have key : ∀ q2 : PQ, q2.needRemove = false → ∀ k q,
      upd s.pending (s.heap.tx p).sender (some q2) k = some q → q.needRemove = false := by
    intro q2 h2 k q hq
    by_cases hk : k = (s.heap.tx p).sender
    · subst hk; rw [upd_same] at hq; cases hq; exact h2
    · rw [upd_ne _ _ hk] at hq; exact hi _ _ hq
  simp only [Pool.popOne] at hr
  split at hr
  · simp only [Option.some.injEq] at hr; subst hr; exact key _ h0
  · split at hr
    · cases hr
    · rename_i h1 q1 push hins
      have h1' := (insert_needRemove hins).trans h0
      split at hr
      · cases hr
      · rename_i hse
        simp only [Option.some.injEq] at hr; subst hr
        refine key _ ?_
        simp only [PQ.search, Option.map_eq_some_iff] at hse
        obtain ⟨⟨a, b, c⟩, _, he⟩ := hse
        simp only [Prod.mk.injEq] at he
        rw [← he.2.1]; exact h1'

theorem drain_noMark {l : List (Nat × Nat)} {s s' : Pool} (hi : NoMark s)
    (hr : drain l s = some s') : NoMark s' := by
  induction l generalizing s with
  | nil => simp only [drain, Option.some.injEq] at hr; subst hr; exact hi
  | cons e l ih =>
    obtain ⟨p, d⟩ := e
    simp only [drain] at hr
    split at hr
    · cases hr
    · rename_i s1 h1
      exact ih (popOne_noMark (s := { s with co := l }) hi h1) hr

/-! ## `flush_inner` -/

theorem mem_clearPending {h : Heap} {pend : Nat → Option PQ}
    (hm : ∀ k q, pend k = some q → q.needRemove = false) {k n p : Nat} :
    Mem (clearPending h pend) k n p ↔ Mem pend k n p ∧ h.drp p = false := by
  unfold Mem clearPending
  cases hp : pend k with
  | none => simp
  | some q =>
    have hq := hm k q hp
    simp only [PQ.clear, hq, Bool.false_or]
    cases he : q.queue with
    | nil => simp [he]
    | cons a l =>
      simp only [List.isEmpty_cons, Bool.false_eq_true, if_false, Option.some.injEq, exists_eq_left',
        List.mem_filter, Bool.not_eq_true', he]

theorem sorted_clearPending {h : Heap} {pend : Nat → Option PQ}
    (hs : ∀ k q, pend k = some q → Sorted q.queue) {k : Nat} {q : PQ}
    (hq : clearPending h pend k = some q) : Sorted q.queue := by
  unfold clearPending at hq
  split at hq
  · cases hq
  · rename_i q0 h0
    split at hq
    · cases hq
    · simp only [Option.some.injEq] at hq; subst hq
      exact List.Pairwise.filter _ (hs _ _ h0)

/-- Hash `x` of the flush makes `p` (stored in a pending queue) obsolete: a committed transaction of the
same sender has at least its nonce. -/
def Outdated (s : Pool) (hashes : List Nat) (p : Nat) : Prop :=
  ∃ c ∈ s.txMap, (s.heap.tx c).hash ∈ hashes ∧ (s.heap.tx c).sender = (s.heap.tx p).sender ∧
    (s.heap.tx p).nonce ≤ (s.heap.tx c).nonce

/-- The effect of `flush_inner` on a pool whose `co_queue` is empty. -/
structure FlushSpec (s : Pool) (hashes : List Nat) (number : Nat) (s' : Pool) (n : Nat) : Prop where
  cap : s'.cap = s.cap
  gap : s'.gap = s.gap
  next : s'.next = s.next
  tx : s'.heap.tx = s.heap.tx
  pkg : s'.heap.pkg = s.heap.pkg
  co : s'.co = s.co
  stock : s'.stock = s.stock
  sys : s'.sys = s.sys
  drp : ∀ x, s'.heap.drp x = true ↔ s.heap.drp x = true ∨ (Here s x ∧ Outdated s hashes x) ∨
    (x ∈ s.txMap ∧ (s.heap.tx x).hash ∉ hashes ∧ (s.heap.tx x).hash ∈ expiring s number)
  map : ∀ x, x ∈ s'.txMap ↔ x ∈ s.txMap ∧ (s.heap.tx x).hash ∉ hashes ∧ s'.heap.drp x = false
  sub : s'.txMap.Sublist s.txMap
  num : n + s'.txMap.length = s.txMap.length
  real : s'.real = s.real.filter (fun p => !s'.heap.drp p)
  mem : ∀ k m p, Mem s'.pending k m p ↔ Mem s.pending k m p ∧ s'.heap.drp p = false
  qs : ∀ k q, s'.pending k = some q → ∃ q0, s.pending k = some q0 ∧
    q.queue = q0.queue.filter (fun e => !s'.heap.drp e.2) ∧ q.needRemove = false ∧
    ((q.pop = q0.pop ∧ q.cur = q0.cur ∧ ∀ c ∈ s.txMap, (s.heap.tx c).hash ∈ hashes →
        (s.heap.tx c).sender ≠ k) ∨
      ∃ c ∈ s.txMap, (s.heap.tx c).hash ∈ hashes ∧ (s.heap.tx c).sender = k ∧
        q.pop = (s.heap.tx c).nonce + 1 ∧ q.cur = (s.heap.tx c).nonce + 1 ∧
        ∀ c' ∈ s.txMap, (s.heap.tx c').hash ∈ hashes → (s.heap.tx c').sender = k →
          (s.heap.tx c').nonce ≤ (s.heap.tx c).nonce)
  timeouts : ∀ m, get s'.timeouts m =
    if m = number then
      some ((if s.gap = 0 then [] else (get s.timeouts number).getD []) ++
        s'.txMap.map (fun p => (s.heap.tx p).hash))
    else if s.gap ≤ number ∧ m = number - s.gap then none
    else get s.timeouts m

theorem filter_split_length {α : Type} (f : α → Bool) (l : List α) :
    (l.filter f).length + (l.filter (fun x => !f x)).length = l.length := by
  induction l with
  | nil => rfl
  | cons a l ih => by_cases h : f a = true <;> simp [h] <;> omega

theorem flushInner_spec {s : Pool} (hi : Inv s) (hm : NoMark s) {hashes : List Nat} {number : Nat}
    {s' : Pool} {n : Nat} (hr : flushInner s hashes number = some (s', n)) :
    FlushSpec s hashes number s' n := by
  have cs := commitLoop_spec s.heap hashes s.txMap [] 0 hi.mapHash List.Pairwise.nil
  unfold flushInner at hr
  generalize commitLoop s.heap hashes s.txMap [] 0 = cl at hr cs
  obtain ⟨m1, tips, n1⟩ := cl
  simp only at hr
  split at hr
  · cases hr
  · rename_i h1 pend1 hdt
    have ts := dropTips_spec tips s.heap s.pending _ cs.nodup hdt
    have tx1 : h1.tx = s.heap.tx := ts.tx
    obtain ⟨da1, da2, da3⟩ := dropAll_spec (m1.filter (fun p => !keeps h1 (expiring s number) p)) h1
    have htx2 : (dropAll (m1.filter (fun p => !keeps h1 (expiring s number) p)) h1).tx = s.heap.tx :=
      da1.trans tx1
    have hm1 : ∀ x, x ∈ m1 ↔ x ∈ s.txMap ∧ (s.heap.tx x).hash ∉ hashes := by
      intro x
      have := cs.map; simp only at this
      rw [this, List.mem_filter]; simp
    have hout : ∀ x, (∃ k v n, get tips k = some v ∧ Mem s.pending k n x ∧ n ≤ v) ↔
        (Here s x ∧ Outdated s hashes x) := by
      intro x
      constructor
      · rintro ⟨k, v, n, h1, h2, h3⟩
        obtain ⟨a, b, c, d⟩ := hi.pend k n x h2
        refine ⟨by unfold Here; rw [a, b]; exact h2, ?_⟩
        rcases cs.only k v h1 with h | ⟨p, hp, hph, hps, hpn⟩
        · simp [get_nil] at h
        · exact ⟨p, hp, hph, by rw [hps, a], by omega⟩
      · rintro ⟨hh, c, hc, hch, hcs, hcn⟩
        obtain ⟨v, hv, hle⟩ := cs.covers c hc hch
        exact ⟨_, v, _, hcs ▸ hv, hh, by omega⟩
    have hd1 : ∀ x, h1.drp x = true ↔ s.heap.drp x = true ∨ (Here s x ∧ Outdated s hashes x) := by
      intro x; rw [ts.drp x]; rw [hout]
    have hmark : ∀ k q, pend1 k = some q → q.needRemove = false := by
      intro k q hq
      have := ts.pend k; simp only at this
      rw [this] at hq
      simp only [tipped, Option.map_eq_some_iff] at hq
      obtain ⟨q0, h0, h1⟩ := hq
      rw [← h1]
      have := hm k q0 h0
      split <;> exact this
    have hfun : pend1 = tipped tips s.pending := funext ts.pend
    simp only [Option.some.injEq, Prod.mk.injEq] at hr
    obtain ⟨rfl, rfl⟩ := hr
    refine ⟨rfl, rfl, rfl, htx2, da2.trans ts.pkg, rfl, rfl, rfl, ?_, ?_, ?_, ?_, rfl, ?_, ?_, ?_⟩
    · intro x
      simp only
      rw [da3, hd1, List.mem_filter, hm1]
      simp only [keeps, tx1, Bool.not_and, Bool.not_not, Bool.or_eq_true, List.contains_iff_mem]
      constructor
      · rintro ((h | h) | ⟨⟨h1, h2⟩, h3 | h3⟩)
        · exact .inl h
        · exact .inr (.inl h)
        · rcases (hd1 x).1 h3 with h | h
          · exact .inl h
          · exact .inr (.inl h)
        · exact .inr (.inr ⟨h1, h2, h3⟩)
      · rintro (h | h | ⟨h1, h2, h3⟩)
        · exact .inl (.inl h)
        · exact .inl (.inr h)
        · exact .inr ⟨⟨h1, h2⟩, .inr h3⟩
    · intro x
      simp only
      have hk : keeps h1 (expiring s number) x = true ↔
          h1.drp x = false ∧ (expiring s number).contains (s.heap.tx x).hash = false := by
        simp only [keeps, Bool.and_eq_true, Bool.not_eq_true', tx1]
      rw [List.mem_filter, hm1, hk]
      constructor
      · rintro ⟨⟨a, b⟩, c, d⟩
        refine ⟨a, b, ?_⟩
        cases hd : (dropAll (m1.filter (fun p => !keeps h1 (expiring s number) p)) h1).drp x with
        | false => rfl
        | true =>
          rcases (da3 x).1 hd with h | h
          · rw [c] at h; cases h
          · have := (List.mem_filter.1 h).2
            simp only [keeps, c, tx1, d] at this
            simp at this
      · rintro ⟨a, b, c⟩
        have hx1 : h1.drp x = false := by
          cases hd : h1.drp x with
          | false => rfl
          | true => rw [(da3 x).2 (.inl hd)] at c; cases c
        refine ⟨⟨a, b⟩, hx1, ?_⟩
        cases hd : (expiring s number).contains (s.heap.tx x).hash with
        | false => rfl
        | true =>
          have : x ∈ m1.filter (fun p => !keeps h1 (expiring s number) p) := by
            rw [List.mem_filter, hm1]
            refine ⟨⟨a, b⟩, ?_⟩
            simp only [keeps, hx1, tx1, hd]; rfl
          rw [(da3 x).2 (.inr this)] at c; cases c
    · simp only
      refine List.Sublist.trans List.filter_sublist ?_
      have := cs.map; simp only at this
      rw [this]; exact List.filter_sublist
    · simp only
      have e1 := cs.num
      have e2 := filter_split_length (fun p => keeps h1 (expiring s number) p) m1
      simp only at e1 e2
      omega
    · intro k m p
      simp only
      rw [mem_clearPending hmark, hfun, mem_tipped]
    · intro k q hq
      simp only [clearPending, hfun] at hq
      split at hq
      · cases hq
      · rename_i q1 hq1
        simp only [tipped, Option.map_eq_some_iff] at hq1
        obtain ⟨q0, h0, h1⟩ := hq1
        split at hq
        · cases hq
        · rename_i hnr
          simp only [Option.some.injEq] at hq; subst hq
          refine ⟨q0, h0, ?_, by simpa using hnr, ?_⟩
          · rw [← h1]; simp only [PQ.clear]
            split <;> rfl
          · cases hg : get tips k with
            | none =>
              rw [hg] at h1; subst h1
              refine .inl ⟨rfl, rfl, ?_⟩
              intro c hc hch hcs
              obtain ⟨v, hv, _⟩ := cs.covers c hc hch
              rw [hcs] at hv
              simp only at hv
              rw [hg] at hv; cases hv
            | some v =>
              rw [hg] at h1; subst h1
              rcases cs.only k v hg with h | ⟨c, hc, hch, hcs, hcn⟩
              · simp [get_nil] at h
              · refine .inr ⟨c, hc, hch, hcs, by simp [PQ.clear, hcn], by simp [PQ.clear, hcn], ?_⟩
                intro c' hc' hch' hcs'
                obtain ⟨w, hw, hle⟩ := cs.covers c' hc' hch'
                rw [hcs'] at hw; simp only at hw; rw [hg] at hw; cases hw
                omega
    · intro m
      simp only
      rw [get_put]
      by_cases hmn : m = number
      · simp only [hmn, if_true, htx2]
        congr 2
        by_cases hg : s.gap ≤ number
        · simp only [hg, if_true]
          rw [get_del]
          by_cases hz : s.gap = 0
          · simp [hz]
          · have : ¬ number = number - s.gap := by omega
            simp [hz, this]
        · have : s.gap ≠ 0 := by omega
          simp [hg, this]
      · simp only [hmn, if_false]
        by_cases hg : s.gap ≤ number
        · simp only [hg, if_true, true_and]; rw [get_del]
        · simp [hg]

theorem FlushSpec.inv {s : Pool} (hi : Inv s) (hc : s.co = []) {hashes : List Nat} {number : Nat}
    {s' : Pool} {n : Nat} (f : FlushSpec s hashes number s' n) : Inv s' := by
  have hdmono : ∀ x, s'.heap.drp x = false → s.heap.drp x = false := by
    intro x hx
    cases h : s.heap.drp x with
    | false => rfl
    | true => rw [(f.drp x).2 (.inl h)] at hx; cases hx
  have hmap : ∀ x, Here s x → s'.heap.drp x = false → x ∈ s.txMap → x ∈ s'.txMap := by
    intro x hh hd hx
    refine (f.map x).2 ⟨hx, ?_, hd⟩
    intro hmem
    have : s'.heap.drp x = true :=
      (f.drp x).2 (.inr (.inl ⟨hh, x, hx, hmem, rfl, Nat.le_refl _⟩))
    rw [this] at hd; cases hd
  have hpend : ∀ k n p, Mem s'.pending k n p → (s.heap.tx p).sender = k ∧ (s.heap.tx p).nonce = n ∧
      s'.heap.drp p = false ∧ p ∈ s'.txMap := by
    intro k n p h
    obtain ⟨h1, h2⟩ := (f.mem k n p).1 h
    obtain ⟨a, b, c, d⟩ := hi.pend k n p h1
    exact ⟨a, b, h2, hmap p (by unfold Here; rw [a, b]; exact h1) h2 d⟩
  constructor
  · intro p hp; rw [f.next]; exact hi.mapLt p ((f.map p).1 hp).1
  · rw [f.tx]; exact hi.mapHash.sublist f.sub
  · rw [f.co, hc]; simp
  · rw [f.co, hc]; simp
  · rw [f.co, hc]; simp
  · intro k q hq
    obtain ⟨q0, h0, h1, _⟩ := f.qs k q hq
    rw [h1]; exact List.Pairwise.filter _ (hi.sorted k q0 h0)
  · intro k n p h
    rw [f.tx]; exact hpend k n p h
  · rw [f.real]; exact hi.realNodup.sublist List.filter_sublist
  · intro x hx
    rw [f.real, List.mem_filter] at hx
    obtain ⟨hx, hd⟩ := hx
    simp only [Bool.not_eq_true'] at hd
    obtain ⟨a, b, c⟩ := hi.realOk x hx
    rcases c with c | c
    · rw [hdmono x hd] at c; cases c
    · refine ⟨hmap x c hd a, by rw [f.pkg]; exact b, .inr ?_⟩
      unfold Here; rw [f.tx]; exact (f.mem _ _ _).2 ⟨c, hd⟩
  · intro k n p h hp
    obtain ⟨h1, h2⟩ := (f.mem k n p).1 h
    rw [f.real, List.mem_filter]
    refine ⟨hi.pkgReal k n p h1 (by rw [← f.pkg]; exact hp), by simp [h2]⟩
  · intro x hx
    obtain ⟨a, b, c⟩ := (f.map x).1 hx
    rcases hi.mapCases x a with h | h | h
    · rw [hc] at h; simp at h
    · rw [hdmono x c] at h; cases h
    · right; right; unfold Here; rw [f.tx]; exact (f.mem _ _ _).2 ⟨h, c⟩

end Axon.Pool
