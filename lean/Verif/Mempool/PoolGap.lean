import Verif.Mempool.PoolAcc

/-!
# Nonce gaps and replacement in the pending queues: lemmas
-/

namespace Axon.Pool
open Axon.Assoc

/-! ## The search loop -/

theorem searchLoop_spec : ∀ (l : List (Nat × Nat)) (c : Nat) (h : Heap) (real : List Nat) (h' : Heap)
    (real' : List Nat) (c' : Nat), Sorted l → (∀ e ∈ l, c ≤ e.1) →
    searchLoop l c h real = some (h', real', c') →
    c ≤ c' ∧ (∀ n, c ≤ n → n < c' → ∃ p, (n, p) ∈ l ∧ h'.pkg p = true) ∧ (∀ p, (c', p) ∉ l) ∧
    (∀ x, h.pkg x = true → h'.pkg x = true) ∧
    (∀ x, (∀ n, n < c' → (n, x) ∉ l) → h'.pkg x = h.pkg x) := by
  intro l
  induction l with
  | nil =>
    intro c h real h' real' c' _ _ hr
    simp only [searchLoop, Option.some.injEq, Prod.mk.injEq] at hr
    obtain ⟨rfl, rfl, rfl⟩ := hr
    exact ⟨Nat.le_refl _, fun n h1 h2 => by omega, by simp, fun x hx => hx, fun x _ => rfl⟩
  | cons e l ih =>
    obtain ⟨k, v⟩ := e
    intro c h real h' real' c' hs hc hr
    have hs' := List.pairwise_cons.1 hs
    simp only [searchLoop] at hr
    split at hr
    · rename_i hk
      split at hr
      · have hc' : ∀ e ∈ l, c + 1 ≤ e.1 := by
          intro e he; have := hs'.1 e he; simp only at this; omega
        -- both branches: `v` is marked afterwards
        have key : ∃ h1 : Heap, (h1 = h ∧ h.pkg v = true ∨ h1 = h.setPkg v) ∧ ∃ r1,
            searchLoop l (c + 1) h1 r1 = some (h', real', c') := by
          split at hr
          · rename_i hv; exact ⟨h, .inl ⟨rfl, hv⟩, real, hr⟩
          · exact ⟨h.setPkg v, .inr rfl, _, hr⟩
        obtain ⟨h1, hh1, r1, hr1⟩ := key
        obtain ⟨a, b, c1, d, f⟩ := ih (c + 1) h1 r1 h' real' c' hs'.2 hc' hr1
        have hv1 : h1.pkg v = true := by
          rcases hh1 with ⟨rfl, h2⟩ | rfl
          · exact h2
          · simp [Heap.setPkg]
        have hmono : ∀ x, h.pkg x = true → h1.pkg x = true := by
          intro x hx
          rcases hh1 with ⟨rfl, _⟩ | rfl
          · exact hx
          · simp [Heap.setPkg, hx]
        have hsame : ∀ x, x ≠ v → h1.pkg x = h.pkg x := by
          intro x hx
          rcases hh1 with ⟨rfl, _⟩ | rfl
          · rfl
          · simp [Heap.setPkg, hx]
        refine ⟨by omega, ?_, ?_, fun x hx => d x (hmono x hx), ?_⟩
        · intro n hn1 hn2
          by_cases hnc : n = c
          · exact ⟨v, by rw [hnc, ← hk]; simp, d v hv1⟩
          · obtain ⟨p, hp, hp'⟩ := b n (by omega) hn2
            exact ⟨p, List.mem_cons_of_mem _ hp, hp'⟩
        · intro p hp
          rcases List.mem_cons.1 hp with hp | hp
          · simp only [Prod.mk.injEq] at hp; omega
          · exact c1 p hp
        · intro x hx
          rw [f x (fun n hn hm => hx n hn (List.mem_cons_of_mem _ hm))]
          apply hsame
          intro hxv
          exact hx k (by omega) (by rw [hxv]; simp)
      · cases hr
    · rename_i hk
      simp only [Option.some.injEq, Prod.mk.injEq] at hr
      obtain ⟨rfl, rfl, rfl⟩ := hr
      refine ⟨Nat.le_refl _, fun n h1 h2 => by omega, ?_, fun x hx => hx, fun x _ => rfl⟩
      intro p hp
      rcases List.mem_cons.1 hp with hp | hp
      · simp only [Prod.mk.injEq] at hp; exact hk hp.1.symm
      · have h1 := hs'.1 _ hp
        have h2 := hc (k, v) (by simp)
        simp only at h1 h2; omega

/-! ## Gapless queues -/

/-- Exactly the entries between the account nonce and `pop_tip_nonce` are packageable, and the entry at
`pop_tip_nonce` is missing. -/
structure Gapless (h : Heap) (q : PQ) : Prop where
  le : q.cur ≤ q.pop
  below : ∀ n, q.cur ≤ n → n < q.pop → ∃ p, (n, p) ∈ q.queue ∧ h.pkg p = true
  above : ∀ n p, (n, p) ∈ q.queue → q.pop ≤ n → h.pkg p = false
  stop : ∀ p, (q.pop, p) ∉ q.queue

/-- Between `insert` and `try_search_package_list`. -/
structure Mid (h : Heap) (q : PQ) : Prop where
  le : q.cur ≤ q.pop
  below : ∀ n, q.cur ≤ n → n < q.pop → ∃ p, (n, p) ∈ q.queue ∧ h.pkg p = true
  down : ∀ n p, (n, p) ∈ q.queue → h.pkg p = true → q.pop ≤ n → ∀ m, q.pop ≤ m → m ≤ n →
    ∃ p', (m, p') ∈ q.queue

theorem Gapless.mid {h : Heap} {q : PQ} (g : Gapless h q) : Mid h q :=
  ⟨g.le, g.below, fun n p hp hk hn => by rw [g.above n p hp hn] at hk; cases hk⟩

theorem Gapless.raise {h : Heap} {q : PQ} (g : Gapless h q) (tip : Nat) : Mid h (q.raise tip) := by
  unfold PQ.raise
  split
  · rename_i ht
    refine ⟨Nat.le_refl _, fun n h1 h2 => by simp only at h1 h2; omega, ?_⟩
    intro n p hp hk hn m hm1 hm2
    simp only at hn hm1 ⊢
    have hnp : n < q.pop := by
      apply Nat.lt_of_not_le
      intro hle
      rw [g.above n p hp hle] at hk; cases hk
    obtain ⟨p', hp', _⟩ := g.below m (by omega) (by omega)
    exact ⟨p', hp'⟩
  · exact g.mid

theorem Mid.place {h : Heap} {q : PQ} (g : Mid h q) (hs : Sorted q.queue) {p : Nat}
    (hp : h.pkg p = false) (hnp : ∀ n, (n, p) ∉ q.queue) {r} (hr : q.place h p = r) : Mid r.1 r.2.1 := by
  unfold PQ.place at hr
  simp only at hr
  split at hr
  · rename_i old hold
    have hom := mem_of_get hold
    split at hr
    · -- replacement: presence is unchanged, the new entry inherits the mark
      have main : ∀ h1 : Heap, (∀ x, x ≠ p → h1.pkg x = h.pkg x) → (h1.pkg p = h.pkg old) →
          Mid h1 { q with queue := sput (h.tx p).nonce p q.queue } := by
        intro h1 hx hpo
        have hmem : ∀ n x, (n, x) ∈ q.queue → n ≠ (h.tx p).nonce → (n, x) ∈ sput (h.tx p).nonce p q.queue :=
          fun n x hx hn => (mem_sput hs _).2 (.inr ⟨hx, hn⟩)
        have hnew : ((h.tx p).nonce, p) ∈ sput (h.tx p).nonce p q.queue := (mem_sput hs _).2 (.inl rfl)
        have hpres : ∀ m p', (m, p') ∈ q.queue → ∃ p'', (m, p'') ∈ sput (h.tx p).nonce p q.queue := by
          intro m p' hm
          by_cases hmn : m = (h.tx p).nonce
          · exact ⟨p, hmn ▸ hnew⟩
          · exact ⟨p', hmem m p' hm hmn⟩
        refine ⟨g.le, ?_, ?_⟩
        · intro n hn1 hn2
          obtain ⟨x, hxm, hxp⟩ := g.below n hn1 hn2
          by_cases hnn : n = (h.tx p).nonce
          · have : x = old := by rw [hnn] at hxm; exact hs.unique hxm hom
            subst this
            exact ⟨p, hnn ▸ hnew, hpo.trans hxp⟩
          · exact ⟨x, hmem n x hxm hnn, (hx x (fun e => hnp n (e ▸ hxm))).trans hxp⟩
        · intro n x hxm hxp hn m hm1 hm2
          rcases (mem_sput hs _).1 hxm with he | ⟨hxm', hne⟩
          · simp only [Prod.mk.injEq] at he
            obtain ⟨p', hp'⟩ := g.down _ old hom (by rw [← hpo, ← he.2]; exact hxp) (by rw [← he.1]; exact hn) m hm1 (by rw [← he.1]; exact hm2)
            exact hpres m p' hp'
          · have hxp' : x ≠ p := fun e => hnp n (e ▸ hxm')
            obtain ⟨p', hp'⟩ := g.down n x hxm' (by rw [← hx x hxp']; exact hxp) hn m hm1 hm2
            exact hpres m p' hp'
      split at hr
      · rename_i hpk
        subst hr
        apply main
        · intro x hx; simp [Heap.setDrp, Heap.setPkg, hx]
        · simp [Heap.setDrp, Heap.setPkg, hpk]
      · rename_i hpk
        subst hr
        apply main
        · intro x hx; rfl
        · simp only [Heap.setDrp]; rw [hp]; simp_all
    · subst hr
      exact ⟨g.le, g.below, g.down⟩
  · rename_i hfree
    subst hr
    refine ⟨g.le, ?_, ?_⟩
    · intro n hn1 hn2
      obtain ⟨x, hxm, hxp⟩ := g.below n hn1 hn2
      refine ⟨x, (mem_sput hs _).2 (.inr ⟨hxm, ?_⟩), hxp⟩
      intro hnn
      have := get_of_mem hs.nodupKeys hxm
      simp only at hnn
      rw [hnn, hfree] at this; cases this
    · intro n x hxm hxp hn m hm1 hm2
      rcases (mem_sput hs _).1 hxm with he | ⟨hxm', hne⟩
      · simp only [Prod.mk.injEq] at he
        rw [he.2, hp] at hxp; cases hxp
      · obtain ⟨p', hp'⟩ := g.down n x hxm' hxp hn m hm1 hm2
        by_cases hmn : m = (h.tx p).nonce
        · exact ⟨p, hmn ▸ (mem_sput hs _).2 (.inl rfl)⟩
        · exact ⟨p', (mem_sput hs _).2 (.inr ⟨hp', hmn⟩)⟩

theorem Mid.search {h : Heap} {q : PQ} (g : Mid h q) (hs : Sorted q.queue)
    (hinj : ∀ n m x, (n, x) ∈ q.queue → (m, x) ∈ q.queue → n = m)
    {real : List Nat} {h' : Heap} {q' : PQ} {real' : List Nat}
    (hr : q.search h real = some (h', q', real')) :
    Gapless h' q' ∧ q'.queue = q.queue ∧ q'.cur = q.cur ∧
      ∀ x, (∀ n, (n, x) ∉ q.queue) → h'.pkg x = h.pkg x := by
  simp only [PQ.search, Option.map_eq_some_iff] at hr
  obtain ⟨⟨h1, real1, c⟩, hr, he⟩ := hr
  simp only [Prod.mk.injEq] at he
  obtain ⟨rfl, rfl, rfl⟩ := he
  obtain ⟨a, b, c1, d, f⟩ := searchLoop_spec _ _ _ _ _ _ _ (List.Pairwise.filter _ hs)
    (by intro e he; simpa using (List.mem_filter.1 he).2) hr
  refine ⟨⟨Nat.le_trans g.le a, ?_, ?_, ?_⟩, rfl, rfl, ?_⟩
  · intro n hn1 hn2
    by_cases hn : n < q.pop
    · obtain ⟨p, hp, hk⟩ := g.below n hn1 hn
      exact ⟨p, hp, d p hk⟩
    · obtain ⟨p, hp, hk⟩ := b n (by omega) hn2
      exact ⟨p, (List.mem_filter.1 hp).1, hk⟩
  · intro n p hp hn
    simp only at hp hn
    have hsame : h1.pkg p = h.pkg p := by
      apply f
      intro m hm hmem
      have := hinj n m p hp (List.mem_filter.1 hmem).1
      omega
    cases hk : h1.pkg p with
    | false => rfl
    | true =>
      rw [hsame] at hk
      obtain ⟨p', hp'⟩ := g.down n p hp hk (by omega) c a hn
      exact absurd (List.mem_filter.2 ⟨hp', by simpa using a⟩) (c1 p')
  · intro p hp
    exact c1 p (List.mem_filter.2 ⟨hp, by simpa using a⟩)
  · intro x hx
    apply f
    intro n _ hmem
    exact hx n (List.mem_filter.1 hmem).1

/-- All queues are gapless. -/
def GapInv (s : Pool) : Prop := ∀ k q, s.pending k = some q → Gapless s.heap q

theorem Gapless.congr {h h' : Heap} {q : PQ} (g : Gapless h q)
    (hx : ∀ n x, (n, x) ∈ q.queue → h'.pkg x = h.pkg x) : Gapless h' q :=
  ⟨g.le, fun n a b => by
      obtain ⟨p, hp, hk⟩ := g.below n a b
      exact ⟨p, hp, (hx n p hp).trans hk⟩,
    fun n p hp hn => (hx n p hp).trans (g.above n p hp hn), g.stop⟩

theorem Gapless.empty (h : Heap) : Gapless h PQ.empty :=
  ⟨Nat.le_refl _, fun n a b => by simp [PQ.empty] at a b, by simp [PQ.empty], by simp [PQ.empty]⟩

/-- What `insert` leaves alone. -/
theorem insert_pkg {q : PQ} {h : Heap} {p d : Nat} {r} (hr : q.insert h p d = some r) :
    ∀ x, x ≠ p → r.1.pkg x = h.pkg x := by
  intro x hx
  simp only [PQ.insert] at hr
  split at hr
  · cases hr
  · split at hr
    · simp only [Option.some.injEq] at hr; subst hr; rfl
    · simp only [Option.some.injEq] at hr; subst hr
      simp only [PQ.place]
      split
      · split
        · split <;> simp [Heap.setDrp, Heap.setPkg, hx]
        · rfl
      · rfl

/-- The entries after `insert`. -/
theorem insert_mem {q : PQ} {h : Heap} {p d : Nat} {r} (hs : Sorted q.queue) (hr : q.insert h p d = some r) :
    Sorted r.2.1.queue ∧
    ∀ n x, (n, x) ∈ r.2.1.queue → (n, x) ∈ q.queue ∨ (n = (h.tx p).nonce ∧ x = p) := by
  simp only [PQ.insert] at hr
  split at hr
  · cases hr
  · split at hr
    · simp only [Option.some.injEq] at hr; subst hr; exact ⟨hs, fun n x h => .inl h⟩
    · simp only [Option.some.injEq] at hr; subst hr
      have hq : (q.raise ((h.tx p).nonce - d)).queue = q.queue := PQ.raise_queue _ _
      have main : Sorted (sput (h.tx p).nonce p q.queue) ∧ ∀ n x, (n, x) ∈ sput (h.tx p).nonce p q.queue →
          (n, x) ∈ q.queue ∨ (n = (h.tx p).nonce ∧ x = p) := by
        refine ⟨sorted_sput hs, ?_⟩
        intro n x hm
        rcases (mem_sput hs _).1 hm with he | ⟨he, _⟩
        · simp only [Prod.mk.injEq] at he; exact .inr he
        · exact .inl he
      simp only [PQ.place, hq]
      split
      · split
        · split <;> exact main
        · simp only [hq]; exact ⟨hs, fun n x h => .inl h⟩
      · exact main

theorem GapInv.popOne {s : Pool} {p d : Nat} {rest : List (Nat × Nat)} {s' : Pool}
    (hi : Inv { s with co := (p, d) :: rest }) (hg : GapInv s)
    (hr : popOne { s with co := rest } p d = some s') : GapInv s' := by
  have hcop := hi.coOk p (by simp)
  have hcon := hi.coPend p (by simp)
  simp only at hcop hcon
  have hsq : Sorted ((s.pending (s.heap.tx p).sender).getD PQ.empty).queue := by
    cases h : s.pending (s.heap.tx p).sender with
    | none => exact List.Pairwise.nil
    | some q => exact hi.sorted _ _ h
  have hmemq : ∀ n x, (n, x) ∈ ((s.pending (s.heap.tx p).sender).getD PQ.empty).queue →
      Mem s.pending (s.heap.tx p).sender n x := by
    intro n x hm
    cases h : s.pending (s.heap.tx p).sender with
    | none => rw [h] at hm; simp [PQ.empty] at hm
    | some q => rw [h] at hm; exact ⟨q, h, hm⟩
  have hgq : Gapless s.heap ((s.pending (s.heap.tx p).sender).getD PQ.empty) := by
    cases h : s.pending (s.heap.tx p).sender with
    | none => exact Gapless.empty _
    | some q => exact hg _ _ h
  simp only [Pool.popOne] at hr
  generalize (s.pending (s.heap.tx p).sender).getD PQ.empty = q at hr hsq hmemq hgq
  -- other senders' queues do not change
  have other : ∀ (h2 : Heap) (q2 : PQ), Gapless h2 q2 → (∀ x, x ≠ p → (∀ n, (n, x) ∉ q.queue) → h2.pkg x = s.heap.pkg x) →
      ∀ k r, upd s.pending (s.heap.tx p).sender (some q2) k = some r → Gapless h2 r := by
    intro h2 q2 hq2 hx k r hk
    by_cases hks : k = (s.heap.tx p).sender
    · subst hks; rw [upd_same] at hk; cases hk; exact hq2
    · rw [upd_ne _ _ hks] at hk
      refine (hg k r hk).congr ?_
      intro n x hm
      apply hx
      · intro he; exact hcon k n ⟨r, hk, he ▸ hm⟩
      · intro m hm'
        have h1 := (hi.pend k n x ⟨r, hk, hm⟩).1
        have h2 := (hi.pend _ m x (hmemq m x hm')).1
        exact hks (h1.symm.trans h2)
  split at hr
  · simp only [Option.some.injEq] at hr; subst hr
    exact other _ _ (hgq.congr (fun _ _ _ => rfl)) (fun x _ _ => rfl)
  · split at hr
    · cases hr
    · rename_i h1 q1 push hins
      split at hr
      · cases hr
      · rename_i h2 q2 real2 hse
        simp only [Option.some.injEq] at hr; subst hr
        have hnp : ∀ n, (n, p) ∉ q.queue := fun n hm => hcon _ n (hmemq n p hm)
        obtain ⟨hs1, hm1⟩ := insert_mem hsq hins
        have hmid : Mid h1 q1 := by
          simp only [PQ.insert] at hins
          split at hins
          · cases hins
          · split at hins
            · simp only [Option.some.injEq, Prod.mk.injEq] at hins
              obtain ⟨rfl, rfl, rfl⟩ := hins
              exact ⟨hgq.mid.le, hgq.mid.below, hgq.mid.down⟩
            · simp only [Option.some.injEq] at hins
              have := Mid.place (hgq.raise ((s.heap.tx p).nonce - d)) (by rw [PQ.raise_queue]; exact hsq)
                hcop.2.1 (by rw [PQ.raise_queue]; exact hnp) hins
              exact this
        have hinj : ∀ n m x, (n, x) ∈ q1.queue → (m, x) ∈ q1.queue → n = m := by
          have key : ∀ n x, (n, x) ∈ q1.queue → n = (s.heap.tx x).nonce := by
            intro n x hm
            rcases hm1 n x hm with h | ⟨h, h'⟩
            · exact (hi.pend _ n x (hmemq n x h)).2.1.symm
            · rw [h', h]
          intro n m x h h'
          rw [key n x h, key m x h']
        obtain ⟨g2, hq2, hc2, hx2⟩ := hmid.search hs1 hinj hse
        refine other h2 q2 g2 ?_
        intro x hxp hxq
        have hx1 : ∀ n, (n, x) ∉ q1.queue := by
          intro n hm
          rcases hm1 n x hm with h | ⟨_, h⟩
          · exact hxq n h
          · exact hxp h
        rw [hx2 x hx1]
        exact insert_pkg hins x hxp

theorem GapInv.drain {l : List (Nat × Nat)} {s s' : Pool} (hi : Inv { s with co := l }) (hg : GapInv s)
    (hr : drain l s = some s') : GapInv s' := by
  induction l generalizing s with
  | nil => simp only [Pool.drain, Option.some.injEq] at hr; subst hr; exact hg
  | cons e l ih =>
    obtain ⟨p, d⟩ := e
    simp only [Pool.drain] at hr
    split at hr
    · cases hr
    · rename_i s1 h1
      have hi1 := hi.popOne h1
      obtain ⟨hs1, hc1⟩ := popOne_same h1
      have hi1' : Inv { s1 with co := l } := by
        have : { s1 with co := l } = s1 := by cases s1; simp_all
        rw [this]; exact hi1
      exact ih hi1' (hg.popOne hi h1) hr

/-- No flush in the history. -/
def NoFlush (ops : List Op) : Prop := ∀ hs n, Op.flush hs n ∉ ops

theorem GapInv.insertTail {s : Pool} (hi : Inv s) (hg : GapInv s) (t : PoolTx) (d : Nat) :
    GapInv (insertTail s t d) := by
  unfold Pool.insertTail
  split
  · exact hg
  · intro k q hq
    refine (hg k q hq).congr ?_
    intro n x hm
    have h1 := hi.mapLt x (hi.pend k n x ⟨q, hq, hm⟩).2.2.2
    have : x ≠ s.next := by omega
    simp [Heap.alloc, this]

theorem GapInv.step {s s' : Pool} {op : Op} (g : Good s) (hg : GapInv s) (hop : ∀ hs n, op ≠ .flush hs n)
    (hr : step s op = some s') : GapInv s' := by
  have href : ∀ s1, Pool.refresh s = some s1 → GapInv s1 := by
    intro s1 h1
    unfold Pool.refresh at h1
    split at h1
    · cases h1; exact hg
    · exact GapInv.drain (s := s) (l := s.co) g.inv hg h1
  cases op with
  | insert t c d =>
    simp only [Pool.step, Option.map_eq_some_iff] at hr
    obtain ⟨r, h, rfl⟩ := hr
    unfold Pool.insert at h
    split at h
    · simp only [Option.some.injEq] at h; subst h; exact hg
    · simp only at h
      split at h
      · simp only [Option.map_eq_some_iff] at h
        obtain ⟨s2, h2, he⟩ := h
        subst he
        obtain ⟨i2, _, _⟩ := flushToPending_inv (g.inv.withStock (s.stock + 1)) h2
        exact GapInv.insertTail i2 (GapInv.drain (s := { s with stock := s.stock + 1 })
          (g.inv.withStock (s.stock + 1)) hg h2) t d
      · simp only [Option.some.injEq] at h; subst h
        exact GapInv.insertTail (s := { s with stock := s.stock + 1 }) (g.inv.withStock _) hg t d
  | insertSys t => simp only [Pool.step, Option.some.injEq] at hr; subst hr; exact hg
  | package l st =>
    simp only [Pool.step, Option.map_eq_some_iff] at hr
    obtain ⟨r, h, rfl⟩ := hr
    unfold Pool.package at h
    split at h
    · cases h
    · split at h
      · cases h
      · rename_i s1 h1
        simp only [Option.some.injEq] at h; subst h
        exact href s1 h1
  | refresh => exact href s' hr
  | flush hs n => exact absurd rfl (hop hs n)

theorem GapInv.run {ops : List Op} {s s' : Pool} (g : Good s) (hg : GapInv s) (hn : NoFlush ops)
    (hr : run s ops = some s') : GapInv s' := by
  induction ops generalizing s with
  | nil => simp only [Pool.run, Option.some.injEq] at hr; subst hr; exact hg
  | cons op ops ih =>
    simp only [Pool.run] at hr
    split at hr
    · cases hr
    · rename_i s1 h1
      exact ih (g.step h1) (hg.step g (fun hs n h => hn hs n (by rw [h]; simp)) h1)
        (fun hs n h => hn hs n (List.mem_cons_of_mem _ h)) hr

theorem GapInv.init (cap gap : Nat) : GapInv (init cap gap) := by
  intro k q h; simp [Pool.init] at h

end Axon.Pool
