import Verif.Mempool.PoolGapProps

/-!
# Replacement by gas price: lemmas
-/

namespace Axon.Pool
open Axon.Assoc

/-! ## An induction principle for histories without flush -/

/-- The pool after a new transaction was stored (`pool.rs:138-150`). -/
def stored1 (s : Pool) (t : PoolTx) (d : Nat) : Pool :=
  { s with
    next := s.next + 1
    heap := s.heap.alloc s.next t
    txMap := s.txMap ++ [s.next]
    co := s.co ++ [(s.next, d)] }

structure Stable (P : Pool → Prop) (ops : List Op) : Prop where
  irr : ∀ (s : Pool) n r b, P s → P { s with stock := n, real := r, sys := b }
  pop : ∀ (s : Pool) p d rest s', Inv { s with co := (p, d) :: rest } → P { s with co := (p, d) :: rest } →
    popOne { s with co := rest } p d = some s' → P s'
  new : ∀ (s : Pool) t c d, Op.insert t c d ∈ ops → Inv s → P s → find s t.hash = none → P (stored1 s t d)

theorem Stable.drain {P : Pool → Prop} {ops : List Op} (st : Stable P ops) {l : List (Nat × Nat)} {s s' : Pool}
    (hi : Inv { s with co := l }) (hp : P { s with co := l }) (hr : drain l s = some s') : P s' := by
  induction l generalizing s with
  | nil => simp only [Pool.drain, Option.some.injEq] at hr; subst hr; exact hp
  | cons e l ih =>
    obtain ⟨p, d⟩ := e
    simp only [Pool.drain] at hr
    split at hr
    · cases hr
    · rename_i s1 h1
      have hi1 := hi.popOne h1
      have hp1 := st.pop _ _ _ _ _ hi hp h1
      obtain ⟨hs1, hc1⟩ := popOne_same h1
      have : { s1 with co := l } = s1 := by cases s1; simp_all
      exact ih (by rw [this]; exact hi1) (by rw [this]; exact hp1) hr

theorem Stable.step {P : Pool → Prop} {ops : List Op} (st : Stable P ops) {s s' : Pool} {op : Op} (g : Good s)
    (hp : P s) (hop : op ∈ ops) (hf : ∀ hs n, op ≠ .flush hs n) (hr : step s op = some s') : P s' := by
  have stock : ∀ (s : Pool) (n : Nat), P s → P { s with stock := n } := fun s n h => st.irr s n s.real s.sys h
  have href : ∀ s1, Pool.refresh s = some s1 → P s1 := by
    intro s1 h1
    unfold Pool.refresh at h1
    split at h1
    · cases h1; exact hp
    · exact st.drain (s := s) (l := s.co) g.inv hp h1
  cases op with
  | insert t c d =>
    simp only [Pool.step, Option.map_eq_some_iff] at hr
    obtain ⟨r, h, rfl⟩ := hr
    unfold Pool.insert at h
    split at h
    · simp only [Option.some.injEq] at h; subst h; exact hp
    · rename_i hlim
      simp only at h
      split at h
      · simp only [Option.map_eq_some_iff] at h
        obtain ⟨s2, h2, he⟩ := h
        subst he
        obtain ⟨i2, sm2, co2⟩ := flushToPending_inv (g.inv.withStock (s.stock + 1)) h2
        have p2 := st.drain (s := { s with stock := s.stock + 1 })
          (g.inv.withStock (s.stock + 1)) (stock s _ hp) h2
        simp only
        unfold Pool.insertTail
        split
        · exact stock _ _ p2
        · rename_i hfd
          have hlt : s2.co.length < s2.cap := by rw [co2, sm2.cap]; exact g.capPos
          simp only [hlt, if_true]
          exact st.new s2 t c d hop i2 p2 hfd
      · rename_i hfull
        simp only [Option.some.injEq] at h; subst h
        simp only
        unfold Pool.insertTail
        split
        · exact stock _ _ (stock s _ hp)
        · rename_i hfd
          have hlt : s.co.length < s.cap := by
            have h1 := g.inv.co_length
            have h2 := g.stock
            cases c with
            | true => simp at hlim; omega
            | false => simp at hfull; exact hfull
          simp only [hlt, if_true]
          exact st.new { s with stock := s.stock + 1 } t c d hop (g.inv.withStock _) (stock s _ hp) hfd
  | insertSys t =>
    simp only [Pool.step, Option.some.injEq] at hr; subst hr
    exact st.irr s _ s.real _ hp
  | package l so =>
    simp only [Pool.step, Option.map_eq_some_iff] at hr
    obtain ⟨r, h, rfl⟩ := hr
    unfold Pool.package at h
    split at h
    · cases h
    · split at h
      · cases h
      · rename_i s1 h1
        simp only [Option.some.injEq] at h; subst h
        exact st.irr s1 s1.stock _ s1.sys (href s1 h1)
  | refresh => exact href s' hr
  | flush hs n => exact absurd rfl (hf hs n)

theorem Stable.mono {P : Pool → Prop} {ops ops' : List Op} (st : Stable P ops) (h : ∀ o ∈ ops', o ∈ ops) :
    Stable P ops' := ⟨st.irr, st.pop, fun s t c d ho => st.new s t c d (h _ ho)⟩

theorem Stable.run {P : Pool → Prop} {ops : List Op} (st : Stable P ops) {s s' : Pool} (g : Good s)
    (hp : P s) (hn : NoFlush ops) (hr : run s ops = some s') : P s' := by
  induction ops generalizing s with
  | nil => simp only [Pool.run, Option.some.injEq] at hr; subst hr; exact hp
  | cons op ops ih =>
    simp only [Pool.run] at hr
    split at hr
    · cases hr
    · rename_i s1 h1
      exact ih (st.mono (fun o h => List.mem_cons_of_mem _ h)) (g.step h1)
        (st.step g hp (by simp) (fun hs n h => hn hs n (by rw [h]; simp)) h1)
        (fun hs n h => hn hs n (List.mem_cons_of_mem _ h)) hr

/-! ## One round of the loop -/

/-- What happens to the head `p` of `co_queue` and to its place: it is dropped, it replaces a cheaper
holder, or it takes a free place. -/
theorem insert_cases {q : PQ} {h : Heap} {p d : Nat} {r} (hr : q.insert h p d = some r) :
    q.cur ≤ r.2.1.cur ∧
    ((r.1.drp = (h.setDrp p).drp ∧ r.2.1.queue = q.queue ∧
        ((h.tx p).nonce < q.cur ∨ ∃ old, ((h.tx p).nonce, old) ∈ q.queue ∧ (h.tx p).price ≤ (h.tx old).price)) ∨
     (∃ old, ((h.tx p).nonce, old) ∈ q.queue ∧ (h.tx old).price < (h.tx p).price ∧
        r.1.drp = (h.setDrp old).drp ∧ r.2.1.queue = sput (h.tx p).nonce p q.queue) ∨
     (get q.queue (h.tx p).nonce = none ∧ r.1.drp = h.drp ∧ r.2.1.queue = sput (h.tx p).nonce p q.queue)) := by
  simp only [PQ.insert] at hr
  split at hr
  · cases hr
  · split at hr
    · rename_i hc
      simp only [Option.some.injEq] at hr; subst hr
      exact ⟨Nat.le_refl _, .inl ⟨rfl, rfl, .inl hc⟩⟩
    · simp only [Option.some.injEq] at hr; subst hr
      have hq : (q.raise ((h.tx p).nonce - d)).queue = q.queue := PQ.raise_queue _ _
      have hc : q.cur ≤ (q.raise ((h.tx p).nonce - d)).cur := by
        unfold PQ.raise; split
        · simp only; omega
        · exact Nat.le_refl _
      refine ⟨by rw [place_queue.2.1]; exact hc, ?_⟩
      simp only [PQ.place, hq]
      split
      · rename_i old hold
        have hom := mem_of_get hold
        split
        · rename_i hlt
          refine .inr (.inl ⟨old, hom, hlt, ?_⟩)
          split
          · exact ⟨rfl, rfl⟩
          · exact ⟨rfl, rfl⟩
        · rename_i hle
          exact .inl ⟨rfl, hq, .inr ⟨old, hom, by omega⟩⟩
      · rename_i hfree
        exact .inr (.inr ⟨hfree, rfl, rfl⟩)

theorem search_drp {q : PQ} {h : Heap} {real : List Nat} {h' : Heap} {q' : PQ} {real' : List Nat}
    (hr : q.search h real = some (h', q', real')) : h'.drp = h.drp ∧ q'.queue = q.queue ∧ q'.cur = q.cur := by
  simp only [PQ.search, Option.map_eq_some_iff] at hr
  obtain ⟨⟨h1, real1, c⟩, hr, he⟩ := hr
  simp only [Prod.mk.injEq] at he
  obtain ⟨rfl, rfl, rfl⟩ := he
  exact ⟨(searchLoop_tx hr).2, rfl, rfl⟩

/-- One round of `flush_to_pending_queue`: `q` is the sender's queue before, `q'` after. -/
theorem popOne_cases {s : Pool} {p d : Nat} {s' : Pool} (hr : popOne s p d = some s') :
    ∃ q q' : PQ, q = (s.pending (s.heap.tx p).sender).getD PQ.empty ∧
    s'.pending = upd s.pending (s.heap.tx p).sender (some q') ∧ q.cur ≤ q'.cur ∧
    ((s'.heap.drp = (s.heap.setDrp p).drp ∧ q'.queue = q.queue ∧
        (64 < q.queue.length ∨ (s.heap.tx p).nonce < q.cur ∨
          ∃ old, ((s.heap.tx p).nonce, old) ∈ q.queue ∧ (s.heap.tx p).price ≤ (s.heap.tx old).price)) ∨
     (∃ old, ((s.heap.tx p).nonce, old) ∈ q.queue ∧ (s.heap.tx old).price < (s.heap.tx p).price ∧
        s'.heap.drp = (s.heap.setDrp old).drp ∧ q'.queue = sput (s.heap.tx p).nonce p q.queue) ∨
     (get q.queue (s.heap.tx p).nonce = none ∧ s'.heap.drp = s.heap.drp ∧
        q'.queue = sput (s.heap.tx p).nonce p q.queue)) := by
  simp only [Pool.popOne] at hr
  refine ⟨(s.pending (s.heap.tx p).sender).getD PQ.empty, ?_⟩
  generalize (s.pending (s.heap.tx p).sender).getD PQ.empty = q at hr ⊢
  split at hr
  · rename_i hl
    simp only [Option.some.injEq] at hr; subst hr
    exact ⟨q, rfl, rfl, Nat.le_refl _, .inl ⟨rfl, rfl, .inl hl⟩⟩
  · split at hr
    · cases hr
    · rename_i h1 q1 push hins
      split at hr
      · cases hr
      · rename_i h2 q2 real2 hse
        simp only [Option.some.injEq] at hr; subst hr
        obtain ⟨a, b, c⟩ := search_drp hse
        obtain ⟨e, f⟩ := insert_cases hins
        simp only at e f
        refine ⟨q2, rfl, rfl, by omega, ?_⟩
        simp only [a, b]
        rcases f with ⟨f1, f2, f3⟩ | f | f
        · exact .inl ⟨f1, f2, .inr f3⟩
        · exact .inr (.inl f)
        · exact .inr (.inr f)

/-! ## The invariant -/

/-- Why `p` may be stored though dropped. -/
def Beaten (s : Pool) (p : Nat) : Prop :=
  (∃ b, Mem s.pending (s.heap.tx p).sender (s.heap.tx p).nonce b ∧
    (s.heap.tx p).price ≤ (s.heap.tx b).price ∧ ((s.heap.tx p).price = (s.heap.tx b).price → b < p)) ∨
  ∃ q, s.pending (s.heap.tx p).sender = some q ∧ ((s.heap.tx p).nonce < q.cur ∨ 64 < q.queue.length)

structure RbfInv (s : Pool) : Prop where
  mapSorted : s.txMap.Pairwise (· < ·)
  coSorted : (s.co.map (·.1)).Pairwise (· < ·)
  before : ∀ k n x, Mem s.pending k n x → ∀ p ∈ s.co.map (·.1), x < p
  beaten : ∀ p ∈ s.txMap, s.heap.drp p = true → Beaten s p

theorem RbfInv.popOne {s : Pool} {p d : Nat} {rest : List (Nat × Nat)} {s' : Pool}
    (hi : Inv { s with co := (p, d) :: rest }) (hb : RbfInv { s with co := (p, d) :: rest })
    (hr : popOne { s with co := rest } p d = some s') : RbfInv s' := by
  obtain ⟨sm, hco⟩ := popOne_same hr
  obtain ⟨q, q', hq, hpend, hcur, hcase⟩ := popOne_cases hr
  simp only at hco hq hpend hcur hcase
  have hcs := List.pairwise_cons.1 hb.coSorted
  have hmemq : ∀ n x, (n, x) ∈ q.queue → Mem s.pending (s.heap.tx p).sender n x := by
    intro n x hm
    rw [hq] at hm
    cases h : s.pending (s.heap.tx p).sender with
    | none => rw [h] at hm; simp [PQ.empty] at hm
    | some q0 => rw [h] at hm; exact ⟨q0, h, hm⟩
  have hmemq' : ∀ n x, Mem s.pending (s.heap.tx p).sender n x → (n, x) ∈ q.queue := by
    rintro n x ⟨q0, h, hm⟩
    rw [hq, show s.pending _ = _ from h]; exact hm
  have hsq : Sorted q.queue := by
    rw [hq]
    cases h : s.pending (s.heap.tx p).sender with
    | none => exact List.Pairwise.nil
    | some q0 => exact hi.sorted _ _ h
  have hlt : ∀ n x, (n, x) ∈ q.queue → x < p := fun n x hm => hb.before _ n x (hmemq n x hm) p (by simp)
  have hpm := (hi.coOk p (by simp)).1
  -- membership and length after the round
  have hlen : q.queue.length ≤ q'.queue.length := by
    rcases hcase with ⟨_, h, _⟩ | ⟨_, _, _, _, h⟩ | ⟨_, _, h⟩
    · rw [h]; exact Nat.le_refl _
    · rw [h, sput_length hsq]; omega
    · rw [h, sput_length hsq]; omega
  have hnew : ∀ n x, (n, x) ∈ q'.queue → (n, x) ∈ q.queue ∨ x = p := by
    intro n x hm
    rcases hcase with ⟨_, h, _⟩ | ⟨_, _, _, _, h⟩ | ⟨_, _, h⟩
    · rw [h] at hm; exact .inl hm
    all_goals
      rw [h] at hm
      rcases (mem_sput hsq _).1 hm with he | ⟨he, _⟩
      · exact .inr (by simpa using congrArg Prod.snd he)
      · exact .inl he
  -- a holder stays or is replaced by a better one
  have hkeep : ∀ k n b, Mem s.pending k n b → ∃ b', Mem s'.pending k n b' ∧
      (b' = b ∨ (s.heap.tx b).price < (s.heap.tx b').price) := by
    intro k n b hm
    rw [hpend]
    by_cases hk : k = (s.heap.tx p).sender
    · subst hk
      have hm' := hmemq' n b hm
      rcases hcase with ⟨_, h, _⟩ | ⟨old, hom, hpr, _, h⟩ | ⟨hfree, _, h⟩
      · exact ⟨b, mem_upd.2 (.inl ⟨rfl, by rw [h]; exact hm'⟩), .inl rfl⟩
      · by_cases hn : n = (s.heap.tx p).nonce
        · subst hn
          have := hsq.unique hm' hom
          subst this
          exact ⟨p, mem_upd.2 (.inl ⟨rfl, by rw [h]; exact (mem_sput hsq _).2 (.inl rfl)⟩), .inr hpr⟩
        · exact ⟨b, mem_upd.2 (.inl ⟨rfl, by rw [h]; exact (mem_sput hsq _).2 (.inr ⟨hm', hn⟩)⟩), .inl rfl⟩
      · have hn : n ≠ (s.heap.tx p).nonce := by
          intro hn; subst hn
          rw [get_of_mem hsq.nodupKeys hm'] at hfree; cases hfree
        exact ⟨b, mem_upd.2 (.inl ⟨rfl, by rw [h]; exact (mem_sput hsq _).2 (.inr ⟨hm', hn⟩)⟩), .inl rfl⟩
    · exact ⟨b, mem_upd.2 (.inr ⟨hk, hm⟩), .inl rfl⟩
  have hself : s'.pending (s.heap.tx p).sender = some q' := by rw [hpend, upd_same]
  have htx : s'.heap.tx = s.heap.tx := sm.tx
  -- whoever was beaten stays beaten
  have hold : ∀ x, Beaten { s with co := (p, d) :: rest } x → Beaten s' x := by
    intro x hx
    unfold Beaten
    rw [htx]
    rcases hx with ⟨b, hm, h1, h2⟩ | ⟨q0, h0, h1⟩
    · obtain ⟨b', hm', h3⟩ := hkeep _ _ b hm
      refine .inl ⟨b', hm', ?_⟩
      simp only at h1 h2
      rcases h3 with rfl | h3
      · exact ⟨h1, h2⟩
      · exact ⟨by omega, fun h => by omega⟩
    · simp only at h0 h1
      by_cases hk : (s.heap.tx x).sender = (s.heap.tx p).sender
      · refine .inr ⟨q', by rw [hk]; exact hself, ?_⟩
        rw [hk] at h0
        have : q0 = q := by rw [hq, h0]; rfl
        subst this
        rcases h1 with h1 | h1
        · exact .inl (by omega)
        · exact .inr (by omega)
      · exact .inr ⟨q0, by rw [hpend, upd_ne _ _ hk]; exact h0, h1⟩
  refine ⟨?_, ?_, ?_, ?_⟩
  · rw [sm.txMap]; exact hb.mapSorted
  · rw [hco]; exact hcs.2
  · intro k n x hm y hy
    rw [hco] at hy
    rw [hpend] at hm
    rcases mem_upd.1 hm with ⟨hk, hm'⟩ | ⟨_, hm⟩
    · rcases hnew n x hm' with h | h
      · exact hb.before _ n x (hmemq n x h) y (List.mem_cons_of_mem _ hy)
      · rw [h]; exact hcs.1 y hy
    · exact hb.before k n x hm y (List.mem_cons_of_mem _ hy)
  · intro x hx hd
    rw [sm.txMap] at hx
    by_cases hxo : s.heap.drp x = true
    · exact hold x (hb.beaten x hx hxo)
    · rcases hcase with ⟨h1, h2, h3⟩ | ⟨old, hom, hpr, h1, h2⟩ | ⟨_, h1, _⟩
      · have hxp : x = p := by
          rw [h1] at hd
          simp only [Heap.setDrp] at hd
          split at hd
          · assumption
          · exact absurd hd hxo
        subst hxp
        unfold Beaten; rw [htx]
        rcases h3 with h3 | h3 | ⟨old, hom, hle⟩
        · exact .inr ⟨q', hself, .inr (by omega)⟩
        · exact .inr ⟨q', hself, .inl (by omega)⟩
        · refine .inl ⟨old, ?_, hle, fun _ => hlt _ old hom⟩
          rw [hpend]; exact mem_upd.2 (.inl ⟨rfl, by rw [h2]; exact hom⟩)
      · have hxp : x = old := by
          rw [h1] at hd
          simp only [Heap.setDrp] at hd
          split at hd
          · assumption
          · exact absurd hd hxo
        subst hxp
        obtain ⟨a, b, _⟩ := hi.pend _ _ x (hmemq _ x hom)
        simp only at a b
        unfold Beaten; rw [htx, a, b]
        refine .inl ⟨p, ?_, by omega, fun h => by omega⟩
        rw [hpend]; exact mem_upd.2 (.inl ⟨rfl, by rw [h2]; exact (mem_sput hsq _).2 (.inl rfl)⟩)
      · rw [h1] at hd; exact absurd hd hxo

theorem RbfInv.stable (ops : List Op) : Stable RbfInv ops where
  irr := fun s n r b h => ⟨h.mapSorted, h.coSorted, h.before, h.beaten⟩
  pop := fun s p d rest s' hi hb hr => hb.popOne hi hr
  new := by
    intro s t c d _ hi hb _
    have hne : ∀ x ∈ s.txMap, x ≠ s.next := fun x hx h => by have := hi.mapLt x hx; omega
    have htx : ∀ x ∈ s.txMap, (s.heap.alloc s.next t).tx x = s.heap.tx x := fun x hx => by
      simp [Heap.alloc, hne x hx]
    refine ⟨?_, ?_, ?_, ?_⟩
    · simp only [stored1]
      rw [List.pairwise_append]
      refine ⟨hb.mapSorted, by simp, ?_⟩
      intro a ha b hb'
      simp only [List.mem_singleton] at hb'; subst hb'
      exact hi.mapLt a ha
    · simp only [stored1, List.map_append, List.map_cons, List.map_nil]
      rw [List.pairwise_append]
      refine ⟨hb.coSorted, by simp, ?_⟩
      intro a ha b hb'
      simp only [List.mem_singleton] at hb'; subst hb'
      exact hi.mapLt a (hi.coOk a ha).1
    · intro k n x hm y hy
      simp only [stored1, List.map_append, List.map_cons, List.map_nil, List.mem_append, List.mem_singleton] at hy
      rcases hy with hy | rfl
      · exact hb.before k n x hm y hy
      · exact hi.mapLt x (hi.pend k n x hm).2.2.2
    · intro x hx hd
      simp only [stored1, List.mem_append, List.mem_singleton] at hx hd
      have hxm : x ∈ s.txMap := by
        rcases hx with h | rfl
        · exact h
        · simp [Heap.alloc] at hd
      have hd' : s.heap.drp x = true := by simpa [Heap.alloc, hne x hxm] using hd
      have := hb.beaten x hxm hd'
      unfold Beaten at this ⊢
      simp only [stored1]
      rw [htx x hxm]
      rcases this with ⟨b, hm, h1, h2⟩ | h
      · refine .inl ⟨b, hm, ?_⟩
        rw [htx b (hi.pend _ _ b hm).2.2.2]
        exact ⟨h1, h2⟩
      · exact .inr h

theorem RbfInv.init (cap gap : Nat) : RbfInv (init cap gap) := by
  constructor <;> simp [Pool.init, Mem]

/-- A flush forgets the dropped ones. -/
theorem RbfInv.flush {s s' : Pool} {hashes : List Nat} {number : Nat} (g : Good s) (hb : RbfInv s)
    (hr : Pool.flush s hashes number = some s') : RbfInv s' ∧ s'.co = [] ∧ ∀ p ∈ s'.txMap, s'.heap.drp p = false := by
  obtain ⟨s1, s2, n, g1, sm1, co1, f, i2, m2, rfl⟩ := flush_steps g hr
  have hm : s2.txMap.Pairwise (· < ·) := by
    refine List.Pairwise.sublist f.sub ?_
    rw [sm1.txMap]; exact hb.mapSorted
  have hco : s2.co = [] := by rw [f.co, co1]
  have hd : ∀ p ∈ s2.txMap, s2.heap.drp p = false := fun p hp => ((f.map p).1 hp).2.2
  refine ⟨⟨hm, ?_, ?_, ?_⟩, hco, hd⟩
  · simp [hco]
  · intro k n x _ p hp
    simp [hco] at hp
  · intro p hp h
    have := hd p hp
    simp only at h
    rw [this] at h; cases h

theorem RbfInv.run {ops : List Op} {s s' : Pool} (g : Good s) (hb : RbfInv s) (hr : Pool.run s ops = some s') :
    RbfInv s' := by
  induction ops generalizing s with
  | nil => simp only [Pool.run, Option.some.injEq] at hr; subst hr; exact hb
  | cons op ops ih =>
    simp only [Pool.run] at hr
    split at hr
    · cases hr
    · rename_i s1 h1
      refine ih (g.step h1) ?_ hr
      by_cases hf : ∃ hs n, op = .flush hs n
      · obtain ⟨hs, n, rfl⟩ := hf
        exact (RbfInv.flush g hb h1).1
      · exact (RbfInv.stable [op]).step g hb (by simp) (fun hs n h => hf ⟨hs, n, h⟩) h1

end Axon.Pool
