import Verif.Mempool.ConcurrentLemmas
import Verif.Mempool.PoolAccProps

/-!
# Concurrent calls act as if made one after another
-/

namespace Axon.Pool
open Axon.Assoc

/-! ## Entries that are made but not pushed -/

structure Claims (s : Conc) : Prop where
  absent : ∀ (i : Nat) c t d, s.threads[i]? = some (c, Pc.push t d) → find s.pool t.hash = none
  distinct : ∀ (i j : Nat) c t d c' t' d', s.threads[i]? = some (c, Pc.push t d) →
    s.threads[j]? = some (c', Pc.push t' d') → i ≠ j → t.hash ≠ t'.hash

def Pc.pushes : Pc → Nat
  | .push .. => 1
  | _ => 0

theorem After.pushes (a : After) : a.pc.pushes = 0 := by cases a <;> rfl
theorem Call.pushes (a : Call) : a.pc.pushes = 0 := by cases a <;> rfl

theorem find_congr {s s' : Pool} (hm : s'.txMap = s.txMap) (ht : s'.heap.tx = s.heap.tx) (h : Nat) :
    find s' h = find s h := by
  unfold find; rw [hm, ht]

theorem getElem?_set_cases {α : Type} {l : List α} {i j : Nat} {a b : α} (h : (l.set i a)[j]? = some b) :
    (i = j ∧ b = a) ∨ (i ≠ j ∧ l[j]? = some b) := by
  rw [List.getElem?_set] at h
  split at h
  · rename_i e
    split at h
    · exact .inl ⟨e, (Option.some.inj h).symm⟩
    · cases h
  · rename_i e; exact .inr ⟨e, h⟩

/-- The invariant when a thread moves to a position other than `push`. -/
theorem Claims.move {s : Conc} (hl : Claims s) {i : Nat} {c : Call} {pc' : Pc} {s' : Conc}
    (ht : s'.threads = s.threads.set i (c, pc')) (hp : pc'.pushes = 0)
    (hf : ∀ h, find s'.pool h = find s.pool h) : Claims s' := by
  have key : ∀ {j : Nat} {c' t d}, s'.threads[j]? = some (c', Pc.push t d) →
      s.threads[j]? = some (c', Pc.push t d) := by
    intro j c' t d h
    rw [ht] at h
    rcases getElem?_set_cases h with ⟨-, h⟩ | ⟨-, h⟩
    · cases h; cases hp
    · exact h
  exact ⟨fun i c t d h => by rw [hf]; exact hl.absent i c t d (key h),
    fun i j c t d c' t' d' h h' => hl.distinct i j c t d c' t' d' (key h) (key h')⟩

theorem not_claimed {l : List (Call × Pc)} {hash : Nat} (h : claimed l hash = false) {i : Nat} {c t d}
    (hi : l[i]? = some (c, Pc.push t d)) : t.hash ≠ hash := by
  unfold claimed at h
  have := List.any_eq_false.1 h _ (List.mem_of_getElem? hi)
  simpa using this

theorem find_alloc {s : Pool} (hi : ∀ p ∈ s.txMap, p < s.next) {t : PoolTx} {co : List (Nat × Nat)} {h : Nat}
    (hn : find s h = none) (ht : t.hash ≠ h) :
    find { s with next := s.next + 1, heap := s.heap.alloc s.next t, txMap := s.txMap ++ [s.next], co := co } h
      = none := by
  unfold find
  rw [List.find?_eq_none]
  intro p hp
  rcases List.mem_append.1 hp with hp | hp
  · have := hi p hp
    rw [alloc_tx (by omega)]
    simpa using find_none hn p hp
  · simp only [List.mem_singleton] at hp
    subst hp
    simp [Heap.alloc, ht]

theorem pushes_le_holds : ∀ {l : List (Call × Pc)}, total Pc.pushes l + total Pc.counts l ≤ total Pc.holds l
  | [] => by simp [total]
  | (c, pc) :: l => by
    have h2 := pushes_le_holds (l := l)
    simp only [total, List.map_cons, List.sum_cons] at *
    have : pc.pushes + pc.counts ≤ pc.holds := by cases pc <;> simp [Pc.pushes, Pc.counts, Pc.holds]
    omega

/-- Wrappers in `tx_map` are allocated. -/
def Alloc (s : Conc) : Prop := ∀ p ∈ s.pool.txMap, p < s.pool.next

/-! ## Soundness of the shared data -/

/-- As long as no push was lost. -/
structure Sound (s : Conc) : Prop where
  inv : Inv s.pool
  mark : NoMark s.pool
  capPos : 0 < s.pool.cap
  sys : SysOk s.pool.sys
  stock : s.pool.txMap.length + s.pool.sys.total + total Pc.reserves s.threads ≤
    s.pool.stock + total Pc.counts s.threads
  counted : total Pc.counts s.threads ≤ s.pool.sys.total
  claims : Claims s

theorem Sound.good {s : Conc} (h : Sound s) (hc : total Pc.counts s.threads = 0) : Good s.pool :=
  ⟨h.inv, h.mark, h.capPos, h.sys, by have := h.stock; omega⟩

theorem Inv.stock {s : Pool} (hi : Inv s) (n : Nat) : Inv { s with stock := n } :=
  ⟨hi.mapLt, hi.mapHash, hi.coNodup, hi.coOk, hi.coPend, hi.sorted, hi.pend, hi.realNodup, hi.realOk,
    hi.pkgReal, hi.mapCases⟩

/-- The number a flush lowers the counter by is not larger than what the pool holds. -/
theorem flushCore_le {s : Pool} (g : Good s) {hashes : List Nat} {number : Nat} {p : Pool} {m : Nat}
    (h : flushCore s hashes number = some (p, m)) :
    p.txMap.length + p.sys.total + m ≤ s.txMap.length + s.sys.total ∧ p.cap = s.cap := by
  unfold flushCore at h
  split at h
  · cases h
  · rename_i s1 h1
    split at h
    · cases h
    · rename_i s2 n h2
      simp only [Option.some.injEq, Prod.mk.injEq] at h
      obtain ⟨rfl, rfl⟩ := h
      obtain ⟨g1, sm1, co1⟩ := g.flushToPending h1
      have f := flushInner_spec g1.inv g1.mark h2
      have e2 := f.num
      have e3 := (SysOk.flush hashes (b := s2.sys) (by rw [f.sys]; exact g1.sys)).2
      have e4 := sm1.txMap
      have e5 := sm1.sys
      have e6 := f.sys
      rw [e6, e5] at e3
      rw [e4] at e2
      dsimp only
      rw [e6, e5]
      exact ⟨by omega, by rw [f.cap, sm1.cap]⟩

/-- The kinds of steps. -/
inductive Kind (s : Conc) (i : Nat) (c : Call) (pc : Pc) (s' : Conc) : Prop where
  | quiet (pc' : Pc) (n : Nat) (ht : s'.threads = s.threads.set i (c, pc'))
      (hp : s'.pool = { s.pool with stock := n }) (hl : s'.log = s.log) (hlost : s'.lost = s.lost)
      (h0 : pc'.pushes = 0) (ho : pc'.owes = pc.owes)
      (hn : n + pc.reserves + pc'.counts = s.pool.stock + pc'.reserves + pc.counts)
      (hcnt : pc'.counts = 0)
      (hres : pc'.reserves ≤ pc.reserves ∨ ∃ t lim d, pc = .insert t lim d ∧ pc'.reserves = 1 ∧
        (lim = true → s.pool.stock < s.pool.cap))
  | claim (t : PoolTx) (d : Nat) (hpc : pc = .enter t d) (hf : find s.pool t.hash = none)
      (hc : claimed s.threads t.hash = false) (hs : s' = s.goto i c (.push t d))
  | push (t : PoolTx) (d : Nat) (hpc : pc = .push t d) (full : Bool)
      (hf : full = decide (s.pool.cap ≤ s.pool.co.length))
      (hs : s' = { s with
        pool := { s.pool with
          next := s.pool.next + 1
          heap := s.pool.heap.alloc s.pool.next t
          txMap := s.pool.txMap ++ [s.pool.next]
          co := if full then s.pool.co else s.pool.co ++ [(s.pool.next, d)] }
        log := s.log ++ [(i, Op.insert t false d)]
        lost := s.lost || full }.goto i c (.leave .inserted))
  | bucket (t : PoolTx) (hpc : pc = .bucket t)
      (hs : s' = { s with
        pool := { s.pool with sys := (s.pool.sys.insert t).1 }
        log := s.log ++ [(i, Op.insertSys t)] }.goto i c
          (if (s.pool.sys.insert t).2 then .count else .leave .done))
  | pick (hs : List Nat) (l : Nat) (st : Sorter) (hpc : pc = .pick hs l st) (hr : s.real = false) (r : Packed)
      (hs : s' = { s with pool := { s.pool with real := st.run s.pool.heap.tx s.pool.real } }.goto i c
        (.leave (.packed r)))
  | flush (hs : List Nat) (n : Nat) (hpc : pc = .flush hs n) (hr : s.readers = 0) (p : Pool)
      (hp : flush s.pool hs n = some p)
      (hs : s' = { s with pool := p, log := s.log ++ [(i, Op.flush hs n)] }.goto i c (.done .done))
  | want (a : After) (hpc : pc = .wantReal a) (hr : s.real = false)
      (hs : s' = { s with real := true, log := s.log ++ [(i, Op.refresh)] }.goto i c
        (.draining s.pool.co.length a))
  | pop (k : Nat) (a : After) (hpc : pc = .draining (k + 1) a) (p d : Nat) (rest : List (Nat × Nat))
      (hco : s.pool.co = (p, d) :: rest) (pool : Pool) (hp : popOne { s.pool with co := rest } p d = some pool)
      (hs : s' = { s with pool := pool }.goto i c (.draining k a))

theorem After.counts (a : After) : a.pc.counts = 0 := by cases a <;> rfl
theorem Call.counts (a : Call) : a.pc.counts = 0 := by cases a <;> rfl
theorem Call.reserves (a : Call) : a.pc.reserves = 0 := by cases a <;> rfl
theorem After.reserves (a : After) (k : Nat) : a.pc.reserves = (Pc.draining k a).reserves := by cases a <;> rfl

theorem pool_stock (p : Pool) : p = { p with stock := p.stock } := rfl

theorem step_kind {s s' : Conc} {i : Nat} (h : s.step i = .state s')
    (hr : total Pc.reserves s.threads ≤ s.pool.stock) :
    ∃ c pc, s.threads[i]? = some (c, pc) ∧ Kind s i c pc s' := by
  unfold Conc.step at h
  split at h
  · cases h
  · rename_i c pc hi
    refine ⟨c, pc, hi, ?_⟩
    have hge := total_ge (f := Pc.reserves) hi
    cases pc with
    | insert t lim d =>
      simp only [Conc.move] at h
      split at h <;> cases h
      · exact .quiet _ s.pool.stock rfl rfl rfl rfl rfl rfl rfl rfl (.inl (by simp [Pc.reserves]))
      · rename_i hno
        exact .quiet _ _ rfl rfl rfl rfl rfl rfl (by simp [Pc.reserves, Pc.counts]) rfl
          (.inr ⟨t, lim, d, rfl, rfl, fun hl => by
            apply Nat.lt_of_not_le; intro hx; exact hno ⟨hx, hl⟩⟩)
    | reserved t lim d =>
      simp only [Conc.move] at h
      cases h
      exact .quiet _ s.pool.stock rfl rfl rfl rfl rfl rfl rfl rfl (.inl (by simp [Pc.reserves]))
    | checked t lim d =>
      simp only [Conc.move] at h
      split at h <;> cases h
      · exact .quiet _ s.pool.stock rfl rfl rfl rfl rfl rfl rfl rfl (.inl (by simp [Pc.reserves]))
      · exact .quiet _ s.pool.stock rfl rfl rfl rfl rfl rfl rfl rfl (.inl (by simp [Pc.reserves]))
    | enter t d =>
      simp only [Conc.move] at h
      split at h
      · cases h
        simp only [Pc.reserves] at hge
        exact .quiet _ _ rfl rfl rfl rfl rfl rfl (by simp only [Pc.reserves, Pc.counts]; omega) rfl
          (.inl (by simp [Pc.reserves]))
      · rename_i hn
        simp only [Bool.or_eq_true, not_or, Bool.not_eq_true, Option.isSome_eq_false_iff,
          Option.isNone_iff_eq_none] at hn
        cases h
        exact .claim t d rfl hn.1 hn.2 rfl
    | push t d =>
      simp only [Conc.move] at h
      cases h
      exact .push t d rfl _ rfl rfl
    | insertSys t =>
      simp only [Conc.move] at h
      cases h
      exact .quiet _ s.pool.stock rfl rfl rfl rfl rfl rfl rfl rfl (.inl (by simp [Pc.reserves]))
    | bucket t =>
      simp only [Conc.move] at h
      cases h
      exact .bucket t rfl rfl
    | count =>
      simp only [Conc.move] at h
      cases h
      exact .quiet _ _ rfl rfl rfl rfl rfl rfl (by simp [Pc.reserves, Pc.counts]) rfl (.inl (by simp [Pc.reserves]))
    | package l st =>
      simp only [Conc.move] at h
      cases h
      exact .quiet _ s.pool.stock rfl rfl rfl rfl rfl rfl rfl rfl (.inl (by simp [Pc.reserves]))
    | packSys l st =>
      simp only [Conc.move] at h
      split at h <;> cases h
      exact .quiet _ s.pool.stock rfl rfl rfl rfl rfl rfl rfl rfl (.inl (by simp [Pc.reserves]))
    | packLook hs l st =>
      simp only [Conc.move] at h
      split at h <;> cases h
      · exact .quiet _ s.pool.stock rfl rfl rfl rfl rfl rfl rfl rfl (.inl (by simp [Pc.reserves]))
      · exact .quiet _ s.pool.stock rfl rfl rfl rfl rfl rfl rfl rfl (.inl (by simp [Pc.reserves]))
    | pick hs l st =>
      simp only [Conc.move] at h
      split at h
      · cases h
      · rename_i hf
        cases h
        exact .pick hs l st rfl (by simpa using hf) _ rfl
    | refresh =>
      simp only [Conc.move] at h
      split at h <;> cases h
      · exact .quiet _ s.pool.stock rfl rfl rfl rfl rfl rfl rfl rfl (.inl (by simp [Pc.reserves]))
      · exact .quiet _ s.pool.stock rfl rfl rfl rfl rfl rfl rfl rfl (.inl (by simp [Pc.reserves]))
    | refreshLock =>
      simp only [Conc.move] at h
      cases h
      exact .quiet _ s.pool.stock rfl rfl rfl rfl rfl rfl rfl rfl (.inl (by simp [Pc.reserves]))
    | flush hs n =>
      simp only [Conc.move] at h
      split at h
      · cases h
      · rename_i hz
        split at h
        · cases h
        · rename_i p hp
          cases h
          exact .flush hs n rfl (by omega) p hp rfl
    | wantReal a =>
      simp only [Conc.move] at h
      split at h
      · cases h
      · rename_i hf
        cases h
        exact .want a rfl (by simpa using hf) rfl
    | draining k a =>
      cases k with
      | zero =>
        simp only [Conc.move] at h
        cases h
        exact .quiet _ s.pool.stock rfl rfl rfl rfl a.pushes a.owes
          (by rw [a.reserves 0, a.counts]; rfl) a.counts (.inl (by rw [a.reserves 0]; exact Nat.le_refl _))
      | succ k =>
        simp only [Conc.move] at h
        split at h
        · cases h
        · rename_i p d rest hco
          split at h
          · cases h
          · rename_i pool hp
            cases h
            exact .pop k a rfl p d rest hco pool hp rfl
    | leave r =>
      simp only [Conc.move] at h
      cases h
      exact .quiet _ s.pool.stock rfl rfl rfl rfl rfl rfl rfl rfl (.inl (by simp [Pc.reserves]))
    | done r => simp only [Conc.move] at h; cases h

theorem Sound.reserves {s : Conc} (hs : Sound s) : total Pc.reserves s.threads ≤ s.pool.stock := by
  have := hs.stock
  have := hs.counted
  omega

theorem counts_of_readers {s : Conc} (hl : Locks s) (hr : s.readers = 0) :
    total Pc.pushes s.threads = 0 ∧ total Pc.counts s.threads = 0 ∧ total Pc.owes s.threads = 0 := by
  have h1 := hl.readers
  have h2 := pushes_le_holds (l := s.threads)
  have h3 := holds_of_drains (l := s.threads)
  exact ⟨by omega, by omega, owes_le_drains (by omega)⟩

theorem Sound.step {s s' : Conc} {i : Nat} (hs : Sound s) (hl : Locks s) (h : s.step i = .state s')
    (h0 : s'.lost = false) : Sound s' := by
  obtain ⟨c, pc, hi, hk⟩ := step_kind h hs.reserves
  have hst := hs.stock
  have hct := hs.counted
  cases hk with
  | quiet pc' n ht hp hlog hlost hpu ho hn hcnt hres =>
    have a := total_set (f := Pc.reserves) (pc' := pc') hi
    have b := total_set (f := Pc.counts) (pc' := pc') hi
    have a2 := total_ge (f := Pc.reserves) hi
    have b2 := total_ge (f := Pc.counts) hi
    rw [← ht] at a b
    refine ⟨by rw [hp]; exact hs.inv.stock n, by rw [hp]; exact hs.mark, by rw [hp]; exact hs.capPos,
      by rw [hp]; exact hs.sys, ?_, ?_, hs.claims.move ht hpu fun h => by rw [hp]; rfl⟩
    · rw [hp]; dsimp only; omega
    · rw [hp]; dsimp only
      omega
  | claim t d hpc hf hc e =>
    subst hpc e
    have a := total_set (f := Pc.reserves) (pc' := .push t d) hi
    have b := total_set (f := Pc.counts) (pc' := .push t d) hi
    simp only [Pc.reserves, Pc.counts] at a b
    refine ⟨hs.inv, hs.mark, hs.capPos, hs.sys, ?_, ?_, ?_, ?_⟩
    · simp only [Conc.goto]; omega
    · simp only [Conc.goto]; omega
    · intro j c' t' d' hj
      rcases getElem?_set_cases hj with ⟨-, e⟩ | ⟨-, e⟩
      · cases e; exact hf
      · exact hs.claims.absent j c' t' d' e
    · intro j k c1 t1 d1 c2 t2 d2 hj hk hne
      rcases getElem?_set_cases hj with ⟨ej, e⟩ | ⟨ej, e⟩
      · rcases getElem?_set_cases hk with ⟨ek, e'⟩ | ⟨ek, e'⟩
        · omega
        · cases e; exact (not_claimed hc e').symm
      · rcases getElem?_set_cases hk with ⟨ek, e'⟩ | ⟨ek, e'⟩
        · cases e'; exact not_claimed hc e
        · exact hs.claims.distinct j k _ _ _ _ _ _ e e' hne
  | push t d hpc full hf e =>
    subst hpc e
    have a := total_set (f := Pc.reserves) (pc' := .leave .inserted) hi
    have b := total_set (f := Pc.counts) (pc' := .leave .inserted) hi
    simp only [Pc.reserves, Pc.counts] at a b
    have hfull : full = false := by
      simp only [Conc.goto, Bool.or_eq_false_iff] at h0; exact h0.2
    subst hfull
    have hab := hs.claims.absent i c t d hi
    refine ⟨hs.inv.alloc hab, hs.mark, hs.capPos, hs.sys, ?_, ?_, ?_, ?_⟩
    · simp only [Conc.goto, List.length_append, List.length_singleton]; omega
    · simp only [Conc.goto]; omega
    · intro j c' t' d' hj
      rcases getElem?_set_cases hj with ⟨-, e⟩ | ⟨ne, e⟩
      · cases e
      · exact find_alloc hs.inv.mapLt (hs.claims.absent j c' t' d' e)
          (hs.claims.distinct i j _ _ _ _ _ _ hi e ne)
    · intro j k c1 t1 d1 c2 t2 d2 hj hk hne
      rcases getElem?_set_cases hj with ⟨ej, e⟩ | ⟨ej, e⟩
      · cases e
      · rcases getElem?_set_cases hk with ⟨ek, e'⟩ | ⟨ek, e'⟩
        · cases e'
        · exact hs.claims.distinct j k _ _ _ _ _ _ e e' hne
  | bucket t hpc e =>
    subst hpc e
    have a := total_set (f := Pc.reserves) (pc' := if (s.pool.sys.insert t).2 then .count else .leave .done) hi
    have b := total_set (f := Pc.counts) (pc' := if (s.pool.sys.insert t).2 then .count else .leave .done) hi
    obtain ⟨o, e⟩ := hs.sys.insert t
    have inv := hs.inv
    refine ⟨⟨inv.mapLt, inv.mapHash, inv.coNodup, inv.coOk, inv.coPend, inv.sorted, inv.pend, inv.realNodup,
      inv.realOk, inv.pkgReal, inv.mapCases⟩, hs.mark, hs.capPos, o, ?_, ?_,
      hs.claims.move (pc' := if (s.pool.sys.insert t).2 then .count else .leave .done) rfl
        (by split <;> rfl) fun h => rfl⟩
    · simp only [Conc.goto]
      rw [e]
      revert a b
      split <;> (simp only [Pc.reserves, Pc.counts]; omega)
    · simp only [Conc.goto]
      rw [e]
      revert a b
      split <;> (simp only [Pc.reserves, Pc.counts]; omega)
  | pick hs' l st hpc hr r e =>
    subst hpc e
    have a := total_set (f := Pc.reserves) (pc' := .leave (.packed r)) hi
    have b := total_set (f := Pc.counts) (pc' := .leave (.packed r)) hi
    simp only [Pc.reserves, Pc.counts] at a b
    refine ⟨hs.inv.permReal (st.perm _ _), hs.mark, hs.capPos, hs.sys, ?_, ?_,
      hs.claims.move (pc' := .leave (.packed r)) rfl rfl fun h => rfl⟩
    · simp only [Conc.goto]; omega
    · simp only [Conc.goto]; omega
  | flush hashes n hpc hr p hp e =>
    subst hpc e
    obtain ⟨z1, z2, z3⟩ := counts_of_readers hl hr
    have a := total_set (f := Pc.reserves) (pc' := .done .done) hi
    have b := total_set (f := Pc.counts) (pc' := .done .done) hi
    have d := total_set (f := Pc.pushes) (pc' := .done .done) hi
    simp only [Pc.reserves, Pc.counts, Pc.pushes] at a b d
    have g := hs.good z2
    have g' := g.flush hp
    rw [flush_core, Option.map_eq_some_iff] at hp
    obtain ⟨⟨p0, m⟩, hc, rfl⟩ := hp
    have hle := (flushCore_le g hc).1
    refine ⟨g'.inv, g'.mark, g'.capPos, g'.sys, ?_, ?_, ?_, ?_⟩
    · simp only [Conc.goto]; omega
    · simp only [Conc.goto]; omega
    · intro j c' t' d' hj
      have := total_ge (f := Pc.pushes) hj
      simp only [Pc.pushes, Conc.goto] at this
      omega
    · intro j k c1 t1 d1 c2 t2 d2 hj hk hne
      have := total_ge (f := Pc.pushes) hj
      simp only [Pc.pushes, Conc.goto] at this
      omega
  | want w hpc hr e =>
    subst hpc e
    have a := total_set (f := Pc.reserves) (pc' := .draining s.pool.co.length w) hi
    have b := total_set (f := Pc.counts) (pc' := .draining s.pool.co.length w) hi
    have e1 : (Pc.draining s.pool.co.length w).reserves = (Pc.wantReal w).reserves := by cases w <;> rfl
    simp only [Pc.counts] at b
    refine ⟨hs.inv, hs.mark, hs.capPos, hs.sys, ?_, ?_,
      hs.claims.move (pc' := .draining s.pool.co.length w) rfl rfl fun h => rfl⟩
    · simp only [Conc.goto]; omega
    · simp only [Conc.goto]; omega
  | pop k w hpc q d rest hco pool hp e =>
    subst hpc e
    have a := total_set (f := Pc.reserves) (pc' := .draining k w) hi
    have b := total_set (f := Pc.counts) (pc' := .draining k w) hi
    have e1 : (Pc.draining (k + 1) w).reserves = (Pc.draining k w).reserves := by cases w <;> rfl
    simp only [Pc.counts] at b
    have sm := (popOne_same hp).1
    have hinv : Inv { s.pool with co := (q, d) :: rest } := by rw [← hco]; exact hs.inv
    refine ⟨hinv.popOne hp, popOne_noMark (s := { s.pool with co := rest }) hs.mark hp, ?_, ?_, ?_, ?_,
      hs.claims.move (pc' := .draining k w) rfl rfl fun h => find_congr sm.txMap sm.tx h⟩
    · simp only [Conc.goto, sm.cap]; exact hs.capPos
    · simp only [Conc.goto, sm.sys]; exact hs.sys
    · simp only [Conc.goto, sm.sys, sm.txMap, sm.stock]; omega
    · simp only [Conc.goto, sm.sys]; omega

theorem step_lost {s s' : Conc} {i : Nat} (h : s.step i = .state s') (h0 : s'.lost = false) : s.lost = false := by
  unfold Conc.step at h
  split at h
  · cases h
  · rename_i c pc hi
    unfold Conc.move at h
    split at h <;> (try split at h) <;> (try split at h) <;> cases h <;>
      first
        | exact h0
        | (simp only [Conc.goto, Bool.or_eq_false_iff] at h0; exact h0.1)

theorem Reach.sound {cap gap : Nat} (hc : 0 < cap) {s : Conc} (h : Reach cap gap s) :
    s.lost = false → Sound s := by
  induction h with
  | init =>
    intro _
    have g := Good.init hc gap
    refine ⟨g.inv, g.mark, g.capPos, g.sys, by simp [Conc.init, total, Pool.init, Sys.total],
      by simp [Conc.init, total], ?_, ?_⟩
    · intro i c t d h; simp [Conc.init] at h
    · intro i j c t d c' t' d' h; simp [Conc.init] at h
  | @spawn s c _ ih =>
    intro h0
    have hs := ih h0
    refine ⟨hs.inv, hs.mark, hs.capPos, hs.sys, ?_, ?_, ?_, ?_⟩
    · simp only [Conc.spawn, total_append, Call.counts, Call.reserves]; exact hs.stock
    · simp only [Conc.spawn, total_append, Call.counts]; exact hs.counted
    · intro i c' t d h
      have h : (s.threads ++ [(c, c.pc)])[i]? = some (c', Pc.push t d) := h
      rw [List.getElem?_append] at h
      split at h
      · exact hs.claims.absent i c' t d h
      · have := List.mem_of_getElem? h
        simp only [List.mem_singleton, Prod.mk.injEq] at this
        have h1 := c.pushes; rw [← this.2] at h1; cases h1
    · intro i j c1 t d c' t' d' h h'
      have h : (s.threads ++ [(c, c.pc)])[i]? = some (c1, Pc.push t d) := h
      have h' : (s.threads ++ [(c, c.pc)])[j]? = some (c', Pc.push t' d') := h'
      rw [List.getElem?_append] at h h'
      split at h
      · split at h'
        · exact hs.claims.distinct i j _ _ _ _ _ _ h h'
        · have := List.mem_of_getElem? h'
          simp only [List.mem_singleton, Prod.mk.injEq] at this
          have h1 := c.pushes; rw [← this.2] at h1; cases h1
      · have := List.mem_of_getElem? h
        simp only [List.mem_singleton, Prod.mk.injEq] at this
        have h1 := c.pushes; rw [← this.2] at h1; cases h1
  | step i hr h ih =>
    intro h0
    exact (ih (step_lost h h0)).step hr.locks h h0

/-! ## The sequential run -/

theorem core_tx {h : Heap} {pend : Nat → Option PQ} {p d : Nat} {r} (hr : core h pend p d = some r) :
    r.1.tx = h.tx := by
  have := popOne_core { Pool.init 0 0 with heap := h, pending := pend } p d
  simp only [hr, Option.map_some] at this
  exact (popOne_same this).1.tx

theorem coreN_tx {l : List (Nat × Nat)} {h : Heap} {pend : Nat → Option PQ} {r} (hr : coreN l h pend = some r) :
    r.1.tx = h.tx := by
  induction l generalizing h pend r with
  | nil => simp only [coreN, Option.some.injEq] at hr; subst hr; rfl
  | cons e l ih =>
    obtain ⟨p, d⟩ := e
    simp only [coreN] at hr
    split at hr
    · cases hr
    · rename_i h1 pend1 ext hc
      simp only [Option.map_eq_some_iff] at hr
      obtain ⟨r', h2, rfl⟩ := hr
      exact (ih h2).trans (core_tx hc)

/-- The sequential pool `q` against the shared pool `p` of which `k` elements of `co_queue` are still to be sorted
in: `q` is ahead by these, keeps its packageable transactions in some other order, and differs in the counter. -/
structure Ahead (p : Pool) (k : Nat) (q : Pool) (r : Heap × (Nat → Option PQ) × List Nat) : Prop where
  core : coreN (p.co.take k) p.heap p.pending = some r
  eq : q = { p with heap := r.1, pending := r.2.1, co := p.co.drop k, real := q.real, stock := q.stock }
  real : q.real.Perm (p.real ++ r.2.2)

/-- The shared pool against the run of the log. -/
def Lin (cap gap : Nat) (s : Conc) : Prop :=
  (coreN (s.pool.co.take (total Pc.owes s.threads)) s.pool.heap s.pool.pending = none ∧
    run (init cap gap) (s.log.map (·.2)) = none) ∨
  ∃ q r, run (init cap gap) (s.log.map (·.2)) = some q ∧ Ahead s.pool (total Pc.owes s.threads) q r ∧
    s.pool.stock + total Pc.counts s.threads = q.stock + total Pc.reserves s.threads

theorem run_log_snoc (s : Pool) (ops : List Op) (op : Op) :
    run s (ops ++ [op]) = (run s ops).bind (step · op) := by
  rw [run_append]
  congr 1
  funext x
  simp only [run]
  cases step x op <;> rfl

theorem Lin.step {cap gap : Nat} (hcap : 0 < cap) {s s' : Conc} {i : Nat} (hlin : Lin cap gap s) (hs : Sound s)
    (hl : Locks s) (h : s.step i = .state s') (h0 : s'.lost = false) : Lin cap gap s' := by
  obtain ⟨c, pc, hi, hk⟩ := step_kind h hs.reserves
  cases hk with
  | quiet pc' n ht hp hlog hlost hpu ho hn hcnt hres =>
    have a := total_set (f := Pc.reserves) (pc' := pc') hi
    have b := total_set (f := Pc.counts) (pc' := pc') hi
    have e := total_set (f := Pc.owes) (pc' := pc') hi
    rw [← ht] at a b e
    have e : total Pc.owes s'.threads = total Pc.owes s.threads := by omega
    rcases hlin with ⟨h1, h2⟩ | ⟨q, r, h1, h2, h3⟩
    · exact .inl ⟨by rw [e, hp]; exact h1, by rw [hlog]; exact h2⟩
    · refine .inr ⟨q, r, by rw [hlog]; exact h1, ?_, ?_⟩
      · rw [e, hp]; exact ⟨h2.core, h2.eq, h2.real⟩
      · rw [hp]; dsimp only; omega
  | claim t d hpc hf hc e =>
    subst hpc e
    have a := total_set (f := Pc.reserves) (pc' := .push t d) hi
    have b := total_set (f := Pc.counts) (pc' := .push t d) hi
    have e := total_set (f := Pc.owes) (pc' := .push t d) hi
    simp only [Pc.reserves, Pc.counts, Pc.owes, Nat.add_zero, Nat.add_right_cancel_iff] at a b e
    unfold Lin
    simp only [Conc.goto, a, b, e]
    exact hlin
  | push t d hpc full hf e =>
    subst hpc e
    have a := total_set (f := Pc.reserves) (pc' := .leave .inserted) hi
    have b := total_set (f := Pc.counts) (pc' := .leave .inserted) hi
    have e := total_set (f := Pc.owes) (pc' := .leave .inserted) hi
    simp only [Pc.reserves, Pc.counts, Pc.owes, Nat.add_zero] at a b e
    have hfull : full = false := by
      simp only [Conc.goto, Bool.or_eq_false_iff] at h0; exact h0.2
    subst hfull
    have hroom : s.pool.co.length < s.pool.cap := by simpa using hf.symm
    have hab := hs.claims.absent i c t d hi
    unfold Lin
    simp only [Conc.goto, b, e, List.map_append, List.map_cons, List.map_nil, run_log_snoc, Bool.false_eq_true,
      if_false]
    have htake : (s.pool.co ++ [(s.pool.next, d)]).take (total Pc.owes s.threads) =
        s.pool.co.take (total Pc.owes s.threads) := List.take_append_of_le_length hl.owes
    have hdrop : (s.pool.co ++ [(s.pool.next, d)]).drop (total Pc.owes s.threads) =
        s.pool.co.drop (total Pc.owes s.threads) ++ [(s.pool.next, d)] := List.drop_append_of_le_length hl.owes
    have hal := coreN_alloc (t := t) (s.pool.co.take (total Pc.owes s.threads)) (h := s.pool.heap)
      (fun e he => hs.inv.coFree e (List.mem_of_mem_take he)) hs.inv.free
    rcases hlin with ⟨h1, h2⟩ | ⟨q, r, h1, h2, h3⟩
    · left
      rw [htake, hal, h1, h2]; exact ⟨rfl, rfl⟩
    · right
      rw [h1]
      obtain ⟨hcore, heq, hreal⟩ := h2
      have hfind : find q t.hash = none := by
        rw [← hab]
        refine find_congr ?_ ?_ _
        · rw [heq]
        · rw [heq]; exact coreN_tx hcore
      have hqco : q.co = s.pool.co.drop (total Pc.owes s.threads) := by rw [heq]
      have hqcap : q.cap = s.pool.cap := by rw [heq]
      have hqn : q.next = s.pool.next := by rw [heq]
      have hqm : q.txMap = s.pool.txMap := by rw [heq]
      have hqh : q.heap = r.1 := by rw [heq]
      have hlt : q.co.length < q.cap := by rw [hqco, hqcap, List.length_drop]; omega
      refine ⟨{ q with
        stock := q.stock + 1
        next := q.next + 1
        heap := q.heap.alloc q.next t
        txMap := q.txMap ++ [q.next]
        co := q.co ++ [(q.next, d)] }, (r.1.alloc s.pool.next t, r.2.1, r.2.2), ?_, ⟨?_, ?_, hreal⟩, ?_⟩
      · simp only [Option.bind_some, Pool.step, Pool.insert]
        rw [if_neg (by simp), if_neg (by simp; omega)]
        simp only [Option.map_some, Option.some.injEq]
        have hfind' : find { q with stock := q.stock + 1 } t.hash = none := hfind
        simp only [insertTail, hfind', hlt, if_true]
      · rw [htake, hal, hcore]; rfl
      · rw [hdrop]
        simp only [hqn, hqh, hqm, hqco]
        rw [heq]
      · dsimp only; omega
  | bucket t hpc e =>
    subst hpc e
    have a := total_set (f := Pc.reserves) (pc' := if (s.pool.sys.insert t).2 then .count else .leave .done) hi
    have b := total_set (f := Pc.counts) (pc' := if (s.pool.sys.insert t).2 then .count else .leave .done) hi
    have e := total_set (f := Pc.owes) (pc' := if (s.pool.sys.insert t).2 then .count else .leave .done) hi
    have e0 : (if (s.pool.sys.insert t).2 then Pc.count else .leave .done).owes = 0 := by split <;> rfl
    have a0 : (if (s.pool.sys.insert t).2 then Pc.count else .leave .done).reserves = 0 := by split <;> rfl
    rw [e0] at e
    rw [a0] at a
    simp only [Pc.reserves, Pc.owes, Nat.add_zero] at a e
    unfold Lin
    simp only [Conc.goto, a, e, List.map_append, List.map_cons, List.map_nil, run_log_snoc]
    rcases hlin with ⟨h1, h2⟩ | ⟨q, r, h1, h2, h3⟩
    · left
      rw [h1, h2]; exact ⟨rfl, rfl⟩
    · right
      rw [h1]
      obtain ⟨hcore, heq, hreal⟩ := h2
      have hsys : q.sys = s.pool.sys := by rw [heq]
      refine ⟨insertSys q t, r, rfl, ⟨hcore, ?_, hreal⟩, ?_⟩
      · simp only [insertSys, hsys]
        rw [heq]
      · simp only [insertSys, hsys]
        revert b
        split <;> (simp only [Pc.counts]; omega)
  | pick hs' l st hpc hr p e =>
    subst hpc e
    have a := total_set (f := Pc.reserves) (pc' := .leave (.packed p)) hi
    have b := total_set (f := Pc.counts) (pc' := .leave (.packed p)) hi
    have e := total_set (f := Pc.owes) (pc' := .leave (.packed p)) hi
    simp only [Pc.reserves, Pc.counts, Pc.owes, Nat.add_zero, Nat.add_right_cancel_iff] at a b e
    unfold Lin
    simp only [Conc.goto, a, b, e]
    rcases hlin with h1 | ⟨q, r, h1, h2, h3⟩
    · exact .inl h1
    · exact .inr ⟨q, r, h1, ⟨h2.core, h2.eq, h2.real.trans ((st.perm _ _).symm.append_right _)⟩, h3⟩
  | flush hashes n hpc hr p hp e =>
    subst hpc e
    obtain ⟨z1, z2, z3⟩ := counts_of_readers hl hr
    have a := total_set (f := Pc.reserves) (pc' := .done .done) hi
    have b := total_set (f := Pc.counts) (pc' := .done .done) hi
    have e := total_set (f := Pc.owes) (pc' := .done .done) hi
    simp only [Pc.reserves, Pc.counts, Pc.owes, Nat.add_zero] at a b e
    unfold Lin at hlin ⊢
    rw [z3] at hlin
    simp only [Conc.goto, a, b, e, z3, List.map_append, List.map_cons, List.map_nil, run_log_snoc]
    rw [z2] at hlin
    rcases hlin with ⟨h1, h2⟩ | ⟨q, r, h1, ⟨hcore, heq, hreal⟩, h3⟩
    · simp [coreN] at h1
    · right
      simp only [List.take_zero, coreN, Option.some.injEq] at hcore
      subst hcore
      simp only [List.drop_zero, List.append_nil] at heq hreal
      have gq := good_run hcap h1
      rw [flush_core, Option.map_eq_some_iff] at hp
      obtain ⟨⟨p0, m⟩, hc, rfl⟩ := hp
      rcases flushCore_like s.pool hashes n q.stock q.real hreal with ⟨f1, -⟩ | ⟨p1, m1, l', f1, f2, f3⟩
      · rw [f1] at hc; cases hc
      · rw [f1] at hc
        simp only [Option.some.injEq, Prod.mk.injEq] at hc
        obtain ⟨rfl, rfl⟩ := hc
        have hq : q = { s.pool with stock := q.stock, real := q.real } := heq
        rw [← hq] at f3
        have hle := flushCore_le gq f3
        have hst := gq.stock
        refine ⟨{ p1 with stock := q.stock - m1, real := l' }, (p1.heap, p1.pending, []), ?_, ⟨?_, ?_, ?_⟩, ?_⟩
        · rw [h1]
          simp only [Option.bind_some, Pool.step]
          rw [flush_core, f3]; rfl
        · simp [coreN]
        · simp
        · simpa using f2
        · have := hle.1
          dsimp only at this ⊢
          omega
  | want w hpc hr e =>
    subst hpc e
    have a := total_set (f := Pc.reserves) (pc' := .draining s.pool.co.length w) hi
    have b := total_set (f := Pc.counts) (pc' := .draining s.pool.co.length w) hi
    have e := total_set (f := Pc.owes) (pc' := .draining s.pool.co.length w) hi
    have e1 : (Pc.draining s.pool.co.length w).reserves = (Pc.wantReal w).reserves := by cases w <;> rfl
    simp only [Pc.counts, Pc.owes, Nat.add_zero] at b e
    have h2 := hl.real
    rw [hr, Bool.toNat_false] at h2
    have h5 := owes_le_drains h2
    rw [h5, Nat.zero_add] at e
    have a : total Pc.reserves (s.threads.set i (c, Pc.draining s.pool.co.length w)) =
      total Pc.reserves s.threads := by omega
    unfold Lin at hlin ⊢
    rw [h5] at hlin
    simp only [Conc.goto, a, b, e, List.map_append, List.map_cons, List.map_nil, run_log_snoc, List.take_length]
    rcases hlin with ⟨h1, -⟩ | ⟨q, r, h1, ⟨hcore, heq, hreal⟩, h3⟩
    · simp [coreN] at h1
    · simp only [List.take_zero, coreN, Option.some.injEq] at hcore
      subst hcore
      simp only [List.drop_zero, List.append_nil] at heq hreal
      have hq1 : q.co = s.pool.co := by rw [heq]
      have hq2 : q.heap = s.pool.heap := by rw [heq]
      have hq3 : q.pending = s.pool.pending := by rw [heq]
      rw [h1]
      simp only [Option.bind_some, Pool.step, refresh, flushToPending, drain_core, hq1, hq2, hq3]
      cases hn : coreN s.pool.co s.pool.heap s.pool.pending with
      | none =>
        left
        refine ⟨rfl, ?_⟩
        split
        · rename_i he
          have : s.pool.co = [] := by simpa using he
          rw [this] at hn; simp [coreN] at hn
        · rfl
      | some r =>
        right
        refine ⟨{ q with heap := r.1, pending := r.2.1, real := q.real ++ r.2.2, co := [] }, r, ?_,
          ⟨by simpa using hn, ?_, hreal.append_right _⟩, h3⟩
        · split
          · rename_i he
            have he : s.pool.co = [] := by simpa using he
            rw [he] at hn
            simp only [coreN, Option.some.injEq] at hn
            subst hn
            rw [he] at hq1
            simp only [List.append_nil, ← hq1, ← hq2, ← hq3]
          · rfl
        · simp only [List.drop_length]
          rw [heq]
  | pop k w hpc p d rest hco pool hp e =>
    subst hpc e
    have a := total_set (f := Pc.reserves) (pc' := .draining k w) hi
    have b := total_set (f := Pc.counts) (pc' := .draining k w) hi
    have e := total_set (f := Pc.owes) (pc' := .draining k w) hi
    have e1 : (Pc.draining (k + 1) w).reserves = (Pc.draining k w).reserves := by cases w <;> rfl
    simp only [Pc.counts, Pc.owes, Nat.add_zero] at b e
    have a : total Pc.reserves (s.threads.set i (c, Pc.draining k w)) = total Pc.reserves s.threads := by omega
    have e : total Pc.owes s.threads = total Pc.owes (s.threads.set i (c, Pc.draining k w)) + 1 := by omega
    have hsame := (popOne_same hp).1
    have hpco := popOne_co hp
    rw [popOne_core, Option.map_eq_some_iff] at hp
    obtain ⟨⟨h1, pend1, ext⟩, hcore1, rfl⟩ := hp
    dsimp only at hcore1
    unfold Lin at hlin ⊢
    rw [e, hco] at hlin
    simp only [Conc.goto, a, b]
    rcases hlin with ⟨n1, n2⟩ | ⟨q, r, n1, ⟨hcore, heq, hreal⟩, h3⟩
    · left
      refine ⟨?_, n2⟩
      simpa [coreN, hcore1] using n1
    · right
      rw [hco] at hcore heq
      simp only [List.take_succ_cons, coreN, hcore1, Option.map_eq_some_iff] at hcore
      obtain ⟨r', g1, rfl⟩ := hcore
      refine ⟨q, r', n1, ⟨g1, ?_, ?_⟩, h3⟩
      · simpa using heq
      · simpa [List.append_assoc] using hreal

theorem Reach.lin {cap gap : Nat} (hc : 0 < cap) {s : Conc} (h : Reach cap gap s) :
    s.lost = false → Lin cap gap s := by
  induction h with
  | init =>
    intro _
    exact .inr ⟨Pool.init cap gap, ((Pool.init cap gap).heap, (Pool.init cap gap).pending, []), rfl, ⟨rfl, rfl, .refl _⟩, rfl⟩
  | spawn c _ ih =>
    intro h0
    have := ih h0
    unfold Lin at this ⊢
    simp only [Conc.spawn, total_append, Call.owes, Call.counts, Call.reserves, Nat.add_zero]
    exact this
  | step i hr h ih =>
    intro h0
    have := step_lost h h0
    exact (ih this).step hc (hr.sound hc this) hr.locks h h0

end Axon.Pool
