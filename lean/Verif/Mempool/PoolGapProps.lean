import Verif.Mempool.PoolGap

/-!
# C17: packageable nonces have no gaps
-/

namespace Axon.Pool
open Axon.Assoc

/-! ## The account nonce known to the pool -/

/-- All insertions of sender `k` were authorised against the account nonce `A`
(`nonce_diff = nonce - account nonce`, `core/mempool/src/adapter/mod.rs:404,436`). -/
def Account (ops : List Op) (k A : Nat) : Prop :=
  ∀ t c d, Op.insert t c d ∈ ops → t.sender = k → t.nonce = A + d

structure TipInv (k A : Nat) (s : Pool) : Prop where
  co : ∀ p d, (p, d) ∈ s.co → (s.heap.tx p).sender = k → (s.heap.tx p).nonce = A + d
  q : ∀ q, s.pending k = some q → q.cur ≤ A ∧ (q.queue ≠ [] → q.cur = A) ∧ ∀ n p, (n, p) ∈ q.queue → A ≤ n

theorem place_queue {q : PQ} {h : Heap} {p : Nat} :
    (q.place h p).2.1.queue ≠ [] ∧ (q.place h p).2.1.cur = q.cur ∧ (q.place h p).2.1.pop = q.pop := by
  have hne : ∀ (k : Nat) (v : Nat) (l : List (Nat × Nat)), sput k v l ≠ [] := by
    intro k v l
    cases l with
    | nil => simp [sput]
    | cons e l => unfold sput; split <;> (try split) <;> simp
  unfold PQ.place
  simp only
  split
  · rename_i old hold
    split
    · split <;> exact ⟨hne _ _ _, rfl, rfl⟩
    · refine ⟨?_, rfl, rfl⟩
      intro he
      simp only at he
      rw [he, get_nil] at hold; cases hold
  · exact ⟨hne _ _ _, rfl, rfl⟩

theorem TipInv.popOne {k A : Nat} {s : Pool} {p d : Nat} {rest : List (Nat × Nat)} {s' : Pool}
    (hi : Inv { s with co := (p, d) :: rest }) (ht : TipInv k A { s with co := (p, d) :: rest })
    (hr : popOne { s with co := rest } p d = some s') : TipInv k A s' := by
  obtain ⟨hsame, hco⟩ := popOne_same hr
  simp only at hco
  refine ⟨?_, ?_⟩
  · intro x e hm
    rw [hco] at hm; rw [hsame.tx]
    exact ht.co x e (List.mem_cons_of_mem _ hm)
  simp only [Pool.popOne] at hr
  by_cases hk : (s.heap.tx p).sender = k
  · have hpn := ht.co p d (by simp) hk
    simp only at hpn
    have hq0 : ((s.pending (s.heap.tx p).sender).getD PQ.empty).cur ≤ A ∧
        (((s.pending (s.heap.tx p).sender).getD PQ.empty).queue ≠ [] →
          ((s.pending (s.heap.tx p).sender).getD PQ.empty).cur = A) ∧
        ∀ n x, (n, x) ∈ ((s.pending (s.heap.tx p).sender).getD PQ.empty).queue → A ≤ n := by
      rw [hk]
      cases h : s.pending k with
      | none => simp [PQ.empty]
      | some q => exact ht.q q h
    have hsq : Sorted ((s.pending (s.heap.tx p).sender).getD PQ.empty).queue := by
      cases h : s.pending (s.heap.tx p).sender with
      | none => exact List.Pairwise.nil
      | some q => exact hi.sorted _ _ h
    generalize (s.pending (s.heap.tx p).sender).getD PQ.empty = q at hr hq0 hsq
    have fin : ∀ q2 : PQ, (q2.cur ≤ A ∧ (q2.queue ≠ [] → q2.cur = A) ∧ ∀ n x, (n, x) ∈ q2.queue → A ≤ n) →
        ∀ r, upd s.pending (s.heap.tx p).sender (some q2) k = some r →
          r.cur ≤ A ∧ (r.queue ≠ [] → r.cur = A) ∧ ∀ n x, (n, x) ∈ r.queue → A ≤ n := by
      intro q2 h2 r hr'
      rw [hk, upd_same] at hr'; cases hr'; exact h2
    split at hr
    · simp only [Option.some.injEq] at hr; subst hr
      exact fin q hq0
    · split at hr
      · cases hr
      · rename_i h1 q1 push hins
        split at hr
        · cases hr
        · rename_i h2 q2 real2 hse
          simp only [Option.some.injEq] at hr; subst hr
          simp only [PQ.search, Option.map_eq_some_iff] at hse
          obtain ⟨⟨a, b, c⟩, _, he⟩ := hse
          simp only [Prod.mk.injEq] at he
          obtain ⟨_, rfl, _⟩ := he
          refine fin _ ?_
          simp only
          obtain ⟨_, hm1⟩ := insert_mem hsq hins
          have hent : ∀ n x, (n, x) ∈ q1.queue → A ≤ n := by
            intro n x hm
            rcases hm1 n x hm with h | ⟨h, _⟩
            · exact hq0.2.2 n x h
            · omega
          simp only [PQ.insert] at hins
          split at hins
          · cases hins
          · split at hins
            · simp only [Option.some.injEq, Prod.mk.injEq] at hins
              obtain ⟨_, rfl, _⟩ := hins
              exact ⟨hq0.1, hq0.2.1, hent⟩
            · simp only [Option.some.injEq] at hins
              have htip : (s.heap.tx p).nonce - d = A := by omega
              rw [htip] at hins
              have hcur : (q.raise A).cur = A := by
                unfold PQ.raise
                split
                · rfl
                · have := hq0.1; omega
              have := (place_queue (q := q.raise A) (h := s.heap) (p := p)).2.1
              rw [hins] at this
              simp only at this
              rw [hcur] at this
              exact ⟨by omega, fun _ => this, hent⟩
  · have fin : ∀ (q2 : PQ) r, upd s.pending (s.heap.tx p).sender (some q2) k = some r → s.pending k = some r := by
      intro q2 r h
      rw [upd_ne _ _ (fun h => hk h.symm)] at h; exact h
    split at hr
    · simp only [Option.some.injEq] at hr; subst hr
      exact fun r h => ht.q r (fin _ r h)
    · split at hr
      · cases hr
      · split at hr
        · cases hr
        · simp only [Option.some.injEq] at hr; subst hr
          exact fun r h => ht.q r (fin _ r h)

theorem TipInv.drain {k A : Nat} {l : List (Nat × Nat)} {s s' : Pool} (hi : Inv { s with co := l })
    (ht : TipInv k A { s with co := l }) (hr : drain l s = some s') : TipInv k A s' := by
  induction l generalizing s with
  | nil => simp only [Pool.drain, Option.some.injEq] at hr; subst hr; exact ht
  | cons e l ih =>
    obtain ⟨p, d⟩ := e
    simp only [Pool.drain] at hr
    split at hr
    · cases hr
    · rename_i s1 h1
      have hi1 := hi.popOne h1
      have ht1 := ht.popOne hi h1
      obtain ⟨hs1, hc1⟩ := popOne_same h1
      have : { s1 with co := l } = s1 := by cases s1; simp_all
      exact ih (by rw [this]; exact hi1) (by rw [this]; exact ht1) hr

theorem TipInv.insertTail {k A : Nat} {s : Pool} (hi : Inv s) (ht : TipInv k A s) {t : PoolTx} {d : Nat}
    (hop : t.sender = k → t.nonce = A + d) : TipInv k A (insertTail s t d) := by
  unfold Pool.insertTail
  split
  · exact ⟨ht.co, ht.q⟩
  · refine ⟨?_, ht.q⟩
    have hold : ∀ p d', (p, d') ∈ s.co → ((s.heap.alloc s.next t).tx p).sender = k →
        ((s.heap.alloc s.next t).tx p).nonce = A + d' := by
      intro p d' hm
      have h1 := hi.mapLt p (hi.coOk p (List.mem_map.2 ⟨_, hm, rfl⟩)).1
      have h2 : p ≠ s.next := by omega
      simpa [Heap.alloc, h2] using ht.co p d' hm
    intro p d' hm
    simp only at hm ⊢
    split at hm
    · rcases List.mem_append.1 hm with hm | hm
      · exact hold p d' hm
      · simp only [List.mem_singleton, Prod.mk.injEq] at hm
        obtain ⟨rfl, rfl⟩ := hm
        simpa [Heap.alloc] using hop
    · exact hold p d' hm

theorem TipInv.step {k A : Nat} {s s' : Pool} {op : Op} (g : Good s) (ht : TipInv k A s)
    (hop : ∀ hs n, op ≠ .flush hs n) (hacc : Account [op] k A) (hr : step s op = some s') : TipInv k A s' := by
  have href : ∀ s1, Pool.refresh s = some s1 → TipInv k A s1 := by
    intro s1 h1
    unfold Pool.refresh at h1
    split at h1
    · cases h1; exact ht
    · exact TipInv.drain (s := s) (l := s.co) g.inv ht h1
  cases op with
  | insert t c d =>
    have hop' : t.sender = k → t.nonce = A + d := hacc t c d (by simp)
    simp only [Pool.step, Option.map_eq_some_iff] at hr
    obtain ⟨r, h, rfl⟩ := hr
    unfold Pool.insert at h
    split at h
    · simp only [Option.some.injEq] at h; subst h; exact ht
    · simp only at h
      split at h
      · simp only [Option.map_eq_some_iff] at h
        obtain ⟨s2, h2, he⟩ := h
        subst he
        obtain ⟨i2, _, _⟩ := flushToPending_inv (g.inv.withStock (s.stock + 1)) h2
        exact TipInv.insertTail i2 (TipInv.drain (s := { s with stock := s.stock + 1 })
          (g.inv.withStock (s.stock + 1)) ⟨ht.co, ht.q⟩ h2) hop'
      · simp only [Option.some.injEq] at h; subst h
        exact TipInv.insertTail (s := { s with stock := s.stock + 1 }) (g.inv.withStock _) ⟨ht.co, ht.q⟩ hop'
  | insertSys t => simp only [Pool.step, Option.some.injEq] at hr; subst hr; exact ⟨ht.co, ht.q⟩
  | package l st =>
    simp only [Pool.step, Option.map_eq_some_iff] at hr
    obtain ⟨r, h, rfl⟩ := hr
    unfold Pool.package at h
    split at h
    · cases h
    · split at h
      · cases h
      · rename_i s1 h1
        simp only [Option.some.injEq] at h; subst h
        exact ⟨(href s1 h1).co, (href s1 h1).q⟩
  | refresh => exact href s' hr
  | flush hs n => exact absurd rfl (hop hs n)

theorem TipInv.run {k A : Nat} {ops : List Op} {s s' : Pool} (g : Good s) (ht : TipInv k A s)
    (hn : NoFlush ops) (hacc : Account ops k A) (hr : run s ops = some s') : TipInv k A s' := by
  induction ops generalizing s with
  | nil => simp only [Pool.run, Option.some.injEq] at hr; subst hr; exact ht
  | cons op ops ih =>
    simp only [Pool.run] at hr
    split at hr
    · cases hr
    · rename_i s1 h1
      refine ih (g.step h1) (ht.step g (fun hs n h => hn hs n (by rw [h]; simp)) ?_ h1)
        (fun hs n h => hn hs n (List.mem_cons_of_mem _ h))
        (fun t c d h => hacc t c d (List.mem_cons_of_mem _ h)) hr
      intro t c d h
      simp only [List.mem_singleton] at h
      exact hacc t c d (by rw [← h]; simp)

/-! ## C17 -/

/-- In a packaging with a limit that does not cut anything off, the ordinary hashes are those of the
packageable entries of the queues. -/
theorem mem_ordinary {s s' : Pool} (g : Good s) {limit : Nat} {st : Sorter} {r : Packed}
    (hp : package s limit st = some (s', r)) (hl : s'.real.length ≤ limit) {h : Nat} :
    h ∈ r.ordinary ↔ ∃ k n p, Mem s'.pending k n p ∧ s'.heap.pkg p = true ∧ (s'.heap.tx p).hash = h := by
  obtain ⟨g', sm, co', sh, hsh, hcount, hhash⟩ := g.package hp
  simp only at g' sm co' hcount hhash
  have hord : r.ordinary = (s'.real.filter (fun p => !s'.heap.drp p)).map (fun p => (s'.heap.tx p).hash) := by
    unfold Packed.ordinary; rw [hhash, hcount, List.drop_left]
    rw [List.take_of_length_le]
    rw [List.length_map]
    exact Nat.le_trans (List.length_filter_le _ _) hl
  rw [hord, List.mem_map]
  constructor
  · rintro ⟨p, hp, rfl⟩
    obtain ⟨hp1, hp2⟩ := List.mem_filter.1 hp
    obtain ⟨a, b, c⟩ := g'.inv.realOk p hp1
    rcases c with c | c
    · simp [c] at hp2
    · exact ⟨_, _, p, c, b, rfl⟩
  · rintro ⟨k, n, p, hm, hk, rfl⟩
    refine ⟨p, List.mem_filter.2 ⟨g'.inv.pkgReal k n p hm hk, ?_⟩, rfl⟩
    simp [(g'.inv.pend k n p hm).2.2.1]

theorem getByHash_of_mem {s : Pool} (g : Good s) {k n p : Nat} (hm : Mem s.pending k n p) :
    getByHash s (s.heap.tx p).hash = some (s.heap.tx p) ∧ (s.heap.tx p).sender = k ∧ (s.heap.tx p).nonce = n := by
  obtain ⟨a, b, _, d⟩ := g.inv.pend k n p hm
  refine ⟨?_, a, b⟩
  unfold getByHash
  rw [find_of_mem g.inv d]

/-- Histories of insertions, packagings and background rounds, in any order of arrival, for every sender
`k` whose insertions were authorised against the account nonce `A`: the nonces of `k` that can be packaged
form an interval starting at `A`. -/
theorem C17_gapless_partial {cap gap : Nat} (hc : 0 < cap) {ops : List Op} {s s' : Pool} {k A : Nat}
    (hn : NoFlush ops) (hacc : Account ops k A) (hrun : run (init cap gap) ops = some s)
    {limit : Nat} {st : Sorter} {r : Packed} (hp : package s limit st = some (s', r))
    (hl : s'.real.length ≤ limit) {h : Nat} (hh : h ∈ r.ordinary) {t : PoolTx}
    (ht : getByHash s' h = some t) (hk : t.sender = k) :
    A ≤ t.nonce ∧ ∀ m, A ≤ m → m < t.nonce →
      ∃ h' ∈ r.ordinary, ∃ t', getByHash s' h' = some t' ∧ t'.sender = k ∧ t'.nonce = m := by
  have g := good_run hc hrun
  have g' := (g.package hp).1
  simp only at g'
  have hstep : step s (.package limit st) = some s' := by simp [step, hp]
  have gi : GapInv s' := (GapInv.run (Good.init hc gap) (GapInv.init cap gap) hn hrun).step g (by simp) hstep
  have ti : TipInv k A s' := by
    refine (TipInv.run (Good.init hc gap) ?_ hn hacc hrun).step g (by simp) ?_ hstep
    · constructor <;> simp [init]
    · intro t c d h; simp at h
  obtain ⟨k1, n, p, hm, hpk, rfl⟩ := (mem_ordinary g hp hl).1 hh
  obtain ⟨e1, e2, e3⟩ := getByHash_of_mem g' hm
  rw [e1] at ht; cases ht
  rw [hk] at e2; subst e2
  obtain ⟨q, hq, hmem⟩ := hm
  obtain ⟨t1, t2, t3⟩ := ti.q q hq
  have gl := gi k q hq
  have hcur := t2 (fun h => by rw [h] at hmem; simp at hmem)
  refine ⟨by rw [e3]; exact t3 n p hmem, ?_⟩
  intro m hm1 hm2
  have hnp : n < q.pop := by
    apply Nat.lt_of_not_le
    intro hle
    rw [gl.above n p hmem hle] at hpk; cases hpk
  obtain ⟨p', hp', hk'⟩ := gl.below m (by omega) (by omega)
  have hM : Mem s'.pending k m p' := ⟨q, hq, hp'⟩
  obtain ⟨f1, f2, f3⟩ := getByHash_of_mem g' hM
  exact ⟨_, (mem_ordinary g hp hl).2 ⟨k, m, p', hM, hk', rfl⟩, _, f1, f2, f3⟩

/-- The interval is as long as possible: a transaction that holds a place in its sender's queue is
packaged if and only if every nonce from the account nonce on is present. -/
theorem C17_maximal_partial {cap gap : Nat} (hc : 0 < cap) {ops : List Op} {s s' : Pool}
    (hn : NoFlush ops) (hrun : run (init cap gap) ops = some s)
    {limit : Nat} {st : Sorter} {r : Packed} (hp : package s limit st = some (s', r))
    (hl : s'.real.length ≤ limit) {k n p : Nat} {q : PQ} (hq : s'.pending k = some q) (hm : (n, p) ∈ q.queue)
    (hcur : q.cur ≤ n) :
    (s'.heap.tx p).hash ∈ r.ordinary ↔ ∀ m, q.cur ≤ m → m ≤ n → ∃ p', (m, p') ∈ q.queue := by
  have g := good_run hc hrun
  have g' := (g.package hp).1
  simp only at g'
  have hstep : step s (.package limit st) = some s' := by simp [step, hp]
  have gi : GapInv s' := (GapInv.run (Good.init hc gap) (GapInv.init cap gap) hn hrun).step g (by simp) hstep
  have gl := gi k q hq
  rw [mem_ordinary g hp hl]
  constructor
  · rintro ⟨k1, n1, p1, hm1, hk1, he⟩ m h1 h2
    have hpp : p1 = p := by
      have a1 := (g'.inv.pend _ _ _ hm1).2.2.2
      have a2 := (g'.inv.pend _ _ _ ⟨q, hq, hm⟩).2.2.2
      exact live_hashes_nodup.hash_inj g'.inv.mapHash a1 a2 he
    subst hpp
    have hnp : n < q.pop := by
      apply Nat.lt_of_not_le
      intro hle
      rw [gl.above n p1 hm hle] at hk1; cases hk1
    obtain ⟨p', hp', _⟩ := gl.below m h1 (by omega)
    exact ⟨p', hp'⟩
  · intro hall
    have hnp : n < q.pop := by
      apply Nat.lt_of_not_le
      intro hle
      obtain ⟨p', hp'⟩ := hall q.pop gl.le hle
      exact gl.stop p' hp'
    obtain ⟨p', hp', hk'⟩ := gl.below n hcur hnp
    have : p' = p := (g'.inv.sorted k q hq).unique hp' hm
    subst this
    exact ⟨k, n, p', ⟨q, hq, hm⟩, hk', rfl⟩

/-- Expiry tears holes: nonces 0 and 1 of sender 1 are packageable, nonce 0 was seen one block earlier and
expires at block 3; nonce 1 is still packaged, and stays so alone. -/
theorem C17_expiry_false :
    ((run (init 10 2) [.insert ⟨1, 1, 0, 5, 0⟩ true 0, .flush [] 1, .insert ⟨2, 1, 1, 5, 0⟩ true 1,
        .flush [] 2, .flush [] 3]).bind fun s =>
      (package s 9 ⟨fun _ l => l, fun _ l => List.Perm.refl l⟩).map fun r => r.2.hashes) = some [2] := by
  decide +kernel

/-- After that even a new transaction with nonce 0 is never packaged: the queue holds nonces 0 and 1,
the account nonce is 0, and only nonce 1 is packaged. -/
theorem C17_hole_stays_false :
    ((run (init 10 2) [.insert ⟨1, 1, 0, 5, 0⟩ true 0, .flush [] 1, .insert ⟨2, 1, 1, 5, 0⟩ true 1,
        .flush [] 2, .flush [] 3, .insert ⟨3, 1, 0, 5, 0⟩ true 0]).bind fun s =>
      (package s 9 ⟨fun _ l => l, fun _ l => List.Perm.refl l⟩).map fun r =>
        (r.2.hashes, (find r.1 3).isSome, r.1.heap.drp 2)) = some ([2], true, false) := by
  decide +kernel

/-- A block that fills the hole does not wake up what waits behind it: nonces 1 and 2 wait for nonce 0,
a block commits nonces 0 (unknown here, hash 9) and 1; nonce 2 is executable but not packaged. -/
theorem C17_not_woken_false :
    ((run (init 10 20) [.insert ⟨1, 1, 1, 5, 0⟩ true 1, .insert ⟨2, 1, 2, 5, 0⟩ true 2, .refresh,
        .flush [9, 1] 1, .refresh]).bind fun s =>
      (package s 9 ⟨fun _ l => l, fun _ l => List.Perm.refl l⟩).map fun r =>
        (r.2.hashes, (find r.1 2).isSome, (r.1.pending 1).map (·.cur))) = some ([], true, some 2) := by
  decide +kernel

/-- Non-vacuity of `C17_gapless_partial`: nonces arrive as 7, 5, 9, 6 with account nonce 5. -/
example : NoFlush [.insert ⟨1, 1, 7, 5, 0⟩ true 2, .insert ⟨2, 1, 5, 5, 0⟩ true 0,
      .insert ⟨3, 1, 9, 5, 0⟩ true 4, .insert ⟨4, 1, 6, 5, 0⟩ true 1] ∧
    Account [.insert ⟨1, 1, 7, 5, 0⟩ true 2, .insert ⟨2, 1, 5, 5, 0⟩ true 0,
      .insert ⟨3, 1, 9, 5, 0⟩ true 4, .insert ⟨4, 1, 6, 5, 0⟩ true 1] 1 5 ∧
    ((run (init 10 20) [.insert ⟨1, 1, 7, 5, 0⟩ true 2, .insert ⟨2, 1, 5, 5, 0⟩ true 0,
      .insert ⟨3, 1, 9, 5, 0⟩ true 4, .insert ⟨4, 1, 6, 5, 0⟩ true 1]).bind fun s =>
      (package s 9 ⟨fun _ l => l, fun _ l => List.Perm.refl l⟩).map fun r =>
        (r.2.hashes, r.1.real.length)) = some ([2, 4, 1], 3) := by
  refine ⟨by intro hs n h; simp at h, ?_, by decide +kernel⟩
  intro t c d h _
  simp at h
  rcases h with ⟨rfl, _, rfl⟩ | ⟨rfl, _, rfl⟩ | ⟨rfl, _, rfl⟩ | ⟨rfl, _, rfl⟩ <;> rfl

end Axon.Pool
