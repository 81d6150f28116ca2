import Verif.Mempool.PoolSteps

/-!
# C87: the pending transaction count

`eth_getTransactionCount` with `pending` reports the account's nonce plus `get_tx_count_by_address`.
Wallets take it as the nonce of the next transaction.
-/

namespace Axon.Pool
open Axon.Assoc

/-! ## Specification -/

/-- A transaction of `a` with nonce `n` waits in the pool. -/
def Waiting (s : Pool) (a n : Nat) : Prop :=
  ∃ p ∈ s.txMap, (s.heap.tx p).sender = a ∧ (s.heap.tx p).nonce = n ∧ s.heap.drp p = false

/-- `m` is the first nonce from `k` on that no waiting transaction of `a` has. -/
def FirstFree (s : Pool) (a k m : Nat) : Prop :=
  k ≤ m ∧ ¬ Waiting s a m ∧ ∀ j, k ≤ j → j < m → Waiting s a j

/-! ## Lemmas -/

theorem eq_range_of_closed {l : List Nat} : ∀ {k : Nat}, l.Pairwise (· < ·) → (∀ n ∈ l, k ≤ n) →
    (∀ n ∈ l, ∀ m, k ≤ m → m < n → m ∈ l) → l = List.range' k l.length := by
  induction l with
  | nil => intros; rfl
  | cons a t ih =>
    intro k hp hk hc
    obtain ⟨ha, ht⟩ := List.pairwise_cons.1 hp
    have hak : a = k := by
      have h1 := hk a (by simp)
      rcases Nat.lt_or_eq_of_le h1 with h | h
      · rcases List.mem_cons.1 (hc a (by simp) k (Nat.le_refl _) h) with h2 | h2
        · omega
        · have := ha k h2; omega
      · exact h.symm
    subst hak
    rw [List.length_cons, List.range'_succ]
    congr 1
    refine ih ht (fun n hn => ha n hn) ?_
    intro n hn m hm hmn
    rcases List.mem_cons.1 (hc n (by simp [hn]) m (by omega) hmn) with h | h
    · omega
    · exact h

theorem eq_range_of_full {l : List Nat} : ∀ {k : Nat}, l.Pairwise (· < ·) → (∀ n ∈ l, k ≤ n) →
    (∀ j, k ≤ j → j < k + l.length → j ∈ l) → l = List.range' k l.length := by
  induction l with
  | nil => intros; rfl
  | cons a t ih =>
    intro k hp hk hf
    obtain ⟨ha, ht⟩ := List.pairwise_cons.1 hp
    have hak : a = k := by
      have h1 := hk a (by simp)
      rcases List.mem_cons.1 (hf k (Nat.le_refl _) (by simp)) with h2 | h2
      · exact h2.symm
      · have := ha k h2; omega
    subst hak
    rw [List.length_cons, List.range'_succ]
    congr 1
    refine ih ht (fun n hn => ha n hn) ?_
    intro j hj hjl
    rcases List.mem_cons.1 (hf j (by omega) (by simp only [List.length_cons]; omega)) with h | h
    · omega
    · exact h

/-- The nonces in the queue of `a`. -/
theorem count_spec {s : Pool} (hi : Inv s) (a : Nat) :
    ∃ l : List Nat, l.Pairwise (· < ·) ∧ l.length = (txCount s a).1 ∧
      (∀ n ∈ l, Waiting s a n) ∧ (s.co = [] → ∀ n, Waiting s a n → n ∈ l) := by
  cases hq : s.pending a with
  | none =>
    refine ⟨[], List.Pairwise.nil, by simp [txCount, hq], by simp, ?_⟩
    rintro hco n ⟨p, hp, hs, hn, hd⟩
    rcases hi.mapCases p hp with h | h | ⟨q, h, -⟩
    · simp [hco] at h
    · rw [hd] at h; cases h
    · rw [hs, hq] at h; cases h
  | some q =>
    have hall : ∀ e ∈ q.queue, s.heap.drp e.2 = false := fun e he =>
      (hi.pend a e.1 e.2 ⟨q, hq, he⟩).2.2.1
    have hf : q.queue.filter (fun e => !s.heap.drp e.2) = q.queue :=
      List.filter_eq_self.2 (fun e he => by simp [hall e he])
    refine ⟨q.queue.map (·.1), ?_, ?_, ?_, ?_⟩
    · exact List.pairwise_map.2 (hi.sorted a q hq)
    · simp only [txCount, hq, PQ.count, hf, List.length_map]
    · intro n hn
      obtain ⟨e, he, rfl⟩ := List.mem_map.1 hn
      obtain ⟨h1, h2, h3, h4⟩ := hi.pend a e.1 e.2 ⟨q, hq, he⟩
      exact ⟨e.2, h4, h1, h2, h3⟩
    · rintro hco n ⟨p, hp, hs, hn, hd⟩
      rcases hi.mapCases p hp with h | h | ⟨q', h, h'⟩
      · simp [hco] at h
      · rw [hd] at h; cases h
      · rw [hs, hq] at h
        cases h
        rw [hn] at h'
        exact List.mem_map.2 ⟨(n, p), h', rfl⟩

/-! ## Theorems -/

/-- **C87 (part).** In every reachable state whose insertion queue has been processed, for an account
with nonce `k`: if its waiting transactions have no nonces below `k` and leave no gap, the reported
number is the first free nonce.  Missing: gaps (`C87_gap_false`) and transactions just inserted
(`C87_queued_false`). -/
theorem C87_contiguous_partial {cap gap : Nat} (hc : 0 < cap) {ops : List Op} {s : Pool}
    (hr : run (init cap gap) ops = some s) (hco : s.co = []) (a k : Nat)
    (hk : ∀ n, Waiting s a n → k ≤ n)
    (hg : ∀ n, Waiting s a n → ∀ m, k ≤ m → m < n → Waiting s a m) :
    FirstFree s a k (k + (txCount s a).1) := by
  have hi := ((Good.init hc gap).run hr).inv
  obtain ⟨l, hl, hlen, h1, h2⟩ := count_spec hi a
  have h2 := h2 hco
  have hrange := eq_range_of_closed (k := k) hl (fun n hn => hk n (h1 n hn))
    (fun n hn m hm hmn => h2 m (hg n (h1 n hn) m hm hmn))
  have hmem : ∀ j, j ∈ l ↔ k ≤ j ∧ j < k + l.length := by
    intro j
    conv => lhs; rw [hrange, List.mem_range'_1]
  rw [← hlen]
  refine ⟨by omega, ?_, ?_⟩
  · intro hw
    have := (hmem _).1 (h2 _ hw)
    omega
  · intro j hj hjl
    exact h1 j ((hmem j).2 ⟨hj, hjl⟩)

/-- **C87, the full statement is false.** Whenever a transaction waits behind a gap, the reported
number is not the first free nonce. -/
theorem C87_gap_false {cap gap : Nat} (hc : 0 < cap) {ops : List Op} {s : Pool}
    (hr : run (init cap gap) ops = some s) (hco : s.co = []) (a k : Nat)
    (hk : ∀ n, Waiting s a n → k ≤ n) (n m : Nat) (hn : Waiting s a n) (hkm : k ≤ m) (hmn : m < n)
    (hm : ¬ Waiting s a m) : ¬ FirstFree s a k (k + (txCount s a).1) := by
  have hi := ((Good.init hc gap).run hr).inv
  obtain ⟨l, hl, hlen, h1, h2⟩ := count_spec hi a
  have h2 := h2 hco
  rintro ⟨-, h3, h4⟩
  rw [← hlen] at h3 h4
  have hrange := eq_range_of_full (k := k) hl (fun n hn => hk n (h1 n hn))
    (fun j hj hjl => h2 j (h4 j hj hjl))
  have hmem : ∀ j, j ∈ l ↔ k ≤ j ∧ j < k + l.length := by
    intro j
    conv => lhs; rw [hrange, List.mem_range'_1]
  have := (hmem n).1 (h2 n hn)
  exact hm (h1 m ((hmem m).2 ⟨hkm, by omega⟩))

/-- **C87, the full statement is false.** A transaction that has just been accepted waits but is not
counted, for the insertion queue is moved to the queues of the senders later: if it took the reported
number, this is still reported and no longer free. -/
theorem C87_queued_false {cap gap : Nat} (hc : 0 < cap) {ops : List Op} {s s' : Pool}
    (hr : run (init cap gap) ops = some s) {t : PoolTx} {d : Nat}
    (h : insert s t true d = some (s', .ok)) (hnew : find s t.hash = none) :
    (txCount s' t.sender).1 = (txCount s t.sender).1 ∧ Waiting s' t.sender t.nonce ∧
      ∀ k, t.nonce = k + (txCount s t.sender).1 →
        ¬ FirstFree s' t.sender k (k + (txCount s' t.sender).1) := by
  have hi := (good_run hc hr).inv
  have hs' : s' = insertTail { s with stock := s.stock + 1 } t d := by
    unfold insert at h
    split at h
    · simp at h
    · simp at h
      exact h.symm
  have hf : find { s with stock := s.stock + 1 } t.hash = none := hnew
  unfold insertTail at hs'
  rw [hf] at hs'
  have hcount : (txCount s' t.sender).1 = (txCount s t.sender).1 := by
    subst hs'
    simp only [txCount]
    cases hq : s.pending t.sender with
    | none => rfl
    | some q =>
      simp only [PQ.count]
      congr 1
      apply List.filter_congr
      intro e he
      have hlt := hi.mapLt _ (hi.pend _ e.1 e.2 ⟨q, hq, he⟩).2.2.2
      simp only [Heap.alloc]
      rw [if_neg (by omega)]
  have hw : Waiting s' t.sender t.nonce := by
    subst hs'
    exact ⟨s.next, by simp, by simp [Heap.alloc], by simp [Heap.alloc], by simp [Heap.alloc]⟩
  refine ⟨hcount, hw, ?_⟩
  rintro k hk ⟨-, h2, -⟩
  rw [hcount, ← hk] at h2
  exact h2 hw

/-! ## Instances -/

/-- Transactions with nonces 5 and 6 of an account with nonce 5. -/
def twoInARow : Option Pool :=
  run (init 10 5) [.insert ⟨1, 9, 5, 3, 0⟩ true 0, .insert ⟨2, 9, 6, 3, 0⟩ true 1, .refresh]

example : (twoInARow.map fun s => (txCount s 9).1) = some 2 ∧
    (twoInARow.map fun s => s.co.isEmpty) = some true := by decide +kernel

/-- Nonces 5 and 7: the reported number is 7, which is taken, and 6 is free. -/
def withGap : Option Pool :=
  run (init 10 5) [.insert ⟨1, 9, 5, 3, 0⟩ true 0, .insert ⟨2, 9, 7, 3, 0⟩ true 2, .refresh]

example : (withGap.map fun s => 5 + (txCount s 9).1) = some 7 ∧
    (withGap.map fun s => s.co.isEmpty) = some true ∧
    (withGap.map fun s => s.txMap.map fun p => (s.heap.tx p).nonce) = some [5, 7] := by decide +kernel

end Axon.Pool
