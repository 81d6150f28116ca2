import Verif.Mempool.PoolRbf

/-!
# C18: replacement needs a strictly higher gas price
-/

namespace Axon.Pool
open Axon.Assoc

/-! ## Specification -/

/-- The transactions whose insertion the pool answered with success, in order. -/
def accepted : Pool → List Op → List PoolTx
  | _, [] => []
  | s, op :: ops =>
    match step s op with
    | none => []
    | some s' =>
      (match op with
       | .insert t c d => if (insert s t c d).map (·.2) = some .ok then [t] else []
       | _ => []) ++ accepted s' ops

/-- The first transaction with the highest price. -/
def firstMax (l : List PoolTx) : Option PoolTx :=
  l.foldl (fun best t => match best with
    | none => some t
    | some b => if b.price < t.price then some t else some b) none

/-- The transactions of sender `k` with nonce `n`. -/
def rivals (k n : Nat) (l : List PoolTx) : List PoolTx := l.filter (fun t => t.sender = k ∧ t.nonce = n)

/-- The pool stores `t` and has not dropped it. -/
def LiveTx (s : Pool) (t : PoolTx) : Prop := ∃ p ∈ s.txMap, s.heap.tx p = t ∧ s.heap.drp p = false

/-! ## Lemmas -/

theorem snocInduction {α : Type} {P : List α → Prop} (l : List α) (nil : P [])
    (append_singleton : ∀ l x, P l → P (l ++ [x])) : P l := by
  have : ∀ r : List α, P r.reverse := by
    intro r
    induction r with
    | nil => exact nil
    | cons x r ih => rw [List.reverse_cons]; exact append_singleton _ x ih
  simpa using this l.reverse

theorem firstMax_snoc (l : List PoolTx) (t : PoolTx) :
    firstMax (l ++ [t]) = match firstMax l with
      | none => some t
      | some b => if b.price < t.price then some t else some b := by
  simp [firstMax, List.foldl_append]

theorem firstMax_none {l : List PoolTx} : firstMax l = none ↔ l = [] := by
  constructor
  · intro h
    rcases List.eq_nil_or_concat l with rfl | ⟨l', t, rfl⟩
    · rfl
    · rw [List.concat_eq_append, firstMax_snoc] at h
      split at h
      · cases h
      · split at h <;> cases h
  · rintro rfl; rfl

theorem firstMax_ge {l : List PoolTx} {b t : PoolTx} (h : firstMax l = some b) (ht : t ∈ l) :
    t.price ≤ b.price := by
  induction l using snocInduction generalizing b with
  | nil => simp at ht
  | append_singleton l x ih =>
    rw [firstMax_snoc] at h
    rcases List.mem_append.1 ht with ht | ht
    · split at h
      · rename_i h0; rw [firstMax_none.1 h0] at ht; simp at ht
      · rename_i b0 h0
        have := ih h0 ht
        split at h <;> simp only [Option.some.injEq] at h <;> subst h <;> omega
    · simp only [List.mem_singleton] at ht; subst ht
      split at h
      · simp only [Option.some.injEq] at h; subst h; exact Nat.le_refl _
      · split at h <;> simp only [Option.some.injEq] at h <;> subst h <;> omega

theorem firstMax_append {l l' : List PoolTx} (h : firstMax l = firstMax l') (r : List PoolTx) :
    firstMax (l ++ r) = firstMax (l' ++ r) := by
  unfold firstMax at *
  rw [List.foldl_append, List.foldl_append, h]

/-- Offering a transaction again does not change the winner. -/
theorem firstMax_again {l : List PoolTx} {t : PoolTx} (ht : t ∈ l) : firstMax (l ++ [t]) = firstMax l := by
  rw [firstMax_snoc]
  cases h : firstMax l with
  | none => rw [firstMax_none.1 h] at ht; simp at ht
  | some b =>
    have := firstMax_ge h ht
    simp only
    rw [if_neg (by omega)]

/-- The winner is preceded by cheaper ones only and followed by none that is dearer. -/
theorem firstMax_split {a c : List PoolTx} {b : PoolTx} (ha : ∀ t ∈ a, t.price < b.price)
    (hc : ∀ t ∈ c, t.price ≤ b.price) : firstMax (a ++ b :: c) = some b := by
  have h1 : firstMax (a ++ [b]) = some b := by
    rw [firstMax_snoc]
    cases h : firstMax a with
    | none => rfl
    | some x =>
      have hx : x ∈ a := by
        have mem : ∀ (l : List PoolTx) x, firstMax l = some x → x ∈ l := by
          intro l
          induction l using snocInduction with
          | nil => intro x h; simp [firstMax] at h
          | append_singleton l y ih =>
            intro x h
            rw [firstMax_snoc] at h
            split at h
            · simp only [Option.some.injEq] at h; subst h; simp
            · rename_i b0 h0
              split at h
              · simp only [Option.some.injEq] at h; subst h; simp
              · simp only [Option.some.injEq] at h; subst h
                exact List.mem_append.2 (.inl (ih _ h0))
        exact mem a x h
      simp only
      rw [if_pos (ha x hx)]
  rw [show a ++ b :: c = (a ++ [b]) ++ c by simp]
  induction c using snocInduction with
  | nil => simpa using h1
  | append_singleton c y ih =>
    rw [← List.append_assoc, firstMax_snoc, ih (fun t ht => hc t (by simp [ht]))]
    simp only
    rw [if_neg (by have := hc y (by simp); omega)]

/-- All stored transactions in the order of insertion. -/
def txs (s : Pool) : List PoolTx := s.txMap.map s.heap.tx

theorem txs_same {s s' : Pool} (h : Same s s') : txs s' = txs s := by unfold txs; rw [h.txMap, h.tx]

theorem insertTail_txs {s : Pool} (hi : Inv s) (t : PoolTx) (d : Nat) :
    (find s t.hash = none ∧ txs (insertTail s t d) = txs s ++ [t]) ∨
    ((∃ x ∈ txs s, x.hash = t.hash) ∧ txs (insertTail s t d) = txs s) := by
  unfold Pool.insertTail
  split
  · rename_i p hf
    obtain ⟨a, b⟩ := find_some hf
    exact .inr ⟨⟨_, List.mem_map.2 ⟨p, a, rfl⟩, b⟩, rfl⟩
  · rename_i hf
    refine .inl ⟨hf, ?_⟩
    simp only [txs, List.map_append, List.map_cons, List.map_nil]
    congr 1
    · apply List.map_congr_left
      intro p hp
      have := hi.mapLt p hp
      have : p ≠ s.next := by omega
      simp [Heap.alloc, this]
    · simp [Heap.alloc]

theorem insert_txs {s : Pool} (g : Good s) {t : PoolTx} {c : Bool} {d : Nat} {r}
    (hr : insert s t c d = some r) :
    (r.2 ≠ .ok ∧ txs r.1 = txs s) ∨
    (r.2 = .ok ∧ (txs r.1 = txs s ++ [t] ∨ ((∃ x ∈ txs s, x.hash = t.hash) ∧ txs r.1 = txs s))) := by
  unfold Pool.insert at hr
  split at hr
  · simp only [Option.some.injEq] at hr; subst hr; exact .inl ⟨by simp, rfl⟩
  · right
    simp only at hr
    split at hr
    · simp only [Option.map_eq_some_iff] at hr
      obtain ⟨s2, h2, he⟩ := hr
      subst he
      obtain ⟨i2, sm, _⟩ := flushToPending_inv (g.inv.withStock (s.stock + 1)) h2
      have e : txs s2 = txs s := txs_same (s := { s with stock := s.stock + 1 }) sm
      refine ⟨rfl, ?_⟩
      have := insertTail_txs i2 t d
      rw [e] at this
      rcases this with ⟨_, h⟩ | h
      · exact .inl h
      · exact .inr h
    · simp only [Option.some.injEq] at hr; subst hr
      refine ⟨rfl, ?_⟩
      rcases insertTail_txs (g.inv.withStock (s.stock + 1)) t d with ⟨_, h⟩ | h
      · exact .inl h
      · exact .inr h

theorem rivals_append (k n : Nat) (a b : List PoolTx) : rivals k n (a ++ b) = rivals k n a ++ rivals k n b := by
  simp [rivals]

/-- The winner among the accepted transactions is the winner among the stored ones. -/
theorem accepted_winner {ops : List Op} {s s' : Pool} (g : Good s) (hn : NoFlush ops)
    (hold : ∀ x ∈ txs s, ∀ t c d, Op.insert t c d ∈ ops → x.hash = t.hash → x = t)
    (hord : ∀ t c d t' c' d', Op.insert t c d ∈ ops → Op.insert t' c' d' ∈ ops → t.hash = t'.hash → t = t')
    (hr : run s ops = some s') (k n : Nat) :
    firstMax (rivals k n (txs s ++ accepted s ops)) = firstMax (rivals k n (txs s')) := by
  induction ops generalizing s with
  | nil =>
    simp only [Pool.run, Option.some.injEq] at hr; subst hr
    simp [accepted]
  | cons op ops ih =>
    simp only [Pool.run] at hr
    split at hr
    · cases hr
    · rename_i s1 h1
      have hn' : NoFlush ops := fun hs n h => hn hs n (List.mem_cons_of_mem _ h)
      have hord' : ∀ t c d t' c' d', Op.insert t c d ∈ ops → Op.insert t' c' d' ∈ ops →
          t.hash = t'.hash → t = t' := fun t c d t' c' d' h h' =>
        hord t c d t' c' d' (List.mem_cons_of_mem _ h) (List.mem_cons_of_mem _ h')
      have hold1 : (∀ x ∈ txs s1, x ∈ txs s ∨ ∃ c d, Op.insert x c d = op) →
          ∀ x ∈ txs s1, ∀ t c d, Op.insert t c d ∈ ops → x.hash = t.hash → x = t := by
        intro h x hx t c d ht he
        rcases h x hx with h | ⟨c', d', h⟩
        · exact hold x h t c d (List.mem_cons_of_mem _ ht) he
        · exact hord x c' d' t c d (by rw [h]; simp) (List.mem_cons_of_mem _ ht) he
      have plain : txs s1 = txs s →
          (accepted s (op :: ops) = accepted s1 ops) →
          firstMax (rivals k n (txs s ++ accepted s (op :: ops))) = firstMax (rivals k n (txs s')) := by
        intro e1 e2
        rw [e2, ← e1]
        exact ih (g.step h1) hn' (hold1 (fun x hx => .inl (by rw [← e1]; exact hx))) hord' hr
      cases op with
      | insert t c d =>
        have h1' := h1
        simp only [Pool.step, Option.map_eq_some_iff] at h1
        obtain ⟨r, hins, rfl⟩ := h1
        rcases insert_txs g hins with ⟨hno, e⟩ | ⟨hok, e⟩
        · apply plain e
          simp [accepted, h1', hins, hno]
        · have hacc : accepted s (.insert t c d :: ops) = t :: accepted r.1 ops := by
            simp [accepted, h1', hins, hok]
          rw [hacc]
          rcases e with e | ⟨⟨x, hx, hxe⟩, e⟩
          · rw [← ih (g.step h1') hn' (hold1 ?_) hord' hr, e]
            · simp
            · intro x hx
              rw [e] at hx
              rcases List.mem_append.1 hx with h | h
              · exact .inl h
              · simp only [List.mem_singleton] at h; subst h; exact .inr ⟨c, d, rfl⟩
          · have hxt : x = t := hold x hx t c d (by simp) hxe
            subst hxt
            rw [← ih (g.step h1') hn' (hold1 (fun y hy => .inl (by rw [← e]; exact hy))) hord' hr, e]
            rw [show txs s ++ x :: accepted r.1 ops = (txs s ++ [x]) ++ accepted r.1 ops by simp]
            rw [rivals_append k n (txs s ++ [x]), rivals_append k n (txs s) (accepted r.1 ops)]
            apply firstMax_append
            rw [rivals_append]
            by_cases hk : x.sender = k ∧ x.nonce = n
            · have e1 : rivals k n [x] = [x] := by simp [rivals, hk]
              rw [e1]
              exact firstMax_again (List.mem_filter.2 ⟨hx, by simpa using hk⟩)
            · have e1 : rivals k n [x] = [] := by simp [rivals, hk]
              rw [e1]; simp
      | insertSys t =>
        apply plain
        · simp only [Pool.step, Option.some.injEq] at h1; subst h1; rfl
        · simp [accepted, h1]
      | package l st =>
        apply plain
        · simp only [Pool.step, Option.map_eq_some_iff] at h1
          obtain ⟨r, h, rfl⟩ := h1
          exact txs_same (g.package h).2.1
        · simp [accepted, h1]
      | refresh =>
        apply plain
        · exact txs_same (g.refresh h1).2.1
        · simp [accepted, h1]
      | flush hs m => exact absurd (by simp) (hn hs m)

theorem sorted_length_le : ∀ {l : List (Nat × Nat)} {a b : Nat}, Sorted l → (∀ e ∈ l, a ≤ e.1 ∧ e.1 < b) →
    l.length ≤ b - a := by
  intro l
  induction l with
  | nil => intro a b _ _; simp
  | cons e l ih =>
    intro a b hs hb
    have hs' := List.pairwise_cons.1 hs
    have h1 := hb e (by simp)
    have := ih (a := e.1 + 1) (b := b) hs'.2
      (fun x hx => ⟨hs'.1 x hx, (hb x (List.mem_cons_of_mem _ hx)).2⟩)
    simp only [List.length_cons]; omega

/-! ## C18 -/

/-- Who survives among the stored transactions of one sender and nonce, in terms of the final state of any history:
if the place is neither below the account nonce known to the pool nor cut off by the limit of 64 places per
sender, exactly the first of those with the highest price is alive. -/
theorem C18_state_partial {cap gap : Nat} (hc : 0 < cap) {ops : List Op} {s s' : Pool}
    (hrun : run (init cap gap) ops = some s) (hr : refresh s = some s') {k n : Nat}
    (hq : ∀ q, s'.pending k = some q → q.cur ≤ n ∧ q.queue.length ≤ 64) (t : PoolTx) :
    (LiveTx s' t ∧ t.sender = k ∧ t.nonce = n) ↔ firstMax (rivals k n (txs s')) = some t := by
  have g := good_run hc hrun
  obtain ⟨g', _, hco⟩ := g.refresh hr
  have rb : RbfInv s' := RbfInv.run (ops := [.refresh]) g (RbfInv.run (Good.init hc gap) (RbfInv.init cap gap) hrun)
    (by simp only [Pool.run, Pool.step, hr])
  -- every stored rival is the holder of the place or loses against it
  have hold : ∀ p ∈ s'.txMap, (s'.heap.tx p).sender = k → (s'.heap.tx p).nonce = n →
      ∃ b, Mem s'.pending k n b ∧ (s'.heap.tx p).price ≤ (s'.heap.tx b).price ∧
        ((s'.heap.tx p).price = (s'.heap.tx b).price → b ≤ p) := by
    intro p hp h1 h2
    rcases g'.inv.mapCases p hp with h | h | h
    · rw [hco] at h; simp at h
    · rcases rb.beaten p hp h with ⟨b, a1, a2, a3⟩ | ⟨q, a1, a2⟩
      · rw [h1, h2] at a1; exact ⟨b, a1, a2, fun h => Nat.le_of_lt (a3 h)⟩
      · rw [h1] at a1; have := hq q a1; omega
    · unfold Here at h; rw [h1, h2] at h
      exact ⟨p, h, Nat.le_refl _, fun _ => Nat.le_refl _⟩
  have uniq : ∀ b b', Mem s'.pending k n b → Mem s'.pending k n b' → b = b' := by
    rintro b b' ⟨q, h1, h2⟩ ⟨q', h1', h2'⟩
    rw [h1] at h1'; cases h1'
    exact (g'.inv.sorted k q h1).unique h2 h2'
  -- the holder is the winner
  have win : ∀ b, Mem s'.pending k n b → firstMax (rivals k n (txs s')) = some (s'.heap.tx b) := by
    intro b hb
    obtain ⟨b1, b2, b3, b4⟩ := g'.inv.pend k n b hb
    obtain ⟨a, c, hac⟩ := List.append_of_mem b4
    have hpw := rb.mapSorted
    rw [hac, List.pairwise_append] at hpw
    have hpc := List.pairwise_cons.1 hpw.2.1
    have : rivals k n (txs s') = rivals k n (a.map s'.heap.tx) ++ s'.heap.tx b :: rivals k n (c.map s'.heap.tx) := by
      simp [txs, hac, rivals, b1, b2]
    rw [this]
    have key : ∀ x ∈ s'.txMap, (s'.heap.tx x).sender = k ∧ (s'.heap.tx x).nonce = n →
        (s'.heap.tx x).price ≤ (s'.heap.tx b).price ∧ ((s'.heap.tx x).price = (s'.heap.tx b).price → b ≤ x) := by
      intro x hx ⟨e1, e2⟩
      obtain ⟨b', h1, h2, h3⟩ := hold x hx e1 e2
      rw [uniq b' b h1 hb] at h2 h3
      exact ⟨h2, h3⟩
    apply firstMax_split
    · intro y hy
      obtain ⟨hy, hk⟩ := List.mem_filter.1 hy
      obtain ⟨x, hx, rfl⟩ := List.mem_map.1 hy
      have h1 := key x (by rw [hac]; simp [hx]) (by simpa using hk)
      have h2 := hpw.2.2 x hx b (by simp)
      by_cases he : (s'.heap.tx x).price = (s'.heap.tx b).price
      · have := h1.2 he; omega
      · omega
    · intro y hy
      obtain ⟨hy, hk⟩ := List.mem_filter.1 hy
      obtain ⟨x, hx, rfl⟩ := List.mem_map.1 hy
      exact (key x (by rw [hac]; simp [hx]) (by simpa using hk)).1
  constructor
  · rintro ⟨⟨p, hp, rfl, hd⟩, h1, h2⟩
    rcases g'.inv.mapCases p hp with h | h | h
    · rw [hco] at h; simp at h
    · rw [hd] at h; cases h
    · unfold Here at h; rw [h1, h2] at h; exact win p h
  · intro h
    have hne : ∃ x, x ∈ rivals k n (txs s') := by
      cases hl : rivals k n (txs s') with
      | nil => rw [hl] at h; simp [firstMax] at h
      | cons x l => exact ⟨x, by simp⟩
    obtain ⟨x, hx⟩ := hne
    obtain ⟨hx, hk⟩ := List.mem_filter.1 hx
    obtain ⟨p, hp, rfl⟩ := List.mem_map.1 hx
    simp only [decide_eq_true_eq] at hk
    obtain ⟨b, hb, _⟩ := hold p hp hk.1 hk.2
    rw [win b hb] at h
    obtain ⟨b1, b2, b3, b4⟩ := g'.inv.pend k n b hb
    cases h
    exact ⟨⟨b, b4, rfl, b3⟩, b1, b2⟩

/-- In every history without flush, for every sender that was authorised against account nonce `A` and
stays within 64 nonces of it: among the accepted transactions with this sender and nonce exactly one is
alive, namely the first with the highest price. -/
theorem C18_first_highest_partial {cap gap : Nat} (hc : 0 < cap) {ops : List Op} {s s' : Pool} {k A : Nat}
    (hn : NoFlush ops) (hcons : Consistent ops) (hacc : Account ops k A)
    (h64 : ∀ t c d, Op.insert t c d ∈ ops → t.sender = k → t.nonce < A + 64)
    (hrun : run (init cap gap) ops = some s) (hr : refresh s = some s') {n : Nat} (hA : A ≤ n) (t : PoolTx) :
    (LiveTx s' t ∧ t.sender = k ∧ t.nonce = n) ↔
      firstMax (rivals k n (accepted (init cap gap) ops)) = some t := by
  have g := good_run hc hrun
  obtain ⟨g', sm, hco⟩ := g.refresh hr
  have ti : TipInv k A s' := by
    refine (TipInv.run (Good.init hc gap) ?_ hn hacc hrun).step g (op := .refresh) (by simp) ?_ hr
    · constructor <;> simp [init]
    · intro t c d h; simp at h
  have hw := accepted_winner (Good.init hc gap) hn (by simp [txs, init]) hcons.ord hrun k n
  rw [show txs (init cap gap) = [] from rfl, List.nil_append] at hw
  rw [hw, ← txs_same sm]
  refine C18_state_partial hc hrun hr ?_ t
  intro q hq
  obtain ⟨t1, t2, t3⟩ := ti.q q hq
  refine ⟨by omega, ?_⟩
  have := sorted_length_le (a := A) (b := A + 64) (g'.inv.sorted k q hq) (by
    rintro ⟨m, p⟩ hm
    refine ⟨t3 m p hm, ?_⟩
    obtain ⟨a, b, _, e⟩ := g'.inv.pend k m p ⟨q, hq, hm⟩
    rw [sm.txMap] at e
    rcases (run_origin (Good.init hc gap) hrun).map p e with ⟨h, _⟩ | ⟨_, c, d, h⟩
    · simp [init] at h
    · rw [← sm.tx] at h
      have := h64 _ c d h a
      simp only; omega)
  omega

/-- The transactions in contention: those offered and accepted, but after a flush only those that it left alive. -/
def contenders : Pool → List PoolTx → List Op → List PoolTx
  | _, l, [] => l
  | s, l, op :: ops =>
    match step s op with
    | none => l
    | some s' =>
      contenders s' (match op with
        | .flush _ _ => l.filter fun t => s'.txMap.any fun p => decide (s'.heap.tx p = t) && !s'.heap.drp p
        | op => l ++ accepted s [op]) ops

theorem firstMax_mem {l : List PoolTx} {x : PoolTx} (h : firstMax l = some x) : x ∈ l := by
  induction l using snocInduction generalizing x with
  | nil => simp [firstMax] at h
  | append_singleton l y ih =>
    rw [firstMax_snoc] at h
    split at h
    · simp only [Option.some.injEq] at h; subst h; simp
    · rename_i b0 h0
      split at h
      · simp only [Option.some.injEq] at h; subst h; simp
      · simp only [Option.some.injEq] at h; subst h
        exact List.mem_append.2 (.inl (ih h0))

theorem firstMax_single {l : List PoolTx} {t : PoolTx} (h1 : t ∈ l) (h2 : ∀ x ∈ l, x = t) : firstMax l = some t := by
  cases h : firstMax l with
  | none => rw [firstMax_none.1 h] at h1; cases h1
  | some x => rw [h2 x (firstMax_mem h)]

theorem accepted_sub {s : Pool} {op : Op} {t : PoolTx} (h : t ∈ accepted s [op]) : ∃ c d, op = .insert t c d := by
  unfold accepted at h
  split at h
  · cases h
  · cases op <;> simp only [accepted, List.append_nil, List.not_mem_nil] at h
    split at h
    · rw [List.mem_singleton.1 h]; exact ⟨_, _, rfl⟩
    · cases h

/-- The contenders decide every place like the stored transactions. -/
theorem contenders_spec {ops : List Op} {s s' : Pool} (g : Good s) (hb : RbfInv s) {all : List Op}
    (hall : ∀ op ∈ ops, op ∈ all) (hcons : Consistent all) (l : List PoolTx)
    (hl : ∀ x ∈ txs s, (∃ c d, Op.insert x c d ∈ all) ∧ x ∈ l)
    (hw : ∀ k n, firstMax (rivals k n l) = firstMax (rivals k n (txs s)))
    (hr : run s ops = some s') (k n : Nat) :
    firstMax (rivals k n (contenders s l ops)) = firstMax (rivals k n (txs s')) := by
  induction ops generalizing s l with
  | nil =>
    simp only [Pool.run, Option.some.injEq] at hr; subst hr
    exact hw k n
  | cons op ops ih =>
    simp only [Pool.run] at hr
    split at hr
    · cases hr
    · rename_i s1 h1
      have hb1 : RbfInv s1 := RbfInv.run (ops := [op]) g hb (by simp only [Pool.run, h1])
      have ho := (step_origin g h1).map
      simp only [contenders, h1]
      have hcase : (∃ hs m, op = .flush hs m) ∨ ∀ hs m, op ≠ .flush hs m := by
        cases op <;> simp
      rcases hcase with ⟨hs, m, rfl⟩ | hnf
      · obtain ⟨_, hco, hd⟩ := RbfInv.flush g hb h1
        have hin : ∀ x ∈ txs s1, x ∈ txs s := by
          intro x hx
          obtain ⟨p, hp, rfl⟩ := List.mem_map.1 hx
          obtain ⟨a, b, c, _, sm, _, f, _, _, rfl⟩ := flush_steps g h1
          have := ((f.map p).1 hp).1
          rw [sm.txMap] at this
          refine List.mem_map.2 ⟨p, this, ?_⟩
          simp only [f.tx, sm.tx]
        have hmem : ∀ x, x ∈ l.filter (fun t => s1.txMap.any fun p => decide (s1.heap.tx p = t) && !s1.heap.drp p) ↔
            x ∈ txs s1 := by
          intro x
          rw [List.mem_filter, List.any_eq_true]
          constructor
          · rintro ⟨_, p, hp, h⟩
            simp only [Bool.and_eq_true, decide_eq_true_eq] at h
            exact List.mem_map.2 ⟨p, hp, h.1⟩
          · intro hx
            refine ⟨(hl x (hin x hx)).2, ?_⟩
            obtain ⟨p, hp, rfl⟩ := List.mem_map.1 hx
            exact ⟨p, hp, by simp [hd p hp]⟩
        refine ih (g.step h1) hb1 (fun o h => hall o (List.mem_cons_of_mem _ h)) _ ?_ ?_ hr
        · intro x hx
          exact ⟨(hl x (hin x hx)).1, (hmem x).2 hx⟩
        · intro k n
          have uniq : ∀ x ∈ rivals k n (txs s1), ∀ y ∈ rivals k n (txs s1), x = y := by
            have here : ∀ x ∈ rivals k n (txs s1), ∃ p, s1.heap.tx p = x ∧ Mem s1.pending k n p := by
              intro x hx
              obtain ⟨hx, hk⟩ := List.mem_filter.1 hx
              obtain ⟨p, hp, rfl⟩ := List.mem_map.1 hx
              simp only [decide_eq_true_eq] at hk
              rcases (g.step h1).inv.mapCases p hp with h | h | h
              · rw [hco] at h; simp at h
              · rw [hd p hp] at h; cases h
              · unfold Here at h; rw [hk.1, hk.2] at h; exact ⟨p, rfl, h⟩
            intro x hx y hy
            obtain ⟨p, e1, q1, m1, m2⟩ := here x hx
            obtain ⟨p', e2, q2, m3, m4⟩ := here y hy
            rw [m1] at m3; cases m3
            rw [← e1, ← e2, ((g.step h1).inv.sorted k q1 m1).unique m2 m4]
          have hmem' : ∀ x, x ∈ rivals k n (l.filter (fun t => s1.txMap.any fun p => decide (s1.heap.tx p = t) && !s1.heap.drp p)) ↔
              x ∈ rivals k n (txs s1) := by
            intro x
            simp only [rivals, List.mem_filter (p := fun t : PoolTx => decide (t.sender = k ∧ t.nonce = n)), hmem]
          cases hc : rivals k n (txs s1) with
          | nil =>
            rw [hc] at hmem'
            have e : rivals k n (l.filter (fun t => s1.txMap.any fun p => decide (s1.heap.tx p = t) && !s1.heap.drp p)) = [] :=
              List.eq_nil_iff_forall_not_mem.2 (fun x hx => by have := (hmem' x).1 hx; cases this)
            rw [e]
          | cons t r =>
            have ht : t ∈ rivals k n (txs s1) := by rw [hc]; simp
            rw [← hc, firstMax_single ht (fun x hx => uniq x hx t ht)]
            exact firstMax_single ((hmem' t).2 ht) (fun x hx => uniq x ((hmem' x).1 hx) t ht)
      · have hacc := accepted_winner (ops := [op]) g (by intro hs m h; exact hnf hs m (List.mem_singleton.1 h).symm)
          (by
            intro x hx t c d ht he
            obtain ⟨c', d', h'⟩ := (hl x hx).1
            exact hcons.ord x c' d' t c d h' (hall _ (by rw [List.mem_singleton.1 ht]; simp)) he)
          (by
            intro t c d t' c' d' h h'
            exact hcons.ord t c d t' c' d' (hall _ (by rw [List.mem_singleton.1 h]; simp))
              (hall _ (by rw [List.mem_singleton.1 h']; simp)))
          (s' := s1) (by simp only [Pool.run, h1])
        have hgoal : ∀ l', l' = l ++ accepted s [op] →
            firstMax (rivals k n (contenders s1 l' ops)) = firstMax (rivals k n (txs s')) := by
          rintro _ rfl
          refine ih (g.step h1) hb1 (fun o h => hall o (List.mem_cons_of_mem _ h)) _ ?_ ?_ hr
          · intro x hx
            have old : x ∈ txs s → (∃ c d, Op.insert x c d ∈ all) ∧ x ∈ l ++ accepted s [op] :=
              fun h => ⟨(hl x h).1, List.mem_append_left _ (hl x h).2⟩
            obtain ⟨p, hp, rfl⟩ := List.mem_map.1 hx
            rcases ho p hp with ⟨h2, h3⟩ | ⟨_, c, d, h2⟩
            · refine old ?_
              rw [(step_origin g h1).tx p h3]
              exact List.mem_map.2 ⟨p, h2, rfl⟩
            · have h3 := List.mem_singleton.1 h2
              have h1' := h1
              rw [← h3] at h1'
              simp only [Pool.step, Option.map_eq_some_iff] at h1'
              obtain ⟨r, hins, hr1⟩ := h1'
              rw [← hr1] at hx old ⊢
              rw [← hr1] at hins
              rcases insert_txs g hins with ⟨_, e⟩ | ⟨hok, e | ⟨_, e⟩⟩
              · exact old (by rw [← e]; exact hx)
              · refine ⟨⟨c, d, hall _ (by rw [← h3, hr1]; simp)⟩, List.mem_append_right _ ?_⟩
                rw [← h3] at h1 ⊢
                rw [← hr1] at h1 ⊢
                simp only [accepted, h1, hins, Option.map_some, hok, if_true, List.append_nil, List.mem_singleton]
              · exact old (by rw [← e]; exact hx)
          · intro k n
            rw [rivals_append, firstMax_append (hw k n), ← rivals_append, hacc]
        cases op with
        | flush hs m => exact absurd rfl (hnf hs m)
        | insert t c d => exact hgoal _ rfl
        | insertSys t => exact hgoal _ rfl
        | package a b => exact hgoal _ rfl
        | refresh => exact hgoal _ rfl

/-- In every history, with flushes in any order: unless the place is below the account nonce known to the pool or
cut off by the limit of 64 places per sender, exactly one of the transactions in contention with this sender
and nonce is alive, namely the first with the highest price. -/
theorem C18_history_partial {cap gap : Nat} (hc : 0 < cap) {ops : List Op} {s s' : Pool} (hcons : Consistent ops)
    (hrun : run (init cap gap) ops = some s) (hr : refresh s = some s') {k n : Nat}
    (hq : ∀ q, s'.pending k = some q → q.cur ≤ n ∧ q.queue.length ≤ 64) (t : PoolTx) :
    (LiveTx s' t ∧ t.sender = k ∧ t.nonce = n) ↔
      firstMax (rivals k n (contenders (init cap gap) [] ops)) = some t := by
  rw [C18_state_partial hc hrun hr hq, txs_same ((good_run hc hrun).refresh hr).2.1,
    contenders_spec (Good.init hc gap) (RbfInv.init cap gap) (fun _ h => h) hcons [] (by simp [txs, init])
      (fun _ _ => rfl) hrun k n]

/-- Two blocks: the first commits nonce 7, the second nothing; the dearer of two transactions with nonce 8 lives on
and wins against an equally priced one that comes later. -/
def twoBlocks : List Op :=
  [.insert ⟨1, 1, 7, 5, 0⟩ true 0, .insert ⟨2, 1, 8, 5, 0⟩ true 1, .insert ⟨3, 1, 8, 6, 0⟩ true 1, .flush [1] 1,
    .flush [] 2, .insert ⟨4, 1, 8, 6, 0⟩ true 0]

example : ∃ s s', run (init 10 20) twoBlocks = some s ∧ refresh s = some s' ∧ Consistent twoBlocks ∧
    (∀ q, s'.pending 1 = some q → q.cur ≤ 8 ∧ q.queue.length ≤ 64) ∧
    contenders (init 10 20) [] twoBlocks = [⟨3, 1, 8, 6, 0⟩, ⟨4, 1, 8, 6, 0⟩] ∧ LiveTx s' ⟨3, 1, 8, 6, 0⟩ ∧
    ¬ LiveTx s' ⟨4, 1, 8, 6, 0⟩ := by
  have hcons : Consistent twoBlocks := by
    constructor <;> simp [twoBlocks] <;> grind
  obtain ⟨s, hs⟩ : ∃ s, run (init 10 20) twoBlocks = some s := ⟨_, rfl⟩
  obtain ⟨s', hs'⟩ : ∃ s', refresh s = some s' := by cases hs; exact ⟨_, rfl⟩
  have hq : ∀ q, s'.pending 1 = some q → q.cur ≤ 8 ∧ q.queue.length ≤ 64 := by
    cases hs; cases hs'
    intro q h
    cases h
    decide +kernel
  have hcont : contenders (init 10 20) [] twoBlocks = [⟨3, 1, 8, 6, 0⟩, ⟨4, 1, 8, 6, 0⟩] := by decide +kernel
  have key := C18_history_partial (by decide) hcons hs hs' (n := 8) hq
  rw [hcont] at key
  refine ⟨s, s', hs, hs', hcons, hq, hcont, ((key _).2 (by decide +kernel)).1, ?_⟩
  intro h
  have := (key _).1 ⟨h, rfl, rfl⟩
  revert this
  decide +kernel

/-- One insertion per nonce 0 … 64 fills the sender's queue; after that even a dearer transaction with
nonce 0 is dropped, although its place is held by a cheaper one. -/
def fillOps (m : Nat) : List Op := (List.range m).map fun i => .insert ⟨i, 1, i, 5, 0⟩ true i

theorem C18_full_queue_false :
    ((run (init 1000 20) (fillOps 65 ++ [.refresh, .insert ⟨1000, 1, 0, 9, 0⟩ true 0, .refresh])).map fun s =>
      ((find s 1000).map s.heap.drp, (find s 0).map s.heap.drp)) = some (some true, some false) := by
  decide +kernel

/-- Non-vacuity: four rivals, the second and the third share the highest price. -/
example : NoFlush [.insert ⟨1, 1, 7, 5, 0⟩ true 2, .insert ⟨2, 1, 7, 8, 0⟩ true 2, .refresh,
      .insert ⟨3, 1, 7, 8, 0⟩ true 2, .insert ⟨4, 1, 7, 6, 0⟩ true 2] ∧
    ((run (init 10 20) [.insert ⟨1, 1, 7, 5, 0⟩ true 2, .insert ⟨2, 1, 7, 8, 0⟩ true 2, .refresh,
      .insert ⟨3, 1, 7, 8, 0⟩ true 2, .insert ⟨4, 1, 7, 6, 0⟩ true 2, .refresh]).map fun s =>
        s.txMap.map s.heap.drp) = some [true, false, true, true] ∧
    firstMax (rivals 1 7 (accepted (init 10 20) [.insert ⟨1, 1, 7, 5, 0⟩ true 2, .insert ⟨2, 1, 7, 8, 0⟩ true 2,
      .refresh, .insert ⟨3, 1, 7, 8, 0⟩ true 2, .insert ⟨4, 1, 7, 6, 0⟩ true 2])) = some ⟨2, 1, 7, 8, 0⟩ := by
  refine ⟨by intro hs n h; simp at h, by decide +kernel, by decide +kernel⟩

end Axon.Pool
