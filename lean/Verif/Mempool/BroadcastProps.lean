import Verif.Mempool.Broadcast

/-!
# C118: how new transactions spread

Specification: `handed`, the transactions that were let into the pool with their origins, read off the answers.
-/

namespace Axon.Broadcast

variable {τ : Type} [DecidableEq τ]

/-- The answers of a run, with what was asked. -/
def answers (size : Nat) (s : Node τ) : List (Event τ) → List (Req τ × Answer)
  | [] => []
  | .insert r :: es => (r, (insert s r).2) :: answers size (step size s (.insert r)) es
  | e :: es => answers size (step size s e) es

/-- Let into the pool: answered with success, or with an error of something else. -/
def handed (size : Nat) (es : List (Event τ)) : List (Origin × τ) :=
  ((answers size {} es).filter fun a => a.2 = .ok ∨ a.2 = .blamed).map fun a => (a.1.origin, a.1.tx)

theorem answers_append (size : Nat) (s : Node τ) (es fs : List (Event τ)) :
    answers size s (es ++ fs) = answers size s es ++ answers size (run size s es) fs := by
  induction es generalizing s with
  | nil => rfl
  | cons e es ih => cases e <;> simp [answers, ih, run]

theorem run_append (size : Nat) (s : Node τ) (es fs : List (Event τ)) :
    run size s (es ++ fs) = run size (run size s es) fs := by simp [run]

theorem handed_append (size : Nat) (es : List (Event τ)) (e : Event τ) :
    handed size (es ++ [e]) = handed size es ++
      match e with
      | .insert r => if (insert (run size {} es) r).2 = .ok ∨ (insert (run size {} es) r).2 = .blamed
          then [(r.origin, r.tx)] else []
      | _ => [] := by
  unfold handed
  rw [answers_append, List.filter_append, List.map_append]
  congr 1
  cases e with
  | insert r =>
    simp only [answers, List.filter_cons, List.filter_nil]
    split <;> simp_all
  | commit => rfl
  | evict => rfl
  | recv => rfl
  | tick => rfl

/-- Insertion changes the pool and the channel when the answer says so, and nothing otherwise. -/
theorem insert_cases (s : Node τ) (r : Req τ) :
    ((insert s r).2 ≠ .ok ∧ (insert s r).2 ≠ .blamed ∧ (insert s r).1 = s) ∨
    (((insert s r).2 = .ok ∨ (insert s r).2 = .blamed) ∧ r.tx ∉ s.pool ∧ r.tx ∉ s.stored ∧
      (insert s r).1.pool = s.pool ++ [r.tx] ∧ (insert s r).1.stored = s.stored ∧
      (insert s r).1.chan = s.chan ++ [(r.origin, r.tx)] ∧ (insert s r).1.cache = s.cache ∧
      (insert s r).1.calls = s.calls ∧ (insert s r).1.errs + (if (insert s r).2 = .blamed then 1 else 0) = s.errs) := by
  unfold insert
  by_cases h1 : r.full = true
  · rw [if_pos h1]; simp
  rw [if_neg h1]
  by_cases h2 : r.tx ∈ s.pool
  · rw [if_pos h2]; simp
  rw [if_neg h2]
  by_cases h3 : (!r.checks) = true
  · rw [if_pos h3]; simp
  rw [if_neg h3]
  by_cases h4 : r.tx ∈ s.stored
  · rw [if_pos h4]; simp
  rw [if_neg h4]
  by_cases h5 : (!r.room) = true
  · rw [if_pos h5]; simp
  rw [if_neg h5]
  dsimp only
  right
  by_cases h6 : (!r.locked && decide (0 < s.errs)) = true
  · rw [if_pos h6]
    simp only [Bool.and_eq_true, decide_eq_true_eq] at h6
    refine ⟨.inr rfl, h2, h4, rfl, rfl, rfl, rfl, rfl, ?_⟩
    simp only [if_true]
    omega
  · rw [if_neg h6]
    exact ⟨.inl rfl, h2, h4, rfl, rfl, rfl, rfl, rfl, rfl⟩

theorem insert_count (s : Node τ) (r : Req τ) :
    (insert s r).1.errs + (if (insert s r).2 = .blamed then 1 else 0) = s.errs := by
  rcases insert_cases s r with ⟨_, h, e⟩ | ⟨_, _, _, _, _, _, _, _, h⟩
  · rw [if_neg h, e]; rfl
  · exact h

/-- Keys of the cache are distinct. -/
theorem keys_run (size : Nat) (es : List (Event τ)) : ((run size {} es).cache.map (·.1)).Nodup := by
  suffices ∀ s : Node τ, (s.cache.map (·.1)).Nodup → ((run size s es).cache.map (·.1)).Nodup from this {} (by simp)
  induction es with
  | nil => intro s h; exact h
  | cons e es ih =>
    intro s h
    refine ih _ ?_
    cases e with
    | insert r =>
      rcases insert_cases s r with ⟨_, _, e⟩ | ⟨_, _, _, _, _, _, e, _⟩
      · rw [step, e]; exact h
      · rw [step, e]; exact h
    | commit => exact h
    | evict => exact h
    | recv ord net =>
      simp only [step]
      split
      · exact h
      · split
        · simp [doBroadcast]
        · exact (keys_push _ _ _ h).1
    | tick ord net => simp [step, doBroadcast]

/-- Whatever was let into the pool is, by origin and in order, in calls of `gossip`, then in the cache, then in the
channel: nothing is lost, repeated, reordered or given another origin. -/
theorem C118_exactly_once (size : Nat) (es : List (Event τ)) (hv : ∀ e ∈ es, e.Valid) (o : Origin) :
    queued (handed size es) o = gossiped (run size {} es).calls o ++ cached (run size {} es).cache o ++
      queued (run size {} es).chan o := by
  induction es using snoc_induction with
  | nil => rfl
  | snoc es e ih =>
    have ih := ih fun x hx => hv x (by simp [hx])
    have he := hv e (by simp)
    have hk := keys_run size es
    rw [handed_append, run_append]
    generalize run size {} es = s at ih hk ⊢
    have hq : ∀ (a b : List (Origin × τ)), queued (a ++ b) o = queued a o ++ queued b o := by
      intro a b; simp [queued]
    show queued _ o = gossiped (step size s e).calls o ++ cached (step size s e).cache o ++ queued (step size s e).chan o
    cases e with
    | insert r =>
      simp only [step]
      rcases insert_cases s r with ⟨h1, h2, h3⟩ | ⟨h1, _, _, _, _, h2, h3, h4, _⟩
      · rw [h3, if_neg (by simp [h1, h2]), List.append_nil, ih]
      · rw [if_pos h1, h2, h3, h4, hq, hq, ih]; simp
    | commit => simp only [step, List.append_nil]; exact ih
    | evict => simp only [step, List.append_nil]; exact ih
    | recv ord net =>
      simp only [step, List.append_nil]
      split
      · exact ih
      next o' t rest hc =>
        rw [ih, hc]
        have hx : queued ((o', t) :: rest) o = (if o' = o then [t] else []) ++ queued rest o := by
          unfold queued
          by_cases ho : o' = o <;> simp [ho]
        split
        · rw [gossiped_broadcast _ ord net he (keys_push _ _ _ hk).1]
          dsimp only
          rw [cached_push _ _ _ _ hk, hx]
          simp [doBroadcast, cached, List.append_assoc]
        · dsimp only
          rw [cached_push _ _ _ _ hk, hx]
          simp [List.append_assoc]
    | tick ord net =>
      simp only [step, List.append_nil]
      rw [gossiped_broadcast _ ord net he hk, ih]
      simp [doBroadcast, cached]

/-- Once the channel is empty, the next tick leaves nothing behind. -/
theorem C118_tick (size : Nat) (es : List (Event τ)) (hv : ∀ e ∈ es, e.Valid)
    (ord : List (Entry τ) → List (Entry τ)) (net : Entry τ → Bool) (ho : ∀ c, (ord c).Perm c)
    (hc : (run size {} es).chan = []) (o : Origin) :
    gossiped (run size {} (es ++ [.tick ord net])).calls o = queued (handed size es) o := by
  rw [C118_exactly_once size es hv, run_append]
  show gossiped (doBroadcast _ ord net).calls o = _
  rw [gossiped_broadcast _ ord net ho (keys_run size es), hc]
  simp [queued]

/-- The spec of a transaction that stays: never evicted. -/
def Keeps : Event τ → Prop
  | .evict _ => False
  | _ => True

/-- A transaction is let in, and so relayed, at most once, unless it is evicted in between. -/
theorem C118_relayed_once (size : Nat) (es : List (Event τ)) (hk : ∀ e ∈ es, Keeps e) :
    ((handed size es).map (·.2)).Nodup := by
  suffices ((handed size es).map (·.2)).Nodup ∧
      ∀ t ∈ (handed size es).map (·.2), t ∈ (run size {} es).pool ∨ t ∈ (run size {} es).stored from this.1
  induction es using snoc_induction with
  | nil => exact ⟨by simp [handed, answers], by simp [handed, answers]⟩
  | snoc es e ih =>
    obtain ⟨ih1, ih2⟩ := ih fun x hx => hk x (by simp [hx])
    have he := hk e (by simp)
    rw [handed_append, run_append]
    generalize run size {} es = s at ih2 ⊢
    show _ ∧ ∀ t ∈ _, t ∈ (step size s e).pool ∨ t ∈ (step size s e).stored
    cases e with
    | insert r =>
      simp only [step]
      rcases insert_cases s r with ⟨h1, h2, h3⟩ | ⟨h1, hp, hs, h2, h3, _⟩
      · rw [h3, if_neg (by simp [h1, h2]), List.append_nil]
        exact ⟨ih1, ih2⟩
      · rw [if_pos h1, h2, h3, List.map_append]
        refine ⟨?_, fun t ht => ?_⟩
        · rw [List.nodup_append]
          refine ⟨ih1, by simp, fun a ha b hb hab => ?_⟩
          simp only [List.map_cons, List.map_nil, List.mem_singleton] at hb
          rw [hab, hb] at ha
          rcases ih2 _ ha with h | h
          · exact hp h
          · exact hs h
        · rcases List.mem_append.1 ht with ht | ht
          · rcases ih2 t ht with h | h
            · exact .inl (by simp [h])
            · exact .inr h
          · simp at ht; subst ht; exact .inl (by simp)
    | commit txs =>
      simp only [step, List.append_nil]
      refine ⟨ih1, fun t ht => ?_⟩
      rcases ih2 t ht with h | h
      · by_cases hm : t ∈ txs
        · exact .inr (by simp [hm])
        · exact .inl (by simp [h, hm])
      · exact .inr (by simp [h])
    | evict txs => exact he.elim
    | recv ord net =>
      simp only [step, List.append_nil]
      refine ⟨ih1, fun t ht => ?_⟩
      split
      · exact ih2 t ht
      · split <;> exact ih2 t ht
    | tick ord net =>
      simp only [step, List.append_nil]
      exact ⟨ih1, ih2⟩

/-- With a batch size of at least one, no batch is larger. -/
theorem C118_batch_partial (size : Nat) (hs : 0 < size) (es : List (Event τ)) (hv : ∀ e ∈ es, e.Valid) :
    ∀ c ∈ (run size {} es).calls, c.txs.length ≤ size := by
  suffices total (run size {} es).cache < size ∧ ∀ c ∈ (run size {} es).calls, c.txs.length ≤ size from this.2
  have member : ∀ (c : List (Entry τ)) (e : Entry τ), e ∈ c → e.2.length ≤ total c := by
    intro c
    induction c with
    | nil => simp
    | cons x c ih =>
      intro e he
      simp only [total, List.map_cons, List.sum_cons]
      rcases List.mem_cons.1 he with rfl | he
      · omega
      · have := ih e he
        unfold total at this; omega
  have bc : ∀ (s : Node τ) (ord : List (Entry τ) → List (Entry τ)) (net : Entry τ → Bool), (∀ c, (ord c).Perm c) →
      total s.cache ≤ size → (∀ c ∈ s.calls, c.txs.length ≤ size) →
      total (doBroadcast s ord net).cache < size ∧ ∀ c ∈ (doBroadcast s ord net).calls, c.txs.length ≤ size := by
    intro s ord net ho ht hc
    refine ⟨by simp [doBroadcast, total, hs], fun c hm => ?_⟩
    simp only [doBroadcast, List.mem_append, List.mem_map] at hm
    rcases hm with hm | ⟨e, he, rfl⟩
    · exact hc c hm
    · exact Nat.le_trans (member _ e ((ho s.cache).mem_iff.1 he)) ht
  induction es using snoc_induction with
  | nil => exact ⟨by simp [run, total, hs], by simp [run]⟩
  | snoc es e ih =>
    obtain ⟨ih1, ih2⟩ := ih fun x hx => hv x (by simp [hx])
    have he := hv e (by simp)
    rw [run_append]
    generalize run size {} es = s at ih1 ih2 ⊢
    show total (step size s e).cache < size ∧ ∀ c ∈ (step size s e).calls, c.txs.length ≤ size
    cases e with
    | insert r =>
      simp only [step]
      rcases insert_cases s r with ⟨_, _, h3⟩ | ⟨_, _, _, _, _, _, h3, h4, _⟩
      · rw [h3]; exact ⟨ih1, ih2⟩
      · rw [h3, h4]; exact ⟨ih1, ih2⟩
    | commit => exact ⟨ih1, ih2⟩
    | evict => exact ⟨ih1, ih2⟩
    | recv ord net =>
      simp only [step]
      split
      · exact ⟨ih1, ih2⟩
      next o t rest hc =>
        have := total_push s.cache o t
        split
        · exact bc _ ord net he (by dsimp only; omega) ih2
        · exact ⟨by dsimp only; omega, ih2⟩
    | tick ord net => exact bc s ord net he (by omega) ih2

/-- The batch of `n` transactions and the tick. -/
def flood (n : Nat) : List (Event Nat) :=
  (List.range n).map (fun i => .insert { origin := none, tx := i }) ++
    List.replicate n (.recv id fun _ => true) ++ [.tick id fun _ => true]

/-- A batch size of 0 is taken as no limit at all: batches grow as long as no tick comes. -/
theorem C118_batch_false (n : Nat) (hn : 0 < n) :
    ∃ c ∈ (run 0 {} (flood n)).calls, c.txs.length = n := by
  have ins : ∀ m, (run 0 {} ((List.range m).map fun i => Event.insert { origin := none, tx := i })) =
      { pool := List.range m, chan := (List.range m).map fun i => (none, i) } := by
    intro m
    induction m with
    | zero => rfl
    | succ m ih =>
      rw [List.range_succ, List.map_append, run_append, ih]
      simp [run, step, insert]
  have rec' : ∀ (m : Nat) (q : List (Origin × Nat)) (p : List Nat) (c : List Nat),
      q = (List.range' c.length m).map (fun i => (none, i)) → 0 < c.length →
      run 0 ({ pool := p, chan := q, cache := [(none, c)] } : Node Nat)
        (List.replicate m (.recv id fun _ => true)) =
        { pool := p, chan := [], cache := [(none, c ++ List.range' c.length m)] } := by
    intro m
    induction m with
    | zero => intro q p c hq _; subst hq; simp [run]
    | succ m ih =>
      intro q p c hq hc
      subst hq
      rw [List.replicate_succ, List.range'_succ, List.map_cons]
      show run 0 (step 0 _ _) _ = _
      have h1 : ∀ q, step 0 (⟨p, [], (none, c.length) :: q, [(none, c)], 0, []⟩ : Node Nat)
          (.recv id fun _ => true) = ⟨p, [], q, [(none, c ++ [c.length])], 0, []⟩ := by
        intro q
        simp [step, push, total]
      rw [h1, ih _ p (c ++ [c.length]) (by simp) (by simp)]
      simp
  obtain ⟨m, rfl⟩ : ∃ m, n = m + 1 := ⟨n - 1, by omega⟩
  have h2 : run 0 {} (flood (m + 1)) = ⟨List.range (m + 1), [], [], [], 0, [⟨none, List.range (m + 1), true⟩]⟩ := by
    unfold flood
    rw [run_append, run_append, ins, List.replicate_succ]
    have h3 : List.range (m + 1) = 0 :: List.range' 1 m := by
      rw [List.range_eq_range', List.range'_succ]
    have h1 : run 0 ({ pool := List.range (m + 1), chan := (List.range (m + 1)).map fun i => (none, i) } : Node Nat)
        (.recv id (fun _ => true) :: List.replicate m (.recv id fun _ => true)) =
        run 0 { pool := List.range (m + 1), chan := (List.range' 1 m).map fun i => (none, i), cache := [(none, [0])] }
          (List.replicate m (.recv id fun _ => true)) := by
      show run 0 (step 0 _ _) _ = _
      congr 1
      simp [step, h3, push, total]
    rw [h1, rec' m _ _ [0] (by simp) (by simp)]
    simp only [run, List.foldl_cons, List.foldl_nil, step, doBroadcast]
    simp [h3]
  exact ⟨_, by rw [h2]; simp; rfl, by simp⟩

/-- Errors are answered at most once each, and only for calls of `gossip` that failed. -/
theorem C118_errors (size : Nat) (es : List (Event τ)) :
    ((answers size {} es).filter fun a => a.2 = .blamed).length ≤
      ((run size {} es).calls.filter fun c => !c.ok).length := by
  suffices ∀ (s : Node τ), ((answers size s es).filter fun a => a.2 = .blamed).length +
      (s.calls.filter fun c => !c.ok).length + (run size s es).errs =
      ((run size s es).calls.filter fun c => !c.ok).length + s.errs by
    have := this {}
    have h0 : ((({} : Node τ).calls).filter fun c => !c.ok).length = 0 := rfl
    have h1 : ({} : Node τ).errs = 0 := rfl
    omega
  have bc : ∀ (s : Node τ) ord net, ((doBroadcast s ord net).calls.filter fun c => !c.ok).length + s.errs =
      (s.calls.filter fun c => !c.ok).length + (doBroadcast s ord net).errs := by
    intro s ord net
    simp only [doBroadcast, List.filter_append, List.length_append]
    omega
  induction es with
  | nil => intro s; simp [answers, run]
  | cons e es ih =>
    intro s
    have ih' := ih (step size s e)
    have hr : run size s (e :: es) = run size (step size s e) es := rfl
    rw [hr]
    cases e with
    | insert r =>
      have hc := insert_count s r
      have h2 : (insert s r).1.calls = s.calls := by
        rcases insert_cases s r with ⟨_, _, h3⟩ | ⟨_, _, _, _, _, _, _, h4, _⟩
        · rw [h3]
        · exact h4
      simp only [answers, List.filter_cons]
      simp only [step] at ih' ⊢
      rw [h2] at ih'
      by_cases hb : (insert s r).2 = .blamed
      · simp only [hb, decide_true, if_true, List.length_cons] at hc ⊢
        omega
      · simp only [hb, decide_false, if_false, Bool.false_eq_true] at hc ⊢
        omega
    | commit => exact ih'
    | evict => exact ih'
    | recv ord net =>
      have hs : ((step size s (.recv ord net)).calls.filter fun c => !c.ok).length + s.errs =
          (s.calls.filter fun c => !c.ok).length + (step size s (.recv ord net)).errs := by
        simp only [step]
        split
        · rfl
        next o t rest hc =>
          split
          · exact bc ⟨s.pool, s.stored, rest, push s.cache o t, s.errs, s.calls⟩ ord net
          · rfl
      simp only [answers]
      omega
    | tick ord net =>
      have := bc s ord net
      simp only [answers]
      simp only [step] at ih' ⊢
      omega

/-! ## Failures of the network -/

/-- A batch fails; another transaction comes. -/
def failure : List (Event Nat) :=
  [.insert { origin := none, tx := 1 }, .recv id fun _ => true, .tick id fun _ => false,
   .insert { origin := some 7, tx := 2 }, .recv id fun _ => true, .tick id fun _ => true]

/-- The error of a batch is answered to the sender of another transaction, which is in the pool and is relayed;
the sender of the batch was answered with success. -/
theorem C118_blamed_false :
    (answers 200 {} failure).map (fun a => (a.1.tx, a.2)) = [(1, .ok), (2, .blamed)] ∧
    2 ∈ (run 200 {} failure).pool ∧
    (run 200 {} failure).calls = [⟨none, [1], false⟩, ⟨some 7, [2], true⟩] := by decide +kernel

/-- A batch that failed is not tried again: its transactions are never relayed, however the node goes on, unless
they are evicted and sent anew. -/
theorem C118_lost_false (size : Nat) (es fs : List (Event τ)) (hv : ∀ e ∈ es ++ fs, e.Valid)
    (hk : ∀ e ∈ es ++ fs, Keeps e) (c : Call τ) (hc : c ∈ (run size {} es).calls) (hf : c.ok = false)
    (t : τ) (ht : t ∈ c.txs) :
    ∀ d ∈ (run size {} (es ++ fs)).calls, d.ok = true → t ∉ d.txs := by
  intro d hd hok htd
  have grows : ∀ (fs : List (Event τ)) (s : Node τ), ∃ more, (run size s fs).calls = s.calls ++ more := by
    intro fs
    induction fs with
    | nil => intro s; exact ⟨[], by simp [run]⟩
    | cons e fs ih =>
      intro s
      obtain ⟨m, hm⟩ := ih (step size s e)
      have h1 : ∃ m, (step size s e).calls = s.calls ++ m := by
        cases e with
        | insert r =>
          rcases insert_cases s r with ⟨_, _, h3⟩ | ⟨_, _, _, _, _, _, _, h4, _⟩
          · exact ⟨[], by rw [step, h3]; simp⟩
          · exact ⟨[], by rw [step, h4]; simp⟩
        | commit => exact ⟨[], by simp [step]⟩
        | evict => exact ⟨[], by simp [step]⟩
        | recv ord net =>
          simp only [step]
          split
          · exact ⟨[], by simp⟩
          · split
            · exact ⟨_, rfl⟩
            · exact ⟨[], by simp⟩
        | tick ord net => exact ⟨_, rfl⟩
      obtain ⟨m', hm'⟩ := h1
      exact ⟨m' ++ m, by show (run size (step size s e) fs).calls = _; rw [hm, hm', List.append_assoc]⟩
  have hc' : c ∈ (run size {} (es ++ fs)).calls := by
    rw [run_append]
    obtain ⟨m, hm⟩ := grows fs (run size {} es)
    rw [hm]; exact List.mem_append_left _ hc
  -- occurrences of t in all the calls
  have nodup := C118_relayed_once size (es ++ fs) hk
  have once := C118_exactly_once size (es ++ fs) hv
  generalize run size {} (es ++ fs) = s at *
  generalize handed size (es ++ fs) = h at *
  have inH : ∀ e ∈ s.calls, t ∈ e.txs → (e.origin, t) ∈ h := by
    intro e he hte
    have hm : t ∈ gossiped s.calls e.origin := by
      simp only [gossiped, List.mem_flatten, List.mem_map, List.mem_filter]
      exact ⟨e.txs, ⟨e, ⟨he, by simp⟩, rfl⟩, hte⟩
    have hm2 : t ∈ queued h e.origin := by
      rw [once]; exact List.mem_append_left _ (List.mem_append_left _ hm)
    simp only [queued, List.mem_map, List.mem_filter] at hm2
    obtain ⟨x, ⟨hx, hxo⟩, rfl⟩ := hm2
    have : x.1 = e.origin := of_decide_eq_true hxo
    rw [← this]; exact hx
  have same : c.origin = d.origin := by
    have h1 := inH c hc' ht
    have h2 := inH d hd htd
    exact congrArg Prod.fst (pair_of_nodup h nodup h1 h2 rfl)
  have hn : (gossiped s.calls c.origin).Nodup := by
    have h1 : (queued h c.origin).Nodup := nodup.sublist (by
      unfold queued; exact List.filter_sublist.map _)
    rw [once] at h1
    exact (List.nodup_append.1 (List.nodup_append.1 h1).1).1
  have hne : c ≠ d := by intro h; rw [h, hok] at hf; cases hf
  exact flatten_twice (s.calls.filter (·.origin = c.origin)) hn
    (List.mem_filter.2 ⟨hc', by simp⟩) (List.mem_filter.2 ⟨hd, by simp [same]⟩) hne ht htd

/-- What was counted for a batch of transactions from the network should be its failures and its successes, but
every failure is counted as a success too. -/
theorem C118_counters_false (rs : List Bool) :
    (count rs).1 = (rs.filter (!·)).length ∧ (count rs).2 = rs.length := by
  induction rs with
  | nil => exact ⟨rfl, rfl⟩
  | cons r rs ih => cases r <;> simp [count, ih]

/-! ## Examples -/

/-- Two origins, a batch by size and one by tick, a transaction sent twice, a commit. -/
def sample : List (Event Nat) :=
  [.insert { origin := none, tx := 1 }, .insert { origin := some 7, tx := 2 }, .recv id fun _ => true,
   .recv id fun _ => true, .insert { origin := some 8, tx := 1 }, .insert { origin := some 7, tx := 3 },
   .commit [1, 2], .insert { origin := some 8, tx := 1 }, .recv List.reverse fun _ => true]

example : (∀ e ∈ sample, e.Valid) ∧ ∀ e ∈ sample, Keeps e := by
  simp [sample, Event.Valid, Keeps, List.reverse_perm]

example : handed 2 sample = [(none, 1), (some 7, 2), (some 7, 3)] ∧
    (run 2 {} sample).calls = [⟨none, [1], true⟩, ⟨some 7, [2], true⟩] ∧
    (run 2 {} sample).cache = [(some 7, [3])] ∧ (run 2 {} sample).chan = [] := by decide +kernel

example : (∀ e ∈ failure, e.Valid) ∧ (∀ e ∈ failure, Keeps e) ∧
    ∃ c ∈ (run 200 {} (failure.take 3)).calls, c.ok = false ∧ 1 ∈ c.txs := by
  refine ⟨by simp [failure, Event.Valid], by simp [failure, Keeps], ⟨none, [1], false⟩, by decide +kernel⟩

/-- An evicted transaction is relayed again when it is sent again. -/
example : (handed 2 [.insert { origin := none, tx := 1 }, .evict [1], .insert { origin := none, tx := 1 }]) =
    [(none, 1), (none, 1)] := by decide +kernel

example : count [true, false] = (1, 2) := rfl

end Axon.Broadcast
