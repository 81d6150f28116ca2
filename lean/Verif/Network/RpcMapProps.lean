import Verif.Network.RpcMap

/-!
# C44: responses reach their caller at most once
-/

namespace Axon.Rpc

open Axon.Assoc

/-- Specification: the responses received in an execution, in order, with session and id. -/
def received : List Act → List (Nat × Nat × Resp)
  | [] => []
  | .receive sid rid r :: as => (sid, rid, r) :: received as
  | _ :: as => received as

/-- Specification: the sessions of the calls made in an execution, in order. -/
def made : List Act → List Nat
  | [] => []
  | .open sid :: as => sid :: made as
  | _ :: as => made as

/-! ### Auxiliary: tasks are the received responses, calls the calls made -/

theorem received_append (as bs : List Act) : received (as ++ bs) = received as ++ received bs := by
  induction as with
  | nil => rfl
  | cons a as ih => cases a <;> simp [received, ih]

theorem made_append (as bs : List Act) : made (as ++ bs) = made as ++ made bs := by
  induction as with
  | nil => rfl
  | cons a as ih => cases a <;> simp [made, ih]

/-- What is fixed about a response. -/
def Task.fixed (t : Task) : Nat × Nat × Resp := (t.sid, t.rid, t.resp)

theorem advance_fixed (s : St) (t d : Nat) :
    (get (s.advance t).tasks d).map Task.fixed = (get s.tasks d).map Task.fixed := by
  unfold St.advance
  cases hx : get s.tasks t with
  | none => rfl
  | some x =>
    dsimp only
    split
    · simp only [get_put]; split <;> simp_all [Task.fixed]
    · simp only [get_put]; split <;> simp_all [Task.fixed]
    · split
      · simp only [get_put]; split <;> simp_all [Task.fixed]
      · simp only [get_put]; split <;> simp_all [Task.fixed]
    · unfold St.send
      split
      · split
        · simp only [get_put]; split <;> simp_all [Task.fixed]
        · simp only [get_put]; split <;> simp_all [Task.fixed]
      · simp only [get_put]; split <;> simp_all [Task.fixed]
    · rfl

theorem advance_nTasks (s : St) (t : Nat) : (s.advance t).nTasks = s.nTasks := by
  unfold St.advance St.send; repeat' split
  all_goals rfl

theorem other_tasks (s : St) (a : Act) (h1 : ∀ t, a ≠ .advance t) (h2 : ∀ x y z, a ≠ .receive x y z) :
    (step s a).tasks = s.tasks ∧ (step s a).nTasks = s.nTasks := by
  cases a with
  | «open» sid => exact ⟨rfl, rfl⟩
  | register c => simp only [step, St.register]; repeat' split
                  all_goals exact ⟨rfl, rfl⟩
  | receive sid rid r => exact absurd rfl (h2 _ _ _)
  | advance t => exact absurd rfl (h1 _)
  | poll c late => simp only [step, St.poll]; repeat' split
                   all_goals exact ⟨rfl, rfl⟩
  | cancel c => simp only [step, St.cancel]; repeat' split
                all_goals exact ⟨rfl, rfl⟩
  | guard c => simp only [step, St.guard]; repeat' split
               all_goals exact ⟨rfl, rfl⟩

theorem tasks_received (as : List Act) :
    (run init as).nTasks = (received as).length ∧
    ∀ t, (get (run init as).tasks t).map Task.fixed = (received as)[t]? := by
  induction as using Axon.snoc_induction with
  | nil => simp [run, init, get_nil, received]
  | snoc as a ih =>
    obtain ⟨ih1, ih2⟩ := ih
    rw [run_append, received_append]
    by_cases h2 : ∃ x y z, a = .receive x y z
    · obtain ⟨x, y, z, rfl⟩ := h2
      constructor
      · simp [run, step, St.receive, received] at *; exact ih1
      · intro t
        change (get (put (run init as).tasks (run init as).nTasks ⟨x, y, z, .start⟩) t).map _ = _
        rw [get_put, ih1]
        by_cases ht : t = (received as).length
        · simp [ht, received, Task.fixed]
        · rw [if_neg ht, ih2]
          rcases Nat.lt_or_gt_of_ne ht with h | h
          · rw [List.getElem?_append_left h]
          · rw [List.getElem?_eq_none (by omega), List.getElem?_eq_none (by simp [received]; omega)]
    · have hr : received [a] = [] := by cases a <;> simp_all [received]
      rw [hr, List.append_nil]
      change (step (run init as) a).nTasks = _ ∧ ∀ t, (get (step (run init as) a).tasks t).map _ = _
      by_cases h1 : ∃ t, a = .advance t
      · obtain ⟨t, rfl⟩ := h1
        simp only [step]
        refine ⟨by rw [advance_nTasks, ih1], fun d => by rw [advance_fixed, ih2]⟩
      · have := other_tasks (run init as) a (fun t h => h1 ⟨t, h⟩) (fun x y z h => h2 ⟨x, y, z, h⟩)
        rw [this.1, this.2]; exact ⟨ih1, ih2⟩

/-- What is fixed about a call. -/
def Call.fixed (c : Call) : Nat × Nat := (c.sid, c.rid)

theorem fixed_put_same {calls : List (Nat × Call)} {c : Nat} {x y : Call} (hx : get calls c = some x)
    (hf : y.fixed = x.fixed) (d : Nat) :
    (get (put calls c y) d).map Call.fixed = (get calls d).map Call.fixed := by
  rw [get_put]; split <;> simp_all

theorem fixed_dropSender (calls : List (Nat × Call)) (c d : Nat) :
    (get (dropSender calls c) d).map Call.fixed = (get calls d).map Call.fixed := by
  rw [get_dropSender]; split
  · next h => subst h; cases get calls d <;> rfl
  · rfl

theorem step_calls (s : St) (a : Act) (h : ∀ sid, a ≠ .open sid) (d : Nat) :
    (step s a).nCalls = s.nCalls ∧ (get (step s a).calls d).map Call.fixed = (get s.calls d).map Call.fixed := by
  cases a with
  | «open» sid => exact absurd rfl (h _)
  | receive sid rid r => exact ⟨rfl, rfl⟩
  | register c =>
    simp only [step, St.register]
    cases hx : get s.calls c with
    | none => exact ⟨rfl, rfl⟩
    | some x =>
      dsimp only
      split
      next hp =>
        refine ⟨rfl, ?_⟩
        cases hm : get s.map x.key with
        | none => exact fixed_put_same hx (by rfl) d
        | some c' =>
          dsimp only
          have := fixed_dropSender s.calls c' c
          rw [hx] at this
          cases hy : get (dropSender s.calls c') c with
          | none => rw [hy] at this; simp at this
          | some y =>
            rw [hy] at this
            rw [fixed_put_same hy (by simpa [Call.fixed] using this.symm), fixed_dropSender]
      next => exact ⟨rfl, rfl⟩
  | advance t =>
    simp only [step, St.advance]
    cases hx : get s.tasks t with
    | none => exact ⟨rfl, rfl⟩
    | some x =>
      dsimp only
      split
      · exact ⟨rfl, rfl⟩
      · exact ⟨rfl, rfl⟩
      · split <;> exact ⟨rfl, rfl⟩
      · next c hp =>
        unfold St.send
        cases hy : get s.calls c with
        | none => exact ⟨rfl, rfl⟩
        | some y =>
          dsimp only
          split
          · exact ⟨rfl, fixed_put_same hy (by rfl) d⟩
          · exact ⟨rfl, fixed_put_same hy (by rfl) d⟩
      · exact ⟨rfl, rfl⟩
  | poll c late =>
    simp only [step, St.poll]
    cases hx : get s.calls c with
    | none => exact ⟨rfl, rfl⟩
    | some x =>
      dsimp only
      split
      · split
        · exact ⟨rfl, fixed_put_same hx (by rfl) d⟩
        · exact ⟨rfl, rfl⟩
      · exact ⟨rfl, rfl⟩
  | cancel c =>
    simp only [step, St.cancel]
    cases hx : get s.calls c with
    | none => exact ⟨rfl, rfl⟩
    | some x =>
      dsimp only
      split
      · exact ⟨rfl, fixed_put_same hx (by rfl) d⟩
      · exact ⟨rfl, rfl⟩
  | guard c =>
    simp only [step, St.guard]
    cases hx : get s.calls c with
    | none => exact ⟨rfl, rfl⟩
    | some x =>
      dsimp only
      split
      · exact ⟨rfl, fixed_put_same hx (by rfl) d⟩
      · split
        · exact ⟨rfl, fixed_put_same hx (by rfl) d⟩
        · exact ⟨rfl, by rw [fixed_dropSender]; exact fixed_put_same hx (by rfl) d⟩
      · exact ⟨rfl, rfl⟩

theorem calls_made (as : List Act) :
    (run init as).nCalls = (made as).length ∧
    ∀ c, (get (run init as).calls c).map Call.fixed = (made as)[c]?.map (fun sid => (sid, c % 2 ^ 64)) := by
  induction as using Axon.snoc_induction with
  | nil => simp [run, init, get_nil, made]
  | snoc as a ih =>
    obtain ⟨ih1, ih2⟩ := ih
    rw [run_append, made_append]
    by_cases h2 : ∃ x, a = .open x
    · obtain ⟨x, rfl⟩ := h2
      constructor
      · simp [run, step, St.open, made] at *; exact ih1
      · intro t
        change (get (put (run init as).calls (run init as).nCalls ⟨x, _, .fresh, none, false⟩) t).map _ = _
        rw [get_put, (inv_run inv_init as).next, ih1]
        by_cases ht : t = (made as).length
        · simp [ht, made, Call.fixed]
        · rw [if_neg ht, ih2]
          rcases Nat.lt_or_gt_of_ne ht with h | h
          · rw [List.getElem?_append_left h]
          · rw [List.getElem?_eq_none (by omega), List.getElem?_eq_none (by simp [made]; omega)]
    · have hr : made [a] = [] := by cases a <;> simp_all [made]
      rw [hr, List.append_nil]
      change (step (run init as) a).nCalls = _ ∧ ∀ t, (get (step (run init as) a).calls t).map _ = _
      have := step_calls (run init as) a (fun x h => h2 ⟨x, h⟩)
      exact ⟨(this 0).1.trans ih1, fun c => (this c).2.trans (ih2 c)⟩

theorem get_some_of_made {as : List Act} {c sid : Nat} (h : (made as)[c]? = some sid) :
    ∃ x, get (run init as).calls c = some x ∧ x.sid = sid ∧ x.rid = c % 2 ^ 64 := by
  have := (calls_made as).2 c
  rw [h] at this
  cases hx : get (run init as).calls c with
  | none => rw [hx] at this; simp at this
  | some x => rw [hx] at this; simp [Call.fixed] at this; exact ⟨x, rfl, this⟩

theorem lt_of_get {as : List Act} {c : Nat} {x : Call} (h : get (run init as).calls c = some x) :
    c < (made as).length := by
  rcases Nat.lt_or_ge c (made as).length with h' | h'
  · exact h'
  · rw [(inv_run inv_init as).fresh c (by rw [(calls_made as).1]; exact h')] at h; cases h

theorem key_inj {as : List Act} (hn : (made as).length ≤ 2 ^ 64) {c c' : Nat} {x x' : Call}
    (h : get (run init as).calls c = some x) (h' : get (run init as).calls c' = some x')
    (hk : x.rid = x'.rid) : c = c' := by
  have h1 := lt_of_get h
  have h2 := lt_of_get h'
  rw [(inv_run inv_init as).rid _ _ h, (inv_run inv_init as).rid _ _ h',
    Nat.mod_eq_of_lt (by omega), Nat.mod_eq_of_lt (by omega)] at hk
  exact hk

/-! ### Properties -/

/-- C44: the calls of an execution get the ids 0, 1, 2, … modulo 2^64, whatever happens in between. -/
theorem C44_ids (as : List Act) (c sid : Nat) (h : (made as)[c]? = some sid) :
    ∃ x, get (run init as).calls c = some x ∧ x.sid = sid ∧ x.rid = c % 2 ^ 64 := get_some_of_made h

/-- C44: no two of up to 2^64 calls get the same id.  Full statement: for any number of calls; false,
see `C44_wrap_false`. -/
theorem C44_fresh_ids_partial (as : List Act) (hn : (made as).length ≤ 2 ^ 64) (c c' : Nat) (x x' : Call)
    (h : get (run init as).calls c = some x) (h' : get (run init as).calls c' = some x')
    (hk : x.rid = x'.rid) : c = c' := key_inj hn h h' hk

theorem made_replicate (n sid : Nat) : made (List.replicate n (.open sid)) = List.replicate n sid := by
  induction n with
  | zero => rfl
  | succ n ih => rw [List.replicate_succ, List.replicate_succ, made, ih]

/-- C44 is false after 2^64 calls: the first id is given out again. -/
theorem C44_wrap_false : ∃ as c c' x x', get (run init as).calls c = some x ∧
    get (run init as).calls c' = some x' ∧ c ≠ c' ∧ x.key = x'.key := by
  have h0 : ∀ n c, c < n → (made (List.replicate n (.open 7)))[c]? = some 7 := by
    intro n c h; rw [made_replicate]; simp [h]
  generalize hN : 2 ^ 64 = N at *
  have hp : 0 < N := by rw [← hN]; decide +kernel
  obtain ⟨x, hx, hs, hr⟩ := get_some_of_made (h0 (N + 1) 0 (by omega))
  obtain ⟨x', hx', hs', hr'⟩ := get_some_of_made (h0 (N + 1) N (by omega))
  refine ⟨_, 0, N, x, x', hx, hx', by omega, ?_⟩
  rw [hN] at hr hr'
  simp only [Call.key, hs, hs', hr, hr', Nat.mod_self, Nat.zero_mod]

/-- C44: a call that returns a response returns one that was received on its session with its id, and no
received response is returned by two calls: call `c` returns response number `f c`. -/
theorem C44_delivered (as : List Act) : ∃ f : Nat → Nat,
    (∀ c x r, get (run init as).calls c = some x → x.phase.result = some (.got r) →
      (received as)[f c]? = some (x.sid, x.rid, r)) ∧
    (∀ c x r c' x' r', get (run init as).calls c = some x → x.phase.result = some (.got r) →
      get (run init as).calls c' = some x' → x'.phase.result = some (.got r') → f c = f c' → c = c') := by
  have hi := inv_run inv_init as
  have hex : ∀ c, ∃ t, ∀ x r, get (run init as).calls c = some x → x.slot = some r →
      ∃ y, get (run init as).tasks t = some y ∧ y.pc = .sent c := by
    intro c
    cases hx : get (run init as).calls c with
    | none => exact ⟨0, by simp⟩
    | some x =>
      cases hs : x.slot with
      | none => exact ⟨0, fun y r hy hr => by cases hy; simp [hs] at hr⟩
      | some r =>
        obtain ⟨t, y, h1, h2⟩ := hi.slot c x r hx hs
        exact ⟨t, fun _ _ _ _ => ⟨y, h1, h2⟩⟩
  refine ⟨fun c => Classical.choose (hex c), ?_, ?_⟩
  · intro c x r hx hg
    have hs := hi.got c x r hx hg
    obtain ⟨y, h1, h2⟩ := Classical.choose_spec (hex c) x r hx hs
    obtain ⟨x', hx', hk, hf, hsl⟩ := hi.sent _ _ _ h1 h2
    rw [hx] at hx'; cases hx'
    rw [← (tasks_received as).2, h1]
    simp only [Option.map_some, Task.fixed]
    simp only [Call.key, Task.key, Key.mk.injEq] at hk
    rw [hs] at hsl
    rw [hk.1, hk.2, Option.some.inj hsl]
  · intro c x r c' x' r' hx hg hx' hg' he
    obtain ⟨y, h1, h2⟩ := Classical.choose_spec (hex c) x r hx (hi.got c x r hx hg)
    obtain ⟨y', h1', h2'⟩ := Classical.choose_spec (hex c') x' r' hx' (hi.got c' x' r' hx' hg')
    dsimp only at he
    rw [he, h1'] at h1
    cases h1
    rw [h2] at h2'
    exact Pc.sent.inj h2'

/-- C44: no call is given two responses: of the responses whose processing reached call `c`, there is at
most one. -/
theorem C44_at_most_once (as : List Act) (c t t' : Nat) (y y' : Task)
    (h : get (run init as).tasks t = some y) (h' : get (run init as).tasks t' = some y')
    (hs : y.pc = .sent c) (hs' : y'.pc = .sent c) : t = t' :=
  (inv_run inv_init as).sentOnce _ _ _ _ _ h h' hs hs'

/-- C44: how a call ended does not change any more. -/
theorem C44_final (as bs : List Act) (c : Nat) (x : Call) (e : End)
    (h : get (run init as).calls c = some x) (he : x.phase.result = some e) :
    ∃ x', get (run init (as ++ bs)).calls c = some x' ∧ x'.phase.result = some e := by
  rw [run_append]
  have hi := inv_run inv_init as
  generalize run init as = s at *
  induction bs generalizing s x with
  | nil => exact ⟨x, h, he⟩
  | cons b bs ih =>
    rw [run_cons]
    have hput : ∀ (calls : List (Nat × Call)) (d : Nat) (z z' : Call), get calls d = some z →
        (∀ e, z.phase.result = some e → z'.phase.result = some e) →
        (∃ y, get calls c = some y ∧ y.phase.result = some e) →
        ∃ y, get (put calls d z') c = some y ∧ y.phase.result = some e := by
      intro calls d z z' hz hzz ⟨y, hy, hye⟩
      rw [get_put]
      by_cases hd : c = d
      · subst hd; rw [hz] at hy; cases hy; exact ⟨z', by simp, hzz _ hye⟩
      · rw [if_neg hd]; exact ⟨y, hy, hye⟩
    have hdrop : ∀ (calls : List (Nat × Call)) (d : Nat),
        (∃ y, get calls c = some y ∧ y.phase.result = some e) →
        ∃ y, get (dropSender calls d) c = some y ∧ y.phase.result = some e := by
      intro calls d ⟨y, hy, hye⟩
      rw [get_dropSender]
      by_cases hd : c = d
      · subst hd; exact ⟨{ y with dropped := true }, by simp [hy], hye⟩
      · rw [if_neg hd]; exact ⟨y, hy, hye⟩
    have hstep : ∃ y, get (step s b).calls c = some y ∧ y.phase.result = some e := by
      cases b with
      | «open» sid =>
        simp only [step, St.open, get_put]
        by_cases hc : c = s.nCalls
        · rw [hi.fresh c (by omega)] at h; cases h
        · rw [if_neg hc]; exact ⟨x, h, he⟩
      | receive sid rid r => exact ⟨x, h, he⟩
      | register d =>
        simp only [step, St.register]
        cases hz : get s.calls d with
        | none => exact ⟨x, h, he⟩
        | some z =>
          dsimp only
          split
          next hp =>
            cases hm : get s.map z.key with
            | none => exact hput _ _ _ _ hz (by simp [hp, Phase.result]) ⟨x, h, he⟩
            | some c' =>
              dsimp only
              rw [get_put]
              by_cases hd : c = d
              · subst hd; rw [h] at hz; cases hz; rw [hp] at he; simp [Phase.result] at he
              · rw [if_neg hd]; exact hdrop _ _ ⟨x, h, he⟩
          next => exact ⟨x, h, he⟩
      | advance t =>
        simp only [step, St.advance]
        repeat' split
        all_goals first
          | exact ⟨x, h, he⟩
          | skip
        unfold St.send
        repeat' split
        · next hy _ hp => exact hput _ _ _ _ hy (by simp) ⟨x, h, he⟩
        · next hy _ hp => exact hput _ _ _ _ hy (by simp) ⟨x, h, he⟩
        · exact ⟨x, h, he⟩
      | poll d late =>
        simp only [step, St.poll]
        repeat' split
        all_goals first
          | exact ⟨x, h, he⟩
          | skip
        next hy _ hp _ _ _ => exact hput _ _ _ _ hy (by simp [hp, Phase.result]) ⟨x, h, he⟩
      | cancel d =>
        simp only [step, St.cancel]
        repeat' split
        all_goals first
          | exact ⟨x, h, he⟩
          | skip
        next hy _ hp => exact hput _ _ _ _ hy (by simp [hp, Phase.result]) ⟨x, h, he⟩
      | guard d =>
        simp only [step, St.guard]
        cases hz : get s.calls d with
        | none => exact ⟨x, h, he⟩
        | some z =>
          dsimp only
          split
          next e' hp =>
            exact hput _ _ _ _ hz (by
              intro e'' h''; rw [hp] at h''; cases s.contains z.key <;> exact h'') ⟨x, h, he⟩
          next e' hp =>
            cases hm : get s.map z.key with
            | none => exact hput _ _ _ _ hz (by simp [hp, Phase.result]) ⟨x, h, he⟩
            | some c' => exact hdrop _ _ (hput _ _ _ _ hz (by simp [hp, Phase.result]) ⟨x, h, he⟩)
          next => exact ⟨x, h, he⟩
    obtain ⟨y, hy, hye⟩ := hstep
    exact ih y hye _ hy (inv_step hi b)

/-- C44: among up to 2^64 calls none is told that its channel was dropped: each call ends with a response,
the timeout or by being given up. -/
theorem C44_not_dropped_partial (as : List Act) (hn : (made as).length ≤ 2 ^ 64) (c : Nat) (x : Call)
    (h : get (run init as).calls c = some x) : x.phase.result ≠ some .dropped := by
  intro he
  have hi := inv_run inv_init as
  rcases hi.lostSender c x h (hi.endDropped c x h he) with ⟨e, h1, h2⟩ | ⟨c', h1, h2⟩
  · rw [he] at h1; cases h1; exact h2 rfl
  · cases hx' : get (run init as).calls c' with
    | none => rw [hx'] at h2; simp at h2
    | some x' =>
      rw [hx'] at h2
      simp only [Option.map_some, Option.some.injEq, Call.key, Key.mk.injEq] at h2
      exact h1 (key_inj hn hx' h h2.2)

/-- C44: once a response was delivered to a call, later responses with the same session and id find
nothing: their processing ends without touching any call. -/
theorem C44_repeated_partial (as : List Act) (hn : (made as).length ≤ 2 ^ 64) (t c : Nat) (y : Task)
    (h : get (run init as).tasks t = some y) (hs : y.pc = .sent c) :
    get (run init as).map y.key = none := by
  have hi := inv_run inv_init as
  obtain ⟨x, hx, hk, hf, hsl⟩ := hi.sent _ _ _ h hs
  cases hm : get (run init as).map y.key with
  | none => rfl
  | some c' =>
    obtain ⟨x', hx', hk', _, _, hsl', _⟩ := hi.entry _ _ hm
    rw [← hk] at hk'
    simp only [Call.key, Key.mk.injEq] at hk'
    have := key_inj hn hx hx' hk'.2.symm
    subst this
    rw [hx] at hx'; cases hx'
    rw [hsl] at hsl'; cases hsl'

/-- C44: a response whose session and id no call waits under (never used, answered, timed out) changes no
call and no entry; its processing ends as unknown. -/
theorem C44_unknown (s : St) (sid rid : Nat) (r : Resp) (h : get s.map ⟨sid, rid⟩ = none) :
    let s' := run s [.receive sid rid r, .advance s.nTasks]
    s'.calls = s.calls ∧ s'.map = s.map ∧ get s'.tasks s.nTasks = some ⟨sid, rid, r, .ignored⟩ := by
  simp [run, step, St.receive, St.advance, get_put, St.contains, Task.key, h]

/-- C44: the error of `take` for a response that lost the race against another one or against the end
of the call. -/
theorem C44_race (s : St) (t : Nat) (y : Task) (h : get s.tasks t = some y)
    (hp : y.pc = .found ∨ y.pc = .found2) (hm : get s.map y.key = none) :
    (s.advance t).calls = s.calls ∧ (s.advance t).map = s.map ∧
    get (s.advance t).tasks t = some { y with pc := .unknown } := by
  rcases hp with hp | hp <;> simp [St.advance, h, hp, St.contains, hm, get_put]

/-- C44: a response that arrives while its call waits in the map, and is processed before anything else
happens, is what the call returns. -/
theorem C44_answered (s : St) (c : Nat) (x : Call) (r : Resp) (late : Bool)
    (h : get s.calls c = some x) (hm : get s.map x.key = some c) (hw : x.phase = .waiting) :
    let s' := run s [.receive x.sid x.rid r, .advance s.nTasks, .advance s.nTasks, .advance s.nTasks,
      .advance s.nTasks, .poll c late]
    ∃ x', get s'.calls c = some x' ∧ x'.phase.result = some (.got r) := by
  have hk : (⟨x.sid, x.rid⟩ : Key) = x.key := rfl
  refine ⟨{ x with slot := some r, phase := .ended (.got r) }, ?_, rfl⟩
  simp [run, step, St.receive, St.advance, St.send, St.poll, pollEnd, get_put, St.contains, Task.key,
    hk, hm, h, hw]

/-- C44: a waiting call is registered until its response is being delivered, so a response always finds
it: among up to 2^64 calls, a call that waits without a value has its sender in the map or in the hands
of the processing of a response with its session and id. -/
theorem C44_registered_partial (as : List Act) (hn : (made as).length ≤ 2 ^ 64) (c : Nat) (x : Call)
    (h : get (run init as).calls c = some x) (hw : x.phase = .waiting) (hs : x.slot = none) :
    get (run init as).map x.key = some c ∨
    ∃ t y, get (run init as).tasks t = some y ∧ y.pc = .holds c ∧ y.sid = x.sid ∧ y.rid = x.rid := by
  have hi := inv_run inv_init as
  have hd : x.dropped = false := by
    cases hd : x.dropped with
    | false => rfl
    | true =>
      rcases hi.lostSender c x h hd with ⟨e, h1, h2⟩ | ⟨c', h1, h2⟩
      · rw [hw] at h1; cases h1
      · cases hx' : get (run init as).calls c' with
        | none => rw [hx'] at h2; simp at h2
        | some x' =>
          rw [hx'] at h2
          simp only [Option.map_some, Option.some.injEq, Call.key, Key.mk.injEq] at h2
          exact absurd (key_inj hn hx' h h2.2) h1
  rcases hi.live c x h hw hs hd with h1 | ⟨t, y, h1, h2⟩
  · exact .inl h1
  · obtain ⟨x', hx', hk, _⟩ := hi.held _ _ _ h1 h2
    rw [h] at hx'; cases hx'
    simp only [Call.key, Task.key, Key.mk.injEq] at hk
    exact .inr ⟨t, y, h1, h2, hk.1.symm, hk.2.symm⟩

/-- C44: nothing is left behind: every entry of the map belongs to a call that is not over. -/
theorem C44_no_leak (as : List Act) (k : Key) (c : Nat) (h : get (run init as).map k = some c) :
    ∃ x, get (run init as).calls c = some x ∧ x.key = k ∧ ∀ e, x.phase ≠ .closed e := by
  obtain ⟨x, h1, h2, _, h3, _⟩ := (inv_run inv_init as).entry k c h
  exact ⟨x, h1, h2, h3⟩

/-- C44: a response is decoded as it was encoded, given that `from_utf8_lossy` keeps the bytes of a
string. -/
theorem C44_codec (lossy : Bytes → Bytes) (r : Resp) (h : ∀ e, r = .error e → lossy e = e) :
    Resp.decode lossy r.encode = r := by
  cases r with
  | success b => simp [Resp.decode, Resp.encode]
  | error e => simp [Resp.decode, Resp.encode, h e rfl]

/-- C44: a content is a success exactly if it begins with the byte 0, and then it carries the rest; any
other first byte is an error with the rest as text, and nothing at all is the error "empty message". -/
theorem C44_content (lossy : Bytes → Bytes) (b : Bytes) :
    (∀ p, Resp.decode lossy b = .success p ↔ b = 0 :: p) ∧
    (∀ x p, b = x :: p → x ≠ 0 → Resp.decode lossy b = .error (lossy p)) ∧
    (b = [] → Resp.decode lossy b = .error ("empty message".toList.map fun c => UInt8.ofNat c.toNat)) := by
  refine ⟨fun p => ?_, ?_, ?_⟩
  · cases b with
    | nil => simp [Resp.decode]
    | cons x r =>
      unfold Resp.decode
      by_cases hx : x = 0
      · simp [hx]
      · simp [hx]
  · rintro x p rfl hx
    simp [Resp.decode, hx]
  · rintro rfl
    show Resp.error emptyMessage = _
    decide

/-- C44: what a waiting call is told: a response that was sent wins over everything, a sender that is
gone wins over the deadline, and the deadline ends the call only if there is neither. -/
theorem C44_verdict (s : St) (c : Nat) (x : Call) (h : get s.calls c = some x) (hw : x.phase = .waiting)
    (late : Bool) :
    (∀ r, x.slot = some r → (get (step s (.poll c late)).calls c).map (·.phase) = some (.ended (.got r))) ∧
    (x.slot = none → x.dropped = true →
      (get (step s (.poll c late)).calls c).map (·.phase) = some (.ended .dropped)) ∧
    (x.slot = none → x.dropped = false → late = true →
      (get (step s (.poll c late)).calls c).map (·.phase) = some (.ended .timeout)) ∧
    (x.slot = none → x.dropped = false → late = false → step s (.poll c late) = s) := by
  refine ⟨fun r hr => ?_, fun h1 h2 => ?_, fun h1 h2 h3 => ?_, fun h1 h2 h3 => ?_⟩ <;>
    simp [step, St.poll, pollEnd, *, get_put]

/-! ### Instances -/

/-- Two calls on session 3, one on session 4; the answers to the first two arrive in the other order, the
first one twice, and one for the third from the wrong session. -/
def sample : List Act :=
  [.open 3, .register 0, .open 3, .open 4, .register 2, .register 1,
   .receive 3 1 (.success [1]), .receive 3 0 (.success [0]), .receive 3 0 (.success [9]),
   .receive 3 2 (.success [2]),
   .advance 0, .advance 1, .advance 2, .advance 3, .advance 0, .advance 1, .advance 2,
   .advance 1, .advance 0, .advance 2, .advance 1, .advance 0, .poll 0 false, .poll 1 true, .poll 2 false,
   .guard 0, .poll 2 true, .guard 2, .guard 2]

example : (get (run init sample).calls 0).map (·.phase) = some (.closed (.got (.success [0]))) ∧
    (get (run init sample).calls 1).map (·.phase) = some (.ended (.got (.success [1]))) ∧
    (get (run init sample).calls 2).map (·.phase) = some (.closed .timeout) ∧
    (get (run init sample).tasks 2).map (·.pc) = some .unknown ∧
    (get (run init sample).tasks 3).map (·.pc) = some .ignored ∧
    (run init sample).map = [] ∧ (made sample).length = 3 := by decide +kernel

/-- The hypotheses of `C44_answered`: call 1 waits in the map. -/
example : (get (run init (sample.take 6)).calls 1).map (·.phase) = some .waiting ∧
    get (run init (sample.take 6)).map ⟨3, 1⟩ = some 1 := by decide +kernel

/-- The hypotheses of `C44_race`: response 2 found the entry that response 1 then removed. -/
example : (get (run init (sample.take 18)).tasks 2).map (·.pc) = some .found2 ∧
    get (run init (sample.take 18)).map ⟨3, 0⟩ = none := by decide +kernel

example : Resp.decode id (Resp.error [110, 111]).encode = .error [110, 111] := by decide
example : Resp.decode id [7, 110, 111] = .error [110, 111] := by decide

/-- The hypotheses of the second case of `C44_verdict`: the second call on the same key after 2^64 others
took its sender away; here the state is written down. -/
example : (get (step ⟨1, [], 1, [(0, ⟨3, 0, .waiting, none, true⟩)], 0, []⟩ (.poll 0 true)).calls 0).map (·.phase) =
    some (.ended .dropped) := by decide

end Axon.Rpc
