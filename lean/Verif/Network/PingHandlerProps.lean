import Verif.Network.PingHandler

/-!
# C95 — the ping protocol closes the sessions that do not answer, and only those
-/

namespace Axon.PingProto

open Axon.Assoc Axon.Wire

/-! ## Specification, on what happened and what was sent -/

/-- The nonce of a ping sent to `s`. -/
def pingTo (s : Nat) : Eff → Option Nat
  | .send s' b =>
    if s' = s then
      match decodePing b with
      | some (some (.ping n)) => some n
      | _ => none
    else none
  | .disconnect _ => none

/-- The nonce of a pong. -/
def pongOf (b : Bytes) : Option Nat :=
  match decodePing b with
  | some (some (.pong n)) => some n
  | _ => none

/-- Session `s` is open, and the ping it has not answered: nonce and time. -/
def view (s : Nat) : History → Option (Option (Nat × Nat))
  | [] => none
  | (.connected s' _, _) :: l => if s' = s ∧ view s l = none then some none else view s l
  | (.disconnected s', _) :: l => if s' = s then none else view s l
  | (.received s' b, _) :: l =>
    match view s l with
    | some (some (n, t)) => if s' = s ∧ pongOf b = some n then some none else some (some (n, t))
    | v => v
  | (.pingTimer now, fx) :: l =>
    match fx.findSome? (pingTo s) with
    | some n => some (some (n, now))
    | none => view s l
  | (.checkTimer _, _) :: l => view s l

/-- The session is open. -/
def Open (s : Nat) (l : History) : Prop := ∃ p, view s l = some p

/-- The session has a ping to answer. -/
def Owes (s n t : Nat) (l : History) : Prop := view s l = some (some (n, t))

/-! ## Lemmas -/

/-- What the handler knows of a session. -/
def known (h : Handler) (s : Nat) : Option (Option (Nat × Nat)) :=
  (get h.sessions s).map fun x => if x.processing then some (x.nonce, x.sentAt) else none

structure Inv (timeout start : Nat) (l : History) (h : Handler) : Prop where
  timeout : h.timeout = timeout
  start : h.start = start
  keys : NodupKeys h.sessions
  known : ∀ s, view s l = known h s

theorem get_mapVal {α : Type} (m : List (Nat × α)) (f : α → α) (k : Nat) :
    get (m.map fun e => (e.1, f e.2)) k = (get m k).map f := by
  induction m with
  | nil => rfl
  | cons e m ih =>
    rw [List.map_cons, get_cons, get_cons, ih]
    by_cases h : e.1 = k <;> simp [h]

theorem decode_ping (h : Handler) (now : Nat) : decodePing (encodePing (some (.ping (h.nonce now)))) =
    some (some (.ping (h.nonce now))) :=
  C94_ping _ (fun x hx => by cases hx; exact Nat.mod_lt _ (by omega))

theorem find_pings (h : Handler) (now s : Nat) (hn : NodupKeys h.sessions) :
    ((h.pingPeers now).2.findSome? (pingTo s)) =
      match get h.sessions s with
      | some x => if x.processing then none else some (h.nonce now)
      | none => none := by
  unfold Handler.pingPeers
  simp only
  generalize hk : h.nonce now = k
  have hd : decodePing (encodePing (some (.ping k))) = some (some (.ping k)) := hk ▸ decode_ping h now
  generalize h.sessions = m at hn
  induction m with
  | nil => rfl
  | cons e m ih =>
    obtain ⟨i, x⟩ := e
    have hn' := List.pairwise_cons.1 hn
    rw [get_cons]
    by_cases hi : i = s
    · subst hi
      have hnone : get m i = none := by
        cases hg : get m i with
        | none => rfl
        | some y => exact absurd rfl (hn'.1 (i, y) (mem_of_get hg))
      rw [if_pos rfl]
      cases hx : x.processing with
      | true =>
        rw [List.filter_cons_of_neg (by simp [hx]), ih hn'.2, hnone]
        simp [hx]
      | false =>
        rw [List.filter_cons_of_pos (by simp [hx])]
        simp [pingTo, hd, hx]
    · rw [if_neg hi, ← ih hn'.2]
      cases hx : x.processing with
      | true => rw [List.filter_cons_of_neg (by simp [hx])]
      | false =>
        rw [List.filter_cons_of_pos (by simp [hx])]
        simp [pingTo, hi]

theorem nodup_mapVal {α : Type} {m : List (Nat × α)} (f : α → α) (h : NodupKeys m) :
    NodupKeys (m.map fun e => (e.1, f e.2)) := by
  unfold NodupKeys at *
  rw [List.pairwise_map]
  exact h

theorem inv_step {timeout start : Nat} {l : History} {h : Handler} (i : Inv timeout start l h) (e : Ev) :
    Inv timeout start ((e, (h.step e).2) :: l) (h.step e).1 := by
  obtain ⟨h1, h2, h3, h4⟩ := i
  cases e with
  | connected s now =>
    simp only [Handler.step]
    cases hg : get h.sessions s with
    | some x =>
      refine ⟨h1, h2, h3, fun s' => ?_⟩
      simp only [view]
      rw [if_neg, h4]
      rintro ⟨rfl, hv⟩
      rw [h4, known, hg] at hv
      cases hv
    | none =>
      refine ⟨h1, h2, nodupKeys_put h3 _ _, fun s' => ?_⟩
      simp only [view]
      rw [h4]
      unfold known
      simp only [get_put]
      by_cases hs : s = s'
      · subst hs; simp [hg]
      · simp [hs, show ¬ s' = s from fun h => hs h.symm]
  | disconnected s =>
    refine ⟨h1, h2, nodupKeys_del h3 _, fun s' => ?_⟩
    simp only [view, Handler.step]
    rw [h4]
    unfold known
    simp only [get_del]
    by_cases hs : s = s'
    · subst hs; simp
    · simp [hs, show ¬ s' = s from fun h => hs h.symm]
  | received s b =>
    have same : ∀ fx, (∀ s' n t, view s' l = some (some (n, t)) → ¬ (s = s' ∧ pongOf b = some n)) →
        Inv timeout start ((Ev.received s b, fx) :: l) h := by
      intro fx hno
      refine ⟨h1, h2, h3, fun s' => ?_⟩
      simp only [view]
      rw [← h4]
      split
      · next n t hv => rw [if_neg (hno s' n t hv), hv]
      · rfl
    simp only [Handler.step, Handler.received]
    cases hd : decodePing b with
    | none => exact same _ fun _ _ _ _ hc => by simp [pongOf, hd] at hc
    | some o =>
      cases o with
      | none => exact same _ fun _ _ _ _ hc => by simp [pongOf, hd] at hc
      | some p =>
        cases p with
        | ping n => exact same _ fun _ _ _ _ hc => by simp [pongOf, hd] at hc
        | pong n =>
          have hp : pongOf b = some n := by simp [pongOf, hd]
          simp only
          cases hg : get h.sessions s with
          | none =>
            refine same _ fun s' m t hv hc => ?_
            obtain ⟨rfl, -⟩ := hc
            rw [h4, known, hg] at hv
            cases hv
          | some x =>
            simp only
            by_cases hx : x.processing = true ∧ n = x.nonce
            · rw [if_pos hx]
              refine ⟨h1, h2, nodupKeys_put h3 _ _, fun s' => ?_⟩
              simp only [view]
              rw [h4]
              by_cases hs : s = s'
              · subst hs
                simp [known, hg, get_put, hx.1, hp, hx.2]
              · have hs' : ¬ s' = s := fun h => hs h.symm
                have : known { h with sessions := put h.sessions s { x with processing := false } } s' = known h s' := by
                  simp [known, get_put, hs']
                rw [this]
                split
                · next heq => rw [if_neg (by simp [hs]), heq]
                · rfl
            · rw [if_neg hx]
              refine same _ fun s' m t hv hc => ?_
              obtain ⟨rfl, hm⟩ := hc
              rw [hp] at hm
              cases hm
              rw [h4, known, hg] at hv
              simp only [Option.map_some, Option.some.injEq] at hv
              split at hv
              · next hpr => cases hv; exact hx ⟨hpr, rfl⟩
              · cases hv
  | pingTimer now =>
    have hnd : NodupKeys (h.step (.pingTimer now)).1.sessions :=
      nodup_mapVal (fun x : Status => x.pinged now (h.nonce now)) h3
    refine ⟨h1, h2, hnd, fun s' => ?_⟩
    simp only [view, Handler.step]
    rw [find_pings h now s' h3, h4]
    unfold known Handler.pingPeers
    simp only
    rw [get_mapVal h.sessions (fun x => x.pinged now (h.nonce now))]
    cases hg : get h.sessions s' with
    | none => simp
    | some x => cases hx : x.processing <;> simp [Status.pinged, hx]
  | checkTimer now => exact ⟨h1, h2, h3, fun s' => by simp only [view, Handler.step]; exact h4 s'⟩

theorem run_inv {timeout start : Nat} {l : History} {h : Handler} (r : Run timeout start l h) :
    Inv timeout start l h := by
  induction r with
  | new => exact ⟨rfl, rfl, List.Pairwise.nil, fun s => rfl⟩
  | step e r ih => exact inv_step ih e

theorem mem_disconnects (m : List (Nat × Status)) (p : Status → Bool) (hn : NodupKeys m) (s : Nat) :
    Eff.disconnect s ∈ (m.filter fun e => p e.2).map (fun e => Eff.disconnect e.1) ↔
      ∃ x, get m s = some x ∧ p x = true := by
  rw [List.mem_map]
  constructor
  · rintro ⟨e, he, heq⟩
    cases heq
    obtain ⟨h1, h2⟩ := List.mem_filter.1 he
    exact ⟨e.2, get_of_mem hn h1, h2⟩
  · rintro ⟨x, hx, hp⟩
    exact ⟨(s, x), List.mem_filter.2 ⟨mem_of_get hx, hp⟩, rfl⟩

/-! ## C95 -/

/-- C95: a session is closed exactly in two cases: it sends a pong that does not answer the ping it
owes, or it owes an answer when a check finds the ping at least `timeout` old. -/
theorem C95_closed {timeout start : Nat} (ht : 0 < timeout) {l : History} {h : Handler} (r : Run timeout start l h)
    (e : Ev) (s : Nat) :
    Eff.disconnect s ∈ (h.step e).2 ↔
      (∃ b n, e = .received s b ∧ pongOf b = some n ∧ Open s l ∧ ∀ t, ¬ Owes s n t l) ∨
      (∃ now n t, e = .checkTimer now ∧ Owes s n t l ∧ t + timeout ≤ now) := by
  obtain ⟨h1, h2, h3, h4⟩ := run_inv r
  unfold Open Owes
  simp only [h4]
  cases e with
  | connected s' now => simp only [Handler.step]; split <;> simp
  | disconnected s' => simp [Handler.step]
  | received s' b =>
    simp only [Handler.step, Handler.received]
    constructor
    · intro hm
      left
      split at hm
      · cases hm
      · cases hm
      · simp at hm
      · next n hd =>
        split at hm
        · cases hm
        · next x hg =>
          split at hm
          · cases hm
          · next hx =>
            simp only [List.mem_singleton, Eff.disconnect.injEq] at hm
            subst hm
            refine ⟨b, n, rfl, by simp [pongOf, hd], ⟨_, by rw [known, hg]; rfl⟩, fun t hv => ?_⟩
            rw [known, hg] at hv
            simp only [Option.map_some, Option.some.injEq] at hv
            split at hv
            · next hpr => cases hv; exact hx ⟨hpr, rfl⟩
            · cases hv
    · rintro (⟨b', n, he, hp, ⟨p, ho⟩, hw⟩ | ⟨now, n, t, he, -⟩)
      · cases he
        have hd : decodePing b = some (some (.pong n)) := by
          unfold pongOf at hp
          split at hp
          · next m hd => cases hp; exact hd
          · cases hp
        rw [hd]
        simp only
        cases hg : get h.sessions s with
        | none => rw [known, hg] at ho; cases ho
        | some x =>
          simp only
          rw [if_neg]
          · simp
          · rintro ⟨hx1, hx2⟩
            exact hw x.sentAt (by rw [known, hg]; simp [hx1, hx2])
      · cases he
  | pingTimer now =>
    simp only [Handler.step, Handler.pingPeers]
    constructor
    · intro hm
      obtain ⟨e, -, he⟩ := List.mem_map.1 hm
      cases he
    · rintro (⟨_, _, he, -⟩ | ⟨_, _, _, he, -⟩) <;> cases he
  | checkTimer now =>
    simp only [Handler.step, Handler.check]
    rw [mem_disconnects h.sessions (fun x => x.processing && decide (now - x.sentAt ≥ h.timeout)) h3]
    constructor
    · rintro ⟨x, hg, hx⟩
      simp only [Bool.and_eq_true, decide_eq_true_eq] at hx
      refine .inr ⟨now, x.nonce, x.sentAt, rfl, by rw [known, hg]; simp [hx.1], ?_⟩
      rw [h1] at hx
      omega
    · rintro (⟨_, _, he, -⟩ | ⟨now', n, t, he, hv, hle⟩)
      · cases he
      · cases he
        unfold known at hv
        cases hg : get h.sessions s with
        | none => rw [hg] at hv; cases hv
        | some x =>
          rw [hg] at hv
          simp only [Option.map_some, Option.some.injEq] at hv
          split at hv
          · next hpr =>
            cases hv
            refine ⟨x, rfl, ?_⟩
            simp only [hpr, Bool.true_and, decide_eq_true_eq, h1]
            omega
          · cases hv

/-- C95: at every ping timer each open session that owes nothing is sent exactly one message, a ping whose
nonce is the number of whole seconds since the start, and nobody else is sent anything. -/
theorem C95_pinged {timeout start : Nat} {l : History} {h : Handler} (r : Run timeout start l h) (now s : Nat) :
    (h.step (.pingTimer now)).2.filter (fun f => match f with | .send s' _ => decide (s' = s) | _ => false) =
      if view s l = some none then [.send s (encodePing (some (.ping ((now - start) / 1000 % 2 ^ 32))))] else [] := by
  obtain ⟨-, h2, h3, h4⟩ := run_inv r
  rw [h4]
  unfold known
  simp only [Handler.step, Handler.pingPeers, Handler.nonce, h2]
  generalize encodePing (some (.ping ((now - start) / 1000 % 2 ^ 32))) = b
  generalize h.sessions = m at h3
  induction m with
  | nil => rfl
  | cons e m ih =>
    obtain ⟨i, x⟩ := e
    have hn' := List.pairwise_cons.1 h3
    rw [get_cons]
    have ih' := ih hn'.2
    by_cases hi : i = s
    · subst hi
      have hnone : get m i = none := by
        cases hg : get m i with
        | none => rfl
        | some y => exact absurd rfl (hn'.1 (i, y) (mem_of_get hg))
      rw [hnone] at ih'
      rw [if_pos rfl]
      cases hx : x.processing with
      | true =>
        rw [List.filter_cons_of_neg (l := m) (by simp [hx]), ih']
        simp [hx]
      | false =>
        rw [List.filter_cons_of_pos (l := m) (by simp [hx]), List.map_cons,
          List.filter_cons_of_pos (by simp), ih']
        simp [hx]
    · rw [if_neg hi, ← ih']
      cases hx : x.processing with
      | true => rw [List.filter_cons_of_neg (l := m) (by simp [hx])]
      | false =>
        rw [List.filter_cons_of_pos (l := m) (by simp [hx]), List.map_cons, List.filter_cons_of_neg (by simp [hi])]

/-- C95: every ping is answered by one pong with its nonce, to the session it came from; bytes that are no
ping message get no answer. -/
theorem C95_answered (h : Handler) (s : Nat) (b : Bytes) :
    (∀ n, decodePing b = some (some (.ping n)) →
      h.step (.received s b) = (h, [.send s (encodePing (some (.pong n)))]) ∧
      (n < 2 ^ 32 → decodePing (encodePing (some (.pong n))) = some (some (.pong n)))) ∧
    ((decodePing b = none ∨ decodePing b = some none) → h.step (.received s b) = (h, [])) := by
  refine ⟨fun n hd => ⟨by simp [Handler.step, Handler.received, hd], fun hn => C94_ping _ fun x hx => by
    cases hx; exact hn⟩, ?_⟩
  rintro (hd | hd) <;> simp [Handler.step, Handler.received, hd]

/-- What happens while session `s` stays silent. -/
def Silent (s n : Nat) : Ev → Prop
  | .disconnected s' => s' ≠ s
  | .received s' b => s' = s → pongOf b ≠ some n
  | _ => True

/-- A session that owes an answer keeps owing it. -/
theorem owes_stays {timeout start : Nat} {l : History} {h : Handler} (r : Run timeout start l h) {s n t : Nat}
    (ho : Owes s n t l) (e : Ev) (he : Silent s n e) : Owes s n t ((e, (h.step e).2) :: l) := by
  unfold Owes at *
  cases e with
  | connected s' now => simp only [view]; rw [if_neg (by simp [ho])]; exact ho
  | disconnected s' => simp only [view]; rw [if_neg he]; exact ho
  | received s' b =>
    simp only [view, ho]
    rw [if_neg]
    rintro ⟨h1, h2⟩
    exact he h1 h2
  | pingTimer now =>
    simp only [view, Handler.step]
    obtain ⟨-, -, h3, h4⟩ := run_inv r
    rw [find_pings h now s h3]
    have hk := h4 s
    rw [ho] at hk
    unfold known at hk
    cases hg : get h.sessions s with
    | none => rw [hg] at hk; cases hk
    | some x =>
      rw [hg] at hk
      simp only [Option.map_some, Option.some.injEq] at hk
      cases hx : x.processing with
      | true => simp [hx, ho]
      | false => simp [hx] at hk
  | checkTimer now => exact ho

/-- C95: a session that does not answer is closed: whatever else happens after a ping sent at time `t`, the
first check at `t + timeout` or later asks for it to be closed. -/
theorem C95_silent {timeout start : Nat} (ht : 0 < timeout) {l : History}
    {s n t : Nat} (ho : Owes s n t l) {l' : History} {h' : Handler} (r' : Run timeout start (l' ++ l) h')
    (hs : ∀ x ∈ l', Silent s n x.1) (now : Nat) (hnow : t + timeout ≤ now) :
    Eff.disconnect s ∈ (h'.step (.checkTimer now)).2 := by
  rw [C95_closed ht r']
  refine .inr ⟨now, n, t, rfl, ?_, hnow⟩
  clear hnow
  induction l' generalizing h' with
  | nil => exact ho
  | cons x l' ih =>
    rw [List.cons_append] at r'
    cases r' with
    | step e r'' =>
      exact owes_stays r'' (ih r'' fun y hy => hs y (by simp [hy])) e (hs (e, _) (List.mem_cons_self ..))

/-- C95: a session that answers is kept: if the only pong it sends answers the ping it owes, and no check
finds that ping `timeout` old, it is not closed. -/
theorem C95_kept {timeout start : Nat} (ht : 0 < timeout) {l : History} {h : Handler} (r : Run timeout start l h)
    (e : Ev) (s : Nat) (h1 : ∀ b n, e = .received s b → pongOf b = some n → ∃ t, Owes s n t l)
    (h2 : ∀ now n t, e = .checkTimer now → Owes s n t l → now < t + timeout) :
    Eff.disconnect s ∉ (h.step e).2 := by
  rw [C95_closed ht r]
  rintro (⟨b, n, he, hp, -, hw⟩ | ⟨now, n, t, he, ho, hle⟩)
  · obtain ⟨t, h⟩ := h1 b n he hp
    exact hw t h
  · have := h2 now n t he ho; omega

/-- C95: the answer to a ping settles it. -/
theorem C95_settled {timeout start : Nat} {l : History} {h : Handler} (r : Run timeout start l h) {s n t : Nat}
    (ho : Owes s n t l) (b : Bytes) (hb : pongOf b = some n) :
    (h.step (.received s b)).2 = [] ∧ view s ((.received s b, []) :: l) = some none ∧
    ∀ s' , s' ≠ s → view s' ((.received s b, []) :: l) = view s' l := by
  obtain ⟨-, -, h3, h4⟩ := run_inv r
  have hd : decodePing b = some (some (.pong n)) := by
    unfold pongOf at hb
    split at hb
    · next m hd => cases hb; exact hd
    · cases hb
  refine ⟨?_, ?_, ?_⟩
  · have hk := h4 s
    rw [ho] at hk
    unfold known at hk
    simp only [Handler.step, Handler.received, hd]
    cases hg : get h.sessions s with
    | none => rfl
    | some x =>
      rw [hg] at hk
      simp only [Option.map_some, Option.some.injEq] at hk
      split at hk
      · next hpr => cases hk; simp [hpr]
      · cases hk
  · simp only [view]
    rw [show view s l = some (some (n, t)) from ho]
    simp [hb]
  · intro s' hs
    simp only [view]
    split
    · next heq => rw [if_neg (by intro hc; exact hs hc.1.symm), heq]
    · rfl

/-- The handler and everything done after some events. -/
def exec (h : Handler) : List Ev → Handler × List Eff
  | [] => (h, [])
  | e :: es => ((exec (h.step e).1 es).1, (h.step e).2 ++ (exec (h.step e).1 es).2)

/-- **C95, the full statement is false.** A peer that never answers is not closed when its ping is as old as
the timeout: with the default timers (a ping every 15 s, a check every 30 s) it is closed at the earliest
60 s after the start, 45 s after its ping. -/
theorem C95_delay_false (s sec : Nat) (hsec : sec = 1000) :
    (∀ f ∈ (exec (Handler.new (30 * sec) 0)
        [.connected s sec, .pingTimer (15 * sec), .pingTimer (30 * sec), .checkTimer (30 * sec),
         .pingTimer (45 * sec)]).2, ∀ s', f ≠ .disconnect s') ∧
    Eff.disconnect s ∈ ((exec (Handler.new (30 * sec) 0)
        [.connected s sec, .pingTimer (15 * sec), .pingTimer (30 * sec), .checkTimer (30 * sec),
         .pingTimer (45 * sec)]).1.step (.checkTimer (60 * sec))).2 := by
  have h1 : ¬ (30 * sec ≤ 30 * sec - 15 * sec) := by omega
  have h2 : 30 * sec ≤ 60 * sec - 15 * sec := by omega
  clear hsec
  simp only [exec, Handler.step, Handler.new, get_nil, put, Handler.pingPeers, Handler.check, Status.pinged,
    List.filter_nil, List.map_cons, List.map_nil]
  simp [h1, h2]

/-- **C95, the full statement is false.** Bytes that are no message are never held against a peer: any number
of them from an open session leaves everything as it was. -/
theorem C95_junk_false (h : Handler) (s : Nat) (bs : List Bytes) (hb : ∀ b ∈ bs, decodePing b = none) :
    exec h (bs.map (.received s)) = (h, []) := by
  induction bs with
  | nil => rfl
  | cons b bs ih =>
    have h1 := (C95_answered h s b).2 (.inl (hb b (by simp)))
    rw [List.map_cons, exec, h1]
    simp only [List.nil_append]
    exact ih fun x hx => hb x (by simp [hx])

/-- **C95, the full statement is false.** A peer that pings is answered every time: any number of pings
brings as many pongs. -/
theorem C95_flood_false (h : Handler) (s k n : Nat) (hn : n < 2 ^ 32) :
    (exec h (List.replicate k (.received s (encodePing (some (.ping n)))))).2 =
      List.replicate k (.send s (encodePing (some (.pong n)))) := by
  have hd : decodePing (encodePing (some (.ping n))) = some (some (.ping n)) :=
    C94_ping _ fun x hx => by cases hx; exact hn
  induction k with
  | zero => rfl
  | succ k ih =>
    rw [List.replicate_succ, List.replicate_succ, exec, ((C95_answered h s _).1 n hd).1]
    simp only [List.singleton_append, List.cons.injEq, true_and]
    exact ih

/-! ## Concrete cases -/

/-- Session 4 answers its ping, session 5 does not; then a stray pong. -/
def sample : List Ev :=
  [.connected 4 10, .connected 5 20, .pingTimer 15010, .received 4 (encodePing (some (.pong 15))),
   .received 4 [9], .checkTimer 30020, .pingTimer 30030]

example : decodePing (encodePing (some (.pong 15))) = some (some (.pong 15)) :=
  C94_ping _ fun x hx => by cases hx; exact (by decide : (15 : Nat) < 2 ^ 32)

/-- The answers of the peers, as bytes: a ping of nonce 15 and its pong. -/
example : encodePing (some (.pong 15)) = [16, 15] ∧ pongOf [16, 15] = some 15 := by
  refine ⟨by simp [encodePing, encU32, Proto.encKey, Proto.encVarint], by decide +kernel⟩

example :
    (exec (Handler.new 15000 0)
      [.connected 4 10, .connected 5 20, .pingTimer 15010, .received 4 [16, 15], .received 4 [9],
       .checkTimer 30020, .received 4 [16, 15]]).2.filter (fun f => match f with | .disconnect _ => true | _ => false) =
      [.disconnect 5, .disconnect 4] := by decide +kernel

end Axon.PingProto
