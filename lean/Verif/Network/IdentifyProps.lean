import Verif.Network.Identify
import Verif.Network.DiscoveryProps

/-!
# C97 — the identify protocol: no session goes on without the identity of a node of the same chain
-/

namespace Axon.Identify

open Axon.Assoc Axon.Wire Axon.Peers Axon.Proto

/-! ## Specification, on what happened and what was done -/

/-- A session: its address, whether the node opened it, when, and whether the peer has presented itself. -/
structure View where
  addr : MAddr
  outbound : Bool
  since : Nat
  heard : Bool
deriving DecidableEq, Repr

/-- The identity in a message: chain id, and the addresses listened on that can be read. -/
def identity (c : Cfg) (b : Bytes) : Option (Bytes × List MAddr) :=
  (decodeIdentity b).bind fun i => i.info.map fun a => (i.chainId, a.listen.filterMap c.env.parse)

/-- What the history says of session `s`. -/
def view (c : Cfg) (s : Nat) : History → Option View
  | [] => none
  | (.connected s' a o _ _ now, _) :: l => if s' = s then some ⟨a, o, now, false⟩ else view c s l
  | (.disconnected s', _) :: l => if s' = s then none else view c s l
  | (.received s' b _, _) :: l =>
    if s' = s ∧ identity c b ≠ none then (view c s l).map fun x => { x with heard := true } else view c s l
  | (.timer _, _) :: l => view c s l

/-- The peer of session `s` presents itself, for the first time, as a node of the same chain, with these listen
addresses. -/
def Presents (c : Cfg) (s : Nat) (h : History) (e : Ev) (x : View) (feeler : Bool) (l : List MAddr) : Prop :=
  ∃ b, e = .received s b feeler ∧ view c s h = some x ∧ x.heard = false ∧ identity c b = some (c.chain, l)

/-! ## Lemmas -/

def known (m : Ident) (s : Nat) : Option View :=
  (get m s).map fun x => ⟨x.addr, x.outbound, x.at_, x.received⟩

structure Inv (c : Cfg) (h : History) (m : Ident) : Prop where
  keys : NodupKeys m
  known : ∀ s, view c s h = known m s

theorem gput (m : Ident) (k k' : Nat) (x : Info) : get (put m k x) k' = if k = k' then some x else get m k' := by
  rw [get_put]
  by_cases h : k = k'
  · simp [h]
  · rw [if_neg h, if_neg fun e => h e.symm]

/-- What a message does, by cases. -/
theorem received_cases {c : Cfg} {m m' : Ident} {s : Nat} {b : Bytes} {f : Bool} {fx : List Eff}
    (h : received c m s b f = .ok (m', fx)) :
    (identity c b = none ∧ m' = m ∧ fx = [.disconnect s]) ∨
    ∃ ch l x, identity c b = some (ch, l) ∧ get m s = some x ∧
      ((x.received = true ∧ m' = m ∧ fx = [.disconnect s]) ∨
        x.received = false ∧ m' = put m s { x with received := true } ∧
        ((ch ≠ c.chain ∧ fx = [.disconnect s]) ∨
          ch = c.chain ∧ ((l.length > 10 ∧ fx = opening s x f ++ [.disconnect s]) ∨
            l.length ≤ 10 ∧ fx = opening s x f ++ (l.filter c.env.valid).map .learn ++
              [.listens s (l.filter c.env.valid)]))) := by
  unfold received at h
  cases hd : decodeIdentity b with
  | none =>
    rw [hd] at h
    simp only at h
    left
    refine ⟨by simp [identity, hd], ?_⟩
    split at h
    · cases h
    · cases h; exact ⟨rfl, rfl⟩
  | some msg =>
    rw [hd] at h
    simp only at h
    cases hi : msg.info with
    | none => rw [hi] at h; cases h; exact .inl ⟨by simp [identity, hd, hi], rfl, rfl⟩
    | some i =>
      rw [hi] at h
      simp only at h
      right
      cases hg : get m s with
      | none => rw [hg] at h; cases h
      | some x =>
        rw [hg] at h
        simp only at h
        refine ⟨msg.chainId, i.listen.filterMap c.env.parse, x, by simp [identity, hd, hi], rfl, ?_⟩
        by_cases hr : x.received = true
        · rw [if_pos hr] at h; cases h; exact .inl ⟨hr, rfl, rfl⟩
        · rw [if_neg hr] at h
          simp only [Bool.not_eq_true] at hr
          refine .inr ⟨hr, ?_⟩
          by_cases hc : msg.chainId ≠ c.chain
          · rw [if_pos hc] at h; cases h; exact ⟨rfl, .inl ⟨hc, rfl⟩⟩
          · rw [if_neg hc] at h
            simp only [ne_eq, Decidable.not_not] at hc
            by_cases hl : (i.listen.filterMap c.env.parse).length > 10
            · rw [if_pos hl] at h; cases h; exact ⟨rfl, .inr ⟨hc, .inl ⟨hl, rfl⟩⟩⟩
            · rw [if_neg hl] at h; cases h
              exact ⟨rfl, .inr ⟨hc, .inr ⟨by omega, by simp [observed]⟩⟩⟩

theorem Run.inv {c : Cfg} {h : History} {m : Ident} (r : Run c h m) : Inv c h m := by
  induction r with
  | new => exact ⟨.nil, fun _ => rfl⟩
  | @step h m m' e fx r hs ih =>
    obtain ⟨i1, i2⟩ := ih
    cases e with
    | connected s a o k own now =>
      simp only [Identify.step, connected] at hs
      split at hs
      · cases hs
      · split at hs
        · cases hs
        · cases hs
          refine ⟨nodupKeys_put i1 _ _, fun s' => ?_⟩
          simp only [view, known]
          rw [gput, i2]
          by_cases hne : s = s'
          · simp [hne]
          · simp [hne, known]
    | disconnected s =>
      simp only [Identify.step, disconnected] at hs
      split at hs
      · cases hs
      · cases hs
        refine ⟨nodupKeys_del i1 _, fun s' => ?_⟩
        simp only [view, known]
        rw [get_del, i2]
        by_cases hne : s = s'
        · simp [hne]
        · simp [hne, show ¬ s' = s from fun h => hne h.symm, known]
    | timer now => cases hs; exact ⟨i1, fun s => i2 s⟩
    | received s b f =>
      rcases received_cases hs with ⟨hid, rfl, rfl⟩ | ⟨ch, l, x, hid, hg, hc⟩
      · refine ⟨i1, fun s' => ?_⟩
        simp only [view, hid]
        simpa using i2 s'
      · have hm : m' = put m s { x with received := true } ∨ (m' = m ∧ x.received = true) := by
          rcases hc with ⟨hr, rfl, _⟩ | ⟨hr, rfl, _⟩
          · exact .inr ⟨rfl, hr⟩
          · exact .inl rfl
        have hn : NodupKeys m' := by
          rcases hm with rfl | ⟨rfl, _⟩
          · exact nodupKeys_put i1 _ _
          · exact i1
        refine ⟨hn, fun s' => ?_⟩
        simp only [view, hid]
        by_cases hne : s = s'
        · subst hne
          rw [if_pos ⟨rfl, by simp⟩, i2]
          simp only [known]
          rw [hg]
          rcases hm with rfl | ⟨rfl, hr⟩
          · rw [gput, if_pos rfl]; rfl
          · rw [hg]; simp [hr]
        · rw [if_neg fun h => hne h.1, i2]
          simp only [known]
          rcases hm with rfl | ⟨rfl, hr⟩
          · rw [gput, if_neg hne]
          · rfl

theorem view_of {c : Cfg} {h : History} {m : Ident} (r : Run c h m) {s : Nat} {x : Info} (hg : get m s = some x) :
    view c s h = some ⟨x.addr, x.outbound, x.at_, x.received⟩ := by
  rw [r.inv.known, known, hg]; rfl

theorem of_view {c : Cfg} {h : History} {m : Ident} (r : Run c h m) {s : Nat} {w : View} (hv : view c s h = some w) :
    get m s = some ⟨w.addr, w.outbound, w.since, w.heard⟩ := by
  rw [r.inv.known, known, Option.map_eq_some_iff] at hv
  obtain ⟨x, hx, rfl⟩ := hv
  exact hx

theorem connected_fx {c : Cfg} {m m' : Ident} {s : Nat} {a : MAddr} {o k : Bool} {own : List MAddr} {now : Nat}
    {fx : List Eff} (h : connected c m s a o k own now = .ok (m', fx)) :
    fx = (if o then [.learnOutbound a] else []) ++
        [.send s ⟨c.chain, some ⟨((own.filter c.env.valid).take 10).map c.env.print, c.env.print a⟩⟩] := by
  unfold connected at h
  split at h
  · cases h
  · split at h
    · cases h
    · cases h; rfl

theorem mem_opening {s : Nat} {x : Info} {f : Bool} {y : Eff} : y ∈ opening s x f ↔
    x.outbound = true ∧ y = if f then .openFeeler s else .openAll s := by
  unfold opening
  cases x.outbound <;> cases f <;> simp

/-! ## C97 -/

/-- A session is closed exactly on a message that does not present the peer, presents it again, names another chain
or more than ten addresses, or when a timer finds that it has not presented itself within eight seconds. -/
theorem C97_closed {c : Cfg} {h : History} {m m' : Ident} {e : Ev} {fx : List Eff} (r : Run c h m)
    (hs : step c m e = .ok (m', fx)) (s : Nat) : Eff.disconnect s ∈ fx ↔
      (∃ b f, e = .received s b f ∧ (identity c b = none ∨ ∃ ch l, identity c b = some (ch, l) ∧
        (ch ≠ c.chain ∨ l.length > 10 ∨ ∃ x, view c s h = some x ∧ x.heard = true))) ∨
      ∃ now x, e = .timer now ∧ view c s h = some x ∧ x.heard = false ∧ x.since + 8000 ≤ now := by
  cases e with
  | connected s' a o k own now =>
    rw [connected_fx hs]
    cases o <;> simp
  | disconnected s' =>
    simp only [step, disconnected] at hs
    split at hs
    · cases hs
    · cases hs
      split <;> simp
  | timer now =>
    cases hs
    simp only [timer, List.mem_map, List.mem_filter]
    constructor
    · rintro ⟨⟨s', x⟩, ⟨hm, hx⟩, he⟩
      cases he
      simp at hx
      exact .inr ⟨now, _, rfl, view_of r (get_of_mem r.inv.keys hm), hx.1, hx.2⟩
    · rintro (⟨b, f, he, _⟩ | ⟨n, x, he, hv, hh, ht⟩)
      · cases he
      · cases he
        exact ⟨(s, ⟨x.addr, x.outbound, x.since, x.heard⟩), ⟨mem_of_get (of_view r hv), by simp [hh, ht]⟩, rfl⟩
  | received s' b f =>
    have hgoal : (s' = s ∧ (identity c b = none ∨ ∃ ch l, identity c b = some (ch, l) ∧
        (ch ≠ c.chain ∨ l.length > 10 ∨ ∃ x, view c s h = some x ∧ x.heard = true))) ↔
      ((∃ b' f', Ev.received s' b f = .received s b' f' ∧ (identity c b' = none ∨ ∃ ch l, identity c b' = some (ch, l) ∧
        (ch ≠ c.chain ∨ l.length > 10 ∨ ∃ x, view c s h = some x ∧ x.heard = true))) ∨
      ∃ now x, Ev.received s' b f = .timer now ∧ view c s h = some x ∧ x.heard = false ∧ x.since + 8000 ≤ now) := by
      constructor
      · rintro ⟨rfl, hx⟩; exact .inl ⟨b, f, rfl, hx⟩
      · rintro (⟨b', f', he, hx⟩ | ⟨_, _, he, _⟩)
        · cases he; exact ⟨rfl, hx⟩
        · cases he
    rw [← hgoal]
    rcases received_cases hs with ⟨hid, rfl, rfl⟩ | ⟨ch, l, x, hid, hg, hc⟩
    · rw [List.mem_singleton]
      constructor
      · intro he; cases he; exact ⟨rfl, .inl hid⟩
      · rintro ⟨rfl, _⟩; rfl
    · have hv := view_of r hg
      have hno : ∀ y, y ∈ opening s' x f → y ≠ .disconnect s := by
        intro y hy he
        rw [mem_opening] at hy
        obtain ⟨_, hy⟩ := hy
        subst he
        split at hy <;> cases hy
      have hiff : Eff.disconnect s ∈ fx ↔ s' = s ∧ (ch ≠ c.chain ∨ l.length > 10 ∨ x.received = true) := by
        rcases hc with ⟨hr, _, rfl⟩ | ⟨hr, _, ⟨hch, rfl⟩ | ⟨hch, ⟨hl, rfl⟩ | ⟨hl, rfl⟩⟩⟩
        · rw [List.mem_singleton]
          constructor
          · intro he; cases he; exact ⟨rfl, .inr (.inr hr)⟩
          · rintro ⟨rfl, _⟩; rfl
        · rw [List.mem_singleton]
          constructor
          · intro he; cases he; exact ⟨rfl, .inl hch⟩
          · rintro ⟨rfl, _⟩; rfl
        · rw [List.mem_append, List.mem_singleton]
          constructor
          · rintro (he | he)
            · exact absurd rfl (hno _ he)
            · cases he; exact ⟨rfl, .inr (.inl hl)⟩
          · rintro ⟨rfl, _⟩; exact .inr rfl
        · rw [List.mem_append, List.mem_append, List.mem_singleton]
          constructor
          · rintro ((he | he) | he)
            · exact absurd rfl (hno _ he)
            · obtain ⟨a, _, he⟩ := List.mem_map.1 he; cases he
            · cases he
          · rintro ⟨rfl, hx | hx | hx⟩
            · exact absurd hch hx
            · omega
            · rw [hr] at hx; cases hx
      rw [hiff, hid]
      constructor
      · rintro ⟨rfl, hx⟩
        refine ⟨rfl, .inr ⟨ch, l, rfl, ?_⟩⟩
        rcases hx with hx | hx | hx
        · exact .inl hx
        · exact .inr (.inl hx)
        · exact .inr (.inr ⟨_, hv, hx⟩)
      · rintro ⟨rfl, hx | ⟨ch', l', he, hx⟩⟩
        · cases hx
        · cases he
          refine ⟨rfl, ?_⟩
          rcases hx with hx | hx | ⟨w, hw, hh⟩
          · exact .inl hx
          · exact .inr (.inl hx)
          · rw [hv] at hw; cases hw; exact .inr (.inr hh)

/-- The other protocols are opened exactly when the peer of a session that the node opened presents itself as a node
of the same chain: the feeler protocol alone on a feeler session, all others on any other. -/
theorem C97_gate {c : Cfg} {h : History} {m m' : Ident} {e : Ev} {fx : List Eff} (r : Run c h m)
    (hs : step c m e = .ok (m', fx)) (s : Nat) (f : Bool) :
    (if f then Eff.openFeeler s else Eff.openAll s) ∈ fx ↔ ∃ x l, Presents c s h e x f l ∧ x.outbound = true := by
  cases e with
  | connected s' a o k own now =>
    rw [connected_fx hs]
    constructor
    · intro hm; cases o <;> cases f <;> simp at hm
    · rintro ⟨x, l, ⟨b, he, _⟩, _⟩; cases he
  | disconnected s' =>
    simp only [step, disconnected] at hs
    split at hs
    · cases hs
    · cases hs
      constructor
      · intro hm; split at hm <;> cases f <;> simp at hm
      · rintro ⟨x, l, ⟨b, he, _⟩, _⟩; cases he
  | timer now =>
    cases hs
    constructor
    · intro hm
      obtain ⟨y, _, hy⟩ := List.mem_map.1 hm
      cases f <;> simp at hy
    · rintro ⟨x, l, ⟨b, he, _⟩, _⟩; cases he
  | received s' b g =>
    have hdis : ∀ y, ¬ (if f then Eff.openFeeler s else Eff.openAll s) = .disconnect y := by
      intro y; cases f <;> simp
    have hop : ∀ x, (if f then Eff.openFeeler s else Eff.openAll s) ∈ opening s' x g ↔ x.outbound = true ∧ s' = s ∧ f = g := by
      intro x
      rw [mem_opening]
      cases f <;> cases g <;> simp <;> intro _ <;> exact eq_comm
    rcases received_cases hs with ⟨hid, rfl, rfl⟩ | ⟨ch, l, x, hid, hg, hc⟩
    · constructor
      · intro hm; exact absurd (List.mem_singleton.1 hm) (hdis _)
      · rintro ⟨x, l, ⟨b', he, hv, hh, hi⟩, _⟩; cases he; rw [hid] at hi; cases hi
    · have hv := view_of r hg
      have hiff : (if f then Eff.openFeeler s else Eff.openAll s) ∈ fx ↔
          x.received = false ∧ ch = c.chain ∧ x.outbound = true ∧ s' = s ∧ f = g := by
        rcases hc with ⟨hr, _, rfl⟩ | ⟨hr, _, ⟨hch, rfl⟩ | ⟨hch, ⟨hl, rfl⟩ | ⟨hl, rfl⟩⟩⟩
        · constructor
          · intro hm; exact absurd (List.mem_singleton.1 hm) (hdis _)
          · rintro ⟨h, _⟩; rw [hr] at h; cases h
        · constructor
          · intro hm; exact absurd (List.mem_singleton.1 hm) (hdis _)
          · rintro ⟨_, h, _⟩; exact absurd h hch
        · rw [List.mem_append, hop]
          constructor
          · rintro (h | h)
            · exact ⟨hr, hch, h⟩
            · exact absurd (List.mem_singleton.1 h) (hdis _)
          · rintro ⟨_, _, h⟩; exact .inl h
        · rw [List.mem_append, List.mem_append, hop]
          constructor
          · rintro ((h | h) | h)
            · exact ⟨hr, hch, h⟩
            · obtain ⟨a, _, h⟩ := List.mem_map.1 h
              cases f <;> simp at h
            · cases f <;> simp at h
          · rintro ⟨_, _, h⟩; exact .inl (.inl h)
      rw [hiff]
      constructor
      · rintro ⟨hr, rfl, ho, rfl, rfl⟩
        exact ⟨_, l, ⟨b, rfl, hv, hr, hid⟩, ho⟩
      · rintro ⟨w, l', ⟨b', he, hw, hh, hi⟩, ho⟩
        cases he
        rw [hid] at hi; cases hi
        rw [hv] at hw; cases hw
        exact ⟨hh, rfl, ho, rfl, rfl⟩

/-- The addresses entered in the store: that of a session the node opened, when it opens; and the reachable ones of
the at most ten with which the peer of a session presents itself. -/
theorem C97_learnt {c : Cfg} {h : History} {m m' : Ident} {e : Ev} {fx : List Eff} (r : Run c h m)
    (hs : step c m e = .ok (m', fx)) (a : MAddr) :
    (Eff.learnOutbound a ∈ fx ↔ ∃ s k own now, e = .connected s a true k own now) ∧
    (Eff.relearn a ∈ fx ↔ ∃ s x, e = .disconnected s ∧ view c s h = some x ∧ x.outbound = true ∧ x.addr = a) ∧
    (Eff.learn a ∈ fx ↔ ∃ s x f l, Presents c s h e x f l ∧ l.length ≤ 10 ∧ a ∈ l ∧ Discovery.Reachable c.env a) := by
  cases e with
  | connected s' b o k own now =>
    rw [connected_fx hs]
    refine ⟨?_, ?_, ?_⟩
    · cases o <;> simp [eq_comm]
    · constructor
      · intro hm; cases o <;> simp at hm
      · rintro ⟨_, _, he, _⟩; cases he
    · constructor
      · intro hm; cases o <;> simp at hm
      · rintro ⟨_, _, _, _, ⟨_, he, _⟩, _⟩; cases he
  | disconnected s' =>
    simp only [step, disconnected] at hs
    split at hs
    · cases hs
    · rename_i x hg
      cases hs
      refine ⟨?_, ?_, ?_⟩
      · constructor
        · intro hm; split at hm <;> simp at hm
        · rintro ⟨_, _, _, _, he⟩; cases he
      · constructor
        · intro hm
          split at hm
          · rename_i ho; cases List.mem_singleton.1 hm; exact ⟨s', _, rfl, view_of r hg, ho, rfl⟩
          · cases hm
        · rintro ⟨s, w, he, hw, ho, rfl⟩
          cases he
          rw [view_of r hg] at hw; cases hw
          rw [if_pos ho]; exact List.mem_singleton.2 rfl
      · constructor
        · intro hm; split at hm <;> simp at hm
        · rintro ⟨_, _, _, _, ⟨_, he, _⟩, _⟩; cases he
  | timer now =>
    cases hs
    have : ∀ y ∈ timer m now, ∃ s, y = .disconnect s := fun y hy => by
      obtain ⟨z, _, hz⟩ := List.mem_map.1 hy; exact ⟨_, hz.symm⟩
    refine ⟨?_, ?_, ?_⟩
    · constructor
      · intro hm; obtain ⟨s, h⟩ := this _ hm; cases h
      · rintro ⟨_, _, _, _, he⟩; cases he
    · constructor
      · intro hm; obtain ⟨s, h⟩ := this _ hm; cases h
      · rintro ⟨_, _, he, _⟩; cases he
    · constructor
      · intro hm; obtain ⟨s, h⟩ := this _ hm; cases h
      · rintro ⟨_, _, _, _, ⟨_, he, _⟩, _⟩; cases he
  | received s' b g =>
    have hop : ∀ x y, y ∈ opening s' x g → y = .openFeeler s' ∨ y = .openAll s' := by
      intro x y hy
      rw [mem_opening] at hy
      obtain ⟨_, hy⟩ := hy
      cases g
      · exact .inr hy
      · exact .inl hy
    have hall : ∀ y ∈ fx, (∃ a', y = .learn a') ∨ y = .disconnect s' ∨ y = .openFeeler s' ∨ y = .openAll s' ∨
        ∃ l, y = .listens s' l := by
      intro y hy
      rcases received_cases hs with ⟨hid, rfl, rfl⟩ | ⟨ch, l, x, hid, hg, hc⟩
      · exact .inr (.inl (List.mem_singleton.1 hy))
      · rcases hc with ⟨hr, _, rfl⟩ | ⟨hr, _, ⟨hch, rfl⟩ | ⟨hch, ⟨hl, rfl⟩ | ⟨hl, rfl⟩⟩⟩
        · exact .inr (.inl (List.mem_singleton.1 hy))
        · exact .inr (.inl (List.mem_singleton.1 hy))
        · rcases List.mem_append.1 hy with hy | hy
          · rcases hop _ _ hy with h | h
            · exact .inr (.inr (.inl h))
            · exact .inr (.inr (.inr (.inl h)))
          · exact .inr (.inl (List.mem_singleton.1 hy))
        · rcases List.mem_append.1 hy with hy | hy
          · rcases List.mem_append.1 hy with hy | hy
            · rcases hop _ _ hy with h | h
              · exact .inr (.inr (.inl h))
              · exact .inr (.inr (.inr (.inl h)))
            · obtain ⟨a', _, h⟩ := List.mem_map.1 hy
              exact .inl ⟨a', h.symm⟩
          · exact .inr (.inr (.inr (.inr ⟨_, List.mem_singleton.1 hy⟩)))
    refine ⟨?_, ?_, ?_⟩
    · constructor
      · intro hm; rcases hall _ hm with ⟨_, h⟩ | h | h | h | ⟨_, h⟩ <;> cases h
      · rintro ⟨_, _, _, _, he⟩; cases he
    · constructor
      · intro hm; rcases hall _ hm with ⟨_, h⟩ | h | h | h | ⟨_, h⟩ <;> cases h
      · rintro ⟨_, _, he, _⟩; cases he
    · have hno : ∀ x, Eff.learn a ∉ opening s' x g := by
        intro x hy; rcases hop _ _ hy with h | h <;> cases h
      rcases received_cases hs with ⟨hid, rfl, rfl⟩ | ⟨ch, l, x, hid, hg, hc⟩
      · constructor
        · intro hm; cases List.mem_singleton.1 hm
        · rintro ⟨_, _, _, _, ⟨_, he, _, _, hi⟩, _⟩; cases he; rw [hid] at hi; cases hi
      · have hv := view_of r hg
        have hiff : Eff.learn a ∈ fx ↔ x.received = false ∧ ch = c.chain ∧ l.length ≤ 10 ∧ a ∈ l ∧ Discovery.Reachable c.env a := by
          rcases hc with ⟨hr, _, rfl⟩ | ⟨hr, _, ⟨hch, rfl⟩ | ⟨hch, ⟨hl, rfl⟩ | ⟨hl, rfl⟩⟩⟩
          · constructor
            · intro hm; cases List.mem_singleton.1 hm
            · rintro ⟨h, _⟩; rw [hr] at h; cases h
          · constructor
            · intro hm; cases List.mem_singleton.1 hm
            · rintro ⟨_, h, _⟩; exact absurd h hch
          · constructor
            · intro hm
              rcases List.mem_append.1 hm with h | h
              · exact absurd h (hno x)
              · cases List.mem_singleton.1 h
            · rintro ⟨_, _, h, _⟩; omega
          · rw [List.mem_append, List.mem_append]
            constructor
            · rintro ((h | h) | h)
              · exact absurd h (hno x)
              · obtain ⟨a', h, he⟩ := List.mem_map.1 h
                cases he
                obtain ⟨h1, h2⟩ := List.mem_filter.1 h
                exact ⟨hr, hch, hl, h1, (Discovery.valid_iff _ _).1 h2⟩
              · cases List.mem_singleton.1 h
            · rintro ⟨_, _, _, h1, h2⟩
              exact .inl (.inr (List.mem_map.2 ⟨a, List.mem_filter.2 ⟨h1, (Discovery.valid_iff _ _).2 h2⟩, rfl⟩))
        rw [hiff]
        constructor
        · rintro ⟨hr, rfl, hl, ha, hR⟩
          exact ⟨s', _, g, l, ⟨b, rfl, hv, hr, hid⟩, hl, ha, hR⟩
        · rintro ⟨s, w, f, l', ⟨b', he, hw, hh, hi⟩, hl, ha, hR⟩
          cases he
          rw [hid] at hi; cases hi
          rw [hv] at hw; cases hw
          exact ⟨hh, rfl, hl, ha, hR⟩

/-- The node presents itself once, when a session opens: its chain, the first ten of its reachable listen addresses,
and the address of the peer as it sees it. -/
theorem C97_hello {c : Cfg} {m m' : Ident} {e : Ev} {fx : List Eff} (hs : step c m e = .ok (m', fx)) (s : Nat)
    (i : Identity) : Eff.send s i ∈ fx ↔ ∃ a o k own now, e = .connected s a o k own now ∧ i.chainId = c.chain ∧
      i.info = some ⟨((own.filter fun x => decide (Discovery.Reachable c.env x)).take 10).map c.env.print, c.env.print a⟩ := by
  have hval : c.env.valid = fun x => decide (Discovery.Reachable c.env x) := by
    funext x
    rw [Bool.eq_iff_iff, decide_eq_true_iff]
    exact Discovery.valid_iff _ _
  have other : (∀ y ∈ fx, ∀ s i, y ≠ .send s i) → (∀ a o k own now, e ≠ .connected s a o k own now) →
      (Eff.send s i ∈ fx ↔ ∃ a o k own now, e = .connected s a o k own now ∧ i.chainId = c.chain ∧
      i.info = some ⟨((own.filter fun x => decide (Discovery.Reachable c.env x)).take 10).map c.env.print, c.env.print a⟩) := by
    intro h1 h2
    constructor
    · intro h; exact absurd rfl (h1 _ h s i)
    · rintro ⟨a, o, k, own, now, he, _⟩; exact absurd he (h2 _ _ _ _ _)
  cases e with
  | connected s' b o k own now =>
    rw [connected_fx hs, List.mem_append, List.mem_singleton, hval]
    have : Eff.send s i ∉ (if o then [Eff.learnOutbound b] else []) := by cases o <;> simp
    constructor
    · rintro (h | h)
      · exact absurd h this
      · cases h; exact ⟨b, o, k, own, now, rfl, rfl, rfl⟩
    · rintro ⟨a, o', k', own', now', he, h1, h2⟩
      cases he
      right
      obtain ⟨ic, ii⟩ := i
      simp only at h1 h2
      rw [h1, h2]
  | disconnected s' =>
    refine other (fun y hy s i => ?_) (fun _ _ _ _ _ h => by cases h)
    simp only [step, disconnected] at hs
    split at hs
    · cases hs
    · cases hs
      split at hy
      · cases List.mem_singleton.1 hy; simp
      · cases hy
  | timer now =>
    cases hs
    refine other (fun y hy s i => ?_) (fun _ _ _ _ _ h => by cases h)
    obtain ⟨z, _, rfl⟩ := List.mem_map.1 hy
    simp
  | received s' b g =>
    refine other (fun y hy s i => ?_) (fun _ _ _ _ _ h => by cases h)
    have hop : ∀ x y, y ∈ opening s' x g → y ≠ .send s i := by
      intro x y hy
      rw [mem_opening] at hy
      obtain ⟨_, rfl⟩ := hy
      cases g <;> simp
    rcases received_cases hs with ⟨hid, rfl, rfl⟩ | ⟨ch, l, x, hid, hg, hc⟩
    · cases List.mem_singleton.1 hy; simp
    · rcases hc with ⟨hr, _, rfl⟩ | ⟨hr, _, ⟨hch, rfl⟩ | ⟨hch, ⟨hl, rfl⟩ | ⟨hl, rfl⟩⟩⟩
      · cases List.mem_singleton.1 hy; simp
      · cases List.mem_singleton.1 hy; simp
      · rcases List.mem_append.1 hy with hy | hy
        · exact hop _ _ hy
        · cases List.mem_singleton.1 hy; simp
      · rcases List.mem_append.1 hy with hy | hy
        · rcases List.mem_append.1 hy with hy | hy
          · exact hop _ _ hy
          · obtain ⟨a, _, rfl⟩ := List.mem_map.1 hy; simp
        · cases List.mem_singleton.1 hy; simp

/-- The message with which node `A` opens a session is accepted by node `B` of the same chain: it closes no session,
and presents `A` with its reachable listen addresses. -/
theorem C97_peers {cA cB : Cfg} {hB : History} {mA mA' mB mB' : Ident} {eA : Ev} {fxA fxB : List Eff} {sA sB : Nat}
    {i : Identity} {f : Bool} (rB : Run cB hB mB) (hA : step cA mA eA = .ok (mA', fxA)) (hi : Eff.send sA i ∈ fxA)
    (hu : utf8 cA.chain = true) (hl : (encodeIdentity i).length < 2 ^ 64) (hchain : cA.chain = cB.chain)
    (hparse : ∀ a, cB.env.parse (cA.env.print a) = some a) {x : View} (hv : view cB sB hB = some x) (hx : x.heard = false)
    (hB : step cB mB (.received sB (encodeIdentity i) f) = .ok (mB', fxB)) :
    (∀ s, Eff.disconnect s ∉ fxB) ∧ ∃ own : List MAddr, own.length ≤ 10 ∧ (∀ a ∈ own, Discovery.Reachable cA.env a) ∧
      Presents cB sB ‹History› (.received sB (encodeIdentity i) f) x f own := by
  obtain ⟨a, o, k, own, now, he, h1, h2⟩ := (C97_hello hA sA i).1 hi
  have hdec : decodeIdentity (encodeIdentity i) = some i := C94_identity i (by rw [h1]; exact hu) hl
  have hfm : ∀ l : List MAddr, (l.map cA.env.print).filterMap cB.env.parse = l := by
    intro l
    induction l with
    | nil => rfl
    | cons a l ih => rw [List.map_cons, List.filterMap_cons, hparse, ih]
  have hid : identity cB (encodeIdentity i) =
      some (cB.chain, (own.filter fun x => decide (Discovery.Reachable cA.env x)).take 10) := by
    simp only [identity, hdec, Option.bind_some, h2, Option.map_some, h1, hchain, hfm]
  refine ⟨fun s hd => ?_, _, ?_, ?_, encodeIdentity i, rfl, hv, hx, hid⟩
  · rcases (C97_closed rB hB s).1 hd with ⟨b, f', he', hx'⟩ | ⟨n, x', he', _⟩
    · cases he'
      rw [hid] at hx'
      rcases hx' with hx' | ⟨ch, l, he', hx' | hx' | ⟨w, hw, hh⟩⟩
      · cases hx'
      · cases he'; exact hx' rfl
      · cases he'; simp at hx'; omega
      · rw [hv] at hw; cases hw; rw [hx] at hh; cases hh
    · cases he'
  · simp; omega
  · intro a' ha'
    have := (List.mem_filter.1 (List.mem_of_mem_take ha')).2
    simpa using this

/-- The listen addresses recorded for a session are the reachable ones with which its peer presents itself. -/
theorem C97_listens {c : Cfg} {h : History} {m m' : Ident} {s : Nat} {b : Bytes} {f : Bool} {fx : List Eff} {x : View}
    {l : List MAddr} (r : Run c h m) (hs : step c m (.received s b f) = .ok (m', fx))
    (hp : Presents c s h (.received s b f) x f l) (hl : l.length ≤ 10) (k : List MAddr) (s' : Nat) :
    Eff.listens s' k ∈ fx ↔ s' = s ∧ k = l.filter fun a => decide (Discovery.Reachable c.env a) := by
  have hval : c.env.valid = fun x => decide (Discovery.Reachable c.env x) := by
    funext x
    rw [Bool.eq_iff_iff, decide_eq_true_iff]
    exact Discovery.valid_iff _ _
  obtain ⟨b', he, hv, hh, hi⟩ := hp
  cases he
  have hg := of_view r hv
  rcases received_cases hs with ⟨hid, _⟩ | ⟨ch, l', y, hid, hg', hc⟩
  · rw [hi] at hid; cases hid
  · rw [hi] at hid; cases hid
    rw [hg] at hg'; cases hg'
    rcases hc with ⟨hr, _⟩ | ⟨_, _, ⟨hch, _⟩ | ⟨_, ⟨hl', _⟩ | ⟨_, rfl⟩⟩⟩
    · simp only [hh] at hr; cases hr
    · exact absurd rfl hch
    · omega
    · rw [List.mem_append, List.mem_append, List.mem_singleton, hval]
      constructor
      · rintro ((h | h) | h)
        · rw [mem_opening] at h
          obtain ⟨_, h⟩ := h
          cases f <;> cases h
        · obtain ⟨z, _, h⟩ := List.mem_map.1 h; cases h
        · cases h; exact ⟨rfl, rfl⟩
      · rintro ⟨rfl, rfl⟩; exact .inr rfl

/-- Does the effect open protocols on `s`? -/
def opens (s : Nat) : Eff → Bool
  | .openFeeler s' => s' == s
  | .openAll s' => s' == s
  | _ => false

/-- How often protocols were opened on `s` since it was opened. -/
def opened (s : Nat) : History → Nat
  | [] => 0
  | (.connected s' _ _ _ _ _, fx) :: l => if s' = s then 0 else opened s l + (fx.filter (opens s)).length
  | (_, fx) :: l => opened s l + (fx.filter (opens s)).length

/-- On every session protocols are opened at most once. -/
theorem C97_once {c : Cfg} {h : History} {m : Ident} (r : Run c h m) (s : Nat) : opened s h ≤ 1 ∧
    ∀ x, view c s h = some x → opened s h = 1 → x.heard = true := by
  suffices hmain : ∀ {h m}, Run c h m → (opened s h ≤ 1 ∧ ∀ x, view c s h = some x → opened s h = 1 → x.heard = true) from
    hmain r
  intro h m r
  induction r with
  | new => exact ⟨by simp [opened], fun x hx => by cases hx⟩
  | @step h m m' e fx r hs ih =>
    cases e with
    | connected s' a o k own now =>
      simp only [opened, view]
      by_cases hne : s' = s
      · rw [if_pos hne, if_pos hne]
        exact ⟨by omega, fun x hx h => by omega⟩
      · rw [if_neg hne, if_neg hne, connected_fx hs]
        have : (((if o then [Eff.learnOutbound a] else []) ++
          [Eff.send s' ⟨c.chain, some ⟨((own.filter c.env.valid).take 10).map c.env.print, c.env.print a⟩⟩]).filter (opens s)).length = 0 := by
          cases o <;> simp [opens]
        rw [this]
        exact ih
    | disconnected s' =>
      simp only [step, disconnected] at hs
      split at hs
      · cases hs
      · cases hs
        simp only [opened, view]
        have : ∀ x : Info, ((if x.outbound then [Eff.relearn x.addr] else []).filter (opens s)).length = 0 := by
          intro x; cases x.outbound <;> simp [opens]
        rw [this]
        refine ⟨ih.1, fun x hx => ?_⟩
        split at hx
        · cases hx
        · exact ih.2 x hx
    | timer now =>
      cases hs
      simp only [opened, view]
      have : ((timer m now).filter (opens s)).length = 0 := by
        rw [List.length_eq_zero_iff, List.filter_eq_nil_iff]
        intro y hy
        obtain ⟨z, _, rfl⟩ := List.mem_map.1 hy
        simp [opens]
      rw [this]
      exact ih
    | received s' b f =>
      simp only [opened]
      have hz : ((fx.filter (opens s)).length = 0) ∨ ((fx.filter (opens s)).length = 1 ∧ s' = s ∧ ∃ x l, identity c b = some (c.chain, l) ∧
          get m s = some x ∧ x.received = false) := by
        have hop : ∀ x : Info, ((opening s' x f).filter (opens s)).length = 0 ∨
            ((opening s' x f).filter (opens s)).length = 1 ∧ s' = s := by
          intro x
          unfold opening
          by_cases hne : s' = s
          · cases x.outbound <;> cases f <;> simp [opens, hne]
          · cases x.outbound <;> cases f <;> simp [opens, hne]
        rcases received_cases hs with ⟨hid, rfl, rfl⟩ | ⟨ch, l, x, hid, hg, hc⟩
        · exact .inl (by simp [opens])
        · rcases hc with ⟨hr, _, rfl⟩ | ⟨hr, _, ⟨hch, rfl⟩ | ⟨hch, ⟨hl, rfl⟩ | ⟨hl, rfl⟩⟩⟩
          · exact .inl (by simp [opens])
          · exact .inl (by simp [opens])
          · rw [List.filter_append, List.length_append]
            have : ([Eff.disconnect s'].filter (opens s)).length = 0 := by simp [opens]
            rw [this]
            rcases hop x with h | ⟨h, h'⟩
            · exact .inl h
            · subst h'; exact .inr ⟨h, rfl, x, l, by rw [hid, hch], hg, hr⟩
          · rw [List.filter_append, List.filter_append, List.length_append, List.length_append]
            have h1 : ([Eff.listens s' (l.filter c.env.valid)].filter (opens s)).length = 0 := by simp [opens]
            have h2 : (((l.filter c.env.valid).map Eff.learn).filter (opens s)).length = 0 := by
              rw [List.length_eq_zero_iff, List.filter_eq_nil_iff]
              intro y hy
              obtain ⟨z, _, rfl⟩ := List.mem_map.1 hy
              simp [opens]
            rw [h1, h2]
            rcases hop x with h | ⟨h, h'⟩
            · exact .inl h
            · subst h'; exact .inr ⟨h, rfl, x, l, by rw [hid, hch], hg, hr⟩
      rcases hz with h0 | ⟨h1, rfl, x, l, hid, hg, hr⟩
      · rw [h0]
        refine ⟨ih.1, fun x hx ho => ?_⟩
        simp only [view] at hx
        split at hx
        · rw [Option.map_eq_some_iff] at hx
          obtain ⟨w, _, rfl⟩ := hx
          rfl
        · exact ih.2 x hx ho
      · have hv := view_of r hg
        have hz : opened s' h = 0 := by
          have h2 := ih.2 _ hv
          have h3 := ih.1
          by_cases h4 : opened s' h = 1
          · have := h2 h4; simp only [hr] at this; cases this
          · omega
        rw [h1, hz]
        refine ⟨by omega, fun w hw _ => ?_⟩
        simp only [view] at hw
        rw [if_pos ⟨by trivial, by rw [hid]; simp⟩, hv] at hw
        cases hw
        rfl

/-- The handler stops the node only on a session without peer id or public key, or on news of a session that it does
not know. -/
theorem C97_total {c : Cfg} {h : History} {m : Ident} (r : Run c h m) (e : Ev)
    (he : match e with
      | .connected _ a _ k _ _ => a.peer ≠ none ∧ k = true
      | .disconnected s => view c s h ≠ none
      | .received s _ _ => view c s h ≠ none
      | .timer _ => True) : ∃ m' fx, step c m e = .ok (m', fx) := by
  cases e with
  | connected s a o k own now =>
    obtain ⟨p, hp⟩ := Option.ne_none_iff_exists'.1 he.1
    simp only [step, connected, hp]
    rw [if_neg (by simp [he.2])]
    exact ⟨_, _, rfl⟩
  | disconnected s =>
    obtain ⟨w, hw⟩ := Option.ne_none_iff_exists'.1 he
    simp only [step, disconnected]
    rw [of_view r hw]
    exact ⟨_, _, rfl⟩
  | timer now => exact ⟨_, _, rfl⟩
  | received s b f =>
    obtain ⟨w, hw⟩ := Option.ne_none_iff_exists'.1 he
    simp only [step, received]
    rw [of_view r hw]
    cases decodeIdentity b with
    | none => exact ⟨_, _, rfl⟩
    | some msg =>
      simp only
      cases msg.info with
      | none => exact ⟨_, _, rfl⟩
      | some i =>
        simp only
        split
        · exact ⟨_, _, rfl⟩
        · split
          · exact ⟨_, _, rfl⟩
          · split <;> exact ⟨_, _, rfl⟩

/-! ## What does not hold -/

/-- A message that closes the session may open protocols on it first: that of a peer of the same chain that names too
many addresses. -/
theorem C97_opened_false {c : Cfg} {h : History} {m m' : Ident} {b : Bytes} {s : Nat} {fx : List Eff} {x : View}
    {l : List MAddr} (r : Run c h m) (hs : step c m (.received s b false) = .ok (m', fx)) (hv : view c s h = some x)
    (hx : x.heard = false) (ho : x.outbound = true) (hi : identity c b = some (c.chain, l)) (hl : l.length > 10) :
    Eff.openAll s ∈ fx ∧ Eff.disconnect s ∈ fx :=
  ⟨(C97_gate r hs s false).2 ⟨x, l, ⟨b, rfl, hv, hx, hi⟩, ho⟩,
    (C97_closed r hs s).2 (.inl ⟨b, false, rfl, .inr ⟨c.chain, l, hi, .inr (.inl hl)⟩⟩)⟩

/-- A peer of another chain that the node dialled is kept in the store as one connected to: it is entered when the
session opens, before it presents itself, and again when it closes. -/
theorem C97_foreign_false (c : Cfg) (a : MAddr) (ha : a.peer ≠ none) (b : Bytes) (ch : Bytes) (l : List MAddr)
    (hi : identity c b = some (ch, l)) (hc : ch ≠ c.chain) (now : Nat) : ∃ m fx1,
    Run c [(.disconnected 1, [.relearn a]), (.received 1 b false, [.disconnect 1]), (.connected 1 a true true [] now, fx1)] m ∧
      Eff.learnOutbound a ∈ fx1 := by
  obtain ⟨p, hp⟩ := Option.ne_none_iff_exists'.1 ha
  have h1 : step c [] (.connected 1 a true true [] now) = .ok ([(1, ⟨a, true, now, false⟩)],
      [.learnOutbound a, .send 1 ⟨c.chain, some ⟨[], c.env.print a⟩⟩]) := by
    simp only [step, connected, hp]; rfl
  have r1 := Run.step .new h1
  obtain ⟨m2, fx2, h2⟩ := C97_total r1 (.received 1 b false) (by simp [view])
  have h2' : received c [(1, ⟨a, true, now, false⟩)] 1 b false = .ok (m2, fx2) := h2
  have hk : get [(1, (⟨a, true, now, false⟩ : Info))] 1 = some ⟨a, true, now, false⟩ := rfl
  rcases received_cases h2' with ⟨hid, _⟩ | ⟨ch', l', x, hid, hg, hcs⟩
  · rw [hi] at hid; cases hid
  · rw [hi] at hid; cases hid
    rw [hk] at hg; cases hg
    rcases hcs with ⟨hr, _⟩ | ⟨_, rfl, ⟨_, rfl⟩ | ⟨h, _⟩⟩
    · cases hr
    · have r2 := Run.step r1 h2
      have h3 : step c (put [(1, (⟨a, true, now, false⟩ : Info))] 1 ⟨a, true, now, true⟩) (.disconnected 1) =
          .ok ([], [.relearn a]) := rfl
      exact ⟨_, _, Run.step r2 h3, List.mem_cons_self⟩
    · exact absurd h hc

/-- The addresses under which peers see the node are never tried: nothing is dialled. -/
theorem C97_observed_false {c : Cfg} {m m' : Ident} {e : Ev} {fx : List Eff} (hs : step c m e = .ok (m', fx)) (a : MAddr) :
    Eff.dial a ∉ fx := by
  intro hd
  cases e with
  | connected s' b o k own now => rw [connected_fx hs] at hd; cases o <;> simp at hd
  | disconnected s' =>
    simp only [step, disconnected] at hs
    split at hs
    · cases hs
    · cases hs; split at hd <;> simp at hd
  | timer now => cases hs; obtain ⟨z, _, h⟩ := List.mem_map.1 hd; cases h
  | received s' b g =>
    have hop : ∀ x, Eff.dial a ∉ opening s' x g := by
      intro x hy
      rw [mem_opening] at hy
      obtain ⟨_, h⟩ := hy
      cases g <;> cases h
    rcases received_cases hs with ⟨hid, rfl, rfl⟩ | ⟨ch, l, x, hid, hg, hc⟩
    · simp at hd
    · rcases hc with ⟨hr, _, rfl⟩ | ⟨hr, _, ⟨hch, rfl⟩ | ⟨hch, ⟨hl, rfl⟩ | ⟨hl, rfl⟩⟩⟩
      · simp at hd
      · simp at hd
      · rcases List.mem_append.1 hd with hd | hd
        · exact hop _ hd
        · simp at hd
      · rcases List.mem_append.1 hd with hd | hd
        · rcases List.mem_append.1 hd with hd | hd
          · exact hop _ hd
          · obtain ⟨z, _, h⟩ := List.mem_map.1 hd; cases h
        · simp at hd

/-! ## Cases -/

def cfg0 : Cfg := ⟨[0x31], Discovery.env0⟩

def msg0 (chain : UInt8) (l : List Bytes) : Bytes := encodeIdentity ⟨[chain], some ⟨l, [9, 80, 4]⟩⟩

/-- A peer of the same chain names a reachable and an unreachable address. -/
example : (match step cfg0 [(1, ⟨Discovery.addr0 7 80 3, true, 0, false⟩)] (.received 1 (msg0 0x31 [[5, 80, 3], [150, 80, 3]]) false) with
    | .ok (_, fx) => fx
    | _ => []) = [.openAll 1, .learn (Discovery.addr0 5 80 3), .listens 1 [Discovery.addr0 5 80 3]] := by decide +kernel

/-- A peer of another chain is refused, and so is one that has nothing to say for eight seconds. -/
example : (match step cfg0 [(1, ⟨Discovery.addr0 7 80 3, true, 0, false⟩)] (.received 1 (msg0 0x32 [[5, 80, 3]]) false) with
    | .ok (_, fx) => fx
    | _ => []) = [.disconnect 1] ∧
    timer [(1, ⟨Discovery.addr0 7 80 3, true, 0, false⟩), (2, ⟨Discovery.addr0 8 80 3, true, 1, false⟩)] 8000 = [.disconnect 1] := by
  decide +kernel

/-- The identity of another chain. -/
example : identity cfg0 (msg0 0x32 [[5, 80, 3]]) = some ([0x32], [Discovery.addr0 5 80 3]) := by decide +kernel

/-- Eleven addresses of a peer of the same chain. -/
example : identity cfg0 (msg0 0x31 (List.replicate 11 [5, 80, 3])) = some (cfg0.chain, List.replicate 11 (Discovery.addr0 5 80 3)) := by
  decide +kernel

/-- The addresses of the cases are read as they are written. -/
example : Discovery.env0.parse (Discovery.env0.print (Discovery.addr0 5 80 3)) = some (Discovery.addr0 5 80 3) := by decide

end Axon.Identify
