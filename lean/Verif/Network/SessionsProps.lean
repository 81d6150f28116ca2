import Verif.Network.Sessions
import Verif.Network.AddrManagerProps

/-!
# C93: which sessions are kept, counted, refused and dialled
-/

namespace Axon.Sessions

open Axon.Assoc Axon.Bans Axon.Peers

/-! ## Specification: what an observer of the events knows -/

/-- The sessions that are open, the addresses dialled as feelers and otherwise whose dial has no result
yet, and the sessions the node serves: neither feelers nor told to disconnect. -/
structure Seen where
  conns : List Sess
  feelers : List MAddr
  dialing : List MAddr
  served : List Sess

def Seen.next (g : Seen) (x : Ev × List Eff) : Seen :=
  match x.1 with
  | .opened s _ =>
    { g with
      conns := s :: g.conns
      dialing := g.dialing.filter (· ≠ s.addr)
      served := if s.addr ∈ g.feelers ∨ Eff.disconnect s.id ∈ x.2 then g.served else s :: g.served }
  | .closed s =>
    { g with
      conns := g.conns.filter (· ≠ s)
      feelers := g.feelers.filter (· ≠ s.addr)
      served := g.served.filter (· ≠ s) }
  | .dialError a => { g with feelers := g.feelers.filter (· ≠ a), dialing := g.dialing.filter (· ≠ a) }
  | .dialFeeler a => if Eff.dial a ∈ x.2 then { g with feelers := a :: g.feelers } else g
  | .dialIdentify a => if Eff.dial a ∈ x.2 then { g with dialing := a :: g.dialing } else g
  | _ => g

def seen (h : List (Ev × List Eff)) : Seen := h.foldl Seen.next ⟨[], [], [], []⟩

/-- What the library promises: a session's address names its peer, a session has a number and a peer that
no other open session has, and only open sessions close.  Addresses the node dials name a peer. -/
def EvOk (g : Seen) : Ev → Prop
  | .opened s _ => s.addr.peer.isSome ∧ ∀ t ∈ g.conns, t.id ≠ s.id ∧ t.addr.peer ≠ s.addr.peer
  | .closed s => s ∈ g.conns
  | .dialFeeler a => a.peer.isSome
  | .dialIdentify a => a.peer.isSome
  | _ => True

inductive Legal : List (Ev × List Eff) → Prop where
  | nil : Legal []
  | snoc {h e fx} : Legal h → EvOk (seen h) e → Legal (h ++ [(e, fx)])

theorem seen_snoc (h : List (Ev × List Eff)) (x : Ev × List Eff) : seen (h ++ [x]) = (seen h).next x := by
  simp [seen]

theorem legal_snoc {h : List (Ev × List Eff)} {x : Ev × List Eff} (hl : Legal (h ++ [x])) :
    Legal h ∧ EvOk (seen h) x.1 := by
  generalize hk : h ++ [x] = k at hl
  cases hl with
  | nil => simp at hk
  | snoc h1 h2 =>
    obtain ⟨rfl, hx⟩ := List.append_inj' hk rfl
    simp only [List.cons.injEq, and_true] at hx
    subst hx
    exact ⟨h1, h2⟩

/-! ## The invariant -/

structure Inv (n : Node) (g : Seen) : Prop where
  served : n.peers.map (·.2) = g.served
  key : ∀ e ∈ n.peers, e.2.addr.peer = some e.1
  sub : ∀ s ∈ g.served, s ∈ g.conns
  peer : ∀ s ∈ g.conns, s.addr.peer.isSome
  conns : g.conns.Pairwise fun s t => s.id ≠ t.id ∧ s.addr.peer ≠ t.addr.peer
  feelers : n.feeler = g.feelers
  dialing : n.dialing = g.dialing
  nodup : NodupKeys n.peers
  conn : ∀ p, p ∈ n.store.conn ↔ (Assoc.get n.peers p).isSome

theorem Inv.served_pw {n : Node} {g : Seen} (h : Inv n g) (s t : Sess) (hs : s ∈ g.conns) (ht : t ∈ g.conns)
    (hp : s.addr.peer = t.addr.peer) : s = t := by
  have := h.conns
  have := List.Pairwise.forall_of_forall_of_flip (R := fun s t => s.addr.peer = t.addr.peer → s = t) (l := g.conns)
    (fun _ _ _ => rfl) (this.imp fun hh h1 => absurd h1 hh.2)
    ((this.imp fun hh h1 => absurd h1.symm hh.2))
  exact this hs ht hp

theorem Inv.mem_served {n : Node} {g : Seen} (h : Inv n g) (s : Sess) : s ∈ g.served ↔ ∃ p, (p, s) ∈ n.peers := by
  rw [← h.served]
  simp

theorem Inv.get {n : Node} {g : Seen} (h : Inv n g) (p : Nat) (s : Sess) :
    Assoc.get n.peers p = some s ↔ s ∈ g.served ∧ s.addr.peer = some p := by
  rw [h.mem_served]
  constructor
  · intro hg
    have := mem_of_get hg
    exact ⟨⟨p, this⟩, h.key _ this⟩
  · rintro ⟨⟨q, hq⟩, hp⟩
    have := h.key _ hq
    rw [hp] at this
    cases this
    exact get_of_mem h.nodup hq

theorem del_fresh {l : List (Nat × Sess)} {p : Nat} (h : Assoc.get l p = none) : l.filter (fun e => e.1 ≠ p) = l := by
  rw [List.filter_eq_self]
  intro e he
  have : e.1 ≠ p := by
    intro hh
    have := get_isSome_iff.2 ⟨e.2, (hh ▸ he : (p, e.2) ∈ l)⟩
    rw [h] at this
    cases this
  simpa using this

theorem inv_new (boots : List (Nat × MAddr)) : Inv (Node.new boots) ⟨[], [], [], []⟩ :=
  ⟨rfl, by simp [Node.new], by simp, by simp, List.Pairwise.nil, rfl, rfl, List.Pairwise.nil, by
    intro p; simp [Node.new, Store.empty, get_nil]⟩

/-- Registering a session of a peer that has none. -/
theorem register_spec {n : Node} {g : Seen} (h : Inv n g) (s : Sess) {p : Nat} (hp : s.addr.peer = some p)
    (hf : ∀ t ∈ g.conns, t.addr.peer ≠ s.addr.peer) :
    ∃ st, n.register s = .ok { n with peers := (p, s) :: n.peers, store := st } ∧
      n.store.step (.connect s.addr) = .ok st ∧ (∀ q, q ∈ st.conn ↔ q = p ∨ q ∈ n.store.conn) := by
  have hg : Assoc.get n.peers p = none := by
    cases hh : Assoc.get n.peers p with
    | none => rfl
    | some t =>
      obtain ⟨h1, h2⟩ := (h.get p t).1 hh
      exact absurd (h2.trans hp.symm) (hf t (h.sub t h1))
  refine ⟨{ n.store with conn := p :: n.store.conn.filter (· ≠ p) }, ?_, ?_, ?_⟩
  · simp only [Node.register, Store.connect, hp, put, del_fresh hg]
  · simp only [Store.step, Store.connect, hp]
  · intro q
    by_cases hq : q = p <;> simp [hq]

/-- How a session opens. -/
theorem opened_spec {n : Node} {g : Seen} (h : Inv n g) (c : Config) (s : Sess) (now : Nat)
    (hok : EvOk g (.opened s now)) :
    ∃ n' fx, n.opened c s now = .ok (n', fx) ∧ Inv n' (g.next (.opened s now, fx)) ∧
      (n'.store = n.store ∨ n.store.step (.connect s.addr) = .ok n'.store) ∧
      n'.boots = n.boots ∧ n'.consensus = n.consensus ∧ fx = (if s.addr ∉ g.feelers ∧ n.full c s.outbound = true ∧
        n.store.isBanned s.addr now = true ∧ (∀ p, s.addr.peer = some p → Assoc.get n.boots p = none ∧ p ∉ n.consensus)
        then [Eff.disconnect s.id] else []) := by
  obtain ⟨hp, hf⟩ := hok
  obtain ⟨p, hp⟩ := Option.isSome_iff_exists.1 hp
  have hcons : (s :: g.conns).Pairwise fun s t => s.id ≠ t.id ∧ s.addr.peer ≠ t.addr.peer :=
    List.pairwise_cons.2 ⟨fun t ht => ⟨fun e => (hf t ht).1 e.symm, fun e => (hf t ht).2 e.symm⟩, h.conns⟩
  have hpeer : ∀ t ∈ s :: g.conns, t.addr.peer.isSome := by
    intro t ht
    rcases List.mem_cons.1 ht with rfl | ht
    · simp [hp]
    · exact h.peer t ht
  unfold Node.opened
  dsimp only
  by_cases hfe : s.addr ∈ n.feeler
  · rw [if_pos hfe]
    have hfg : s.addr ∈ g.feelers := h.feelers ▸ hfe
    refine ⟨_, _, rfl, ?_, .inl rfl, rfl, rfl, by simp [hfg]⟩
    simp only [Seen.next, hfg, true_or, if_true]
    exact ⟨h.served, h.key, fun t ht => List.mem_cons_of_mem _ (h.sub t ht), hpeer, hcons, h.feelers,
      by simp [h.dialing], h.nodup, h.conn⟩
  · rw [if_neg hfe]
    have hfg : s.addr ∉ g.feelers := h.feelers ▸ hfe
    generalize hm : ({ n with dialing := n.dialing.filter (· ≠ s.addr) } : Node) = m
    have hmi : Inv m { g with dialing := g.dialing.filter (· ≠ s.addr) } := by
      subst hm
      exact ⟨h.served, h.key, h.sub, h.peer, h.conns, h.feelers, by simp [h.dialing], h.nodup, h.conn⟩
    have hfull : m.full c s.outbound = n.full c s.outbound := by subst hm; rfl
    have hstore : m.store = n.store := by subst hm; rfl
    have hboots : m.boots = n.boots := by subst hm; rfl
    have hcon : m.consensus = n.consensus := by subst hm; rfl
    obtain ⟨st, h1, h2, h3⟩ := register_spec hmi s hp (fun t ht => (hf t ht).2)
    have hadm : Inv { m with peers := (p, s) :: m.peers, store := st } (g.next (.opened s now, [])) := by
      simp only [Seen.next, hfg, List.not_mem_nil, or_self, if_false]
      refine ⟨by simp [hmi.served], ?_, ?_, hpeer, hcons, hmi.feelers, hmi.dialing, ?_, ?_⟩
      · intro e he
        rcases List.mem_cons.1 he with rfl | he
        · exact hp
        · exact hmi.key e he
      · intro t ht
        rcases List.mem_cons.1 ht with rfl | ht
        · exact List.mem_cons_self
        · exact List.mem_cons_of_mem _ (h.sub t ht)
      · refine List.pairwise_cons.2 ⟨?_, hmi.nodup⟩
        intro e he heq
        have := hmi.key e he
        have hes : e.2 ∈ g.conns := h.sub _ ((hmi.mem_served e.2).2 ⟨e.1, he⟩)
        exact (hf _ hes).2 (by rw [this, hp, ← heq])
      · intro q
        rw [h3, hmi.conn, get_cons]
        by_cases hq : p = q
        · subst hq; simp
        · rw [if_neg hq]
          have : ¬ q = p := fun hh => hq hh.symm
          simp [this]
    rw [h1]
    dsimp only
    rw [hfull]
    have hall : m.alwaysAllow s.addr now =
        .ok ((Assoc.get n.boots p).isSome || decide (p ∈ n.consensus) || !n.store.isBanned s.addr now) := by
      simp only [Node.alwaysAllow, hp, hstore, hboots, hcon]
    rw [hall]
    cases hfu : n.full c s.outbound with
    | false =>
      rw [if_neg (by simp)]
      exact ⟨_, _, rfl, hadm, .inr (by rw [← hstore]; exact h2), hboots, hcon, by simp⟩
    | true =>
      rw [if_pos rfl]
      cases hb : ((Assoc.get n.boots p).isSome || decide (p ∈ n.consensus) || !n.store.isBanned s.addr now) with
      | true =>
        refine ⟨_, _, rfl, hadm, .inr (by rw [← hstore]; exact h2), hboots, hcon, ?_⟩
        rw [if_neg]
        rintro ⟨_, _, k1, k2⟩
        obtain ⟨k3, k4⟩ := k2 p hp
        simp [k1, k3, k4] at hb
      | false =>
        refine ⟨_, _, rfl, ?_, .inl hstore, hboots, hcon, ?_⟩
        · simp only [Seen.next, List.mem_singleton, or_true, if_true]
          exact ⟨hmi.served, hmi.key, fun t ht => List.mem_cons_of_mem _ (h.sub t ht), hpeer, hcons, hmi.feelers,
            hmi.dialing, hmi.nodup, hmi.conn⟩
        · rw [if_pos]
          simp only [Bool.or_eq_false_iff, Bool.not_eq_false', decide_eq_false_iff_not] at hb
          refine ⟨hfg, rfl, hb.2, ?_⟩
          intro q hq
          rw [hp] at hq
          cases hq
          exact ⟨by simpa using hb.1.1, hb.1.2⟩

theorem closed_spec {n : Node} {g : Seen} (h : Inv n g) (s : Sess) (hs : s ∈ g.conns) (fx : List Eff) :
    ∃ n', n.closed s.addr = .ok n' ∧ Inv n' (g.next (.closed s, fx)) ∧
      (n'.store = n.store ∨ n.store.step (.disconnect s.addr) = .ok n'.store) ∧
      n'.boots = n.boots ∧ n'.consensus = n.consensus := by
  obtain ⟨p, hp⟩ := Option.isSome_iff_exists.1 (h.peer s hs)
  have hsub : ∀ t ∈ g.served.filter (· ≠ s), t ∈ g.conns.filter (· ≠ s) := by
    intro t ht
    rw [List.mem_filter] at ht ⊢
    exact ⟨h.sub t ht.1, ht.2⟩
  have hpeer : ∀ t ∈ g.conns.filter (· ≠ s), t.addr.peer.isSome := fun t ht => h.peer t (List.mem_filter.1 ht).1
  have hcons := h.conns.sublist (List.filter_sublist (p := fun t => t ≠ s))
  have hfe : n.feeler.filter (· ≠ s.addr) = g.feelers.filter (· ≠ s.addr) := by rw [h.feelers]
  simp only [Node.closed, hp, Seen.next]
  cases hg : Assoc.get n.peers p with
  | none =>
    have hns : s ∉ g.served := by
      intro hh
      have := (h.get p s).2 ⟨hh, hp⟩
      rw [hg] at this
      cases this
    have hfs : g.served.filter (· ≠ s) = g.served := by
      rw [List.filter_eq_self]
      intro t ht
      simp only [ne_eq, decide_not, Bool.not_eq_eq_eq_not, Bool.not_true, decide_eq_false_iff_not]
      intro hh
      exact hns (hh ▸ ht)
    exact ⟨_, rfl, ⟨by rw [hfs]; exact h.served, h.key, hsub, hpeer, hcons, hfe, h.dialing, h.nodup, h.conn⟩, .inl rfl, rfl, rfl⟩
  | some t =>
    obtain ⟨h1, h2⟩ := (h.get p t).1 hg
    have hts : t = s := h.served_pw t s (h.sub t h1) hs (h2.trans hp.symm)
    subst hts
    refine ⟨_, rfl, ⟨?_, ?_, hsub, hpeer, hcons, hfe, h.dialing, nodupKeys_del h.nodup p, ?_⟩, .inr rfl, rfl, rfl⟩
    · show (del n.peers p).map (·.2) = g.served.filter (· ≠ t)
      rw [← h.served, List.filter_map]
      unfold del
      congr 1
      apply List.filter_congr
      intro e he
      have hk := h.key e he
      simp only [Function.comp, ne_eq, decide_not, decide_eq_decide, Bool.not_eq_eq_eq_not, Bool.not_not]
      constructor
      · intro hh
        have : e.2.addr.peer = t.addr.peer := by rw [hk, hh, hp]
        exact h.served_pw _ _ (h.sub _ ((h.mem_served _).2 ⟨e.1, he⟩)) hs this
      · intro hh
        rw [hh, hp] at hk
        exact (Option.some.inj hk).symm
    · intro e he
      exact h.key e (List.mem_filter.1 he).1
    · intro q
      show q ∈ (n.store.disconnect t.addr).conn ↔ _
      simp only [Store.disconnect, hp, get_del]
      by_cases hq : p = q
      · subst hq; simp
      · have : ¬ q = p := fun hh => hq hh.symm
        simp [this, h.conn]

/-- A peer store changed by an operation that leaves the connected peers alone. -/
theorem inv_store {n : Node} {g : Seen} (h : Inv n g) {st : Store} (hc : st.conn = n.store.conn) :
    Inv { n with store := st } g :=
  ⟨h.served, h.key, h.sub, h.peer, h.conns, h.feelers, h.dialing, h.nodup, by
    intro p; rw [show ({ n with store := st } : Node).store.conn = n.store.conn from hc]; exact h.conn p⟩

/-- Everything that holds of the state after a legal history. -/
structure Good (boots : List (Nat × MAddr)) (h : List (Ev × List Eff)) (n : Node) : Prop where
  inv : Inv n (seen h)
  store : Reachable n.store
  boots : n.boots = boots

theorem reach_step {s s' : Store} {op : SOp} (h : Reachable s) (hs : s.step op = .ok s') : Reachable s' := by
  obtain ⟨ops, ho⟩ := h
  refine ⟨ops ++ [op], ?_⟩
  rw [run_append ops [op] ho]
  simp only [Store.run, hs]

theorem banSession_spec {n n' : Node} {id timeout now : Nat} (hr : Reachable n.store)
    (hb : n.banSession id timeout now = .ok n') :
    ∃ st, n' = { n with store := st } ∧ st.conn = n.store.conn ∧ Reachable st := by
  unfold Node.banSession at hb
  cases hf : n.peers.find? fun e => e.2.id = id with
  | none => rw [hf] at hb; cases hb; exact ⟨_, rfl, rfl, hr⟩
  | some e =>
    rw [hf] at hb
    dsimp only at hb
    cases hs : n.store.banAddr e.2.addr timeout now with
    | err => rw [hs] at hb; cases hb
    | panic => rw [hs] at hb; cases hb
    | ok st =>
      rw [hs] at hb
      cases hb
      exact ⟨st, rfl, (banAddr_spec hr.sinv.inv hs).2.2.1, reach_step hr (op := .ban e.2.addr timeout now) hs⟩

theorem tagBan_spec {n n' : Node} {p u now : Nat} {fx : List Eff} (hr : Reachable n.store)
    (hb : n.tagBan p u now = .ok (n', fx)) :
    ∃ st, n' = { n with store := st } ∧ st.conn = n.store.conn ∧ Reachable st ∧ fx = [] := by
  unfold Node.tagBan Node.banId at hb
  cases hf : Assoc.get n.peers p with
  | none => rw [hf] at hb; cases hb; exact ⟨_, rfl, rfl, hr, rfl⟩
  | some e =>
    rw [hf] at hb
    dsimp only at hb
    cases hs : n.store.banAddr e.addr u now with
    | err => rw [hs] at hb; cases hb
    | panic => rw [hs] at hb; cases hb
    | ok st =>
      rw [hs] at hb
      cases hb
      exact ⟨st, rfl, (banAddr_spec hr.sinv.inv hs).2.2.1, reach_step hr (op := .ban e.addr u now) hs, rfl⟩

theorem dialFeeler_spec {n n' : Node} {a : MAddr} {fx : List Eff} (hb : n.dialFeeler a = .ok (n', fx)) :
    ∃ p, a.peer = some p ∧
      ((((Assoc.get n.peers p).isSome ∨ a ∈ n.dialing ∨ a ∈ n.feeler) ∧ n' = n ∧ fx = []) ∨
       (Assoc.get n.peers p = none ∧ a ∉ n.dialing ∧ a ∉ n.feeler ∧ n' = { n with feeler := a :: n.feeler } ∧
         fx = [.dial a])) := by
  unfold Node.dialFeeler at hb
  cases hp : a.peer with
  | none => rw [hp] at hb; cases hb
  | some p =>
    rw [hp] at hb
    dsimp only at hb
    refine ⟨p, rfl, ?_⟩
    split at hb
    · rename_i hc
      cases hb
      exact .inl ⟨hc, rfl, rfl⟩
    · rename_i hc
      cases hb
      simp only [not_or, Option.not_isSome_iff_eq_none] at hc
      exact .inr ⟨hc.1, hc.2.1, hc.2.2, rfl, rfl⟩

theorem dialIdentify_spec {n n' : Node} {a : MAddr} {fx : List Eff} (hb : n.dialIdentify a = .ok (n', fx)) :
    ∃ p, a.peer = some p ∧
      ((((Assoc.get n.peers p).isSome ∨ a ∈ n.feeler ∨ a ∈ n.dialing) ∧ n' = n ∧ fx = []) ∨
       (Assoc.get n.peers p = none ∧ a ∉ n.feeler ∧ a ∉ n.dialing ∧ n' = { n with dialing := a :: n.dialing } ∧
         fx = [.dial a])) := by
  unfold Node.dialIdentify at hb
  cases hp : a.peer with
  | none => rw [hp] at hb; cases hb
  | some p =>
    rw [hp] at hb
    dsimp only at hb
    refine ⟨p, rfl, ?_⟩
    split at hb
    · rename_i hc
      cases hb
      exact .inl ⟨hc, rfl, rfl⟩
    · rename_i hc
      cases hb
      simp only [not_or, Option.not_isSome_iff_eq_none] at hc
      exact .inr ⟨hc.1, hc.2.1, hc.2.2, rfl, rfl⟩

theorem withStore_spec {n n' : Node} {op : SOp} {fx : List Eff} (hb : n.withStore op = .ok (n', fx)) :
    ∃ st, n.store.step op = .ok st ∧ n' = { n with store := st } ∧ fx = [] := by
  unfold Node.withStore at hb
  cases hs : n.store.step op with
  | err => rw [hs] at hb; cases hb
  | panic => rw [hs] at hb; cases hb
  | ok st => rw [hs] at hb; cases hb; exact ⟨st, rfl, rfl, rfl⟩

theorem good_step {c : Config} {boots : List (Nat × MAddr)} {h : List (Ev × List Eff)} {n n' : Node} {e : Ev}
    {fx : List Eff} (hg : Good boots h n) (hok : EvOk (seen h) e) (hs : n.step c e = .ok (n', fx)) :
    Good boots (h ++ [(e, fx)]) n' := by
  obtain ⟨hi, hr, hb⟩ := hg
  have hsame : (∀ g : Seen, g.next (e, fx) = g) → ∀ st, n' = { n with store := st } → st.conn = n.store.conn →
      Reachable st → Good boots (h ++ [(e, fx)]) n' := by
    rintro hn st rfl hc hst
    refine ⟨?_, hst, hb⟩
    rw [seen_snoc, hn]
    exact inv_store hi hc
  cases e with
  | opened s now =>
    obtain ⟨m, f, h1, h2, h3, h4, _⟩ := opened_spec hi c s now hok
    simp only [Node.step] at hs
    rw [h1] at hs
    cases hs
    refine ⟨by rw [seen_snoc]; exact h2, ?_, h4.trans hb⟩
    rcases h3 with h3 | h3
    · rw [h3]; exact hr
    · exact reach_step hr h3
  | closed s =>
    obtain ⟨m, h1, h2, h3, h4, _⟩ := closed_spec hi s hok fx
    simp only [Node.step] at hs
    rw [h1] at hs
    cases hs
    refine ⟨by rw [seen_snoc]; exact h2, ?_, h4.trans hb⟩
    rcases h3 with h3 | h3
    · rw [h3]; exact hr
    · exact reach_step hr h3
  | dialError a =>
    simp only [Node.step] at hs
    cases hs
    refine ⟨?_, hr, hb⟩
    rw [seen_snoc]
    exact ⟨hi.served, hi.key, hi.sub, hi.peer, hi.conns, by simp [Node.dialError, Seen.next, hi.feelers],
      by simp [Node.dialError, Seen.next, hi.dialing], hi.nodup, hi.conn⟩
  | protocolError id now =>
    simp only [Node.step, Node.protocolError] at hs
    cases hbs : n.banSession id 300000 now with
    | err => rw [hbs] at hs; cases hs
    | panic => rw [hbs] at hs; cases hs
    | ok m =>
      rw [hbs] at hs
      cases hs
      obtain ⟨st, h1, h2, h3⟩ := banSession_spec hr hbs
      exact hsame (fun _ => rfl) st h1 h2 h3
  | tagBan p u now =>
    obtain ⟨st, h1, h2, h3, h4⟩ := tagBan_spec hr hs
    exact hsame (fun _ => rfl) st h1 h2 h3
  | tagConsensus p =>
    simp only [Node.step] at hs
    cases hs
    exact ⟨by rw [seen_snoc]; exact ⟨hi.served, hi.key, hi.sub, hi.peer, hi.conns, hi.feelers, hi.dialing, hi.nodup, hi.conn⟩, hr, hb⟩
  | untagConsensus p =>
    simp only [Node.step] at hs
    cases hs
    exact ⟨by rw [seen_snoc]; exact ⟨hi.served, hi.key, hi.sub, hi.peer, hi.conns, hi.feelers, hi.dialing, hi.nodup, hi.conn⟩, hr, hb⟩
  | setConsensus ps =>
    simp only [Node.step] at hs
    cases hs
    exact ⟨by rw [seen_snoc]; exact ⟨hi.served, hi.key, hi.sub, hi.peer, hi.conns, hi.feelers, hi.dialing, hi.nodup, hi.conn⟩, hr, hb⟩
  | dialFeeler a =>
    obtain ⟨p, hp, hc⟩ := dialFeeler_spec (n := n) (a := a) hs
    rcases hc with ⟨_, rfl, rfl⟩ | ⟨_, _, _, rfl, rfl⟩
    · refine ⟨?_, hr, hb⟩
      rw [seen_snoc]
      simpa [Seen.next] using hi
    · refine ⟨?_, hr, hb⟩
      rw [seen_snoc]
      simp only [Seen.next, List.mem_singleton, if_true]
      exact ⟨hi.served, hi.key, hi.sub, hi.peer, hi.conns, by simp [hi.feelers], hi.dialing, hi.nodup, hi.conn⟩
  | dialIdentify a =>
    obtain ⟨p, hp, hc⟩ := dialIdentify_spec (n := n) (a := a) hs
    rcases hc with ⟨_, rfl, rfl⟩ | ⟨_, _, _, rfl, rfl⟩
    · refine ⟨?_, hr, hb⟩
      rw [seen_snoc]
      simpa [Seen.next] using hi
    · refine ⟨?_, hr, hb⟩
      rw [seen_snoc]
      simp only [Seen.next, List.mem_singleton, if_true]
      exact ⟨hi.served, hi.key, hi.sub, hi.peer, hi.conns, hi.feelers, by simp [hi.dialing], hi.nodup, hi.conn⟩
  | addAddr a ch now =>
    obtain ⟨st, h1, h2, h3⟩ := withStore_spec (n := n) hs
    obtain ⟨s', r, g1, _, _, g4, _⟩ := addAddr_spec hr.sinv.inv a ch now
    have : st = s' := by simp only [Store.step, g1] at h1; cases h1; rfl
    exact hsame (fun _ => rfl) st h2 (this ▸ g4) (reach_step hr h1)
  | addOutbound a now =>
    obtain ⟨st, h1, h2, h3⟩ := withStore_spec (n := n) hs
    obtain ⟨s', g1, _, _, g4, _⟩ := addOutbound_spec hr.sinv.inv a now
    have : st = s' := by simp only [Store.step, g1] at h1; cases h1; rfl
    exact hsame (fun _ => rfl) st h2 (this ▸ g4) (reach_step hr h1)

theorem good_run {c : Config} {boots : List (Nat × MAddr)} {h : List (Ev × List Eff)} {n : Node}
    (hr : Run c boots h n) (hl : Legal h) : Good boots h n := by
  induction hr with
  | nil => exact ⟨inv_new boots, ⟨[], rfl⟩, rfl⟩
  | snoc hr hs ih =>
    obtain ⟨h1, h2⟩ := legal_snoc hl
    exact good_step (ih h1) h2 hs

/-! ## C93 -/

/-- C93: after every history the registry holds exactly the sessions the node serves, one for each peer,
and its three counts are the numbers of those sessions; the peer store considers exactly their peers
connected. -/
theorem C93_registry {c : Config} {boots : List (Nat × MAddr)} {h : List (Ev × List Eff)} {n : Node}
    (hr : Run c boots h n) (hl : Legal h) :
    (∀ p s, Assoc.get n.peers p = some s ↔ s ∈ (seen h).served ∧ s.addr.peer = some p) ∧
    n.total = (seen h).served.length ∧
    n.outbound = ((seen h).served.filter (·.outbound)).length ∧
    n.inbound = ((seen h).served.filter (!·.outbound)).length ∧
    n.inbound + n.outbound = n.total ∧
    (∀ p, p ∈ n.store.conn ↔ ∃ s ∈ (seen h).served, s.addr.peer = some p) := by
  have hi := (good_run hr hl).inv
  have ho : n.outbound = ((seen h).served.filter (·.outbound)).length := by
    rw [← hi.served, List.filter_map, List.length_map]; rfl
  have hn : n.inbound = ((seen h).served.filter (!·.outbound)).length := by
    rw [← hi.served, List.filter_map, List.length_map]; rfl
  have ht : n.total = (seen h).served.length := by rw [← hi.served, List.length_map]; rfl
  refine ⟨hi.get, ht, ho, hn, ?_, ?_⟩
  · rw [ht, ho, hn]
    generalize (seen h).served = l
    induction l with
    | nil => rfl
    | cons s l ih => cases hs : s.outbound <;> simp [hs] <;> omega
  · intro p
    rw [hi.conn]
    constructor
    · intro hh
      obtain ⟨s, hs⟩ := Option.isSome_iff_exists.1 hh
      exact ⟨s, (hi.get p s).1 hs⟩
    · rintro ⟨s, h1, h2⟩
      rw [(hi.get p s).2 ⟨h1, h2⟩]
      rfl

/-- The limits as a statement about numbers of served sessions. -/
def LimitsUsedUp (c : Config) (served : List Sess) (outbound : Bool) : Prop :=
  c.max ≤ served.length ∨
    (outbound = true ∧ c.max - c.inLimit ≤ (served.filter (·.outbound)).length) ∨
    (outbound = false ∧ c.inLimit ≤ (served.filter (!·.outbound)).length)

/-- C93: when a session opens the node always goes on, and it closes the session exactly when the limits
are used up, the address is banned, the peer is neither a bootstrap node nor tagged as a validator, and
the session is not one of its own feelers. -/
theorem C93_open {c : Config} {boots : List (Nat × MAddr)} {h : List (Ev × List Eff)} {n : Node}
    (hr : Run c boots h n) (hl : Legal h) (s : Sess) (now p : Nat) (hok : EvOk (seen h) (.opened s now))
    (hp : s.addr.peer = some p) :
    ∃ n' fx, n.step c (.opened s now) = .ok (n', fx) ∧ (fx = [] ∨ fx = [.disconnect s.id]) ∧
      (fx = [.disconnect s.id] ↔ s.addr ∉ (seen h).feelers ∧ LimitsUsedUp c (seen h).served s.outbound ∧
        n.store.isBanned s.addr now = true ∧ (∀ a, (p, a) ∉ boots) ∧ p ∉ n.consensus) := by
  have hg := good_run hr hl
  obtain ⟨_, r1, r2, r3, r4, _⟩ := C93_registry hr hl
  obtain ⟨n', fx, h1, _, _, _, _, h2⟩ := opened_spec hg.inv c s now hok
  have hfull : n.full c s.outbound = true ↔ LimitsUsedUp c (seen h).served s.outbound := by
    unfold Node.full LimitsUsedUp
    rw [← r1, ← r2, ← r3]
    cases s.outbound <;> simp <;> omega
  have hboot : Assoc.get n.boots p = none ↔ ∀ a, (p, a) ∉ boots := by
    rw [hg.boots]
    constructor
    · intro hh a ha
      have := get_isSome_iff.2 ⟨a, ha⟩
      rw [hh] at this
      cases this
    · intro hh
      cases hg : Assoc.get boots p with
      | none => rfl
      | some a => exact absurd (mem_of_get hg) (hh a)
  have hiff : (s.addr ∉ (seen h).feelers ∧ n.full c s.outbound = true ∧
        n.store.isBanned s.addr now = true ∧ (∀ p, s.addr.peer = some p → Assoc.get n.boots p = none ∧ p ∉ n.consensus)) ↔
      (s.addr ∉ (seen h).feelers ∧ LimitsUsedUp c (seen h).served s.outbound ∧
        n.store.isBanned s.addr now = true ∧ (∀ a, (p, a) ∉ boots) ∧ p ∉ n.consensus) := by
    rw [hfull, hp, ← hboot]
    simp
  refine ⟨n', fx, h1, ?_, ?_⟩
  · rw [h2]; split <;> simp
  · rw [← hiff, h2]
    split
    · rename_i hc; exact ⟨fun _ => hc, fun _ => rfl⟩
    · rename_i hc; simp only [List.nil_eq, List.cons_ne_nil, reduceCtorEq, false_iff]; exact hc

/-- The validators by the history alone: those named by the last complete list, with the tags set and removed
since. -/
def isValidator (h : List (Ev × List Eff)) (p : Nat) : Bool :=
  h.foldl (fun b x => match x.1 with
    | .tagConsensus q => b || decide (q = p)
    | .untagConsensus q => b && decide (q ≠ p)
    | .setConsensus ps => decide (p ∈ ps)
    | _ => b) false

theorem step_consensus {c : Config} {n n' : Node} {e : Ev} {fx : List Eff} (hs : n.step c e = .ok (n', fx)) (p : Nat) :
    (p ∈ n'.consensus ↔ match e with
      | .tagConsensus q => p ∈ n.consensus ∨ q = p
      | .untagConsensus q => p ∈ n.consensus ∧ q ≠ p
      | .setConsensus ps => p ∈ ps
      | _ => p ∈ n.consensus) := by
  have hreg : ∀ {m m' : Node} {s : Sess}, m.register s = .ok m' → m'.consensus = m.consensus := by
    intro m m' s h
    unfold Node.register at h
    split at h
    · cases h
    · split at h
      · cases h; rfl
      · cases h
      · cases h
  have hban : ∀ {m m' : Node} {id t now : Nat}, m.banSession id t now = .ok m' → m'.consensus = m.consensus := by
    intro m m' id t now h
    unfold Node.banSession at h
    split at h
    · cases h; rfl
    · split at h
      · cases h; rfl
      · cases h
      · cases h
  have hstore : ∀ {op : SOp}, n.withStore op = .ok (n', fx) → n'.consensus = n.consensus := by
    intro op h
    unfold Node.withStore at h
    split at h
    · cases h; rfl
    · cases h
    · cases h
  cases e with
  | tagConsensus q =>
    cases hs
    simp only [Node.tagConsensus, List.mem_cons, List.mem_filter, decide_eq_true_eq]
    by_cases hq : p = q
    · simp [hq]
    · simp [hq, Ne.symm hq]
  | untagConsensus q =>
    cases hs
    simp only [Node.untagConsensus, List.mem_filter, decide_eq_true_eq]
    exact and_congr_right fun _ => ⟨fun a b => a b.symm, fun a b => a b.symm⟩
  | setConsensus ps =>
    cases hs
    simp only [Node.setConsensus, List.mem_eraseDups]
  | opened s now =>
    have : n'.consensus = n.consensus := by
      simp only [Node.step, Node.opened] at hs
      split at hs
      · cases hs; rfl
      · have admit : ∀ {o : Outcome Node}, o = Node.register { n with dialing := n.dialing.filter (· ≠ s.addr) } s →
            (match o with
              | .ok n' => .ok (n', [])
              | .err => .err
              | .panic => .panic : Outcome (Node × List Eff)) = .ok (n', fx) → n'.consensus = n.consensus := by
          intro o ho h
          cases o with
          | ok m => cases h; exact (hreg ho.symm).trans rfl
          | err => cases h
          | panic => cases h
        split at hs
        · split at hs
          · exact admit rfl hs
          · cases hs; rfl
          · cases hs
          · cases hs
        · exact admit rfl hs
    simp only [this]
  | closed s =>
    have : n'.consensus = n.consensus := by
      simp only [Node.step, Node.closed] at hs
      cases ha : s.addr.peer with
      | none => rw [ha] at hs; cases hs
      | some q =>
        rw [ha] at hs
        simp only at hs
        cases hg : Assoc.get n.peers q with
        | none => rw [hg] at hs; cases hs; rfl
        | some t => rw [hg] at hs; cases hs; rfl
    simp only [this]
  | dialError a => cases hs; rfl
  | protocolError id now =>
    have : n'.consensus = n.consensus := by
      simp only [Node.step, Node.protocolError] at hs
      split at hs
      · rename_i m hm; cases hs; exact hban hm
      · cases hs
      · cases hs
    simp only [this]
  | tagBan q u now =>
    have : n'.consensus = n.consensus := by
      simp only [Node.step, Node.tagBan, Node.banId] at hs
      cases hg : Assoc.get n.peers q with
      | none => rw [hg] at hs; cases hs; rfl
      | some t =>
        rw [hg] at hs
        simp only at hs
        cases hb : n.store.banAddr t.addr u now with
        | ok st => rw [hb] at hs; cases hs; rfl
        | err => rw [hb] at hs; cases hs
        | panic => rw [hb] at hs; cases hs
    simp only [this]
  | dialFeeler a =>
    have : n'.consensus = n.consensus := by
      simp only [Node.step, Node.dialFeeler] at hs
      split at hs
      · cases hs
      · split at hs <;> cases hs <;> rfl
    simp only [this]
  | dialIdentify a =>
    have : n'.consensus = n.consensus := by
      simp only [Node.step, Node.dialIdentify] at hs
      split at hs
      · cases hs
      · split at hs <;> cases hs <;> rfl
    simp only [this]
  | addAddr a ch now => simp only [hstore hs]
  | addOutbound a now => simp only [hstore hs]

/-- C93: the validators a node lets in are those it was told of, by whole lists and by single tags. -/
theorem C93_validators {c : Config} {boots : List (Nat × MAddr)} {h : List (Ev × List Eff)} {n : Node}
    (hr : Run c boots h n) (p : Nat) : p ∈ n.consensus ↔ isValidator h p = true := by
  induction hr with
  | nil => simp [Node.new, isValidator]
  | snoc hr hs ih =>
    rename_i h n e n' fx
    rw [step_consensus hs p]
    have hf : isValidator (h ++ [(e, fx)]) p = (match e with
        | .tagConsensus q => isValidator h p || decide (q = p)
        | .untagConsensus q => isValidator h p && decide (q ≠ p)
        | .setConsensus ps => decide (p ∈ ps)
        | _ => isValidator h p) := by
      simp only [isValidator, List.foldl_append, List.foldl_cons, List.foldl_nil]
      cases e <;> rfl
    rw [hf]
    cases e <;> simp [ih]

/-- C93: a peer tagged as a validator is let in however full the node is and although it is banned, and after
the tag is removed it is not. -/
theorem C93_validator_open {c : Config} {boots : List (Nat × MAddr)} {h : List (Ev × List Eff)} {n : Node}
    (hr : Run c boots h n) (hl : Legal h) (s : Sess) (now p : Nat) (hok : EvOk (seen h) (.opened s now))
    (hp : s.addr.peer = some p) :
    (isValidator h p = true → ∃ n', n.step c (.opened s now) = .ok (n', [])) ∧
    (isValidator h p = false → s.addr ∉ (seen h).feelers → LimitsUsedUp c (seen h).served s.outbound →
      n.store.isBanned s.addr now = true → (∀ a, (p, a) ∉ boots) →
      ∃ n', n.step c (.opened s now) = .ok (n', [.disconnect s.id])) := by
  obtain ⟨n', fx, h1, h2, h3⟩ := C93_open hr hl s now p hok hp
  have hv := C93_validators hr p
  constructor
  · intro hval
    rcases h2 with rfl | h2
    · exact ⟨n', h1⟩
    · exact absurd (hv.2 hval) (h3.1 h2).2.2.2.2
  · intro hval a b d e
    have := h3.2 ⟨a, b, d, e, fun hc => by rw [hv.1 hc] at hval; cases hval⟩
    rw [this] at h1
    exact ⟨n', h1⟩

/-- C93: an address is dialled only if no session with its peer is served and no earlier dial of it is
without a result; feelers and other dials exclude each other. -/
theorem C93_dial {c : Config} {boots : List (Nat × MAddr)} {h : List (Ev × List Eff)} {n n' : Node}
    (hr : Run c boots h n) (hl : Legal h) (e : Ev) (a : MAddr) (fx : List Eff) (hok : EvOk (seen h) e)
    (hs : n.step c e = .ok (n', fx)) (hd : Eff.dial a ∈ fx) :
    (e = .dialFeeler a ∨ e = .dialIdentify a) ∧ fx = [.dial a] ∧
    (∀ s ∈ (seen h).served, s.addr.peer ≠ a.peer) ∧ a ∉ (seen h).feelers ∧ a ∉ (seen h).dialing := by
  have hg := good_run hr hl
  have hi := hg.inv
  have hnone : ∀ p, a.peer = some p → Assoc.get n.peers p = none → ∀ s ∈ (seen h).served, s.addr.peer ≠ a.peer := by
    intro p hp hn s hs he
    have := (hi.get p s).2 ⟨hs, he.trans hp⟩
    rw [hn] at this
    cases this
  cases e with
  | opened s now =>
    obtain ⟨p, hp⟩ := Option.isSome_iff_exists.1 hok.1
    obtain ⟨m, f, h1, h2, _⟩ := C93_open hr hl s now p hok hp
    rw [hs] at h1
    cases h1
    rcases h2 with rfl | rfl <;> simp at hd
  | closed s =>
    simp only [Node.step] at hs
    split at hs <;> cases hs
    simp at hd
  | dialError b => simp only [Node.step] at hs; cases hs; simp at hd
  | protocolError id now =>
    simp only [Node.step, Node.protocolError] at hs
    split at hs <;> cases hs
    simp at hd
  | tagBan p u now =>
    obtain ⟨_, _, _, _, rfl⟩ := tagBan_spec hg.store hs
    simp at hd
  | tagConsensus p => simp only [Node.step] at hs; cases hs; simp at hd
  | untagConsensus p => simp only [Node.step] at hs; cases hs; simp at hd
  | setConsensus p => simp only [Node.step] at hs; cases hs; simp at hd
  | dialFeeler b =>
    obtain ⟨p, hp, hc⟩ := dialFeeler_spec (n := n) (a := b) hs
    rcases hc with ⟨_, rfl, rfl⟩ | ⟨h1, h2, h3, rfl, rfl⟩
    · simp at hd
    · simp only [List.mem_singleton, Eff.dial.injEq] at hd
      subst hd
      exact ⟨.inl rfl, rfl, hnone p hp h1, hi.feelers ▸ h3, hi.dialing ▸ h2⟩
  | dialIdentify b =>
    obtain ⟨p, hp, hc⟩ := dialIdentify_spec (n := n) (a := b) hs
    rcases hc with ⟨_, rfl, rfl⟩ | ⟨h1, h2, h3, rfl, rfl⟩
    · simp at hd
    · simp only [List.mem_singleton, Eff.dial.injEq] at hd
      subst hd
      exact ⟨.inr rfl, rfl, hnone p hp h1, hi.feelers ▸ h2, hi.dialing ▸ h3⟩
  | addAddr b ch now => obtain ⟨_, _, _, rfl⟩ := withStore_spec (n := n) hs; simp at hd
  | addOutbound b now => obtain ⟨_, _, _, rfl⟩ := withStore_spec (n := n) hs; simp at hd

/-- C93: the node never aborts on a legal history, as long as the clock has room for the time of a ban.
Missing: the tag `Ban` with a time so large that the sum overflows (`C93_until_false`). -/
theorem C93_no_abort_partial {c : Config} {boots : List (Nat × MAddr)} {h : List (Ev × List Eff)} {n : Node}
    (hr : Run c boots h n) (hl : Legal h) (e : Ev) (hok : EvOk (seen h) e)
    (hnow : ∀ id now, e = .protocolError id now → now + 300000 < 2 ^ 64)
    (hban : ∀ p u now, e = .tagBan p u now → now + u < 2 ^ 64) : ∃ n' fx, n.step c e = .ok (n', fx) := by
  have hg := good_run hr hl
  have hi := hg.inv
  have hbans : ∀ a timeout now, now + timeout < 2 ^ 64 → ∃ st, n.store.banAddr a timeout now = .ok st := by
    intro a timeout now ht
    obtain ⟨m', r, h1, _⟩ := remove_spec hg.store.sinv.inv a
    unfold Store.banAddr
    cases a.sock with
    | none => dsimp only; rw [h1]; exact ⟨_, rfl⟩
    | some k =>
      dsimp only
      unfold BanList.banNetwork
      rw [if_pos ht, h1]
      exact ⟨_, rfl⟩
  cases e with
  | opened s now =>
    obtain ⟨m, f, h1, _⟩ := opened_spec hi c s now hok
    exact ⟨m, f, h1⟩
  | closed s =>
    obtain ⟨m, h1, _⟩ := closed_spec hi s hok []
    exact ⟨m, [], by simp only [Node.step, h1]⟩
  | dialError b => exact ⟨_, _, rfl⟩
  | protocolError id now =>
    simp only [Node.step, Node.protocolError, Node.banSession]
    cases n.peers.find? fun e => e.2.id = id with
    | none => exact ⟨_, _, rfl⟩
    | some x =>
      obtain ⟨st, hst⟩ := hbans x.2.addr 300000 now (hnow id now rfl)
      dsimp only
      rw [hst]
      exact ⟨_, _, rfl⟩
  | tagBan p u now =>
    simp only [Node.step, Node.tagBan, Node.banId]
    cases Assoc.get n.peers p with
    | none => exact ⟨_, _, rfl⟩
    | some x =>
      obtain ⟨st, hst⟩ := hbans x.addr u now (hban p u now rfl)
      dsimp only
      rw [hst]
      exact ⟨_, _, rfl⟩
  | tagConsensus p => exact ⟨_, _, rfl⟩
  | untagConsensus p => exact ⟨_, _, rfl⟩
  | setConsensus p => exact ⟨_, _, rfl⟩
  | dialFeeler b =>
    obtain ⟨p, hp⟩ := Option.isSome_iff_exists.1 hok
    simp only [Node.step, Node.dialFeeler, hp]
    split <;> exact ⟨_, _, rfl⟩
  | dialIdentify b =>
    obtain ⟨p, hp⟩ := Option.isSome_iff_exists.1 hok
    simp only [Node.step, Node.dialIdentify, hp]
    split <;> exact ⟨_, _, rfl⟩
  | addAddr a ch now =>
    obtain ⟨s', r, g1, _⟩ := addAddr_spec hg.store.sinv.inv a ch now
    simp only [Node.step, Node.withStore, Store.step, g1]; exact ⟨_, _, rfl⟩
  | addOutbound a now =>
    obtain ⟨s', g1, _⟩ := addOutbound_spec hg.store.sinv.inv a now
    simp only [Node.step, Node.withStore, Store.step, g1]; exact ⟨_, _, rfl⟩

/-! ### The limits -/

/-- The `i`th stranger: an address and a peer of its own. -/
def stranger (outbound : Bool) (i : Nat) : Sess := ⟨i, ⟨some ⟨.v4 i, 1⟩, some i, 0⟩, outbound⟩

/-- The strangers `0, …, k-1` open a session each, at time 0. -/
def flood (outbound : Bool) : Nat → List (Ev × List Eff)
  | 0 => []
  | k + 1 => flood outbound k ++ [(.opened (stranger outbound k) 0, [])]

theorem flood_seen (o : Bool) (k : Nat) :
    seen (flood o k) = ⟨((List.range k).map (stranger o)).reverse, [], [], ((List.range k).map (stranger o)).reverse⟩ := by
  induction k with
  | zero => rfl
  | succ k ih =>
    rw [flood, seen_snoc, ih]
    simp [Seen.next, List.range_succ]

theorem flood_ok (o : Bool) (k : Nat) : EvOk (seen (flood o k)) (.opened (stranger o k) 0) := by
  refine ⟨rfl, ?_⟩
  rw [flood_seen]
  intro t ht
  obtain ⟨i, hi, rfl⟩ := by simpa using ht
  simp only [stranger, ne_eq, Option.some.injEq]
  omega

theorem flood_legal (o : Bool) (k : Nat) : Legal (flood o k) := by
  induction k with
  | zero => exact .nil
  | succ k ih => exact .snoc ih (flood_ok o k)

theorem flood_run (c : Config) (boots : List (Nat × MAddr)) (o : Bool) (k : Nat) :
    ∃ n, Run c boots (flood o k) n ∧ n.store.bans = BanList.new ∧ n.consensus = [] := by
  induction k with
  | zero => exact ⟨_, .nil, rfl, rfl⟩
  | succ k ih =>
    obtain ⟨n, h1, h2, h3⟩ := ih
    have hg := good_run h1 (flood_legal o k)
    obtain ⟨n', fx, g1, _, g3, _, g5, g4⟩ := opened_spec hg.inv c (stranger o k) 0 (flood_ok o k)
    have hnb : n.store.isBanned (stranger o k).addr 0 = false := by
      simp [Store.isBanned, h2, stranger, BanList.isAddrBanned, BanList.isBanned, BanList.new, get_nil]
    rw [if_neg (by simp [hnb])] at g4
    subst g4
    refine ⟨n', .snoc h1 g1, ?_, g5.trans h3⟩
    rcases g3 with g3 | g3
    · rw [g3]; exact h2
    · simp only [Store.step, Store.connect, stranger, Outcome.ok.injEq] at g3
      rw [← g3]
      exact h2

theorem flood_counts (o : Bool) (k : Nat) : (seen (flood o k)).served.length = k ∧
    ((seen (flood o k)).served.filter (·.outbound)).length = (if o then k else 0) ∧
    ((seen (flood o k)).served.filter (!·.outbound)).length = (if o then 0 else k) := by
  rw [flood_seen]
  cases o <;> simp [List.filter_reverse, List.filter_map, Function.comp_def, stranger] <;>
    rw [List.filter_eq_self.2 (by simp)] <;> simp

theorem flood_quiet (o : Bool) (k : Nat) : ∀ x ∈ flood o k, x.2 = [] := by
  induction k with
  | zero => simp [flood]
  | succ k ih =>
    intro x hx
    rw [flood, List.mem_append, List.mem_singleton] at hx
    rcases hx with hx | rfl
    · exact ih x hx
    · rfl

/-- C93 is false of the code: the limits bind nobody who is not banned.  Whatever the configuration,
strangers that are neither bootstrap nodes nor validators can open any number of inbound sessions and
have all of them served. -/
theorem C93_limit_false (c : Config) (k : Nat) :
    ∃ h n, Run c [] h n ∧ Legal h ∧ n.inbound = k ∧ n.total = k ∧ n.consensus = [] ∧ (∀ x ∈ h, x.2 = []) := by
  obtain ⟨n, h1, _, h0⟩ := flood_run c [] false k
  obtain ⟨_, r1, _, r3, _⟩ := C93_registry h1 (flood_legal false k)
  obtain ⟨f1, _, f3⟩ := flood_counts false k
  refine ⟨_, n, h1, flood_legal false k, by rw [r3, f3]; rfl, by rw [r1, f1], h0, ?_⟩
  exact flood_quiet false k

/-- C93: among peers that are banned and neither bootstrap nodes nor validators the limits hold: such a
session is served only if afterwards the numbers of sessions are within the limits.  Missing: everybody
else (`C93_limit_false`). -/
theorem C93_limit_partial {c : Config} {boots : List (Nat × MAddr)} {h : List (Ev × List Eff)} {n n' : Node}
    (hc : c.Ok) (hr : Run c boots h n) (hl : Legal h) (s : Sess) (now p : Nat) (fx : List Eff)
    (hok : EvOk (seen h) (.opened s now)) (hp : s.addr.peer = some p)
    (hban : n.store.isBanned s.addr now = true) (hboot : ∀ a, (p, a) ∉ boots) (hcon : p ∉ n.consensus)
    (hs : n.step c (.opened s now) = .ok (n', fx)) (hn : (Assoc.get n'.peers p).isSome) :
    n'.total ≤ c.max ∧ (s.outbound = true → n'.outbound ≤ c.max - c.inLimit) ∧
      (s.outbound = false → n'.inbound ≤ c.inLimit) := by
  obtain ⟨m, f, h1, h2, h3⟩ := C93_open hr hl s now p hok hp
  rw [hs] at h1
  cases h1
  have hl' : Legal (h ++ [(.opened s now, fx)]) := .snoc hl hok
  have hr' : Run c boots (h ++ [(.opened s now, fx)]) n' := .snoc hr hs
  obtain ⟨r0, r1, r2, r3, _⟩ := C93_registry hr' hl'
  rw [seen_snoc] at r0 r1 r2 r3
  obtain ⟨t, ht⟩ := Option.isSome_iff_exists.1 hn
  obtain ⟨t1, t2⟩ := (r0 p t).1 ht
  by_cases hcase : s.addr ∈ (seen h).feelers ∨ Eff.disconnect s.id ∈ fx
  · simp only [Seen.next, hcase, if_true] at t1
    exact absurd (t2.trans hp.symm) (hok.2 t ((good_run hr hl).inv.sub t t1)).2
  · have hnd : fx ≠ [.disconnect s.id] := by
      intro hh
      rw [hh] at hcase
      simp at hcase
    have hnf : s.addr ∉ (seen h).feelers := fun hh => hcase (.inl hh)
    have hlim : ¬ LimitsUsedUp c (seen h).served s.outbound := fun hh => hnd (h3.2 ⟨hnf, hh, hban, hboot, hcon⟩)
    simp only [Seen.next, hcase, if_false] at r1 r2 r3
    rw [r1, r2, r3]
    unfold LimitsUsedUp at hlim
    unfold Config.Ok at hc
    cases ho : s.outbound <;> simp [ho] at hlim ⊢ <;> omega

/-! ### Bans -/

/-- C93: a protocol error closes the session, and if the session is served its host is banned for five
minutes. -/
theorem C93_error {c : Config} {boots : List (Nat × MAddr)} {h : List (Ev × List Eff)} {n n' : Node}
    (hr : Run c boots h n) (hl : Legal h) (id now : Nat) (fx : List Eff)
    (hs : n.step c (.protocolError id now) = .ok (n', fx)) :
    fx = [.disconnect id] ∧ ∀ s ∈ (seen h).served, s.id = id → ∀ k, s.addr.sock = some k →
      ∀ a, a.sock.map (·.ip) = some k.ip → ∀ t, now ≤ t → t < now + 300000 → n'.store.isBanned a t = true := by
  have hg := good_run hr hl
  have hi := hg.inv
  simp only [Node.step, Node.protocolError] at hs
  cases hbs : n.banSession id 300000 now with
  | err => rw [hbs] at hs; cases hs
  | panic => rw [hbs] at hs; cases hs
  | ok m =>
    rw [hbs] at hs
    cases hs
    refine ⟨rfl, ?_⟩
    intro s hsv hid k hk a ha t h1 h2
    obtain ⟨p, hp⟩ := (hi.mem_served s).1 hsv
    unfold Node.banSession at hbs
    cases hf : n.peers.find? fun e => e.2.id = id with
    | none =>
      have := List.find?_eq_none.1 hf (p, s) hp
      simp [hid] at this
    | some e =>
      have he1 := List.mem_of_find?_eq_some hf
      have he2 : e.2.id = id := by simpa using List.find?_some hf
      have hes : e.2 = s := by
        have h3 := hi.sub _ ((hi.mem_served e.2).2 ⟨e.1, he1⟩)
        have h4 := hi.sub s hsv
        have := List.Pairwise.forall_of_forall_of_flip (R := fun s t => s.id = t.id → s = t) (l := (seen h).conns)
          (fun _ _ _ => rfl) (hi.conns.imp fun hh h1 => absurd h1 hh.1) ((hi.conns.imp fun hh h1 => absurd h1.symm hh.1))
        exact this h3 h4 (he2.trans hid.symm)
      rw [hf] at hbs
      dsimp only at hbs
      rw [hes] at hbs
      cases hst : n.store.banAddr s.addr 300000 now with
      | err => rw [hst] at hbs; cases hbs
      | panic => rw [hst] at hbs; cases hbs
      | ok st =>
        rw [hst] at hbs
        cases hbs
        have := (C88_ban hg.store s.addr k hk 300000 now hst).2 t h1 h2
        unfold Store.isBanned
        rw [ha]
        exact this

/-- C93: a handler that panics makes the node quit; if it was serving a session, the host of that session is banned
for five minutes before, and otherwise nothing else changes. -/
theorem C93_handler {c : Config} {boots : List (Nat × MAddr)} {h : List (Ev × List Eff)} {n n' : Node}
    (hr : Run c boots h n) (hl : Legal h) (o : Option Nat) (now : Nat) (fx : List Eff)
    (hs : n.handleError o now = .ok (n', fx)) :
    fx = [.exit] ∧ (o = none → n' = n) ∧
    ∀ id, o = some id → ∀ s ∈ (seen h).served, s.id = id → ∀ k, s.addr.sock = some k →
      ∀ a, a.sock.map (·.ip) = some k.ip → ∀ t, now ≤ t → t < now + 300000 → n'.store.isBanned a t = true := by
  cases o with
  | none => cases hs; exact ⟨rfl, fun _ => rfl, fun id hid => by cases hid⟩
  | some i =>
    simp only [Node.handleError] at hs
    cases hbs : n.banSession i 300000 now with
    | err => rw [hbs] at hs; cases hs
    | panic => rw [hbs] at hs; cases hs
    | ok m =>
      rw [hbs] at hs
      cases hs
      refine ⟨rfl, fun hn => (by cases hn), fun id hid => ?_⟩
      cases hid
      exact (C93_error hr hl i now [.disconnect i] (by simp only [Node.step, Node.protocolError, hbs])).2

/-- C93 is false of the code: a banned host is served.  After a protocol error the session is closed and
its host banned for five minutes, and when the same peer connects again right away its new session is
served like any other. -/
theorem C93_banned_false : ∃ (h : List (Ev × List Eff)) (n : Node) (s : Sess),
    Run Config.default [] h n ∧ Legal h ∧ s ∈ (seen h).served ∧ n.store.isBanned s.addr 1000 = true := by
  let s : Sess := ⟨0, ⟨some ⟨.v4 0, 1⟩, some 0, 0⟩, false⟩
  let t : Sess := ⟨1, ⟨some ⟨.v4 0, 1⟩, some 0, 0⟩, false⟩
  refine ⟨[] ++ [(.opened s 0, [])] ++ [(.protocolError 0 0, [.disconnect 0])] ++ [(.closed s, [])] ++ [(.opened t 1000, [])],
    _, t, .snoc (.snoc (.snoc (.snoc .nil (by rfl)) (by rfl)) (by rfl)) (by rfl),
    .snoc (.snoc (.snoc (.snoc .nil ?_) ?_) ?_) ?_, ?_, ?_⟩
  · exact ⟨rfl, by simp [seen]⟩
  · trivial
  · simp [EvOk, seen, Seen.next, s]
  · exact ⟨rfl, by simp [seen, Seen.next, s]⟩
  · simp [seen, Seen.next]
  · decide +kernel

/-- C93 is false of the code: the tag `Ban` never closes the session of the banned peer, whoever it is. -/
theorem C93_tag_ban_false {c : Config} {boots : List (Nat × MAddr)} {h : List (Ev × List Eff)} {n n' : Node}
    (hr : Run c boots h n) (hl : Legal h) (p until_ now : Nat) (fx : List Eff)
    (hs : n.step c (.tagBan p until_ now) = .ok (n', fx)) : fx = [] ∧ n'.peers = n.peers := by
  obtain ⟨st, rfl, _, _, rfl⟩ := tagBan_spec (good_run hr hl).store hs
  exact ⟨rfl, rfl⟩

/-- C93 is false of the code: the time of the tag `Ban` is a point in time (network.rs:36), but the code
adds it to the present time: a peer banned until `u` is still banned at `u` and long after, and if the
sum does not fit in 64 bits — "for ever" — the node aborts. -/
theorem C93_until_false {c : Config} {boots : List (Nat × MAddr)} {h : List (Ev × List Eff)} {n : Node}
    (hr : Run c boots h n) (hl : Legal h) (s : Sess) (hsv : s ∈ (seen h).served) (p : Nat)
    (hp : s.addr.peer = some p) (k : Sock) (hk : s.addr.sock = some k) (u now : Nat) (hu : now ≤ u) :
    (now + u < 2 ^ 64 → ∃ n', n.step c (.tagBan p u now) = .ok (n', []) ∧
      ∀ t, u ≤ t → t < now + u → n'.store.isBanned s.addr t = true) ∧
    (2 ^ 64 ≤ now + u → n.step c (.tagBan p u now) = .panic) := by
  have hg := good_run hr hl
  have hget := (hg.inv.get p s).2 ⟨hsv, hp⟩
  constructor
  · intro hlt
    obtain ⟨n', fx, h1⟩ := C93_no_abort_partial hr hl (.tagBan p u now) trivial (by intro _ _ h; cases h)
      (by intro _ _ _ h; cases h; exact hlt)
    obtain ⟨rfl, _⟩ := C93_tag_ban_false hr hl p u now fx h1
    refine ⟨n', h1, ?_⟩
    intro t ht1 ht2
    simp only [Node.step, Node.tagBan, Node.banId, hget] at h1
    cases hst : n.store.banAddr s.addr u now with
    | err => rw [hst] at h1; cases h1
    | panic => rw [hst] at h1; cases h1
    | ok st =>
      rw [hst] at h1
      cases h1
      have := (C88_ban hg.store s.addr k hk u now hst).2 t (by omega) ht2
      unfold Store.isBanned
      rw [hk]
      exact this
  · intro hge
    simp only [Node.step, Node.tagBan, Node.banId, hget, Store.banAddr, hk, BanList.banNetwork]
    rw [if_neg (by omega)]

/-! ### Dialling -/

/-- C93 is false of the code: inbound sessions use up the wish for outbound ones.  With the default
limits, twenty strangers that connect — which the limits allow — leave the node without any outbound
session and keep it from dialling a single address of its book, whatever the book contains. -/
theorem C93_eclipse_false : ∃ h n, Run Config.default [] h n ∧ Legal h ∧ n.inbound = 20 ∧ n.outbound = 0 ∧
    ∀ k now ch pick st, Node.tryDialPeers { n with store := st } Config.default k now ch pick =
      .ok ({ n with store := st }, 0, []) := by
  obtain ⟨n, h1, _, _⟩ := flood_run Config.default [] false 20
  obtain ⟨_, r1, r2, r3, _⟩ := C93_registry h1 (flood_legal false 20)
  obtain ⟨f1, f2, f3⟩ := flood_counts false 20
  have hi : n.inbound = 20 := by rw [r3, f3]; rfl
  refine ⟨_, n, h1, flood_legal false 20, hi, by rw [r2, f2]; rfl, ?_⟩
  intro k now ch pick st
  have : Node.wanted { n with store := st } Config.default = 0 := by
    show (40 - 20) - n.inbound = 0
    rw [hi]
  simp only [Node.tryDialPeers, this, if_true]

/-- C93 is false of the code: with any number of outbound sessions the node goes on looking for as many
peers as if it had none. -/
theorem C93_overdial_false (c : Config) (k : Nat) :
    ∃ h n, Run c [] h n ∧ Legal h ∧ n.outbound = k ∧ n.wanted c = c.max - c.inLimit := by
  obtain ⟨n, h1, _, _⟩ := flood_run c [] true k
  obtain ⟨_, r1, r2, r3, _⟩ := C93_registry h1 (flood_legal true k)
  obtain ⟨f1, f2, f3⟩ := flood_counts true k
  have hi : n.inbound = 0 := by rw [r3, f3]; rfl
  exact ⟨_, n, h1, flood_legal true k, by rw [r2, f2]; rfl, by rw [Node.wanted, hi]; rfl⟩

theorem dialAll_spec (l : List MAddr) {n : Node} (hl : ∀ a ∈ l, a.peer.isSome) :
    ∃ n' fx, n.dialAll l = .ok (n', fx) ∧ n'.peers = n.peers ∧ n'.store = n.store ∧
      fx.length ≤ l.length ∧ ∀ e ∈ fx, ∃ a p, e = .dial a ∧ a ∈ l ∧ a.peer = some p ∧ Assoc.get n.peers p = none := by
  induction l generalizing n with
  | nil => exact ⟨n, [], rfl, rfl, rfl, Nat.le_refl _, by simp⟩
  | cons a l ih =>
    obtain ⟨p, hp⟩ := Option.isSome_iff_exists.1 (hl a List.mem_cons_self)
    have hex : ∃ m f, n.dialIdentify a = .ok (m, f) := by
      unfold Node.dialIdentify
      rw [hp]
      dsimp only
      split <;> exact ⟨_, _, rfl⟩
    obtain ⟨m, f, hm⟩ := hex
    obtain ⟨q, hq, hc⟩ := dialIdentify_spec hm
    have hms : m.peers = n.peers ∧ m.store = n.store := by
      rcases hc with ⟨_, rfl, _⟩ | ⟨_, _, _, rfl, _⟩ <;> exact ⟨rfl, rfl⟩
    have hf : f.length ≤ 1 ∧ ∀ e ∈ f, ∃ p, e = .dial a ∧ a.peer = some p ∧ Assoc.get n.peers p = none := by
      rcases hc with ⟨_, _, rfl⟩ | ⟨h1, _, _, _, rfl⟩
      · simp
      · simp only [List.length_singleton, Nat.le_refl, List.mem_singleton, true_and]
        rintro e rfl
        exact ⟨q, rfl, hq, h1⟩
    obtain ⟨n', fx, h1, h2, h3, h4, h5⟩ := ih (n := m) (fun b hb => hl b (List.mem_cons_of_mem _ hb))
    refine ⟨n', f ++ fx, by simp only [Node.dialAll, hm, h1], h2.trans hms.1, h3.trans hms.2, ?_, ?_⟩
    · simp only [List.length_append, List.length_cons]; omega
    · intro e he
      rcases List.mem_append.1 he with he | he
      · obtain ⟨p, g1, g2, g3⟩ := hf.2 e he
        exact ⟨a, p, g1, List.mem_cons_self, g2, g3⟩
      · obtain ⟨b, p, g1, g2, g3, g4⟩ := h5 e he
        exact ⟨b, p, g1, List.mem_cons_of_mem _ g2, g3, hms.1 ▸ g4⟩

theorem fold_tried (l : List Info) (now : Nat) {m : Manager} (h : Peers.Inv m) :
    Peers.Inv (l.foldl (fun b x => b.update x.addr (·.markTried now)) m) := by
  induction l generalizing m with
  | nil => exact h
  | cons x l ih => exact ih (update_spec h x.addr (markTried_ok now)).1

/-- Addresses fetched from the book: at most as many as asked for, none of a connected peer. -/
theorem attempt_spec {n : Node} {g : Seen} (hi : Inv n g) (hr : Reachable n.store) (count now : Nat) (ch : Nat → Nat)
    (hc : 0 < count) :
    ∃ n' l, n.attempt count now ch = .ok (n', l) ∧ n'.peers = n.peers ∧ l.length ≤ count ∧
      ∀ a ∈ l, ∃ p, a.peer = some p ∧ Assoc.get n.peers p = none := by
  obtain ⟨st, l, h1, _, _, _, _, h2, h3, _⟩ := fetch_spec hr.sinv.inv (n.store.attemptFlt now) count now ch
  refine ⟨{ n with store := { st with book := l.foldl (fun b x => b.update x.addr (·.markTried now)) st.book } },
    l.map (·.addr), by simp only [Node.attempt, h1], rfl, by simpa using h3 hc, ?_⟩
  intro a ha
  obtain ⟨x, hx, rfl⟩ := List.mem_map.1 ha
  obtain ⟨_, _, _, _, hf⟩ := h2 x hx
  simp only [Store.attemptFlt, Bool.and_eq_true, Store.unconnected] at hf
  cases hp : x.addr.peer with
  | none => rw [hp] at hf; simp at hf
  | some p =>
    rw [hp] at hf
    refine ⟨p, rfl, ?_⟩
    have hnc : p ∉ n.store.conn := by simpa using hf.1
    cases hg : Assoc.get n.peers p with
    | none => rfl
    | some s => exact absurd ((hi.conn p).2 (by rw [hg]; rfl)) hnc

/-- C93: a round of dialling never aborts, dials at most as many addresses as it wants, and only
addresses of peers none of whose sessions is served; its counter stays below four, so that it fits in
its byte.  Missing: that the number of addresses depends on the outbound sessions
(`C93_eclipse_false`, `C93_overdial_false`). -/
theorem C93_round_partial {c : Config} {boots : List (Nat × MAddr)} {h : List (Ev × List Eff)} {n : Node}
    (hboots : ∀ e ∈ boots, e.2.peer = some e.1) (hr : Run c boots h n) (hl : Legal h) (k now : Nat) (ch : Nat → Nat)
    (pick : List MAddr → Nat → List MAddr) (hpick : ∀ l m, (pick l m).Sublist l ∧ (pick l m).length ≤ m) (hk : k ≤ 3) :
    ∃ n' k' fx, n.tryDialPeers c k now ch pick = .ok (n', k', fx) ∧ k' ≤ 3 ∧
      fx.length ≤ c.max - c.inLimit - ((seen h).served.filter (!·.outbound)).length ∧
      ∀ e ∈ fx, ∃ a, e = .dial a ∧ ∀ s ∈ (seen h).served, s.addr.peer ≠ a.peer := by
  have hg := good_run hr hl
  have hi := hg.inv
  obtain ⟨_, _, _, r3, _⟩ := C93_registry hr hl
  have hw : n.wanted c = c.max - c.inLimit - ((seen h).served.filter (!·.outbound)).length := by rw [Node.wanted, r3]
  rw [← hw]
  have hub : ∀ a ∈ n.unconnectedBoots, ∃ p, a.peer = some p ∧ Assoc.get n.peers p = none := by
    intro a ha
    unfold Node.unconnectedBoots at ha
    rw [hg.boots] at ha
    obtain ⟨e, he, rfl⟩ := List.mem_map.1 ha
    rw [List.mem_filter] at he
    exact ⟨e.1, hboots e he.1, by simpa using he.2⟩
  have hgo : ∀ (m : Node) (l : List MAddr), m.peers = n.peers → l.length ≤ n.wanted c →
      (∀ a ∈ l, ∃ p, a.peer = some p ∧ Assoc.get n.peers p = none) →
      ∃ n' fx, m.dialAll l = .ok (n', fx) ∧ fx.length ≤ n.wanted c ∧
        ∀ e ∈ fx, ∃ a, e = .dial a ∧ ∀ s ∈ (seen h).served, s.addr.peer ≠ a.peer := by
    intro m l hm hlen hall
    obtain ⟨n', fx, h1, _, _, h4, h5⟩ := dialAll_spec l (n := m) (fun a ha => by
      obtain ⟨p, hp, _⟩ := hall a ha; simp [hp])
    refine ⟨n', fx, h1, by omega, ?_⟩
    intro e he
    obtain ⟨a, p, g1, g2, g3, g4⟩ := h5 e he
    refine ⟨a, g1, ?_⟩
    intro s hs heq
    have := (hi.get p s).2 ⟨hs, heq.trans g3⟩
    rw [← hm, g4] at this
    cases this
  unfold Node.tryDialPeers
  dsimp only
  by_cases hc : n.wanted c = 0
  · rw [if_pos hc]
    exact ⟨_, _, _, rfl, by omega, by simp, by simp⟩
  · rw [if_neg hc]
    by_cases hk3 : k + 1 > 3
    · rw [if_pos hk3]
      by_cases hb : n.unconnectedBoots.length < n.wanted c
      · rw [if_pos hb]
        obtain ⟨m, l, h1, h2, h3, h4⟩ := attempt_spec hi hg.store (n.wanted c - n.unconnectedBoots.length) now ch (by omega)
        obtain ⟨n', fx, g1, g2, g3⟩ := hgo m (l ++ n.unconnectedBoots) h2 (by rw [List.length_append]; omega) (by
          intro a ha
          rcases List.mem_append.1 ha with ha | ha
          · exact h4 a ha
          · exact hub a ha)
        rw [h1]
        dsimp only
        rw [g1]
        exact ⟨_, _, _, rfl, by omega, g2, g3⟩
      · rw [if_neg hb]
        obtain ⟨p1, p2⟩ := hpick n.unconnectedBoots (n.wanted c)
        obtain ⟨n', fx, g1, g2, g3⟩ := hgo n (pick n.unconnectedBoots (n.wanted c)) rfl p2 (fun a ha => hub a (p1.subset ha))
        rw [g1]
        exact ⟨_, _, _, rfl, by omega, g2, g3⟩
    · rw [if_neg hk3]
      obtain ⟨m, l, h1, h2, h3, h4⟩ := attempt_spec hi hg.store (n.wanted c) now ch (by omega)
      obtain ⟨n', fx, g1, g2, g3⟩ := hgo m l h2 h3 h4
      rw [h1]
      dsimp only
      rw [g1]
      exact ⟨_, _, _, rfl, by omega, g2, g3⟩

/-! ### Multicast -/

theorem select_spec (ps : List Nat) {n n' : Node} {now : Nat} {ss : List Nat} {l : List MAddr}
    (hs : n.select now ps = .ok (n', ss, l)) :
    ss = ps.filterMap (fun p => (Assoc.get n.peers p).map (·.id)) ∧ n'.peers = n.peers := by
  induction ps generalizing n n' ss l with
  | nil => cases hs; exact ⟨rfl, rfl⟩
  | cons p ps ih =>
    unfold Node.select at hs
    cases hg : Assoc.get n.peers p with
    | some s =>
      rw [hg] at hs
      dsimp only at hs
      cases h1 : n.select now ps with
      | err => rw [h1] at hs; cases hs
      | panic => rw [h1] at hs; cases hs
      | ok r =>
        obtain ⟨m, ss', l'⟩ := r
        rw [h1] at hs
        cases hs
        obtain ⟨h2, h3⟩ := ih h1
        exact ⟨by simp [hg, h2], h3⟩
    | none =>
      rw [hg] at hs
      dsimp only at hs
      cases h0 : byPeer n.store p now with
      | err => rw [h0] at hs; cases hs
      | panic => rw [h0] at hs; cases hs
      | ok b =>
        rw [h0] at hs
        dsimp only at hs
        generalize hm : ({ n with store := { n.store with book := b.foldl (fun b a => b.update a (·.markTried now)) n.store.book } } : Node) = m at hs
        have hmp : m.peers = n.peers := by subst hm; rfl
        cases h1 : m.select now ps with
        | err => rw [h1] at hs; cases hs
        | panic => rw [h1] at hs; cases hs
        | ok r =>
          obtain ⟨m', ss', l'⟩ := r
          rw [h1] at hs
          cases hs
          obtain ⟨h2, h3⟩ := ih h1
          refine ⟨?_, h3.trans hmp⟩
          rw [h2, hmp]
          simp [hg]

/-- C93: a multicast that does not abort goes to exactly the served sessions of the named peers, in the
order of the names. -/
theorem C93_multicast {c : Config} {boots : List (Nat × MAddr)} {h : List (Ev × List Eff)} {n n' : Node}
    (hr : Run c boots h n) (hl : Legal h) (now : Nat) (ps : List Nat) (ss : List Nat) (l : List MAddr)
    (hs : n.select now ps = .ok (n', ss, l)) :
    ss = ps.filterMap (fun p => ((seen h).served.find? fun s => s.addr.peer = some p).map (·.id)) := by
  have hi := (good_run hr hl).inv
  rw [(select_spec ps hs).1]
  congr 1
  funext p
  congr 1
  cases hf : (seen h).served.find? fun s => s.addr.peer = some p with
  | none =>
    cases hg : Assoc.get n.peers p with
    | none => rfl
    | some s =>
      obtain ⟨h1, h2⟩ := (hi.get p s).1 hg
      have := List.find?_eq_none.1 hf s h1
      simp [h2] at this
  | some s =>
    exact (hi.get p s).2 ⟨List.mem_of_find?_eq_some hf, by simpa using List.find?_some hf⟩

/-- C93 is false of the code: a multicast can abort the node.  When an address announced for a peer `p`
turns out to belong to another one, a later message to `p` — for instance because `p` is a validator —
panics. -/
theorem C93_multicast_false (p q : Nat) (hpq : p ≠ q) (s : Sock) (ch : Choice) :
    ∃ h n, Run Config.default [] h n ∧ Legal h ∧ n.select 30000 [p] = .panic := by
  obtain ⟨m, h1, h2⟩ := C45_stale_false s p q 10000 30000 hpq (by decide)
    (fun x => decide (x.lastConn > 30000 - 3 * 24 * 3600 * 1000) && decide (x.lastConn ≤ 30000 - 15 * 1000))
  simp only [Manager.run, Manager.step] at h1
  cases ha : Manager.empty.add { addr := ⟨some s, some p, 0⟩, lastConn := 0 } with
  | err => rw [ha] at h1; cases h1
  | panic => rw [ha] at h1; cases h1
  | ok m0 =>
    rw [ha] at h1
    dsimp only at h1
    cases hb : m0.add { addr := ⟨some s, some q, 0⟩, lastConn := 10000 } with
    | err => rw [hb] at h1; cases h1
    | panic => rw [hb] at h1; cases h1
    | ok m1 =>
      rw [hb] at h1
      cases h1
      have hnb : ∀ (b : Manager) (l : List Nat) (a : MAddr) (now : Nat), Store.isBanned ⟨b, BanList.new, l⟩ a now = false := by
        intro b l a now
        unfold Store.isBanned BanList.isAddrBanned
        cases a.sock <;> simp [BanList.isBanned, BanList.new, get_nil]
      have hpu : checkPurge Manager.empty ch 0 = .ok (Manager.empty, true) := by
        unfold checkPurge
        rw [if_pos (by decide)]
      let n1 : Node := { Node.new [] with store := ⟨m0, BanList.new, []⟩ }
      let n2 : Node := { Node.new [] with store := ⟨m, BanList.new, []⟩ }
      have s1 : (Node.new []).step Config.default (.addAddr ⟨some s, some p, 0⟩ ch 0) = .ok (n1, []) := by
        simp only [Node.step, Node.withStore, Store.step, Store.addAddr, Node.new, Store.empty, hnb, hpu, ha]
        rfl
      have s2 : n1.step Config.default (.addOutbound ⟨some s, some q, 0⟩ 10000) = .ok (n2, []) := by
        simp only [Node.step, Node.withStore, Store.step, Store.addOutbound, n1, hnb, hb]
        rfl
      refine ⟨_, n2, .snoc (.snoc .nil s1) s2, .snoc (.snoc .nil trivial) trivial, ?_⟩
      simp only [Node.select, n2, Node.new, get_nil, byPeer, h2]

/-! ### Cases -/

/-- Two strangers, one of whom the node dialled; the first one misbehaves, is disconnected and banned. -/
example : ∃ n, Run Config.default []
    ([] ++ [(.dialIdentify (stranger true 7).addr, [.dial (stranger true 7).addr])] ++
      [(.opened (stranger true 7) 5, [])] ++ [(.opened (stranger false 8) 6, [])] ++
      [(.protocolError 7 10, [.disconnect 7])] ++ [(.closed (stranger true 7), [])]) n ∧
    n.inbound = 1 ∧ n.outbound = 0 ∧ n.dialing = [] ∧ n.store.isBanned (stranger true 7).addr 300009 = true ∧
    n.store.isBanned (stranger true 7).addr 300010 = false :=
  ⟨_, .snoc (.snoc (.snoc (.snoc (.snoc .nil (by rfl)) (by rfl)) (by rfl)) (by rfl)) (by rfl),
    rfl, rfl, rfl, by decide +kernel, by decide +kernel⟩

/-- A handler panics on the session of a stranger: the node quits, and the stranger is banned. -/
example : ∃ n n', Run Config.default [] ([] ++ [(.opened (stranger true 7) 5, [])]) n ∧
    n.handleError (some 7) 10 = .ok (n', [.exit]) ∧ n'.store.isBanned (stranger true 7).addr 300009 = true :=
  ⟨_, _, .snoc .nil (by rfl), by rfl, by decide +kernel⟩

/-- A banned stranger that comes when the limit of one inbound session is used up is refused; a validator
in the same situation is not. -/
example (ps : List Nat) (fx : List Eff) (h : (ps, fx) = ([], [.disconnect 9]) ∨ (ps, fx) = ([7], [])) :
    ∃ n, Run ⟨2, 1⟩ []
    ([] ++ [(.setConsensus ps, [])] ++ [(.opened (stranger true 7) 5, [])] ++
      [(.protocolError 7 10, [.disconnect 7])] ++ [(.closed (stranger true 7), [])] ++
      [(.opened (stranger false 8) 11, [])] ++ [(.opened { stranger false 7 with id := 9 } 12, fx)]) n := by
  rcases h with h | h <;> cases h <;>
    exact ⟨_, .snoc (.snoc (.snoc (.snoc (.snoc (.snoc .nil (by rfl)) (by rfl)) (by rfl)) (by rfl)) (by rfl)) (by rfl)⟩

end Axon.Sessions
