import Verif.Network.PeerStore

/-!
# C88: what the peer store admits, evicts and offers
-/

namespace Axon.Peers

open Axon.Assoc Axon.Bans

/-- The operations of the node on its peer store, each with its time. -/
inductive SOp where
  | addAddr (a : MAddr) (c : Choice) (now : Nat)
  | addOutbound (a : MAddr) (now : Nat)
  | connect (a : MAddr)
  | disconnect (a : MAddr)
  | tried (a : MAddr) (now : Nat)
  | fetch (flt : Info → Bool) (count now : Nat) (ch : Nat → Nat)
  | ban (a : MAddr) (timeout now : Nat)
  | report (a : MAddr) (now : Nat)

def Store.step (s : Store) : SOp → Outcome Store
  | .addAddr a c now => match s.addAddr a c now with | .ok (s', _) => .ok s' | .err => .err | .panic => .panic
  | .addOutbound a now => s.addOutbound a now
  | .connect a => s.connect a
  | .disconnect a => .ok (s.disconnect a)
  | .tried a now => .ok { s with book := s.book.update a (·.markTried now) }
  | .fetch flt count now ch =>
    match s.fetch flt count now ch with | .ok (s', _) => .ok s' | .err => .err | .panic => .panic
  | .ban a timeout now => s.banAddr a timeout now
  | .report a now => match s.report a now with | .ok (s', _) => .ok s' | .err => .err | .panic => .panic

def Store.run (s : Store) : List SOp → Outcome Store
  | [] => .ok s
  | op :: ops => match s.step op with | .ok s' => s'.run ops | .err => .err | .panic => .panic

/-- A store some sequence of operations leads to. -/
def Reachable (s : Store) : Prop := ∃ ops, Store.empty.run ops = .ok s

/-! ## Each operation on the book -/

theorem purge_spec {m : Manager} (h : Inv m) (c : Choice) (now : Nat) :
    ∃ m' r, checkPurge m c now = .ok (m', r) ∧ Inv m' ∧
      (m.count < 16384 → m' = m ∧ r = true) ∧
      (16384 ≤ m.count → (∃ k x, m.book k = some x ∧ x.connectable now = false) →
        r = true ∧ ∀ k, m'.book k = (m.book k).filter fun x => x.connectable now) ∧
      (16384 ≤ m.count → (∀ k x, m.book k = some x → x.connectable now = true) →
        r = !(victims c m.values).isEmpty ∧
        ∀ k, m'.book k =
          if ∃ x ∈ victims c m.values, x.addr.sock = some k then none else m.book k) := by
  have hconn : ∀ x : Info, x.strip.connectable now = x.connectable now := fun _ => rfl
  unfold checkPurge
  by_cases hc : m.count < 16384
  · rw [if_pos hc]
    exact ⟨m, true, rfl, h, fun _ => ⟨rfl, rfl⟩, fun hh => by omega, fun hh => by omega⟩
  · rw [if_neg hc]
    dsimp only
    by_cases hdead : ∃ k x, m.book k = some x ∧ x.connectable now = false
    · obtain ⟨m1, h1, h2, h3⟩ := removeAll_spec
        ((m.values.filter fun x => !x.connectable now).map (·.addr)) h
      rw [h1]
      dsimp only
      have hne : (m.values.filter fun x => !x.connectable now).isEmpty = false := by
        obtain ⟨k, x, hk, hx⟩ := hdead
        obtain ⟨y, hy, hyx, _⟩ := book_value h hk
        rw [List.isEmpty_eq_false_iff]
        intro hh
        rw [List.filter_eq_nil_iff] at hh
        have := hh y hy
        rw [← hconn y, hyx, hx] at this
        simp at this
      rw [hne]
      refine ⟨m1, true, rfl, h2, fun hh => absurd hh hc, fun _ _ => ⟨rfl, ?_⟩, ?_⟩
      · intro k
        rw [h3]
        cases hk : m.book k with
        | none => simp
        | some x =>
          obtain ⟨y, hy, hyx, hys⟩ := book_value h hk
          cases hx : x.connectable now with
          | false =>
            rw [if_pos]
            · simp [Option.filter, hx]
            · refine ⟨y.addr, List.mem_map.2 ⟨y, List.mem_filter.2 ⟨hy, ?_⟩, rfl⟩, hys⟩
              rw [← hconn y, hyx, hx]; rfl
          | true =>
            rw [if_neg]
            · simp [Option.filter, hx]
            · rintro ⟨a, ha, has⟩
              obtain ⟨z, hz, rfl⟩ := List.mem_map.1 ha
              obtain ⟨hz1, hz2⟩ := List.mem_filter.1 hz
              obtain ⟨s', e1, e2⟩ := value_book h hz1
              rw [has] at e1; cases e1
              rw [hk] at e2; cases e2
              rw [hconn] at hx
              rw [hx] at hz2; cases hz2
      · intro _ hall
        obtain ⟨k, x, hk, hx⟩ := hdead
        rw [hall k x hk] at hx; cases hx
    · have hall : ∀ k x, m.book k = some x → x.connectable now = true := by
        intro k x hk
        cases hx : x.connectable now with
        | true => rfl
        | false => exact absurd ⟨k, x, hk, hx⟩ hdead
      have hemp : m.values.filter (fun x => !x.connectable now) = [] := by
        rw [List.filter_eq_nil_iff]
        intro y hy
        obtain ⟨s', e1, e2⟩ := value_book h hy
        have := hall s' _ e2
        rw [hconn] at this
        simp [this]
      rw [hemp]
      simp only [List.map_nil, removeAll, List.isEmpty_nil, if_true]
      obtain ⟨m1, h1, h2, h3⟩ := removeAll_spec ((victims c m.values).map (·.addr)) h
      rw [h1]
      refine ⟨m1, _, rfl, h2, fun hh => absurd hh hc, fun _ hh => absurd hh hdead, fun _ _ => ⟨rfl, ?_⟩⟩
      intro k
      rw [h3]
      by_cases hv : ∃ x ∈ victims c m.values, x.addr.sock = some k
      · rw [if_pos hv, if_pos]
        obtain ⟨x, hx, hxs⟩ := hv
        exact ⟨x.addr, List.mem_map.2 ⟨x, hx, rfl⟩, hxs⟩
      · rw [if_neg hv, if_neg]
        rintro ⟨a, ha, has⟩
        obtain ⟨x, hx, rfl⟩ := List.mem_map.1 ha
        exact hv ⟨x, hx, has⟩

/-- A purge only forgets. -/
theorem purge_sub {m m' : Manager} {c : Choice} {now : Nat} {r : Bool} (h : Inv m)
    (hp : checkPurge m c now = .ok (m', r)) : ∀ k, m'.book k = none ∨ m'.book k = m.book k := by
  intro k
  obtain ⟨m1, r1, h1, h2, h3, h4, h5⟩ := purge_spec h c now
  rw [hp] at h1; cases h1
  by_cases hc : m.count < 16384
  · rw [(h3 hc).1]; exact .inr rfl
  · by_cases hdead : ∃ k x, m.book k = some x ∧ x.connectable now = false
    · rw [(h4 (by omega) hdead).2]
      cases m.book k with
      | none => exact .inl rfl
      | some x => cases hx : x.connectable now <;> simp [hx]
    · have hall : ∀ k x, m.book k = some x → x.connectable now = true := by
        intro k x hk
        cases hx : x.connectable now with
        | true => rfl
        | false => exact absurd ⟨k, x, hk, hx⟩ hdead
      rw [(h5 (by omega) hall).2]
      split
      · exact .inl rfl
      · exact .inr rfl

theorem addAddr_spec {s : Store} (h : Inv s.book) (a : MAddr) (c : Choice) (now : Nat) :
    ∃ s' r, s.addAddr a c now = .ok (s', r) ∧ Inv s'.book ∧ s'.bans = s.bans ∧ s'.conn = s.conn ∧
      ((s.isBanned a now = true ∧ s' = s ∧ r = true) ∨
       (s.isBanned a now = false ∧ ∃ m, checkPurge s.book c now = .ok (m, r) ∧ Inv m ∧
         (r = false → s'.book = m) ∧
         (r = true → ∀ k, s'.book.book k = if a.sock = some k ∧ m.book k = none then
           (if a.peer.isSome then some { addr := a, lastConn := 0 } else none) else m.book k))) := by
  unfold Store.addAddr
  cases hb : s.isBanned a now with
  | true => exact ⟨s, true, rfl, h, rfl, rfl, .inl ⟨rfl, rfl, rfl⟩⟩
  | false =>
    obtain ⟨m, r, h1, h2, _⟩ := purge_spec h c now
    rw [if_neg (by simp), h1]
    cases r with
    | false =>
      exact ⟨{ s with book := m }, false, rfl, h2, rfl, rfl, .inr ⟨rfl, m, rfl, h2, fun _ => rfl, by simp⟩⟩
    | true =>
      obtain ⟨m', g1, g2, g3⟩ := add_spec h2 { addr := a, lastConn := 0 }
      dsimp only
      rw [g1]
      refine ⟨{ s with book := m' }, true, rfl, g2, rfl, rfl, .inr ⟨rfl, m, rfl, h2, by simp, fun _ k => ?_⟩⟩
      dsimp only
      rw [g3]
      cases hk : m.book k with
      | none => simp [later, Info.strip]
      | some x => simp [later]

theorem addOutbound_spec {s : Store} (h : Inv s.book) (a : MAddr) (now : Nat) :
    ∃ s', s.addOutbound a now = .ok s' ∧ Inv s'.book ∧ s'.bans = s.bans ∧ s'.conn = s.conn ∧
      ((s.isBanned a now = true ∧ s' = s) ∨
       (s.isBanned a now = false ∧ ∀ k, s'.book.book k =
         if a.sock = some k ∧ later { addr := a, lastConn := now } (s.book.book k) = true then
           (if a.peer.isSome then some { addr := a, lastConn := now } else none) else s.book.book k)) := by
  unfold Store.addOutbound
  cases hb : s.isBanned a now with
  | true => exact ⟨s, rfl, h, rfl, rfl, .inl ⟨rfl, rfl⟩⟩
  | false =>
    obtain ⟨m', g1, g2, g3⟩ := add_spec h { addr := a, lastConn := now }
    rw [if_neg (by simp), g1]
    exact ⟨{ s with book := m' }, rfl, g2, rfl, rfl, .inr ⟨rfl, g3⟩⟩

theorem banAddr_spec {s s' : Store} {a : MAddr} {timeout now : Nat} (h : Inv s.book)
    (hb : s.banAddr a timeout now = .ok s') :
    Inv s'.book ∧ (∀ k, s'.book.book k = if a.sock = some k then none else s.book.book k) ∧
      s'.conn = s.conn ∧
      (∀ k, a.sock = some k → now + timeout < 2 ^ 64 ∧ s'.bans = s.bans.ban (ipNet k.ip) (now + timeout) now) := by
  unfold Store.banAddr at hb
  obtain ⟨m', r, h1, h2, h3, _⟩ := remove_spec h a
  cases hs : a.sock with
  | none =>
    rw [hs] at hb
    dsimp only at hb
    rw [h1] at hb
    cases hb
    exact ⟨h2, by intro k; rw [h3, hs], rfl, by simp⟩
  | some k =>
    rw [hs] at hb
    dsimp only at hb
    unfold BanList.banNetwork at hb
    by_cases ho : now + timeout < 2 ^ 64
    · rw [if_pos ho, h1] at hb
      cases hb
      exact ⟨h2, by intro k'; rw [h3, hs], rfl, by intro k' hk'; cases hk'; exact ⟨ho, rfl⟩⟩
    · rw [if_neg ho] at hb; cases hb

theorem fetch_spec {s : Store} (h : Inv s.book) (flt : Info → Bool) (count now : Nat) (ch : Nat → Nat) :
    ∃ s' l, s.fetch flt count now ch = .ok (s', l) ∧ Inv s'.book ∧ s'.book.book = s.book.book ∧
      s'.bans = s.bans ∧ s'.conn = s.conn ∧
      (∀ x ∈ l, ∃ k, x.addr.sock = some k ∧ s.book.book k = some x.strip ∧ x.connectable now = true ∧ flt x = true) ∧
      (0 < count → l.length ≤ count) ∧ l.Pairwise (fun x y => x.addr.sock ≠ y.addr.sock) := by
  obtain ⟨m', h1, h2, h3, _⟩ := fetchRandom_spec h testIp now flt count ch
  obtain ⟨l, e1, e2, e3, e4⟩ := pick_append testIp now flt count [] [] m'.entries
  refine ⟨{ s with book := m' }, pick testIp now flt count [] [] m'.entries, by simp only [Store.fetch, h1], h2, h3, rfl, rfl, ?_, ?_, ?_⟩
  · intro x hx
    rw [e1, List.nil_append] at hx
    obtain ⟨id, hid⟩ := (mem_entries h2).1 (e2.subset hx)
    obtain ⟨k, g1, g2⟩ := h2.back id x hid
    refine ⟨k, g1, ?_, (e3 x hx).1, (e3 x hx).2.1⟩
    rw [← h3]
    simp [Manager.book, g2, hid]
  · intro hc; exact pick_le _ _ _ _ _ _ _ (by simpa using hc)
  · rw [e1, List.nil_append]
    exact (entries_sock h2).sublist e2

/-- The book of a reachable store is well formed and its scores are the default ones. -/
structure SInv (s : Store) : Prop where
  inv : Inv s.book
  score : ∀ k x, s.book.book k = some x → x.score = 100

theorem step_inv {s s' : Store} (h : SInv s) (op : SOp) (hs : s.step op = .ok s') : SInv s' := by
  cases op with
  | addAddr a c now =>
    obtain ⟨s1, r, h1, h2, _, _, hcase⟩ := addAddr_spec h.inv a c now
    simp only [Store.step, h1] at hs
    cases hs
    refine ⟨h2, ?_⟩
    rcases hcase with ⟨_, rfl, _⟩ | ⟨_, m, g1, g2, g3, g4⟩
    · exact h.score
    · intro k x hk
      have hm : ∀ k x, m.book k = some x → x.score = 100 := by
        intro k x hk
        rcases purge_sub h.inv g1 k with e | e
        · rw [e] at hk; cases hk
        · rw [e] at hk; exact h.score k x hk
      cases r with
      | false => rw [g3 rfl] at hk; exact hm k x hk
      | true =>
        rw [g4 rfl] at hk
        split at hk
        · split at hk <;> cases hk; rfl
        · exact hm k x hk
  | addOutbound a now =>
    obtain ⟨s1, h1, h2, _, _, hcase⟩ := addOutbound_spec h.inv a now
    simp only [Store.step, h1] at hs
    cases hs
    refine ⟨h2, ?_⟩
    rcases hcase with ⟨_, rfl⟩ | ⟨_, g⟩
    · exact h.score
    · intro k x hk
      rw [g] at hk
      split at hk
      · split at hk <;> cases hk; rfl
      · exact h.score k x hk
  | connect a =>
    simp only [Store.step, Store.connect] at hs
    cases hp : a.peer with
    | none => rw [hp] at hs; cases hs
    | some p => rw [hp] at hs; cases hs; exact ⟨h.inv, h.score⟩
  | disconnect a =>
    simp only [Store.step, Store.disconnect] at hs
    cases hs
    cases hp : a.peer with
    | none => exact h
    | some p => exact ⟨h.inv, h.score⟩
  | tried a now =>
    cases hs
    obtain ⟨h1, h2, _⟩ := update_spec h.inv a (markTried_ok now)
    refine ⟨h1, ?_⟩
    intro k x hk
    dsimp only at hk
    rw [h2] at hk
    split at hk
    · cases hb : s.book.book k with
      | none => rw [hb] at hk; cases hk
      | some y =>
        rw [hb] at hk
        cases hk
        exact h.score k y hb
    · exact h.score k x hk
  | fetch flt count now ch =>
    obtain ⟨s1, l, h1, h2, h3, _⟩ := fetch_spec h.inv flt count now ch
    simp only [Store.step, h1] at hs
    cases hs
    exact ⟨h2, by rw [h3]; exact h.score⟩
  | ban a timeout now =>
    obtain ⟨h1, h2, _⟩ := banAddr_spec h.inv hs
    refine ⟨h1, ?_⟩
    intro k x hk
    rw [h2] at hk
    split at hk
    · cases hk
    · exact h.score k x hk
  | report a now =>
    simp only [Store.step, Store.report] at hs
    cases hg : s.book.get a with
    | none => rw [hg] at hs; cases hs; exact h
    | some x =>
      have hb := get_eq_book (m := s.book) a
      rw [hg] at hb
      cases hk : a.sock with
      | none => rw [hk] at hb; cases hb
      | some k =>
        rw [hk] at hb
        simp only [Option.map_some, Option.bind_some] at hb
        have := h.score k _ hb.symm
        have : x.score = 100 := this
        rw [hg] at hs
        simp [this] at hs
        cases hs
        exact h

theorem sinv_empty : SInv Store.empty :=
  ⟨inv_empty, by intro k x hk; simp [Store.empty, Manager.book, Manager.empty, get_nil] at hk⟩

theorem run_sinv (ops : List SOp) {s s' : Store} (h : SInv s) (hs : s.run ops = .ok s') : SInv s' := by
  induction ops generalizing s with
  | nil => cases hs; exact h
  | cons op ops ih =>
    simp only [Store.run] at hs
    cases h1 : s.step op with
    | ok s1 => rw [h1] at hs; exact ih (step_inv h op h1) hs
    | err => rw [h1] at hs; cases hs
    | panic => rw [h1] at hs; cases hs

theorem Reachable.sinv {s : Store} (h : Reachable s) : SInv s := by
  obtain ⟨ops, hops⟩ := h
  exact run_sinv ops sinv_empty hops

theorem run_append (ops ops' : List SOp) {s s1 : Store} (h : s.run ops = .ok s1) :
    s.run (ops ++ ops') = s1.run ops' := by
  induction ops generalizing s with
  | nil => cases h; rfl
  | cons op ops ih =>
    simp only [Store.run, List.cons_append] at h ⊢
    cases h1 : s.step op with
    | ok s2 => rw [h1] at h; exact ih h
    | err => rw [h1] at h; cases h
    | panic => rw [h1] at h; cases h

/-! ## Admission -/

/-- C88: an address enters the book only by being added, with a peer id, while its IP address is not
banned. -/
theorem C88_enter {s s' : Store} (hr : Reachable s) (op : SOp) (hs : s.step op = .ok s') (k : Sock)
    (hk : s.book.book k = none) (hk' : (s'.book.book k).isSome) :
    ∃ a now, ((∃ c, op = .addAddr a c now) ∨ op = .addOutbound a now) ∧ a.sock = some k ∧ a.peer.isSome ∧
      s.bans.isBanned k.ip now = false := by
  have h := hr.sinv
  cases op with
  | addAddr a c now =>
    obtain ⟨s1, r, h1, h2, _, _, hcase⟩ := addAddr_spec h.inv a c now
    simp only [Store.step, h1] at hs
    cases hs
    rcases hcase with ⟨_, rfl, _⟩ | ⟨hb, m, g1, g2, g3, g4⟩
    · rw [hk] at hk'; cases hk'
    · have hm : m.book k = none := by
        rcases purge_sub h.inv g1 k with e | e
        · exact e
        · rw [e, hk]
      cases r with
      | false => rw [g3 rfl, hm] at hk'; cases hk'
      | true =>
        rw [g4 rfl] at hk'
        split at hk'
        · next hh =>
          refine ⟨a, now, .inl ⟨c, rfl⟩, hh.1, ?_, ?_⟩
          · split at hk'
            · next hp => exact hp
            · cases hk'
          · simpa [Store.isBanned, hh.1, BanList.isAddrBanned] using hb
        · rw [hm] at hk'; cases hk'
  | addOutbound a now =>
    obtain ⟨s1, h1, h2, _, _, hcase⟩ := addOutbound_spec h.inv a now
    simp only [Store.step, h1] at hs
    cases hs
    rcases hcase with ⟨_, rfl⟩ | ⟨hb, g⟩
    · rw [hk] at hk'; cases hk'
    · rw [g] at hk'
      split at hk'
      · next hh =>
        refine ⟨a, now, .inr rfl, hh.1, ?_, ?_⟩
        · split at hk'
          · next hp => exact hp
          · cases hk'
        · simpa [Store.isBanned, hh.1, BanList.isAddrBanned] using hb
      · rw [hk] at hk'; cases hk'
  | connect a =>
    simp only [Store.step, Store.connect] at hs
    cases hp : a.peer with
    | none => rw [hp] at hs; cases hs
    | some p => rw [hp] at hs; cases hs; dsimp only at hk'; rw [hk] at hk'; cases hk'
  | disconnect a =>
    simp only [Store.step, Store.disconnect] at hs
    cases hs
    cases hp : a.peer with
    | none => rw [hp] at hk'; dsimp only at hk'; rw [hk] at hk'; cases hk'
    | some p => rw [hp] at hk'; dsimp only at hk'; rw [hk] at hk'; cases hk'
  | tried a now =>
    cases hs
    obtain ⟨h1, h2, _⟩ := update_spec h.inv a (markTried_ok now)
    dsimp only at hk'
    rw [h2, hk] at hk'
    split at hk' <;> cases hk'
  | fetch flt count now ch =>
    obtain ⟨s1, l, h1, h2, h3, _⟩ := fetch_spec h.inv flt count now ch
    simp only [Store.step, h1] at hs
    cases hs
    rw [h3, hk] at hk'; cases hk'
  | ban a timeout now =>
    obtain ⟨h1, h2, _⟩ := banAddr_spec h.inv hs
    rw [h2, hk] at hk'
    split at hk' <;> cases hk'
  | report a now =>
    simp only [Store.step, Store.report] at hs
    cases hg : s.book.get a with
    | none => rw [hg] at hs; cases hs; rw [hk] at hk'; cases hk'
    | some x =>
      rw [hg] at hs
      dsimp only at hs
      by_cases hsc : x.score < 40
      · rw [if_pos hsc] at hs
        cases hb : s.banAddr a (24 * 3600 * 1000) now with
        | ok s1 =>
          rw [hb] at hs
          cases hs
          obtain ⟨h1, h2, _⟩ := banAddr_spec h.inv hb
          rw [h2, hk] at hk'
          split at hk' <;> cases hk'
        | err => rw [hb] at hs; cases hs
        | panic => rw [hb] at hs; cases hs
      · rw [if_neg hsc] at hs; cases hs; rw [hk] at hk'; cases hk'

/-! ## Eviction -/

theorem purge_lt {m m' : Manager} {c : Choice} (hc : c.Ok) {now : Nat} (h : Inv m)
    (hp : checkPurge m c now = .ok (m', true)) (hcount : m.count ≤ 16384) : m'.count < 16384 := by
  obtain ⟨m1, r1, h1, h2, h3, h4, h5⟩ := purge_spec h c now
  have hsub := purge_sub h hp
  rw [hp] at h1; cases h1
  by_cases hlt : m.count < 16384
  · rw [(h3 hlt).1]; exact hlt
  · have hsub' : ∀ s, (m'.book s).isSome → (m.book s).isSome := by
      intro s hs
      rcases hsub s with e | e
      · rw [e] at hs; cases hs
      · rw [← e]; exact hs
    have : m'.count < m.count := by
      by_cases hdead : ∃ k x, m.book k = some x ∧ x.connectable now = false
      · obtain ⟨k, x, hk, hx⟩ := hdead
        refine count_lt h h2 hsub' (s := k) (by rw [hk]; rfl) ?_
        rw [(h4 (by omega) ⟨k, x, hk, hx⟩).2, hk]
        simp [hx]
      · have hall : ∀ k x, m.book k = some x → x.connectable now = true := by
          intro k x hk
          cases hx : x.connectable now with
          | true => rfl
          | false => exact absurd ⟨k, x, hk, hx⟩ hdead
        obtain ⟨g1, g2⟩ := h5 (by omega) hall
        cases hv : victims c m.values with
        | nil => rw [hv] at g1; cases g1
        | cons x xs =>
          have hx : x ∈ victims c m.values := by rw [hv]; exact List.mem_cons_self
          obtain ⟨k, e1, e2⟩ := value_book h (mem_victims hc hx).1
          refine count_lt h h2 hsub' (s := k) (by rw [e2]; rfl) ?_
          rw [g2, if_pos ⟨x, hx, e1⟩]
    omega

/-- C88: learning addresses from others never takes the book beyond 16384 entries.  Missing: addresses
this node connected to itself (see `C88_outbound_false`). -/
theorem C88_limit_partial {s s' : Store} (hr : Reachable s) (a : MAddr) {c : Choice} (hc : c.Ok) (now : Nat)
    {r : Bool} (hs : s.addAddr a c now = .ok (s', r)) (hcount : s.book.count ≤ 16384) :
    s'.book.count ≤ 16384 := by
  have h := hr.sinv
  obtain ⟨s1, r1, h1, h2, _, _, hcase⟩ := addAddr_spec h.inv a c now
  rw [hs] at h1; cases h1
  rcases hcase with ⟨_, rfl, _⟩ | ⟨hb, m, g1, g2, g3, g4⟩
  · exact hcount
  · cases r with
    | false =>
      rw [g3 rfl]
      obtain ⟨l, k1, k2, k3⟩ := count_spec h.inv
      obtain ⟨l', q1, q2, q3⟩ := count_spec g2
      have := q1.length_le_of_subset (l₂ := l) (fun x hx => by
        have hx' := (q2 x).1 hx
        rcases purge_sub h.inv g1 x with e | e
        · rw [e] at hx'; cases hx'
        · exact (k2 x).2 (e ▸ hx'))
      omega
    | true =>
      have hlt := purge_lt hc h.inv g1 hcount
      cases hsock : a.sock with
      | none =>
        have := count_le_succ g2 h2 ⟨.v4 0, 0⟩ (fun k _ hh => by
          rw [g4 rfl, hsock] at hh; simpa using hh)
        omega
      | some k =>
        have := count_le_succ g2 h2 k (fun k' hk' hh => by
          rw [g4 rfl, hsock, if_neg (fun e => hk' (Option.some.inj e.1).symm)] at hh; exact hh)
        omega

/-- C88: an address is refused only when the book is full and all its entries are worth connecting to,
and then nothing changes. -/
theorem C88_refused {s s' : Store} (hr : Reachable s) (a : MAddr) (c : Choice) (now : Nat)
    (hs : s.addAddr a c now = .ok (s', false)) :
    16384 ≤ s.book.count ∧ (∀ k x, s.book.book k = some x → x.connectable now = true) ∧
      ∀ a', (s'.book.get a').map Info.strip = (s.book.get a').map Info.strip := by
  have h := hr.sinv
  obtain ⟨s1, r1, h1, h2, _, _, hcase⟩ := addAddr_spec h.inv a c now
  rw [hs] at h1; cases h1
  rcases hcase with ⟨_, _, hf⟩ | ⟨hb, m, g1, g2, g3, g4⟩
  · cases hf
  · obtain ⟨m1, r1, e1, e2, e3, e4, e5⟩ := purge_spec h.inv c now
    rw [g1] at e1; cases e1
    have hcount : 16384 ≤ s.book.count := by
      rcases Nat.lt_or_ge s.book.count 16384 with hh | hh
      · cases (e3 hh).2
      · exact hh
    have hall : ∀ k x, s.book.book k = some x → x.connectable now = true := by
      intro k x hk
      cases hx : x.connectable now with
      | true => rfl
      | false => cases (e4 hcount ⟨k, x, hk, hx⟩).1
    refine ⟨hcount, hall, ?_⟩
    obtain ⟨q1, q2⟩ := e5 hcount hall
    have hv : victims c s.book.values = [] := by
      cases hv : victims c s.book.values with
      | nil => rfl
      | cons x xs => rw [hv] at q1; cases q1
    intro a'
    rw [get_eq_book, get_eq_book, g3 rfl]
    cases a'.sock with
    | none => rfl
    | some k =>
      simp only [Option.bind_some]
      rw [q2, hv]
      simp

/-- C88: adding an address evicts others only from a full book, and evicts only entries not worth
connecting to, or — when there are none — entries from network groups with at least five entries. -/
theorem C88_evicts {s s' : Store} (hr : Reachable s) (a : MAddr) {c : Choice} (hc : c.Ok) (now : Nat)
    {r : Bool} (hs : s.addAddr a c now = .ok (s', r)) (k : Sock) (x : Info) (hk : s.book.book k = some x)
    (hk' : s'.book.book k = none) :
    16384 ≤ s.book.count ∧
      (x.connectable now = false ∨
       ((∀ k' y, s.book.book k' = some y → y.connectable now = true) ∧
        ∃ l : List Sock, l.Nodup ∧ 4 < l.length ∧
          ∀ k' ∈ l, ∃ y, s.book.book k' = some y ∧ groupOf y.addr = groupOf x.addr)) := by
  have h := hr.sinv
  obtain ⟨s1, r1, h1, h2, _, _, hcase⟩ := addAddr_spec h.inv a c now
  rw [hs] at h1; cases h1
  rcases hcase with ⟨_, rfl, _⟩ | ⟨hb, m, g1, g2, g3, g4⟩
  · rw [hk] at hk'; cases hk'
  · have hm : m.book k = none := by
      cases r with
      | false => rw [g3 rfl] at hk'; exact hk'
      | true =>
        rw [g4 rfl] at hk'
        split at hk'
        · next hh => exact hh.2
        · exact hk'
    obtain ⟨m1, r1, e1, e2, e3, e4, e5⟩ := purge_spec h.inv c now
    rw [g1] at e1; cases e1
    have hcount : 16384 ≤ s.book.count := by
      rcases Nat.lt_or_ge s.book.count 16384 with hh | hh
      · rw [(e3 hh).1, hk] at hm; cases hm
      · exact hh
    refine ⟨hcount, ?_⟩
    by_cases hdead : ∃ k x, s.book.book k = some x ∧ x.connectable now = false
    · left
      rw [(e4 hcount hdead).2, hk] at hm
      cases hx : x.connectable now with
      | false => rfl
      | true => simp [hx] at hm
    · right
      have hall : ∀ k x, s.book.book k = some x → x.connectable now = true := by
        intro k x hk
        cases hx : x.connectable now with
        | true => rfl
        | false => exact absurd ⟨k, x, hk, hx⟩ hdead
      refine ⟨hall, ?_⟩
      rw [(e5 hcount hall).2] at hm
      split at hm
      · next hv =>
        obtain ⟨y, hy, hys⟩ := hv
        obtain ⟨hy1, hy2⟩ := mem_victims hc hy
        obtain ⟨k2, q1, q2⟩ := value_book h.inv hy1
        rw [hys] at q1; cases q1
        rw [hk] at q2; cases q2
        generalize hg : (s.book.values.filter fun z => decide (groupOf z.addr = groupOf y.addr)) = G at hy2
        refine ⟨G.filterMap (·.addr.sock), ?_, ?_, ?_⟩
        · have hpw : s.book.values.Pairwise (fun x y => x.addr.sock ≠ y.addr.sock) := by
            unfold Manager.values
            rw [List.pairwise_map]
            have hn := h.inv.nodupI
            unfold NodupKeys at hn
            refine List.Pairwise.imp_of_mem ?_ hn
            intro e f he hf hne heq
            obtain ⟨s, k1, k2⟩ := h.inv.back e.1 e.2 (get_of_mem h.inv.nodupI he)
            obtain ⟨t, k3, k4⟩ := h.inv.back f.1 f.2 (get_of_mem h.inv.nodupI hf)
            rw [k1, k3] at heq; cases heq
            rw [k2] at k4
            exact hne (Option.some.inj k4)
          have hG : G.Pairwise (fun x y => x.addr.sock ≠ y.addr.sock) := by
            rw [← hg]; exact hpw.sublist List.filter_sublist
          rw [List.nodup_iff_pairwise_ne, List.pairwise_filterMap]
          refine hG.imp ?_
          intro x y hne a ha b hb hab
          rw [ha, hb, hab] at hne
          exact hne rfl
        · have : (G.filterMap (·.addr.sock)).length = G.length := by
            have hsome : ∀ z ∈ G, z.addr.sock.isSome := by
              intro z hz
              rw [← hg] at hz
              obtain ⟨t, ht, _⟩ := value_book h.inv (List.mem_filter.1 hz).1
              rw [ht]; rfl
            clear hg hy2
            induction G with
            | nil => rfl
            | cons z G ih =>
              have hz := hsome z List.mem_cons_self
              obtain ⟨t, ht⟩ := Option.isSome_iff_exists.1 hz
              rw [List.filterMap_cons, ht]
              simp only [List.length_cons]
              rw [ih (fun w hw => hsome w (List.mem_cons_of_mem _ hw))]
          omega
        · intro k' hk'
          obtain ⟨z, hz, hzk⟩ := List.mem_filterMap.1 hk'
          rw [← hg] at hz
          obtain ⟨z1, z2⟩ := List.mem_filter.1 hz
          obtain ⟨t, ht, hb⟩ := value_book h.inv z1
          rw [hzk] at ht; cases ht
          exact ⟨z.strip, hb, by show groupOf z.addr = groupOf y.addr; simpa using z2⟩
      · rw [hk] at hm; cases hm

/-! ## A full book -/

/-- `n` ports of one host. -/
def fill (n : Nat) : List SOp :=
  (List.range n).map fun i => .addOutbound ⟨some ⟨.v4 (10 * 2 ^ 24), i⟩, some 7, 0⟩ 1

theorem fill_spec (n : Nat) : ∃ s, Store.empty.run (fill n) = .ok s ∧ s.bans = BanList.new ∧ s.conn = [] ∧
    s.book.count = n ∧
    ∀ k x, s.book.book k = some x → x.attempts = 0 ∧ k.port < n ∧ x.lastConn = 1 ∧
      x.addr = ⟨some ⟨.v4 (10 * 2 ^ 24), k.port⟩, some 7, 0⟩ := by
  induction n with
  | zero =>
    exact ⟨Store.empty, rfl, rfl, rfl, rfl, by
      intro k x hk; simp [Store.empty, Manager.book, Manager.empty, get_nil] at hk⟩
  | succ n ih =>
    obtain ⟨s, h1, h2, hconn, h3, h4⟩ := ih
    have hsv : SInv s := run_sinv (fill n) sinv_empty h1
    obtain ⟨s', g1, g2, g3, g4, hcase⟩ := addOutbound_spec hsv.inv ⟨some ⟨.v4 (10 * 2 ^ 24), n⟩, some 7, 0⟩ 1
    have hb : s.isBanned ⟨some ⟨.v4 (10 * 2 ^ 24), n⟩, some 7, 0⟩ 1 = false := by
      simp [Store.isBanned, BanList.isAddrBanned, h2, BanList.new, BanList.isBanned, get_nil]
    rcases hcase with ⟨hh, _⟩ | ⟨_, g⟩
    · rw [hb] at hh; cases hh
    · refine ⟨s', ?_, by rw [g3, h2], by rw [g4, hconn], ?_, ?_⟩
      · unfold fill
        rw [List.range_succ, List.map_append]
        refine (run_append _ _ h1).trans ?_
        simp only [List.map_cons, List.map_nil, Store.run, Store.step, g1]
      · have hnone : s.book.book ⟨.v4 (10 * 2 ^ 24), n⟩ = none := by
          cases hk : s.book.book ⟨.v4 (10 * 2 ^ 24), n⟩ with
          | none => rfl
          | some x => exact absurd (h4 _ x hk).2.1 (by dsimp only; omega)
        rw [count_eq_succ hsv.inv g2 ⟨.v4 (10 * 2 ^ 24), n⟩ hnone, h3]
        · rw [g, hnone]; simp [later]
        · intro k hk
          rw [g, if_neg]
          rintro ⟨e, _⟩
          exact hk (Option.some.inj e).symm
      · intro k x hk
        rw [g] at hk
        split at hk
        · next hh =>
          have := Option.some.inj hh.1
          simp only [Option.isSome_some, if_true, Option.some.injEq] at hk
          subst hk
          rw [← this]
          exact ⟨rfl, by dsimp only; omega, rfl, rfl⟩
        · obtain ⟨a, b, c⟩ := h4 k x hk
          exact ⟨a, by omega, c⟩

theorem connectable_fresh (x : Info) (now : Nat) (h : x.attempts = 0) : x.connectable now = true := by
  unfold Info.connectable
  simp [h]

/-- C88 is false of the code: addresses this node connected to itself are added without regard to the
limit, so the book outgrows any size. -/
theorem C88_outbound_false (n : Nat) : ∃ s, Reachable s ∧ s.book.count = n := by
  obtain ⟨s, h1, _, _, h3, _⟩ := fill_spec n
  exact ⟨s, ⟨_, h1⟩, h3⟩

/-- C88 is false of the code: in a full book whose entries all belong to one network group — which far
exceeds four entries — nothing is evicted, because only half of the groups, rounded down, are looked
at; every further address is refused. -/
theorem C88_one_group_false : ∃ s, Reachable s ∧ s.book.count = 16384 ∧
    ∀ a c now, c.Ok → ∃ s', s.addAddr a c now = .ok (s', false) := by
  obtain ⟨s, h1, h2, _, h3, h4⟩ := fill_spec 16384
  have hr : Reachable s := ⟨_, h1⟩
  have h := hr.sinv
  refine ⟨s, hr, h3, ?_⟩
  intro a c now hc
  obtain ⟨s', r, g1, _, _, _, hcase⟩ := addAddr_spec h.inv a c now
  refine ⟨s', ?_⟩
  rcases hcase with ⟨hb, _⟩ | ⟨hb, m, e1, _⟩
  · have : s.isBanned a now = false := by
      unfold Store.isBanned
      rw [h2]
      cases a.sock <;> simp [BanList.isAddrBanned, BanList.new, BanList.isBanned, get_nil]
    rw [this] at hb; cases hb
  · obtain ⟨m1, r1, q1, _, _, _, q5⟩ := purge_spec h.inv c now
    rw [e1] at q1; cases q1
    obtain ⟨q6, _⟩ := q5 (by omega) (fun k x hk => connectable_fresh x now (h4 k x hk).1)
    have hlen : (groups s.book.values).length ≤ 1 := by
      unfold groups
      rw [List.length_map]
      refine eraseDups_const (.ip4 2560) _ ?_
      intro g hg
      obtain ⟨x, hx, rfl⟩ := List.mem_map.1 hg
      obtain ⟨k, k1, k2⟩ := value_book h.inv hx
      have := (h4 k _ k2).2.2.2
      have : x.addr = ⟨some ⟨.v4 (10 * 2 ^ 24), k.port⟩, some 7, 0⟩ := this
      rw [this]
      rfl
    have hv : victims c s.book.values = [] := by
      unfold victims
      have : (groups s.book.values).length / 2 = 0 := by omega
      rw [this]; rfl
    rw [hv] at q6
    cases q6
    exact g1

/-! ## Offers -/

/-- C88: the addresses offered for dialling are known, connectable, of unconnected peers, and were last
connected less than three days but at least fifteen seconds ago; at most as many as wanted. -/
theorem C88_attempt {s : Store} (hr : Reachable s) (count now : Nat) (ch : Nat → Nat) :
    ∃ s' l, s.fetch (s.attemptFlt now) count now ch = .ok (s', l) ∧ (0 < count → l.length ≤ count) ∧
      ∀ x ∈ l, ∃ k p, x.addr.sock = some k ∧ s.book.book k = some x.strip ∧ x.addr.peer = some p ∧ p ∉ s.conn ∧
        now - 3 * 24 * 3600 * 1000 < x.lastConn ∧ x.lastConn + 15000 ≤ max now 15000 ∧ x.connectable now = true := by
  obtain ⟨s', l, h1, _, _, _, _, h2, h3, _⟩ := fetch_spec hr.sinv.inv (s.attemptFlt now) count now ch
  refine ⟨s', l, h1, h3, ?_⟩
  intro x hx
  obtain ⟨k, e1, e2, e3, e4⟩ := h2 x hx
  simp only [Store.attemptFlt, Store.unconnected, Bool.and_eq_true, decide_eq_true_eq] at e4
  cases hp : x.addr.peer with
  | none => rw [hp] at e4; simp at e4
  | some p =>
    rw [hp] at e4
    simp at e4
    exact ⟨k, p, e1, e2, rfl, e4.1, by omega, by omega, e3⟩

/-- C88: the addresses offered for feeler connections are known, of unconnected peers, not tried within
a minute and not connected within three days. -/
theorem C88_feeler {s : Store} (hr : Reachable s) (count now : Nat) (ch : Nat → Nat) :
    ∃ s' l, s.fetch (s.feelerFlt now) count now ch = .ok (s', l) ∧ (0 < count → l.length ≤ count) ∧
      ∀ x ∈ l, ∃ k p, x.addr.sock = some k ∧ s.book.book k = some x.strip ∧ x.addr.peer = some p ∧ p ∉ s.conn ∧
        x.lastTried + 60000 < now ∧ x.lastConn ≤ now - 3 * 24 * 3600 * 1000 ∧ x.connectable now = true := by
  obtain ⟨s', l, h1, _, _, _, _, h2, h3, _⟩ := fetch_spec hr.sinv.inv (s.feelerFlt now) count now ch
  refine ⟨s', l, h1, h3, ?_⟩
  intro x hx
  obtain ⟨k, e1, e2, e3, e4⟩ := h2 x hx
  simp only [Store.feelerFlt, Store.unconnected, Info.triedInLastMinute, Bool.and_eq_true] at e4
  cases hp : x.addr.peer with
  | none => rw [hp] at e4; simp at e4
  | some p =>
    rw [hp] at e4
    simp at e4
    exact ⟨k, p, e1, e2, rfl, e4.1.1, by omega, e4.2, e3⟩

/-- C88: the addresses told to other nodes are known, and of connected peers or connected within seven
days. -/
theorem C88_random {s : Store} (hr : Reachable s) (count now : Nat) (ch : Nat → Nat) :
    ∃ s' l, s.fetch (s.randomFlt now) count now ch = .ok (s', l) ∧ (0 < count → l.length ≤ count) ∧
      ∀ x ∈ l, ∃ k, x.addr.sock = some k ∧ s.book.book k = some x.strip ∧ x.connectable now = true ∧
        ((∃ p ∈ s.conn, x.addr.peer = some p) ∨ now - 7 * 24 * 3600 * 1000 < x.lastConn) := by
  obtain ⟨s', l, h1, _, _, _, _, h2, h3, _⟩ := fetch_spec hr.sinv.inv (s.randomFlt now) count now ch
  refine ⟨s', l, h1, h3, ?_⟩
  intro x hx
  obtain ⟨k, e1, e2, e3, e4⟩ := h2 x hx
  refine ⟨k, e1, e2, e3, ?_⟩
  simp only [Store.randomFlt, Store.connected, Bool.or_eq_true, decide_eq_true_eq] at e4
  rcases e4 with e4 | e4
  · cases hp : x.addr.peer with
    | none => rw [hp] at e4; cases e4
    | some p => rw [hp] at e4; exact .inl ⟨p, by simpa using e4, rfl⟩
  · exact .inr e4

/-- C88: no address is offered both for dialling and for a feeler connection. -/
theorem C88_disjoint {s s1 s2 : Store} (hr : Reachable s) (c1 c2 now : Nat) (ch1 ch2 : Nat → Nat)
    {l1 l2 : List Info} (h1 : s.fetch (s.attemptFlt now) c1 now ch1 = .ok (s1, l1))
    (h2 : s.fetch (s.feelerFlt now) c2 now ch2 = .ok (s2, l2)) :
    ∀ x ∈ l1, ∀ y ∈ l2, x.addr.sock ≠ y.addr.sock := by
  obtain ⟨s', l, g1, _, g2⟩ := C88_attempt hr c1 now ch1
  obtain ⟨s'', l', g3, _, g4⟩ := C88_feeler hr c2 now ch2
  rw [h1] at g1; cases g1
  rw [h2] at g3; cases g3
  intro x hx y hy heq
  obtain ⟨k, p, a1, a2, _, _, a5, _⟩ := g2 x hx
  obtain ⟨k', p', b1, b2, _, _, _, b6, _⟩ := g4 y hy
  rw [a1, b1] at heq
  cases heq
  rw [a2] at b2
  have := (strip_addr (Option.some.inj b2)).2.2.1
  omega

/-! ## Bans -/

/-- C88: a banned address leaves the book, and its IP address is banned until the ban expires. -/
theorem C88_ban {s s' : Store} (hr : Reachable s) (a : MAddr) (k : Sock) (ha : a.sock = some k)
    (timeout now : Nat) (hs : s.banAddr a timeout now = .ok s') :
    s'.book.get a = none ∧ ∀ t, now ≤ t → t < now + timeout → s'.bans.isBanned k.ip t = true := by
  obtain ⟨h1, h2, h3, h4⟩ := banAddr_spec hr.sinv.inv hs
  obtain ⟨h5, h6⟩ := h4 k ha
  constructor
  · have := get_eq_book (m := s'.book) a
    rw [ha, Option.bind_some, h2, if_pos ha] at this
    simpa using this
  · intro t ht htt
    rw [h6]
    unfold BanList.isBanned
    rw [Bool.or_eq_true]
    left
    have hg : Assoc.get (s.bans.ban (ipNet k.ip) (now + timeout) now).inner (ipNet k.ip) = some (now + timeout) := by
      unfold BanList.ban
      dsimp only
      split
      · unfold BanList.clearExpires put
        dsimp only
        rw [List.filter_cons_of_pos (by simp; omega)]
        rw [get_cons, if_pos rfl]
      · show Assoc.get (put s.bans.inner (ipNet k.ip) (now + timeout)) _ = _
        rw [get_put, if_pos rfl]
    rw [hg]
    simpa using htt

/-- C88 is false of the code: banning one address of a host leaves the other ports of that host in the
book, and they are still offered for dialling while the host is banned. -/
theorem C88_ban_port_false : ∃ (s s' s'' : Store) (now : Nat) (x : Info) (k : Sock), Reachable s ∧
    s.banAddr ⟨some ⟨.v4 (10 * 2 ^ 24), 0⟩, some 7, 0⟩ (24 * 3600 * 1000) now = .ok s' ∧
    s'.fetch (s'.attemptFlt now) 1 now (fun _ => 0) = .ok (s'', [x]) ∧ x.addr.sock = some k ∧
    s'.bans.isBanned k.ip now = true := by
  obtain ⟨s, h1, h2, hconn, h3, h4⟩ := fill_spec 2
  have hr : Reachable s := ⟨_, h1⟩
  have key : (match Store.empty.run (fill 2) with
    | .ok s =>
      match s.banAddr ⟨some ⟨.v4 (10 * 2 ^ 24), 0⟩, some 7, 0⟩ (24 * 3600 * 1000) 20000 with
      | .ok s' =>
        match s'.fetch (s'.attemptFlt 20000) 1 20000 (fun _ => 0) with
        | .ok (_, l) => (l.map (fun x => x.addr.sock), s'.bans.isBanned (.v4 (10 * 2 ^ 24)) 20000)
        | _ => ([], false)
      | _ => ([], false)
    | _ => ([], false)) = ([some ⟨.v4 (10 * 2 ^ 24), 1⟩], true) := by decide +kernel
  rw [h1] at key
  dsimp only at key
  cases hb : s.banAddr ⟨some ⟨.v4 (10 * 2 ^ 24), 0⟩, some 7, 0⟩ (24 * 3600 * 1000) 20000 with
  | err => rw [hb] at key; simp at key
  | panic => rw [hb] at key; simp at key
  | ok s' =>
    rw [hb] at key
    dsimp only at key
    cases hf : s'.fetch (s'.attemptFlt 20000) 1 20000 (fun _ => 0) with
    | err => rw [hf] at key; simp at key
    | panic => rw [hf] at key; simp at key
    | ok r =>
      obtain ⟨s'', l⟩ := r
      rw [hf] at key
      dsimp only at key
      cases l with
      | nil => simp at key
      | cons x l =>
        cases l with
        | cons y l => simp at key
        | nil =>
          simp only [List.map_cons, List.map_nil, Prod.mk.injEq, List.cons.injEq, and_true] at key
          exact ⟨s, s', s'', 20000, x, _, hr, hb, hf, key.1, key.2⟩

/-- C88 is false of the code: reporting a peer's misbehaviour never changes its score and never bans
it, however often it happens. -/
theorem C88_report_false {s : Store} (hr : Reachable s) (a : MAddr) (now : Nat) :
    s.report a now = .ok (s, false) := by
  unfold Store.report
  have h := hr.sinv
  cases hg : s.book.get a with
  | none => rfl
  | some x =>
    have hb := get_eq_book (m := s.book) a
    rw [hg] at hb
    cases hk : a.sock with
    | none => rw [hk] at hb; cases hb
    | some k =>
      rw [hk] at hb
      simp only [Option.map_some, Option.bind_some] at hb
      have h1 := h.score k _ hb.symm
      have h2 : x.score = 100 := h1
      simp [h2]

/-! ## Examples -/

/-- Choices meeting `Choice.Ok` exist: keep a sorted order, take the first two. -/
example : Choice.Ok ⟨fun gs => gs.mergeSort (fun a b => decide (b.length ≤ a.length)), fun g => g.take 2⟩ := by
  constructor
  · intro gs; exact List.mergeSort_perm gs _
  · intro gs
    refine List.Pairwise.imp (fun {a b} h => by simpa using h)
      (List.pairwise_mergeSort (le := fun a b : List Info => decide (b.length ≤ a.length)) ?_ ?_ gs)
    · intro a b c; simp; omega
    · intro a b; simp; omega
  · intro g hg
    exact ⟨g.take 2, List.Perm.refl _, List.take_sublist 2 g, by simp; omega⟩

/-- A store whose host is offered for dialling after a minute and known to others. -/
example : (match Store.empty.run [.addOutbound ⟨some ⟨.v4 5, 80⟩, some 3, 0⟩ 1000000] with
    | .ok s =>
      match s.fetch (s.attemptFlt 1060000) 4 1060000 (fun _ => 0), s.fetch (s.randomFlt 1060000) 4 1060000 (fun _ => 0) with
      | .ok (_, l), .ok (_, l') => (l.length, l'.length)
      | _, _ => (0, 0)
    | _ => (0, 0)) = (1, 1) := by decide +kernel

end Axon.Peers
