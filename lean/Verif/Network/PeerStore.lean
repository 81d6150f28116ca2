import Verif.Network.AddrBook
import Verif.Network.BanList

/-!
# The peer store

Model of core/network/src/peer_manager/peer_store/peer_store_impl.rs and mod.rs.
-/

namespace Axon.Peers

open Axon.Assoc Axon.Bans

/-- peer_store_impl.rs:24-30: `PeerStore`; of the connected peers only their ids are read, and the score
configuration is the default one. -/
structure Store where
  book : Manager
  bans : BanList
  conn : List Nat

/-- `PeerStore::default`. -/
def Store.empty : Store := ⟨Manager.empty, BanList.new, []⟩

/-- peer_store_impl.rs:220-222 and ban_list.rs:67-71: `is_addr_banned`. -/
def Store.isBanned (s : Store) (a : MAddr) (now : Nat) : Bool :=
  s.bans.isAddrBanned (a.sock.map (·.ip)) now

/-- peer_store_impl.rs:45-62: `add_connected_peer`; an address without peer id panics. -/
def Store.connect (s : Store) (a : MAddr) : Outcome Store :=
  match a.peer with
  | none => .panic
  | some p => .ok { s with conn := p :: s.conn.filter (· ≠ p) }

/-- peer_store_impl.rs:115-117: `remove_disconnected_peer`. -/
def Store.disconnect (s : Store) (a : MAddr) : Store :=
  match a.peer with
  | none => s
  | some p => { s with conn := s.conn.filter (· ≠ p) }

/-- mod.rs:80-86: `Group`. -/
inductive Group where
  | none
  | local
  | ip4 (n : Nat)
  | ip6 (n : Nat)
deriving DecidableEq

/-- mod.rs:88-117: the group of an address; `Ipv6Addr::to_ipv4` knows the addresses `::a.b.c.d` and
`::ffff:a.b.c.d`. -/
def groupOf (a : MAddr) : Group :=
  match a.sock with
  | .none => .none
  | some s =>
    if s.ip.loopback then .local
    else
      match s.ip with
      | .v4 n => .ip4 (n / 2 ^ 16)
      | .v6 n =>
        if n / 2 ^ 32 = 0 ∨ n / 2 ^ 32 = 0xffff then .ip4 (n % 2 ^ 32 / 2 ^ 16) else .ip6 (n / 2 ^ 96)

/-- peer_store_impl.rs:273-279: the entries by group. -/
def groups (l : List Info) : List (List Info) :=
  (l.map fun x => groupOf x.addr).eraseDups.map fun g => l.filter fun x => groupOf x.addr = g

/-- The arbitrary choices of an eviction: the order in which the groups come out of the hash map and the
unstable sort, and the two entries drawn from a group. -/
structure Choice where
  ord : List (List Info) → List (List Info)
  two : List Info → List Info

/-- Any order by decreasing size; any two entries. -/
structure Choice.Ok (c : Choice) : Prop where
  perm : ∀ gs, (c.ord gs).Perm gs
  sorted : ∀ gs, (c.ord gs).Pairwise fun a b => b.length ≤ a.length
  two : ∀ g, 4 < g.length → ∃ t, (c.two g).Perm t ∧ t.Sublist g ∧ t.length = 2

/-- peer_store_impl.rs:280-307: the entries to evict from the larger half of the groups. -/
def victims (c : Choice) (l : List Info) : List Info :=
  ((c.ord (groups l)).take ((groups l).length / 2)).flatMap fun g => if g.length > 4 then c.two g else []

/-- addr_manager.rs:94-96: `addrs_iter`; the hash map's order is arbitrary. -/
def Manager.values (m : Manager) : List Info := m.infos.map (·.2)

/-- peer_store_impl.rs:267-269, 309-311. -/
def removeAll (m : Manager) : List MAddr → Outcome Manager
  | [] => .ok m
  | a :: l =>
    match m.remove a with
    | .ok (m', _) => removeAll m' l
    | .err => .err
    | .panic => .panic

/-- peer_store_impl.rs:241-318: `check_purge`; the flag is false for the error. -/
def checkPurge (m : Manager) (c : Choice) (now : Nat) : Outcome (Manager × Bool) :=
  if m.count < 16384 then .ok (m, true)
  else
    let dead := m.values.filter fun x => !x.connectable now
    match removeAll m (dead.map (·.addr)) with
    | .err => .err
    | .panic => .panic
    | .ok m1 =>
      if dead.isEmpty then
        let vs := victims c m1.values
        match removeAll m1 (vs.map (·.addr)) with
        | .err => .err
        | .panic => .panic
        | .ok m2 => .ok (m2, !vs.isEmpty)
      else .ok (m1, true)

/-- peer_store_impl.rs:67-75: `add_addr`; the flag is false for the error. -/
def Store.addAddr (s : Store) (a : MAddr) (c : Choice) (now : Nat) : Outcome (Store × Bool) :=
  if s.isBanned a now then .ok (s, true)
  else
    match checkPurge s.book c now with
    | .err => .err
    | .panic => .panic
    | .ok (m, false) => .ok ({ s with book := m }, false)
    | .ok (m, true) =>
      match m.add { addr := a, lastConn := 0 } with
      | .err => .err
      | .panic => .panic
      | .ok m' => .ok ({ s with book := m' }, true)

/-- peer_store_impl.rs:78-85: `add_outbound_addr`. -/
def Store.addOutbound (s : Store) (a : MAddr) (now : Nat) : Outcome Store :=
  if s.isBanned a now then .ok s
  else
    match s.book.add { addr := a, lastConn := now } with
    | .err => .err
    | .panic => .panic
    | .ok m' => .ok { s with book := m' }

/-- peer_store_impl.rs:200-206: `ban_addr`. -/
def Store.banAddr (s : Store) (a : MAddr) (timeout now : Nat) : Outcome Store :=
  match (match a.sock with
    | none => .ok s.bans
    | some k => s.bans.banNetwork (ipNet k.ip) timeout now : Outcome BanList) with
  | .err => .err
  | .panic => .panic
  | .ok bans =>
    match s.book.remove a with
    | .err => .err
    | .panic => .panic
    | .ok (m, _) => .ok { s with bans := bans, book := m }

/-- peer_store_impl.rs:98-112: `report`; the flag is `is_banned`. -/
def Store.report (s : Store) (a : MAddr) (now : Nat) : Outcome (Store × Bool) :=
  match s.book.get a with
  | none => .ok (s, false)
  | some x =>
    if x.score < 40 then
      match s.banAddr a (24 * 3600 * 1000) now with
      | .err => .err
      | .panic => .panic
      | .ok s' => .ok (s', true)
    else .ok (s, false)

/-- addr_manager.rs:75-76: the addresses that may be answered repeatedly. -/
def testIp (ip : Ip) : Bool := ip.unspecified || ip.loopback

/-- Whether the entry has a peer id that is connected. -/
def Store.connected (s : Store) (x : Info) : Bool :=
  match x.addr.peer with
  | none => false
  | some p => decide (p ∈ s.conn)

/-- Whether the entry has a peer id that is not connected. -/
def Store.unconnected (s : Store) (x : Info) : Bool :=
  match x.addr.peer with
  | none => false
  | some p => !decide (p ∈ s.conn)

/-- peer_store_impl.rs:141-147: the filter of `fetch_addrs_to_attempt` (three days, 15 seconds). -/
def Store.attemptFlt (s : Store) (now : Nat) (x : Info) : Bool :=
  s.unconnected x && (decide (x.lastConn > now - 3 * 24 * 3600 * 1000) && decide (x.lastConn ≤ now - 15 * 1000))

/-- peer_store_impl.rs:162-168: the filter of `fetch_addrs_to_feeler`. -/
def Store.feelerFlt (s : Store) (now : Nat) (x : Info) : Bool :=
  s.unconnected x && !x.triedInLastMinute now && !decide (x.lastConn > now - 3 * 24 * 3600 * 1000)

/-- peer_store_impl.rs:180-186: the filter of `fetch_random_addrs` (seven days). -/
def Store.randomFlt (s : Store) (now : Nat) (x : Info) : Bool :=
  s.connected x || decide (x.lastConn > now - 7 * 24 * 3600 * 1000)

/-- A fetch with one of the three filters (peer_store_impl.rs:130-187). -/
def Store.fetch (s : Store) (flt : Info → Bool) (count now : Nat) (ch : Nat → Nat) :
    Outcome (Store × List Info) :=
  match s.book.fetchRandom testIp now flt count ch with
  | .err => .err
  | .panic => .panic
  | .ok (m, l) => .ok ({ s with book := m }, l)

/-! ## Lemmas -/

theorem removeAll_spec (l : List MAddr) {m : Manager} (h : Inv m) :
    ∃ m', removeAll m l = .ok m' ∧ Inv m' ∧
      (∀ s, m'.book s = if ∃ a ∈ l, a.sock = some s then none else m.book s) := by
  induction l generalizing m with
  | nil => exact ⟨m, rfl, h, by simp⟩
  | cons a l ih =>
    obtain ⟨m1, r, h1, h2, h3, _⟩ := remove_spec h a
    obtain ⟨m', h4, h5, h6⟩ := ih h2
    refine ⟨m', by simp only [removeAll, h1, h4], h5, ?_⟩
    intro s
    rw [h6, h3]
    by_cases hl : ∃ a ∈ l, a.sock = some s
    · rw [if_pos hl, if_pos]
      obtain ⟨b, hb, hs⟩ := hl
      exact ⟨b, List.mem_cons_of_mem _ hb, hs⟩
    · rw [if_neg hl]
      by_cases ha : a.sock = some s
      · rw [if_pos ha, if_pos ⟨a, List.mem_cons_self, ha⟩]
      · rw [if_neg ha, if_neg]
        rintro ⟨b, hb, hs⟩
        rcases List.mem_cons.1 hb with rfl | hb
        · exact ha hs
        · exact hl ⟨b, hb, hs⟩

/-- The socket addresses of the book, without repetition. -/
theorem count_spec {m : Manager} (hi : Inv m) :
    ∃ l : List Sock, l.Nodup ∧ (∀ s, s ∈ l ↔ (m.book s).isSome) ∧ m.count = l.length := by
  refine ⟨m.byAddr.map (·.1), ?_, ?_, by simp [Manager.count]⟩
  · have := hi.nodupA
    unfold NodupKeys at this
    rw [List.nodup_iff_pairwise_ne, List.pairwise_map]
    exact this
  · intro s
    simp only [List.mem_map]
    constructor
    · rintro ⟨e, he, rfl⟩
      obtain ⟨x, hx, _⟩ := hi.addr e.1 e.2 (get_of_mem hi.nodupA he)
      simp [Manager.book, get_of_mem hi.nodupA he, hx]
    · intro hh
      cases hg : Assoc.get m.byAddr s with
      | none => simp [Manager.book, hg] at hh
      | some id => exact ⟨(s, id), mem_of_get hg, rfl⟩

/-- Fewer socket addresses, smaller count. -/
theorem count_lt {m m' : Manager} (h : Inv m) (h' : Inv m')
    (hsub : ∀ s, (m'.book s).isSome → (m.book s).isSome) {s : Sock} (hs : (m.book s).isSome)
    (hs' : m'.book s = none) : m'.count < m.count := by
  obtain ⟨l, h1, h2, h3⟩ := count_spec h
  obtain ⟨l', g1, g2, g3⟩ := count_spec h'
  have hn : (s :: l').Nodup := List.nodup_cons.2 ⟨fun hm => by simpa [hs'] using (g2 s).1 hm, g1⟩
  have := hn.length_le_of_subset (l₂ := l) (fun x hx => by
    rcases List.mem_cons.1 hx with rfl | hx
    · exact (h2 _).2 hs
    · exact (h2 x).2 (hsub x ((g2 x).1 hx)))
  simp only [List.length_cons] at this
  omega

theorem count_le_succ {m m' : Manager} (h : Inv m) (h' : Inv m') (k : Sock)
    (hsub : ∀ s, s ≠ k → (m'.book s).isSome → (m.book s).isSome) : m'.count ≤ m.count + 1 := by
  obtain ⟨l, h1, h2, h3⟩ := count_spec h
  obtain ⟨l', g1, g2, g3⟩ := count_spec h'
  have := g1.length_le_of_subset (l₂ := k :: l) (fun x hx => by
    by_cases hk : x = k
    · rw [hk]; exact List.mem_cons_self
    · exact List.mem_cons_of_mem _ ((h2 x).2 (hsub x hk ((g2 x).1 hx))))
  simp only [List.length_cons] at this
  omega

theorem count_eq_succ {m m' : Manager} (h : Inv m) (h' : Inv m') (k : Sock) (hk : m.book k = none)
    (hk' : (m'.book k).isSome) (hsub : ∀ s, s ≠ k → m'.book s = m.book s) : m'.count = m.count + 1 := by
  obtain ⟨l, h1, h2, h3⟩ := count_spec h
  obtain ⟨l', g1, g2, g3⟩ := count_spec h'
  have hle := count_le_succ h h' k (fun s hs hh => by rw [← hsub s hs]; exact hh)
  have hn : (k :: l).Nodup := List.nodup_cons.2 ⟨fun hm => by simpa [hk] using (h2 k).1 hm, h1⟩
  have := hn.length_le_of_subset (l₂ := l') (fun x hx => by
    rcases List.mem_cons.1 hx with rfl | hx
    · exact (g2 _).2 hk'
    · refine (g2 x).2 ?_
      have := (h2 x).1 hx
      rw [hsub x (fun hh => by rw [hh, hk] at this; cases this)]; exact this)
  simp only [List.length_cons] at this
  omega

theorem mem_values {m : Manager} (h : Inv m) {x : Info} :
    x ∈ m.values ↔ ∃ id, Assoc.get m.infos id = some x := by
  simp only [Manager.values, List.mem_map]
  constructor
  · rintro ⟨e, he, rfl⟩; exact ⟨e.1, get_of_mem h.nodupI he⟩
  · rintro ⟨id, hid⟩; exact ⟨(id, x), mem_of_get hid, rfl⟩

theorem value_book {m : Manager} (h : Inv m) {x : Info} (hx : x ∈ m.values) :
    ∃ s, x.addr.sock = some s ∧ m.book s = some x.strip := by
  obtain ⟨id, hid⟩ := (mem_values h).1 hx
  obtain ⟨s, h1, h2⟩ := h.back id x hid
  exact ⟨s, h1, by simp [Manager.book, h2, hid]⟩

theorem book_value {m : Manager} (h : Inv m) {s : Sock} {y : Info} (hb : m.book s = some y) :
    ∃ x ∈ m.values, x.strip = y ∧ x.addr.sock = some s := by
  cases hid : Assoc.get m.byAddr s with
  | none => simp [Manager.book, hid] at hb
  | some id =>
    obtain ⟨x, hx, hxs⟩ := h.addr s id hid
    exact ⟨x, (mem_values h).2 ⟨id, hx⟩, by simpa [Manager.book, hid, hx] using hb, hxs⟩

theorem mem_groups {l g : List Info} :
    g ∈ groups l ↔ ∃ x ∈ l, g = l.filter fun y => groupOf y.addr = groupOf x.addr := by
  simp only [groups, List.mem_map, List.mem_eraseDups]
  constructor
  · rintro ⟨k, ⟨x, hx, rfl⟩, rfl⟩; exact ⟨x, hx, rfl⟩
  · rintro ⟨x, hx, rfl⟩; exact ⟨_, ⟨x, hx, rfl⟩, rfl⟩

theorem mem_victims {c : Choice} (hc : c.Ok) {l : List Info} {x : Info} (h : x ∈ victims c l) :
    x ∈ l ∧ 4 < (l.filter fun y => groupOf y.addr = groupOf x.addr).length := by
  simp only [victims, List.mem_flatMap] at h
  obtain ⟨g, hg, hx⟩ := h
  split at hx
  · next h4 =>
    have hg' : g ∈ groups l := (hc.perm _).mem_iff.1 (List.mem_of_mem_take hg)
    obtain ⟨t, h1, h2, h3⟩ := hc.two g h4
    have hxg : x ∈ g := h2.subset (h1.mem_iff.1 hx)
    obtain ⟨y, hy, rfl⟩ := mem_groups.1 hg'
    have hxl := List.mem_filter.1 hxg
    have heq : groupOf x.addr = groupOf y.addr := by simpa using hxl.2
    refine ⟨hxl.1, ?_⟩
    rw [heq]; exact h4
  · cases hx

theorem eraseDups_const {α : Type} [DecidableEq α] (a : α) (l : List α) (h : ∀ x ∈ l, x = a) :
    (l.eraseDups).length ≤ 1 := by
  cases l with
  | nil => simp
  | cons x l =>
    rw [List.eraseDups_cons]
    have : l.filter (fun b => !b == x) = [] := by
      rw [List.filter_eq_nil_iff]
      intro y hy
      rw [h y (List.mem_cons_of_mem _ hy), h x List.mem_cons_self]
      simp
    rw [this]; simp

end Axon.Peers
