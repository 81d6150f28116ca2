import Verif.Network.AddrBook

/-!
# C45: the address book of the peer store
-/

namespace Axon.Peers

open Axon.Assoc

/-! ## Specification: a map from socket addresses to entries -/

/-- What the book is for its user; positions are immaterial. -/
abbrev Book := Sock → Option Info

/-- Adding an address takes effect when it has a socket address and either none is known under it or
the one known was connected to strictly earlier; an address without peer id only evicts. -/
def Book.add (b : Book) (info : Info) : Book := fun s =>
  if info.addr.sock = some s ∧ later info (b s) = true then
    (if info.addr.peer.isSome then some info.strip else none)
  else b s

/-- Removing forgets the socket address. -/
def Book.remove (b : Book) (a : MAddr) : Book := fun s => if a.sock = some s then none else b s

/-- A dial attempt is recorded. -/
def Book.tried (b : Book) (a : MAddr) (now : Nat) : Book := fun s =>
  if a.sock = some s then
    (b s).map fun x => { x with lastTried := now, attempts := min (x.attempts + 1) (2 ^ 32 - 1), pos := 0 }
  else b s

/-- One operation; fetching changes nothing. -/
def Book.step (b : Book) : Op → Book
  | .add info => b.add info
  | .remove a => b.remove a
  | .tried a now => b.tried a now
  | .fetch .. => b

/-- The book after a sequence of operations. -/
def Book.after (ops : List Op) : Book := ops.foldl Book.step (fun _ => none)

theorem step_refines {m : Manager} (h : Inv m) (op : Op) :
    ∃ m', m.step op = .ok m' ∧ Inv m' ∧ m'.book = Book.step m.book op := by
  cases op with
  | add info =>
    obtain ⟨m', h1, h2, h3⟩ := add_spec h info
    exact ⟨m', h1, h2, funext h3⟩
  | remove a =>
    obtain ⟨m', r, h1, h2, h3, _⟩ := remove_spec h a
    exact ⟨m', by simp only [Manager.step, h1], h2, funext h3⟩
  | tried a now =>
    obtain ⟨h1, h2, _⟩ := update_spec h a (markTried_ok now)
    exact ⟨_, rfl, h1, funext h2⟩
  | fetch test now flt count ch =>
    obtain ⟨m', h1, h2, h3, _⟩ := fetchRandom_spec h test now flt count ch
    exact ⟨m', by simp only [Manager.step, h1], h2, h3⟩

theorem run_refines (ops : List Op) {m : Manager} (h : Inv m) :
    ∃ m', m.run ops = .ok m' ∧ Inv m' ∧ m'.book = ops.foldl Book.step m.book := by
  induction ops generalizing m with
  | nil => exact ⟨m, rfl, h, rfl⟩
  | cons op ops ih =>
    obtain ⟨m1, h1, h2, h3⟩ := step_refines h op
    obtain ⟨m', h4, h5, h6⟩ := ih h2
    exact ⟨m', by simp only [Manager.run, h1, h4], h5, by rw [h6, h3]; rfl⟩

theorem run_inv {ops : List Op} {m : Manager} (h : Manager.empty.run ops = .ok m) :
    Inv m ∧ m.book = Book.after ops := by
  obtain ⟨m', h1, h2, h3⟩ := run_refines ops inv_empty
  rw [h] at h1; cases h1
  exact ⟨h2, h3⟩

/-- C45: no sequence of additions, removals, dial attempts and random fetches aborts the process.
Missing: lookups by peer id, which can (see `C45_stale_false`). -/
theorem C45_no_abort_partial (ops : List Op) : ∃ m, Manager.empty.run ops = .ok m := by
  obtain ⟨m, h, _⟩ := run_refines ops inv_empty
  exact ⟨m, h⟩

/-- C45: looking up an address answers the entry the specification holds for its socket address,
after any sequence of operations. -/
theorem C45_get (ops : List Op) {m : Manager} (h : Manager.empty.run ops = .ok m) (a : MAddr) :
    (m.get a).map Info.strip = a.sock.bind (Book.after ops) := by
  rw [get_eq_book, (run_inv h).2]

/-- C45: removing answers the entry that was known, and it is known no more while everything else
still is. -/
theorem C45_remove (ops : List Op) {m : Manager} (h : Manager.empty.run ops = .ok m) (a : MAddr) :
    ∃ m' r, m.remove a = .ok (m', r) ∧ r.map Info.strip = a.sock.bind (Book.after ops) ∧
      (∀ a', a'.sock = a.sock → m'.get a' = none) ∧
      (∀ a', a'.sock ≠ a.sock → (m'.get a').map Info.strip = a'.sock.bind (Book.after ops)) := by
  obtain ⟨hi, hb⟩ := run_inv h
  obtain ⟨m', r, h1, h2, h3, h4, _⟩ := remove_spec hi a
  refine ⟨m', r, h1, by rw [h4, hb], ?_, ?_⟩
  · intro a' ha
    have := get_eq_book (m := m') a'
    rw [ha] at this
    cases hs : a.sock with
    | none => rw [hs] at this; simpa using this
    | some s =>
      rw [hs, Option.bind_some, h3, if_pos hs] at this
      simpa using this
  · intro a' ha
    rw [get_eq_book]
    cases hs : a'.sock with
    | none => rfl
    | some s =>
      rw [Option.bind_some, Option.bind_some, h3, if_neg (fun hh => ha (by rw [hs, hh])), hb]

/-- C45: the count is the number of known socket addresses. -/
theorem C45_count (ops : List Op) {m : Manager} (h : Manager.empty.run ops = .ok m) :
    ∃ l : List Sock, l.Nodup ∧ (∀ s, s ∈ l ↔ (Book.after ops s).isSome) ∧ m.count = l.length := by
  obtain ⟨hi, hb⟩ := run_inv h
  refine ⟨m.byAddr.map (·.1), ?_, ?_, by simp [Manager.count]⟩
  · have := hi.nodupA
    unfold NodupKeys at this
    rw [List.nodup_iff_pairwise_ne, List.pairwise_map]
    exact this
  · intro s
    rw [← hb]
    simp only [List.mem_map]
    constructor
    · rintro ⟨e, he, rfl⟩
      obtain ⟨x, hx, _⟩ := hi.addr e.1 e.2 (get_of_mem hi.nodupA he)
      simp [Manager.book, get_of_mem hi.nodupA he, hx]
    · intro hh
      cases hg : Assoc.get m.byAddr s with
      | none => simp [Manager.book, hg] at hh
      | some id => exact ⟨(s, id), mem_of_get hg, rfl⟩

/-- C45: random fetching never aborts and leaves the book as it is.  Whatever the random choices, it
answers known entries, no socket address twice, only connectable ones passing the filter, no IP
address twice (but for loopback and unspecified ones), and at most as many as wanted.  When it answers
fewer than wanted, every connectable entry passing the filter whose IP address no other entry has is
among them. -/
theorem C45_fetch (ops : List Op) {m : Manager} (h : Manager.empty.run ops = .ok m) (test : Ip → Bool)
    (now : Nat) (flt : Info → Bool) (hflt : ∀ x, flt x.strip = flt x) (count : Nat) (ch : Nat → Nat) :
    ∃ m' l, m.fetchRandom test now flt count ch = .ok (m', l) ∧
      (∀ a, (m'.get a).map Info.strip = (m.get a).map Info.strip) ∧
      (∀ x ∈ l, ∃ s, x.addr.sock = some s ∧ Book.after ops s = some x.strip ∧
        x.connectable now = true ∧ flt x = true) ∧
      l.Pairwise (fun x y => x.addr.sock ≠ y.addr.sock) ∧
      l.Pairwise (fun x y => ∀ s t, x.addr.sock = some s → y.addr.sock = some t → test s.ip = false →
        s.ip ≠ t.ip) ∧
      (0 < count → l.length ≤ count) ∧
      (l.length < count → ∀ s x, Book.after ops s = some x → x.connectable now = true → flt x = true →
        (test s.ip = true ∨ ∀ t, t ≠ s → (Book.after ops t).isSome → t.ip ≠ s.ip) →
        ∃ y ∈ l, y.strip = x) := by
  obtain ⟨hi, hb⟩ := run_inv h
  obtain ⟨m', h1, h2, h3, _⟩ := fetchRandom_spec hi test now flt count ch
  obtain ⟨l, e1, e2, e3, e4⟩ := pick_append test now flt count [] [] m'.entries
  have hent : ∀ x ∈ m'.entries, ∃ s, x.addr.sock = some s ∧ Book.after ops s = some x.strip := by
    intro x hx
    obtain ⟨id, hid⟩ := (mem_entries h2).1 hx
    obtain ⟨s, g1, g2⟩ := h2.back id x hid
    refine ⟨s, g1, ?_⟩
    rw [← hb, ← h3]
    simp [Manager.book, g2, hid]
  refine ⟨m', _, h1, ?_, ?_, ?_, ?_, ?_, ?_⟩
  · intro a; rw [get_eq_book, get_eq_book, h3]
  · intro x hx
    rw [e1, List.nil_append] at hx
    obtain ⟨s, g1, g2⟩ := hent x (e2.subset hx)
    exact ⟨s, g1, g2, (e3 x hx).1, (e3 x hx).2.1⟩
  · rw [e1, List.nil_append]
    exact (entries_sock h2).sublist e2
  · rw [e1, List.nil_append]; exact e4
  · intro hc; exact pick_le _ _ _ _ _ _ _ (by simpa using hc)
  · intro hl s x hbk hc hf hu
    rw [← hb, ← h3] at hbk
    cases hid : Assoc.get m'.byAddr s with
    | none => simp [Manager.book, hid] at hbk
    | some id =>
      obtain ⟨y, hy, hys⟩ := h2.addr s id hid
      have hyx : y.strip = x := by simpa [Manager.book, hid, hy] using hbk
      subst hyx
      refine ⟨y, pick_complete test now flt count [] [] m'.entries y s ((mem_entries h2).2 ⟨id, hy⟩) hys
        hc (by rw [← hflt]; exact hf) (hu.imp_right fun hh => ⟨by simp, ?_⟩) hl, rfl⟩
      intro z hz t hzy hzt
      obtain ⟨t', g1, g2⟩ := hent z hz
      rw [hzt] at g1; cases g1
      refine hh t (fun hts => hzy ?_) (by rw [g2]; rfl)
      subst hts
      obtain ⟨id', hid'⟩ := (mem_entries h2).1 hz
      obtain ⟨s', k1, k2⟩ := h2.back id' z hid'
      rw [hzt] at k1; cases k1
      rw [hid] at k2; cases k2
      rw [hy] at hid'; cases hid'; rfl

/-! ## Lookup by peer id -/

/-- Every address an operation carries agrees with `own`. -/
def Op.Own (own : Sock → Nat) : Op → Prop
  | .add info => Peers.Own own info.addr
  | .remove a => Peers.Own own a
  | _ => True

theorem run_pinv (own : Sock → Nat) (ops : List Op) (hown : ∀ op ∈ ops, Op.Own own op) {m m' : Manager}
    (h : Inv m) (hp : PInv own m) (hr : m.run ops = .ok m') : PInv own m' := by
  induction ops generalizing m with
  | nil => cases hr; exact hp
  | cons op ops ih =>
    obtain ⟨m1, h1, h2, _⟩ := step_refines h op
    simp only [Manager.run, h1] at hr
    refine ih (fun o ho => hown o (List.mem_cons_of_mem _ ho)) h2 ?_ hr
    have ho := hown op List.mem_cons_self
    cases op with
    | add info => exact add_pinv h hp ho h1
    | remove a =>
      obtain ⟨m2, r, g1, _⟩ := remove_spec h a
      simp only [Manager.step, g1] at h1
      cases h1
      exact remove_pinv h hp ho g1
    | tried a now =>
      cases h1
      obtain ⟨_, _, g3, _, g5⟩ := update_spec h a (markTried_ok now)
      exact same_pinv hp g3 g5
    | fetch test now flt count ch =>
      obtain ⟨m2, g1, _, _, g4, g5, _⟩ := fetchRandom_spec h test now flt count ch
      simp only [Manager.step, g1] at h1
      cases h1
      exact same_pinv hp g4 (sameInfos_addr g5)

/-- C45: as long as every socket address always comes with the same peer id, looking up a peer id does
not abort and answers exactly the addresses of the known connectable entries with that peer id that
pass the filter.  Missing: histories in which one socket address comes with two peer ids. -/
theorem C45_peer_partial (own : Sock → Nat) (ops : List Op) (hown : ∀ op ∈ ops, Op.Own own op) {m : Manager}
    (h : Manager.empty.run ops = .ok m) (p now : Nat) (flt : Info → Bool)
    (hflt : ∀ x, flt x.strip = flt x) :
    ∃ l, m.getByPeer p now flt = .ok l ∧
      ∀ a, a ∈ l ↔ ∃ s x, Book.after ops s = some x ∧ x.addr = a ∧ a.peer = some p ∧
        x.connectable now = true ∧ flt x = true := by
  obtain ⟨hi, hb⟩ := run_inv h
  have hp := run_pinv own ops hown inv_empty (pinv_empty own) h
  obtain ⟨l, h1, h2⟩ := getByPeer_spec hi hp p now flt
  refine ⟨l, h1, ?_⟩
  intro a
  rw [h2, ← hb]
  constructor
  · rintro ⟨id, x, hx, g1, g2, g3, rfl⟩
    obtain ⟨s, k1, k2⟩ := hi.back id x hx
    exact ⟨s, x.strip, by simp [Manager.book, k2, hx], rfl, g1, g2, by rw [hflt]; exact g3⟩
  · rintro ⟨s, x, g1, rfl, g2, g3, g4⟩
    cases hid : Assoc.get m.byAddr s with
    | none => simp [Manager.book, hid] at g1
    | some id =>
      obtain ⟨y, hy, _⟩ := hi.addr s id hid
      have hyx : y.strip = x := by simpa [Manager.book, hid, hy] using g1
      subst hyx
      exact ⟨id, y, hy, g2, g3, by rw [← hflt]; exact g4, rfl⟩

/-- C45 is false of the code: when a socket address is announced with one peer id and later added with
another and a later connection time, the index of the first peer id keeps a dangling number, and
looking up that peer id aborts — whatever the two peer ids, the address and the filter are. -/
theorem C45_stale_false (s : Sock) (p q t now : Nat) (hpq : p ≠ q) (ht : 0 < t) (flt : Info → Bool) :
    ∃ m, Manager.empty.run [.add { addr := ⟨some s, some p, 0⟩, lastConn := 0 },
        .add { addr := ⟨some s, some q, 0⟩, lastConn := t }] = .ok m ∧
      m.getByPeer p now flt = .panic := by
  have hqp : ¬ q = p := fun h => hpq h.symm
  simp [Manager.run, Manager.step, Manager.add, Manager.get, Manager.insert, Manager.empty, Manager.remove,
    Manager.swap, unlink, ht, hpq, Manager.getByPeer, put, del, Assoc.get]
  simp [hqp, peerLoop, Assoc.get]

/-- C45: an address that comes with a later connection time but without a peer id deletes the known
entry of its socket address and leaves nothing in its place. -/
theorem C45_anonymous_false (s : Sock) (p t : Nat) (ht : 0 < t) :
    ∃ m m', Manager.empty.run [.add { addr := ⟨some s, some p, 0⟩, lastConn := 0 }] = .ok m ∧
      (m.get ⟨some s, none, 0⟩).isSome ∧
      m.add { addr := ⟨some s, none, 0⟩, lastConn := t } = .ok m' ∧ m'.get ⟨some s, none, 0⟩ = none := by
  obtain ⟨m, h1, h2, h3⟩ := run_refines [.add { addr := ⟨some s, some p, 0⟩, lastConn := 0 }] inv_empty
  obtain ⟨m', g1, g2, g3⟩ := add_spec h2 { addr := ⟨some s, none, 0⟩, lastConn := t }
  have hb : m.book s = some { addr := ⟨some s, some p, 0⟩, lastConn := 0 } := by
    rw [h3]
    simp [Book.step, Book.add, Manager.book, Manager.empty, get_nil, later, Info.strip]
  refine ⟨m, m', h1, ?_, g1, ?_⟩
  · have := get_eq_book (m := m) ⟨some s, none, 0⟩
    simp only [Option.bind_some, hb] at this
    cases hg : m.get ⟨some s, none, 0⟩ with
    | none => rw [hg] at this; cases this
    | some _ => rfl
  · have := get_eq_book (m := m') ⟨some s, none, 0⟩
    simp only [Option.bind_some, g3, hb] at this
    simpa [later, ht] using this

/-! ## Saving and loading -/

theorem loadBook (l : List Info) (b : Book)
    (hd : l.Pairwise (fun x y => x.addr.sock ≠ y.addr.sock)) (hp : ∀ x ∈ l, x.addr.peer.isSome)
    (hb : ∀ x ∈ l, ∀ s, x.addr.sock = some s → b s = none) (s : Sock) :
    (l.map Op.add).foldl Book.step b s =
      match l.find? (fun x => x.addr.sock = some s) with
      | some x => some x.strip
      | none => b s := by
  induction l generalizing b with
  | nil => rfl
  | cons x l ih =>
    rw [List.pairwise_cons] at hd
    simp only [List.map_cons, List.foldl_cons, Book.step]
    rw [ih _ hd.2 (fun y hy => hp y (List.mem_cons_of_mem _ hy))]
    · by_cases hx : x.addr.sock = some s
      · have hnone : l.find? (fun x => decide (x.addr.sock = some s)) = none := by
          rw [List.find?_eq_none]
          intro y hy
          have := hd.1 y hy
          simp only [decide_eq_true_eq]
          intro hh; rw [hx, hh] at this; exact this rfl
        rw [hnone, List.find?_cons_of_pos (by simpa using hx)]
        dsimp only
        have hbs := hb x List.mem_cons_self s hx
        simp [Book.add, hx, hbs, later, hp x List.mem_cons_self]
      · rw [List.find?_cons_of_neg (by simpa using hx)]
        have : Book.add b x s = b s := by simp [Book.add, hx]
        rw [this]
    · intro y hy t ht
      have : ¬ (x.addr.sock = some t) := fun hh => hd.1 y hy (by rw [hh, ht])
      simp only [Book.add, this, false_and, if_false]
      exact hb y (List.mem_cons_of_mem _ hy) t ht

/-- C45: the book written to disk — its entries in any order — and loaded again is the same book. -/
theorem C45_dump_load (ops : List Op) {m : Manager} (h : Manager.empty.run ops = .ok m) (l : List Info)
    (hl : List.Perm l (m.infos.map (·.2))) :
    ∃ m', Manager.load l = .ok m' ∧ ∀ a, (m'.get a).map Info.strip = (m.get a).map Info.strip := by
  obtain ⟨hi, hb⟩ := run_inv h
  have hmem : ∀ x, x ∈ l ↔ ∃ id, Assoc.get m.infos id = some x := by
    intro x
    rw [hl.mem_iff]
    simp only [List.mem_map]
    constructor
    · rintro ⟨e, he, rfl⟩; exact ⟨e.1, get_of_mem hi.nodupI he⟩
    · rintro ⟨id, hid⟩; exact ⟨(id, x), mem_of_get hid, rfl⟩
  have hd : l.Pairwise (fun x y => x.addr.sock ≠ y.addr.sock) := by
    refine (hl.pairwise_iff (fun hh => fun he => hh he.symm)).2 ?_
    rw [List.pairwise_map]
    have hn := hi.nodupI
    unfold NodupKeys at hn
    refine List.Pairwise.imp_of_mem ?_ hn
    intro e f he hf hne heq
    obtain ⟨s, k1, k2⟩ := hi.back e.1 e.2 (get_of_mem hi.nodupI he)
    obtain ⟨t, k3, k4⟩ := hi.back f.1 f.2 (get_of_mem hi.nodupI hf)
    rw [k1, k3] at heq; cases heq
    rw [k2] at k4
    exact hne (Option.some.inj k4)
  obtain ⟨m', h1, _, h3⟩ := run_refines (l.map Op.add) inv_empty
  refine ⟨m', h1, ?_⟩
  intro a
  rw [get_eq_book, get_eq_book]
  cases a.sock with
  | none => rfl
  | some s =>
    simp only [Option.bind_some]
    have hempty : Manager.empty.book = fun _ => none := by funext s; simp [Manager.book, Manager.empty, get_nil]
    rw [h3, hempty, loadBook l _ hd ?_ (fun _ _ _ _ => rfl)]
    · cases hf : l.find? (fun x => decide (x.addr.sock = some s)) with
      | some x =>
        dsimp only
        have hxs : x.addr.sock = some s := by simpa using List.find?_some hf
        obtain ⟨id, hid⟩ := (hmem x).1 (List.mem_of_find?_eq_some hf)
        obtain ⟨t, k1, k2⟩ := hi.back id x hid
        rw [hxs] at k1; cases k1
        simp [Manager.book, k2, hid]
      | none =>
        dsimp only
        cases hid : Assoc.get m.byAddr s with
        | none => simp [Manager.book, hid]
        | some id =>
          obtain ⟨x, hx, hxs⟩ := hi.addr s id hid
          have := List.find?_eq_none.1 hf x ((hmem x).2 ⟨id, hx⟩)
          simp [hxs] at this
    · intro x hx
      obtain ⟨id, hid⟩ := (hmem x).1 hx
      obtain ⟨p, _, k1, _⟩ := hi.peer id x hid
      rw [k1]; rfl

/-! ## Examples -/

/-- Three addresses, two on one host. -/
def exOps : List Op :=
  [.add { addr := ⟨some ⟨.v4 1, 80⟩, some 10, 0⟩, lastConn := 5 },
   .add { addr := ⟨some ⟨.v4 1, 81⟩, some 11, 0⟩, lastConn := 6 },
   .add { addr := ⟨some ⟨.v4 2, 80⟩, some 12, 0⟩, lastConn := 7 },
   .tried ⟨some ⟨.v4 1, 81⟩, none, 0⟩ 1000, .remove ⟨some ⟨.v4 1, 80⟩, some 10, 0⟩]

def exOwn (s : Sock) : Nat := if s = ⟨.v4 1, 80⟩ then 10 else if s = ⟨.v4 1, 81⟩ then 11 else 12

/-- C45: an address is offered for connecting unless it was last tried over a minute ago and either it
was never reached in three attempts or more, or the last connection is over a week old after ten attempts
or more. -/
theorem C45_connectable (x : Info) (now : Nat) :
    x.connectable now = false ↔
      x.lastTried + 60 * 1000 < now ∧
      ((x.lastConn = 0 ∧ 3 ≤ x.attempts) ∨ (x.lastConn + 7 * 86400 * 1000 < now ∧ 10 ≤ x.attempts)) := by
  unfold Info.connectable Info.triedInLastMinute
  simp only [decide_eq_true_eq]
  by_cases h1 : x.lastTried ≥ now - 60000
  · rw [if_pos h1]; simp; omega
  · rw [if_neg h1]
    by_cases h2 : x.lastConn = 0 ∧ x.attempts ≥ 3
    · rw [if_pos h2]; simp; omega
    · rw [if_neg h2]
      by_cases h3 : now - x.lastConn > 7 * 24 * 3600 * 1000 ∧ x.attempts ≥ 10
      · rw [if_pos h3]
        simp only [true_iff]
        omega
      · rw [if_neg h3]
        simp only [Bool.true_eq_false, false_iff]
        omega

/-- An address that failed three times is dropped from the offers a minute after the third attempt. -/
example : ({ addr := ⟨none, none, 0⟩, lastConn := 0, lastTried := 1000, attempts := 3 } : Info).connectable 61000 = true ∧
    ({ addr := ⟨none, none, 0⟩, lastConn := 0, lastTried := 1000, attempts := 3 } : Info).connectable 61001 = false ∧
    ({ addr := ⟨none, none, 0⟩, lastConn := 0, lastTried := 1000, attempts := 2 } : Info).connectable 61001 = true := by
  decide

/-- A history meeting the hypotheses of the theorems above, also those of `C45_peer_partial`. -/
example : (∀ op ∈ exOps, Op.Own exOwn op) ∧
    (match Manager.empty.run exOps with | .ok m => m.count | _ => 0) = 2 := by
  refine ⟨?_, by decide +kernel⟩
  intro op hop
  simp only [exOps, List.mem_cons, List.not_mem_nil, or_false] at hop
  rcases hop with rfl | rfl | rfl | rfl | rfl <;> simp [Op.Own, Own, exOwn]

example : (match Manager.empty.run exOps with
    | .ok m =>
      match m.fetchRandom (fun _ => false) 100 (fun _ => true) 5 (fun _ => 1) with
      | .ok (_, l) => l.map (fun x => x.addr.peer)
      | _ => []
    | _ => []) = [some 11, some 12] := by decide +kernel

/-- A fetch of no addresses answers addresses when the first one met passes. -/
example : (match Manager.empty.run exOps with
    | .ok m =>
      match m.fetchRandom (fun _ => false) 100 (fun _ => true) 0 (fun _ => 1) with
      | .ok (_, l) => l.length
      | _ => 0
    | _ => 0) = 2 := by decide +kernel

end Axon.Peers
