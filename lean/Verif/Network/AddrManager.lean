import Verif.Network.Ip
import Verif.Util.Assoc
import Verif.Util.Outcome

/-!
# The address book of the peer store

Model of core/network/src/peer_manager/peer_store/addr_manager.rs (`Manager`) and of the
`AddrInfo` methods it uses (types.rs).
-/

namespace Axon.Peers

open Axon.Assoc

/-- `std::net::SocketAddr`: IP address and port. -/
structure Sock where
  ip : Ip
  port : Nat
deriving DecidableEq, Repr

/-- A multiaddress: `sock` is what tentacle's `multiaddr_to_socketaddr` answers, `peer` what
`extract_peer_id` answers, `rest` stands for all other components. -/
structure MAddr where
  sock : Option Sock
  peer : Option Nat
  rest : Nat := 0
deriving DecidableEq, Repr

/-- types.rs:36-50: `AddrInfo`.  Times in milliseconds. -/
structure Info where
  addr : MAddr
  score : Int := 100
  lastConn : Nat
  lastTried : Nat := 0
  attempts : Nat := 0
  pos : Nat := 0
deriving DecidableEq, Repr

/-- types.rs:71-73: `tried_in_last_minute`; truncated subtraction is `saturating_sub`. -/
def Info.triedInLastMinute (a : Info) (now : Nat) : Bool := decide (a.lastTried ≥ now - 60000)

/-- types.rs:76-92: `is_connectable`, with `ADDR_MAX_RETRIES` 3, `ADDR_MAX_FAILURES` 10 and
`ADDR_TIMEOUT_MS` seven days (mod.rs:15-28). -/
def Info.connectable (a : Info) (now : Nat) : Bool :=
  if a.triedInLastMinute now then true
  else if a.lastConn = 0 ∧ a.attempts ≥ 3 then false
  else if now - a.lastConn > 7 * 24 * 3600 * 1000 ∧ a.attempts ≥ 10 then false
  else true

/-- types.rs:95-98: `mark_tried`; `attempts_count` is a saturating `u32`. -/
def Info.markTried (a : Info) (now : Nat) : Info :=
  { a with lastTried := now, attempts := min (a.attempts + 1) (2 ^ 32 - 1) }

/-- addr_manager.rs:15-22: `Manager`.  `next_id` is a `u64`; that it overflows after 2^64 insertions is
left out. -/
structure Manager where
  next : Nat
  byAddr : List (Sock × Nat)
  infos : List (Nat × Info)
  byPeer : List (Nat × List Nat)
  random : List Nat

/-- `Manager::default`. -/
def Manager.empty : Manager := ⟨0, [], [], [], []⟩

/-- addr_manager.rs:121-127: `get`. -/
def Manager.get (m : Manager) (a : MAddr) : Option Info :=
  a.sock.bind fun s => (Assoc.get m.byAddr s).bind fun id => Assoc.get m.infos id

/-- addr_manager.rs:161-176: `swap_random_id`. -/
def Manager.swap (m : Manager) (i j : Nat) : Outcome Manager :=
  if i = j then .ok m
  else
    match m.random[i]?, m.random[j]? with
    | some a, some b =>
      match Assoc.get m.infos a with
      | none => .panic
      | some x =>
        let infos := put m.infos a { x with pos := j }
        match Assoc.get infos b with
        | none => .panic
        | some y =>
          .ok { m with infos := put infos b { y with pos := i }, random := (m.random.set i b).set j a }
    | _, _ => .panic

/-- addr_manager.rs:107-111: the id leaves the set of the peer id of the *given* address. -/
def unlink (byPeer : List (Nat × List Nat)) (peer : Option Nat) (id : Nat) : List (Nat × List Nat) :=
  match peer with
  | none => byPeer
  | some p =>
    match Assoc.get byPeer p with
    | none => byPeer
    | some set => put byPeer p (set.filter (· ≠ id))

/-- addr_manager.rs:98-118: `remove`.  `usize` underflow of `len() - 1` panics. -/
def Manager.remove (m : Manager) (a : MAddr) : Outcome (Manager × Option Info) :=
  match a.sock with
  | none => .ok (m, none)
  | some s =>
    match Assoc.get m.byAddr s with
    | none => .ok (m, none)
    | some id =>
      match Assoc.get m.infos id with
      | none => .panic
      | some info =>
        if m.random.length = 0 then .panic
        else
          match Manager.swap { m with byAddr := del m.byAddr s } info.pos (m.random.length - 1) with
          | .ok m' =>
            .ok ({ m' with random := m'.random.dropLast, byPeer := unlink m'.byPeer a.peer id,
                           infos := del m'.infos id }, Assoc.get m'.infos id)
          | .err => .err
          | .panic => .panic

/-- addr_manager.rs:40-52: the new entry of `add`. -/
def Manager.insert (m : Manager) (key : Sock) (info : Info) : Manager :=
  match info.addr.peer with
  | none => m
  | some p =>
    { next := m.next + 1
      byAddr := put m.byAddr key m.next
      infos := put m.infos m.next { info with pos := m.random.length }
      byPeer := put m.byPeer p (m.next :: ((Assoc.get m.byPeer p).getD []).filter (· ≠ m.next))
      random := m.random ++ [m.next] }

/-- addr_manager.rs:26-54: `add`. -/
def Manager.add (m : Manager) (info : Info) : Outcome Manager :=
  match info.addr.sock with
  | none => .ok m
  | some key =>
    match m.get info.addr with
    | some old =>
      if info.lastConn > old.lastConn then
        match m.remove info.addr with
        | .ok (m', _) => .ok (m'.insert key info)
        | .err => .err
        | .panic => .panic
      else .ok m
    | none => .ok (m.insert key info)

/-- addr_manager.rs:130-140: `get_mut`, with the change `f` made through the reference. -/
def Manager.update (m : Manager) (a : MAddr) (f : Info → Info) : Manager :=
  match a.sock with
  | none => m
  | some s =>
    match Assoc.get m.byAddr s with
    | none => m
    | some id =>
      match Assoc.get m.infos id with
      | none => m
      | some info => { m with infos := put m.infos id (f info) }

/-- addr_manager.rs:64-85: the loop of `fetch_random` with `k` rounds left, `ch` giving the random
choices, `test` the unspecified and loopback addresses (lines 75-76), `seen` the addresses met. -/
def fetchLoop (test : Ip → Bool) (now : Nat) (flt : Info → Bool) (count : Nat) (ch : Nat → Nat) :
    Nat → Nat → Manager → List Ip → List Info → Outcome (Manager × List Info)
  | 0, _, m, _, acc => .ok (m, acc)
  | k + 1, i, m, seen, acc =>
    match m.swap (i + ch i % (k + 1)) i with
    | .err => .err
    | .panic => .panic
    | .ok m =>
      match m.random[i]? with
      | none => .panic
      | some id =>
        match Assoc.get m.infos id with
        | none => .panic
        | some info =>
          match info.addr.sock with
          | none => fetchLoop test now flt count ch k (i + 1) m seen acc
          | some s =>
            let good := (test s.ip || !decide (s.ip ∈ seen)) && info.connectable now && flt info
            let acc := if good then acc ++ [info] else acc
            if acc.length = count then .ok (m, acc)
            else fetchLoop test now flt count ch k (i + 1) m (s.ip :: seen) acc

/-- addr_manager.rs:57-87: `fetch_random`. -/
def Manager.fetchRandom (m : Manager) (test : Ip → Bool) (now : Nat) (flt : Info → Bool) (count : Nat)
    (ch : Nat → Nat) : Outcome (Manager × List Info) :=
  fetchLoop test now flt count ch m.random.length 0 m [] []

/-- addr_manager.rs:149-156: the loop of `get_by_peer_id`. -/
def peerLoop (m : Manager) (now : Nat) (flt : Info → Bool) : List Nat → Outcome (List MAddr)
  | [] => .ok []
  | id :: ids =>
    match Assoc.get m.infos id with
    | none => .panic
    | some info =>
      match peerLoop m now flt ids with
      | .ok l => .ok (if info.connectable now && flt info then info.addr :: l else l)
      | .err => .err
      | .panic => .panic

/-- addr_manager.rs:142-158: `get_by_peer_id`; the set it returns is a list here. -/
def Manager.getByPeer (m : Manager) (p now : Nat) (flt : Info → Bool) : Outcome (List MAddr) :=
  peerLoop m now flt ((Assoc.get m.byPeer p).getD [])

/-- addr_manager.rs:90-92: `count`. -/
def Manager.count (m : Manager) : Nat := m.byAddr.length

/-! ## `infos` and `random` -/

/-- The position stored in an entry is its index in the random list, and conversely. -/
structure Ring (m : Manager) : Prop where
  fwd : ∀ id x, Assoc.get m.infos id = some x → m.random[x.pos]? = some id
  bwd : ∀ (i : Nat) id, m.random[i]? = some id → ∃ x, Assoc.get m.infos id = some x ∧ x.pos = i

/-- An entry without its position. -/
def Info.strip (x : Info) : Info := { x with pos := 0 }

/-- Same entries up to positions. -/
def SameInfos (m m' : Manager) : Prop :=
  ∀ id, (Assoc.get m'.infos id).map Info.strip = (Assoc.get m.infos id).map Info.strip

theorem SameInfos.refl (m : Manager) : SameInfos m m := fun _ => rfl

theorem SameInfos.trans {a b c : Manager} (h : SameInfos a b) (h' : SameInfos b c) : SameInfos a c :=
  fun id => (h' id).trans (h id)

theorem SameInfos.some {a b : Manager} (h : SameInfos a b) {id : Nat} {x : Info}
    (hx : Assoc.get b.infos id = some x) : ∃ y, Assoc.get a.infos id = some y ∧ y.strip = x.strip := by
  have := h id
  rw [hx] at this
  cases hy : Assoc.get a.infos id with
  | none => rw [hy] at this; simp at this
  | some y => rw [hy] at this; simp at this; exact ⟨y, rfl, this.symm⟩

theorem SameInfos.symm {a b : Manager} (h : SameInfos a b) : SameInfos b a := fun id => (h id).symm

theorem strip_addr {x y : Info} (h : x.strip = y.strip) : x.addr = y.addr ∧ x.score = y.score ∧
    x.lastConn = y.lastConn ∧ x.lastTried = y.lastTried ∧ x.attempts = y.attempts := by
  simp only [Info.strip, Info.mk.injEq] at h
  exact ⟨h.1, h.2.1, h.2.2.1, h.2.2.2.1, h.2.2.2.2.1⟩

theorem swap_spec {m : Manager} (h : Ring m) (hn : NodupKeys m.infos) {i j : Nat}
    (hi : i < m.random.length) (hj : j < m.random.length) :
    ∃ m', m.swap i j = .ok m' ∧ Ring m' ∧ SameInfos m m' ∧ m'.byAddr = m.byAddr ∧ m'.byPeer = m.byPeer ∧
      m'.next = m.next ∧ NodupKeys m'.infos ∧ m'.random.length = m.random.length ∧
      (∀ k : Nat, m'.random[k]? = if k = j then m.random[i]? else if k = i then m.random[j]? else m.random[k]?) := by
  unfold Manager.swap
  by_cases hij : i = j
  · subst hij
    refine ⟨m, by simp, h, SameInfos.refl m, rfl, rfl, rfl, hn, rfl, ?_⟩
    intro k; split <;> simp_all
  · rw [if_neg hij]
    have hri := List.getElem?_eq_getElem hi
    have hrj := List.getElem?_eq_getElem hj
    generalize m.random[i] = a at hri
    generalize m.random[j] = b at hrj
    rw [hri, hrj]
    dsimp only
    obtain ⟨x, hx, hxp⟩ := h.bwd i a hri
    obtain ⟨y, hy, hyp⟩ := h.bwd j b hrj
    have hab : a ≠ b := by
      intro hab; subst hab; rw [hx] at hy; cases hy; omega
    rw [hx]
    dsimp only
    have hy' : Assoc.get (put m.infos a { x with pos := j }) b = some y := by
      rw [get_put, if_neg (fun hh => hab hh.symm), hy]
    rw [hy']
    have hrand : ∀ k : Nat, ((m.random.set i b).set j a)[k]? =
        if k = j then some a else if k = i then some b else m.random[k]? := by
      intro k
      rw [List.getElem?_set, List.getElem?_set]
      simp only [List.length_set]
      by_cases h1 : j = k
      · subst h1; simp [hj]
      · by_cases h2 : i = k
        · subst h2; simp [h1, hi, Ne.symm h1]
        · simp [h1, h2, Ne.symm h1, Ne.symm h2]
    refine ⟨_, rfl, ⟨?_, ?_⟩, ?_, rfl, rfl, rfl, nodupKeys_put (nodupKeys_put hn _ _) _ _, by simp, hrand⟩
    · intro id z hz
      simp only [get_put] at hz
      dsimp only
      rw [hrand]
      by_cases h1 : id = b
      · subst h1; rw [if_pos rfl] at hz; cases hz
        simp [hij]
      · rw [if_neg h1] at hz
        by_cases h2 : id = a
        · subst h2; rw [if_pos rfl] at hz; cases hz; simp
        · rw [if_neg h2] at hz
          have hz2 := h.fwd id z hz
          have h3 : z.pos ≠ j := by intro hh; rw [hh, hrj] at hz2; cases hz2; exact h1 rfl
          have h4 : z.pos ≠ i := by intro hh; rw [hh, hri] at hz2; cases hz2; exact h2 rfl
          rw [if_neg h3, if_neg h4, hz2]
    · intro k id hk
      dsimp only at hk ⊢
      rw [hrand] at hk
      simp only [get_put]
      by_cases h1 : k = j
      · subst h1; rw [if_pos rfl] at hk; cases hk
        exact ⟨{ x with pos := k }, by simp [hab], rfl⟩
      · rw [if_neg h1] at hk
        by_cases h2 : k = i
        · subst h2; rw [if_pos rfl] at hk; cases hk
          exact ⟨{ y with pos := k }, by simp, rfl⟩
        · rw [if_neg h2] at hk
          obtain ⟨z, hz, hzp⟩ := h.bwd k id hk
          have h3 : id ≠ b := by intro hh; subst hh; rw [hy] at hz; cases hz; omega
          have h4 : id ≠ a := by intro hh; subst hh; rw [hx] at hz; cases hz; omega
          exact ⟨z, by rw [if_neg h3, if_neg h4, hz], hzp⟩
    · intro id
      simp only [get_put]
      by_cases h1 : id = b
      · subst h1; simp [hy, Info.strip]
      · by_cases h2 : id = a
        · subst h2; simp [h1, hx, Info.strip]
        · simp [h1, h2]

/-! ## Invariant of the whole book -/

theorem length_del {κ α : Type} [DecidableEq κ] {m : List (κ × α)} (hn : NodupKeys m) {k : κ} {v : α}
    (h : Assoc.get m k = some v) : (del m k).length + 1 = m.length := by
  induction m with
  | nil => simp [get_nil] at h
  | cons e m ih =>
    unfold NodupKeys at hn ih
    rw [List.pairwise_cons] at hn
    unfold del at ih ⊢
    rw [get_cons] at h
    by_cases he : e.1 = k
    · rw [List.filter_cons_of_neg (by simp [he])]
      have : m.filter (fun e => decide (e.1 ≠ k)) = m := by
        rw [List.filter_eq_self]
        intro x hx
        have := hn.1 x hx
        simp only [ne_eq, decide_not, Bool.not_eq_eq_eq_not, Bool.not_true, decide_eq_false_iff_not]
        rw [← he]; exact fun hh => this hh.symm
      rw [this]; rfl
    · rw [if_neg he] at h
      rw [List.filter_cons_of_pos (by simp [he])]
      have := ih hn.2 h
      simp only [List.length_cons]; omega

theorem length_put {κ α : Type} [DecidableEq κ] {m : List (κ × α)} {k : κ} (v : α)
    (h : Assoc.get m k = none) : (put m k v).length = m.length + 1 := by
  unfold put
  have : m.filter (fun e => decide (e.1 ≠ k)) = m := by
    rw [List.filter_eq_self]
    intro x hx
    have h2 : ¬ ∃ v, (k, v) ∈ m := fun hh => by
      have := (get_isSome_iff (m := m) (k := k)).2 hh
      simp [h] at this
    simp only [ne_eq, decide_not, Bool.not_eq_eq_eq_not, Bool.not_true, decide_eq_false_iff_not]
    intro hh; exact h2 ⟨x.2, by rw [← hh]; exact hx⟩
  rw [this]; rfl

/-- What holds after any sequence of operations. -/
structure Inv (m : Manager) : Prop where
  ring : Ring m
  nodupI : NodupKeys m.infos
  nodupA : NodupKeys m.byAddr
  addr : ∀ s id, Assoc.get m.byAddr s = some id → ∃ x, Assoc.get m.infos id = some x ∧ x.addr.sock = some s
  back : ∀ id x, Assoc.get m.infos id = some x → ∃ s, x.addr.sock = some s ∧ Assoc.get m.byAddr s = some id
  peer : ∀ id x, Assoc.get m.infos id = some x →
    ∃ p set, x.addr.peer = some p ∧ Assoc.get m.byPeer p = some set ∧ id ∈ set
  lt : ∀ id x, Assoc.get m.infos id = some x → id < m.next
  ltP : ∀ p set id, Assoc.get m.byPeer p = some set → id ∈ set → id < m.next
  len : m.random.length = m.byAddr.length

theorem inv_empty : Inv Manager.empty := by
  constructor <;> try (simp [Manager.empty, get_nil])
  · constructor <;> simp [Manager.empty, get_nil]
  · exact List.Pairwise.nil
  · exact List.Pairwise.nil

/-- The content of the book: the entry of each socket address, without positions. -/
def Manager.book (m : Manager) (s : Sock) : Option Info :=
  ((Assoc.get m.byAddr s).bind fun id => Assoc.get m.infos id).map Info.strip

theorem mem_unlink {byPeer : List (Nat × List Nat)} {q : Option Nat} {id id' p : Nat} {set : List Nat}
    (hne : id' ≠ id) (h : Assoc.get byPeer p = some set) (hm : id' ∈ set) :
    ∃ set', Assoc.get (unlink byPeer q id) p = some set' ∧ id' ∈ set' := by
  unfold unlink
  cases q with
  | none => exact ⟨set, h, hm⟩
  | some q =>
    dsimp only
    cases hq : Assoc.get byPeer q with
    | none => exact ⟨set, h, hm⟩
    | some sq =>
      dsimp only
      rw [get_put]
      by_cases hp : p = q
      · subst hp; rw [hq] at h; cases h
        exact ⟨_, if_pos rfl, List.mem_filter.2 ⟨hm, by simpa using hne⟩⟩
      · exact ⟨set, by rw [if_neg hp, h], hm⟩

theorem unlink_sub {byPeer : List (Nat × List Nat)} {q : Option Nat} {id id' p : Nat} {set' : List Nat}
    (h : Assoc.get (unlink byPeer q id) p = some set') (hm : id' ∈ set') :
    ∃ set, Assoc.get byPeer p = some set ∧ id' ∈ set ∧ (q = some p → id' ≠ id) := by
  unfold unlink at h
  cases q with
  | none => exact ⟨set', h, hm, by simp⟩
  | some q =>
    dsimp only at h
    cases hq : Assoc.get byPeer q with
    | none =>
      rw [hq] at h
      refine ⟨set', h, hm, fun hh => ?_⟩
      cases hh; dsimp only at h; rw [hq] at h; cases h
    | some sq =>
      rw [hq] at h
      dsimp only at h
      rw [get_put] at h
      by_cases hp : p = q
      · subst hp; rw [if_pos rfl] at h; cases h
        obtain ⟨h1, h2⟩ := List.mem_filter.1 hm
        exact ⟨sq, hq, h1, fun _ => by simpa using h2⟩
      · rw [if_neg hp] at h
        exact ⟨set', h, hm, fun hh => absurd (Option.some.inj hh).symm hp⟩

theorem remove_spec {m : Manager} (h : Inv m) (a : MAddr) :
    ∃ m' r, m.remove a = .ok (m', r) ∧ Inv m' ∧
      (∀ s, m'.book s = if a.sock = some s then none else m.book s) ∧
      r.map Info.strip = a.sock.bind m.book ∧ m'.next = m.next ∧
      (∀ id x, Assoc.get m'.infos id = some x →
        ∃ y, Assoc.get m.infos id = some y ∧ y.strip = x.strip ∧ ∀ s, a.sock = some s → y.addr.sock ≠ some s) ∧
      (∀ id, a.sock.bind (Assoc.get m.byAddr) = some id → m'.byPeer = unlink m.byPeer a.peer id) ∧
      (a.sock.bind (Assoc.get m.byAddr) = none → m'.byPeer = m.byPeer) ∧
      (∀ id x, Assoc.get m.infos id = some x → (∀ s, a.sock = some s → x.addr.sock ≠ some s) →
        ∃ y, Assoc.get m'.infos id = some y ∧ y.strip = x.strip) := by
  unfold Manager.remove
  cases hs : a.sock with
  | none =>
    exact ⟨m, none, rfl, h, by simp, by simp, rfl, fun id x hx => ⟨x, hx, rfl, by simp⟩, by simp,
      by simp, fun id x hx _ => ⟨x, hx, rfl⟩⟩
  | some s =>
    dsimp only
    cases hid : Assoc.get m.byAddr s with
    | none =>
      have hb : m.book s = none := by simp [Manager.book, hid]
      refine ⟨m, none, rfl, h, ?_, by simp [hb], rfl, ?_, by simp [hid], by simp, fun id x hx _ => ⟨x, hx, rfl⟩⟩
      · intro s'; split
        · next hh => cases hh; exact hb
        · rfl
      · intro id x hx
        refine ⟨x, hx, rfl, fun s' hs' hh => ?_⟩
        cases hs'
        obtain ⟨s2, h1, h2⟩ := h.back id x hx
        rw [hh] at h1; cases h1
        rw [hid] at h2; cases h2
    | some id =>
      dsimp only
      obtain ⟨x, hx, hxs⟩ := h.addr s id hid
      rw [hx]
      dsimp only
      have hpos := h.ring.fwd id x hx
      have hlt : x.pos < m.random.length := by
        rcases Nat.lt_or_ge x.pos m.random.length with hh | hh
        · exact hh
        · rw [List.getElem?_eq_none hh] at hpos; cases hpos
      rw [if_neg (by omega)]
      have hR : Ring { m with byAddr := del m.byAddr s } := ⟨h.ring.fwd, h.ring.bwd⟩
      obtain ⟨m', hsw, hr', hsame, hA, hP, hN, hnI, hlen, hrand⟩ :=
        swap_spec hR h.nodupI hlt (show m.random.length - 1 < _ by dsimp only; omega)
      rw [hsw]
      dsimp only at hA hP hN hlen hrand ⊢
      have hlast : m'.random[m.random.length - 1]? = some id := by
        rw [hrand, if_pos rfl]; exact hpos
      have hdl : m'.random.dropLast.length = m.random.length - 1 := by simp [hlen]
      have hget : ∀ k : Nat, k < m.random.length - 1 → m'.random.dropLast[k]? = m'.random[k]? := by
        intro k hk
        rw [List.getElem?_dropLast, if_pos (by omega)]
      have hsome : ∀ id' y, Assoc.get (del m'.infos id) id' = some y → id' ≠ id ∧ Assoc.get m'.infos id' = some y := by
        intro id' y hy
        rw [get_del] at hy
        by_cases hh : id' = id
        · simp [hh] at hy
        · rw [if_neg hh] at hy; exact ⟨hh, hy⟩
      have horig : ∀ id' y, Assoc.get (del m'.infos id) id' = some y →
          id' ≠ id ∧ ∃ z, Assoc.get m.infos id' = some z ∧ z.strip = y.strip := by
        intro id' y hy
        obtain ⟨h1, h2⟩ := hsome id' y hy
        exact ⟨h1, hsame.some h2⟩
      have hinvA : ∀ s', Assoc.get m'.byAddr s' = if s' = s then none else Assoc.get m.byAddr s' := by
        intro s'; rw [hA, get_del]
      have hneq : ∀ s' id', s' ≠ s → Assoc.get m.byAddr s' = some id' → id' ≠ id := by
        intro s' id' hne hg hh
        subst hh
        obtain ⟨y, hy, hys⟩ := h.addr s' id' hg
        rw [hx] at hy; cases hy
        rw [hxs] at hys; cases hys; exact hne rfl
      have hkeep : ∀ id' z, Assoc.get m.infos id' = some z → id' ≠ id →
          ∃ y, Assoc.get (del m'.infos id) id' = some y ∧ y.strip = z.strip := by
        intro id' z hz hne
        obtain ⟨y, hy, hys⟩ := (SameInfos.symm hsame).some (x := z) hz
        exact ⟨y, by rw [get_del, if_neg hne, hy], hys⟩
      refine ⟨_, _, rfl, ?_, ?_, ?_, hN, ?_, ?_, ?_, ?_⟩
      · constructor
        · constructor
          · intro id' y hy
            obtain ⟨h1, h2⟩ := hsome id' y hy
            have h3 := hr'.fwd id' y h2
            have h4 : y.pos < m'.random.length := by
              rcases Nat.lt_or_ge y.pos m'.random.length with hh | hh
              · exact hh
              · rw [List.getElem?_eq_none hh] at h3; cases h3
            have h5 : y.pos ≠ m.random.length - 1 := by
              intro hh; rw [hh, hlast] at h3; cases h3; exact h1 rfl
            dsimp only
            rw [hget _ (by omega), h3]
          · intro k id' hk
            dsimp only at hk ⊢
            have hk1 : k < m.random.length - 1 := by
              rcases Nat.lt_or_ge k (m.random.length - 1) with hh | hh
              · exact hh
              · rw [List.getElem?_eq_none (by omega)] at hk; cases hk
            rw [hget k hk1] at hk
            obtain ⟨y, hy, hyp⟩ := hr'.bwd k id' hk
            refine ⟨y, ?_, hyp⟩
            rw [get_del, if_neg, hy]
            intro hh; subst hh
            obtain ⟨z, hz, hzp⟩ := hr'.bwd _ _ hlast
            rw [hy] at hz; cases hz; omega
        · exact nodupKeys_del hnI _
        · dsimp only; rw [hA]; exact nodupKeys_del h.nodupA _
        · intro s' id' hg
          dsimp only at hg
          rw [hinvA] at hg
          by_cases hss : s' = s
          · simp [hss] at hg
          · rw [if_neg hss] at hg
            obtain ⟨y, hy, hys⟩ := h.addr s' id' hg
            obtain ⟨y', hy', hst⟩ := hkeep id' y hy (hneq s' id' hss hg)
            exact ⟨y', hy', by rw [(strip_addr hst).1, hys]⟩
        · intro id' y hy
          obtain ⟨h1, z, hz, hst⟩ := horig id' y hy
          obtain ⟨s', h2, h3⟩ := h.back id' z hz
          refine ⟨s', by rw [← (strip_addr hst).1, h2], ?_⟩
          dsimp only
          rw [hinvA, if_neg, h3]
          intro hh; subst hh; rw [hid] at h3; cases h3; exact h1 rfl
        · intro id' y hy
          obtain ⟨h1, z, hz, hst⟩ := horig id' y hy
          obtain ⟨p, set, h2, h3, h4⟩ := h.peer id' z hz
          obtain ⟨set', h5, h6⟩ := mem_unlink (q := a.peer) h1 h3 h4
          exact ⟨p, set', by rw [← (strip_addr hst).1, h2], by dsimp only; rw [hP]; exact h5, h6⟩
        · intro id' y hy
          obtain ⟨h1, z, hz, hst⟩ := horig id' y hy
          dsimp only; rw [hN]; exact h.lt id' z hz
        · intro p set id' hg hm
          dsimp only at hg
          rw [hP] at hg
          obtain ⟨set0, h1, h2, _⟩ := unlink_sub hg hm
          dsimp only; rw [hN]; exact h.ltP p set0 id' h1 h2
        · dsimp only
          have := length_del h.nodupA hid
          rw [hdl, hA, h.len]; omega
      · intro s'
        simp only [Manager.book]
        rw [hinvA]
        by_cases hss : s' = s
        · simp [hss]
        · rw [if_neg hss, if_neg (fun hh => hss (Option.some.inj hh).symm)]
          cases hg : Assoc.get m.byAddr s' with
          | none => rfl
          | some id' =>
            simp only [Option.bind_some]
            rw [get_del, if_neg (hneq s' id' hss hg)]
            exact hsame id'
      · simp only [Option.bind_some, Manager.book, hid]
        exact hsame id
      · intro id' y hy
        obtain ⟨h1, z, hz, hst⟩ := horig id' y hy
        refine ⟨z, hz, hst, ?_⟩
        intro s' hs' hzs
        cases hs'
        obtain ⟨s2, h2, h3⟩ := h.back id' z hz
        rw [hzs] at h2; cases h2
        rw [hid] at h3; cases h3; exact h1 rfl
      · intro id' hid'
        simp only [Option.bind_some, hid, Option.some.injEq] at hid'
        subst hid'
        dsimp only; rw [hP]
      · intro hh; simp [hid] at hh
      · intro id' z hz hne
        apply hkeep id' z hz
        intro hh; subst hh
        rw [hx] at hz; cases hz
        exact hne s rfl hxs

theorem insert_spec {m : Manager} (h : Inv m) {key : Sock} {info : Info} (hs : info.addr.sock = some key)
    (hk : Assoc.get m.byAddr key = none) :
    Inv (m.insert key info) ∧
    (∀ s, (m.insert key info).book s =
      if s = key ∧ info.addr.peer.isSome then some info.strip else m.book s) := by
  unfold Manager.insert
  cases hp : info.addr.peer with
  | none => exact ⟨h, by simp⟩
  | some p =>
    dsimp only
    have hfresh : Assoc.get m.infos m.next = none := by
      cases hx : Assoc.get m.infos m.next with
      | none => rfl
      | some x => exact absurd (h.lt _ _ hx) (by omega)
    have hnotin : ∀ i : Nat, m.random[i]? ≠ some m.next := by
      intro i hi
      obtain ⟨x, hx, _⟩ := h.ring.bwd i _ hi
      rw [hfresh] at hx; cases hx
    constructor
    · constructor
      · constructor
        · intro id x hx
          dsimp only at hx ⊢
          rw [get_put] at hx
          by_cases hid : id = m.next
          · rw [if_pos hid] at hx; cases hx
            simp [hid]
          · rw [if_neg hid] at hx
            have := h.ring.fwd id x hx
            rw [List.getElem?_append_left, this]
            rcases Nat.lt_or_ge x.pos m.random.length with hh | hh
            · exact hh
            · rw [List.getElem?_eq_none hh] at this; cases this
        · intro i id hi
          dsimp only at hi ⊢
          rw [get_put]
          rcases Nat.lt_or_ge i m.random.length with hh | hh
          · rw [List.getElem?_append_left hh] at hi
            have hne : id ≠ m.next := fun he => hnotin i (he ▸ hi)
            rw [if_neg hne]
            exact h.ring.bwd i id hi
          · rw [List.getElem?_append_right hh] at hi
            have h0 : i - m.random.length = 0 := by
              rcases Nat.eq_zero_or_pos (i - m.random.length) with h0 | h0
              · exact h0
              · rw [List.getElem?_eq_none (by simp; omega)] at hi; cases hi
            rw [h0] at hi
            simp at hi
            rw [if_pos hi.symm]
            exact ⟨_, rfl, by dsimp only; omega⟩
      · exact nodupKeys_put h.nodupI _ _
      · exact nodupKeys_put h.nodupA _ _
      · intro s id hg
        dsimp only at hg ⊢
        rw [get_put] at hg
        by_cases hsk : s = key
        · rw [if_pos hsk] at hg; cases hg
          rw [get_put, if_pos rfl]
          exact ⟨_, rfl, by rw [hsk]; exact hs⟩
        · rw [if_neg hsk] at hg
          obtain ⟨x, hx, hxs⟩ := h.addr s id hg
          have hne : id ≠ m.next := fun he => by rw [he, hfresh] at hx; cases hx
          exact ⟨x, by rw [get_put, if_neg hne, hx], hxs⟩
      · intro id x hx
        dsimp only at hx ⊢
        rw [get_put] at hx
        by_cases hid : id = m.next
        · rw [if_pos hid] at hx; cases hx
          exact ⟨key, hs, by rw [get_put, if_pos rfl, hid]⟩
        · rw [if_neg hid] at hx
          obtain ⟨s, h1, h2⟩ := h.back id x hx
          refine ⟨s, h1, ?_⟩
          rw [get_put, if_neg, h2]
          intro hh; rw [hh, hk] at h2; cases h2
      · intro id x hx
        dsimp only at hx ⊢
        rw [get_put] at hx
        by_cases hid : id = m.next
        · rw [if_pos hid] at hx; cases hx
          refine ⟨p, _, hp, by rw [get_put, if_pos rfl], ?_⟩
          rw [hid]; exact List.mem_cons_self
        · rw [if_neg hid] at hx
          obtain ⟨q, set, h1, h2, h3⟩ := h.peer id x hx
          by_cases hq : q = p
          · subst hq
            refine ⟨q, _, h1, by rw [get_put, if_pos rfl], ?_⟩
            rw [h2]
            exact List.mem_cons_of_mem _ (List.mem_filter.2 ⟨h3, by simpa using hid⟩)
          · exact ⟨q, set, h1, by rw [get_put, if_neg hq, h2], h3⟩
      · intro id x hx
        dsimp only at hx ⊢
        rw [get_put] at hx
        by_cases hid : id = m.next
        · omega
        · rw [if_neg hid] at hx; have := h.lt id x hx; omega
      · intro q set id hg hm
        dsimp only at hg ⊢
        rw [get_put] at hg
        by_cases hq : q = p
        · rw [if_pos hq] at hg; cases hg
          rcases List.mem_cons.1 hm with hh | hh
          · omega
          · have h1 := (List.mem_filter.1 hh).1
            cases hset : Assoc.get m.byPeer p with
            | none => rw [hset] at h1; simp at h1
            | some set => rw [hset] at h1; have := h.ltP p set id hset h1; omega
        · rw [if_neg hq] at hg; have := h.ltP q set id hg hm; omega
      · dsimp only
        rw [length_put _ hk, List.length_append, h.len]; rfl
    · intro s
      simp only [Manager.book, get_put]
      by_cases hsk : s = key
      · subst hsk; simp [Info.strip]
      · rw [if_neg hsk, if_neg (by simp [hsk])]
        cases hg : Assoc.get m.byAddr s with
        | none => rfl
        | some id =>
          obtain ⟨x, hx, _⟩ := h.addr s id hg
          have hne : id ≠ m.next := fun he => by rw [he, hfresh] at hx; cases hx
          simp [hne]

theorem get_eq_book {m : Manager} (a : MAddr) : (m.get a).map Info.strip = a.sock.bind m.book := by
  unfold Manager.get Manager.book
  cases a.sock with
  | none => rfl
  | some s => rfl

theorem byAddr_none_of_book {m : Manager} (h : Inv m) {s : Sock} (hb : m.book s = none) :
    Assoc.get m.byAddr s = none := by
  cases hid : Assoc.get m.byAddr s with
  | none => rfl
  | some id =>
    obtain ⟨x, hx, _⟩ := h.addr s id hid
    simp [Manager.book, hid, hx] at hb

theorem update_spec {m : Manager} (h : Inv m) (a : MAddr) {f : Info → Info}
    (hf : ∀ x, (f x).addr = x.addr ∧ (f x).pos = x.pos ∧ (f x.strip).strip = (f x).strip) :
    Inv (m.update a f) ∧
    (∀ s, (m.update a f).book s =
      if a.sock = some s then (m.book s).map (fun x => (f x).strip) else m.book s) ∧
    (m.update a f).byPeer = m.byPeer ∧ (m.update a f).byAddr = m.byAddr ∧
    (∀ id, (Assoc.get (m.update a f).infos id).map (·.addr) = (Assoc.get m.infos id).map (·.addr)) := by
  unfold Manager.update
  cases hs : a.sock with
  | none => exact ⟨h, by simp, rfl, rfl, fun _ => rfl⟩
  | some s =>
    dsimp only
    cases hid : Assoc.get m.byAddr s with
    | none =>
      refine ⟨h, ?_, rfl, rfl, fun _ => rfl⟩
      intro s'
      dsimp only
      by_cases hss : some s = some s'
      · rw [if_pos hss]; cases hss; simp [Manager.book, hid]
      · rw [if_neg hss]
    | some id =>
      dsimp only
      obtain ⟨x, hx, hxs⟩ := h.addr s id hid
      rw [hx]
      dsimp only
      have hstep : ∀ id' y, Assoc.get (put m.infos id (f x)) id' = some y →
          ∃ z, Assoc.get m.infos id' = some z ∧ y.addr = z.addr ∧ y.pos = z.pos := by
        intro id' y hy
        rw [get_put] at hy
        by_cases hh : id' = id
        · rw [if_pos hh] at hy; cases hy; exact ⟨x, by rw [hh, hx], (hf x).1, (hf x).2.1⟩
        · rw [if_neg hh] at hy; exact ⟨y, hy, rfl, rfl⟩
      have hstep' : ∀ id' z, Assoc.get m.infos id' = some z →
          ∃ y, Assoc.get (put m.infos id (f x)) id' = some y ∧ y.addr = z.addr ∧ y.pos = z.pos := by
        intro id' z hz
        rw [get_put]
        by_cases hh : id' = id
        · subst hh; rw [hx] at hz; cases hz; exact ⟨f x, by simp, (hf x).1, (hf x).2.1⟩
        · rw [if_neg hh]; exact ⟨z, hz, rfl, rfl⟩
      refine ⟨?_, ?_, rfl, rfl, ?_⟩
      · constructor
        · constructor
          · intro id' y hy
            obtain ⟨z, hz, h1, h2⟩ := hstep id' y hy
            dsimp only; rw [h2]; exact h.ring.fwd id' z hz
          · intro i id' hi
            obtain ⟨z, hz, h1⟩ := h.ring.bwd i id' hi
            obtain ⟨y, hy, h2, h3⟩ := hstep' id' z hz
            exact ⟨y, hy, by omega⟩
        · exact nodupKeys_put h.nodupI _ _
        · exact h.nodupA
        · intro s' id' hg
          obtain ⟨z, hz, h1⟩ := h.addr s' id' hg
          obtain ⟨y, hy, h2, h3⟩ := hstep' id' z hz
          exact ⟨y, hy, by rw [h2, h1]⟩
        · intro id' y hy
          obtain ⟨z, hz, h1, h2⟩ := hstep id' y hy
          obtain ⟨s', h3, h4⟩ := h.back id' z hz
          exact ⟨s', by rw [h1, h3], h4⟩
        · intro id' y hy
          obtain ⟨z, hz, h1, h2⟩ := hstep id' y hy
          obtain ⟨p, set, h3, h4, h5⟩ := h.peer id' z hz
          exact ⟨p, set, by rw [h1, h3], h4, h5⟩
        · intro id' y hy
          obtain ⟨z, hz, h1, h2⟩ := hstep id' y hy
          exact h.lt id' z hz
        · exact h.ltP
        · exact h.len
      · intro s'
        simp only [Manager.book]
        by_cases hss : s' = s
        · subst hss
          simp only [hid, Option.bind_some, get_put, hx]
          simp [(hf x).2.2]
        · rw [if_neg (fun hh => hss (Option.some.inj hh).symm)]
          cases hg : Assoc.get m.byAddr s' with
          | none => rfl
          | some id' =>
            have : id' ≠ id := by
              intro hh; subst hh
              obtain ⟨y, hy, hys⟩ := h.addr s' id' hg
              rw [hx] at hy; cases hy
              rw [hxs] at hys; cases hys; exact hss rfl
            simp [get_put, this]
      · intro id'
        simp only [get_put]
        by_cases hh : id' = id
        · subst hh; simp [hx, (hf x).1]
        · simp [hh]

/-! ## Random fetching -/

instance : Inhabited Info := ⟨⟨⟨none, none, 0⟩, 0, 0, 0, 0, 0⟩⟩

/-- The entries in the order of the random list. -/
def Manager.entries (m : Manager) : List Info :=
  m.random.map fun id => (Assoc.get m.infos id).getD default

/-- What `fetch_random` selects from the entries in the order it meets them. -/
def pick (test : Ip → Bool) (now : Nat) (flt : Info → Bool) (count : Nat) :
    List Ip → List Info → List Info → List Info
  | _, acc, [] => acc
  | seen, acc, x :: xs =>
    match x.addr.sock with
    | none => pick test now flt count seen acc xs
    | some s =>
      let good := (test s.ip || !decide (s.ip ∈ seen)) && x.connectable now && flt x
      let acc := if good then acc ++ [x] else acc
      if acc.length = count then acc else pick test now flt count (s.ip :: seen) acc xs

theorem length_entries (m : Manager) : m.entries.length = m.random.length := by simp [Manager.entries]

theorem fetchLoop_spec (test : Ip → Bool) (now : Nat) (flt : Info → Bool) (count : Nat) (ch : Nat → Nat)
    (k i : Nat) (m : Manager) (seen : List Ip) (acc : List Info) (h : Inv m)
    (hlen : i + k = m.random.length) :
    ∃ m', fetchLoop test now flt count ch k i m seen acc =
        .ok (m', pick test now flt count seen acc (m'.entries.drop i)) ∧ Inv m' ∧
      m'.random.length = m.random.length ∧ m'.byAddr = m.byAddr ∧ m'.byPeer = m.byPeer ∧ SameInfos m m' ∧
      (∀ j : Nat, j < i → m'.entries[j]? = m.entries[j]?) := by
  induction k generalizing i m seen acc with
  | zero =>
    refine ⟨m, ?_, h, rfl, rfl, rfl, SameInfos.refl m, fun _ _ => rfl⟩
    rw [List.drop_of_length_le (by rw [length_entries]; omega)]
    rfl
  | succ k ih =>
    have hj : i + ch i % (k + 1) < m.random.length := by
      have : ch i % (k + 1) < k + 1 := Nat.mod_lt (ch i) (Nat.succ_pos k); omega
    obtain ⟨m1, hsw, hr1, hsame, hA, hP, hN, hnI, hlen1, hrand⟩ :=
      swap_spec h.ring h.nodupI hj (show i < _ by omega)
    have hinv1 : Inv m1 := by
      refine ⟨hr1, hnI, hA ▸ h.nodupA, ?_, ?_, ?_, ?_, ?_, ?_⟩
      · intro s id hg
        rw [hA] at hg
        obtain ⟨x, hx, hxs⟩ := h.addr s id hg
        obtain ⟨y, hy, hys⟩ := hsame.symm.some hx
        exact ⟨y, hy, by rw [(strip_addr hys).1, hxs]⟩
      · intro id x hx
        obtain ⟨y, hy, hys⟩ := hsame.some hx
        obtain ⟨s, h1, h2⟩ := h.back id y hy
        exact ⟨s, by rw [← (strip_addr hys).1, h1], by rw [hA, h2]⟩
      · intro id x hx
        obtain ⟨y, hy, hys⟩ := hsame.some hx
        obtain ⟨p, set, h1, h2, h3⟩ := h.peer id y hy
        exact ⟨p, set, by rw [← (strip_addr hys).1, h1], by rw [hP, h2], h3⟩
      · intro id x hx
        obtain ⟨y, hy, hys⟩ := hsame.some hx
        rw [hN]; exact h.lt id y hy
      · intro p set id hg hm
        rw [hP] at hg; rw [hN]; exact h.ltP p set id hg hm
      · rw [hlen1, hA, h.len]
    have hpre : ∀ j : Nat, j < i → m1.entries[j]? = m.entries[j]? := by
      intro j hji
      simp only [Manager.entries, List.getElem?_map]
      rw [hrand, if_neg (by omega), if_neg (by omega)]
      cases hid : m.random[j]? with
      | none => rfl
      | some id =>
        simp only [Option.map_some]
        obtain ⟨x, hx, hxp⟩ := h.ring.bwd j id hid
        have hid1 : m1.random[j]? = some id := by rw [hrand, if_neg (by omega), if_neg (by omega), hid]
        obtain ⟨y, hy, hyp⟩ := hr1.bwd j id hid1
        obtain ⟨z, hz, hzs⟩ := hsame.some hy
        rw [hx] at hz; cases hz
        rw [hx, hy]
        congr 1
        simp only [Option.getD_some]
        obtain ⟨a1, a2, a3, a4, a5⟩ := strip_addr hzs
        cases x; cases y; simp_all
    simp only [fetchLoop]
    rw [hsw]
    dsimp only
    have hi1 : i < m1.random.length := by omega
    have hri := List.getElem?_eq_getElem hi1
    generalize hid : m1.random[i] = id at hri
    rw [hri]
    dsimp only
    obtain ⟨x, hx, hxp⟩ := hr1.bwd i id hri
    rw [hx]
    dsimp only
    have hent : m1.entries[i]? = some x := by
      simp [Manager.entries, List.getElem?_map, hri, hx]
    have hdrop : ∀ m' : Manager, m'.entries[i]? = some x → m'.entries.drop i = x :: m'.entries.drop (i + 1) := by
      intro m' hm'
      have hl : i < m'.entries.length := by
        rcases Nat.lt_or_ge i m'.entries.length with hh | hh
        · exact hh
        · rw [List.getElem?_eq_none hh] at hm'; cases hm'
      rw [List.drop_eq_getElem_cons hl]
      congr 1
      rw [List.getElem?_eq_getElem hl] at hm'
      exact Option.some.inj hm'
    cases hs : x.addr.sock with
    | none =>
      dsimp only
      obtain ⟨m', h1, h2, h3, h4, h5, h6, h7⟩ := ih (i + 1) m1 seen acc hinv1 (by omega)
      refine ⟨m', ?_, h2, by omega, by rw [h4, hA], by rw [h5, hP], hsame.trans h6, ?_⟩
      · rw [h1, hdrop m' (by rw [h7 i (by omega), hent])]
        simp [pick, hs]
      · intro j hji; rw [h7 j (by omega), hpre j hji]
    | some s =>
      dsimp only
      by_cases hc : (if ((test s.ip || !decide (s.ip ∈ seen)) && x.connectable now && flt x) = true
          then acc ++ [x] else acc).length = count
      · rw [if_pos hc]
        refine ⟨m1, ?_, hinv1, hlen1, hA, hP, hsame, hpre⟩
        rw [hdrop m1 hent]
        simp only [pick, hs]
        rw [if_pos hc]
      · rw [if_neg hc]
        obtain ⟨m', h1, h2, h3, h4, h5, h6, h7⟩ := ih (i + 1) m1 (s.ip :: seen) _ hinv1 (by omega)
        refine ⟨m', ?_, h2, by omega, by rw [h4, hA], by rw [h5, hP], hsame.trans h6, ?_⟩
        · rw [h1, hdrop m' (by rw [h7 i (by omega), hent])]
          simp only [pick, hs]
          rw [if_neg hc]
        · intro j hji; rw [h7 j (by omega), hpre j hji]

theorem book_of_same {m m' : Manager} (h : SameInfos m m') (hA : m'.byAddr = m.byAddr) : m'.book = m.book := by
  funext s
  unfold Manager.book
  rw [hA]
  cases Assoc.get m.byAddr s with
  | none => rfl
  | some id => exact h id

theorem fetchRandom_spec {m : Manager} (h : Inv m) (test : Ip → Bool) (now : Nat) (flt : Info → Bool)
    (count : Nat) (ch : Nat → Nat) :
    ∃ m', m.fetchRandom test now flt count ch = .ok (m', pick test now flt count [] [] m'.entries) ∧
      Inv m' ∧ m'.book = m.book ∧ m'.byPeer = m.byPeer ∧ SameInfos m m' ∧ m'.byAddr = m.byAddr := by
  obtain ⟨m', h1, h2, h3, h4, h5, h6, h7⟩ :=
    fetchLoop_spec test now flt count ch m.random.length 0 m [] [] h (by omega)
  exact ⟨m', by rw [Manager.fetchRandom, h1]; simp, h2, book_of_same h6 h4, h5, h6, h4⟩

/-- The entries of the random list are the content of the book. -/
theorem mem_entries {m : Manager} (h : Inv m) {x : Info} :
    x ∈ m.entries ↔ ∃ id, Assoc.get m.infos id = some x := by
  unfold Manager.entries
  simp only [List.mem_map]
  constructor
  · rintro ⟨id, hid, rfl⟩
    obtain ⟨i, hi, hii⟩ := List.getElem_of_mem hid
    obtain ⟨y, hy, _⟩ := h.ring.bwd i id (by rw [List.getElem?_eq_getElem hi, hii])
    exact ⟨id, by rw [hy]; rfl⟩
  · rintro ⟨id, hid⟩
    exact ⟨id, List.mem_of_getElem? (h.ring.fwd id x hid), by rw [hid]; rfl⟩

theorem entries_sock {m : Manager} (h : Inv m) : m.entries.Pairwise (fun x y => x.addr.sock ≠ y.addr.sock) := by
  rw [List.pairwise_iff_getElem]
  intro i j hi hj hij heq
  rw [length_entries] at hi hj
  obtain ⟨x, hx, hxp⟩ := h.ring.bwd i _ (List.getElem?_eq_getElem hi)
  obtain ⟨y, hy, hyp⟩ := h.ring.bwd j _ (List.getElem?_eq_getElem hj)
  simp only [Manager.entries, List.getElem_map, hx, hy, Option.getD_some] at heq
  obtain ⟨s, h1, h2⟩ := h.back _ x hx
  obtain ⟨s', h1', h2'⟩ := h.back _ y hy
  rw [h1, h1'] at heq; cases heq
  rw [h2] at h2'
  have heq2 := Option.some.inj h2'
  rw [heq2, hy] at hx; cases hx
  omega

end Axon.Peers
