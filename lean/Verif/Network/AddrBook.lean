import Verif.Network.AddrManager

/-!
# Operations on the address book

`Manager.add` over the whole book, the selection of `fetch_random`, the sets of the peer index, and
sequences of operations.
-/

namespace Axon.Peers

open Axon.Assoc

/-- Whether a new entry may take the place of the present one. -/
def later (info : Info) : Option Info → Bool
  | none => true
  | some old => decide (old.lastConn < info.lastConn)

theorem later_strip (info : Info) (o : Option Info) : later info (o.map Info.strip) = later info o := by
  cases o <;> rfl

theorem add_spec {m : Manager} (h : Inv m) (info : Info) :
    ∃ m', m.add info = .ok m' ∧ Inv m' ∧
      (∀ s, m'.book s = if info.addr.sock = some s ∧ later info (m.book s) = true then
        (if info.addr.peer.isSome then some info.strip else none) else m.book s) := by
  unfold Manager.add
  cases hs : info.addr.sock with
  | none => exact ⟨m, rfl, h, by simp⟩
  | some key =>
    dsimp only
    have hg := get_eq_book (m := m) info.addr
    rw [hs] at hg
    simp only [Option.bind_some] at hg
    cases hget : m.get info.addr with
    | none =>
      rw [hget] at hg
      have hnone : m.book key = none := by simpa using hg.symm
      obtain ⟨h1, h2⟩ := insert_spec h hs (byAddr_none_of_book h hnone)
      refine ⟨_, rfl, h1, ?_⟩
      intro s
      rw [h2]
      by_cases hk : s = key
      · subst hk
        rw [hnone]
        simp [later]
      · rw [if_neg (by simp [hk]), if_neg (fun hh => hk (Option.some.inj hh.1).symm)]
    | some old =>
      rw [hget] at hg
      simp only [Option.map_some] at hg
      dsimp only
      have hlat : later info (m.book key) = decide (old.lastConn < info.lastConn) := by
        rw [← hg]; rfl
      by_cases hl : info.lastConn > old.lastConn
      · rw [if_pos hl]
        obtain ⟨m1, r, hr, hinv, hbook, _⟩ := remove_spec h info.addr
        rw [hr]
        dsimp only
        have hn : m1.book key = none := by rw [hbook, if_pos hs]
        obtain ⟨h1, h2⟩ := insert_spec hinv hs (byAddr_none_of_book hinv hn)
        refine ⟨_, rfl, h1, ?_⟩
        intro s
        rw [h2]
        by_cases hk : s = key
        · subst hk
          rw [hlat, hn]
          simp [hl]
        · rw [if_neg (by simp [hk]), if_neg (fun hh => hk (Option.some.inj hh.1).symm), hbook,
            if_neg (by rw [hs]; exact fun hh => hk (Option.some.inj hh).symm)]
      · rw [if_neg hl]
        refine ⟨m, rfl, h, ?_⟩
        intro s
        rw [if_neg]
        rintro ⟨h1, h2⟩
        cases h1
        rw [hlat] at h2
        simp at h2
        omega

/-! ## The selection -/

theorem pick_append (test : Ip → Bool) (now : Nat) (flt : Info → Bool) (count : Nat) (seen : List Ip)
    (acc xs : List Info) :
    ∃ l, pick test now flt count seen acc xs = acc ++ l ∧ l.Sublist xs ∧
      (∀ x ∈ l, x.connectable now = true ∧ flt x = true ∧
        ∃ s, x.addr.sock = some s ∧ (test s.ip = true ∨ s.ip ∉ seen)) ∧
      l.Pairwise (fun x y => ∀ s t, x.addr.sock = some s → y.addr.sock = some t → test s.ip = false →
        s.ip ≠ t.ip) := by
  induction xs generalizing seen acc with
  | nil => exact ⟨[], by simp [pick], List.Sublist.refl _, by simp, List.Pairwise.nil⟩
  | cons x xs ih =>
    cases hs : x.addr.sock with
    | none =>
      obtain ⟨l, h1, h2, h3, h4⟩ := ih seen acc
      exact ⟨l, by simp [pick, hs, h1], h2.cons x, h3, h4⟩
    | some s =>
      simp only [pick, hs]
      by_cases hg : ((test s.ip || !decide (s.ip ∈ seen)) && x.connectable now && flt x) = true
      · simp only [if_pos hg]
        have hg' := hg
        simp only [Bool.and_eq_true, Bool.or_eq_true, Bool.not_eq_true', decide_eq_false_iff_not] at hg'
        obtain ⟨⟨g1, g2⟩, g3⟩ := hg'
        by_cases hc : (acc ++ [x]).length = count
        · rw [if_pos hc]
          refine ⟨[x], rfl, List.Sublist.cons_cons x (List.nil_sublist xs), ?_, by simp⟩
          intro y hy
          rw [List.mem_singleton.1 hy]
          exact ⟨g2, g3, s, hs, g1⟩
        · rw [if_neg hc]
          obtain ⟨l, h1, h2, h3, h4⟩ := ih (s.ip :: seen) (acc ++ [x])
          refine ⟨x :: l, by rw [h1]; simp, h2.cons_cons x, ?_, ?_⟩
          · intro y hy
            rcases List.mem_cons.1 hy with rfl | hy
            · exact ⟨g2, g3, s, hs, g1⟩
            · obtain ⟨a, b, t, c, d⟩ := h3 y hy
              refine ⟨a, b, t, c, d.imp_right fun hh hm => hh (List.mem_cons_of_mem _ hm)⟩
          · refine List.pairwise_cons.2 ⟨?_, h4⟩
            intro y hy s' t hs' ht hnt heq
            rw [hs] at hs'; cases hs'
            obtain ⟨_, _, t', c, d⟩ := h3 y hy
            rw [ht] at c; cases c
            rcases d with d | d
            · rw [← heq, hnt] at d; cases d
            · exact d (heq ▸ List.mem_cons_self)
      · simp only [if_neg hg]
        by_cases hc : acc.length = count
        · rw [if_pos hc]
          exact ⟨[], by simp, List.nil_sublist _, by simp, List.Pairwise.nil⟩
        · rw [if_neg hc]
          obtain ⟨l, h1, h2, h3, h4⟩ := ih (s.ip :: seen) acc
          refine ⟨l, h1, h2.cons x, ?_, h4⟩
          intro y hy
          obtain ⟨a, b, t, c, d⟩ := h3 y hy
          exact ⟨a, b, t, c, d.imp_right fun hh hm => hh (List.mem_cons_of_mem _ hm)⟩

theorem pick_le (test : Ip → Bool) (now : Nat) (flt : Info → Bool) (count : Nat) (seen : List Ip)
    (acc xs : List Info) (h : acc.length < count) :
    (pick test now flt count seen acc xs).length ≤ count := by
  induction xs generalizing seen acc with
  | nil => simp [pick]; omega
  | cons x xs ih =>
    cases hs : x.addr.sock with
    | none => simp only [pick, hs]; exact ih _ _ h
    | some s =>
      simp only [pick, hs]
      generalize hacc : (if ((test s.ip || !decide (s.ip ∈ seen)) && x.connectable now && flt x) = true
        then acc ++ [x] else acc) = acc'
      have hlen : acc'.length ≤ acc.length + 1 := by
        rw [← hacc]; split <;> simp
      by_cases hne : acc'.length = count
      · rw [if_pos hne]; omega
      · rw [if_neg hne]
        exact ih _ _ (by omega)

theorem pick_complete (test : Ip → Bool) (now : Nat) (flt : Info → Bool) (count : Nat) (seen : List Ip)
    (acc xs : List Info) (x : Info) (s : Sock) (hx : x ∈ xs) (hs : x.addr.sock = some s)
    (hc : x.connectable now = true) (hf : flt x = true)
    (hu : test s.ip = true ∨
      (s.ip ∉ seen ∧ ∀ y ∈ xs, ∀ t, y ≠ x → y.addr.sock = some t → t.ip ≠ s.ip))
    (hl : (pick test now flt count seen acc xs).length < count) :
    x ∈ pick test now flt count seen acc xs := by
  induction xs generalizing seen acc with
  | nil => cases hx
  | cons y ys ih =>
    by_cases hyx : y = x
    · subst hyx
      have hgood : ((test s.ip || !decide (s.ip ∈ seen)) && y.connectable now && flt y) = true := by
        rw [hc, hf]
        rcases hu with hu | ⟨hu, _⟩ <;> simp [hu]
      simp only [pick, hs, hgood, if_true] at hl ⊢
      split
      · exact List.mem_append_right _ (List.mem_singleton.2 rfl)
      · obtain ⟨l, h1, _⟩ := pick_append test now flt count (s.ip :: seen) (acc ++ [y]) ys
        rw [h1]
        exact List.mem_append_left _ (List.mem_append_right _ (List.mem_singleton.2 rfl))
    · have hx' : x ∈ ys := by
        rcases List.mem_cons.1 hx with hh | hh
        · exact absurd hh.symm hyx
        · exact hh
      cases hys : y.addr.sock with
      | none =>
        simp only [pick, hys] at hl ⊢
        exact ih seen acc hx' (hu.imp_right fun hh => ⟨hh.1, fun z hz => hh.2 z (List.mem_cons_of_mem _ hz)⟩) hl
      | some t =>
        simp only [pick, hys] at hl ⊢
        generalize (if ((test t.ip || !decide (t.ip ∈ seen)) && y.connectable now && flt y) = true
          then acc ++ [y] else acc) = acc' at hl ⊢
        by_cases hne : acc'.length = count
        · rw [if_pos hne] at hl; omega
        · rw [if_neg hne] at hl ⊢
          refine ih _ _ hx' (hu.imp_right fun hh => ⟨?_, fun z hz => hh.2 z (List.mem_cons_of_mem _ hz)⟩) hl
          intro hm
          rcases List.mem_cons.1 hm with hm | hm
          · exact hh.2 y List.mem_cons_self t hyx hys hm.symm
          · exact hh.1 hm

/-! ## The index by peer id -/

/-- Every socket address comes with the peer id `own` gives it. -/
def Own (own : Sock → Nat) (a : MAddr) : Prop := ∀ s, a.sock = some s → a.peer = some (own s)

/-- What holds of the peer index when all addresses agree with `own`. -/
structure PInv (own : Sock → Nat) (m : Manager) : Prop where
  pin : ∀ p set id, Assoc.get m.byPeer p = some set → id ∈ set →
    ∃ x, Assoc.get m.infos id = some x ∧ x.addr.peer = some p
  own : ∀ id x, Assoc.get m.infos id = some x → Own own x.addr

theorem pinv_empty (own : Sock → Nat) : PInv own Manager.empty := by
  constructor <;> simp [Manager.empty, get_nil]

theorem remove_pinv {own : Sock → Nat} {m m' : Manager} {a : MAddr} {r : Option Info} (h : Inv m)
    (hp : PInv own m) (ha : Own own a) (hr : m.remove a = .ok (m', r)) : PInv own m' := by
  obtain ⟨m1, r1, h1, hinv, hbook, _, _, hsub, hl, hl', hsup⟩ := remove_spec h a
  rw [hr] at h1
  cases h1
  constructor
  · intro p set id hg hm
    cases hs : a.sock.bind (Assoc.get m.byAddr) with
    | none =>
      rw [hl' hs] at hg
      obtain ⟨x, hx, hxp⟩ := hp.pin p set id hg hm
      obtain ⟨y, hy, hys⟩ := hsup id x hx (by
        intro s hsa hxs
        obtain ⟨s', e1, e2⟩ := h.back id x hx
        rw [hxs] at e1; cases e1
        rw [hsa] at hs
        simp only [Option.bind_some] at hs
        rw [hs] at e2; cases e2)
      exact ⟨y, hy, by rw [(strip_addr hys).1]; exact hxp⟩
    | some id0 =>
      rw [hl id0 hs] at hg
      obtain ⟨set0, hg0, hm0, hne⟩ := unlink_sub hg hm
      obtain ⟨x, hx, hxp⟩ := hp.pin p set0 id hg0 hm0
      obtain ⟨y, hy, hys⟩ := hsup id x hx (by
        intro s hsa hxs
        rw [hsa] at hs
        simp only [Option.bind_some] at hs
        obtain ⟨s', e1, e2⟩ := h.back id x hx
        rw [hxs] at e1; cases e1
        rw [hs] at e2; cases e2
        have e3 := hp.own _ x hx s hxs
        have e4 := ha s hsa
        rw [hxp] at e3
        rw [← e3] at e4
        exact hne e4 rfl)
      exact ⟨y, hy, by rw [(strip_addr hys).1]; exact hxp⟩
  · intro id x hx
    obtain ⟨y, hy, hys, _⟩ := hsub id x hx
    rw [← (strip_addr hys).1]
    exact hp.own id y hy

theorem insert_pinv {own : Sock → Nat} {m : Manager} {key : Sock} {info : Info} (h : Inv m) (hp : PInv own m)
    (ha : Own own info.addr) : PInv own (m.insert key info) := by
  unfold Manager.insert
  cases hpe : info.addr.peer with
  | none => exact hp
  | some p =>
    dsimp only
    constructor
    · intro q set id hg hm
      dsimp only at hg ⊢
      rw [get_put] at hg ⊢
      by_cases hid : id = m.next
      · rw [if_pos hid]
        refine ⟨_, rfl, ?_⟩
        by_cases hq : q = p
        · rw [hq]; exact hpe
        · rw [if_neg hq] at hg
          have := h.ltP q set id hg hm
          omega
      · rw [if_neg hid]
        by_cases hq : q = p
        · rw [if_pos hq] at hg; cases hg
          rcases List.mem_cons.1 hm with hh | hh
          · exact absurd hh hid
          · have h1 := (List.mem_filter.1 hh).1
            cases hset : Assoc.get m.byPeer p with
            | none => rw [hset] at h1; simp at h1
            | some set => rw [hset] at h1; rw [hq]; exact hp.pin p set id hset h1
        · rw [if_neg hq] at hg
          exact hp.pin q set id hg hm
    · intro id x hx
      dsimp only at hx
      rw [get_put] at hx
      by_cases hid : id = m.next
      · rw [if_pos hid] at hx; cases hx; exact ha
      · rw [if_neg hid] at hx; exact hp.own id x hx

theorem add_pinv {own : Sock → Nat} {m m' : Manager} {info : Info} (h : Inv m) (hp : PInv own m)
    (ha : Own own info.addr) (hr : m.add info = .ok m') : PInv own m' := by
  unfold Manager.add at hr
  cases hs : info.addr.sock with
  | none => rw [hs] at hr; cases hr; exact hp
  | some key =>
    rw [hs] at hr
    dsimp only at hr
    cases hget : m.get info.addr with
    | none => rw [hget] at hr; cases hr; exact insert_pinv h hp ha
    | some old =>
      rw [hget] at hr
      dsimp only at hr
      by_cases hl : info.lastConn > old.lastConn
      · rw [if_pos hl] at hr
        obtain ⟨m1, r, h1, hinv, _⟩ := remove_spec h info.addr
        rw [h1] at hr
        cases hr
        exact insert_pinv hinv (remove_pinv h hp ha h1) ha
      · rw [if_neg hl] at hr; cases hr; exact hp

theorem same_pinv {own : Sock → Nat} {m m' : Manager} (hp : PInv own m) (hP : m'.byPeer = m.byPeer)
    (hI : ∀ id, (Assoc.get m'.infos id).map (·.addr) = (Assoc.get m.infos id).map (·.addr)) : PInv own m' := by
  constructor
  · intro p set id hg hm
    rw [hP] at hg
    obtain ⟨x, hx, hxp⟩ := hp.pin p set id hg hm
    have := hI id
    rw [hx] at this
    cases hy : Assoc.get m'.infos id with
    | none => rw [hy] at this; cases this
    | some y =>
      rw [hy] at this
      simp only [Option.map_some, Option.some.injEq] at this
      exact ⟨y, rfl, by rw [this, hxp]⟩
  · intro id y hy
    have := hI id
    rw [hy] at this
    cases hx : Assoc.get m.infos id with
    | none => rw [hx] at this; cases this
    | some x =>
      rw [hx] at this
      simp only [Option.map_some, Option.some.injEq] at this
      rw [this]
      exact hp.own id x hx

theorem sameInfos_addr {m m' : Manager} (h : SameInfos m m') (id : Nat) :
    (Assoc.get m'.infos id).map (·.addr) = (Assoc.get m.infos id).map (·.addr) := by
  have := congrArg (Option.map (·.addr)) (h id)
  simp only [Option.map_map] at this
  exact this

theorem peerLoop_spec {m : Manager} (now : Nat) (flt : Info → Bool) (ids : List Nat)
    (h : ∀ id ∈ ids, ∃ x, Assoc.get m.infos id = some x) :
    ∃ l, peerLoop m now flt ids = .ok l ∧
      ∀ a, a ∈ l ↔ ∃ id ∈ ids, ∃ x, Assoc.get m.infos id = some x ∧ x.connectable now = true ∧
        flt x = true ∧ x.addr = a := by
  induction ids with
  | nil => exact ⟨[], rfl, by simp⟩
  | cons id ids ih =>
    obtain ⟨x, hx⟩ := h id List.mem_cons_self
    obtain ⟨l, h1, h2⟩ := ih (fun i hi => h i (List.mem_cons_of_mem _ hi))
    refine ⟨if x.connectable now && flt x then x.addr :: l else l, by simp only [peerLoop, hx, h1], ?_⟩
    intro a
    by_cases hg : (x.connectable now && flt x) = true
    · rw [if_pos hg]
      simp only [Bool.and_eq_true] at hg
      rw [List.mem_cons, h2]
      constructor
      · rintro (rfl | ⟨i, hi, hh⟩)
        · exact ⟨id, List.mem_cons_self, x, hx, hg.1, hg.2, rfl⟩
        · exact ⟨i, List.mem_cons_of_mem _ hi, hh⟩
      · rintro ⟨i, hi, y, hy, h3, h4, h5⟩
        rcases List.mem_cons.1 hi with rfl | hi
        · rw [hx] at hy; cases hy; exact .inl h5.symm
        · exact .inr ⟨i, hi, y, hy, h3, h4, h5⟩
    · rw [if_neg hg, h2]
      constructor
      · rintro ⟨i, hi, hh⟩; exact ⟨i, List.mem_cons_of_mem _ hi, hh⟩
      · rintro ⟨i, hi, y, hy, h3, h4, h5⟩
        rcases List.mem_cons.1 hi with rfl | hi
        · rw [hx] at hy; cases hy; simp [h3, h4] at hg
        · exact ⟨i, hi, y, hy, h3, h4, h5⟩

theorem getByPeer_spec {own : Sock → Nat} {m : Manager} (h : Inv m) (hp : PInv own m) (p now : Nat)
    (flt : Info → Bool) :
    ∃ l, m.getByPeer p now flt = .ok l ∧
      ∀ a, a ∈ l ↔ ∃ id x, Assoc.get m.infos id = some x ∧ x.addr.peer = some p ∧
        x.connectable now = true ∧ flt x = true ∧ x.addr = a := by
  unfold Manager.getByPeer
  have hall : ∀ id ∈ (Assoc.get m.byPeer p).getD [], ∃ x, Assoc.get m.infos id = some x ∧ x.addr.peer = some p := by
    intro id hid
    cases hset : Assoc.get m.byPeer p with
    | none => rw [hset] at hid; simp at hid
    | some set => rw [hset] at hid; exact hp.pin p set id hset hid
  obtain ⟨l, h1, h2⟩ := peerLoop_spec now flt _ (fun id hid => by obtain ⟨x, hx, _⟩ := hall id hid; exact ⟨x, hx⟩)
  refine ⟨l, h1, ?_⟩
  intro a
  rw [h2]
  constructor
  · rintro ⟨id, hid, x, hx, h3, h4, h5⟩
    obtain ⟨y, hy, hyp⟩ := hall id hid
    rw [hx] at hy; cases hy
    exact ⟨id, x, hx, hyp, h3, h4, h5⟩
  · rintro ⟨id, x, hx, hxp, h3, h4, h5⟩
    obtain ⟨q, set, e1, e2, e3⟩ := h.peer id x hx
    rw [hxp] at e1; cases e1
    exact ⟨id, by rw [e2]; exact e3, x, hx, h3, h4, h5⟩

/-! ## Sequences of operations -/

/-- The operations the node performs on its address book: `add`, `remove`, the `mark_tried` of every
`get_mut` (peer_manager/mod.rs:74-75, 98-99; service.rs:410-411, 444-445) and `fetch_random`. -/
inductive Op where
  | add (info : Info)
  | remove (a : MAddr)
  | tried (a : MAddr) (now : Nat)
  | fetch (test : Ip → Bool) (now : Nat) (flt : Info → Bool) (count : Nat) (ch : Nat → Nat)

/-- One operation. -/
def Manager.step (m : Manager) : Op → Outcome Manager
  | .add info => m.add info
  | .remove a =>
    match m.remove a with
    | .ok (m', _) => .ok m'
    | .err => .err
    | .panic => .panic
  | .tried a now => .ok (m.update a (·.markTried now))
  | .fetch test now flt count ch =>
    match m.fetchRandom test now flt count ch with
    | .ok (m', _) => .ok m'
    | .err => .err
    | .panic => .panic

/-- A sequence of operations. -/
def Manager.run (m : Manager) : List Op → Outcome Manager
  | [] => .ok m
  | op :: ops =>
    match m.step op with
    | .ok m' => m'.run ops
    | .err => .err
    | .panic => .panic

theorem markTried_ok (now : Nat) : ∀ x : Info, (x.markTried now).addr = x.addr ∧ (x.markTried now).pos = x.pos ∧
    (x.strip.markTried now).strip = (x.markTried now).strip := fun _ => ⟨rfl, rfl, rfl⟩

/-- addr_manager.rs via peer_store_db.rs:21-29: `Manager::load` of the parsed entries. -/
def Manager.load (l : List Info) : Outcome Manager := Manager.empty.run (l.map Op.add)

end Axon.Peers
