import Verif.Network.Discovery
import Verif.Network.PingHandlerProps
import Verif.Network.PeerStoreProps

/-!
# C96 — the discovery protocol: what is asked, answered, believed and passed on
-/

namespace Axon.Discovery

open Axon.Assoc Axon.Wire Axon.Peers

/-! ## Specification, on what happened and what was done -/

/-- A list of nodes within the limits of the protocol. -/
def Limits (n : Nodes) : Prop :=
  (n.announce = true → n.items.length ≤ 10) ∧ (n.announce = false → n.items.length ≤ 1000) ∧
    ∀ l ∈ n.items, l.length ≤ 3

instance (n : Nodes) : Decidable (Limits n) := by unfold Limits; infer_instance

/-- What a message changes: has the peer asked, has it told? -/
def mark (b : Bytes) (q : Bool × Bool) : Bool × Bool :=
  match decodeDisc b with
  | some (some (.getNodes _)) => (true, q.2)
  | some (some (.nodes n)) => (q.1, q.2 || (decide (Limits n) && !n.announce))
  | _ => q

/-- Whether session `s` is open; if so, has the peer asked for nodes since, and sent its first nodes? -/
def view (s : Nat) : History → Option (Bool × Bool)
  | [] => none
  | (.connected s' _ _ _, _) :: l => if s' = s then some (false, false) else view s l
  | (.disconnected s', _) :: l => if s' = s then none else view s l
  | (.received s' b _ _, _) :: l => if s' = s then (view s l).map (mark b) else view s l
  | (.timer _ _ _ _, _) :: l => view s l

/-- The address at the other end of session `s`, and whether the node opened the session. -/
def peerAddr (s : Nat) : History → Option (MAddr × Bool)
  | [] => none
  | (.connected s' a o _, _) :: l => if s' = s then some (a, o) else peerAddr s l
  | (.disconnected s', _) :: l => if s' = s then none else peerAddr s l
  | _ :: l => peerAddr s l

/-- The message that an effect sends to `s`. -/
def sentTo (s : Nat) : Eff → Option Payload
  | .send s' p => if s' = s then some p else none
  | _ => none

/-- The messages sent on `s` since it was opened, oldest first. -/
def sent (s : Nat) : History → List Payload
  | [] => []
  | (.connected s' _ _ _, fx) :: l => if s' = s then fx.filterMap (sentTo s) else sent s l ++ fx.filterMap (sentTo s)
  | (_, fx) :: l => sent s l ++ fx.filterMap (sentTo s)

/-- The bytes received on `s` since it was opened, oldest first. -/
def heard (s : Nat) : History → List Bytes
  | [] => []
  | (.connected s' _ _ _, _) :: l => if s' = s then [] else heard s l
  | (.received s' b _ _, _) :: l => if s' = s then heard s l ++ [b] else heard s l
  | _ :: l => heard s l

/-- `a` is `b`, perhaps on another port. -/
def SameHost (a b : MAddr) : Prop := a = b ∨ ∃ p, a = withPort b p

/-- Where an announced address may come from: it is the address of a connected validator at some timer, or the
reachable address of a session, perhaps on another port. -/
def Source (v : Env) (h : History) (a : MAddr) : Prop :=
  (∃ now cs o k fx, (Ev.timer now cs o k, fx) ∈ h ∧ a ∈ cs) ∨
    (v.valid a = true ∧ ∃ s b o ls fx, (Ev.connected s b o ls, fx) ∈ h ∧ SameHost a b)

def isFirst : Payload → Bool
  | .nodes n => !n.announce
  | .getNodes _ => false

def isGet : Payload → Bool
  | .getNodes _ => true
  | .nodes _ => false

/-! ## Lemmas -/

theorem gput (m : Disc) (k k' : Nat) (x : St) : get (put m k x) k' = if k = k' then some x else get m k' := by
  rw [get_put]
  by_cases h : k = k'
  · simp [h]
  · rw [if_neg h, if_neg fun e => h e.symm]

theorem gdel (m : Disc) (k k' : Nat) : get (del m k) k' = if k = k' then none else get m k' := by
  rw [get_del]
  by_cases h : k = k'
  · simp [h]
  · rw [if_neg h, if_neg fun e => h e.symm]

theorem verify_iff (n : Nodes) : verify n = true ↔ Limits n := by
  unfold verify Limits
  cases n.announce <;> simp

theorem get_offer (a : MAddr) (kn : Nat → Bool) (m : Disc) (k k' : Nat) :
    get (offer a kn m k) k' = if k = k' then (get m k).map (fun st =>
      if st.pending.length < 10 ∧ kn k = false then { st with pending := st.pending ++ [a] } else st) else get m k' := by
  unfold offer
  cases hg : get m k with
  | none =>
    by_cases hk : k = k'
    · subst hk; simp [hg]
    · simp [hk]
  | some st =>
    simp only
    by_cases hc : st.pending.length < 10 ∧ kn k = false
    · rw [if_pos hc, gput]
      by_cases hk : k = k'
      · subst hk; simp [hc]
      · simp [hk]
    · rw [if_neg hc]
      by_cases hk : k = k'
      · subst hk; simp [hg, hc]
      · simp [hk]

theorem nodup_offer (a : MAddr) (kn : Nat → Bool) (m : Disc) (k : Nat) (h : NodupKeys m) :
    NodupKeys (offer a kn m k) := by
  unfold offer
  split
  · exact h
  · split
    · exact nodupKeys_put h _ _
    · exact h

theorem nodup_offers (a : MAddr) (kn : Nat → Bool) (ks : List Nat) : ∀ (m : Disc), NodupKeys m →
    NodupKeys (ks.foldl (offer a kn) m) := by
  induction ks with
  | nil => intro m h; exact h
  | cons k ks ih => intro m h; exact ih _ (nodup_offer a kn m k h)

theorem nodup_announce (order : Nat → List Nat → List Nat) (knows : Nat → Nat → Bool) (keys : List Nat)
    (l : List MAddr) : ∀ (i : Nat) (m : Disc), NodupKeys m → NodupKeys (announce order knows keys i l m) := by
  induction l with
  | nil => intro i m h; exact h
  | cons a l ih => intro i m h; exact ih _ _ (nodup_offers _ _ _ _ h)

theorem get_offers (a : MAddr) (kn : Nat → Bool) (ks : List Nat) (hn : ks.Nodup) : ∀ (m : Disc) (k : Nat),
    get (ks.foldl (offer a kn) m) k = (get m k).map fun st =>
      if k ∈ ks ∧ st.pending.length < 10 ∧ kn k = false then { st with pending := st.pending ++ [a] } else st := by
  induction ks with
  | nil => intro m k; simp
  | cons k0 ks ih =>
    intro m k
    obtain ⟨h0, hn'⟩ := List.nodup_cons.1 hn
    rw [List.foldl_cons, ih hn', get_offer]
    by_cases hk : k0 = k
    · subst hk
      cases get m k0 with
      | none => simp
      | some st => simp [h0]
    · have hk' : ¬ k = k0 := fun h => hk h.symm
      rw [if_neg hk]
      simp [hk']

/-- The announcements meant for session `k`, from number `i` on. -/
def chosen (order : Nat → List Nat → List Nat) (knows : Nat → Nat → Bool) (keys : List Nat) (k : Nat) :
    Nat → List MAddr → List MAddr
  | _, [] => []
  | i, a :: l =>
    if k ∈ (order i keys).take 3 ∧ knows i k = false then a :: chosen order knows keys k (i + 1) l
    else chosen order knows keys k (i + 1) l

theorem get_announce (order : Nat → List Nat → List Nat) (knows : Nat → Nat → Bool) (keys : List Nat)
    (ho : ∀ i l, (order i l).Perm l) (hk : keys.Nodup) (l : List MAddr) (k : Nat) : ∀ (i : Nat) (m : Disc) (st : St),
    get m k = some st → st.pending.length ≤ 10 →
    get (announce order knows keys i l m) k =
      some { st with pending := (st.pending ++ chosen order knows keys k i l).take 10 } := by
  induction l with
  | nil =>
    intro i m st hg hp
    rw [announce, hg, chosen, List.append_nil, List.take_of_length_le hp]
  | cons a l ih =>
    intro i m st hg hp
    have hn : ((order i keys).take 3).Nodup :=
      ((ho i keys).nodup_iff.2 hk).sublist (List.take_sublist _ _)
    rw [announce, chosen]
    have hg' := get_offers a (knows i) _ hn m k
    rw [hg, Option.map_some] at hg'
    by_cases hc : k ∈ (order i keys).take 3 ∧ knows i k = false
    · rw [if_pos hc]
      by_cases hl : st.pending.length < 10
      · rw [if_pos ⟨hc.1, hl, hc.2⟩] at hg'
        rw [ih (i + 1) _ _ hg' (by simp; omega)]
        simp
      · rw [if_neg (fun h => hl h.2.1)] at hg'
        rw [ih (i + 1) _ _ hg' hp]
        have : st.pending.length = 10 := by omega
        simp only [List.take_append, this]
        simp
    · rw [if_neg hc]
      rw [if_neg (fun h => hc ⟨h.1, h.2.2⟩)] at hg'
      exact ih (i + 1) _ _ hg' hp

theorem get_announce_none (order : Nat → List Nat → List Nat) (knows : Nat → Nat → Bool) (keys : List Nat)
    (l : List MAddr) (k : Nat) (ho : ∀ i l, (order i l).Perm l) (hk : keys.Nodup) : ∀ (i : Nat) (m : Disc),
    get m k = none → get (announce order knows keys i l m) k = none := by
  induction l with
  | nil => intro i m h; exact h
  | cons a l ih =>
    intro i m h
    refine ih _ _ ?_
    rw [get_offers _ _ _ (((ho i keys).nodup_iff.2 hk).sublist (List.take_sublist _ _)), h]
    rfl

theorem mem_chosen (order : Nat → List Nat → List Nat) (knows : Nat → Nat → Bool) (keys : List Nat) (k : Nat)
    (l : List MAddr) : ∀ (i : Nat) (a : MAddr), a ∈ chosen order knows keys k i l → a ∈ l := by
  induction l with
  | nil => intro i a h; cases h
  | cons b l ih =>
    intro i a h
    rw [chosen] at h
    split at h
    · rcases List.mem_cons.1 h with h | h
      · exact h ▸ List.mem_cons_self
      · exact List.mem_cons_of_mem _ (ih _ _ h)
    · exact List.mem_cons_of_mem _ (ih _ _ h)

theorem keys_nodup {m : Disc} (h : NodupKeys m) : (m.map (·.1)).Nodup := by
  unfold NodupKeys at h
  rw [List.Nodup, List.pairwise_map]
  exact h

theorem get_timer (v : Env) (m : Disc) (now : Nat) (cs : List MAddr) (order : Nat → List Nat → List Nat)
    (knows : Nat → Nat → Bool) (hn : NodupKeys m) (ho : ∀ i l, (order i l).Perm l) (k : Nat) :
    get (timer v m now cs order knows).1 k = (get m k).map fun st =>
      { st.tick now with pending := (chosen order knows (m.map (·.1)) k 0 (cs ++ m.flatMap fun e => v.announced e.2 now)).take 10 } := by
  unfold timer
  simp only
  have hg := PingProto.get_mapVal m (fun st => st.tick now) k
  cases h : get m k with
  | none =>
    rw [h] at hg
    rw [get_announce_none _ _ _ _ _ ho (keys_nodup hn) _ _ hg]
    rfl
  | some st =>
    rw [h] at hg
    rw [get_announce _ _ _ ho (keys_nodup hn) _ _ _ _ _ hg (by simp [St.tick])]
    simp [St.tick]

/-- A session as the history tells. -/
structure Fits (v : Env) (h : History) (s : Nat) (st : St) : Prop where
  view : view s h = some (st.gotGet, st.gotNodes)
  addr : ∃ a o, peerAddr s h = some (a, o) ∧ SameHost st.remote.addr a ∧
    (st.gotGet = false → st.remote = if o then .listen a else .init a)
  peer : st.remote.addr.peer ≠ none
  room : st.pending.length ≤ 10
  source : ∀ a ∈ st.pending, Source v h a
  first : ((sent s h).filter isFirst).length = if st.gotGet then 1 else 0
  asked : ((sent s h).filter isGet).length ≤ 1

structure Inv (v : Env) (h : History) (m : Disc) : Prop where
  keys : NodupKeys m
  closed : ∀ s, get m s = none → view s h = none ∧ peerAddr s h = none
  sess : ∀ s st, get m s = some st → Fits v h s st

theorem sameHost_peer {a b : MAddr} (h : SameHost a b) : a.peer = b.peer := by
  rcases h with rfl | ⟨p, rfl⟩ <;> rfl

theorem sameHost_withPort {a b : MAddr} (h : SameHost a b) (p : Nat) : SameHost (withPort a p) b := by
  rcases h with rfl | ⟨q, rfl⟩
  · exact .inr ⟨p, rfl⟩
  · refine .inr ⟨p, ?_⟩
    unfold withPort
    cases b.sock <;> rfl

theorem sameHost_remotePort {r : Remote} {g : GetNodes} {b : MAddr} (h : SameHost r.addr b) :
    SameHost (remotePort r g).addr b := by
  unfold remotePort
  split
  · exact h
  · cases r with
    | init a => exact sameHost_withPort h _
    | listen a => exact h

theorem addr_remoteReuse (r : Remote) (g : GetNodes) : (remoteReuse r g).addr = r.addr := by
  unfold remoteReuse
  split
  · rfl
  · rfl

theorem Source.mono {v : Env} {h : History} {a : MAddr} (x : Source v h a) (e : Ev × List Eff) : Source v (e :: h) a := by
  rcases x with ⟨now, cs, o, k, fx, hm, ha⟩ | ⟨hv, s, b, o, ls, fx, hm, ha⟩
  · exact .inl ⟨now, cs, o, k, fx, List.mem_cons_of_mem _ hm, ha⟩
  · exact .inr ⟨hv, s, b, o, ls, fx, List.mem_cons_of_mem _ hm, ha⟩

theorem peerAddr_mem {s : Nat} {h : History} {a : MAddr} {o : Bool} (hp : peerAddr s h = some (a, o)) :
    ∃ ls fx, (Ev.connected s a o ls, fx) ∈ h := by
  induction h with
  | nil => cases hp
  | cons x h ih =>
    have up : peerAddr s h = some (a, o) → ∃ ls fx, (Ev.connected s a o ls, fx) ∈ x :: h := fun hp => by
      obtain ⟨ls, fx, hm⟩ := ih hp
      exact ⟨ls, fx, List.mem_cons_of_mem _ hm⟩
    obtain ⟨e, fx⟩ := x
    cases e with
    | connected s' b o' ls =>
      simp only [peerAddr] at hp
      split at hp
      · rename_i hs; cases hp; subst hs; exact ⟨ls, fx, List.mem_cons_self⟩
      · exact up hp
    | disconnected s' =>
      simp only [peerAddr] at hp
      split at hp
      · cases hp
      · exact up hp
    | received s' b o c => exact up hp
    | timer n c o k => exact up hp

/-- What the handler answers to one message, by cases. -/
theorem received_cases {v : Env} {m m' : Disc} {s : Nat} {b : Bytes} {off : List MAddr}
    {ch : List MAddr → Nat → List MAddr} {fx : List Eff} (h : received v m s b off ch = .ok (m', fx)) :
    (m' = m ∧ fx = [.disconnect s] ∧ (decodeDisc b = none ∨ (∃ n, decodeDisc b = some (some (.nodes n)) ∧ ¬ Limits n) ∨
        (∃ g st, decodeDisc b = some (some (.getNodes g)) ∧ get m s = some st ∧ st.gotGet = true) ∨
        (∃ n st, decodeDisc b = some (some (.nodes n)) ∧ Limits n ∧ n.announce = false ∧ get m s = some st ∧
          st.gotNodes = true))) ∨
    (m' = m ∧ fx = [] ∧ (decodeDisc b = some none ∨ (∃ g, decodeDisc b = some (some (.getNodes g)) ∧ get m s = none) ∨
        (∃ n, decodeDisc b = some (some (.nodes n)) ∧ Limits n ∧ get m s = none))) ∨
    (∃ g st reuse, decodeDisc b = some (some (.getNodes g)) ∧ get m s = some st ∧ st.gotGet = false ∧
      learnReuse (remotePort st.remote g) g = .ok reuse ∧
      m' = put m s { st with gotGet := true, remote := remoteReuse (remotePort st.remote g) g } ∧
      fx = v.learnPort st.remote g ++ reuse ++
            [.send s (.nodes ⟨false, (replyItems (off.filter v.valid) g.count ch).map fun a => [v.print a]⟩)]) ∨
    (∃ n st, decodeDisc b = some (some (.nodes n)) ∧ Limits n ∧ get m s = some st ∧
      (n.announce = false → st.gotNodes = false) ∧
      m' = put m s { st with gotNodes := if n.announce then st.gotNodes else true } ∧
      fx = ((n.items.flatMap fun l => l.filterMap v.parse).filter v.valid).map .learn) := by
  unfold received at h
  cases hd : decodeDisc b with
  | none => rw [hd] at h; cases h; exact .inl ⟨rfl, rfl, .inl rfl⟩
  | some o =>
    rw [hd] at h
    cases o with
    | none => cases h; exact .inr (.inl ⟨rfl, rfl, .inl rfl⟩)
    | some p =>
      cases p with
      | getNodes g =>
        simp only [onGetNodes] at h
        cases hg : get m s with
        | none => rw [hg] at h; cases h; exact .inr (.inl ⟨rfl, rfl, .inr (.inl ⟨g, rfl, rfl⟩)⟩)
        | some st =>
          rw [hg] at h
          simp only at h
          cases hq : st.gotGet with
          | true =>
            rw [if_pos hq] at h; cases h
            exact .inl ⟨rfl, rfl, .inr (.inr (.inl ⟨g, st, rfl, rfl, hq⟩))⟩
          | false =>
            rw [if_neg (by simp [hq])] at h
            cases hr : learnReuse (remotePort st.remote g) g with
            | err => rw [hr] at h; cases h
            | panic => rw [hr] at h; cases h
            | ok reuse =>
              rw [hr] at h; cases h
              exact .inr (.inr (.inl ⟨g, st, reuse, rfl, rfl, hq, hr, rfl, rfl⟩))
      | nodes n =>
        simp only [onNodes] at h
        by_cases hv : Limits n
        · rw [if_neg (by simp [(verify_iff n).2 hv])] at h
          cases hg : get m s with
          | none => rw [hg] at h; cases h; exact .inr (.inl ⟨rfl, rfl, .inr (.inr ⟨n, rfl, hv, rfl⟩)⟩)
          | some st =>
            rw [hg] at h
            simp only at h
            by_cases hq : (!n.announce && st.gotNodes) = true
            · rw [if_pos hq] at h; cases h
              simp at hq
              exact .inl ⟨rfl, rfl, .inr (.inr (.inr ⟨n, st, rfl, hv, hq.1, rfl, hq.2⟩))⟩
            · rw [if_neg hq] at h; cases h
              refine .inr (.inr (.inr ⟨n, st, rfl, hv, rfl, fun ha => ?_, rfl, rfl⟩))
              simp [ha] at hq
              exact hq
        · rw [if_pos (by simp [← Bool.not_eq_true, verify_iff, hv])] at h; cases h
          exact .inl ⟨rfl, rfl, .inr (.inl ⟨n, rfl, hv⟩)⟩

/-- What a session needs of the past is kept when nothing is sent to it. -/
theorem sent_received (s s' : Nat) (b : Bytes) (o : List MAddr) (c : List MAddr → Nat → List MAddr) (fx : List Eff)
    (h : History) : sent s ((Ev.received s' b o c, fx) :: h) = sent s h ++ fx.filterMap (sentTo s) := rfl

theorem sent_none {s : Nat} {fx : List Eff} (h : ∀ f ∈ fx, sentTo s f = none) : fx.filterMap (sentTo s) = [] := by
  rw [List.filterMap_eq_nil_iff]; exact h

theorem learnPort_cases {v : Env} {r : Remote} {g : GetNodes} {f : Eff} (h : f ∈ v.learnPort r g) :
    f = .learn (remotePort r g).addr ∧ v.valid (remotePort r g).addr = true ∧ ∃ p, portOf g = some p := by
  unfold Env.learnPort at h
  split at h
  · rename_i p a hp hr
    split at h
    · rename_i hv
      rw [hr]
      exact ⟨List.mem_singleton.1 h, hv, p, hp⟩
    · cases h
  · cases h

theorem learnReuse_cases {r : Remote} {g : GetNodes} {l : List Eff} (h : learnReuse r g = .ok l) {f : Eff} (hf : f ∈ l) :
    f = .learnOutbound r.addr ∧ g.version ≥ 1 := by
  unfold learnReuse at h
  split at h
  · rename_i hv
    split at h
    · cases h
    · cases h; exact ⟨List.mem_singleton.1 hf, hv⟩
  · cases h; cases hf

theorem filterMap_flush {v : Env} {m : Disc} (hn : NodupKeys m) (s : Nat) :
    (m.flatMap fun e => e.2.flush v e.1).filterMap (sentTo s) =
      match get m s with
      | none => []
      | some st => if st.pending.isEmpty then [] else [.nodes ⟨true, st.pending.map fun a => [v.print a]⟩] := by
  induction m with
  | nil => rfl
  | cons e m ih =>
    obtain ⟨k, st⟩ := e
    have hn' := List.pairwise_cons.1 hn
    rw [List.flatMap_cons, List.filterMap_append, ih hn'.2, get_cons]
    simp only [St.flush]
    by_cases hk : k = s
    · subst hk
      have hnone : get m k = none := by
        cases hg : get m k with
        | none => rfl
        | some y => exact absurd rfl (hn'.1 (k, y) (mem_of_get hg))
      rw [hnone]
      cases he : st.pending.isEmpty <;> simp [sentTo, he]
    · cases he : st.pending.isEmpty <;> simp [sentTo, hk]

/-- A session that this step does not touch. -/
theorem Fits.keep {v : Env} {h : History} {s : Nat} {st : St} (f : Fits v h s st) (e : Ev) (fx : List Eff)
    (hv : Discovery.view s ((e, fx) :: h) = Discovery.view s h) (hp : peerAddr s ((e, fx) :: h) = peerAddr s h)
    (hs : sent s ((e, fx) :: h) = sent s h) : Fits v ((e, fx) :: h) s st :=
  ⟨hv ▸ f.view, by rw [hp]; exact f.addr, f.peer, f.room, fun a ha => (f.source a ha).mono _, by rw [hs]; exact f.first,
    by rw [hs]; exact f.asked⟩

theorem inv_connected {v : Env} {h : History} {m m' : Disc} (i : Inv v h m) {s : Nat} {a : MAddr} {o : Bool}
    {ls : List MAddr} {fx : List Eff} (hs : connected v m s a o ls = .ok (m', fx)) :
    Inv v ((.connected s a o ls, fx) :: h) m' := by
  unfold connected at hs
  cases hp : a.peer with
  | none => rw [hp] at hs; cases hs
  | some p =>
    rw [hp] at hs
    simp only at hs
    have hm : ∃ r : Remote, (r.addr = a ∧ r = if o then .listen a else .init a) ∧ m' = put m s ⟨r, none, [], false, false⟩ ∧
        (fx = [] ∨ fx = [.send s (.getNodes ⟨1, 1000, v.ownPort ls⟩)]) := by
      cases o with
      | true => rw [if_pos rfl] at hs; cases hs; exact ⟨_, ⟨by rfl, rfl⟩, rfl, .inr rfl⟩
      | false => rw [if_neg (by simp)] at hs; cases hs; exact ⟨_, ⟨by rfl, rfl⟩, rfl, .inl rfl⟩
    obtain ⟨r, ⟨hr, hr'⟩, rfl, hfx⟩ := hm
    refine ⟨nodupKeys_put i.keys _ _, fun s' hg => ?_, fun s' st hg => ?_⟩
    · rw [gput] at hg
      split at hg
      · cases hg
      · rename_i hne
        simp only [view, peerAddr, if_neg hne]
        exact i.closed s' hg
    · rw [gput] at hg
      by_cases hne : s = s'
      · subst hne
        rw [if_pos rfl] at hg
        cases hg
        refine ⟨by simp [view], ⟨a, o, by simp [peerAddr], .inl hr, fun _ => hr'⟩, by simp [hr, hp], by simp, by simp, ?_, ?_⟩
        · rcases hfx with rfl | rfl <;> simp [sent, sentTo, isFirst]
        · rcases hfx with rfl | rfl <;> simp [sent, sentTo, isGet, List.filter_cons]
      · rw [if_neg hne] at hg
        refine (i.sess s' st hg).keep _ _ (by simp [view, hne]) (by simp [peerAddr, hne]) ?_
        rcases hfx with rfl | rfl <;> simp [sent, sentTo, hne]

theorem inv_disconnected {v : Env} {h : History} {m : Disc} (i : Inv v h m) (s : Nat) :
    Inv v ((.disconnected s, []) :: h) (del m s) := by
  refine ⟨nodupKeys_del i.keys _, fun s' hg => ?_, fun s' st hg => ?_⟩
  · rw [gdel] at hg
    simp only [view, peerAddr]
    by_cases hne : s = s'
    · simp [hne]
    · rw [if_neg hne] at hg
      rw [if_neg hne, if_neg hne]
      exact i.closed s' hg
  · rw [gdel] at hg
    by_cases hne : s = s'
    · simp [hne] at hg
    · rw [if_neg hne] at hg
      exact (i.sess s' st hg).keep _ _ (by simp [view, hne]) (by simp [peerAddr, hne]) (by simp [sent])

theorem mark_first {b : Bytes} {n : Nodes} (hd : decodeDisc b = some (some (.nodes n))) (hl : Limits n) (q : Bool × Bool) :
    mark b q = (q.1, if n.announce then q.2 else true) := by
  simp only [mark, hd]
  cases n.announce <;> simp [hl]

theorem inv_received {v : Env} {h : History} {m m' : Disc} (i : Inv v h m) {s : Nat} {b : Bytes} {off : List MAddr}
    {ch : List MAddr → Nat → List MAddr} {fx : List Eff} (hs : received v m s b off ch = .ok (m', fx)) :
    Inv v ((.received s b off ch, fx) :: h) m' := by
  rcases received_cases hs with ⟨rfl, rfl, hc⟩ | ⟨rfl, rfl, hc⟩ | ⟨g, st, reuse, hd, hg, hq, hr, rfl, rfl⟩ |
    ⟨n, st, hd, hl, hg, hq, rfl, rfl⟩
  · have hv : ∀ s' st, get m' s' = some st → (view s' ((Ev.received s b off ch, [Eff.disconnect s]) :: h)) = view s' h := by
      intro s' st hg
      simp only [view]
      by_cases hne : s = s'
      · subst hne
        rw [if_pos rfl, (i.sess s st hg).view]
        simp only [Option.map_some, mark]
        rcases hc with hd | ⟨n, hd, hl⟩ | ⟨g, st', hd, hg', hq⟩ | ⟨n, st', hd, hl, ha, hg', hq⟩
        · rw [hd]
        · rw [hd]; simp [hl]
        · rw [hg] at hg'; cases hg'; rw [hd]; simp [hq]
        · rw [hg] at hg'; cases hg'; rw [hd]; simp [hq]
      · rw [if_neg hne]
    refine ⟨i.keys, fun s' hg => ?_, fun s' st hg => ?_⟩
    · simp only [view, peerAddr]
      obtain ⟨h1, h2⟩ := i.closed s' hg
      rw [h1, h2]
      simp
    · exact (i.sess s' st hg).keep _ _ (hv s' st hg) rfl (by simp [sent, sentTo])
  · have hv : ∀ s' st, get m' s' = some st → (view s' ((Ev.received s b off ch, []) :: h)) = view s' h := by
      intro s' st hg
      simp only [view]
      by_cases hne : s = s'
      · subst hne
        rw [if_pos rfl, (i.sess s st hg).view]
        simp only [Option.map_some, mark]
        rcases hc with hd | ⟨g, hd, hg'⟩ | ⟨n, hd, hl, hg'⟩
        · rw [hd]
        · rw [hg] at hg'; cases hg'
        · rw [hg] at hg'; cases hg'
      · rw [if_neg hne]
    refine ⟨i.keys, fun s' hg => ?_, fun s' st hg => ?_⟩
    · simp only [view, peerAddr]
      obtain ⟨h1, h2⟩ := i.closed s' hg
      rw [h1, h2]
      simp
    · exact (i.sess s' st hg).keep _ _ (hv s' st hg) rfl (by simp [sent])
  · have hnone : ∀ s', ∀ f ∈ v.learnPort st.remote g ++ reuse, sentTo s' f = none := by
      intro s' f hf
      rcases List.mem_append.1 hf with hf | hf
      · rw [(learnPort_cases hf).1]; rfl
      · rw [(learnReuse_cases hr hf).1]; rfl
    refine ⟨nodupKeys_put i.keys _ _, fun s' hg' => ?_, fun s' st' hg' => ?_⟩
    · rw [gput] at hg'
      by_cases hne : s = s'
      · simp [hne] at hg'
      · rw [if_neg hne] at hg'
        simp only [view, peerAddr, if_neg hne]
        exact i.closed s' hg'
    · rw [gput] at hg'
      by_cases hne : s = s'
      · subst hne
        rw [if_pos rfl] at hg'
        cases hg'
        have f := i.sess s st hg
        obtain ⟨a, o, ha, hsame, _⟩ := f.addr
        refine ⟨?_, ⟨a, o, ha, ?_, fun hc => by cases hc⟩, ?_, f.room, fun a ha => (f.source a ha).mono _, ?_, ?_⟩
        · simp only [view, if_pos]
          rw [f.view]
          simp [mark, hd]
        · show SameHost (remoteReuse _ g).addr a
          rw [addr_remoteReuse]; exact sameHost_remotePort hsame
        · show (remoteReuse _ g).addr.peer ≠ none
          rw [addr_remoteReuse, sameHost_peer (sameHost_remotePort hsame), ← sameHost_peer hsame]; exact f.peer
        · rw [sent_received, List.filterMap_append, sent_none (hnone s)]
          have := f.first
          rw [hq] at this
          simp [sentTo, isFirst, List.filter_append] at this ⊢
          exact this
        · rw [sent_received, List.filterMap_append, sent_none (hnone s)]
          have := f.asked
          simp [sentTo, isGet, List.filter_append] at this ⊢
          exact this
      · rw [if_neg hne] at hg'
        refine (i.sess s' st' hg').keep _ _ (by simp [view, hne]) rfl ?_
        rw [sent_received, List.filterMap_append, sent_none (hnone s')]
        simp [sentTo, hne]
  · have hnone : ∀ s', ∀ f ∈ ((n.items.flatMap fun l => l.filterMap v.parse).filter v.valid).map Eff.learn,
        sentTo s' f = none := by
      intro s' f hf
      obtain ⟨a, _, rfl⟩ := List.mem_map.1 hf
      rfl
    refine ⟨nodupKeys_put i.keys _ _, fun s' hg' => ?_, fun s' st' hg' => ?_⟩
    · rw [gput] at hg'
      by_cases hne : s = s'
      · simp [hne] at hg'
      · rw [if_neg hne] at hg'
        simp only [view, peerAddr, if_neg hne]
        exact i.closed s' hg'
    · have hsent : sent s' ((Ev.received s b off ch,
          ((n.items.flatMap fun l => l.filterMap v.parse).filter v.valid).map Eff.learn) :: h) = sent s' h := by
        rw [sent_received, sent_none (hnone s')]; simp
      rw [gput] at hg'
      by_cases hne : s = s'
      · subst hne
        rw [if_pos rfl] at hg'
        cases hg'
        have f := i.sess s st hg
        refine ⟨?_, f.addr, f.peer, f.room, fun a ha => (f.source a ha).mono _, by rw [hsent]; exact f.first,
          by rw [hsent]; exact f.asked⟩
        simp only [view, if_pos]
        rw [f.view]
        simp [mark_first hd hl]
      · rw [if_neg hne] at hg'
        exact (i.sess s' st' hg').keep _ _ (by simp [view, hne]) rfl hsent

theorem announced_source {v : Env} {h : History} {m : Disc} (i : Inv v h m) {now : Nat} {a : MAddr}
    (ha : a ∈ m.flatMap fun e => v.announced e.2 now) : Source v h a := by
  obtain ⟨e, he, ha⟩ := List.mem_flatMap.1 ha
  obtain ⟨s, st⟩ := e
  have f := i.sess s st (get_of_mem i.keys he)
  unfold Env.announced at ha
  split at ha
  · cases hr : st.remote with
    | init b => simp only [hr] at ha; cases ha
    | listen b =>
      simp only [hr] at ha
      split at ha
      · rename_i hv
        cases List.mem_singleton.1 ha
        obtain ⟨c, o, hc, hsame, _⟩ := f.addr
        rw [hr] at hsame
        obtain ⟨ls, fx, hm⟩ := peerAddr_mem hc
        exact .inr ⟨hv, s, c, o, ls, fx, hm, hsame⟩
      · cases ha
  · cases ha

theorem inv_timer {v : Env} {h : History} {m : Disc} (i : Inv v h m) (now : Nat) (cs : List MAddr)
    (order : Nat → List Nat → List Nat) (knows : Nat → Nat → Bool) (ho : ∀ i l, (order i l).Perm l) :
    Inv v ((.timer now cs order knows, (timer v m now cs order knows).2) :: h) (timer v m now cs order knows).1 := by
  refine ⟨nodup_announce _ _ _ _ _ _ (PingProto.nodup_mapVal (fun st => St.tick st now) i.keys), fun s hg => ?_, fun s st hg => ?_⟩
  · rw [get_timer v m now cs order knows i.keys ho, Option.map_eq_none_iff] at hg
    exact i.closed s hg
  · rw [get_timer v m now cs order knows i.keys ho, Option.map_eq_some_iff] at hg
    obtain ⟨st0, hg, rfl⟩ := hg
    have f := i.sess s st0 hg
    have hfx : (timer v m now cs order knows).2 = m.flatMap fun e => e.2.flush v e.1 := rfl
    refine ⟨f.view, f.addr, f.peer, ?_, fun a ha => ?_, ?_, ?_⟩
    · simp only [List.length_take]; omega
    · have ha := mem_chosen _ _ _ _ _ _ _ (List.mem_of_mem_take ha)
      rcases List.mem_append.1 ha with ha | ha
      · exact .inl ⟨now, cs, order, knows, _, List.mem_cons_self, ha⟩
      · exact (announced_source i ha).mono _
    · rw [show sent s ((Ev.timer now cs order knows, (timer v m now cs order knows).2) :: h) =
        sent s h ++ (timer v m now cs order knows).2.filterMap (sentTo s) from rfl, hfx, filterMap_flush i.keys, hg]
      have := f.first
      simp only
      generalize st0.pending.isEmpty = q
      show _ = if st0.gotGet then 1 else 0
      rw [← this]
      cases q <;> simp [isFirst, List.filter_append]
    · rw [show sent s ((Ev.timer now cs order knows, (timer v m now cs order knows).2) :: h) =
        sent s h ++ (timer v m now cs order knows).2.filterMap (sentTo s) from rfl, hfx, filterMap_flush i.keys, hg]
      have := f.asked
      simp only
      generalize st0.pending.isEmpty = q
      cases q <;> simpa [isGet, List.filter_append, St.tick] using this

theorem Run.inv {v : Env} {h : History} {m : Disc} (r : Run v h m) : Inv v h m := by
  induction r with
  | new => exact ⟨.nil, fun s _ => ⟨rfl, rfl⟩, fun s st hg => by cases hg⟩
  | @step h m m' e fx r he hs ih =>
    cases e with
    | connected s a o ls => exact inv_connected ih hs
    | disconnected s => cases hs; exact inv_disconnected ih s
    | received s b o c => exact inv_received ih hs
    | timer now cs o k => cases hs; exact inv_timer ih now cs o k he

theorem step_timer_no_disconnect {v : Env} {m : Disc} {s : Nat} :
    Eff.disconnect s ∉ m.flatMap fun e => e.2.flush v e.1 := by
  intro h
  obtain ⟨e, _, h⟩ := List.mem_flatMap.1 h
  unfold St.flush at h
  split at h
  · cases h
  · cases List.mem_singleton.1 h

theorem connected_fx {v : Env} {m m' : Disc} {s : Nat} {a : MAddr} {o : Bool} {ls : List MAddr} {fx : List Eff}
    (h : connected v m s a o ls = .ok (m', fx)) : fx = if o then [.send s (.getNodes ⟨1, 1000, v.ownPort ls⟩)] else [] := by
  unfold connected at h
  split at h
  · cases h
  · split at h
    · rename_i ho; cases h; simp [ho]
    · rename_i ho; cases h; simp [ho]

theorem view_get {v : Env} {h : History} {m : Disc} (i : Inv v h m) {s : Nat} {q : Bool × Bool}
    (hv : view s h = some q) : ∃ st, get m s = some st ∧ Fits v h s st ∧ q = (st.gotGet, st.gotNodes) := by
  cases hg : get m s with
  | none => rw [(i.closed s hg).1] at hv; cases hv
  | some st =>
    have f := i.sess s st hg
    rw [f.view] at hv
    cases hv
    exact ⟨st, rfl, f, rfl⟩

/-! ## C96 -/

/-- A session is closed exactly on a message that is malformed, goes beyond the limits, or is a second request or
a second first answer. -/
theorem C96_closed {v : Env} {h : History} {m m' : Disc} {e : Ev} {fx : List Eff} (r : Run v h m)
    (hs : step v m e = .ok (m', fx)) (s : Nat) : Eff.disconnect s ∈ fx ↔ ∃ b off ch, e = .received s b off ch ∧
      (decodeDisc b = none ∨ (∃ n, decodeDisc b = some (some (.nodes n)) ∧ ¬ Limits n) ∨
        (∃ g t, decodeDisc b = some (some (.getNodes g)) ∧ view s h = some (true, t)) ∨
        ∃ n q, decodeDisc b = some (some (.nodes n)) ∧ Limits n ∧ n.announce = false ∧ view s h = some (q, true)) := by
  have i := r.inv
  cases e with
  | connected s' a o ls =>
    rw [connected_fx hs]
    cases o <;> simp
  | disconnected s' => cases hs; simp
  | timer now cs o k =>
    cases hs
    exact ⟨fun h => absurd h step_timer_no_disconnect, fun ⟨_, _, _, h, _⟩ => by cases h⟩
  | received s' b off ch =>
    rcases received_cases hs with ⟨rfl, rfl, hc⟩ | ⟨rfl, rfl, hc⟩ | ⟨g, st, reuse, hd, hg, hq, hr, rfl, rfl⟩ |
      ⟨n, st, hd, hl, hg, hq, rfl, rfl⟩
    · constructor
      · intro hm
        cases List.mem_singleton.1 hm
        refine ⟨b, off, ch, rfl, ?_⟩
        rcases hc with hc | hc | ⟨g, st, hd, hg, hq⟩ | ⟨n, st, hd, hl, ha, hg, hq⟩
        · exact .inl hc
        · exact .inr (.inl hc)
        · exact .inr (.inr (.inl ⟨g, st.gotNodes, hd, by rw [(i.sess _ _ hg).view, hq]⟩))
        · exact .inr (.inr (.inr ⟨n, st.gotGet, hd, hl, ha, by rw [(i.sess _ _ hg).view, hq]⟩))
      · rintro ⟨b', off', ch', he, _⟩
        cases he
        exact List.mem_singleton.2 rfl
    · constructor
      · intro hm; cases hm
      · rintro ⟨b', off', ch', he, hx⟩
        cases he
        rcases hx with hx | ⟨n, hx, hl⟩ | ⟨g, t, hx, hv⟩ | ⟨n, q, hx, hl, ha, hv⟩
        · rcases hc with hd | ⟨g, hd, hg⟩ | ⟨n, hd, hl, hg⟩ <;> rw [hd] at hx <;> cases hx
        · rcases hc with hd | ⟨g, hd, hg⟩ | ⟨n', hd, hl', hg⟩ <;> rw [hd] at hx <;> cases hx
          exact absurd hl' hl
        · obtain ⟨st, hg', _⟩ := view_get i hv
          rcases hc with hd | ⟨g, hd, hg⟩ | ⟨n', hd, hl', hg⟩ <;> rw [hd] at hx <;> cases hx
          rw [hg] at hg'; cases hg'
        · obtain ⟨st, hg', _⟩ := view_get i hv
          rcases hc with hd | ⟨g, hd, hg⟩ | ⟨n', hd, hl', hg⟩ <;> rw [hd] at hx <;> cases hx
          rw [hg] at hg'; cases hg'
    · constructor
      · intro hm
        rcases List.mem_append.1 hm with hm | hm
        · rcases List.mem_append.1 hm with hm | hm
          · cases (learnPort_cases hm).1
          · cases (learnReuse_cases hr hm).1
        · cases List.mem_singleton.1 hm
      · rintro ⟨b', off', ch', he, hx⟩
        cases he
        rcases hx with hx | ⟨n, hx, hl⟩ | ⟨g, t, hx, hv⟩ | ⟨n, q, hx, hl, ha, hv⟩ <;> rw [hd] at hx <;> cases hx
        rw [(i.sess _ _ hg).view, hq] at hv
        cases hv
    · constructor
      · intro hm
        obtain ⟨a, _, ha⟩ := List.mem_map.1 hm
        cases ha
      · rintro ⟨b', off', ch', he, hx⟩
        cases he
        rcases hx with hx | ⟨n, hx, hl⟩ | ⟨g, t, hx, hv⟩ | ⟨n, q, hx, hl, ha, hv⟩ <;> rw [hd] at hx <;> cases hx
        · exact absurd ‹Limits _› hl
        · rw [(i.sess _ _ hg).view, hq ha] at hv
          cases hv

/-- A message that closes the session has no other effect. -/
theorem C96_refused {v : Env} {m m' : Disc} {e : Ev} {fx : List Eff} (hs : step v m e = .ok (m', fx)) (s : Nat)
    (hd : Eff.disconnect s ∈ fx) : m' = m ∧ fx = [.disconnect s] := by
  cases e with
  | connected s' a o ls =>
    rw [connected_fx hs] at hd
    cases o <;> simp at hd
  | disconnected s' => cases hs; cases hd
  | timer now cs o k => cases hs; exact absurd hd step_timer_no_disconnect
  | received s' b off ch =>
    rcases received_cases hs with ⟨rfl, rfl, hc⟩ | ⟨rfl, rfl, hc⟩ | ⟨g, st, reuse, _, hg, hq, hr, rfl, rfl⟩ |
      ⟨n, st, _, hl, hg, hq, rfl, rfl⟩
    · cases List.mem_singleton.1 hd; exact ⟨rfl, rfl⟩
    · cases hd
    · exfalso
      rcases List.mem_append.1 hd with hm | hm
      · rcases List.mem_append.1 hm with hm | hm
        · cases (learnPort_cases hm).1
        · cases (learnReuse_cases hr hm).1
      · cases List.mem_singleton.1 hm
    · obtain ⟨a, _, ha⟩ := List.mem_map.1 hd
      cases ha

/-- A reachable address, as the node sees it. -/
def Reachable (v : Env) (a : MAddr) : Prop := ∃ k, a.sock = some k ∧ v.reach k.ip = true

theorem valid_iff (v : Env) (a : MAddr) : v.valid a = true ↔ Reachable v a := by
  unfold Env.valid Reachable
  cases a.sock <;> simp

instance (v : Env) (a : MAddr) : Decidable (Reachable v a) := decidable_of_iff _ (valid_iff v a)

theorem replyItems_spec (l : List MAddr) (c : Nat) (ch : List MAddr → Nat → List MAddr)
    (hc : ∀ l n, n ≤ l.length → ∃ t : List MAddr, t.Sublist l ∧ (ch l n).Perm t ∧ t.length = n) :
    (∃ t, t.Sublist l ∧ (replyItems l c ch).Perm t) ∧ (replyItems l c ch).length = min (min 1000 c) l.length := by
  unfold replyItems
  by_cases h : l.length > min 1000 c
  · rw [if_pos h]
    obtain ⟨t, h1, h2, h3⟩ := hc l (min 1000 c) (by omega)
    exact ⟨⟨t, h1, h2⟩, by rw [h2.length_eq, h3]; omega⟩
  · rw [if_neg h]
    exact ⟨⟨l, List.Sublist.refl l, List.Perm.refl l⟩, by omega⟩

/-- The first request of a session is answered, to that session only, by one message: reachable addresses of those
the store offers, without repetitions beyond those of the store, as many as were asked for up to 1000 as far as there
are. -/
theorem C96_answer {v : Env} {h : History} {m m' : Disc} {s : Nat} {b : Bytes} {off : List MAddr}
    {ch : List MAddr → Nat → List MAddr} {fx : List Eff} {g : GetNodes} {t : Bool} (r : Run v h m)
    (he : Real (.received s b off ch)) (hs : step v m (.received s b off ch) = .ok (m', fx))
    (hd : decodeDisc b = some (some (.getNodes g))) (hv : view s h = some (false, t)) :
    ∃ items : List MAddr, fx.filterMap (sentTo s) = [.nodes ⟨false, items.map fun a => [v.print a]⟩] ∧
      (∀ a ∈ items, a ∈ off ∧ Reachable v a) ∧ (off.Nodup → items.Nodup) ∧
      items.length = min (min 1000 g.count) (off.filter fun a => decide (Reachable v a)).length ∧
      ∀ s', s' ≠ s → fx.filterMap (sentTo s') = [] := by
  obtain ⟨st, hg, f, hq⟩ := view_get r.inv hv
  rcases received_cases hs with ⟨_, _, hc⟩ | ⟨_, _, hc⟩ | ⟨g', st', reuse, hd', hg', hq', hr, rfl, rfl⟩ |
    ⟨n, st', hd', _⟩
  · exfalso
    rcases hc with hc | ⟨n, hc, _⟩ | ⟨g', st', hc, hg', hq'⟩ | ⟨n, st', hc, _⟩
    · rw [hd] at hc; cases hc
    · rw [hd] at hc; cases hc
    · rw [hg] at hg'; cases hg'; rw [hq'] at hq; cases hq
    · rw [hd] at hc; cases hc
  · exfalso
    rcases hc with hc | ⟨g', hc, hg'⟩ | ⟨n, hc, _⟩
    · rw [hd] at hc; cases hc
    · rw [hg] at hg'; cases hg'
    · rw [hd] at hc; cases hc
  · rw [hd] at hd'; cases hd'
    rw [hg] at hg'; cases hg'
    have hnone : ∀ s', ∀ f ∈ v.learnPort st.remote g ++ reuse, sentTo s' f = none := by
      intro s' f hf
      rcases List.mem_append.1 hf with hf | hf
      · rw [(learnPort_cases hf).1]; rfl
      · rw [(learnReuse_cases hr hf).1]; rfl
    obtain ⟨⟨l, h1, h2⟩, h3⟩ := replyItems_spec (off.filter v.valid) g.count ch he
    refine ⟨replyItems (off.filter v.valid) g.count ch, ?_, fun a ha => ?_, fun hn => ?_, ?_, fun s' hs' => ?_⟩
    · rw [List.filterMap_append, sent_none (hnone s)]
      simp [sentTo]
    · have ha := List.mem_filter.1 (h1.subset (h2.subset ha))
      exact ⟨ha.1, (valid_iff v a).1 ha.2⟩
    · exact h2.nodup_iff.2 ((hn.sublist List.filter_sublist).sublist h1)
    · rw [h3]
      congr 2
      apply List.filter_congr
      intro a _
      rw [Bool.eq_iff_iff, decide_eq_true_iff]
      exact valid_iff v a
    · rw [List.filterMap_append, sent_none (hnone s')]
      have : ¬ s = s' := fun h => hs' h.symm
      simp [sentTo, this]
  · rw [hd] at hd'; cases hd'

/-- What an effect enters in the store; true if as an address that the node connected to. -/
def learns : Eff → Option (MAddr × Bool)
  | .learn a => some (a, false)
  | .learnOutbound a => some (a, true)
  | _ => none

/-- The address under which a peer asks to be known: the peer of a session that the node did not open may name the
port it listens on. -/
def introduced (a : MAddr) (outbound : Bool) (g : GetNodes) : MAddr :=
  match g.port with
  | some p => if p ≤ 65535 ∧ outbound = false then withPort a p else a
  | none => a

/-- What the first request makes the node believe: the address of the peer enters the store as any other if it names
a port and is reachable, and as one connected to if the version of the message is not 0. -/
theorem C96_introduced {v : Env} {h : History} {m m' : Disc} {s : Nat} {b : Bytes} {off : List MAddr}
    {ch : List MAddr → Nat → List MAddr} {fx : List Eff} {g : GetNodes} {t : Bool} {a : MAddr} {o : Bool} (r : Run v h m)
    (hs : step v m (.received s b off ch) = .ok (m', fx)) (hd : decodeDisc b = some (some (.getNodes g)))
    (hv : view s h = some (false, t)) (ha : peerAddr s h = some (a, o)) (x : MAddr) (k : Bool) :
    (x, k) ∈ fx.filterMap learns ↔ x = introduced a o g ∧
      if k then g.version ≥ 1 else Reachable v x ∧ ∃ p, g.port = some p ∧ p ≤ 65535 := by
  obtain ⟨st, hg, f, hq⟩ := view_get r.inv hv
  rcases received_cases hs with ⟨_, _, hc⟩ | ⟨_, _, hc⟩ | ⟨g', st', reuse, hd', hg', hq', hr, rfl, rfl⟩ |
    ⟨n, st', hd', _⟩
  · exfalso
    rcases hc with hc | ⟨n, hc, _⟩ | ⟨g', st', hc, hg', hq'⟩ | ⟨n, st', hc, _⟩
    · rw [hd] at hc; cases hc
    · rw [hd] at hc; cases hc
    · rw [hg] at hg'; cases hg'; rw [hq'] at hq; cases hq
    · rw [hd] at hc; cases hc
  · exfalso
    rcases hc with hc | ⟨g', hc, hg'⟩ | ⟨n, hc, _⟩
    · rw [hd] at hc; cases hc
    · rw [hg] at hg'; cases hg'
    · rw [hd] at hc; cases hc
  · rw [hd] at hd'; cases hd'
    rw [hg] at hg'; cases hg'
    obtain ⟨a', o', ha', _, hrem⟩ := f.addr
    rw [ha] at ha'; cases ha'
    have hrem := hrem hq'
    have hI : (remotePort st.remote g).addr = introduced a o g := by
      unfold remotePort introduced portOf
      rw [hrem]
      cases g.port with
      | none => cases o <;> rfl
      | some p =>
        by_cases hp : p ≤ 65535
        · cases o <;> simp [hp, Remote.updatePort, Remote.addr]
        · cases o <;> simp [hp, Remote.addr]
    have hL : ∀ p, portOf g = some p → remotePort st.remote g = .listen (introduced a o g) := by
      intro p hp
      rw [← hI]
      unfold remotePort
      rw [hp]
      cases st.remote <;> rfl
    have hP : (∃ p, portOf g = some p) ↔ ∃ p, g.port = some p ∧ p ≤ 65535 := by
      unfold portOf
      cases g.port with
      | none => simp
      | some p => by_cases hp : p ≤ 65535 <;> simp [hp]
    have h1 : (x, k) ∈ (v.learnPort st.remote g).filterMap learns ↔ k = false ∧ x = introduced a o g ∧ Reachable v x ∧
        ∃ p, g.port = some p ∧ p ≤ 65535 := by
      rw [← hP]
      cases hp : portOf g with
      | none => simp [Env.learnPort, hp]
      | some p =>
        simp only [Env.learnPort, hp, hL p hp]
        by_cases hx : v.valid (introduced a o g) = true
        · rw [if_pos hx]
          simp only [List.filterMap_cons, learns, List.filterMap_nil, List.mem_singleton, Prod.mk.injEq]
          constructor
          · rintro ⟨rfl, rfl⟩; exact ⟨rfl, rfl, (valid_iff v _).1 hx, p, rfl⟩
          · rintro ⟨rfl, rfl, _⟩; exact ⟨rfl, rfl⟩
        · rw [if_neg hx]
          simp only [List.filterMap_nil, List.not_mem_nil, false_iff]
          rintro ⟨_, rfl, hR, _⟩
          exact hx ((valid_iff v _).2 hR)
    have h2 : (x, k) ∈ reuse.filterMap learns ↔ k = true ∧ x = introduced a o g ∧ g.version ≥ 1 := by
      unfold learnReuse at hr
      by_cases hver : g.version ≥ 1
      · rw [if_pos hver] at hr
        split at hr
        · cases hr
        · cases hr
          rw [hI]
          simp only [List.filterMap_cons, learns, List.filterMap_nil, List.mem_singleton, Prod.mk.injEq]
          constructor
          · rintro ⟨rfl, rfl⟩; exact ⟨rfl, rfl, hver⟩
          · rintro ⟨rfl, rfl, _⟩; exact ⟨rfl, rfl⟩
      · rw [if_neg hver] at hr
        cases hr
        simp [hver]
    rw [List.filterMap_append, List.filterMap_append, List.mem_append, List.mem_append, h1, h2]
    cases k <;> simp [learns]
  · rw [hd] at hd'; cases hd'

/-- What a list of nodes makes the node believe: if the message does not close the session, then in order all
addresses it names that are reachable, at most 3000, or 30 if announced. -/
theorem C96_believed {v : Env} {h : History} {m m' : Disc} {s : Nat} {b : Bytes} {off : List MAddr}
    {ch : List MAddr → Nat → List MAddr} {fx : List Eff} {n : Nodes} (r : Run v h m)
    (hs : step v m (.received s b off ch) = .ok (m', fx)) (hd : decodeDisc b = some (some (.nodes n)))
    (ho : view s h ≠ none) (hx : Eff.disconnect s ∉ fx) :
    (∀ x k, (x, k) ∈ fx.filterMap learns ↔ k = false ∧ Reachable v x ∧ ∃ l ∈ n.items, ∃ y ∈ l, v.parse y = some x) ∧
      (fx.filterMap learns).length ≤ (if n.announce then 30 else 3000) ∧ ∀ s', fx.filterMap (sentTo s') = [] := by
  obtain ⟨q, hq⟩ := Option.ne_none_iff_exists'.1 ho
  obtain ⟨st, hg, f, _⟩ := view_get r.inv hq
  rcases received_cases hs with ⟨_, rfl, hc⟩ | ⟨_, _, hc⟩ | ⟨g', st', reuse, hd', _⟩ |
    ⟨n', st', hd', hl, hg', hq', rfl, rfl⟩
  · exact absurd (List.mem_singleton.2 rfl) hx
  · exfalso
    rcases hc with hc | ⟨g', hc, hg'⟩ | ⟨n, hc, _, hg'⟩
    · rw [hd] at hc; cases hc
    · rw [hd] at hc; cases hc
    · rw [hg] at hg'; cases hg'
  · rw [hd] at hd'; cases hd'
  · rw [hd] at hd'; cases hd'
    have hm : (((n.items.flatMap fun l => l.filterMap v.parse).filter v.valid).map Eff.learn).filterMap learns =
        ((n.items.flatMap fun l => l.filterMap v.parse).filter v.valid).map fun a => (a, false) := by
      rw [List.filterMap_map]
      show List.filterMap (some ∘ fun a => (a, false)) _ = _
      rw [List.filterMap_eq_map]
    refine ⟨fun x k => ?_, ?_, fun s' => ?_⟩
    · rw [hm]
      simp only [List.mem_map, List.mem_filter, List.mem_flatMap, List.mem_filterMap, Prod.mk.injEq]
      constructor
      · rintro ⟨a, ⟨⟨l, hl, y, hy, hp⟩, hv⟩, rfl, rfl⟩
        exact ⟨rfl, (valid_iff v _).1 hv, l, hl, y, hy, hp⟩
      · rintro ⟨rfl, hv, l, hl, y, hy, hp⟩
        exact ⟨x, ⟨⟨l, hl, y, hy, hp⟩, (valid_iff v _).2 hv⟩, rfl, rfl⟩
    · rw [hm, List.length_map]
      refine Nat.le_trans (List.length_filter_le _ _) ?_
      have hsum : ∀ L : List (List Bytes), (∀ l ∈ L, l.length ≤ 3) →
          (L.flatMap fun l => l.filterMap v.parse).length ≤ 3 * L.length := by
        intro L
        induction L with
        | nil => intro _; simp
        | cons l L ih =>
          intro hL
          have h1 := ih fun l hl => hL l (List.mem_cons_of_mem _ hl)
          have h2 := hL l List.mem_cons_self
          have h3 : (l.filterMap v.parse).length ≤ l.length := List.length_filterMap_le _ _
          rw [List.flatMap_cons, List.length_append, List.length_cons]
          omega
      have := hsum n.items hl.2.2
      obtain ⟨ha, hb, _⟩ := hl
      cases hn : n.announce with
      | true => have := ha hn; rw [if_pos rfl]; omega
      | false => have := hb hn; rw [if_neg (by simp)]; omega
    · exact sent_none fun f hf => by obtain ⟨a, _, rfl⟩ := List.mem_map.1 hf; rfl

/-- Nothing else makes the node believe an address. -/
theorem C96_only {v : Env} {h : History} {m m' : Disc} {e : Ev} {fx : List Eff} (r : Run v h m)
    (hs : step v m e = .ok (m', fx)) (hl : fx.filterMap learns ≠ []) : ∃ s b off ch, e = .received s b off ch ∧
      ((∃ n, decodeDisc b = some (some (.nodes n)) ∧ view s h ≠ none) ∨
        ∃ g t, decodeDisc b = some (some (.getNodes g)) ∧ view s h = some (false, t)) := by
  cases e with
  | connected s' a o ls =>
    rw [connected_fx hs] at hl
    cases o <;> simp [learns] at hl
  | disconnected s' => cases hs; simp at hl
  | timer now cs o k =>
    cases hs
    exfalso
    apply hl
    rw [List.filterMap_eq_nil_iff]
    intro f hf
    obtain ⟨e, _, hf⟩ := List.mem_flatMap.1 hf
    unfold St.flush at hf
    split at hf
    · cases hf
    · cases List.mem_singleton.1 hf; rfl
  | received s b off ch =>
    refine ⟨s, b, off, ch, rfl, ?_⟩
    rcases received_cases hs with ⟨_, rfl, hc⟩ | ⟨_, rfl, hc⟩ | ⟨g', st', reuse, hd', hg, hq, _⟩ |
      ⟨n', st', hd', _, hg', hq', rfl, rfl⟩
    · simp [learns] at hl
    · simp at hl
    · exact .inr ⟨g', st'.gotNodes, hd', by rw [(r.inv.sess _ _ hg).view, hq]⟩
    · exact .inl ⟨n', hd', by rw [(r.inv.sess _ _ hg').view]; simp⟩

/-- Messages that keep to the rules: one request, one first answer, lists within the limits, numbers of 32 bits. -/
def Polite (l : List Payload) : Prop :=
  (l.filter isGet).length ≤ 1 ∧ (l.filter isFirst).length ≤ 1 ∧ (∀ n, Payload.nodes n ∈ l → Limits n) ∧
    ∀ p ∈ l, p.Fits

theorem polite_append {l : List Payload} {n : Nodes} (h : Polite l) (hn : Limits n)
    (hf : n.announce = true ∨ (l.filter isFirst).length = 0) : Polite (l ++ [.nodes n]) := by
  obtain ⟨h1, h2, h3, h4⟩ := h
  refine ⟨by simpa [List.filter_append, isGet] using h1, ?_, fun n' hn' => ?_, fun p hp => ?_⟩
  · rw [List.filter_append, List.length_append]
    rcases hf with hf | hf
    · simpa [isFirst, hf] using h2
    · have : ([Payload.nodes n].filter isFirst).length ≤ 1 := List.length_filter_le _ _
      omega
  · rcases List.mem_append.1 hn' with hn' | hn'
    · exact h3 n' hn'
    · cases List.mem_singleton.1 hn'; exact hn
  · rcases List.mem_append.1 hp with hp | hp
    · exact h4 p hp
    · cases List.mem_singleton.1 hp; trivial

/-- On every session the node itself keeps to the rules. -/
theorem C96_polite {v : Env} {h : History} {m : Disc} (r : Run v h m) (s : Nat) : Polite (sent s h) := by
  induction r with
  | new => exact ⟨by simp [sent], by simp [sent], by simp [sent], by simp [sent]⟩
  | @step h m m' e fx r he hs ih =>
    cases e with
    | connected s' a o ls =>
      have hfx := connected_fx hs
      simp only [sent]
      by_cases hne : s' = s
      · subst hne
        rw [if_pos rfl, hfx]
        cases o with
        | false => exact ⟨by simp, by simp, by simp, by simp⟩
        | true =>
          simp only [if_true, List.filterMap_cons, sentTo, List.filterMap_nil]
          refine ⟨List.length_filter_le _ _, by simp [isFirst], by simp, ?_⟩
          intro p hp
          cases List.mem_singleton.1 hp
          refine ⟨by simp [U32], by simp [U32], fun p hp => ?_⟩
          simp only [Env.ownPort, Option.map_eq_some_iff] at hp
          obtain ⟨k, hk, rfl⟩ := hp
          have hk := List.mem_of_mem_head? hk
          obtain ⟨x, hx, hxk⟩ := List.mem_filterMap.1 hk
          have := he x (List.mem_filter.1 hx).1 k hxk
          unfold U32
          omega
      · rw [if_neg hne, hfx]
        cases o <;> simpa [sentTo, hne] using ih
    | disconnected s' => cases hs; simpa [sent] using ih
    | timer now cs o k =>
      cases hs
      show Polite (sent s h ++ (m.flatMap fun e => e.2.flush v e.1).filterMap (sentTo s))
      rw [filterMap_flush r.inv.keys]
      cases hg : get m s with
      | none => simpa using ih
      | some st =>
        simp only
        have hr := (r.inv.sess s st hg).room
        cases hq : st.pending.isEmpty with
        | true => simpa using ih
        | false =>
          rw [if_neg (by simp)]
          refine polite_append ih ⟨fun _ => by simpa using hr, fun h => by simp at h, fun l hl => ?_⟩ (.inl rfl)
          obtain ⟨a, _, rfl⟩ := List.mem_map.1 hl
          simp
    | received s' b off ch =>
      rw [sent_received]
      rcases received_cases hs with ⟨_, rfl, hc⟩ | ⟨_, rfl, hc⟩ | ⟨g, st, reuse, hd, hg, hq, hr, rfl, rfl⟩ |
        ⟨n, st, hd, hl, hg, hq, rfl, rfl⟩
      · rw [sent_none fun f hf => by cases List.mem_singleton.1 hf; rfl]
        simpa using ih
      · simpa using ih
      · have hnone : ∀ f ∈ v.learnPort st.remote g ++ reuse, sentTo s f = none := by
          intro f hf
          rcases List.mem_append.1 hf with hf | hf
          · rw [(learnPort_cases hf).1]; rfl
          · rw [(learnReuse_cases hr hf).1]; rfl
        rw [List.filterMap_append, sent_none hnone]
        by_cases hne : s' = s
        · subst hne
          simp only [List.nil_append, List.filterMap_cons, sentTo, List.filterMap_nil, if_true]
          have hfirst := (r.inv.sess s' st hg).first
          rw [hq] at hfirst
          refine polite_append ih ⟨fun h => by simp at h, fun _ => ?_, fun l hl => ?_⟩ (.inr (by simpa using hfirst))
          · rw [List.length_map, (replyItems_spec _ _ _ he).2]; omega
          · obtain ⟨a, _, rfl⟩ := List.mem_map.1 hl
            simp
        · simpa [sentTo, hne] using ih
      · rw [sent_none fun f hf => by obtain ⟨a, _, rfl⟩ := List.mem_map.1 hf; rfl]
        simpa using ih

/-- What the bytes of a session say. -/
def said (b : Bytes) : Option Payload := (decodeDisc b).bind id

theorem view_heard {s : Nat} {h : History} {q t : Bool} (hv : view s h = some (q, t)) :
    (q = true → ∃ p ∈ (heard s h).filterMap said, isGet p = true) ∧
      (t = true → ∃ p ∈ (heard s h).filterMap said, isFirst p = true) := by
  induction h generalizing q t with
  | nil => cases hv
  | cons x h ih =>
    obtain ⟨e, fx⟩ := x
    cases e with
    | connected s' a o ls =>
      simp only [view] at hv
      simp only [heard]
      by_cases hne : s' = s
      · rw [if_pos hne] at hv; cases hv
        exact ⟨fun h => (by cases h), fun h => (by cases h)⟩
      · rw [if_neg hne] at hv; rw [if_neg hne]; exact ih hv
    | disconnected s' =>
      simp only [view] at hv
      by_cases hne : s' = s
      · rw [if_pos hne] at hv; cases hv
      · rw [if_neg hne] at hv; exact ih hv
    | timer a b c d => exact ih hv
    | received s' b off ch =>
      simp only [view] at hv
      simp only [heard]
      by_cases hne : s' = s
      · rw [if_pos hne] at hv; rw [if_pos hne]
        rw [Option.map_eq_some_iff] at hv
        obtain ⟨⟨q0, t0⟩, hv, hm⟩ := hv
        obtain ⟨i1, i2⟩ := ih hv
        rw [List.filterMap_append]
        have old1 : q0 = true → ∃ p ∈ (heard s h).filterMap said ++ [b].filterMap said, isGet p = true := fun hq => by
          obtain ⟨p, hp, hg⟩ := i1 hq; exact ⟨p, List.mem_append_left _ hp, hg⟩
        have old2 : t0 = true → ∃ p ∈ (heard s h).filterMap said ++ [b].filterMap said, isFirst p = true := fun hq => by
          obtain ⟨p, hp, hg⟩ := i2 hq; exact ⟨p, List.mem_append_left _ hp, hg⟩
        unfold mark at hm
        split at hm
        · rename_i g hd
          cases hm
          refine ⟨fun _ => ⟨.getNodes g, List.mem_append_right _ ?_, rfl⟩, old2⟩
          simp [said, hd]
        · rename_i n hd
          cases hm
          refine ⟨old1, fun ht => ?_⟩
          rcases Bool.or_eq_true_iff.1 ht with ht | ht
          · exact old2 ht
          · refine ⟨.nodes n, List.mem_append_right _ (by simp [said, hd]), ?_⟩
            exact (Bool.and_eq_true_iff.1 ht).2
        · cases hm
          exact ⟨old1, old2⟩
      · rw [if_neg hne] at hv; rw [if_neg hne]; exact ih hv

/-- Two nodes that run the protocol do not close their session: if what `B` hears on a session is some of what `A`
sent on it, in order, then no message makes `B` close it. -/
theorem C96_peers {vA vB : Env} {hA hB : History} {mA mB m' : Disc} {sA sB : Nat} {b : Bytes} {off : List MAddr}
    {ch : List MAddr → Nat → List MAddr} {fx : List Eff} (rA : Run vA hA mA) (rB : Run vB hB mB)
    (hs : step vB mB (.received sB b off ch) = .ok (m', fx))
    (hh : (heard sB ((.received sB b off ch, fx) :: hB)).Sublist ((sent sA hA).map fun p => encodeDisc (some p)))
    (hl : ∀ p ∈ sent sA hA, (encodeDisc (some p)).length < 2 ^ 64) : Eff.disconnect sB ∉ fx := by
  obtain ⟨h1, h2, h3, h4⟩ := C96_polite rA sA
  have hdec : ∀ p ∈ sent sA hA, decodeDisc (encodeDisc (some p)) = some (some p) := fun p hp =>
    C94_discovery (some p) (fun x hx => by cases hx; exact h4 p hp) (hl p hp)
  simp only [heard, if_true] at hh
  have hsaid : ((sent sA hA).map fun p => encodeDisc (some p)).filterMap said = sent sA hA := by
    generalize sent sA hA = l at hdec
    induction l with
    | nil => rfl
    | cons p l ih =>
      rw [List.map_cons, List.filterMap_cons]
      simp only [said, hdec p List.mem_cons_self, Option.bind_some, id]
      rw [ih fun p hp => hdec p (List.mem_cons_of_mem _ hp)]
  have hsub := hh.filterMap said
  rw [hsaid, List.filterMap_append] at hsub
  obtain ⟨p, hp, hpb⟩ : ∃ p ∈ sent sA hA, encodeDisc (some p) = b := by
    obtain ⟨p, hp, h⟩ := List.mem_map.1 (hh.subset (List.mem_append_right _ List.mem_cons_self))
    exact ⟨p, hp, h⟩
  have hb := hdec p hp
  rw [hpb] at hb
  have hsb : [b].filterMap said = [p] := by simp [said, hb]
  rw [hsb] at hsub
  rw [C96_closed rB hs]
  rintro ⟨b', off', ch', he, hx⟩
  cases he
  have twice : ∀ f : Payload → Bool, f p = true → (∃ x ∈ (heard sB hB).filterMap said, f x = true) →
      ¬ ((sent sA hA).filter f).length ≤ 1 := by
    intro f hf ⟨x, hx, hfx⟩ hle
    have := (hsub.filter f).length_le
    rw [List.filter_append, List.length_append] at this
    have hx1 : 0 < (((heard sB hB).filterMap said).filter f).length := List.length_pos_of_mem (List.mem_filter.2 ⟨hx, hfx⟩)
    have hx2 : ([p].filter f).length = 1 := by simp [hf]
    omega
  rw [hb] at hx
  rcases hx with hx | ⟨n, hx, hn⟩ | ⟨g, t, hx, hv⟩ | ⟨n, q, hx, hn, ha, hv⟩
  · cases hx
  · cases hx; exact hn (h3 n hp)
  · cases hx; exact twice isGet rfl ((view_heard hv).1 rfl) h1
  · cases hx; exact twice isFirst (by simp [isFirst, ha]) ((view_heard hv).2 rfl) h2

/-- Every message of announcements names between one and ten addresses; each is that of a validator connected at an
earlier timer, or the reachable address of some session, perhaps on the port its peer named. -/
theorem C96_announced {v : Env} {h : History} {m m' : Disc} {e : Ev} {fx : List Eff} (r : Run v h m)
    (hs : step v m e = .ok (m', fx)) {s : Nat} {n : Nodes} (hm : Eff.send s (.nodes n) ∈ fx) (ha : n.announce = true) :
    1 ≤ n.items.length ∧ n.items.length ≤ 10 ∧ ∀ l ∈ n.items, ∃ a, l = [v.print a] ∧ Source v h a := by
  cases e with
  | connected s' a o ls =>
    rw [connected_fx hs] at hm
    cases o <;> simp at hm
  | disconnected s' => cases hs; simp at hm
  | timer now cs o k =>
    cases hs
    obtain ⟨⟨s', st⟩, he, hm⟩ := List.mem_flatMap.1 hm
    have f := r.inv.sess s' st (get_of_mem r.inv.keys he)
    unfold St.flush at hm
    split at hm
    · cases hm
    · rename_i hne
      cases List.mem_singleton.1 hm
      have hroom := f.room
      simp only [List.length_map]
      refine ⟨List.length_pos_iff.2 (by simpa using hne), hroom, fun l hl => ?_⟩
      obtain ⟨a, ha, rfl⟩ := List.mem_map.1 hl
      exact ⟨a, rfl, f.source a ha⟩
  | received s' b off ch =>
    rcases received_cases hs with ⟨_, rfl, hc⟩ | ⟨_, rfl, hc⟩ | ⟨g, st, reuse, hd, hg, hq, hr, rfl, rfl⟩ |
      ⟨n', st, hd, hl, hg, hq, rfl, rfl⟩
    · simp at hm
    · simp at hm
    · rcases List.mem_append.1 hm with hm | hm
      · rcases List.mem_append.1 hm with hm | hm
        · cases (learnPort_cases hm).1
        · cases (learnReuse_cases hr hm).1
      · cases List.mem_singleton.1 hm; cases ha
    · obtain ⟨a, _, h⟩ := List.mem_map.1 hm
      cases h

/-- Steps that are no timer and leave session `s` open. -/
inductive Quietly (v : Env) (s : Nat) : Disc → Disc → Prop
  | refl (m : Disc) : Quietly v s m m
  | other {m m' m'' : Disc} {s' : Nat} {a : MAddr} {o : Bool} {ls : List MAddr} {fx : List Eff} (hs : s' ≠ s)
    (q : Quietly v s m m') (h : step v m' (.connected s' a o ls) = .ok (m'', fx)) : Quietly v s m m''
  | gone {m m' m'' : Disc} {s' : Nat} {fx : List Eff} (hs : s' ≠ s)
    (q : Quietly v s m m') (h : step v m' (.disconnected s') = .ok (m'', fx)) : Quietly v s m m''
  | message {m m' m'' : Disc} {s' : Nat} {b : Bytes} {off : List MAddr} {ch : List MAddr → Nat → List MAddr}
    {fx : List Eff} (q : Quietly v s m m') (h : step v m' (.received s' b off ch) = .ok (m'', fx)) : Quietly v s m m''

theorem Quietly.pending {v : Env} {s : Nat} {m m' : Disc} (q : Quietly v s m m') (hn : NodupKeys m) {st : St}
    (hg : get m s = some st) : NodupKeys m' ∧ ∃ st', get m' s = some st' ∧ st'.pending = st.pending := by
  induction q with
  | refl => exact ⟨hn, st, hg, rfl⟩
  | other hs q h ih =>
    obtain ⟨i1, st', hg', hp⟩ := ih
    simp only [step, connected] at h
    split at h
    · cases h
    · split at h <;> cases h
      · exact ⟨nodupKeys_put i1 _ _, st', by rw [gput, if_neg hs]; exact hg', hp⟩
      · exact ⟨nodupKeys_put i1 _ _, st', by rw [gput, if_neg hs]; exact hg', hp⟩
  | gone hs q h ih =>
    obtain ⟨i1, st', hg', hp⟩ := ih
    cases h
    exact ⟨nodupKeys_del i1 _, st', by rw [gdel, if_neg hs]; exact hg', hp⟩
  | @message m1 m2 s' b off ch fx q h ih =>
    obtain ⟨i1, st', hg', hp⟩ := ih
    rcases received_cases h with ⟨rfl, _, _⟩ | ⟨rfl, _, _⟩ | ⟨g, st1, reuse, _, hg1, _, _, rfl, _⟩ |
      ⟨n', st1, _, _, hg1, _, rfl, _⟩
    · exact ⟨i1, st', hg', hp⟩
    · exact ⟨i1, st', hg', hp⟩
    · refine ⟨nodupKeys_put i1 _ _, ?_⟩
      rw [gput]
      by_cases hs : s' = s
      · subst hs
        rw [if_pos rfl]
        rw [hg'] at hg1; cases hg1
        exact ⟨_, rfl, hp⟩
      · rw [if_neg hs]; exact ⟨st', hg', hp⟩
    · refine ⟨nodupKeys_put i1 _ _, ?_⟩
      rw [gput]
      by_cases hs : s' = s
      · subst hs
        rw [if_pos rfl]
        rw [hg'] at hg1; cases hg1
        exact ⟨_, rfl, hp⟩
      · rw [if_neg hs]; exact ⟨st', hg', hp⟩

/-- What a timer decides is sent at the next: a session is told the announcements whose lot fell on it among the
first three and that its filter does not know, the first ten of them. -/
theorem C96_queued {v : Env} {h : History} {m m2 : Disc} (r : Run v h m) {s : Nat} (hv : view s h ≠ none)
    (now : Nat) (cs : List MAddr) (order : Nat → List Nat → List Nat) (knows : Nat → Nat → Bool)
    (ho : ∀ i l, (order i l).Perm l) (q : Quietly v s (timer v m now cs order knows).1 m2)
    (now2 : Nat) (cs2 : List MAddr) (order2 : Nat → List Nat → List Nat) (knows2 : Nat → Nat → Bool) :
    (timer v m2 now2 cs2 order2 knows2).2.filterMap (sentTo s) =
      (match (chosen order knows (m.map (·.1)) s 0 (cs ++ m.flatMap fun e => v.announced e.2 now)).take 10 with
        | [] => []
        | l => [.nodes ⟨true, l.map fun a => [v.print a]⟩]) := by
  obtain ⟨x, hx⟩ := Option.ne_none_iff_exists'.1 hv
  obtain ⟨st, hg, f, _⟩ := view_get r.inv hx
  have hg1 := get_timer v m now cs order knows r.inv.keys ho s
  rw [hg, Option.map_some] at hg1
  obtain ⟨hn, st', hg2, hp⟩ := q.pending (nodup_announce _ _ _ _ _ _ (PingProto.nodup_mapVal (fun st => St.tick st now) r.inv.keys)) hg1
  show (m2.flatMap fun e => e.2.flush v e.1).filterMap (sentTo s) = _
  rw [filterMap_flush hn, hg2]
  simp only [hp]
  split
  · rename_i hnil
    have hnil : List.take 10 (chosen order knows (m.map (·.1)) s 0 (cs ++ m.flatMap fun e => v.announced e.2 now)) = [] := by
      simpa using hnil
    rw [hnil]
  · rename_i hne
    generalize List.take 10 (chosen order knows (m.map (·.1)) s 0 (cs ++ m.flatMap fun e => v.announced e.2 now)) = l at hne
    cases l with
    | nil => simp at hne
    | cons a l => rfl

/-- The handler stops the node only on a session whose address names no peer. -/
theorem C96_total {v : Env} {h : History} {m : Disc} (r : Run v h m) (e : Ev) :
    (∃ m' fx, step v m e = .ok (m', fx)) ∨
      (step v m e = .panic ∧ ∃ s a o ls, e = .connected s a o ls ∧ a.peer = none) := by
  cases e with
  | connected s a o ls =>
    simp only [step, connected]
    cases hp : a.peer with
    | none => exact .inr ⟨rfl, s, a, o, ls, rfl, hp⟩
    | some p => left; cases o <;> exact ⟨_, _, rfl⟩
  | disconnected s => exact .inl ⟨_, _, rfl⟩
  | timer now cs o k => exact .inl ⟨_, _, rfl⟩
  | received s b off ch =>
    left
    simp only [step, received]
    cases decodeDisc b with
    | none => exact ⟨_, _, rfl⟩
    | some o =>
      cases o with
      | none => exact ⟨_, _, rfl⟩
      | some p =>
        cases p with
        | nodes n => exact ⟨_, _, rfl⟩
        | getNodes g =>
          simp only [onGetNodes]
          cases hg : get m s with
          | none => exact ⟨_, _, rfl⟩
          | some st =>
            simp only
            split
            · exact ⟨_, _, rfl⟩
            · have hne : (remotePort st.remote g).addr.peer ≠ none := by
                obtain ⟨a, o, _, hsame, _⟩ := (r.inv.sess s st hg).addr
                rw [sameHost_peer (sameHost_remotePort hsame), ← sameHost_peer hsame]
                exact (r.inv.sess s st hg).peer
              have : ∃ l, learnReuse (remotePort st.remote g) g = .ok l := by
                unfold learnReuse
                split
                · split
                  · exact absurd ‹_› hne
                  · exact ⟨_, rfl⟩
                · exact ⟨_, rfl⟩
              obtain ⟨l, hl⟩ := this
              rw [hl]
              exact ⟨_, _, rfl⟩

/-! ## What does not hold -/

/-- The addresses a peer can enter are not limited: any number of announcements on one session is believed, and
closes no session. -/
theorem C96_flood_false {v : Env} {h : History} {m : Disc} (r : Run v h m) {s : Nat} (ho : view s h ≠ none)
    (bs : List Bytes) (hb : ∀ b ∈ bs, ∃ n, decodeDisc b = some (some (.nodes n)) ∧ n.announce = true ∧ Limits n) :
    ∃ l m', Run v (l ++ h) m' ∧ l.map (·.1) = bs.reverse.map (fun b => Ev.received s b [] (fun l n => l.take n)) ∧
      ∀ b ∈ bs, ∀ n, decodeDisc b = some (some (.nodes n)) → ∀ k ∈ n.items, ∀ y ∈ k, ∀ a, v.parse y = some a →
        Reachable v a → ∃ x ∈ l, (a, false) ∈ x.2.filterMap learns ∧ ∀ s', Eff.disconnect s' ∉ x.2 := by
  have key : ∀ bs : List Bytes, (∀ b ∈ bs, ∃ n, decodeDisc b = some (some (.nodes n)) ∧ n.announce = true ∧ Limits n) →
      ∃ l m', Run v (l ++ h) m' ∧ view s (l ++ h) ≠ none ∧
        l.map (·.1) = bs.map (fun b => Ev.received s b [] (fun l n => l.take n)) ∧
      ∀ b ∈ bs, ∀ n, decodeDisc b = some (some (.nodes n)) → ∀ k ∈ n.items, ∀ y ∈ k, ∀ a, v.parse y = some a →
        Reachable v a → ∃ x ∈ l, (a, false) ∈ x.2.filterMap learns ∧ ∀ s', Eff.disconnect s' ∉ x.2 := by
    intro bs
    induction bs with
    | nil => intro _; exact ⟨[], m, r, ho, rfl, fun b hb => by cases hb⟩
    | cons b bs ih =>
      intro hb
      obtain ⟨l, m', r', ho', hl, hbel⟩ := ih fun b hb' => hb b (List.mem_cons_of_mem _ hb')
      obtain ⟨n, hd, ha, hlim⟩ := hb b List.mem_cons_self
      obtain ⟨q, hq⟩ := Option.ne_none_iff_exists'.1 ho'
      rcases C96_total r' (.received s b [] (fun l n => l.take n)) with ⟨m'', fx, hs⟩ | ⟨_, _, _, _, _, he, _⟩
      · have hno : ∀ s', Eff.disconnect s' ∉ fx := by
          intro s' hd'
          obtain ⟨b', off, ch, he, hx⟩ := (C96_closed r' hs s').1 hd'
          cases he
          rw [hd] at hx
          rcases hx with hx | ⟨n', hx, hn⟩ | ⟨g, t, hx, hv⟩ | ⟨n', q, hx, hn, ha', hv⟩ <;> cases hx
          · exact hn hlim
          · rw [ha] at ha'; cases ha'
        have hbl := (C96_believed r' hs hd ho' (hno s)).1
        refine ⟨(.received s b [] (fun l n => l.take n), fx) :: l, m'', .step r' ?_ hs, ?_, by rw [List.map_cons, hl]; rfl, ?_⟩
        · intro l n hn
          exact ⟨l.take n, List.take_sublist _ _, List.Perm.refl _, by simp; omega⟩
        · simp only [List.cons_append, view, if_true]
          rw [hq]; simp
        · intro b' hb' n' hd' k hk y hy a hp hR
          rcases List.mem_cons.1 hb' with rfl | hb'
          · rw [hd] at hd'; cases hd'
            exact ⟨_, List.mem_cons_self, (hbl a false).2 ⟨rfl, hR, k, hk, y, hy, hp⟩, hno⟩
          · obtain ⟨x, hx, h1, h2⟩ := hbel b' hb' n' hd' k hk y hy a hp hR
            exact ⟨x, List.mem_cons_of_mem _ hx, h1, h2⟩
      · cases he
  obtain ⟨l, m', r', _, hl, hbel⟩ := key bs.reverse fun b hb' => hb b (List.mem_reverse.1 hb')
  exact ⟨l, m', r', hl, fun b hb' => hbel b (List.mem_reverse.2 hb')⟩

/-- The bytes of a request that names port 8000. -/
def askBytes : Bytes := encodeDisc (some (.getNodes ⟨1, 1000, some 8000⟩))

theorem decode_ask : decodeDisc askBytes = some (some (.getNodes ⟨1, 1000, some 8000⟩)) := by decide +kernel

/-- A store holds as connected to addresses that the node never connected to, that are not reachable, and on ports
that nobody was seen on: a peer that connects to the node names any port. -/
theorem C96_outbound_false (v : Env) (hv : ∀ ip, v.reach ip = false) (a : MAddr) (ha : a.peer ≠ none)
    (b : Bytes) (p : Nat) (hp : p ≤ 65535) (hd : decodeDisc b = some (some (.getNodes ⟨1, 1000, some p⟩))) :
    ∃ h m fx, Run v h m ∧ (∀ x ∈ h, ∀ s c ls, x.1 ≠ .connected s c true ls) ∧ (.received 1 b [] (fun l n => l.take n), fx) ∈ h ∧
      fx.filterMap learns = [(withPort a p, true)] := by
  obtain ⟨i, hi⟩ := Option.ne_none_iff_exists'.1 ha
  have h1 : step v [] (.connected 1 a false []) = .ok ([(1, ⟨.init a, none, [], false, false⟩)], []) := by
    simp only [step, connected, hi]; rfl
  have r1 := Run.step .new (by intro x hx; cases hx) h1
  rcases C96_total r1 (.received 1 b [] (fun l n => l.take n)) with ⟨m, fx, hs⟩ | ⟨_, _, _, _, _, he, _⟩
  · refine ⟨_, m, fx, .step r1 ?_ hs, ?_, List.mem_cons_self, ?_⟩
    · intro l n hn
      exact ⟨l.take n, List.take_sublist _ _, List.Perm.refl _, by simp; omega⟩
    · intro x hx s c ls
      rcases List.mem_cons.1 hx with rfl | hx
      · intro h; cases h
      · cases List.mem_singleton.1 hx; intro h; cases h
    · rcases received_cases hs with ⟨_, _, hc⟩ | ⟨_, _, hc⟩ | ⟨g, st, reuse, hd', hg, hq, hr, rfl, rfl⟩ | ⟨n, st', hd', _⟩
      · exfalso
        rcases hc with hc | ⟨n, hc, _⟩ | ⟨g', st', hc, hg', hq'⟩ | ⟨n, st', hc, _⟩
        · rw [hd] at hc; cases hc
        · rw [hd] at hc; cases hc
        · cases hg'; cases hq'
        · rw [hd] at hc; cases hc
      · exfalso
        rcases hc with hc | ⟨g', hc, hg'⟩ | ⟨n, hc, _⟩
        · rw [hd] at hc; cases hc
        · cases hg'
        · rw [hd] at hc; cases hc
      · rw [hd] at hd'; cases hd'
        cases hg
        have hpo : portOf ⟨1, 1000, some p⟩ = some p := by simp [portOf, hp]
        have hrem : remotePort (.init a) ⟨1, 1000, some p⟩ = .listen (withPort a p) := by
          unfold remotePort; rw [hpo]; rfl
        have hval : v.valid (withPort a p) = false := by
          unfold Env.valid
          cases (withPort a p).sock with
          | none => rfl
          | some k => exact hv k.ip
        have hl : v.learnPort (.init a) ⟨1, 1000, some p⟩ = [] := by
          unfold Env.learnPort; rw [hpo, hrem]; simp [hval]
        have hR : reuse = [.learnOutbound (withPort a p)] := by
          rw [show (⟨.init a, none, [], false, false⟩ : St).remote = .init a from rfl, hrem] at hr
          unfold learnReuse at hr
          rw [if_pos (by simp)] at hr
          have hpe : (Remote.listen (withPort a p)).addr.peer = some i := hi
          rw [hpe] at hr
          cases hr
          rfl
        rw [show (⟨.init a, none, [], false, false⟩ : St).remote = .init a from rfl, hl, hR]
        simp [learns]
      · rw [hd] at hd'; cases hd'
  · cases he

/-- A peer that makes itself known after a first timer is not announced within a day: whatever the lots, the two
timers after it send nothing. -/
theorem C96_day_false (v : Env) (a c : MAddr) (ha : a.peer ≠ none) (hc : c.peer ≠ none) (t0 t t2 : Nat)
    (ht : t ≤ t0 + 24 * 3600 * 1000) (o : Nat → List Nat → List Nat) (ho : ∀ i l, (o i l).Perm l)
    (k : Nat → Nat → Bool) :
    ∃ m fx, Run v ([(.timer t2 [] o k, []), (.timer t [] o k, []), (.received 1 askBytes [] (fun l n => l.take n), fx),
      (.timer t0 [] o k, []), (.connected 2 c false [], []), (.connected 1 a false [], [])]) m ∧
      (withPort a 8000, true) ∈ fx.filterMap learns := by
  obtain ⟨i, hi⟩ := Option.ne_none_iff_exists'.1 ha
  obtain ⟨j, hj⟩ := Option.ne_none_iff_exists'.1 hc
  have h1 : step v [] (.connected 1 a false []) = .ok ([(1, ⟨.init a, none, [], false, false⟩)], []) := by
    simp only [step, connected, hi]; rfl
  have r1 := Run.step .new (by intro x hx; cases hx) h1
  have h2 : step v [(1, ⟨.init a, none, [], false, false⟩)] (.connected 2 c false []) =
      .ok ([(2, ⟨.init c, none, [], false, false⟩), (1, ⟨.init a, none, [], false, false⟩)], []) := by
    simp only [step, connected, hj]; rfl
  have r2 := Run.step r1 (by intro x hx; cases hx) h2
  have h3 : step v [(2, ⟨.init c, none, [], false, false⟩), (1, ⟨.init a, none, [], false, false⟩)] (.timer t0 [] o k) =
      .ok ([(2, ⟨.init c, some t0, [], false, false⟩), (1, ⟨.init a, some t0, [], false, false⟩)], []) := by rfl
  have r3 := Run.step (e := .timer t0 [] o k) r2 ho h3
  have h4 : step v [(2, ⟨.init c, some t0, [], false, false⟩), (1, ⟨.init a, some t0, [], false, false⟩)]
      (.received 1 askBytes [] (fun l n => l.take n)) =
      .ok ([(1, ⟨.listen (withPort a 8000), some t0, [], true, false⟩), (2, ⟨.init c, some t0, [], false, false⟩)],
        v.learnPort (.init a) ⟨1, 1000, some 8000⟩ ++ [.learnOutbound (withPort a 8000)] ++
          [.send 1 (.nodes ⟨false, []⟩)]) := by
    simp only [step, received, decode_ask]
    have hr : learnReuse (remotePort (.init a) ⟨1, 1000, some 8000⟩) ⟨1, 1000, some 8000⟩ =
        .ok [.learnOutbound (withPort a 8000)] := by
      show (if (1 : Nat) ≥ 1 then (match a.peer with
        | none => Outcome.panic
        | some _ => .ok [Eff.learnOutbound (withPort a 8000)]) else _) = _
      rw [hi]; rfl
    show (match learnReuse (remotePort (.init a) ⟨1, 1000, some 8000⟩) ⟨1, 1000, some 8000⟩ with
      | .err => _
      | .panic => _
      | .ok reuse => _) = _
    rw [hr]
    rfl
  have r4 := Run.step r3 (by
    intro l n hn
    exact ⟨l.take n, List.take_sublist _ _, List.Perm.refl _, by simp; omega⟩) h4
  have hq : ∀ x : Remote, ∀ p q : Bool, v.announced ⟨x, some t0, [], p, q⟩ t = [] := by
    intro x p q
    unfold Env.announced St.due
    simp only
    rw [if_neg (by simp; omega)]
  have hl : ∀ x : Remote, ∀ p q : Bool, (⟨x, some t0, [], p, q⟩ : St).tick t = ⟨x, some t0, [], p, q⟩ := by
    intro x p q
    unfold St.tick St.due
    simp only
    rw [if_neg (by simp; omega)]
  have h5 : step v [(1, ⟨.listen (withPort a 8000), some t0, [], true, false⟩), (2, ⟨.init c, some t0, [], false, false⟩)]
      (.timer t [] o k) =
      .ok ([(1, ⟨.listen (withPort a 8000), some t0, [], true, false⟩), (2, ⟨.init c, some t0, [], false, false⟩)], []) := by
    simp only [step, timer, List.flatMap_cons, List.flatMap_nil, hq, List.append_nil, announce,
      List.map_cons, List.map_nil, hl]
    rfl
  have r5 := Run.step (e := .timer t [] o k) r4 ho h5
  have r6 := Run.step (e := .timer t2 [] o k) r5 ho rfl
  refine ⟨_, _, r6, ?_⟩
  simp [learns, List.filterMap_append]

/-- The first request on a session makes its address one the node announces exactly if it was one already, or the
request names a port, or its sender says that it listens on the port it connects from, which version 1 and later do;
the next timer of a session never announced then hands that address out, if it is reachable, and no other. -/
theorem C96_listening {v : Env} {m m' : Disc} {s : Nat} {b : Bytes} {off : List MAddr}
    {ch : List MAddr → Nat → List MAddr} {fx : List Eff} {g : GetNodes} {st : St}
    (hd : decodeDisc b = some (some (.getNodes g))) (hg : get m s = some st) (hq : st.gotGet = false)
    (hs : step v m (.received s b off ch) = .ok (m', fx)) :
    ∃ st', get m' s = some st' ∧ st'.last = st.last ∧ st'.pending = st.pending ∧
      ((∃ a, st'.remote = .listen a) ↔
        (∃ a, st.remote = .listen a) ∨ (∃ p, g.port = some p ∧ p ≤ 65535) ∨ 1 ≤ g.version) ∧
      ∀ now, st.last = none → v.announced st' now =
        (match st'.remote with | .listen a => [a].filter v.valid | .init _ => []) := by
  rcases received_cases hs with ⟨_, _, hc⟩ | ⟨_, _, hc⟩ | ⟨g', st1, reuse, hd', hg', hq', hr, rfl, rfl⟩ |
    ⟨n', st1, hd', _⟩
  · rcases hc with h | ⟨n, h, _⟩ | ⟨g1, st1, h, h', h''⟩ | ⟨n, st1, h, _⟩
    · rw [hd] at h; cases h
    · rw [hd] at h; cases h
    · rw [hg] at h'; cases h'; rw [hq] at h''; cases h''
    · rw [hd] at h; cases h
  · rcases hc with h | ⟨g1, h, h'⟩ | ⟨n, h, _⟩
    · rw [hd] at h; cases h
    · rw [hg] at h'; cases h'
    · rw [hd] at h; cases h
  · rw [hd] at hd'; cases hd'
    rw [hg] at hg'; cases hg'
    refine ⟨{ st with gotGet := true, remote := remoteReuse (remotePort st.remote g) g },
      by rw [get_put]; exact if_pos rfl, rfl, rfl, ?_, ?_⟩
    · by_cases hv : 1 ≤ g.version
      · simp [remoteReuse, hv, Remote.toListen]
      · cases hp : g.port with
        | none => simp [remoteReuse, hv, remotePort, portOf, hp]
        | some p =>
          by_cases hb : p ≤ 65535
          · cases hr : st.remote <;> simp [remoteReuse, hv, remotePort, portOf, hp, hb, Remote.updatePort]
          · simp [remoteReuse, hv, remotePort, portOf, hp, hb]
    · intro now hn
      simp only [Env.announced, St.due, hn, if_true]
      cases remoteReuse (remotePort st.remote g) g with
      | init a => rfl
      | listen a => simp only [List.filter]; cases v.valid a <;> rfl
  · rw [hd] at hd'; cases hd'

/-! ## Cases -/

/-- Addresses of 6 bytes: host 5 at port 80, peer 3; hosts below 100 are reachable. -/
def env0 : Env where
  reach := fun ip => match ip with
    | .v4 n => decide (n < 100)
    | .v6 _ => false
  parse := fun b => match b with
    | [h, p, i] => some ⟨some ⟨.v4 h.toNat, p.toNat⟩, some i.toNat, 0⟩
    | _ => none
  print := fun a => match a with
    | ⟨some ⟨.v4 h, p⟩, some i, _⟩ => [UInt8.ofNat h, UInt8.ofNat p, UInt8.ofNat i]
    | _ => []

def addr0 (h p i : Nat) : MAddr := ⟨some ⟨.v4 h, p⟩, some i, 0⟩

/-- A peer asks on an inbound session, is answered with the one reachable address of two, and is believed. -/
example : (match step env0 [(1, ⟨.init (addr0 7 200 3), none, [], false, false⟩)]
      (.received 1 askBytes [addr0 5 80 9, addr0 150 80 8] (fun l n => l.take n)) with
    | .ok (_, fx) => fx
    | _ => []) =
    [.learn (addr0 7 8000 3), .learnOutbound (addr0 7 8000 3), .send 1 (.nodes ⟨false, [[[5, 80, 9]]]⟩)] := by
  decide +kernel

/-- A request of version 1 that names no port makes the address of an inbound session one that is announced. -/
example : (match step env0 [(1, ⟨.init (addr0 7 200 3), none, [], false, false⟩)]
      (.received 1 (encodeDisc (some (.getNodes ⟨1, 10, none⟩))) [] (fun l n => l.take n)) with
    | .ok (m, _) => m.map fun e => env0.announced e.2 5
    | _ => []) = [[addr0 7 200 3]] := by decide +kernel

/-- Its second request closes the session. -/
example : (match step env0 [(1, ⟨.listen (addr0 7 80 3), none, [], true, false⟩)] (.received 1 askBytes [] (fun l n => l.take n)) with
    | .ok (_, fx) => fx
    | _ => []) = [.disconnect 1] := by decide +kernel

/-- A timer: the address of session 1 goes to session 2, and is sent at the next. -/
example : (match step env0 [(1, ⟨.listen (addr0 7 80 3), none, [], true, false⟩), (2, ⟨.init (addr0 9 80 4), none, [], false, false⟩)]
      (.timer 0 [] (fun _ l => l) (fun _ k => k == 1)) with
    | .ok (m, []) =>
      match step env0 m (.timer 60000 [] (fun _ l => l) (fun _ k => k == 1)) with
      | .ok (_, fx) => fx
      | _ => []
    | _ => []) = [.send 2 (.nodes ⟨true, [[[7, 80, 3]]]⟩)] := by decide +kernel

/-- Announcements of one address are within the limits. -/
example : Limits ⟨true, [[[5, 80, 9]]]⟩ ∧
    decodeDisc (encodeDisc (some (.nodes ⟨true, [[[5, 80, 9]]]⟩))) = some (some (.nodes ⟨true, [[[5, 80, 9]]]⟩)) := by
  decide +kernel

/-- An unfounded address, entered as connected to, is offered to others. -/
example : (match Store.empty.run [.addOutbound (withPort (addr0 7 200 3) 8000) 1000000] with
    | .ok s =>
      match s.fetch (s.randomFlt 1060000) 4 1060000 (fun _ => 0) with
      | .ok (_, l) => l.map (·.addr)
      | _ => []
    | _ => []) = [addr0 7 8000 3] := by decide +kernel

end Axon.Discovery
