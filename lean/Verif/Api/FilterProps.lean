import Verif.Api.FilterHub
import Verif.Api.LogsProps

/-!
# C47, C48 and C84: filters

Specification: a history of commands over a growing chain.  The answers to the polls of a filter,
put together, are the hashes (or the selected logs) of the blocks from the filter's start to the
chain at the last answered poll.
-/

namespace Axon.Api

open Axon Axon.Block Axon.Assoc

/-! ## Specification -/

/-- A history over a growing chain: with every event the chain at its instant. -/
def Grows : List Full → List (Event × List Full) → Prop
  | _, [] => True
  | c, (e, c') :: rest => c <+: c' ∧ Serves e.adapter c' ∧ Grows c' rest

/-- What one answer contributes to the polls of block filter `id`. -/
def gotBlocks (id : U256) (e : Event) (a : Answer) : Option (List H256) :=
  match e.cmd, a with
  | .request i, .blocks l => if i = id then some l else none
  | _, _ => none

/-- What one answer contributes to the polls of log filter `id`. -/
def gotLogs (id : U256) (e : Event) (a : Answer) : Option (List Web3Log) :=
  match e.cmd, a with
  | .request i, .logs l => if i = id then some l else none
  | _, _ => none

/-- All contributions put together. -/
def polled {α : Type} (got : Event → Answer → Option (List α)) :
    List (Event × List Full) → List Answer → List α
  | (e, _) :: tl, a :: as => (got e a).getD [] ++ polled got tl as
  | _, _ => []

/-- The chain at the last answered poll. -/
def lastPoll {α : Type} (got : Event → Answer → Option (List α)) :
    Option (List Full) → List (Event × List Full) → List Answer → Option (List Full)
  | last, (e, c) :: tl, a :: as =>
    lastPoll got (if (got e a).isSome then some c else last) tl as
  | last, _, _ => last

/-- The event creates no filter with this identifier (identifiers are random 256-bit numbers). -/
def notNew (id : U256) (e : Event) : Prop :=
  match e.cmd with
  | .newLogs _ i => i ≠ id
  | .newBlocks i => i ≠ id
  | _ => True

/-- Both maps have unique keys. -/
structure Hub.Ok (h : Hub) : Prop where
  logs : NodupKeys h.logs
  blocks : NodupKeys h.blocks

/-! ## Lemmas on the maps -/

theorem get_filter {κ α : Type} [DecidableEq κ] {m : List (κ × α)} (hn : NodupKeys m)
    (p : κ × α → Bool) (k : κ) :
    get (m.filter p) k = (get m k).filter fun v => p (k, v) := by
  induction m with
  | nil => rfl
  | cons e m ih =>
    have hn' : NodupKeys m := (List.pairwise_cons.1 hn).2
    have hne := (List.pairwise_cons.1 hn).1
    rw [get_cons, List.filter_cons]
    by_cases hp : p e = true
    · rw [if_pos hp, get_cons]
      by_cases hk : e.1 = k
      · subst hk
        have hp' : p (e.1, e.2) = true := hp
        simp [Option.filter, hp']
      · rw [if_neg hk, if_neg hk, ih hn']
    · rw [if_neg hp]
      by_cases hk : e.1 = k
      · subst hk
        rw [if_pos rfl, ih hn']
        have : get m e.1 = none := by
          cases hg : get m e.1 with
          | none => rfl
          | some v => exact absurd rfl (hne (e.1, v) (mem_of_get hg))
        rw [this]
        have hp' : p (e.1, e.2) = false := by simpa using hp
        simp [Option.filter, hp']
      · rw [if_neg hk, ih hn']

theorem nodupKeys_filter {κ α : Type} [DecidableEq κ] {m : List (κ × α)} (hn : NodupKeys m)
    (p : κ × α → Bool) : NodupKeys (m.filter p) := List.Pairwise.filter p hn

theorem bind_ok {α β : Type} {x : Reply α} {f : α → Reply β} {b : β} (h : x.bind f = .ok b) :
    ∃ a, x = .ok a ∧ f a = .ok b := by
  cases x with
  | ok a => exact ⟨a, rfl, h⟩
  | err e => simp [Reply.bind] at h
  | panic => simp [Reply.bind] at h

theorem step_handle {hash : Block → H256} {maxRange : Nat} {h h' : Hub} {e : Event} {a : Answer}
    (hs : step hash maxRange h e = .ok (h', a)) : handle hash maxRange h e = .ok (h', a) := by
  unfold step at hs
  obtain ⟨r, hr, hh⟩ := bind_ok hs
  split at hh
  · simp at hh
  · rw [hr, Reply.ok.inj hh]

theorem implFilter_ok {hash : Block → H256} {A : Adapter} {maxRange now : Nat} {h h' : Hub}
    {id : U256} {a : Answer} (hi : implFilter hash A maxRange now h id = .ok (h', a)) :
    (∃ st l st', get h.blocks id = some st ∧ filterBlock hash A now st = .ok (l, st') ∧
        h' = { h with blocks := put h.blocks id st' } ∧ a = .blocks l) ∨
    (get h.blocks id = none ∧ ∃ st l st', get h.logs id = some st ∧
        filterLogs A maxRange now st = .ok (l, st') ∧
        h' = { h with logs := put h.logs id st' } ∧ a = .logs l) ∨
    (get h.blocks id = none ∧ ∃ st e, get h.logs id = some st ∧
        filterLogs A maxRange now st = .err e ∧
        h' = { h with logs := del h.logs id } ∧ a = .err e) ∨
    (get h.blocks id = none ∧ get h.logs id = none ∧ h' = h ∧
      a = .err (.cannotFindFilterId id.val)) := by
  unfold implFilter at hi
  cases hb : get h.blocks id with
  | some st =>
    rw [hb] at hi
    obtain ⟨⟨l, st'⟩, h1, h2⟩ := bind_ok hi
    simp only [Reply.ok.injEq, Prod.mk.injEq] at h2
    exact .inl ⟨st, l, st', rfl, h1, h2.1.symm, h2.2.symm⟩
  | none =>
    rw [hb] at hi
    simp only at hi
    cases hl : get h.logs id with
    | some st =>
      rw [hl] at hi
      simp only at hi
      cases hf : filterLogs A maxRange now st with
      | ok r =>
        rw [hf] at hi
        simp only [Reply.ok.injEq, Prod.mk.injEq] at hi
        exact .inr (.inl ⟨rfl, st, r.1, r.2, rfl, hf, hi.1.symm, hi.2.symm⟩)
      | err e =>
        rw [hf] at hi
        simp only [Reply.ok.injEq, Prod.mk.injEq] at hi
        exact .inr (.inr (.inl ⟨rfl, st, e, rfl, hf, hi.1.symm, hi.2.symm⟩))
      | panic => rw [hf] at hi; simp at hi
    | none =>
      rw [hl] at hi
      simp only [unknownId] at hi
      split at hi
      · simp only [Reply.bind, Reply.ok.injEq, Prod.mk.injEq] at hi
        exact .inr (.inr (.inr ⟨rfl, rfl, hi.1.symm, hi.2.symm⟩))
      · simp [Reply.bind] at hi

/-- The maps keep unique keys. -/
theorem handle_nodup {hash : Block → H256} {maxRange : Nat} {h h' : Hub} {e : Event} {a : Answer}
    (hn : h.Ok) (hs : handle hash maxRange h e = .ok (h', a)) : h'.Ok := by
  unfold handle at hs
  split at hs
  · split at hs
    · simp only [Reply.ok.injEq, Prod.mk.injEq] at hs
      exact hs.1 ▸ hn
    · obtain ⟨_, _, hs⟩ := bind_ok hs
      obtain ⟨_, _, hs⟩ := bind_ok hs
      simp only [Reply.ok.injEq, Prod.mk.injEq] at hs
      exact hs.1 ▸ ⟨nodupKeys_put hn.logs _ _, hn.blocks⟩
  · obtain ⟨_, _, hs⟩ := bind_ok hs
    simp only [Reply.ok.injEq, Prod.mk.injEq] at hs
    exact hs.1 ▸ ⟨hn.logs, nodupKeys_put hn.blocks _ _⟩
  · rcases implFilter_ok hs with ⟨_, _, _, _, _, rfl, _⟩ | ⟨_, _, _, _, _, _, rfl, _⟩ |
      ⟨_, _, _, _, _, rfl, _⟩ | ⟨_, _, rfl, _⟩
    · exact ⟨hn.logs, nodupKeys_put hn.blocks _ _⟩
    · exact ⟨nodupKeys_put hn.logs _ _, hn.blocks⟩
    · exact ⟨nodupKeys_del hn.logs _, hn.blocks⟩
    · exact hn
  · split at hs
    · simp only [Reply.ok.injEq, Prod.mk.injEq] at hs
      exact hs.1 ▸ ⟨hn.logs, nodupKeys_del hn.blocks _⟩
    · simp only [Reply.ok.injEq, Prod.mk.injEq] at hs
      exact hs.1 ▸ ⟨nodupKeys_del hn.logs _, hn.blocks⟩
  · simp only [Reply.ok.injEq, Prod.mk.injEq] at hs
    exact hs.1 ▸ ⟨nodupKeys_filter hn.logs _, nodupKeys_filter hn.blocks _⟩

/-- What a command that is not a poll of `id` does to filter `id`: it stays as it is or goes. -/
theorem handle_other {hash : Block → H256} {maxRange : Nat} {h h' : Hub} {e : Event} {a : Answer}
    (hn : h.Ok) (hs : handle hash maxRange h e = .ok (h', a)) (id : U256) (hnew : notNew id e)
    (hreq : e.cmd ≠ .request id) :
    (get h'.blocks id = get h.blocks id ∨ get h'.blocks id = none) ∧
    (get h'.logs id = get h.logs id ∨ get h'.logs id = none) ∧
    gotBlocks id e a = none ∧ gotLogs id e a = none := by
  unfold handle at hs
  unfold notNew at hnew
  unfold gotBlocks gotLogs
  split at hs
  · rename_i f i hc
    rw [hc] at hnew
    simp only [hc, and_true]
    split at hs
    · simp only [Reply.ok.injEq, Prod.mk.injEq] at hs
      simp [hs.1.symm]
    · obtain ⟨_, _, hs⟩ := bind_ok hs
      obtain ⟨_, _, hs⟩ := bind_ok hs
      simp only [Reply.ok.injEq, Prod.mk.injEq] at hs
      rw [hs.1.symm]
      simp only [get_put, hnew.symm, if_false, true_or, and_self]
  · rename_i i hc
    rw [hc] at hnew
    simp only [hc, and_true]
    obtain ⟨_, _, hs⟩ := bind_ok hs
    simp only [Reply.ok.injEq, Prod.mk.injEq] at hs
    rw [hs.1.symm]
    simp only [get_put, hnew.symm, if_false, true_or, and_self]
  · rename_i i hc
    have hi : i ≠ id := by
      intro h
      exact hreq (by rw [hc, h])
    simp only [hc]
    rcases implFilter_ok hs with ⟨_, _, _, _, _, rfl, rfl⟩ | ⟨_, _, _, _, _, _, rfl, rfl⟩ |
      ⟨_, _, _, _, _, rfl, rfl⟩ | ⟨_, _, rfl, rfl⟩ <;>
      simp [get_put, get_del, hi, hi.symm]
  · rename_i i hc
    simp only [hc, and_true]
    split at hs
    · simp only [Reply.ok.injEq, Prod.mk.injEq] at hs
      rw [hs.1.symm]
      simp only [get_del]
      split <;> simp
    · simp only [Reply.ok.injEq, Prod.mk.injEq] at hs
      rw [hs.1.symm]
      simp only [get_del]
      split <;> simp
  · rename_i hc
    simp only [hc, and_true]
    simp only [Reply.ok.injEq, Prod.mk.injEq] at hs
    rw [hs.1.symm]
    simp only [checkHubs, get_filter hn.logs, get_filter hn.blocks]
    constructor
    · cases get h.blocks id with
      | none => simp
      | some v => by_cases hv : e.now - v.2 < 40 <;> simp [Option.filter, hv]
    · cases get h.logs id with
      | none => simp
      | some v => by_cases hv : e.now - v.2 < 40 <;> simp [Option.filter, hv]

/-! ## C47 -/

theorem latest_of_serves {A : Adapter} {c : List Full} (hA : Serves A c) :
    ∃ f, c[c.length - 1]? = some f ∧ A.latest = some f.block ∧
      f.block.header.number.val = c.length - 1 := by
  have hpos : 0 < c.length := List.length_pos_iff.2 hA.wf.nonempty
  have h1 : c[c.length - 1]? = some c[c.length - 1] := List.getElem?_eq_getElem (by omega)
  refine ⟨_, h1, ?_, hA.wf.number _ _ h1⟩
  rw [hA.latest, List.getLast?_eq_getElem?, h1]
  rfl

theorem blockHashes_spec (hash : Block → H256) {A : Adapter} {c : List Full} (hA : Serves A c)
    (k : Nat) : ∀ s, s + k ≤ c.length →
      blockHashes hash A (List.range' s k) =
        .ok (((c.drop s).take k).map fun f => hash f.block) := by
  induction k with
  | zero => intro s _; simp [blockHashes]
  | succ k ih =>
    intro s hs
    rw [List.range'_succ, blockHashes, hA.block s, List.getElem?_eq_getElem (by omega),
      ih (s + 1) (by omega), List.drop_eq_getElem_cons (show s < c.length by omega)]
    rfl

theorem filterBlock_spec (hash : Block → H256) {A : Adapter} {c : List Full} (hA : Serves A c)
    (now n t : Nat) :
    filterBlock hash A now (n, t) =
      if c.length - 1 ≤ n then .ok ([], (n, t))
      else .ok ((c.drop (n + 1)).map fun f => hash f.block, (c.length - 1, now)) := by
  obtain ⟨f, h1, h2, h3⟩ := latest_of_serves hA
  unfold filterBlock
  rw [h2]
  simp only [Reply.unwrap, Reply.bind, h3]
  split
  · rfl
  · rename_i hlt
    have hpos : 0 < c.length := List.length_pos_iff.2 hA.wf.nonempty
    rw [blockHashes_spec hash hA _ _ (by omega)]
    simp only [Reply.ok.injEq, Prod.mk.injEq, and_true]
    have h4 : (c.drop (n + 1)).take (c.length - 1 - (n + 1)) ++ [f] = c.drop (n + 1) := by
      have e1 : (c.drop (n + 1)).length = (c.length - 1 - (n + 1)) + 1 := by
        rw [List.length_drop]; omega
      have e2 : (c.drop (n + 1))[c.length - 1 - (n + 1)]? = some f := by
        rw [List.getElem?_drop, ← h1]
        congr 1
        omega
      have e3 := List.take_add_one (l := c.drop (n + 1)) (i := c.length - 1 - (n + 1))
      rw [← e1, List.take_length, e2] at e3
      exact e3.symm
    conv => rhs; rw [← h4]
    rw [List.map_append]
    rfl

theorem run_cons {hash : Block → H256} {maxRange : Nat} {h h' : Hub} {e : Event} {es : List Event}
    {as : List Answer} (hr : run hash maxRange h (e :: es) = .ok (h', as)) :
    ∃ h1 a as', handle hash maxRange h e = .ok (h1, a) ∧ run hash maxRange h1 es = .ok (h', as') ∧
      as = a :: as' := by
  rw [run] at hr
  obtain ⟨⟨h1, a⟩, hs, hr⟩ := bind_ok hr
  obtain ⟨⟨h2, as'⟩, hr', heq⟩ := bind_ok hr
  simp only [Reply.ok.injEq, Prod.mk.injEq] at heq
  exact ⟨h1, a, as', step_handle hs, by rw [hr', heq.1], heq.2.symm⟩

/-- A filter that is gone contributes nothing more. -/
theorem gone {hash : Block → H256} {maxRange : Nat} (id : U256) (tl : List (Event × List Full)) :
    ∀ (h h' : Hub) (as : List Answer) (last : Option (List Full)), h.Ok →
      get h.blocks id = none → get h.logs id = none → (∀ p ∈ tl, notNew id p.1) →
      run hash maxRange h (tl.map (·.1)) = .ok (h', as) →
      polled (gotBlocks id) tl as = [] ∧ lastPoll (gotBlocks id) last tl as = last ∧
      polled (gotLogs id) tl as = [] ∧ lastPoll (gotLogs id) last tl as = last := by
  induction tl with
  | nil => intro h h' as last _ _ _ _ _; simp [polled, lastPoll]
  | cons p tl ih =>
    intro h h' as last hn hb hl hnew hr
    obtain ⟨h1, a, as', hh, hr', rfl⟩ := run_cons hr
    have hn1 := handle_nodup hn hh
    obtain ⟨e, c⟩ := p
    have hnw := hnew (e, c) (by simp)
    have key : get h1.blocks id = none ∧ get h1.logs id = none ∧ gotBlocks id e a = none ∧
        gotLogs id e a = none := by
      by_cases hreq : e.cmd = .request id
      · simp only [handle, hreq] at hh
        rcases implFilter_ok hh with ⟨_, _, _, h3, _⟩ | ⟨_, _, _, _, h3, _⟩ |
          ⟨_, _, _, h3, _⟩ | ⟨_, _, rfl, rfl⟩
        · rw [hb] at h3; simp at h3
        · rw [hl] at h3; simp at h3
        · rw [hl] at h3; simp at h3
        · simp [hb, hl, gotBlocks, gotLogs, hreq]
      · obtain ⟨k1, k2, k3, k4⟩ := handle_other hn hh id hnw hreq
        rw [hb] at k1
        rw [hl] at k2
        exact ⟨by simpa using k1, by simpa using k2, k3, k4⟩
    obtain ⟨g1, g2, g3, g4⟩ := ih h1 h' as' last hn1 key.1 key.2.1
      (fun p hp => hnew p (by simp [hp])) hr'
    simp only [polled, lastPoll, key.2.2.1, key.2.2.2, Option.getD_none, List.nil_append,
      Option.isSome_none, Bool.false_eq_true, if_false]
    exact ⟨g1, g2, g3, g4⟩

theorem prefix_drop {α : Type} {c c' : List α} (h : c <+: c') : ∃ t, c' = c ++ t := by
  obtain ⟨t, ht⟩ := h
  exact ⟨t, ht.symm⟩

theorem blocks_track {hash : Block → H256} {maxRange : Nat} (id : U256)
    (tl : List (Event × List Full)) :
    ∀ (h h' : Hub) (as : List Answer) (c0 seen cur : List Full) (t : Nat), h.Ok →
      get h.blocks id = some (seen.length - 1, t) → get h.logs id = none → seen ≠ [] →
      c0 <+: seen → seen <+: cur → Grows cur tl →
      (∀ p ∈ tl, notNew id p.1) → run hash maxRange h (tl.map (·.1)) = .ok (h', as) →
      ((seen.drop c0.length).map fun f => hash f.block) ++ polled (gotBlocks id) tl as =
        (((lastPoll (gotBlocks id) (some seen) tl as).getD c0).drop c0.length).map
          fun f => hash f.block := by
  induction tl with
  | nil => intro h h' as c0 seen cur t _ _ _ _ _ _ _ _ _; simp [polled, lastPoll]
  | cons p tl ih =>
    intro h h' as c0 seen cur t hn hb hl hse hc0 hsc hg hnew hr
    obtain ⟨h1, a, as', hh, hr', rfl⟩ := run_cons hr
    have hn1 := handle_nodup hn hh
    obtain ⟨e, c⟩ := p
    obtain ⟨hgc, hA, hg'⟩ := hg
    have hnw := hnew (e, c) (by simp)
    have hnew' : ∀ p ∈ tl, notNew id p.1 := fun p hp => hnew p (by simp [hp])
    have hsc' : seen <+: c := hsc.trans hgc
    have hlen := hsc'.length_le
    have hpos : 0 < seen.length := List.length_pos_iff.2 hse
    by_cases hreq : e.cmd = .request id
    · simp only [handle, hreq] at hh
      rcases implFilter_ok hh with ⟨st, l, st', h3, h4, rfl, rfl⟩ | ⟨h3, _⟩ | ⟨h3, _⟩ | ⟨h3, _⟩
      · rw [hb] at h3
        cases h3
        rw [filterBlock_spec hash hA] at h4
        have hgot : gotBlocks id e (.blocks l) = some l := by simp [gotBlocks, hreq]
        simp only [polled, lastPoll, hgot, Option.isSome_some, if_true, Option.getD_some]
        split at h4
        · rename_i hle
          simp only [Reply.ok.injEq, Prod.mk.injEq] at h4
          have hcs : c = seen := by
            obtain ⟨t', rfl⟩ := prefix_drop hsc'
            rw [List.length_append] at hle
            have : t' = [] := List.eq_nil_of_length_eq_zero (by omega)
            rw [this, List.append_nil]
          rw [← h4.1, List.nil_append, hcs]
          exact ih _ h' as' c0 seen c t hn1 (by rw [get_put, if_pos rfl, ← h4.2]) hl hse hc0 hsc'
            hg' hnew' hr'
        · rename_i hlt
          simp only [Reply.ok.injEq, Prod.mk.injEq] at h4
          have hcne : c ≠ [] := hA.wf.nonempty
          have := ih _ h' as' c0 c c e.now hn1 (by rw [get_put, if_pos rfl, ← h4.2]) hl hcne
            (hc0.trans hsc') (List.prefix_refl _) hg' hnew' hr'
          rw [← this, ← h4.1, ← List.append_assoc, ← List.map_append]
          congr 2
          rw [show seen.length - 1 + 1 = seen.length by omega]
          obtain ⟨t', rfl⟩ := prefix_drop hsc'
          rw [List.drop_left, List.drop_append_of_le_length hc0.length_le]
      · rw [hb] at h3; simp at h3
      · rw [hb] at h3; simp at h3
      · rw [hb] at h3; simp at h3
    · obtain ⟨k1, k2, k3, _⟩ := handle_other hn hh id hnw hreq
      rw [hl] at k2
      have k2 : get h1.logs id = none := by simpa using k2
      simp only [polled, lastPoll, k3, Option.getD_none, List.nil_append, Option.isSome_none,
        Bool.false_eq_true, if_false]
      rcases k1 with k1 | k1
      · rw [hb] at k1
        exact ih h1 h' as' c0 seen c t hn1 k1 k2 hse hc0 hsc' hg' hnew' hr'
      · obtain ⟨g1, g2, _⟩ := gone id tl h1 h' as' (some seen) hn1 k1 k2 hnew' hr'
        rw [g1, g2, List.append_nil]
        rfl

/-- **C47.** For every history over a growing chain in which block filter `id` is created and which
does not stop the node: the answers to its polls, put together, are the hashes of the blocks after
its creation up to the chain at its last answered poll, in order, each once — whatever else happens
in between, including the removal of the filter. -/
theorem C47_blocks_once {hash : Block → H256} {maxRange : Nat} (h h' : Hub) (hn : h.Ok)
    (id : U256) (hfresh : get h.logs id = none) (e0 : Event) (c0 : List Full)
    (he : e0.cmd = .newBlocks id) (hA : Serves e0.adapter c0) (tl : List (Event × List Full))
    (hg : Grows c0 tl) (hnew : ∀ p ∈ tl, notNew id p.1) (a : Answer) (as : List Answer)
    (hr : run hash maxRange h (e0 :: tl.map (·.1)) = .ok (h', a :: as)) :
    a = .id id ∧
    polled (gotBlocks id) tl as =
      (((lastPoll (gotBlocks id) none tl as).getD c0).drop c0.length).map fun f => hash f.block := by
  obtain ⟨h1, a', as', hh, hr', heq⟩ := run_cons hr
  cases heq
  have hn1 := handle_nodup hn hh
  obtain ⟨f, h2, h3, h4⟩ := latest_of_serves hA
  simp only [handle, he, h3, Reply.unwrap, Reply.bind, Reply.ok.injEq, Prod.mk.injEq] at hh
  refine ⟨hh.2.symm, ?_⟩
  have hpos := List.length_pos_iff.2 hA.wf.nonempty
  have := blocks_track id tl h1 h' as c0 c0 c0 e0.now hn1
    (by rw [← hh.1, h4]; simp [get_put]) (by rw [← hh.1]; exact hfresh) hA.wf.nonempty
    (List.prefix_refl _) (List.prefix_refl _) hg hnew hr'
  rw [List.drop_length, List.map_nil, List.nil_append] at this
  rw [this]
  have hlast : ∀ (tl : List (Event × List Full)) (as : List Answer) (x : List Full),
      (lastPoll (gotBlocks id) (some x) tl as).getD x = (lastPoll (gotBlocks id) none tl as).getD x := by
    intro tl
    induction tl with
    | nil => intro as x; simp [lastPoll]
    | cons p tl ih =>
      intro as x
      cases as with
      | nil => simp [lastPoll]
      | cons a as =>
        simp only [lastPoll]
        split
        · rfl
        · exact ih as x
  rw [hlast]

/-- What becomes of block filter `id` in one command: it goes exactly when it is uninstalled or the
timer finds it unused for 40 seconds; the time of use is that of the last poll that brought
something. -/
theorem C47_kept {hash : Block → H256} {maxRange : Nat} {h h' : Hub} {e : Event} {a : Answer}
    (hn : h.Ok) (hs : step hash maxRange h e = .ok (h', a)) (id : U256) (hnew : notNew id e)
    (n t : Nat) (hb : get h.blocks id = some (n, t)) (c : List Full) (hA : Serves e.adapter c) :
    get h'.blocks id =
      match e.cmd with
      | .uninstall i => if i = id then none else some (n, t)
      | .tick => if t + 40 ≤ e.now then none else some (n, t)
      | .request i => if i = id ∧ n < c.length - 1 then some (c.length - 1, e.now) else some (n, t)
      | _ => some (n, t) := by
  have hh := step_handle hs
  unfold handle at hh
  unfold notNew at hnew
  split at hh
  · rename_i f i hc
    simp only [hc]
    split at hh
    · simp only [Reply.ok.injEq, Prod.mk.injEq] at hh
      rw [← hh.1, hb]
    · obtain ⟨_, _, hh⟩ := bind_ok hh
      obtain ⟨_, _, hh⟩ := bind_ok hh
      simp only [Reply.ok.injEq, Prod.mk.injEq] at hh
      rw [← hh.1, hb]
  · rename_i i hc
    rw [hc] at hnew
    simp only [hc]
    obtain ⟨_, _, hh⟩ := bind_ok hh
    simp only [Reply.ok.injEq, Prod.mk.injEq] at hh
    rw [← hh.1]
    simp only [get_put, hnew.symm, if_false, hb]
  · rename_i i hc
    simp only [hc]
    by_cases hi : i = id
    · subst hi
      rcases implFilter_ok hh with ⟨st, l, st', h3, h4, rfl, rfl⟩ | ⟨h3, _⟩ | ⟨h3, _⟩ | ⟨h3, _⟩
      · rw [hb] at h3
        cases h3
        rw [filterBlock_spec hash hA] at h4
        split at h4
        · simp only [Reply.ok.injEq, Prod.mk.injEq] at h4
          rw [if_neg (by omega)]
          simp only [get_put, if_true, ← h4.2]
        · simp only [Reply.ok.injEq, Prod.mk.injEq] at h4
          rw [if_pos ⟨rfl, by omega⟩]
          simp only [get_put, if_true, ← h4.2]
      all_goals rw [hb] at h3; simp at h3
    · rw [if_neg (fun h => hi h.1)]
      rcases implFilter_ok hh with ⟨_, _, _, _, _, rfl, rfl⟩ | ⟨_, _, _, _, _, _, rfl, rfl⟩ |
        ⟨_, _, _, _, _, rfl, rfl⟩ | ⟨_, _, rfl, rfl⟩ <;>
        simp only [get_put, (Ne.symm hi), if_false, hb]
  · rename_i i hc
    simp only [hc]
    by_cases hi : i = id
    · subst hi
      rw [if_pos (by rw [hb]; rfl)] at hh
      simp only [Reply.ok.injEq, Prod.mk.injEq] at hh
      rw [← hh.1]
      simp [get_del]
    · rw [if_neg hi]
      split at hh
      · simp only [Reply.ok.injEq, Prod.mk.injEq] at hh
        rw [← hh.1]
        simp only [get_del, (Ne.symm hi), if_false, hb]
      · simp only [Reply.ok.injEq, Prod.mk.injEq] at hh
        rw [← hh.1, hb]
  · rename_i hc
    simp only [hc]
    simp only [Reply.ok.injEq, Prod.mk.injEq] at hh
    rw [← hh.1]
    simp only [checkHubs, get_filter hn.blocks, hb, Option.filter]
    by_cases hv : t + 40 ≤ e.now
    · rw [if_pos hv, if_neg (by simp; omega)]
    · rw [if_neg hv, if_pos (by simp; omega)]

/-! ## C48 -/

/-- The first block a log filter created at height `latest` looks at. -/
def firstBlock (latest : Nat) : Option BlockId → Nat
  | some (.num n) => if latest ≤ n.val then n.val else latest + 1
  | _ => latest + 1

/-- The last block it looks at when the chain has `n` blocks. -/
def lastBlock (to : Option BlockId) (n : Nat) : Nat := min (boundary (n - 1) to) (n - 1)

/-- All that is due at a chain. -/
def due (f : Filter) (s0 : Nat) : Option (List Full) → List Web3Log
  | none => []
  | some c => rangeEntries f.address f.topics c s0 (lastBlock f.toBlock c.length)

theorem collectLogs_spec (addr : MultiAddr) (topics : Option (List MultiNest))
    (h : (topics.getD []).length ≤ 4) (f : Full) :
    collectLogs (compile topics) (addr.toOption.getD []) (f.receipts.map some) =
      blockEntries addr topics f := by
  unfold collectLogs blockEntries
  rw [filterMap_map_some]
  congr 1
  funext p
  exact C49_match_partial addr topics h p.2 p.1

theorem collectRange_spec {A : Adapter} {chain : List Full} (hA : Serves A chain)
    (addr : MultiAddr) (topics : Option (List MultiNest)) (h : (topics.getD []).length ≤ 4)
    (latest : Nat) (ns : List Nat) (hns : ∀ n ∈ ns, n < chain.length) :
    collectRange A (compile topics) (addr.toOption.getD []) latest ns =
      .ok ((ns.filter (· ≠ latest)).flatMap (at' addr topics chain)) := by
  induction ns with
  | nil => rfl
  | cons n ns ih =>
    have ih := ih (fun m hm => hns m (by simp [hm]))
    rw [collectRange]
    by_cases hn : n = latest
    · rw [if_pos hn, List.filter_cons_of_neg (by simp [hn])]
      exact ih
    · rw [if_neg hn, List.filter_cons_of_pos (by simp [hn]), List.flatMap_cons]
      have hlt : n < chain.length := hns n (by simp)
      have hg : chain[n]? = some chain[n] := List.getElem?_eq_getElem hlt
      rw [hA.block n, hg]
      simp only [Reply.internal, Reply.bind, Option.map_some, Reply.unwrap]
      rw [hA.wf.number n _ hg, hA.receipts n _ hg]
      simp only
      rw [ih]
      simp only [Reply.ok.injEq]
      rw [collectLogs_spec addr topics h]
      simp only [at', hg]
      rfl

/-- The answer of a log filter that stands at block `cur`. -/
theorem filterLogs_spec {A : Adapter} {c : List Full} (hA : Serves A c) (maxRange now t : Nat)
    (raw : Filter) (ht : (raw.topics.getD []).length ≤ 4) (cur : U64) :
    let f := { LoggerFilter.ofRaw raw with fromBlock := some (.num cur) }
    let stop := lastBlock raw.toBlock c.length
    filterLogs A maxRange now (f, t) =
      if c.length - 1 < cur.val then .ok ([], (f, t))
      else if cur.val + maxRange < stop then .err (.invalidBlockRange cur.val stop maxRange)
      else match UIntN.ofNat? 64 (stop + 1) with
        | none => .panic
        | some n => .ok (rangeEntries raw.address raw.topics c cur.val stop,
            ({ f with fromBlock := some (.num n) }, now)) := by
  intro f stop
  obtain ⟨lf, h1, h2, h3⟩ := latest_of_serves hA
  have he : min ((raw.toBlock.map (convertId (c.length - 1))).getD (c.length - 1)) (c.length - 1) =
      stop := by
    simp only [stop, lastBlock, boundary]
    cases raw.toBlock with
    | none => rfl
    | some b => cases b <;> rfl
  unfold filterLogs
  rw [h2]
  simp only [Reply.internal, Reply.bind, h3, f, LoggerFilter.ofRaw, Option.map_some, Option.getD_some,
    he, convertId]
  by_cases c1 : c.length - 1 < cur.val
  · rw [if_pos c1, if_pos c1]
  rw [if_neg c1, if_neg c1]
  by_cases c2 : cur.val + maxRange < stop
  · rw [if_pos c2, if_pos (by omega)]
  rw [if_neg c2, if_neg (by omega)]
  have hle : stop ≤ c.length - 1 := Nat.min_le_right _ _
  have hpos : 0 < c.length := List.length_pos_iff.2 hA.wf.nonempty
  rw [collectRange_spec hA raw.address raw.topics ht _ _ (fun n hn => by
    have := (rangeIncl_mem _ _ n).1 hn
    omega)]
  simp only
  have hall := filter_rangeIncl cur.val stop (c.length - 1) (by omega) hle
    (at' raw.address raw.topics c)
  rw [rangeIncl, range_entries] at hall
  have hend : (if (rangeIncl cur.val stop).contains (c.length - 1) = true then
      ((Reply.internal (A.receipts (c.length - 1) lf.block.txHashes)).bind fun rs =>
        .ok (((rangeIncl cur.val stop).filter (· ≠ c.length - 1)).flatMap
          (at' raw.address raw.topics c) ++ collectLogs (compile raw.topics)
            (raw.address.toOption.getD []) rs))
      else Reply.ok (((rangeIncl cur.val stop).filter (· ≠ c.length - 1)).flatMap
        (at' raw.address raw.topics c))) =
      .ok (rangeEntries raw.address raw.topics c cur.val stop) := by
    unfold rangeEntries
    rw [hall]
    show _ = Reply.ok (((rangeIncl cur.val stop).filter (· ≠ c.length - 1)).flatMap
        (at' raw.address raw.topics c) ++ if (rangeIncl cur.val stop).contains (c.length - 1) = true
          then _ else _)
    split
    · rw [hA.receipts _ _ h1]
      simp only [Reply.internal, Reply.bind]
      rw [collectLogs_spec raw.address raw.topics ht]
      simp only [at', h1]
      rfl
    · rw [List.append_nil]
  simp only [Reply.internal, Reply.bind] at hend
  rw [hend]
  simp only [advance]
  cases UIntN.ofNat? 64 (stop + 1) <;> rfl

theorem ofNat?_some {k m : Nat} {n : UIntN k} (h : UIntN.ofNat? k m = some n) : n.val = m := by
  unfold UIntN.ofNat? at h
  split at h
  · cases h; rfl
  · simp at h

theorem rangeEntries_prefix (addr : MultiAddr) (topics : Option (List MultiNest))
    {c c' : List Full} (h : c <+: c') (s e : Nat) (he : e < c.length) :
    rangeEntries addr topics c s e = rangeEntries addr topics c' s e := by
  obtain ⟨t, rfl⟩ := prefix_drop h
  unfold rangeEntries
  congr 1
  by_cases hs : s ≤ c.length
  · rw [List.drop_append_of_le_length hs, List.take_append_of_le_length (by simp; omega)]
  · rw [show e + 1 - s = 0 by omega]
    simp

theorem rangeEntries_empty (addr : MultiAddr) (topics : Option (List MultiNest)) (c : List Full)
    (s e : Nat) (h : e < s) : rangeEntries addr topics c s e = [] := by
  unfold rangeEntries
  rw [show e + 1 - s = 0 by omega]
  simp

theorem rangeEntries_split (addr : MultiAddr) (topics : Option (List MultiNest)) (c : List Full)
    (s m e : Nat) (h : s ≤ m + 1) (h' : m ≤ e) :
    rangeEntries addr topics c s m ++ rangeEntries addr topics c (m + 1) e =
      rangeEntries addr topics c s e := by
  unfold rangeEntries
  rw [← List.flatMap_append]
  congr 1
  have : c.drop (m + 1) = (c.drop s).drop (m + 1 - s) := by
    rw [List.drop_drop]; congr 1; omega
  rw [this, ← List.take_add]
  congr 1
  omega

/-- Where a filter stands after the last answered poll. -/
def StandsAt (raw : Filter) (s0 : Nat) (cur : Nat) : Option (List Full) → Prop
  | none => cur = s0
  | some c => (c.length - 1 < s0 ∧ cur = s0) ∨
      (s0 ≤ c.length - 1 ∧ cur = lastBlock raw.toBlock c.length + 1)

/-- What is due at the longer chain is what was due and the blocks from where the filter stands. -/
theorem due_step (raw : Filter) (s0 cur : Nat) (last : Option (List Full)) (c : List Full)
    (hlast : ∀ l, last = some l → l ≠ [] ∧ l <+: c) (hst : StandsAt raw s0 cur last)
    (hcur : cur ≤ c.length - 1) :
    due raw s0 last ++ rangeEntries raw.address raw.topics c cur (lastBlock raw.toBlock c.length) =
      due raw s0 (some c) ∧ s0 ≤ c.length - 1 := by
  cases last with
  | none =>
    simp only [StandsAt] at hst
    subst hst
    exact ⟨by simp [due], hcur⟩
  | some l =>
    obtain ⟨hlne, hl⟩ := hlast l rfl
    have hlen := hl.length_le
    have hpos : 0 < l.length := List.length_pos_iff.2 hlne
    rcases hst with ⟨h1, rfl⟩ | ⟨h1, rfl⟩
    · refine ⟨?_, hcur⟩
      simp only [due]
      have : rangeEntries raw.address raw.topics l cur (lastBlock raw.toBlock l.length) = [] := by
        unfold rangeEntries
        rw [List.drop_eq_nil_of_le (by omega)]
        simp
      rw [this, List.nil_append]
    · refine ⟨?_, by omega⟩
      simp only [due]
      have hle : lastBlock raw.toBlock l.length ≤ l.length - 1 := Nat.min_le_right _ _
      rw [rangeEntries_prefix _ _ hl _ _ (by omega)]
      have hmono : lastBlock raw.toBlock l.length ≤ lastBlock raw.toBlock c.length ∧
          (lastBlock raw.toBlock l.length + 1 < s0 →
            lastBlock raw.toBlock c.length = lastBlock raw.toBlock l.length) := by
        unfold lastBlock boundary
        split <;> omega
      by_cases hs : s0 ≤ lastBlock raw.toBlock l.length + 1
      · rw [rangeEntries_split _ _ _ _ _ _ hs hmono.1]
      · have := hmono.2 (by omega)
        rw [this, rangeEntries_empty _ _ _ _ _ (by omega), rangeEntries_empty _ _ _ _ _ (by omega)]
        rfl

theorem due_idle (raw : Filter) (s0 cur : Nat) (last : Option (List Full)) (c : List Full)
    (hne : c ≠ []) (hlast : ∀ l, last = some l → l ≠ [] ∧ l <+: c) (hst : StandsAt raw s0 cur last)
    (hcur : c.length - 1 < cur) :
    due raw s0 last = due raw s0 (some c) ∧ StandsAt raw s0 cur (some c) := by
  have hpos : 0 < c.length := List.length_pos_iff.2 hne
  have hnil : ∀ (x : List Full) (e : Nat), x.length ≤ s0 →
      rangeEntries raw.address raw.topics x s0 e = [] := by
    intro x e hx
    unfold rangeEntries
    rw [List.drop_eq_nil_of_le hx]
    simp
  cases last with
  | none =>
    simp only [StandsAt] at hst
    exact ⟨by simp only [due]; rw [hnil c _ (by omega)], .inl ⟨by omega, hst⟩⟩
  | some l =>
    obtain ⟨hlne, hl⟩ := hlast l rfl
    have hlen := hl.length_le
    rcases hst with ⟨h1, h2⟩ | ⟨h1, h2⟩
    · exact ⟨by simp only [due]; rw [hnil c _ (by omega), hnil l _ (by omega)], .inl ⟨by omega, h2⟩⟩
    · have hle : lastBlock raw.toBlock l.length ≤ l.length - 1 := Nat.min_le_right _ _
      have hlp : 0 < l.length := List.length_pos_iff.2 hlne
      have : l = c := hl.eq_of_length (by omega)
      subst this
      exact ⟨rfl, .inr ⟨h1, h2⟩⟩

theorem logs_track {hash : Block → H256} {maxRange : Nat} (id : U256) (raw : Filter)
    (ht : (raw.topics.getD []).length ≤ 4) (s0 : Nat) (tl : List (Event × List Full)) :
    ∀ (h h' : Hub) (as : List Answer) (last : Option (List Full)) (here : List Full) (cur : U64)
      (t : Nat), h.Ok → get h.blocks id = none →
      get h.logs id = some ({ LoggerFilter.ofRaw raw with fromBlock := some (.num cur) }, t) →
      StandsAt raw s0 cur.val last → (∀ l, last = some l → l ≠ [] ∧ l <+: here) →
      Grows here tl → (∀ p ∈ tl, notNew id p.1) →
      run hash maxRange h (tl.map (·.1)) = .ok (h', as) →
      due raw s0 last ++ polled (gotLogs id) tl as =
        due raw s0 (lastPoll (gotLogs id) last tl as) := by
  induction tl with
  | nil => intro h h' as last here cur t _ _ _ _ _ _ _ _; simp [polled, lastPoll]
  | cons p tl ih =>
    intro h h' as last here cur t hn hb hl hst hlast hg hnew hr
    obtain ⟨h1, a, as', hh, hr', rfl⟩ := run_cons hr
    have hn1 := handle_nodup hn hh
    obtain ⟨e, c⟩ := p
    obtain ⟨hgc, hA, hg'⟩ := hg
    have hnw := hnew (e, c) (by simp)
    have hnew' : ∀ p ∈ tl, notNew id p.1 := fun p hp => hnew p (by simp [hp])
    have hlast' : ∀ l, last = some l → l ≠ [] ∧ l <+: c :=
      fun l hl => ⟨(hlast l hl).1, (hlast l hl).2.trans hgc⟩
    by_cases hreq : e.cmd = .request id
    · simp only [handle, hreq] at hh
      rcases implFilter_ok hh with ⟨_, _, _, h3, _⟩ | ⟨_, st, l, st', h3, h4, rfl, rfl⟩ |
        ⟨_, st, er, h3, h4, rfl, rfl⟩ | ⟨_, h3, _⟩
      · rw [hb] at h3; simp at h3
      · rw [hl] at h3
        cases h3
        rw [filterLogs_spec hA _ _ _ raw ht] at h4
        have hgot : gotLogs id e (.logs l) = some l := by simp [gotLogs, hreq]
        simp only [polled, lastPoll, hgot, Option.isSome_some, if_true, Option.getD_some]
        split at h4
        · rename_i hlt
          simp only [Reply.ok.injEq, Prod.mk.injEq] at h4
          obtain ⟨hdue, hst'⟩ := due_idle raw s0 cur.val last c hA.wf.nonempty hlast' hst hlt
          have := ih _ h' as' (some c) c cur t hn1 hb (by rw [get_put, if_pos rfl, ← h4.2])
            hst' (fun l hl => by cases hl; exact ⟨hA.wf.nonempty, List.prefix_refl _⟩)
            hg' hnew' hr'
          rw [← h4.1, hdue, List.nil_append, this]
        · rename_i hge
          split at h4
          · simp at h4
          · split at h4
            · simp at h4
            · rename_i n hn'
              simp only [Reply.ok.injEq, Prod.mk.injEq] at h4
              obtain ⟨hd, hs0⟩ := due_step raw s0 cur.val last c hlast' hst (by omega)
              have := ih _ h' as' (some c) c n e.now hn1 hb (by rw [get_put, if_pos rfl, ← h4.2])
                (.inr ⟨hs0, ofNat?_some hn'⟩)
                (fun l hl => by cases hl; exact ⟨hA.wf.nonempty, List.prefix_refl _⟩)
                hg' hnew' hr'
              rw [← this, ← hd, ← h4.1, List.append_assoc]
      · obtain ⟨_, _, g1, g2⟩ := gone id tl _ h' as' last hn1 hb (by simp [get_del]) hnew' hr'
        simp only [polled, lastPoll]
        have : gotLogs id e (.err er) = none := by simp [gotLogs, hreq]
        simp only [this, Option.getD_none, List.nil_append, Option.isSome_none, Bool.false_eq_true,
          if_false, g1, g2, List.append_nil]
      · rw [hl] at h3; simp at h3
    · obtain ⟨k1, k2, _, k3⟩ := handle_other hn hh id hnw hreq
      rw [hb] at k1
      have k1 : get h1.blocks id = none := by simpa using k1
      simp only [polled, lastPoll, k3, Option.getD_none, List.nil_append, Option.isSome_none,
        Bool.false_eq_true, if_false]
      rcases k2 with k2 | k2
      · rw [hl] at k2
        exact ih h1 h' as' last c cur t hn1 k1 k2 hst hlast' hg' hnew' hr'
      · obtain ⟨_, _, g1, g2⟩ := gone id tl h1 h' as' last hn1 k1 k2 hnew' hr'
        rw [g1, g2, List.append_nil]

theorem startOf_eq (latest : U64) (o : Option BlockId) (s : BlockId) (h : startOf latest o = some s) :
    ∃ n : U64, s = .num n ∧ n.val = firstBlock latest.val o := by
  have hnext : ∀ s, (UIntN.ofNat? 64 (latest.val + 1)).map BlockId.num = some s →
      ∃ n : U64, s = .num n ∧ n.val = latest.val + 1 := by
    intro s h
    rw [Option.map_eq_some_iff] at h
    obtain ⟨n, h1, rfl⟩ := h
    exact ⟨n, rfl, ofNat?_some h1⟩
  unfold startOf at h
  cases o with
  | none => exact hnext s h
  | some b =>
    cases b with
    | num n =>
      simp only [Option.getD_some] at h
      simp only [firstBlock]
      split at h
      · rw [if_neg (by omega)]; exact hnext s h
      · rw [if_pos (by omega)]
        cases h
        exact ⟨n, rfl, rfl⟩
    | hash => exact hnext s h
    | latest => exact hnext s h
    | earliest => exact hnext s h
    | pending => exact hnext s h

/-- **C48 (part).** For every history over a growing chain in which log filter `id` is created and
which does not stop the node: the answers to its polls, put together, are exactly the selected logs
of the blocks from its start to its upper boundary or the last block of the chain at its last
answered poll, in chain order, each once.  The start is the block after the latest one at the
creation, or the given number if that block is not older than the latest one.  Missing: given
older blocks (`C48_past_false`), patterns of more than four positions (`C49_long_false`). -/
theorem C48_logs_once_partial {hash : Block → H256} {maxRange : Nat} (h h' : Hub) (hn : h.Ok)
    (id : U256) (hfresh : get h.blocks id = none) (raw : Filter)
    (ht : (raw.topics.getD []).length ≤ 4) (e0 : Event) (c0 : List Full)
    (he : e0.cmd = .newLogs raw id) (hA : Serves e0.adapter c0) (tl : List (Event × List Full))
    (hg : Grows c0 tl) (hnew : ∀ p ∈ tl, notNew id p.1) (as : List Answer)
    (hr : run hash maxRange h (e0 :: tl.map (·.1)) = .ok (h', .id id :: as)) :
    polled (gotLogs id) tl as =
      match lastPoll (gotLogs id) none tl as with
      | none => []
      | some c => rangeEntries raw.address raw.topics c (firstBlock (c0.length - 1) raw.fromBlock)
          (min (boundary (c.length - 1) raw.toBlock) (c.length - 1)) := by
  obtain ⟨h1, a', as', hh, hr', heq⟩ := run_cons hr
  cases heq
  have hn1 := handle_nodup hn hh
  obtain ⟨f, h2, h3, h4⟩ := latest_of_serves hA
  simp only [handle, he] at hh
  split at hh
  · simp at hh
  · rw [h3] at hh
    obtain ⟨_, e1, hh⟩ := bind_ok hh
    simp only [Reply.unwrap, Reply.ok.injEq] at e1
    subst e1
    obtain ⟨s, e2, hh⟩ := bind_ok hh
    simp only [Reply.ok.injEq, Prod.mk.injEq, and_true] at hh
    cases hso : startOf f.block.header.number raw.fromBlock with
    | none => rw [hso] at e2; simp [Reply.unwrap] at e2
    | some s' =>
      rw [hso] at e2
      simp only [Reply.unwrap, Reply.ok.injEq] at e2
      subst e2
      obtain ⟨n, rfl, hval⟩ := startOf_eq _ _ _ hso
      rw [h4] at hval
      have := logs_track id raw ht (firstBlock (c0.length - 1) raw.fromBlock) tl h1 h' as none c0 n
        e0.now hn1 (by rw [← hh]; exact hfresh) (by rw [← hh]; simp [get_put]) hval
        (by simp) hg hnew hr'
      simp only [due, List.nil_append] at this
      rw [this]
      cases lastPoll (gotLogs id) none tl as <;> rfl

/-- **C48 (part).** Which log filters are created: one from `pending`, or up to `earliest` or block 0,
is refused and nothing changes; every other one is answered with its identifier and is there. -/
theorem C48_created_partial {hash : Block → H256} {maxRange : Nat} (h : Hub) (e : Event) (f : Filter)
    (id : U256) (he : e.cmd = .newLogs f id) (latest : Block) (hl : e.adapter.latest = some latest)
    (hlt : latest.header.number.val + 1 < 2 ^ 64) :
    if f.fromBlock = some .pending ∨ f.toBlock = some .earliest ∨
        f.toBlock = some (.num ⟨0, by decide⟩) then
      ∃ err, handle hash maxRange h e = .ok (h, .err err)
    else ∃ h' st, handle hash maxRange h e = .ok (h', .id id) ∧ get h'.logs id = some st ∧
      h'.blocks = h.blocks ∧ ∀ k, k ≠ id → get h'.logs k = get h.logs k := by
  have htest : (newFilterTest f).isSome = true ↔ (f.fromBlock = some .pending ∨
      f.toBlock = some .earliest ∨ f.toBlock = some (.num ⟨0, by decide⟩)) := by
    unfold newFilterTest
    split
    · rename_i hp; simp [hp]
    · rename_i hp
      simp only [hp, false_or]
      split
      · rename_i ht; simp [ht]
      · rename_i n ht
        simp only [ht, Option.some.injEq, reduceCtorEq, BlockId.num.injEq, false_or]
        split
        · rename_i hz
          simp only [Option.isSome_some, true_iff]
          obtain ⟨v, hv⟩ := n
          simp only at hz
          subst hz
          rfl
        · rename_i hz
          simp only [Option.isSome_none, Bool.false_eq_true, false_iff]
          intro hn
          exact hz (by rw [hn])
      · rename_i h1 h2
        simp only [Option.isSome_none, Bool.false_eq_true, false_iff, not_or]
        exact ⟨h1, h2 _⟩
  split
  · rename_i hc
    obtain ⟨err, herr⟩ := Option.isSome_iff_exists.1 (htest.2 hc)
    exact ⟨err, by simp only [handle, he, herr]⟩
  · rename_i hc
    have hnone : newFilterTest f = none := by
      cases hx : newFilterTest f with
      | none => rfl
      | some err => exact absurd (htest.1 (by rw [hx]; rfl)) hc
    have hs : ∃ s, startOf latest.header.number f.fromBlock = some s := by
      unfold startOf
      have : ∃ x, UIntN.ofNat? 64 (latest.header.number.val + 1) = some x := by
        simp [UIntN.ofNat?, hlt]
      obtain ⟨x, hx⟩ := this
      rw [hx]
      split
      · split
        · exact ⟨_, rfl⟩
        · exact ⟨_, rfl⟩
      · exact ⟨_, rfl⟩
    obtain ⟨s, hs⟩ := hs
    refine ⟨{ h with logs := put h.logs id ({ LoggerFilter.ofRaw f with fromBlock := some s }, e.now) },
      ({ LoggerFilter.ofRaw f with fromBlock := some s }, e.now),
      by simp only [handle, he, hnone, hl, hs, Reply.unwrap, Reply.bind], ?_, rfl, ?_⟩
    · exact (get_put ..).trans (if_pos rfl)
    · intro k hk
      exact (get_put ..).trans (if_neg hk)

/-- **C48, the full statement is false.** A filter from an older block — a smaller number or
`earliest` — never reports the logs of the blocks up to its creation: if there is one and a poll
is answered, the answers differ from the logs of the requested range. -/
theorem C48_past_false {hash : Block → H256} {maxRange : Nat} (h h' : Hub) (hn : h.Ok)
    (id : U256) (hfresh : get h.blocks id = none) (raw : Filter)
    (ht : (raw.topics.getD []).length ≤ 4) (e0 : Event) (c0 : List Full)
    (he : e0.cmd = .newLogs raw id) (hA : Serves e0.adapter c0) (tl : List (Event × List Full))
    (hg : Grows c0 tl) (hnew : ∀ p ∈ tl, notNew id p.1) (as : List Answer)
    (hr : run hash maxRange h (e0 :: tl.map (·.1)) = .ok (h', .id id :: as))
    (c : List Full) (hc : lastPoll (gotLogs id) none tl as = some c) (hpre : c0 <+: c)
    (hto : raw.toBlock = none) (n : Nat)
    (hfrom : raw.fromBlock = some .earliest ∧ n = 0 ∨
      ∃ m : U64, raw.fromBlock = some (.num m) ∧ m.val = n ∧ n < c0.length - 1)
    (hpast : rangeEntries raw.address raw.topics c0 n (c0.length - 1) ≠ []) :
    polled (gotLogs id) tl as ≠ rangeEntries raw.address raw.topics c n (c.length - 1) := by
  have hmain := C48_logs_once_partial h h' hn id hfresh raw ht e0 c0 he hA tl hg hnew as hr
  rw [hc] at hmain
  simp only at hmain
  have hfb : firstBlock (c0.length - 1) raw.fromBlock = c0.length - 1 + 1 := by
    rcases hfrom with ⟨hf, _⟩ | ⟨m, hf, hm, hlt⟩
    · rw [hf]; rfl
    · rw [hf]; simp only [firstBlock]; rw [if_neg (by omega)]
  have hn0 : n ≤ c0.length - 1 + 1 := by
    rcases hfrom with ⟨_, rfl⟩ | ⟨m, _, _, hlt⟩ <;> omega
  have hpos : 0 < c0.length := List.length_pos_iff.2 hA.wf.nonempty
  have hlen := hpre.length_le
  rw [hmain, hfb, hto]
  simp only [boundary, Nat.min_self]
  rw [← rangeEntries_split raw.address raw.topics c n (c0.length - 1) (c.length - 1) hn0 (by omega),
    ← rangeEntries_prefix raw.address raw.topics hpre n (c0.length - 1) (by omega)]
  intro heq
  have := congrArg List.length heq
  rw [List.length_append] at this
  exact hpast (List.eq_nil_of_length_eq_zero (by omega))

/-- **C48, the full statement is false.** A poll that finds too many new blocks is answered by an
error, and the filter is gone: the logs of these blocks and of all later ones are not reported. -/
theorem C48_range_false {hash : Block → H256} {maxRange : Nat} (h : Hub) (id : U256)
    (hb : get h.blocks id = none) (raw : Filter) (ht : (raw.topics.getD []).length ≤ 4) (cur : U64)
    (t : Nat) (hl : get h.logs id =
      some ({ LoggerFilter.ofRaw raw with fromBlock := some (.num cur) }, t))
    (e : Event) (he : e.cmd = .request id) (c : List Full) (hA : Serves e.adapter c)
    (hr : cur.val + maxRange < lastBlock raw.toBlock c.length) :
    ∃ h', handle hash maxRange h e =
        .ok (h', .err (.invalidBlockRange cur.val (lastBlock raw.toBlock c.length) maxRange)) ∧
      get h'.blocks id = none ∧ get h'.logs id = none := by
  have hle : lastBlock raw.toBlock c.length ≤ c.length - 1 := Nat.min_le_right _ _
  refine ⟨{ h with logs := del h.logs id }, ?_, hb, by simp [get_del]⟩
  simp only [handle, he, implFilter, hb, hl]
  rw [filterLogs_spec hA _ _ _ raw ht]
  rw [if_neg (by omega), if_pos hr]

/-- **C48, the full statement is false** for `eth_getFilterLogs`, which should report all logs of the
filter: it is answered like a poll, so that on an unchanged chain the second answer is empty. -/
theorem C48_getfilterlogs_false {A : Adapter} {c : List Full} (hA : Serves A c)
    (maxRange now now' t : Nat) (raw : Filter) (ht : (raw.topics.getD []).length ≤ 4)
    (hto : raw.toBlock = none) (cur : U64) (l : List Web3Log) (st : LoggerFilter × Nat)
    (hne : l ≠ [])
    (h1 : filterLogs A maxRange now
      ({ LoggerFilter.ofRaw raw with fromBlock := some (.num cur) }, t) = .ok (l, st)) :
    filterLogs A maxRange now' st = .ok ([], st) := by
  rw [filterLogs_spec hA _ _ _ raw ht] at h1
  split at h1
  · simp only [Reply.ok.injEq, Prod.mk.injEq] at h1
    exact absurd h1.1.symm hne
  · split at h1
    · simp at h1
    · split at h1
      · simp at h1
      · rename_i n hn
        simp only [Reply.ok.injEq, Prod.mk.injEq] at h1
        rw [← h1.2]
        show filterLogs A maxRange now' ({ LoggerFilter.ofRaw raw with fromBlock := some (.num n) }, now) = _
        rw [filterLogs_spec hA _ _ _ raw ht]
        have hv := ofNat?_some hn
        rw [if_pos]
        rw [hv, hto]
        simp only [lastBlock, boundary, Nat.min_self]
        omega

end Axon.Api
