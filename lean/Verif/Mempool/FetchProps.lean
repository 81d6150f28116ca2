import Verif.Mempool.Fetch

/-!
# C23, C56: full transactions in order, and the transactions of a proposal
-/

namespace Axon.Pool
open Axon.Assoc

/-! ## C23 -/

/-- Everything `get_full_txs` does when the storage is read hash by hash: it succeeds iff every hash is in
the pool or in the storage, and then returns the pool's transactions first, each part in the given order. -/
theorem C23_content_partial {pool db : Nat → Option PoolTx} (hp : ∀ h t, pool h = some t → t.hash = h)
    (hd : ∀ h t, db h = some t → t.hash = h) (hashes : List Nat) :
    ((∃ r, getFullTxs pool (storageByHash db) hashes = .ok r) ↔ ∀ h ∈ hashes, (pool h).isSome ∨ (db h).isSome) ∧
    ∀ r, getFullTxs pool (storageByHash db) hashes = .ok r →
      r.map (·.hash) = hashes.filter (fun h => (pool h).isSome) ++ hashes.filter (fun h => (pool h).isNone) ∧
      ∀ t ∈ r, pool t.hash = some t ∨ (pool t.hash = none ∧ db t.hash = some t) := by
  have hmiss : (if (hashes.filter (fun h => (pool h).isNone)).isEmpty then [] else
      (storageByHash db (hashes.filter (fun h => (pool h).isNone))).filterMap id) =
      (hashes.filter (fun h => (pool h).isNone)).filterMap db := by
    split
    · rename_i h; rw [List.isEmpty_iff.1 h]; rfl
    · unfold storageByHash; rw [List.filterMap_map]; rfl
  have hsplit := fetch_split_length hashes pool
  have key : (∃ r, getFullTxs pool (storageByHash db) hashes = .ok r) ↔
      ((hashes.filter (fun h => (pool h).isNone)).filterMap db).length =
        (hashes.filter (fun h => (pool h).isNone)).length := by
    unfold getFullTxs
    simp only [hmiss, List.length_append]
    constructor
    · rintro ⟨r, hr⟩
      split at hr
      · cases hr
      · omega
    · intro h
      rw [if_neg (by omega)]
      exact ⟨_, rfl⟩
  refine ⟨?_, ?_⟩
  · rw [key, filterMap_length_iff]
    constructor
    · intro h x hx
      cases hpx : pool x with
      | some t => exact .inl rfl
      | none => exact .inr (h x (List.mem_filter.2 ⟨hx, by simp [hpx]⟩))
    · intro h x hx
      obtain ⟨hx, hn⟩ := List.mem_filter.1 hx
      rcases h x hx with h | h
      · cases hpx : pool x <;> simp_all
      · exact h
  · intro r hr
    have hall := filterMap_length_iff.1 (key.1 ⟨r, hr⟩)
    unfold getFullTxs at hr
    simp only [hmiss] at hr
    split at hr
    · cases hr
    · simp only [Except.ok.injEq] at hr; subst hr
      refine ⟨?_, ?_⟩
      · rw [List.map_append, filterMap_hash hp, filterMap_hash hd]
        congr 1
        rw [List.filter_eq_self]
        exact hall
      · intro t ht
        rcases List.mem_append.1 ht with ht | ht
        · obtain ⟨h, _, hh⟩ := List.mem_filterMap.1 ht
          rw [hp h t hh]; exact .inl hh
        · obtain ⟨h, hm, hh⟩ := List.mem_filterMap.1 ht
          obtain ⟨_, hn⟩ := List.mem_filter.1 hm
          rw [hd h t hh]
          exact .inr ⟨by cases hpx : pool h <;> simp_all, hh⟩

/-- The order is the requested one exactly when no hash missing in the pool precedes one that is there. -/
theorem C23_order_partial {pool db : Nat → Option PoolTx} (hp : ∀ h t, pool h = some t → t.hash = h)
    (hd : ∀ h t, db h = some t → t.hash = h) {hashes : List Nat} {r : List PoolTx}
    (hr : getFullTxs pool (storageByHash db) hashes = .ok r) :
    r.map (·.hash) = hashes ↔ ∃ k, (∀ h ∈ hashes.take k, (pool h).isSome) ∧ ∀ h ∈ hashes.drop k, pool h = none := by
  rw [((C23_content_partial hp hd hashes).2 r hr).1]
  constructor
  · intro h
    refine ⟨(hashes.filter (fun h => (pool h).isSome)).length, ?_, ?_⟩
    · intro x hx
      have e := List.take_left (l₁ := hashes.filter (fun h => (pool h).isSome))
        (l₂ := hashes.filter (fun h => (pool h).isNone))
      rw [h] at e
      rw [e] at hx
      exact (List.mem_filter.1 hx).2
    · intro x hx
      have e := List.drop_left (l₁ := hashes.filter (fun h => (pool h).isSome))
        (l₂ := hashes.filter (fun h => (pool h).isNone))
      rw [h] at e
      rw [e] at hx
      have := (List.mem_filter.1 hx).2
      cases hpx : pool x <;> simp_all
  · rintro ⟨k, h1, h2⟩
    have e1 : hashes.filter (fun h => (pool h).isSome) = hashes.take k := by
      conv => lhs; rw [← List.take_append_drop k hashes]
      rw [List.filter_append, List.filter_eq_self.2 h1,
        List.filter_eq_nil_iff.2 (fun x hx => by rw [h2 x hx]; simp), List.append_nil]
    have e2 : hashes.filter (fun h => (pool h).isNone) = hashes.drop k := by
      conv => lhs; rw [← List.take_append_drop k hashes]
      rw [List.filter_append, List.filter_eq_nil_iff.2 (fun x hx => by
          have := h1 x hx
          cases hpx : pool x <;> simp_all),
        List.filter_eq_self.2 (fun x hx => by rw [h2 x hx]; rfl), List.nil_append]
    rw [e1, e2, List.take_append_drop]

/-- The same for reachable pools and for a block read by height, when no hash is repeated. -/
theorem C23_height_partial {cap gap : Nat} (hc : 0 < cap) {ops : List Op} {s : Pool}
    (hrun : run (init cap gap) ops = some s) {block : List (Nat × PoolTx)} (hn : NodupKeys block)
    {hashes : List Nat} (hh : hashes.Nodup) :
    getFullTxs (getByHash s) (storageAtHeight block) hashes =
      getFullTxs (getByHash s) (storageByHash (get block)) hashes ∧
    ∀ h t, getByHash s h = some t → t.hash = h := by
  refine ⟨?_, fun h t hg => getByHash_hash (good_run hc hrun) hg⟩
  unfold getFullTxs
  have : storageAtHeight block (hashes.filter (fun h => (getByHash s h).isNone)) =
      storageByHash (get block) (hashes.filter (fun h => (getByHash s h).isNone)) :=
    storageAtHeight_nodup hn (hh.sublist List.filter_sublist)
  simp only [this]

/-- Hash 1 is committed, hash 2 is in the pool: asking for `[1, 2]` returns them as `[2, 1]`. -/
theorem C23_order_false :
    ((run (init 10 20) [.insert ⟨2, 7, 0, 5, 0⟩ true 0]).map fun s =>
      (getFullTxs (getByHash s) (storageByHash (get [(1, ⟨1, 8, 0, 5, 0⟩)])) [1, 2]).toOption.map
        (·.map (·.hash))) = some (some [2, 1]) := by
  decide +kernel

/-- Reading by height cannot answer for a repeated hash: the transaction exists, the request fails. -/
theorem C23_repeated_false :
    (getFullTxs (fun _ => none) (storageAtHeight [(1, ⟨1, 8, 0, 5, 0⟩)]) [1, 1]).toOption = none ∧
    (getFullTxs (fun _ => none) (storageByHash (get [(1, ⟨1, 8, 0, 5, 0⟩)])) [1, 1]).toOption =
      some [⟨1, 8, 0, 5, 0⟩, ⟨1, 8, 0, 5, 0⟩] := by
  decide +kernel

/-- Non-vacuity of `C23_content_partial`: a mixed request that succeeds. -/
example : (getFullTxs (get [(2, ⟨2, 7, 0, 5, 0⟩), (5, ⟨5, 7, 1, 5, 0⟩)])
      (storageByHash (get [(1, ⟨1, 8, 0, 5, 0⟩)])) [2, 1, 5]).toOption.map (·.map (·.hash)) = some [2, 5, 1] := by
  decide +kernel

/-! ## C56 -/

theorem insertAll_contains {isSys : PoolTx → Option Bool} : ∀ {l : List (PoolTx × Nat)} {s s' : Pool}, Good s →
    insertAll isSys s l = some (s', .ok ()) →
    (∀ h, contains s h = true → contains s' h = true) ∧ ∀ e ∈ l, contains s' e.1.hash = true := by
  intro l
  induction l with
  | nil =>
    intro s s' _ hr
    simp only [insertAll, Option.some.injEq, Prod.mk.injEq] at hr
    obtain ⟨rfl, _⟩ := hr
    exact ⟨fun h hh => hh, by simp⟩
  | cons e l ih =>
    obtain ⟨t, d⟩ := e
    intro s s' g hr
    unfold insertAll at hr
    have close : ∀ s1, Good s1 → insertAll isSys s1 l = some (s', .ok ()) →
        (∀ h, contains s h = true → contains s1 h = true) → contains s1 t.hash = true →
        (∀ h, contains s h = true → contains s' h = true) ∧ ∀ e ∈ (t, d) :: l, contains s' e.1.hash = true := by
      intro s1 g1 h1 h2 h3
      obtain ⟨a, b⟩ := ih g1 h1
      refine ⟨fun h hh => a h (h2 h hh), ?_⟩
      intro e he
      rcases List.mem_cons.1 he with rfl | he
      · exact a _ h3
      · exact b e he
    split at hr
    · simp at hr
    · refine close _ (g.insertSys t) hr ?_ ?_
      · intro h hh
        simp only [contains, Bool.or_eq_true] at hh ⊢
        rcases hh with hh | hh
        · exact .inl hh
        · right
          simp only [insertSys, Sys.insert, Sys.contains] at hh ⊢
          rw [get_put]
          by_cases e : h = t.hash
          · subst e
            simp only [if_true]
            rw [get_put]
            simp [get_sput (g.sys.oldOk t.data).1]
          · rw [if_neg e]
            split at hh
            · rename_i x hx
              rw [get_put]
              by_cases e2 : x = t.data
              · subst e2
                simp only [if_true]
                rw [get_sput (g.sys.oldOk t.data).1, if_neg e]
                split at hh
                · rename_i m hm; rw [hm]; exact hh
                · cases hh
              · rw [if_neg e2]; exact hh
            · cases hh
      · simp only [contains, Bool.or_eq_true]
        right
        simp only [insertSys, Sys.insert, Sys.contains]
        rw [get_put]
        simp only [if_true]
        rw [get_put]
        simp [get_sput (g.sys.oldOk t.data).1]
    · split at hr
      · cases hr
      · rename_i s1 x hins
        have g1 : Good s1 := g.insert hins
        have tail : ∀ s0 : Pool, Inv s0 → (∀ h, (find (insertTail s0 t d) h).isSome ↔
            (find s0 h).isSome ∨ h = t.hash) := by
          intro s0 i0 h
          unfold insertTail
          split
          · rename_i p hf
            constructor
            · intro h1; exact .inl h1
            · rintro (h1 | rfl)
              · exact h1
              · show (find s0 t.hash).isSome = true
                rw [hf]; rfl
          · rw [find_isSome, find_isSome]
            have htx : ∀ p ∈ s0.txMap, (s0.heap.alloc s0.next t).tx p = s0.heap.tx p := fun p hp => by
              have := i0.mapLt p hp
              have : p ≠ s0.next := by omega
              simp [Heap.alloc, this]
            constructor
            · rintro ⟨p, hp, he⟩
              simp only [List.mem_append, List.mem_singleton] at hp he
              rcases hp with hp | rfl
              · rw [htx p hp] at he; exact .inl ⟨p, hp, he⟩
              · right; rw [← he]; simp [Heap.alloc]
            · rintro (⟨p, hp, he⟩ | rfl)
              · exact ⟨p, by simp [hp], by simp only; rw [htx p hp]; exact he⟩
              · exact ⟨s0.next, by simp, by simp [Heap.alloc]⟩
        have sysTail : ∀ s0 : Pool, (insertTail s0 t d).sys = s0.sys := by
          intro s0; unfold insertTail; split <;> rfl
        have main : (∀ h, (find s1 h).isSome ↔ (find s h).isSome ∨ h = t.hash) ∧ s1.sys = s.sys := by
          unfold insert at hins
          split at hins
          · rename_i h; simp at h
          · simp only at hins
            split at hins
            · simp only [Option.map_eq_some_iff, Prod.mk.injEq] at hins
              obtain ⟨s2, h2, rfl, _⟩ := hins
              obtain ⟨i2, sm, _⟩ := flushToPending_inv (g.inv.withStock (s.stock + 1)) h2
              refine ⟨?_, by rw [sysTail, sm.sys]⟩
              intro h
              rw [tail s2 i2, find_isSome, find_isSome, sm.txMap, sm.tx]
            · simp only [Option.some.injEq, Prod.mk.injEq] at hins
              obtain ⟨rfl, _⟩ := hins
              exact ⟨tail { s with stock := s.stock + 1 } (g.inv.withStock _), by rw [sysTail]⟩
        refine close s1 g1 hr ?_ ?_
        · intro h hh
          simp only [contains, Bool.or_eq_true] at hh ⊢
          rw [main.2]
          rcases hh with hh | hh
          · exact .inl ((main.1 h).2 (.inl hh))
          · exact .inr hh
        · simp only [contains, Bool.or_eq_true]
          exact .inl ((main.1 _).2 (.inr rfl))

theorem mapM_length {check : PoolTx → Option Nat} : ∀ {l : List PoolTx} {r : List Nat}, l.mapM check = some r →
    r.length = l.length := by
  intro l
  induction l with
  | nil => intro r h; simp at h; subst h; rfl
  | cons t l ih =>
    intro r h
    rw [List.mapM_cons] at h
    simp only [Option.bind_eq_bind, Option.bind_eq_some_iff, Option.pure_def, Option.some.injEq] at h
    obtain ⟨a, _, r', h', rfl⟩ := h
    simp [ih h']

/-- A proposal that passes has no repeated transaction, and if the peer's answer covers what it was asked
for, every proposed transaction is in the pool afterwards. -/
theorem C56_ensured_partial {cap gap : Nat} (hc : 0 < cap) {ops : List Op} {s s' : Pool}
    (hrun : run (init cap gap) ops = some s) {pull : List Nat → Option (List PoolTx)}
    {check : PoolTx → Option Nat} {isSys : PoolTx → Option Bool} {hashes : List Nat}
    (hr : ensureOrder pull check isSys s hashes = some (s', .ok ())) :
    hashes.Nodup ∧
    ((∀ asked txs, pull asked = some txs → ∀ h ∈ asked, ∃ t ∈ txs, t.hash = h) →
      ∀ h ∈ hashes, contains s' h = true) := by
  have g := good_run hc hrun
  unfold ensureOrder at hr
  split at hr
  · simp at hr
  · rename_i hdup
    refine ⟨((checkDup_ok _ _).1 hdup).1, ?_⟩
    intro hpull
    simp only at hr
    split at hr
    · rename_i he
      simp only [Option.some.injEq, Prod.mk.injEq] at hr
      obtain ⟨rfl, _⟩ := hr
      intro h hh
      have := List.filter_eq_nil_iff.1 (List.isEmpty_iff.1 he) h hh
      simpa using this
    · split at hr
      · simp at hr
      · rename_i txs htxs
        split at hr
        · simp at hr
        · split at hr
          · simp at hr
          · rename_i diffs hdiffs
            obtain ⟨a, b⟩ := insertAll_contains g hr
            intro h hh
            by_cases hk : contains s h = true
            · exact a h hk
            · obtain ⟨t, ht, rfl⟩ := hpull _ txs htxs h (List.mem_filter.2 ⟨hh, by simpa using hk⟩)
              have hlen := mapM_length hdiffs
              obtain ⟨i, hi, rfl⟩ := List.getElem_of_mem ht
              have hz : i < (txs.zip diffs).length := by simp [hlen, hi]
              have := b ((txs.zip diffs)[i]'hz) (List.getElem_mem hz)
              simpa using this

/-- A repeated hash is refused and nothing changes. -/
theorem C56_dup_refused {pull : List Nat → Option (List PoolTx)} {check : PoolTx → Option Nat}
    {isSys : PoolTx → Option Bool} {s : Pool} {hashes : List Nat} (hd : ¬ hashes.Nodup) :
    ∃ h, ensureOrder pull check isSys s hashes = some (s, .error (.ensureDup h)) := by
  unfold ensureOrder
  cases hk : checkDup hashes [] with
  | ok u => exact absurd ((checkDup_ok _ _).1 hk).1 hd
  | error e =>
    have : ∀ (hs seen : List Nat) e, checkDup hs seen = .error e → ∃ h, e = .ensureDup h := by
      intro hs
      induction hs with
      | nil => intro seen e h; simp [checkDup] at h
      | cons x hs ih =>
        intro seen e h
        unfold checkDup at h
        split at h
        · simp only [Except.error.injEq] at h; exact ⟨x, h.symm⟩
        · exact ih _ _ h
    obtain ⟨h, rfl⟩ := this _ _ _ hk
    exact ⟨h, rfl⟩

/-- Only the number of pulled transactions is compared: asked for hash 9, a peer answers with the valid
transaction 4; the proposal passes and the pool does not contain hash 9. -/
theorem C56_substituted_false :
    (ensureOrder (fun _ => some [⟨4, 1, 0, 5, 0⟩]) (fun _ => some 0) (fun _ => some false) (init 10 20) [9]).map
      (fun r => (r.2.toOption.isSome, contains r.1 9, contains r.1 4)) = some (true, false, true) := by
  decide +kernel

/-- Non-vacuity: one hash known, one pulled. -/
example : ((run (init 10 20) [.insert ⟨2, 7, 0, 5, 0⟩ true 0]).bind fun s =>
    (ensureOrder (fun l => some (l.map fun h => ⟨h, 1, 0, 5, 0⟩)) (fun _ => some 0) (fun _ => some false) s [9, 2]).map
      (fun r => (r.2.toOption.isSome, contains r.1 9, contains r.1 2))) = some (true, true, true) := by
  decide +kernel

end Axon.Pool
