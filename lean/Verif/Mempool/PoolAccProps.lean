import Verif.Mempool.PoolAcc

/-!
# C20: size accounting of the pool
-/

namespace Axon.Pool
open Axon.Assoc

/-- No two system-script transactions of the history carry the same call data. -/
def DistinctData (ops : List Op) : Prop :=
  ∀ t t', Op.insertSys t ∈ ops → Op.insertSys t' ∈ ops → t.data = t'.data → t.hash = t'.hash

/-- If no two system-script transactions carry the same call data: after any history the reported length
is the number of different hashes the pool contains, and a limited insertion is refused exactly when that
number has reached the capacity. -/
theorem C20_exact_partial {cap gap : Nat} (hc : 0 < cap) {ops : List Op} {s : Pool}
    (hcons : Consistent ops) (hdist : DistinctData ops) (hrun : run (init cap gap) ops = some s) :
    ∃ l : List Nat, l.Nodup ∧ (∀ h, h ∈ l ↔ contains s h = true) ∧ len s = l.length ∧
      ∀ t d, (∃ r n, insert s t true d = some (r, .reachLimit n)) ↔ cap ≤ l.length := by
  have g := good_run hc hrun
  have o := run_origin (Good.init hc gap) hrun
  have e : Exact (fun t => Op.insertSys t ∈ ops) s := by
    refine Exact.run (fun a b ha hb h => hcons.sys a b ha hb h) (fun a b ha hb h => hdist a b ha hb h)
      (fun t ht => ht) (Good.init hc gap) ?_ hrun
    constructor <;> simp [init, Sys.total]
  have hcap : s.cap = cap := (run_cfg (Good.init hc gap) hrun).1
  refine ⟨stored s, ?_, ?_, ?_, ?_⟩
  · unfold stored
    rw [List.nodup_append]
    refine ⟨?_, ?_, ?_⟩
    · rw [List.nodup_iff_pairwise_ne, List.pairwise_map]; exact g.inv.mapHash
    · rw [List.nodup_iff_pairwise_ne, List.pairwise_flatMap]
      constructor
      · intro x hx
        rw [List.pairwise_map]
        refine List.Pairwise.imp ?_ (g.sys.ok x.1 x.2 hx).2.1
        intro a b h; omega
      · refine List.Pairwise.imp_of_mem ?_ g.sys.keys
        intro a b ha hb hab x hx y hy hxy
        obtain ⟨⟨x', t⟩, ht, rfl⟩ := List.mem_map.1 hx
        obtain ⟨⟨y', t'⟩, ht', rfl⟩ := List.mem_map.1 hy
        simp only at hxy
        subst hxy
        have h1 := e.known a.1 a.2 x' t ha ht
        have h2 := e.known b.1 b.2 x' t' hb ht'
        rw [h1] at h2
        exact hab (by simpa using h2)
    · intro a ha b hb hab
      subst hab
      obtain ⟨p, hp, rfl⟩ := List.mem_map.1 ha
      obtain ⟨⟨d, m⟩, hm, hb⟩ := List.mem_flatMap.1 hb
      obtain ⟨⟨x, t⟩, ht, hx⟩ := List.mem_map.1 hb
      simp only at hx ht
      rcases o.map p hp with ⟨h5, _⟩ | ⟨_, c, d', h5⟩
      · simp [init] at h5
      · apply hcons.kind _ c d' t h5 (e.from' d m x t hm ht)
        rw [((g.sys.ok d m hm).2.2 x t ht).1, hx]
  · intro h
    constructor
    · intro hh
      unfold contains
      rw [Bool.or_eq_true]
      rcases List.mem_append.1 hh with hh | hh
      · obtain ⟨p, hp, he⟩ := List.mem_map.1 hh
        exact .inl (find_isSome.2 ⟨p, hp, he⟩)
      · right
        obtain ⟨⟨d, m⟩, hm, hb⟩ := List.mem_flatMap.1 hh
        obtain ⟨⟨x, t⟩, ht, hx⟩ := List.mem_map.1 hb
        simp only at hx ht
        subst hx
        unfold Sys.contains
        rw [e.known d m x t hm ht]
        simp only
        rw [get_of_mem g.sys.keys hm]
        exact get_isSome_iff.2 ⟨t, ht⟩
    · exact mem_stored_of_contains
  · unfold len; rw [stored_length]; exact e.stock
  · intro t d
    rw [stored_length, ← e.stock, ← hcap]
    exact insert_refused_iff s t d

/-- In every history the pool never contains more different hashes than it reports. -/
theorem C20_upper_bound {cap gap : Nat} (hc : 0 < cap) {ops : List Op} {s : Pool}
    (hrun : run (init cap gap) ops = some s) {l : List Nat} (hl : l.Nodup)
    (hin : ∀ h ∈ l, contains s h = true) : l.length ≤ len s := by
  have g := good_run hc hrun
  have h1 := nodup_length_le hl (fun x hx => mem_stored_of_contains (hin x hx))
  have h2 := g.stock
  rw [stored_length] at h1
  unfold len; omega

/-- The counter never wraps below zero: in every reachable state a flush subtracts at most what is there. -/
theorem C20_no_underflow {cap gap : Nat} (hc : 0 < cap) {ops : List Op} {s s1 s2 : Pool}
    (hrun : run (init cap gap) ops = some s) {hashes : List Nat} {number n : Nat}
    (h1 : flushToPending s = some s1) (h2 : flushInner s1 hashes number = some (s2, n)) :
    n + (s2.sys.flush hashes).2 ≤ s2.stock := by
  have g := good_run hc hrun
  obtain ⟨g1, sm1, co1⟩ := g.flushToPending h1
  have f := flushInner_spec g1.inv g1.mark h2
  have e1 := g1.stock
  have e2 := f.num
  have e3 := (SysOk.flush hashes (b := s2.sys) (by rw [f.sys]; exact g1.sys)).2
  have e4 := f.stock
  rw [← f.sys] at e1
  omega

/-- The counter leaks: for every capacity there is a history after which the pool contains nothing at all
and yet refuses every limited insertion.  (Committing one of several system-script transactions with the
same call data removes all of them but is counted once.) -/
theorem C20_leak_false : ∀ cap gap : Nat, 0 < cap → ∃ (ops : List Op) (s : Pool), Consistent ops ∧
    run (init cap gap) ops = some s ∧ (∀ h, contains s h = false) ∧
    ∀ t d, insert s t true d = some (s, .reachLimit cap) := by
  intro cap gap _
  obtain ⟨s, hrun, hl⟩ := leakOps_run cap gap cap
  refine ⟨leakOps cap, s, leakOps_consistent cap, hrun, ?_, ?_⟩
  · intro h
    unfold contains find Sys.contains
    rw [hl.map, hl.buckets]
    simp only [List.find?_nil, Option.isSome_none, Bool.false_or, get_nil]
    split <;> rfl
  · intro t d
    unfold Pool.insert
    simp [hl.cap, hl.stock]

/-- Non-vacuity of `C20_exact_partial`: ordinary and system transactions, a duplicate, a commit, a refusal. -/
example : ((run (init 3 20) [.insert ⟨1, 1, 0, 5, 0⟩ true 0, .insert ⟨1, 1, 0, 5, 0⟩ true 0,
      .insertSys ⟨2, 2, 0, 5, 7⟩, .insertSys ⟨3, 2, 1, 5, 8⟩, .insert ⟨4, 1, 1, 5, 0⟩ true 1,
      .flush [2] 1]).map fun s => (len s, contains s 1, contains s 2, contains s 3, contains s 4)) =
    some (2, true, false, true, false) := by decide +kernel

example : DistinctData [.insert ⟨1, 1, 0, 5, 0⟩ true 0, .insertSys ⟨2, 2, 0, 5, 7⟩, .insertSys ⟨3, 2, 1, 5, 8⟩] := by
  intro t t' h h' he
  simp at h h'
  rcases h with rfl | rfl <;> rcases h' with rfl | rfl <;> simp_all

end Axon.Pool
