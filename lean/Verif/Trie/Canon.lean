import Verif.Trie.Trie

/-!
# The shape of tries

Every trie built by insertions and removals is canonical: extensions are not empty and lead to branches,
branches have at least two entries.  Canonical tries with the same contents are equal.
-/

namespace Axon.Trie

open Axon

def IsBranch : Node → Prop
  | .branch _ _ => True
  | _ => False

/-- Entries of a branch: its value (`none`) and its children. -/
def Occupied (cs : Fin 16 → Node) (v : Option Bytes) : Option (Fin 16) → Prop
  | none => v ≠ none
  | some i => cs i ≠ .empty

/-- Canonical nodes that are not empty. -/
def Ok : Node → Prop
  | .empty => False
  | .leaf _ v => v ≠ []
  | .ext p c => p ≠ [] ∧ IsBranch c ∧ Ok c
  | .branch cs v => (∀ i, cs i ≠ .empty → Ok (cs i)) ∧ v ≠ some [] ∧
      ∃ a b, a ≠ b ∧ Occupied cs v a ∧ Occupied cs v b

/-- Canonical tries. -/
def Canon (t : Node) : Prop := t ≠ .empty → Ok t

theorem Ok.ne_empty {t : Node} (h : Ok t) : t ≠ .empty := by
  intro e; rw [e] at h; exact h

theorem canon_of_ok {t : Node} (h : Ok t) : Canon t := fun _ => h

/-! ## Contents determine the trie -/

theorem ok_inhabited : ∀ t : Node, Ok t → ∃ k v, get t k = some v := by
  intro t
  induction t with
  | empty => intro h; exact h.elim
  | leaf p v => intro _; exact ⟨p, v, by simp [get]⟩
  | ext p c ih =>
    intro h
    obtain ⟨k, v, hk⟩ := ih h.2.2
    exact ⟨p ++ k, v, by simp [get, prefix_iff, hk]⟩
  | branch cs v ih =>
    rintro ⟨hc, _, a, b, hab, ha, hb⟩
    cases a with
    | none =>
      cases v with
      | none => exact absurd rfl ha
      | some w => exact ⟨[], w, rfl⟩
    | some i =>
      obtain ⟨k, w, hk⟩ := ih i (hc i ha)
      exact ⟨i :: k, w, hk⟩

theorem occupied_key {cs : Fin 16 → Node} {v : Option Bytes} (hc : ∀ i, cs i ≠ .empty → Ok (cs i))
    {a : Option (Fin 16)} (ha : Occupied cs v a) : ∃ k w, get (.branch cs v) k = some w ∧ k.head? = a := by
  cases a with
  | none =>
    cases v with
    | none => exact absurd rfl ha
    | some w => exact ⟨[], w, rfl, rfl⟩
  | some i =>
    obtain ⟨k, w, hk⟩ := ok_inhabited _ (hc i ha)
    exact ⟨i :: k, w, hk, rfl⟩

/-- A canonical branch has two keys that start differently. -/
theorem branch_parts {cs : Fin 16 → Node} {v : Option Bytes} (h : Ok (.branch cs v)) :
    ∃ k j x y, get (.branch cs v) k = some x ∧ get (.branch cs v) j = some y ∧ k.head? ≠ j.head? := by
  obtain ⟨hc, _, a, b, hab, ha, hb⟩ := h
  obtain ⟨k, x, hk, ea⟩ := occupied_key hc ha
  obtain ⟨j, y, hj, eb⟩ := occupied_key hc hb
  exact ⟨k, j, x, y, hk, hj, by rw [ea, eb]; exact hab⟩

theorem branch_parts' {c : Node} (hb : IsBranch c) (h : Ok c) :
    ∃ k j x y, get c k = some x ∧ get c j = some y ∧ k.head? ≠ j.head? := by
  cases c with
  | branch cs v => exact branch_parts h
  | _ => exact hb.elim

/-- A prefix of two paths that part after `p` is a prefix of `p`. -/
theorem prefix_of_parting {q p k j : Path} (h1 : q <+: p ++ k) (h2 : q <+: p ++ j) (hne : k.head? ≠ j.head?) :
    q <+: p := by
  rcases List.prefix_or_prefix_of_prefix h1 (List.prefix_append p k) with h | h
  · exact h
  · obtain ⟨r, rfl⟩ := h
    cases r with
    | nil => simp
    | cons n r =>
      have e1 := (List.prefix_append_right_inj p).1 h1
      have e2 := (List.prefix_append_right_inj p).1 h2
      obtain ⟨a, rfl⟩ := e1
      obtain ⟨b, rfl⟩ := e2
      simp at hne

theorem get_ext_some {p : Path} {c : Node} {k : Path} {v : Bytes} (h : get (.ext p c) k = some v) :
    ∃ j, k = p ++ j ∧ get c j = some v := by
  simp only [get] at h
  split at h
  next hp =>
    obtain ⟨j, rfl⟩ := prefix_iff.1 hp
    exact ⟨j, rfl, by simpa using h⟩
  · exact absurd h (by simp)

theorem get_ext_append (p : Path) (c : Node) (k : Path) : get (.ext p c) (p ++ k) = get c k := by
  simp [get, prefix_iff]

theorem get_leaf_some {p : Path} {w : Bytes} {k : Path} {v : Bytes} (h : get (.leaf p w) k = some v) :
    k = p ∧ w = v := by
  simp only [get] at h
  split at h
  · exact ⟨‹_›, Option.some.inj h⟩
  · exact absurd h (by simp)

theorem leaf_ne_ext {p q : Path} {v : Bytes} {c : Node} (h : Ok (.ext q c))
    (e : ∀ k, get (.leaf p v) k = get (.ext q c) k) : False := by
  obtain ⟨k, j, x, y, hk, hj, hne⟩ := branch_parts' h.2.1 h.2.2
  have a := get_leaf_some ((e (q ++ k)).trans ((get_ext_append q c k).trans hk))
  have b := get_leaf_some ((e (q ++ j)).trans ((get_ext_append q c j).trans hj))
  have := List.append_cancel_left (a.1.trans b.1.symm)
  exact hne (by rw [this])

theorem leaf_ne_branch {p : Path} {v : Bytes} {cs : Fin 16 → Node} {w : Option Bytes} (h : Ok (.branch cs w))
    (e : ∀ k, get (.leaf p v) k = get (.branch cs w) k) : False := by
  obtain ⟨k, j, x, y, hk, hj, hne⟩ := branch_parts h
  have a := get_leaf_some ((e k).trans hk)
  have b := get_leaf_some ((e j).trans hj)
  exact hne (by rw [a.1, b.1])

theorem ext_ne_branch {p : Path} {c : Node} {cs : Fin 16 → Node} {w : Option Bytes} (hp : p ≠ [])
    (h : Ok (.branch cs w)) (e : ∀ k, get (.ext p c) k = get (.branch cs w) k) : False := by
  obtain ⟨k, j, x, y, hk, hj, hne⟩ := branch_parts h
  obtain ⟨k', rfl, _⟩ := get_ext_some ((e k).trans hk)
  obtain ⟨j', rfl, _⟩ := get_ext_some ((e j).trans hj)
  cases p with
  | nil => exact hp rfl
  | cons n p => simp at hne

theorem ext_prefix {p q : Path} {c d : Node} (h : Ok (.ext p c)) (e : ∀ k, get (.ext p c) k = get (.ext q d) k) :
    q <+: p := by
  obtain ⟨k, j, x, y, hk, hj, hne⟩ := branch_parts' h.2.1 h.2.2
  obtain ⟨k', ek, _⟩ := get_ext_some ((e (p ++ k)).symm.trans ((get_ext_append p c k).trans hk))
  obtain ⟨j', ej, _⟩ := get_ext_some ((e (p ++ j)).symm.trans ((get_ext_append p c j).trans hj))
  exact prefix_of_parting ⟨k', ek.symm⟩ ⟨j', ej.symm⟩ hne

theorem ok_unique : ∀ t u : Node, Ok t → Ok u → (∀ k, get t k = get u k) → t = u := by
  intro t
  induction t with
  | empty => intro u h; exact h.elim
  | leaf p v =>
    intro u _ hu e
    cases u with
    | empty => exact hu.elim
    | leaf q w =>
      obtain ⟨rfl, rfl⟩ := get_leaf_some ((e p).symm.trans (by simp [get] : get (.leaf p v) p = some v))
      rfl
    | ext q c => exact (leaf_ne_ext hu e).elim
    | branch cs w => exact (leaf_ne_branch hu e).elim
  | ext p c ih =>
    intro u ht hu e
    cases u with
    | empty => exact hu.elim
    | leaf q w => exact (leaf_ne_ext ht fun k => (e k).symm).elim
    | ext q d =>
      have h1 := ext_prefix ht e
      have h2 := ext_prefix hu fun k => (e k).symm
      have : p = q := h2.eq_of_length (Nat.le_antisymm h2.length_le h1.length_le)
      subst this
      rw [ih d ht.2.2 hu.2.2 fun k => by have := e (p ++ k); rwa [get_ext_append, get_ext_append] at this]
    | branch cs w => exact (ext_ne_branch ht.1 hu e).elim
  | branch cs v ih =>
    intro u ht hu e
    cases u with
    | empty => exact hu.elim
    | leaf q w => exact (leaf_ne_branch ht fun k => (e k).symm).elim
    | ext q d => exact (ext_ne_branch hu.1 ht fun k => (e k).symm).elim
    | branch ds w =>
      have hv : v = w := e []
      subst hv
      have hcs : cs = ds := by
        funext i
        have ei : ∀ k, get (cs i) k = get (ds i) k := fun k => e (i :: k)
        by_cases h1 : cs i = .empty
        · by_cases h2 : ds i = .empty
          · rw [h1, h2]
          · obtain ⟨k, x, hk⟩ := ok_inhabited _ (hu.1 i h2)
            have := ei k
            rw [h1, hk] at this
            simp [get] at this
        · by_cases h2 : ds i = .empty
          · obtain ⟨k, x, hk⟩ := ok_inhabited _ (ht.1 i h1)
            have := ei k
            rw [h2, hk] at this
            simp [get] at this
          · exact ih i (ds i) (ht.1 i h1) (hu.1 i h2) ei
      rw [hcs]

theorem canon_unique {t u : Node} (ht : Canon t) (hu : Canon u) (e : ∀ k, get t k = get u k) : t = u := by
  by_cases h1 : t = .empty
  · by_cases h2 : u = .empty
    · rw [h1, h2]
    · obtain ⟨k, x, hk⟩ := ok_inhabited _ (hu h2)
      have := e k
      rw [h1, hk] at this
      simp [get] at this
  · by_cases h2 : u = .empty
    · obtain ⟨k, x, hk⟩ := ok_inhabited _ (ht h1)
      have := e k
      rw [h2, hk] at this
      simp [get] at this
    · exact ok_unique t u (ht h1) (hu h2) e

/-! ## Insertions and removals keep the shape -/

theorem ok_mkExt {q : Path} {c : Node} (hb : IsBranch c) (h : Ok c) : Ok (mkExt q c) := by
  unfold mkExt
  split
  · exact h
  · exact ⟨‹_›, hb, h⟩

theorem isBranch_addLeaf (cs : Fin 16 → Node) (w : Option Bytes) (p : Path) (v : Bytes) :
    IsBranch (addLeaf cs w p v) := by
  cases p <;> trivial

theorem isBranch_twoLeaves (p : Path) (v : Bytes) (q : Path) (w : Bytes) : IsBranch (twoLeaves p v q w) := by
  cases p <;> exact isBranch_addLeaf _ _ _ _

/-- A branch with one entry `a` receives another. -/
theorem ok_addLeaf {cs : Fin 16 → Node} {w : Option Bytes} {p : Path} {v : Bytes} {a : Option (Fin 16)}
    (hc : ∀ i, cs i ≠ .empty → Ok (cs i)) (hw : w ≠ some []) (ha : Occupied cs w a) (hv : v ≠ [])
    (hne : p.head? ≠ a) : Ok (addLeaf cs w p v) := by
  cases p with
  | nil =>
    refine ⟨hc, by simpa using hv, none, a, hne, by simp [Occupied], ?_⟩
    cases a with
    | none => exact absurd rfl hne
    | some i => exact ha
  | cons n r =>
    refine ⟨?_, hw, some n, a, hne, by simp [Occupied, setChild], ?_⟩
    · intro i hi
      by_cases h : i = n
      · simp only [setChild, h, if_true]; exact hv
      · simp only [setChild, h, if_false] at hi ⊢; exact hc i hi
    · cases a with
      | none => exact ha
      | some i =>
        have h : i ≠ n := fun e => hne (by simp [e])
        simp only [Occupied, setChild, h, if_false]; exact ha

theorem ok_one {n : Fin 16} {c : Node} (h : Ok c) :
    ∀ i, setChild noChildren n c i ≠ .empty → Ok (setChild noChildren n c i) := by
  intro i hi
  by_cases e : i = n
  · simp only [setChild, e, if_true]; exact h
  · simp [setChild, e, noChildren] at hi

theorem ok_twoLeaves {p : Path} {v : Bytes} {q : Path} {w : Bytes} (hv : v ≠ []) (hw : w ≠ [])
    (hne : p.head? ≠ q.head?) : Ok (twoLeaves p v q w) := by
  cases p with
  | nil =>
    refine ok_addLeaf (a := none) (fun i h => absurd rfl h) (by simpa using hv) (by simp [Occupied]) hw
      (fun e => hne e.symm)
  | cons n r =>
    refine ok_addLeaf (a := some n) (ok_one (c := .leaf r v) hv) (by simp) (by simp [Occupied, setChild]) hw
      (fun e => hne e.symm)

theorem lcp_self (p : Path) : lcp p p = p := by
  induction p with
  | nil => rfl
  | cons a p ih => simp [lcp, ih]

theorem drop_heads {p k : Path} (h : p ≠ k) :
    (p.drop (lcp p k).length).head? ≠ (k.drop (lcp p k).length).head? := by
  obtain ⟨e1, e2⟩ := lcp_split p k
  have hp := lcp_part p k
  generalize p.drop (lcp p k).length = a at *
  generalize k.drop (lcp p k).length = b at *
  cases a with
  | nil =>
    cases b with
    | nil => exact absurd (e1.trans e2.symm) h
    | cons y b => simp
  | cons x a =>
    cases b with
    | nil => simp
    | cons y b => simpa using hp x y a b rfl rfl

theorem isBranch_insert {t : Node} (h : IsBranch t) (k : Path) (v : Bytes) : IsBranch (insert t k v) := by
  cases t with
  | branch cs w => cases k <;> trivial
  | _ => exact h.elim

theorem ok_insert : ∀ (t : Node) (k : Path) (v : Bytes), Canon t → v ≠ [] → Ok (insert t k v) := by
  intro t
  induction t with
  | empty => intro k v _ hv; exact hv
  | leaf p w =>
    intro k v ht hv
    unfold insert
    split
    · exact hv
    next h =>
      exact ok_mkExt (isBranch_twoLeaves _ _ _ _)
        (ok_twoLeaves (ht (by simp)) hv (drop_heads fun e => h e.symm))
  | ext p c ih =>
    intro k v ht hv
    have ht := ht (by simp)
    unfold insert
    have hh := fun e => drop_heads (p := p) (k := k) e
    dsimp only
    split
    next e =>
      exact ⟨ht.1, isBranch_insert ht.2.1 _ _, ih _ v (canon_of_ok ht.2.2) hv⟩
    next n r e =>
      refine ok_mkExt (isBranch_addLeaf _ _ _ _)
        (ok_addLeaf (a := some n) (ok_one (ok_mkExt ht.2.1 ht.2.2)) (by simp) ?_ hv ?_)
      · simp only [Occupied, setChild, if_true]
        exact (ok_mkExt (q := r) ht.2.1 ht.2.2).ne_empty
      · rw [e] at hh
        by_cases hpk : p = k
        · subst hpk
          rw [lcp_self] at e; simp at e
        · exact fun e' => hh hpk (by rw [e']; rfl)
  | branch cs w ih =>
    intro k v ht hv
    obtain ⟨hc, hw, a, b, hab, ha, hb⟩ := ht (by simp)
    cases k with
    | nil =>
      refine ⟨hc, by simpa using hv, a, b, hab, ?_, ?_⟩
      · cases a with
        | none => simp [Occupied]
        | some i => exact ha
      · cases b with
        | none => simp [Occupied]
        | some i => exact hb
    | cons n k =>
      have hn : Ok (insert (cs n) k v) := ih n k v (hc n) hv
      have hocc : ∀ a, Occupied cs w a → Occupied (setChild cs n (insert (cs n) k v)) w a := by
        intro a ha
        cases a with
        | none => exact ha
        | some i =>
          by_cases h : i = n
          · simp only [Occupied, setChild, h, if_true]; exact hn.ne_empty
          · simp only [Occupied, setChild, h, if_false]; exact ha
      refine ⟨?_, hw, a, b, hab, hocc a ha, hocc b hb⟩
      intro i hi
      by_cases h : i = n
      · simp only [setChild, h, if_true]; exact hn
      · simp only [setChild, h, if_false] at hi ⊢; exact hc i hi

theorem canon_joinExt {p : Path} {c : Node} (hp : p ≠ []) (h : Canon c) : Canon (joinExt p c) := by
  cases c with
  | empty => exact h
  | leaf q v => intro _; exact (h (by simp) : v ≠ [])
  | ext q d =>
    intro _
    have := h (by simp)
    exact ⟨by simp [hp], this.2.1, this.2.2⟩
  | branch cs v => intro _; exact ⟨hp, trivial, h (by simp)⟩

theorem used_nodup (cs : Fin 16 → Node) : (used cs).Nodup :=
  (List.nodup_finRange 16).sublist List.filter_sublist

theorem canon_shrink {cs : Fin 16 → Node} {v : Option Bytes} (hc : ∀ i, Canon (cs i)) (hv : v ≠ some []) :
    Canon (shrink cs v) := by
  have hm := mem_used cs
  have hnd := used_nodup cs
  unfold shrink
  generalize hu : used cs = l at *
  match l, v with
  | [], none => exact fun h => absurd rfl h
  | [], some w => intro _; exact (by simpa using hv : w ≠ [])
  | [n], none => exact canon_joinExt (by simp) (hc n)
  | [n], some w =>
    exact fun _ => ⟨hc, hv, none, some n, by simp, by simp [Occupied], (hm n).1 (by simp)⟩
  | n :: m :: r, w =>
    have hne : n ≠ m := by
      intro e; subst e; simp at hnd
    have ok : Ok (.branch cs w) := ⟨hc, hv, some n, some m, by simpa using hne, (hm n).1 (by simp), (hm m).1 (by simp)⟩
    cases w <;> exact fun _ => ok

theorem canon_remove : ∀ (t : Node) (k : Path), Canon t → Canon (remove t k) := by
  intro t
  induction t with
  | empty => intro k h; exact h
  | leaf p w =>
    intro k h
    unfold remove
    split
    · exact fun h => absurd rfl h
    · exact h
  | ext p c ih =>
    intro k h
    have ht := h (by simp)
    unfold remove
    split
    · exact canon_joinExt ht.1 (ih _ (canon_of_ok ht.2.2))
    · exact h
  | branch cs w ih =>
    intro k h
    obtain ⟨hc, hw, _⟩ := h (by simp)
    cases k with
    | nil => exact canon_shrink hc (by simp)
    | cons n k =>
      refine canon_shrink (fun i => ?_) hw
      by_cases e : i = n
      · simp only [setChild, e, if_true]; exact ih n k (hc n)
      · simp only [setChild, e, if_false]; exact hc i

theorem canon_put {t : Node} (h : Canon t) (k : Path) (v : Bytes) : Canon (put t k v) := by
  unfold put
  split
  · exact canon_remove t k h
  · exact canon_of_ok (ok_insert t k v h ‹_›)

theorem get_put (t : Node) (k : Path) (v : Bytes) (j : Path) :
    get (put t k v) j = if j = k then (if v = [] then none else some v) else get t j := by
  unfold put
  by_cases h : v = []
  · simp only [h, if_true]; exact get_remove t k j
  · simp only [h, if_false]; exact get_insert t k v j

end Axon.Trie
