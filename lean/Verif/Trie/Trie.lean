import Verif.Util.Bytes

/-!
# Merkle Patricia tries

Transactions and receipts roots (common/merkle/src/lib.rs:58-107) and state and storage roots
(core/executor/src/adapter/trie/wrapped.rs:9-65) are roots of the trie of `cita_trie` (a dependency), modelled
from its published source.  Nodes that the crate keeps as hashes until they are needed are represented by the
nodes themselves; `Verif.Executor.TrieDb` models the database.
-/

namespace Axon.Trie

open Axon

/-- Keys as nibbles (`Nibbles` of cita_trie without the terminator). -/
abbrev Path := List (Fin 16)

/-- Nibbles of a key, most significant first (`Nibbles::from_raw`). -/
def keyPath : Bytes → Path
  | [] => []
  | b :: bs => ⟨b.toNat / 16, by have := b.toNat_lt; omega⟩ :: ⟨b.toNat % 16, by omega⟩ :: keyPath bs

/-- Nodes (`Node` of cita_trie). -/
inductive Node where
  | empty
  | leaf (p : Path) (v : Bytes)
  | ext (p : Path) (c : Node)
  | branch (cs : Fin 16 → Node) (v : Option Bytes)

/-- `get_at` of cita_trie. -/
def get : Node → Path → Option Bytes
  | .empty, _ => none
  | .leaf p v, k => if k = p then some v else none
  | .ext p c, k => if p.isPrefixOf k then get c (k.drop p.length) else none
  | .branch _ v, [] => v
  | .branch cs _, n :: k => get (cs n) k

/-- The common prefix of two paths. -/
def lcp : Path → Path → Path
  | a :: p, b :: q => if a = b then a :: lcp p q else []
  | _, _ => []

/-- An extension is only made for a path that is not empty. -/
def mkExt (p : Path) (c : Node) : Node := if p = [] then c else .ext p c

/-- One child replaced. -/
def setChild (cs : Fin 16 → Node) (n : Fin 16) (c : Node) : Fin 16 → Node :=
  fun i => if i = n then c else cs i

/-- A new entry of a branch: its value or a leaf below. -/
def addLeaf (cs : Fin 16 → Node) (w : Option Bytes) (p : Path) (v : Bytes) : Node :=
  match p with
  | [] => .branch cs (some v)
  | n :: r => .branch (setChild cs n (.leaf r v)) w

def noChildren : Fin 16 → Node := fun _ => .empty

/-- A branch with two entries. -/
def twoLeaves (p : Path) (v : Bytes) (q : Path) (w : Bytes) : Node :=
  match p with
  | [] => addLeaf noChildren (some v) q w
  | n :: r => addLeaf (setChild noChildren n (.leaf r v)) none q w

/-- `insert_at` of cita_trie. -/
def insert : Node → Path → Bytes → Node
  | .empty, k, v => .leaf k v
  | .leaf p w, k, v =>
    if k = p then .leaf p v
    else
      let q := lcp p k
      mkExt q (twoLeaves (p.drop q.length) w (k.drop q.length) v)
  | .ext p c, k, v =>
    let q := lcp p k
    match p.drop q.length with
    | [] => .ext p (insert c (k.drop p.length) v)
    | n :: r => mkExt q (addLeaf (setChild noChildren n (mkExt r c)) none (k.drop q.length) v)
  | .branch cs _, [], v => .branch cs (some v)
  | .branch cs w, n :: k, v => .branch (setChild cs n (insert (cs n) k v)) w

/-- `degenerate` of an extension: paths are joined. -/
def joinExt (p : Path) : Node → Node
  | .empty => .empty
  | .leaf q v => .leaf (p ++ q) v
  | .ext q c => .ext (p ++ q) c
  | c => .ext p c

def isEmpty : Node → Bool
  | .empty => true
  | _ => false

/-- The children that are not empty. -/
def used (cs : Fin 16 → Node) : List (Fin 16) := (List.finRange 16).filter fun i => !isEmpty (cs i)

/-- `degenerate` of a branch: one with a single entry becomes a leaf or an extension. -/
def shrink (cs : Fin 16 → Node) (v : Option Bytes) : Node :=
  match used cs, v with
  | [], none => .empty
  | [], some w => .leaf [] w
  | [n], none => joinExt [n] (cs n)
  | _, _ => .branch cs v

/-- `delete_at` of cita_trie. -/
def remove : Node → Path → Node
  | .empty, _ => .empty
  | .leaf p v, k => if k = p then .empty else .leaf p v
  | .ext p c, k => if p.isPrefixOf k then joinExt p (remove c (k.drop p.length)) else .ext p c
  | .branch cs _, [] => shrink cs none
  | .branch cs w, n :: k => shrink (setChild cs n (remove (cs n) k)) w

/-- `Trie::insert` of cita_trie: an empty value removes the key. -/
def put (t : Node) (k : Path) (v : Bytes) : Node := if v = [] then remove t k else insert t k v

/-! ## Paths -/

theorem lcp_prefix : ∀ p k : Path, lcp p k <+: p ∧ lcp p k <+: k := by
  intro p
  induction p with
  | nil => intro k; cases k <;> exact ⟨List.nil_prefix, List.nil_prefix⟩
  | cons a p ih =>
    intro k
    cases k with
    | nil => exact ⟨List.nil_prefix, List.nil_prefix⟩
    | cons b q =>
      unfold lcp
      split
      next h =>
        subst h
        exact ⟨List.prefix_cons_inj a |>.2 (ih q).1, List.prefix_cons_inj a |>.2 (ih q).2⟩
      · exact ⟨List.nil_prefix, List.nil_prefix⟩

theorem lcp_split (p k : Path) :
    p = lcp p k ++ p.drop (lcp p k).length ∧ k = lcp p k ++ k.drop (lcp p k).length := by
  obtain ⟨⟨a, ha⟩, ⟨b, hb⟩⟩ := lcp_prefix p k
  generalize hq : lcp p k = q at *
  constructor
  · rw [← ha]; simp
  · rw [← hb]; simp

/-- After the common prefix the paths part. -/
theorem lcp_part : ∀ (p k : Path) (a b : Fin 16) (r s : Path),
    p.drop (lcp p k).length = a :: r → k.drop (lcp p k).length = b :: s → a ≠ b := by
  intro p
  induction p with
  | nil => intro k a b r s h; simp [lcp] at h
  | cons x p ih =>
    intro k a b r s h1 h2
    cases k with
    | nil => simp [lcp] at h2
    | cons y k =>
      unfold lcp at h1 h2
      split at h1
      next h =>
        rw [if_pos h] at h2
        exact ih k a b r s (by simpa using h1) (by simpa using h2)
      next h =>
        rw [if_neg h] at h2
        simp only [List.length_nil, List.drop_zero, List.cons.injEq] at h1 h2
        rw [← h1.1, ← h2.1]; exact h

theorem prefix_iff {p k : Path} : p.isPrefixOf k = true ↔ p <+: k := List.isPrefixOf_iff_prefix

/-! ## Reading -/

theorem get_mkExt (p : Path) (c : Node) (k : Path) :
    get (mkExt p c) k = if p.isPrefixOf k then get c (k.drop p.length) else none := by
  unfold mkExt
  split
  next h => subst h; simp
  · rfl

theorem get_joinExt (p : Path) (c : Node) (k : Path) :
    get (joinExt p c) k = if p.isPrefixOf k then get c (k.drop p.length) else none := by
  cases c with
  | empty => simp [joinExt, get]
  | leaf q v =>
    simp only [joinExt, get]
    by_cases h : p.isPrefixOf k = true
    · rw [if_pos h]
      obtain ⟨r, rfl⟩ := prefix_iff.1 h
      simp
    · rw [if_neg h, if_neg]
      intro e
      exact h (prefix_iff.2 ⟨q, e.symm⟩)
  | ext q c =>
    simp only [joinExt, get]
    by_cases h : p.isPrefixOf k = true
    · rw [if_pos h]
      obtain ⟨r, rfl⟩ := prefix_iff.1 h
      have e1 : ((p ++ q).isPrefixOf (p ++ r) = true) ↔ (q.isPrefixOf r = true) := by
        rw [prefix_iff, prefix_iff]; exact List.prefix_append_right_inj p
      by_cases h2 : q.isPrefixOf r = true
      · rw [if_pos (e1.2 h2)]
        simp only [List.drop_left, List.length_append]
        rw [if_pos h2, ← List.drop_drop]; simp
      · rw [if_neg (fun x => h2 (e1.1 x))]
        simp [h2]
    · rw [if_neg h, if_neg]
      intro e
      obtain ⟨r, rfl⟩ := prefix_iff.1 e
      exact h (prefix_iff.2 ⟨q ++ r, by simp⟩)
  | branch cs v => rfl

theorem get_addLeaf (cs : Fin 16 → Node) (w : Option Bytes) (p : Path) (v : Bytes)
    (hfree : ∀ n r, p = n :: r → cs n = .empty) (hw : p = [] → w = none) (k : Path) :
    get (addLeaf cs w p v) k = if k = p then some v else get (.branch cs w) k := by
  cases p with
  | nil =>
    cases k with
    | nil => simp [addLeaf, get]
    | cons n k => simp [addLeaf, get]
  | cons n r =>
    cases k with
    | nil => simp [addLeaf, get]
    | cons m k =>
      simp only [addLeaf, get, setChild, List.cons.injEq]
      by_cases h : m = n
      · subst h
        simp only [if_true, true_and, get]
        rw [hfree m r rfl]; simp [get]
      · simp [h]

theorem get_noChildren (k : Path) : get (.branch noChildren none) k = none := by
  cases k <;> rfl

theorem get_twoLeaves (p : Path) (v : Bytes) (q : Path) (w : Bytes) (hne : p ≠ q)
    (hpart : ∀ a b r s, p = a :: r → q = b :: s → a ≠ b) (k : Path) :
    get (twoLeaves p v q w) k = if k = q then some w else if k = p then some v else none := by
  cases p with
  | nil =>
    simp only [twoLeaves]
    rw [get_addLeaf]
    · cases k with
      | nil => simp [get]
      | cons n k => simp [get, noChildren]
    · intro n r _; rfl
    · intro h; exact absurd h.symm hne
  | cons n r =>
    simp only [twoLeaves]
    rw [get_addLeaf]
    · cases k with
      | nil => simp [get]
      | cons m k =>
        simp only [get, setChild, List.cons.injEq]
        by_cases h : m = n
        · subst h; simp [get]
        · simp [h, noChildren, get]
    · intro m s h
      have := hpart n m r s rfl h
      simp [setChild, noChildren, this.symm]
    · intro _; rfl

/-- What is read after an insertion. -/
theorem get_insert : ∀ (t : Node) (k : Path) (v : Bytes) (j : Path),
    get (insert t k v) j = if j = k then some v else get t j := by
  intro t
  induction t with
  | empty => intro k v j; simp [insert, get]
  | leaf p w =>
    intro k v j
    unfold insert
    by_cases h : k = p
    · rw [if_pos h]; subst h; simp [get]
      split <;> rfl
    · rw [if_neg h]
      obtain ⟨e1, e2⟩ := lcp_split p k
      have hp := lcp_part p k
      dsimp only
      generalize hq : lcp p k = q at *
      rw [get_mkExt, get_twoLeaves _ _ _ _ (by
        intro e; rw [e] at e1; exact h (e2.trans e1.symm)) (fun a b r s h1 h2 => hp a b r s h1 h2)]
      by_cases hpre : q.isPrefixOf j = true
      · rw [if_pos hpre]
        obtain ⟨x, rfl⟩ := prefix_iff.1 hpre
        simp only [List.drop_left, get]
        have ek : (q ++ x = k) ↔ x = k.drop q.length := by
          constructor
          · intro e; rw [← e]; simp
          · intro e; rw [e, ← e2]
        have ep : (q ++ x = p) ↔ x = p.drop q.length := by
          constructor
          · intro e; rw [← e]; simp
          · intro e; rw [e, ← e1]
        simp only [ek, ep]
      · rw [if_neg hpre]
        have n1 : j ≠ k := fun e => hpre (prefix_iff.2 ⟨_, by rw [e, ← e2]⟩)
        have n2 : j ≠ p := fun e => hpre (prefix_iff.2 ⟨_, by rw [e, ← e1]⟩)
        simp [n1, n2, get]
  | ext p c ih =>
    intro k v j
    unfold insert
    obtain ⟨e1, e2⟩ := lcp_split p k
    have hp := lcp_part p k
    have hpk := (lcp_prefix p k).2
    dsimp only
    generalize hq : lcp p k = q at *
    cases hd : p.drop q.length with
    | nil =>
      rw [hd] at e1
      simp only [List.append_nil] at e1
      subst e1
      dsimp only
      simp only [get]
      by_cases hpre : p.isPrefixOf j = true
      · rw [if_pos hpre, if_pos hpre, ih]
        obtain ⟨x, rfl⟩ := prefix_iff.1 hpre
        have ek : (p ++ x = k) ↔ x = k.drop p.length := by
          constructor
          · intro e; rw [← e]; simp
          · intro e; rw [e, ← e2]
        simp only [List.drop_left, ek]
      · rw [if_neg hpre, if_neg hpre, if_neg]
        intro e; exact hpre (prefix_iff.2 (e ▸ hpk))
    | cons n r =>
      dsimp only
      rw [hd] at e1
      rw [get_mkExt, get_addLeaf]
      · by_cases hpre : q.isPrefixOf j = true
        · rw [if_pos hpre]
          obtain ⟨x, rfl⟩ := prefix_iff.1 hpre
          have ek : (q ++ x = k) ↔ x = k.drop q.length := by
            constructor
            · intro e; rw [← e]; simp
            · intro e; rw [e, ← e2]
          simp only [List.drop_left, ek]
          congr 1
          have ep : (p.isPrefixOf (q ++ x) = true) ↔ ((n :: r).isPrefixOf x = true) := by
            rw [prefix_iff, prefix_iff, e1]; exact List.prefix_append_right_inj q
          simp only [get]
          cases x with
          | nil =>
            rw [if_neg (fun h => by have := ep.1 h; simp at this)]
            rfl
          | cons m x =>
            simp only [get, setChild]
            by_cases hm : m = n
            · subst hm
              rw [if_pos rfl, get_mkExt]
              have e3 : ((m :: r).isPrefixOf (m :: x) = true) ↔ (r.isPrefixOf x = true) := by
                rw [prefix_iff, prefix_iff]; exact List.prefix_cons_inj m
              have e4 : (q ++ m :: x).drop p.length = x.drop r.length := by
                rw [e1, List.length_append, ← List.drop_drop]; simp
              by_cases hx : r.isPrefixOf x = true
              · rw [if_pos hx, if_pos (ep.2 (e3.2 hx)), e4]
              · rw [if_neg hx, if_neg (fun h => hx (e3.1 (ep.1 h)))]
            · rw [if_neg hm]
              simp only [noChildren, get]
              rw [if_neg]
              intro h
              have := prefix_iff.1 (ep.1 h)
              obtain ⟨z, hz⟩ := this
              simp only [List.cons_append, List.cons.injEq] at hz
              exact hm hz.1.symm
        · rw [if_neg hpre]
          have n1 : j ≠ k := fun e => hpre (prefix_iff.2 ⟨_, by rw [e, ← e2]⟩)
          simp only [n1, if_false, get]
          rw [if_neg]
          intro h
          obtain ⟨z, rfl⟩ := prefix_iff.1 h
          exact hpre (prefix_iff.2 ⟨(n :: r) ++ z, by rw [← List.append_assoc, ← e1]⟩)
      · intro m s h
        have := hp n m r s hd h
        simp [setChild, noChildren, this.symm]
      · intro _; rfl
  | branch cs w ih =>
    intro k v j
    cases k with
    | nil =>
      cases j with
      | nil => simp [insert, get]
      | cons m j => simp [insert, get]
    | cons n k =>
      cases j with
      | nil => simp [insert, get]
      | cons m j =>
        simp only [insert, get, setChild, List.cons.injEq]
        by_cases h : m = n
        · subst h; simp [ih]
        · simp [h]

theorem mem_used (cs : Fin 16 → Node) (i : Fin 16) : i ∈ used cs ↔ cs i ≠ .empty := by
  unfold used
  simp only [List.mem_filter, List.mem_finRange, true_and, Bool.not_eq_true']
  cases cs i <;> simp [isEmpty]

theorem get_shrink (cs : Fin 16 → Node) (v : Option Bytes) (k : Path) :
    get (shrink cs v) k = get (.branch cs v) k := by
  have hother : ∀ i, i ∉ used cs → cs i = .empty := by
    intro i hi
    cases h : cs i with
    | empty => rfl
    | _ => exact absurd ((mem_used cs i).2 (by rw [h]; intro e; cases e)) hi
  unfold shrink
  split
  next hu =>
    cases k with
    | nil => rfl
    | cons n k => simp only [get]; rw [hother n (by rw [hu]; simp)]; rfl
  next w hu =>
    cases k with
    | nil => simp [get]
    | cons n k => simp only [get]; rw [hother n (by rw [hu]; simp)]; simp [get]
  next n hu =>
    rw [get_joinExt]
    cases k with
    | nil => simp [get]
    | cons m k =>
      simp only [get]
      by_cases h : m = n
      · subst h; simp
      · rw [hother m (by rw [hu]; simpa using h)]
        have : ¬ ([n].isPrefixOf (m :: k) = true) := by
          rw [prefix_iff]
          rintro ⟨z, hz⟩
          simp only [List.cons_append, List.cons.injEq] at hz
          exact h hz.1.symm
        rw [if_neg this]; rfl
  · rfl

/-- What is read after a removal. -/
theorem get_remove : ∀ (t : Node) (k j : Path),
    get (remove t k) j = if j = k then none else get t j := by
  intro t
  induction t with
  | empty => intro k j; simp [remove, get]
  | leaf p w =>
    intro k j
    unfold remove
    by_cases h : k = p
    · rw [if_pos h]; subst h; simp [get]
    · rw [if_neg h]
      simp only [get]
      by_cases hj : j = k
      · subst hj; simp [h]
      · simp [hj]
  | ext p c ih =>
    intro k j
    unfold remove
    by_cases hk : p.isPrefixOf k = true
    · rw [if_pos hk, get_joinExt, ih]
      obtain ⟨x, rfl⟩ := prefix_iff.1 hk
      simp only [get]
      by_cases hj : p.isPrefixOf j = true
      · obtain ⟨y, rfl⟩ := prefix_iff.1 hj
        simp
      · have : j ≠ p ++ x := fun e => hj (prefix_iff.2 ⟨x, e.symm⟩)
        simp [hj, this]
    · rw [if_neg hk]
      by_cases hj : j = k
      · subst hj; simp [get, hk]
      · simp [hj]
  | branch cs w ih =>
    intro k j
    cases k with
    | nil =>
      simp only [remove]
      rw [get_shrink]
      cases j with
      | nil => simp [get]
      | cons m j => simp [get]
    | cons n k =>
      simp only [remove]
      rw [get_shrink]
      cases j with
      | nil => simp [get]
      | cons m j =>
        simp only [get, setChild, List.cons.injEq]
        by_cases h : m = n
        · subst h; simp [ih]
        · simp [h]

end Axon.Trie
