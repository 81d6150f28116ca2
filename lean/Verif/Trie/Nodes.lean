import Verif.Trie.Lists

/-!
# Tries in a database of nodes

`PatriciaTrie` of cita_trie over `RocksTrieDB` (core/executor/src/adapter/trie/db.rs): committing a trie writes
the bytes of its nodes under their hashes, opening it by its root reads them again.  `RocksTrieDB` never removes
a node (`remove` and `remove_batch` do nothing, db.rs:111-117); that its cache answers like the database is C41.
-/

namespace Axon.Trie
open Axon Axon.Rlp

/-- What `commit` of cita_trie writes: the nodes that are not part of their parents, and the root node however
short it is.  The crate writes the nodes it has loaded; the others are there already. -/
def stored (H : Bytes → Bytes) (t : Node) : List Bytes :=
  raw H t :: (pieces H t).filter fun b => decide (32 ≤ b.length)

/-- `RocksTrieDB::get`, db.rs:37-57: nodes are kept under their hashes. -/
def fetch (H : Bytes → Bytes) (nodes : List Bytes) (h : Bytes) : Option Bytes := nodes.find? fun b => H b == h

/-- Sixteen results, the first failure counts. -/
def gather (f : Fin 16 → Outcome Node) : Outcome (Fin 16 → Node) :=
  match (List.finRange 16).find? (fun i => match f i with | .ok _ => false | _ => true) with
  | none => .ok fun i => match f i with | .ok t => t | _ => .empty
  | some i => match f i with
    | .panic => .panic
    | _ => .err

/-- `decode_node` of cita_trie, with the nodes known by hash recovered at once; the crate recovers them when
they are needed (`recover_from_db`), so that a missing node is noticed later or counts as empty.  The number
bounds the depth; beyond it the crate would not return. -/
def load (H : Bytes → Bytes) (nodes : List Bytes) : Nat → Item → Outcome Node
  | 0, _ => .panic
  | n + 1, x =>
    match x with
    | .str [] => .ok .empty
    | .str h =>
      if h.length = 32 then
        match fetch H nodes h with
        | none => .err
        | some b =>
          match decode b with
          | none => .err
          | some y => load H nodes n y
      else .err
    | .list [.str c, y] =>
      match fromCompact c with
      | none => .panic
      | some (true, p) =>
        match y with
        | .str v => .ok (.leaf p v)
        | .list _ => .err
      | some (false, p) => (load H nodes n y).bind fun t => .ok (.ext p t)
    | .list l =>
      if l.length = 17 then
        (gather fun i => match (l[i.val]? : Option Item) with
          | some y => load H nodes n y
          | none => .err).bind fun cs =>
        match (l[16]? : Option Item) with
        | some (.str v) => .ok (.branch cs (if v = [] then none else some v))
        | _ => .err
      else .err

/-- `PatriciaTrie::from` for keys of 32 bytes: 64 nibbles, each with a hash and a node at most. -/
def openAt (H : Bytes → Bytes) (nodes : List Bytes) (r : Bytes) : Outcome Node := load H nodes 130 (.str r)

/-! ## Lemmas -/

theorem gather_ok {f : Fin 16 → Outcome Node} {cs : Fin 16 → Node} (h : ∀ i, f i = .ok (cs i)) :
    gather f = .ok cs := by
  unfold gather
  have : (List.finRange 16).find? (fun i => match f i with | .ok _ => false | _ => true) = none := by
    rw [List.find?_eq_none]
    intro i _
    rw [h i]
    simp
  rw [this]
  simp only [h]

theorem load_list17 {H : Bytes → Bytes} {nodes : List Bytes} {n : Nat} {l : List Item} (hl : l.length = 17) :
    load H nodes (n + 1) (.list l) =
      (gather fun i => match (l[i.val]? : Option Item) with
        | some y => load H nodes n y
        | none => .err).bind fun cs =>
      match (l[16]? : Option Item) with
      | some (.str v) => .ok (.branch cs (if v = [] then none else some v))
      | _ => .err := by
  rw [load]
  · rw [if_pos hl]
  · rintro c y rfl
    simp at hl

theorem load_hash {H : Bytes → Bytes} {nodes : List Bytes} {n : Nat} {h : Bytes} (hl : h.length = 32) :
    load H nodes (n + 1) (.str h) =
      match fetch H nodes h with
      | none => .err
      | some b =>
        match decode b with
        | none => .err
        | some y => load H nodes n y := by
  rw [load]
  · rw [if_pos hl]
  · rintro rfl
    simp at hl

theorem fetch_of_mem {H : Bytes → Bytes} {nodes : List Bytes} {a : Bytes} (hm : a ∈ nodes)
    (hu : ∀ b ∈ nodes, H b = H a → b = a) : fetch H nodes (H a) = some a := by
  unfold fetch
  cases e : nodes.find? (fun b => H b == H a) with
  | none =>
    rw [List.find?_eq_none] at e
    exact absurd (by simp) (e a hm)
  | some b =>
    have h1 := List.mem_of_find?_eq_some e
    have h2 := List.find?_some e
    simp only [beq_iff_eq] at h2
    rw [hu b h1 h2]

/-- A node is read back from its bytes and the nodes below. -/
theorem load_enc {H : Bytes → Bytes} (hH : ∀ b, (H b).length = 32) {nodes : List Bytes} :
    ∀ (t : Node) (L : Nat), Ok t → Sized t → (∀ k v, get t k = some v → k.length ≤ L) →
      (∀ b ∈ pieces H t, 32 ≤ b.length → b ∈ nodes) → Apart H nodes t → ∀ n, 2 * L + 1 ≤ n →
      load H nodes n (enc H t) = .ok t ∧ load H nodes (n + 1) (refOf H (enc H t)) = .ok t := by
  intro t
  have ref : ∀ (t : Node) (n : Nat), Sized t → (∀ b ∈ pieces H t, 32 ≤ b.length → b ∈ nodes) → Apart H nodes t →
      (∀ m, n ≤ m → load H nodes m (enc H t) = .ok t) → load H nodes (n + 1) (refOf H (enc H t)) = .ok t := by
    intro t n hs hp ha h
    unfold refOf
    split
    · exact h _ (by omega)
    · rename_i hl
      have hf := fetch_of_mem (hp _ (raw_mem H t) (by unfold raw; omega))
        (fun b hb e => ha b hb _ (raw_mem H t) e)
      have hd := decode_raw hH hs
      unfold raw at hf hd
      rw [load_hash (hH _), hf]
      simp only
      rw [hd]
      exact h n (Nat.le_refl _)
  suffices main : ∀ (L : Nat), Ok t → Sized t → (∀ k v, get t k = some v → k.length ≤ L) →
      (∀ b ∈ pieces H t, 32 ≤ b.length → b ∈ nodes) → Apart H nodes t → ∀ n, 2 * L + 1 ≤ n →
      load H nodes n (enc H t) = .ok t by
    intro L ho hs hk hp ha n hn
    exact ⟨main L ho hs hk hp ha n hn,
      ref t n hs hp ha fun m hm => main L ho hs hk hp ha m (by omega)⟩
  induction t with
  | empty => intro L h; exact h.elim
  | leaf p v =>
    intro L _ _ _ _ _ n hn
    obtain ⟨n, rfl⟩ : ∃ m, n = m + 1 := ⟨n - 1, by omega⟩
    simp [enc, load, fromCompact_compact]
  | ext p c ih =>
    intro L ho hs hk hp ha n hn
    obtain ⟨m, rfl⟩ : ∃ m, n = m + 1 := ⟨n - 1, by omega⟩
    obtain ⟨ho1, -, ho3⟩ := ho
    have hpl : 0 < p.length := List.length_pos_iff.2 ho1
    obtain ⟨k0, v0, hk0⟩ := ok_inhabited c ho3
    have hk' : ∀ k v, get c k = some v → k.length ≤ L - 1 := by
      intro k v hv
      have := hk (p ++ k) v (by rw [get_ext_append]; exact hv)
      simp at this; omega
    have hL : 1 ≤ L := by
      have := hk (p ++ k0) v0 (by rw [get_ext_append]; exact hk0)
      simp at this; omega
    have hp' : ∀ b ∈ pieces H c, 32 ≤ b.length → b ∈ nodes := by
      intro b hb hl
      exact hp b (by rw [pieces]; exact List.mem_cons_of_mem _ hb) hl
    have ha' : Apart H nodes c := by
      intro b hb a haa
      exact ha b hb a (by rw [pieces]; exact List.mem_cons_of_mem _ haa)
    have hr : load H nodes m (refOf H (enc H c)) = .ok c := by
      obtain ⟨m', rfl⟩ : ∃ m', m = m' + 1 := ⟨m - 1, by omega⟩
      exact ref c m' hs.2 hp' ha' fun j hj => ih (L - 1) ho3 hs.2 hk' hp' ha' j (by omega)
    rw [enc, load]
    simp only [fromCompact_compact, hr, Outcome.bind]
  | branch cs v ih =>
    intro L ho hs hk hp ha n hn
    obtain ⟨m, rfl⟩ : ∃ m, n = m + 1 := ⟨n - 1, by omega⟩
    obtain ⟨ho1, ho2, a, b, hab, hoa, hob⟩ := ho
    have hL : 1 ≤ L := by
      have : ∃ i, cs i ≠ .empty := by
        cases a with
        | some i => exact ⟨i, hoa⟩
        | none =>
          cases b with
          | some i => exact ⟨i, hob⟩
          | none => exact absurd rfl hab
      obtain ⟨i, hi⟩ := this
      obtain ⟨k, w, hkw⟩ := ok_inhabited _ (ho1 i hi)
      have := hk (i :: k) w (by simpa [get] using hkw)
      simp at this; omega
    have hr : ∀ i, load H nodes m (refOf H (enc H (cs i))) = .ok (cs i) := by
      intro i
      obtain ⟨m', rfl⟩ : ∃ m', m = m' + 1 := ⟨m - 1, by omega⟩
      have hp' : ∀ b ∈ pieces H (cs i), 32 ≤ b.length → b ∈ nodes :=
        fun b hb hl => hp b (child_pieces H cs v i b hb) hl
      have ha' : Apart H nodes (cs i) := fun b hb a haa => ha b hb a (child_pieces H cs v i a haa)
      refine ref (cs i) m' (hs.1 i) hp' ha' fun j hj => ?_
      by_cases he : cs i = .empty
      · rw [he]
        obtain ⟨j', rfl⟩ : ∃ j', j = j' + 1 := ⟨j - 1, by omega⟩
        rfl
      · refine ih i (L - 1) (ho1 i he) (hs.1 i) ?_ hp' ha' j (by omega)
        intro k w hw
        have := hk (i :: k) w (by simpa [get] using hw)
        simp at this; omega
    rw [enc, load_list17 (by simp)]
    rw [gather_ok (cs := cs) (fun i => by
      rw [enc_getElem]
      exact hr i)]
    simp only [Outcome.bind]
    rw [enc_getLast]
    cases v with
    | none => rfl
    | some w =>
      have : w ≠ [] := fun e => ho2 (by rw [e])
      simp [this]

/-- A trie with keys of 32 bytes whose nodes are in the database is opened by its root. -/
theorem openAt_root {H : Bytes → Bytes} (hH : ∀ b, (H b).length = 32) {nodes : List Bytes} {t : Node}
    (hc : Canon t) (hs : Sized t) (hk : ∀ k v, get t k = some v → k.length ≤ 64)
    (hp : ∀ b ∈ stored H t, b ∈ nodes) (ha : Apart H nodes t) : openAt H nodes (root H t) = .ok t := by
  unfold openAt root
  rw [load_hash (hH _), fetch_of_mem (hp _ (by simp [stored])) (fun b hb e => ha b hb _ (raw_mem H t) e)]
  simp only
  rw [decode_raw hH hs]
  by_cases he : t = .empty
  · subst he; rfl
  · refine (load_enc hH t 64 (hc he) hs hk ?_ ha 129 (by omega)).1
    intro b hb hl
    exact hp b (by simp [stored, hb, hl])

theorem stored_pieces (H : Bytes → Bytes) (t : Node) : ∀ b ∈ stored H t, b ∈ pieces H t := by
  intro b hb
  unfold stored at hb
  rcases List.mem_cons.1 hb with rfl | hb
  · exact raw_mem H t
  · exact (List.mem_filter.1 hb).1

end Axon.Trie
