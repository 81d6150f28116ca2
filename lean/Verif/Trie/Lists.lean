import Verif.Trie.Root
import Verif.Codec.Fields

/-!
# Roots of lists

`TrieMerkle` (common/merkle/src/lib.rs:58-107): the entries of a list under their encoded positions, and the
roots of transactions and receipts in proposals and headers.
-/

namespace Axon.Trie

open Axon Axon.Rlp

/-- Writes one after the other; an empty value removes the key (`Trie::insert` of cita_trie). -/
def run (ops : List (Path × Bytes)) (t : Node) : Node := ops.foldl (fun t o => put t o.1 o.2) t

/-- `rlp::encode(&i)`, common/merkle/src/lib.rs:75, 92 and 101. -/
def indexKey (i : Nat) : Path := keyPath (encode (.str (beBytes i)))

/-- The writes for the entries of a list from a position on. -/
def entries : Nat → List Bytes → List (Path × Bytes)
  | _, [] => []
  | i, v :: vs => (indexKey i, v) :: entries (i + 1) vs

/-- `from_iter` and `from_receipts`, lib.rs:69-81 and 97-106. -/
def build (vs : List Bytes) : Node := run (entries 0 vs) .empty

/-- `RLP_NULL`, protocol/src/types/primitive.rs:35-40: the constant is the hash of the encoding of nothing. -/
def rlpNull (H : Bytes → Bytes) : Bytes := H [0x80]

/-- The root of transactions of a proposal, core/consensus/src/engine.rs:79-87 and 614-622.  Hashes are
inserted in their encoding (`ProtocolCodec`, protocol/src/codec/mod.rs:24-33). -/
def txsRoot (H : Bytes → Bytes) (hs : List H256) : Bytes :=
  if hs.isEmpty then rlpNull H else root H (build (hs.map fun h => encode (.str h.bytes)))

/-- The root of receipts, core/executor/src/lib.rs:192-200; the receipts are encoded already. -/
def receiptsRoot (H : Bytes → Bytes) (rs : List Bytes) : Bytes :=
  if rs.isEmpty then rlpNull H else root H (build rs)

/-- `get_proof_by_index`, lib.rs:88-95. -/
def proofByIndex (H : Bytes → Bytes) (vs : List Bytes) (i : Nat) : List Bytes := prove H (build vs) (indexKey i)

/-- `MPTTrie::insert`, core/executor/src/adapter/trie/wrapped.rs:20-22: keys are hashed. -/
def mptInsert (H : Bytes → Bytes) (t : Node) (k v : Bytes) : Node := put t (keyPath (H k)) v

/-- `MPTTrie::get`, wrapped.rs:12-14. -/
def mptGet (H : Bytes → Bytes) (t : Node) (k : Bytes) : Option Bytes := get t (keyPath (H k))

/-- Insertions one after the other. -/
def mptRun (H : Bytes → Bytes) (ops : List (Bytes × Bytes)) (t : Node) : Node :=
  ops.foldl (fun t o => mptInsert H t o.1 o.2) t

/-! ## Contents -/

/-- What the writes leave under a key. -/
def written (ops : List (Path × Bytes)) (k : Path) : Option Bytes :=
  ops.foldl (fun x o => if k = o.1 then (if o.2 = [] then none else some o.2) else x) none

theorem canon_run (ops : List (Path × Bytes)) : ∀ t, Canon t → Canon (run ops t) := by
  induction ops with
  | nil => intro t h; exact h
  | cons o ops ih => intro t h; exact ih _ (canon_put h o.1 o.2)

theorem get_run (ops : List (Path × Bytes)) : ∀ (t : Node) (k : Path),
    get (run ops t) k =
      ops.foldl (fun x o => if k = o.1 then (if o.2 = [] then none else some o.2) else x) (get t k) := by
  induction ops with
  | nil => intro t k; rfl
  | cons o ops ih =>
    intro t k
    show get (run ops (put t o.1 o.2)) k = _
    rw [ih, get_put]; rfl

theorem canon_empty : Canon .empty := fun h => absurd rfl h

theorem get_run_empty (ops : List (Path × Bytes)) (k : Path) : get (run ops .empty) k = written ops k := by
  rw [get_run]; rfl

theorem sized_of_get : ∀ t : Node, Canon t →
    (∀ k v, get t k = some v → k.length < 2 ^ 32 ∧ v.length < 2 ^ 32) → Sized t := by
  intro t
  induction t with
  | empty => intro _ _; trivial
  | leaf p v => intro _ h; exact h p v (by simp [get])
  | ext p c ih =>
    intro hc h
    have hc := hc (by simp)
    obtain ⟨j, x, hj⟩ := ok_inhabited c hc.2.2
    have h1 := (h (p ++ j) x (by rw [get_ext_append]; exact hj)).1
    simp only [List.length_append] at h1
    refine ⟨by omega, ih (canon_of_ok hc.2.2) fun k v hk => ?_⟩
    have := h (p ++ k) v (by rw [get_ext_append]; exact hk)
    simp only [List.length_append] at this
    exact ⟨by omega, this.2⟩
  | branch cs v ih =>
    intro hc h
    have hc := hc (by simp)
    refine ⟨fun i => ih i (hc.1 i) fun k w hk => ?_, fun w hw => (h [] w hw).2⟩
    have := h (i :: k) w hk
    simp only [List.length_cons] at this
    exact ⟨by omega, this.2⟩

theorem written_mem {ops : List (Path × Bytes)} {k : Path} {v : Bytes} (h : written ops k = some v) :
    (k, v) ∈ ops ∧ v ≠ [] := by
  have gen : ∀ (ops : List (Path × Bytes)) (x : Option Bytes),
      ops.foldl (fun x o => if k = o.1 then (if o.2 = [] then none else some o.2) else x) x = some v →
      x = some v ∨ ((k, v) ∈ ops ∧ v ≠ []) := by
    intro ops
    induction ops with
    | nil => intro x h; exact .inl h
    | cons o ops ih =>
      intro x h
      rcases ih _ h with e | e
      · dsimp only at e
        split at e
        next hk =>
          split at e
          · exact absurd e (by simp)
          next hv =>
            have := Option.some.inj e
            subst this
            exact .inr ⟨by simp [hk], hv⟩
        · exact .inl e
      · exact .inr ⟨List.mem_cons_of_mem _ e.1, e.2⟩
  rcases gen ops none h with e | e
  · exact absurd e (by simp)
  · exact e

theorem sized_run {ops : List (Path × Bytes)} (h : ∀ o ∈ ops, o.1.length < 2 ^ 32 ∧ o.2.length < 2 ^ 32) :
    Sized (run ops .empty) := by
  refine sized_of_get _ (canon_run ops _ canon_empty) fun k v hk => ?_
  rw [get_run_empty] at hk
  exact h _ (written_mem hk).1

/-! ## Positions -/

theorem indexKey_inj {i j : Nat} (hi : i < 2 ^ 64) (hj : j < 2 ^ 64) (h : indexKey i = indexKey j) : i = j := by
  have h1 := keyPath_inj _ _ h
  have f : ∀ n, n < 2 ^ 64 → (Item.str (beBytes n)).Fits := by
    intro n hn
    rw [Item.Fits]
    have := beBytes_length_le n 8 (by simpa using hn)
    omega
  have h2 := C01_injective _ _ (f i hi) (f j hj) h1
  have h3 : beBytes i = beBytes j := by simpa using h2
  rw [← beNat_beBytes i, h3, beNat_beBytes]

theorem keyPath_length (b : Bytes) : (keyPath b).length = 2 * b.length := by
  induction b with
  | nil => rfl
  | cons x b ih => simp only [keyPath, List.length_cons, ih]; omega

theorem indexKey_length {i : Nat} (hi : i < 2 ^ 64) : (indexKey i).length < 2 ^ 32 := by
  unfold indexKey
  rw [keyPath_length, encode]
  have := beBytes_length_le i 8 (by simpa using hi)
  have := encStr_le (beBytes i) (by omega)
  omega

theorem mem_entries {o : Path × Bytes} : ∀ (vs : List Bytes) (i : Nat), o ∈ entries i vs →
    ∃ j v, vs[j]? = some v ∧ o = (indexKey (i + j), v) := by
  intro vs
  induction vs with
  | nil => intro i h; simp [entries] at h
  | cons v vs ih =>
    intro i h
    rcases List.mem_cons.1 h with rfl | h
    · exact ⟨0, v, rfl, rfl⟩
    · obtain ⟨j, w, hj, e⟩ := ih (i + 1) h
      exact ⟨j + 1, w, by simpa using hj, by rw [e]; congr 2; omega⟩

/-- A fold over entries that hit no key leaves what was there. -/
theorem fold_miss (k : Path) : ∀ (ops : List (Path × Bytes)) (x : Option Bytes), (∀ o ∈ ops, k ≠ o.1) →
    ops.foldl (fun x o => if k = o.1 then (if o.2 = [] then none else some o.2) else x) x = x := by
  intro ops
  induction ops with
  | nil => intro x _; rfl
  | cons o ops ih =>
    intro x h
    simp only [List.foldl_cons]
    rw [if_neg (h o (by simp))]
    exact ih x fun o' ho => h o' (by simp [ho])

theorem written_entries : ∀ (vs : List Bytes) (i j : Nat) (x : Option Bytes), i + vs.length ≤ 2 ^ 64 →
    i ≤ j → j < 2 ^ 64 → (∀ v ∈ vs, v ≠ []) →
    (entries i vs).foldl (fun x o => if indexKey j = o.1 then (if o.2 = [] then none else some o.2) else x) x =
      (vs[j - i]?).or x := by
  intro vs
  induction vs with
  | nil => intro i j x _ _ _ _; simp [entries]
  | cons v vs ih =>
    intro i j x hlen hij hj hv
    simp only [List.length_cons] at hlen
    simp only [entries, List.foldl_cons]
    have hv0 : v ≠ [] := hv v (by simp)
    by_cases e : j = i
    · subst e
      simp only [if_true, if_neg hv0]
      rw [fold_miss]
      · simp
      · intro o ho
        obtain ⟨n, w, hn, e⟩ := mem_entries vs (j + 1) ho
        have hn' : n < vs.length := (List.getElem?_eq_some_iff.1 hn).1
        rw [e]
        intro e'
        have := indexKey_inj hj (by omega) e'
        omega
    · rw [if_neg (fun e' => e (indexKey_inj hj (by omega) e'))]
      rw [ih (i + 1) j x (by omega) (by omega) hj (fun w hw => hv w (by simp [hw]))]
      have : j - i = (j - (i + 1)) + 1 := by omega
      rw [this, List.getElem?_cons_succ]

/-- Reading a list by position. -/
theorem get_build {vs : List Bytes} (hlen : vs.length ≤ 2 ^ 64) (hv : ∀ v ∈ vs, v ≠ []) {j : Nat}
    (hj : j < 2 ^ 64) : get (build vs) (indexKey j) = vs[j]? := by
  unfold build
  rw [get_run_empty]
  unfold written
  rw [written_entries vs 0 j none (by omega) (by omega) hj hv]
  simp

theorem canon_build (vs : List Bytes) : Canon (build vs) := canon_run _ _ canon_empty

theorem sized_build {vs : List Bytes} (hlen : vs.length ≤ 2 ^ 64) (hs : ∀ v ∈ vs, v.length < 2 ^ 32) :
    Sized (build vs) := by
  refine sized_run fun o ho => ?_
  obtain ⟨j, v, hj, e⟩ := mem_entries vs 0 ho
  have hj' := List.getElem?_eq_some_iff.1 hj
  obtain ⟨hjl, hjv⟩ := hj'
  rw [e]
  refine ⟨indexKey_length (by omega), hs v ?_⟩
  rw [← hjv]; exact List.getElem_mem hjl

theorem build_ne_empty {vs : List Bytes} (hlen : vs.length ≤ 2 ^ 64) (hv : ∀ v ∈ vs, v ≠ []) (hne : vs ≠ []) :
    build vs ≠ .empty := by
  intro e
  have := get_build hlen hv (j := 0) (by omega)
  rw [e] at this
  cases vs with
  | nil => exact hne rfl
  | cons v vs => simp [get] at this

theorem list_of_gets {vs ws : List Bytes} (h1 : vs.length ≤ 2 ^ 64) (h2 : ws.length ≤ 2 ^ 64)
    (h : ∀ j, j < 2 ^ 64 → vs[j]? = ws[j]?) : vs = ws := by
  refine List.ext_getElem? fun j => ?_
  by_cases hj : j < 2 ^ 64
  · exact h j hj
  · rw [List.getElem?_eq_none (by omega), List.getElem?_eq_none (by omega)]

theorem raw_empty (H : Bytes → Bytes) : raw H .empty = [0x80] := by
  simp [raw, enc, encode, encStr]

theorem receiptsRoot_eq (H : Bytes → Bytes) (rs : List Bytes) : receiptsRoot H rs = root H (build rs) := by
  unfold receiptsRoot
  cases rs with
  | nil => simp [build, entries, run, root, raw_empty, rlpNull]
  | cons r rs => simp

theorem txsRoot_eq (H : Bytes → Bytes) (hs : List H256) :
    txsRoot H hs = root H (build (hs.map fun h => encode (.str h.bytes))) := by
  unfold txsRoot
  cases hs with
  | nil => simp [build, entries, run, root, raw_empty, rlpNull]
  | cons r rs => simp

theorem encHash_inj {a b : H256} (h : encode (.str a.bytes) = encode (.str b.bytes)) : a = b := by
  have f : ∀ x : H256, (Item.str x.bytes).Fits := by
    intro x; rw [Item.Fits, x.len]; omega
  have := C01_injective _ _ (f a) (f b) h
  exact FixedBytes.ext' (by simpa using this)

theorem encHash_length (a : H256) : (encode (.str a.bytes)).length ≤ 41 := by
  rw [encode]
  have := encStr_le a.bytes (by rw [a.len]; omega)
  rw [a.len] at this; exact this

theorem encHash_ne (a : H256) : encode (.str a.bytes) ≠ [] := by
  intro h
  have := encode_length_pos (.str a.bytes)
  rw [h] at this; simp at this

end Axon.Trie
