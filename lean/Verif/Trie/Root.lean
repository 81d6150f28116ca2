import Verif.Trie.Canon
import Verif.Codec.RlpProps
import Verif.Util.Outcome

/-!
# Roots and proofs

The hash of a node covers the hashes of the nodes below.  The hash function `H` is a parameter; keccak in the
code (`HasherKeccak`, common/merkle/src/lib.rs:58).  Nothing is assumed of it but its length, 32 bytes.
-/

namespace Axon.Trie

open Axon Axon.Rlp

/-- Two nibbles in each byte. -/
def pairs : Path → Bytes
  | a :: b :: r => UInt8.ofNat (16 * a.val + b.val) :: pairs r
  | _ => []

/-- `Nibbles::encode_compact` of cita_trie. -/
def compact (leaf : Bool) (p : Path) : Bytes :=
  let flag := if leaf then 32 else 0
  match p.length % 2, p with
  | 1, a :: r => UInt8.ofNat (flag + 16 + a.val) :: pairs r
  | _, _ => UInt8.ofNat flag :: pairs p

/-- `Nibbles::from_compact` of cita_trie; `none` for the texts it panics on. -/
def fromCompact : Bytes → Option (Bool × Path)
  | [] => none
  | b :: bs =>
    let low : Fin 16 := ⟨b.toNat % 16, by omega⟩
    match b.toNat / 16 with
    | 0 => some (false, keyPath bs)
    | 1 => some (false, low :: keyPath bs)
    | 2 => some (true, keyPath bs)
    | 3 => some (true, low :: keyPath bs)
    | _ => none

/-- What stands for a node in its parent (`write_node`): short nodes are included, others are hashed. -/
def refOf (H : Bytes → Bytes) (x : Item) : Item :=
  if (encode x).length < 32 then x else .str (H (encode x))

/-- `encode_raw` of cita_trie. -/
def enc (H : Bytes → Bytes) : Node → Item
  | .empty => .str []
  | .leaf p v => .list [.str (compact true p), .str v]
  | .ext p c => .list [.str (compact false p), refOf H (enc H c)]
  | .branch cs v => .list ((List.finRange 16).map (fun i => refOf H (enc H (cs i))) ++ [.str (v.getD [])])

/-- The bytes of a node. -/
def raw (H : Bytes → Bytes) (t : Node) : Bytes := encode (enc H t)

/-- `Trie::root` of cita_trie: the root node is hashed however short it is. -/
def root (H : Bytes → Bytes) (t : Node) : Bytes := H (raw H t)

/-- The nodes below the root on the way to a key that are not part of their parents (`get_path_at`). -/
def path (H : Bytes → Bytes) : Node → Path → List Bytes
  | .empty, _ => []
  | .leaf _ _, _ => []
  | .ext p c, k =>
    if p.isPrefixOf k then
      (if (raw H c).length < 32 then [] else [raw H c]) ++ path H c (k.drop p.length)
    else []
  | .branch _ _, [] => []
  | .branch cs _, n :: k => (if (raw H (cs n)).length < 32 then [] else [raw H (cs n)]) ++ path H (cs n) k

/-- `Trie::get_proof` of cita_trie for a trie that is committed. -/
def prove (H : Bytes → Bytes) (t : Node) (k : Path) : List Bytes :=
  match t with
  | .empty => []
  | t => raw H t :: path H t k

/-- The nodes of a proof by hash: short ones count as the root only. -/
def lookup (H : Bytes → Bytes) (r : Bytes) (proof : List Bytes) (h : Bytes) : Option Bytes :=
  proof.reverse.find? fun b => H b == h && (H b == r || decide (32 ≤ b.length))

/-- `get_at` of cita_trie on encoded nodes.  Nodes are decoded as far as the key leads; the crate decodes a
node completely.  `strict` says whether a node that is missing is an error; otherwise it counts as empty.
The first number bounds the steps; beyond it the crate would not return. -/
def walk (H : Bytes → Bytes) (strict : Bool) (r : Bytes) (proof : List Bytes) :
    Nat → Item → Path → Outcome (Option Bytes)
  | 0, _, _ => .panic
  | fuel + 1, x, k =>
    match x with
    | .str [] => .ok none
    | .str h =>
      if h.length = 32 then
        match lookup H r proof h with
        | none => if strict then .err else .ok none
        | some b =>
          match decode b with
          | none => .err
          | some y => walk H strict r proof fuel y k
      else .err
    | .list [.str c, y] =>
      match fromCompact c with
      | none => .panic
      | some (true, p) =>
        match y with
        | .str v => .ok (if k = p then some v else none)
        | .list _ => .err
      | some (false, p) =>
        if p.isPrefixOf k then walk H strict r proof fuel y (k.drop p.length) else .ok none
    | .list l =>
      if l.length = 17 then
        match k with
        | [] =>
          match (l[16]? : Option Item) with
          | some (.str v) => .ok (if v = [] then none else some v)
          | _ => .err
        | n :: k =>
          match (l[n.val]? : Option Item) with
          | some y => walk H strict r proof fuel y k
          | none => .err
      else .err

/-- `verify_proof` of cita_trie (devtools/axon-tools/src/proof.rs:17-26). -/
def verify (H : Bytes → Bytes) (strict : Bool) (r : Bytes) (k : Path) (proof : List Bytes) :
    Outcome (Option Bytes) :=
  match lookup H r proof r with
  | none => .err
  | some b =>
    match decode b with
    | none => .err
    | some x => walk H strict r proof (2 * k.length + (proof.map List.length).sum + 4) x k

/-! ## Compact paths -/

theorem keyPath_pairs : ∀ (n : Nat) (p : Path), p.length = 2 * n → keyPath (pairs p) = p := by
  intro n
  induction n with
  | zero =>
    intro p h
    have : p = [] := List.length_eq_zero_iff.1 (by omega)
    subst this; rfl
  | succ n ih =>
    intro p h
    match p, h with
    | a :: b :: r, h =>
      simp only [pairs, keyPath]
      have ha := a.isLt
      have hb := b.isLt
      have e : (UInt8.ofNat (16 * a.val + b.val)).toNat = 16 * a.val + b.val := by
        rw [toNat_ofNat_u8]; omega
      rw [ih r (by simp at h; omega)]
      congr 1
      · apply Fin.ext; simp only [e]; omega
      · congr 1
        apply Fin.ext; simp only [e]; omega
    | [a], h => simp at h; omega
    | [], h => simp at h

theorem fromCompact_compact (leaf : Bool) (p : Path) : fromCompact (compact leaf p) = some (leaf, p) := by
  unfold compact
  rcases Nat.mod_two_eq_zero_or_one p.length with h | h
  · obtain ⟨n, hn⟩ : ∃ n, p.length = 2 * n := ⟨p.length / 2, by omega⟩
    rw [h]
    simp only [fromCompact]
    rw [keyPath_pairs n p hn]
    cases leaf <;> rfl
  · rw [h]
    cases p with
    | nil => simp at h
    | cons a r =>
      obtain ⟨n, hn⟩ : ∃ n, r.length = 2 * n := ⟨r.length / 2, by simp at h; omega⟩
      simp only [fromCompact]
      rw [keyPath_pairs n r hn]
      have ha := a.isLt
      cases leaf
      · have e : (UInt8.ofNat ((if (false = true) then 32 else 0) + 16 + a.val)).toNat = 16 + a.val := by
          rw [toNat_ofNat_u8]; simp; omega
        have e1 : (16 + a.val) / 16 = 1 := by omega
        have e2 : (16 + a.val) % 16 = a.val := by omega
        simp only [e, e1, e2]
      · have e : (UInt8.ofNat ((if (true = true) then 32 else 0) + 16 + a.val)).toNat = 48 + a.val := by
          rw [toNat_ofNat_u8]; simp; omega
        have e1 : (48 + a.val) / 16 = 3 := by omega
        have e2 : (48 + a.val) % 16 = a.val := by omega
        simp only [if_true] at e ⊢
        simp only [e, e1, e2]

theorem pairs_length : ∀ (n : Nat) (p : Path), p.length ≤ n → (pairs p).length ≤ n := by
  intro n
  induction n using Nat.strongRecOn with
  | _ n ih =>
    intro p h
    match p, h with
    | a :: b :: r, h =>
      have h' : r.length + 2 ≤ n := by simpa using h
      have := ih (n - 1) (by omega) r (by omega)
      simp only [pairs, List.length_cons]; omega
    | [a], h => simp [pairs]
    | [], h => simp [pairs]

theorem compact_length (leaf : Bool) (p : Path) : (compact leaf p).length ≤ p.length + 1 := by
  have hp := pairs_length _ p (Nat.le_refl _)
  unfold compact
  rcases Nat.mod_two_eq_zero_or_one p.length with h | h
  · rw [h]; simpa using hp
  · rw [h]
    cases p with
    | nil => simp at h
    | cons a r =>
      have := pairs_length _ r (Nat.le_refl _)
      simp only [List.length_cons]; omega

theorem keyPath_inj : ∀ a b : Bytes, keyPath a = keyPath b → a = b := by
  intro a
  induction a with
  | nil => intro b h; cases b with
    | nil => rfl
    | cons y b => simp [keyPath] at h
  | cons x a ih =>
    intro b h
    cases b with
    | nil => simp [keyPath] at h
    | cons y b =>
      simp only [keyPath, List.cons.injEq, Fin.mk.injEq] at h
      obtain ⟨h1, h2, h3⟩ := h
      rw [ih b h3]
      have : x.toNat = y.toNat := by omega
      rw [UInt8.toNat_inj.1 this]

/-! ## Sizes -/

/-- Keys and values shorter than 2^32 bytes. -/
def Sized : Node → Prop
  | .empty => True
  | .leaf p v => p.length < 2 ^ 32 ∧ v.length < 2 ^ 32
  | .ext p c => p.length < 2 ^ 32 ∧ Sized c
  | .branch cs v => (∀ i, Sized (cs i)) ∧ ∀ w, v = some w → w.length < 2 ^ 32

theorem encStr_le (b : Bytes) (h : b.length < 2 ^ 64) : (encStr b).length ≤ b.length + 9 := by
  unfold encStr
  split
  · split <;> simp
  · split
    · simp
    next h56 =>
      have := beBytes_length_le b.length 8 (by simpa using h)
      simp only [longHeader, List.length_append, List.length_cons]; omega

theorem refOf_len {H : Bytes → Bytes} (hH : ∀ b, (H b).length = 32) (x : Item) :
    (encode (refOf H x)).length ≤ 41 := by
  unfold refOf
  split
  · omega
  · rw [encode]
    have := encStr_le (H (encode x)) (by rw [hH]; omega)
    rw [hH] at this; omega

theorem encodeMany_append (l m : List Item) : encodeMany (l ++ m) = encodeMany l ++ encodeMany m := by
  induction l with
  | nil => simp [encodeMany]
  | cons x l ih => simp [encodeMany, ih]

theorem encodeMany_le (l : List Item) (n : Nat) (h : ∀ x ∈ l, (encode x).length ≤ n) :
    (encodeMany l).length ≤ l.length * n := by
  induction l with
  | nil => simp [encodeMany]
  | cons x l ih =>
    simp only [encodeMany, List.length_append, List.length_cons]
    have h1 := h x (by simp)
    have h2 := ih fun y hy => h y (by simp [hy])
    rw [Nat.succ_mul]; omega

theorem fits_of_many {l : List Item} (h : (encodeMany l).length < 2 ^ 64) : (Item.list l).Fits := by
  rw [Item.Fits]; exact ⟨h, fitsMany_of_length l h⟩

theorem fits_enc {H : Bytes → Bytes} (hH : ∀ b, (H b).length = 32) (t : Node) (h : Sized t) :
    (enc H t).Fits := by
  cases t with
  | empty => rw [enc, Item.Fits]; simp
  | leaf p v =>
    refine fits_of_many ?_
    have h1 := compact_length true p
    have h2 := encStr_le (compact true p) (by have := h.1; omega)
    have h3 := encStr_le v (by have := h.2; omega)
    have h4 := h.1
    have h5 := h.2
    simp only [encodeMany, encode, List.length_append, List.length_nil]; omega
  | ext p c =>
    refine fits_of_many ?_
    have h1 := compact_length false p
    have h2 := encStr_le (compact false p) (by have := h.1; omega)
    have h3 := refOf_len hH (enc H c)
    have h4 := h.1
    simp only [encodeMany, encode, List.length_append, List.length_nil]; omega
  | branch cs v =>
    refine fits_of_many ?_
    rw [encodeMany_append, List.length_append]
    have h1 := encodeMany_le ((List.finRange 16).map fun i => refOf H (enc H (cs i))) 41 (by
      intro x hx
      obtain ⟨i, _, rfl⟩ := List.mem_map.1 hx
      exact refOf_len hH _)
    simp only [List.length_map, List.length_finRange] at h1
    have hv : (v.getD []).length < 2 ^ 32 := by
      cases v with
      | none => simp
      | some w => exact h.2 w rfl
    have h2 := encStr_le (v.getD []) (by omega)
    simp only [encodeMany, encode, List.length_append, List.length_nil]; omega

/-! ## The nodes of a trie -/

/-- The bytes of all nodes. -/
def pieces (H : Bytes → Bytes) : Node → List Bytes
  | .empty => [raw H .empty]
  | .leaf p v => [raw H (.leaf p v)]
  | .ext p c => raw H (.ext p c) :: pieces H c
  | .branch cs v => raw H (.branch cs v) :: (List.finRange 16).flatMap fun i => pieces H (cs i)

theorem raw_mem (H : Bytes → Bytes) (t : Node) : raw H t ∈ pieces H t := by
  cases t <;> simp [pieces]

theorem child_pieces (H : Bytes → Bytes) (cs : Fin 16 → Node) (v : Option Bytes) (i : Fin 16) :
    ∀ a ∈ pieces H (cs i), a ∈ pieces H (.branch cs v) := by
  intro a ha
  rw [pieces]
  exact List.mem_cons_of_mem _ (List.mem_flatMap.2 ⟨i, List.mem_finRange i, ha⟩)

/-- None of some byte strings has the hash of a node without being this node. -/
def Apart (H : Bytes → Bytes) (bs : List Bytes) (t : Node) : Prop :=
  ∀ b ∈ bs, ∀ a ∈ pieces H t, H b = H a → b = a

theorem lookup_some {H : Bytes → Bytes} {r : Bytes} {proof : List Bytes} {h b : Bytes}
    (e : lookup H r proof h = some b) : b ∈ proof ∧ H b = h := by
  unfold lookup at e
  have h1 := List.mem_of_find?_eq_some e
  have h2 := List.find?_some e
  simp only [Bool.and_eq_true, beq_iff_eq] at h2
  exact ⟨by simpa using h1, h2.1⟩

theorem lookup_of_mem {H : Bytes → Bytes} {r : Bytes} {proof : List Bytes} {a : Bytes} (hm : a ∈ proof)
    (hr : H a = r ∨ 32 ≤ a.length) : ∃ b, lookup H r proof (H a) = some b := by
  cases e : lookup H r proof (H a) with
  | some b => exact ⟨b, rfl⟩
  | none =>
    unfold lookup at e
    have := List.find?_eq_none.1 e a (by simpa using hm)
    rcases hr with h | h <;> simp [h] at this

theorem decode_raw {H : Bytes → Bytes} (hH : ∀ b, (H b).length = 32) {t : Node} (h : Sized t) :
    decode (raw H t) = some (enc H t) := by
  have := C01_decode_encode (enc H t) (fits_enc hH t h) []
  unfold decode raw
  simp only [List.append_nil] at this
  rw [this]; rfl

theorem enc_getElem {H : Bytes → Bytes} (cs : Fin 16 → Node) (w : Item) (n : Fin 16) :
    ((List.finRange 16).map (fun i => refOf H (enc H (cs i))) ++ [w])[n.val]? =
      some (refOf H (enc H (cs n))) := by
  rw [List.getElem?_append_left (by simp)]
  simp

theorem enc_getLast {H : Bytes → Bytes} (cs : Fin 16 → Node) (w : Item) :
    ((List.finRange 16).map (fun i => refOf H (enc H (cs i))) ++ [w])[16]? = some w := by
  rw [List.getElem?_append_right (by simp)]
  simp

theorem walk_list17 {H : Bytes → Bytes} {strict : Bool} {r : Bytes} {proof : List Bytes} {fuel : Nat}
    {l : List Item} (hl : l.length = 17) (k : Path) :
    walk H strict r proof (fuel + 1) (.list l) k =
      match k with
      | [] =>
        match (l[16]? : Option Item) with
        | some (.str v) => .ok (if v = [] then none else some v)
        | _ => .err
      | n :: k =>
        match (l[n.val]? : Option Item) with
        | some y => walk H strict r proof fuel y k
        | none => .err := by
  rw [walk.eq_def]
  dsimp only
  split
  next h => exact absurd h (by simp)
  next h => exact absurd h (by simp)
  next h => cases h; simp at hl
  next h =>
    cases h
    rw [if_pos hl]

theorem compact_ne (leaf : Bool) (p : Path) : compact leaf p ≠ [] := by
  intro h
  have := fromCompact_compact leaf p
  rw [h] at this
  cases this

theorem walk_pair {H : Bytes → Bytes} {strict : Bool} {r : Bytes} {proof : List Bytes} {fuel : Nat}
    (leaf : Bool) (p : Path) (y : Item) (k : Path) :
    walk H strict r proof (fuel + 1) (.list [.str (compact leaf p), y]) k =
      if leaf then
        match y with
        | .str v => .ok (if k = p then some v else none)
        | .list _ => .err
      else if p.isPrefixOf k then walk H strict r proof fuel y (k.drop p.length) else .ok none := by
  rw [walk.eq_def]
  dsimp only
  rw [fromCompact_compact]
  cases leaf <;> rfl

theorem walk_hash {H : Bytes → Bytes} {strict : Bool} {r : Bytes} {proof : List Bytes} {fuel : Nat}
    {h : Bytes} (hl : h.length = 32) (k : Path) :
    walk H strict r proof (fuel + 1) (.str h) k =
      match lookup H r proof h with
      | none => if strict then .err else .ok none
      | some b =>
        match decode b with
        | none => .err
        | some y => walk H strict r proof fuel y k := by
  rw [walk.eq_def]
  dsimp only
  split
  next e => cases e; simp at hl
  next e => cases e; rw [if_pos hl]
  next e => exact absurd e (by simp)
  next e => exact absurd e (by simp)

/-! ## No proof says something else -/

/-- What a proof may say: the truth, or absence where missing nodes count as empty. -/
def Truthful (strict : Bool) (t : Node) (k : Path) (x : Option Bytes) : Prop :=
  x = get t k ∨ (strict = false ∧ x = none)

theorem walk_ref {H : Bytes → Bytes} (hH : ∀ b, (H b).length = 32) {strict : Bool} {r : Bytes}
    {proof : List Bytes} {t : Node} (hs : Sized t) (ha : Apart H proof t)
    (ih : ∀ fuel k x, walk H strict r proof fuel (enc H t) k = .ok x → Truthful strict t k x)
    {fuel : Nat} {k : Path} {x : Option Bytes} (h : walk H strict r proof fuel (refOf H (enc H t)) k = .ok x) :
    Truthful strict t k x := by
  unfold refOf at h
  split at h
  · exact ih _ _ _ h
  · cases fuel with
    | zero => rw [walk.eq_def] at h; cases h
    | succ fuel =>
      rw [walk_hash (hH _)] at h
      cases hl : lookup H r proof (H (encode (enc H t))) with
      | none =>
        rw [hl] at h
        cases strict with
        | true => cases h
        | false => cases h; exact .inr ⟨rfl, rfl⟩
      | some b =>
        rw [hl] at h
        dsimp only at h
        obtain ⟨hm, hb⟩ := lookup_some hl
        have : b = raw H t := ha b hm _ (raw_mem H t) hb
        rw [this, decode_raw hH hs] at h
        exact ih _ _ _ h

theorem walk_sound {H : Bytes → Bytes} (hH : ∀ b, (H b).length = 32) {strict : Bool} {r : Bytes}
    {proof : List Bytes} : ∀ t : Node, Canon t → Sized t → Apart H proof t → ∀ fuel k x,
    walk H strict r proof fuel (enc H t) k = .ok x → Truthful strict t k x := by
  intro t
  induction t with
  | empty =>
    intro _ _ _ fuel k x h
    cases fuel with
    | zero => rw [walk.eq_def] at h; cases h
    | succ fuel => rw [enc, walk.eq_def] at h; cases h; exact .inl rfl
  | leaf p v =>
    intro _ _ _ fuel k x h
    cases fuel with
    | zero => rw [walk.eq_def] at h; cases h
    | succ fuel => rw [enc, walk_pair] at h; cases h; exact .inl rfl
  | ext p c ih =>
    intro hc hs ha fuel k x h
    have hc := hc (by simp)
    cases fuel with
    | zero => rw [walk.eq_def] at h; cases h
    | succ fuel =>
      rw [enc, walk_pair] at h
      simp only [Bool.false_eq_true, if_false] at h
      unfold Truthful
      rw [get]
      split at h
      next hp =>
        rw [if_pos hp]
        have ha' : Apart H proof c := fun b hb a hm => ha b hb a (by rw [pieces]; exact List.mem_cons_of_mem _ hm)
        exact walk_ref hH hs.2 ha' (ih (canon_of_ok hc.2.2) hs.2 ha') h
      next hp =>
        cases h
        rw [if_neg hp]; exact .inl rfl
  | branch cs v ih =>
    intro hc hs ha fuel k x h
    have hc := hc (by simp)
    cases fuel with
    | zero => rw [walk.eq_def] at h; cases h
    | succ fuel =>
      rw [enc, walk_list17 (by simp)] at h
      cases k with
      | nil =>
        dsimp only at h
        rw [enc_getLast] at h
        cases h
        refine .inl ?_
        rw [get]
        cases v with
        | none => rfl
        | some w =>
          have : w ≠ [] := by simpa using hc.2.1
          simp [this]
      | cons n k =>
        dsimp only at h
        rw [enc_getElem] at h
        have ha' : Apart H proof (cs n) := fun b hb a hm => ha b hb a (child_pieces H cs v n a hm)
        exact walk_ref hH (hs.1 n) ha' (ih n (hc.1 n) (hs.1 n) ha') h

theorem verify_sound {H : Bytes → Bytes} (hH : ∀ b, (H b).length = 32) {strict : Bool} {t : Node}
    (hc : Canon t) (hs : Sized t) {proof : List Bytes} (ha : Apart H proof t) {k : Path} {x : Option Bytes}
    (h : verify H strict (root H t) k proof = .ok x) : Truthful strict t k x := by
  unfold verify at h
  cases hl : lookup H (root H t) proof (root H t) with
  | none => rw [hl] at h; cases h
  | some b =>
    rw [hl] at h
    dsimp only at h
    obtain ⟨hm, hb⟩ := lookup_some hl
    have : b = raw H t := ha b hm _ (raw_mem H t) hb
    rw [this, decode_raw hH hs] at h
    exact walk_sound hH t hc hs ha _ _ _ h

/-! ## The proofs made are accepted -/

theorem walk_ref_complete {H : Bytes → Bytes} (hH : ∀ b, (H b).length = 32) {strict : Bool} {r : Bytes}
    {proof : List Bytes} {t : Node} (hs : Sized t) (ha : Apart H proof t) {fuel : Nat} {k : Path}
    (hm : ∀ b ∈ (if (raw H t).length < 32 then [] else [raw H t]), b ∈ proof)
    (ih : ∀ f, 2 * k.length + 2 ≤ f → walk H strict r proof f (enc H t) k = .ok (get t k))
    (hf : 2 * k.length + 3 ≤ fuel) :
    walk H strict r proof fuel (refOf H (enc H t)) k = .ok (get t k) := by
  unfold refOf
  split
  · exact ih fuel (by omega)
  next hlen =>
    cases fuel with
    | zero => omega
    | succ fuel =>
      rw [walk_hash (hH _)]
      have hlen' : ¬ (raw H t).length < 32 := hlen
      rw [if_neg hlen'] at hm
      obtain ⟨b, hl⟩ := lookup_of_mem (r := r) (hm (raw H t) (by simp)) (.inr (by omega))
      have hl' : lookup H r proof (H (encode (enc H t))) = some b := hl
      rw [hl']
      dsimp only
      obtain ⟨hm', hb⟩ := lookup_some hl
      have : b = raw H t := ha b hm' _ (raw_mem H t) hb
      rw [this, decode_raw hH hs]
      exact ih fuel (by omega)

theorem walk_complete {H : Bytes → Bytes} (hH : ∀ b, (H b).length = 32) {strict : Bool} {r : Bytes}
    {proof : List Bytes} : ∀ t : Node, Canon t → Sized t → Apart H proof t → ∀ fuel k,
    (∀ b ∈ path H t k, b ∈ proof) → 2 * k.length + 2 ≤ fuel →
    walk H strict r proof fuel (enc H t) k = .ok (get t k) := by
  intro t
  induction t with
  | empty =>
    intro _ _ _ fuel k _ hf
    cases fuel with
    | zero => omega
    | succ fuel => rw [enc, walk.eq_def]; rfl
  | leaf p v =>
    intro _ _ _ fuel k _ hf
    cases fuel with
    | zero => omega
    | succ fuel => rw [enc, walk_pair]; rfl
  | ext p c ih =>
    intro hc hs ha fuel k hm hf
    have hc := hc (by simp)
    cases fuel with
    | zero => omega
    | succ fuel =>
      rw [enc, walk_pair]
      simp only [Bool.false_eq_true, if_false]
      rw [get]
      by_cases hp : p.isPrefixOf k = true
      · rw [if_pos hp, if_pos hp]
        rw [path, if_pos hp] at hm
        have ha' : Apart H proof c := fun b hb a hm => ha b hb a (by rw [pieces]; exact List.mem_cons_of_mem _ hm)
        obtain ⟨j, rfl⟩ := prefix_iff.1 hp
        have hpl : 0 < p.length := List.length_pos_iff.2 hc.1
        simp only [List.length_append] at hf
        rw [List.drop_left] at hm ⊢
        exact walk_ref_complete hH hs.2 ha' (fun b hb => hm b (List.mem_append_left _ hb))
          (fun f hf' => ih (canon_of_ok hc.2.2) hs.2 ha' f j (fun b hb => hm b (List.mem_append_right _ hb)) hf')
          (by omega)
      · rw [if_neg hp, if_neg hp]
  | branch cs v ih =>
    intro hc hs ha fuel k hm hf
    have hc := hc (by simp)
    cases fuel with
    | zero => omega
    | succ fuel =>
      rw [enc, walk_list17 (by simp)]
      cases k with
      | nil =>
        dsimp only
        rw [enc_getLast]
        rw [get]
        cases v with
        | none => rfl
        | some w =>
          have : w ≠ [] := by simpa using hc.2.1
          simp [this]
      | cons n k =>
        dsimp only
        rw [enc_getElem]
        rw [path] at hm
        have ha' : Apart H proof (cs n) := fun b hb a hm => ha b hb a (child_pieces H cs v n a hm)
        simp only [List.length_cons] at hf
        exact walk_ref_complete hH (hs.1 n) ha' (fun b hb => hm b (List.mem_append_left _ hb))
          (fun f hf' => ih n (hc.1 n) (hs.1 n) ha' f k (fun b hb => hm b (List.mem_append_right _ hb)) hf')
          (by omega)

theorem prove_eq (H : Bytes → Bytes) {t : Node} (h : t ≠ .empty) (k : Path) :
    prove H t k = raw H t :: path H t k := by
  cases t with
  | empty => exact absurd rfl h
  | _ => rfl

theorem verify_complete {H : Bytes → Bytes} (hH : ∀ b, (H b).length = 32) {strict : Bool} {t : Node}
    (hne : t ≠ .empty) (hc : Canon t) (hs : Sized t) {k : Path} {proof : List Bytes}
    (hp : ∀ b ∈ prove H t k, b ∈ proof) (ha : Apart H proof t) :
    verify H strict (root H t) k proof = .ok (get t k) := by
  unfold verify
  rw [prove_eq H hne] at hp
  obtain ⟨b, hl⟩ := lookup_of_mem (H := H) (r := root H t) (hp (raw H t) (by simp)) (.inl rfl)
  have hl' : lookup H (root H t) proof (root H t) = some b := hl
  rw [hl']
  dsimp only
  obtain ⟨hm', hb⟩ := lookup_some hl
  have : b = raw H t := ha b hm' _ (raw_mem H t) hb
  rw [this, decode_raw hH hs]
  exact walk_complete hH t hc hs ha _ _ (fun b hb => hp b (by simp [hb])) (by omega)

/-! ## Roots commit to the contents -/

theorem path_pieces (H : Bytes → Bytes) : ∀ (t : Node) (k : Path), ∀ b ∈ path H t k, b ∈ pieces H t := by
  intro t
  induction t with
  | empty => intro k b h; simp [path] at h
  | leaf p v => intro k b h; simp [path] at h
  | ext p c ih =>
    intro k b h
    rw [path] at h
    rw [pieces]
    split at h
    · rcases List.mem_append.1 h with h | h
      · split at h
        · simp at h
        · simp only [List.mem_singleton] at h
          rw [h]; exact List.mem_cons_of_mem _ (raw_mem H c)
      · exact List.mem_cons_of_mem _ (ih _ _ h)
    · simp at h
  | branch cs v ih =>
    intro k b h
    cases k with
    | nil => simp [path] at h
    | cons n k =>
      rw [path] at h
      refine child_pieces H cs v n b ?_
      rcases List.mem_append.1 h with h | h
      · split at h
        · simp at h
        · simp only [List.mem_singleton] at h
          rw [h]; exact raw_mem H _
      · exact ih n k b h

/-- Tries with the same root have the same contents. -/
theorem root_inj {H : Bytes → Bytes} (hH : ∀ b, (H b).length = 32) {t u : Node} (ht : Canon t) (hu : Canon u)
    (st : Sized t) (su : Sized u) (ha : ∀ b ∈ pieces H u, ∀ a ∈ pieces H t, H b = H a → b = a)
    (hself : ∀ b ∈ pieces H u, ∀ a ∈ pieces H u, H b = H a → b = a)
    (h : root H t = root H u) : t = u := by
  have e0 : raw H u = raw H t := ha _ (raw_mem H u) _ (raw_mem H t) h.symm
  have ei : enc H u = enc H t := C01_injective _ _ (fits_enc hH u su) (fits_enc hH t st) e0
  by_cases hne : u = .empty
  · subst hne
    cases t with
    | empty => rfl
    | _ => simp [enc] at ei
  · refine canon_unique ht hu fun k => ?_
    have hp : ∀ b ∈ prove H u k, b ∈ pieces H u := by
      rw [prove_eq H hne]
      intro b hb
      rcases List.mem_cons.1 hb with rfl | hb
      · exact raw_mem H u
      · exact path_pieces H u k b hb
    have h1 := verify_complete hH (strict := true) hne hu su (k := k) (proof := prove H u k) (fun b hb => hb)
      (fun b hb a hm => hself b (hp b hb) a hm)
    rw [← h] at h1
    rcases verify_sound hH ht st (fun b hb a hm => ha b (hp b hb) a hm) h1 with e | e
    · exact e.symm
    · exact absurd e.1 (by simp)

end Axon.Trie
