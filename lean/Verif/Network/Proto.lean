import Verif.Util.Bytes
import Verif.Util.Assoc

/-!
# Network messages on the wire

Model of `NetworkMessage` (core/network/src/message/mod.rs:31-41, 68-79): the protobuf encoding that prost
0.11.9 derives, from its documented behaviour (the crate is not part of /repo).
-/

namespace Axon.Proto

open Axon.Assoc

/-! ## Varints and keys -/

/-- prost `encode_varint`. -/
def encVarint (n : Nat) : Bytes :=
  if h : n < 128 then [UInt8.ofNat n] else UInt8.ofNat (n % 128 + 128) :: encVarint (n / 128)
termination_by n
decreasing_by omega

/-- prost `decode_varint` from byte number `i` on: at most ten bytes, the tenth below 2. -/
def varintAux : Nat → Bytes → Option (Nat × Bytes)
  | _, [] => none
  | i, b :: bs =>
    if i ≥ 9 then if b.toNat < 2 then some (b.toNat, bs) else none
    else if b.toNat < 128 then some (b.toNat, bs)
    else
      match varintAux (i + 1) bs with
      | none => none
      | some (v, r) => some (b.toNat - 128 + 128 * v, r)

def decVarint (b : Bytes) : Option (Nat × Bytes) := varintAux 0 b

/-- prost `encode_key`. -/
def encKey (tag wire : Nat) : Bytes := encVarint (tag * 8 + wire)

/-- prost `decode_key`: tag and wire type. -/
def decKey (b : Bytes) : Option (Nat × Nat × Bytes) :=
  match decVarint b with
  | none => none
  | some (k, r) =>
    if k > 2 ^ 32 - 1 then none
    else if k % 8 > 5 then none
    else if k / 8 < 1 then none
    else some (k / 8, k % 8, r)

/-! ## Fields -/

/-- A length and that many bytes. -/
def takeLen (b : Bytes) : Option (Bytes × Bytes) :=
  match decVarint b with
  | none => none
  | some (n, r) => if n > r.length then none else some (r.take n, r.drop n)

/-- prost `bytes::merge`: wire type 2, replaces the value. -/
def mergeBytes (wire : Nat) (b : Bytes) : Option (Bytes × Bytes) :=
  if wire = 2 then takeLen b else none

def cont (b : UInt8) : Bool := decide (0x80 ≤ b.toNat ∧ b.toNat ≤ 0xbf)

/-- `str::from_utf8`: the well-formed byte sequences of the Unicode standard, table 3-7. -/
def utf8 : Bytes → Bool
  | [] => true
  | a :: r =>
    if a.toNat < 0x80 then utf8 r
    else
      match r with
      | [] => false
      | b :: r1 =>
        if 0xc2 ≤ a.toNat ∧ a.toNat ≤ 0xdf then cont b && utf8 r1
        else
          match r1 with
          | [] => false
          | c :: r2 =>
            if 0xe0 ≤ a.toNat ∧ a.toNat ≤ 0xef then
              cont b && cont c && decide (a.toNat = 0xe0 → 0xa0 ≤ b.toNat) &&
                decide (a.toNat = 0xed → b.toNat ≤ 0x9f) && utf8 r2
            else
              match r2 with
              | [] => false
              | d :: r3 =>
                decide (0xf0 ≤ a.toNat ∧ a.toNat ≤ 0xf4) && cont b && cont c && cont d &&
                  decide (a.toNat = 0xf0 → 0x90 ≤ b.toNat) && decide (a.toNat = 0xf4 → b.toNat ≤ 0x8f) && utf8 r3

/-- prost `string::merge`. -/
def mergeString (wire : Nat) (b : Bytes) : Option (Bytes × Bytes) :=
  match mergeBytes wire b with
  | none => none
  | some (v, r) => if utf8 v then some (v, r) else none

/-- The loop of prost `skip_field` over the fields of a group; one unit of fuel for every field. -/
def groupLoop (inner : Nat → Nat → Bytes → Option Bytes) (tag : Nat) : Nat → Bytes → Option Bytes
  | 0, _ => none
  | f + 1, b =>
    match decKey b with
    | none => none
    | some (t, w, r) =>
      if w = 4 then if t = tag then some r else none
      else
        match inner w t r with
        | none => none
        | some r' => groupLoop inner tag f r'

/-- `buf.advance(n)` after the underflow check. -/
def advance (n : Nat) (b : Bytes) : Option Bytes := if n > b.length then none else some (b.drop n)

/-- prost `skip_field`: wire types 0 varint, 1 eight bytes, 2 length-delimited, 3 group, 4 end of group,
5 four bytes; the first argument is what is left of the recursion limit. -/
def skipField : Nat → Nat → Nat → Bytes → Option Bytes
  | 0, _, _, _ => none
  | d + 1, w, tag, b =>
    match w with
    | 0 => (decVarint b).map (·.2)
    | 1 => advance 8 b
    | 2 =>
      match decVarint b with
      | none => none
      | some (n, r) => advance n r
    | 3 => groupLoop (skipField d) tag b.length b
    | 4 => none
    | _ => advance 4 b

/-- prost's recursion limit. -/
def recursionLimit : Nat := 100

/-! ## Messages -/

/-- core/network/src/message/mod.rs:31-41: `NetworkMessage`; the map is an association list without
repeated keys, in the order of iteration. -/
structure Msg where
  headers : List (Bytes × Bytes)
  url : Bytes
  content : Bytes
deriving DecidableEq, Repr

def Msg.default : Msg := ⟨[], [], []⟩

/-- The loop of prost `merge_loop` over one map entry, until at most `limit` bytes are left. -/
def entryLoop (limit : Nat) : Nat → Bytes → Bytes × Bytes → Option (Bytes × (Bytes × Bytes))
  | 0, b, kv => if b.length > limit then none else if b.length ≠ limit then none else some (b, kv)
  | f + 1, b, kv =>
    if b.length > limit then
      match decKey b with
      | none => none
      | some (1, w, r) =>
        match mergeString w r with
        | none => none
        | some (k, r') => entryLoop limit f r' (k, kv.2)
      | some (2, w, r) =>
        match mergeBytes w r with
        | none => none
        | some (v, r') => entryLoop limit f r' (kv.1, v)
      | some (t, w, r) =>
        match skipField (recursionLimit - 1) w t r with
        | none => none
        | some r' => entryLoop limit f r' kv
    else if b.length ≠ limit then none else some (b, kv)

/-- prost `hash_map::merge`: the wire type of the entry is not looked at. -/
def mergeEntry (b : Bytes) : Option ((Bytes × Bytes) × Bytes) :=
  match decVarint b with
  | none => none
  | some (n, r) =>
    if n > r.length then none
    else
      match entryLoop (r.length - n) r.length r ([], []) with
      | none => none
      | some (r', kv) => some (kv, r')

/-- The derived `merge_field`. -/
def mergeField (m : Msg) (tag wire : Nat) (b : Bytes) : Option (Msg × Bytes) :=
  match tag with
  | 1 =>
    match mergeEntry b with
    | none => none
    | some ((k, v), r) => some ({ m with headers := put m.headers k v }, r)
  | 2 =>
    match mergeString wire b with
    | none => none
    | some (v, r) => some ({ m with url := v }, r)
  | 3 =>
    match mergeBytes wire b with
    | none => none
    | some (v, r) => some ({ m with content := v }, r)
  | _ =>
    match skipField recursionLimit wire tag b with
    | none => none
    | some r => some (m, r)

/-- prost `Message::merge`; one unit of fuel for every field. -/
def mergeAll : Nat → Msg → Bytes → Option Msg
  | _, m, [] => some m
  | 0, _, _ :: _ => none
  | f + 1, m, b@(_ :: _) =>
    match decKey b with
    | none => none
    | some (t, w, r) =>
      match mergeField m t w r with
      | none => none
      | some (m', r') => mergeAll f m' r'

/-- core/network/src/message/mod.rs:77-79: `NetworkMessage::decode`. -/
def decode (b : Bytes) : Option Msg := mergeAll b.length Msg.default b

/-- A length-delimited field. -/
def encField (tag : Nat) (v : Bytes) : Bytes := encKey tag 2 ++ encVarint v.length ++ v

/-- A field that is left out when empty. -/
def encOpt (tag : Nat) (v : Bytes) : Bytes := if v.isEmpty then [] else encField tag v

/-- One entry of prost `hash_map::encode`. -/
def encEntry (kv : Bytes × Bytes) : Bytes := encField 1 (encOpt 1 kv.1 ++ encOpt 2 kv.2)

/-- core/network/src/message/mod.rs:68-75: `NetworkMessage::encode`. -/
def Msg.encode (m : Msg) : Bytes := m.headers.flatMap encEntry ++ encOpt 2 m.url ++ encOpt 3 m.content

/-! ## Lemmas -/

theorem encVarint_ne_nil (n : Nat) : encVarint n ≠ [] := by
  unfold encVarint; split <;> simp

theorem varintAux_enc (i n : Nat) (hi : i ≤ 9) (hn : n < 2 * 128 ^ (9 - i)) (r : Bytes) :
    varintAux i (encVarint n ++ r) = some (n, r) := by
  induction i, n using (fun (motive : Nat → Nat → Prop) h i n => (show ∀ k, ∀ i n, 9 - i = k → motive i n from
      fun k => by
        induction k using Nat.strongRecOn with
        | ind k ih => exact fun i n hk => h i n (fun i' n' h' => ih (9 - i') (hk ▸ h') i' n' rfl)) _ i n rfl :
      ∀ (motive : Nat → Nat → Prop), (∀ i n, (∀ i' n', 9 - i' < 9 - i → motive i' n') → motive i n) →
        ∀ i n, motive i n) with
  | _ i n ih =>
    unfold encVarint
    by_cases h : n < 128
    · rw [dif_pos h]
      have hv : (UInt8.ofNat n).toNat = n := by simp [UInt8.toNat_ofNat']; omega
      rw [List.cons_append, List.nil_append]
      unfold varintAux
      rw [hv]
      by_cases h9 : i ≥ 9
      · have : i = 9 := by omega
        subst this
        rw [if_pos (by omega), if_pos (by simpa using hn)]
      · rw [if_neg h9, if_pos h]
    · rw [dif_neg h]
      have h9 : i < 9 := by
        rcases Nat.lt_or_ge i 9 with hh | hh
        · exact hh
        · have : i = 9 := by omega
          subst this; simp at hn; omega
      have hv : (UInt8.ofNat (n % 128 + 128)).toNat = n % 128 + 128 := by simp [UInt8.toNat_ofNat']; omega
      rw [List.cons_append]
      unfold varintAux
      rw [hv, if_neg (by omega), if_neg (by omega), ih (i + 1) (n / 128) (by omega) (by omega) ?_]
      · simp only [Option.some.injEq, Prod.mk.injEq, and_true]; omega
      · have : 9 - i = (9 - (i + 1)) + 1 := by omega
        rw [this, Nat.pow_succ] at hn
        omega

theorem decVarint_enc (n : Nat) (hn : n < 2 ^ 64) (r : Bytes) : decVarint (encVarint n ++ r) = some (n, r) :=
  varintAux_enc 0 n (by omega) (by simpa using hn) r

theorem varintAux_length {i : Nat} {b r : Bytes} {n : Nat} (h : varintAux i b = some (n, r)) :
    r.length < b.length ∧ r <:+ b := by
  induction b generalizing i n with
  | nil => simp [varintAux] at h
  | cons x xs ih =>
    unfold varintAux at h
    split at h
    · split at h
      · simp at h; obtain ⟨-, rfl⟩ := h; exact ⟨by simp, List.suffix_cons x xs⟩
      · cases h
    · split at h
      · simp at h; obtain ⟨-, rfl⟩ := h; exact ⟨by simp, List.suffix_cons x xs⟩
      · split at h
        · cases h
        · next heq =>
          simp at h
          obtain ⟨-, rfl⟩ := h
          obtain ⟨h1, h2⟩ := ih heq
          exact ⟨by simp; omega, h2.trans (List.suffix_cons x xs)⟩

theorem decVarint_length {b r : Bytes} {n : Nat} (h : decVarint b = some (n, r)) : r.length < b.length :=
  (varintAux_length h).1

theorem decKey_enc (tag wire : Nat) (ht : 1 ≤ tag) (hw : wire ≤ 5) (hk : tag * 8 + wire < 2 ^ 32) (r : Bytes) :
    decKey (encKey tag wire ++ r) = some (tag, wire, r) := by
  unfold decKey encKey
  rw [decVarint_enc _ (by omega)]
  have h1 : (tag * 8 + wire) / 8 = tag := by omega
  have h2 : (tag * 8 + wire) % 8 = wire := by omega
  simp only [h1, h2]
  rw [if_neg (by omega), if_neg (by omega), if_neg (by omega)]

theorem decKey_length {b r : Bytes} {t w : Nat} (h : decKey b = some (t, w, r)) : r.length < b.length := by
  unfold decKey at h
  split at h
  · cases h
  · next heq =>
    split at h
    · cases h
    · split at h
      · cases h
      · split at h
        · cases h
        · simp at h; rw [← h.2.2]; exact decVarint_length heq

theorem takeLen_enc (v r : Bytes) (hv : v.length < 2 ^ 64) :
    takeLen (encVarint v.length ++ v ++ r) = some (v, r) := by
  unfold takeLen
  rw [List.append_assoc, decVarint_enc _ hv]
  simp

theorem takeLen_length {b v r : Bytes} (h : takeLen b = some (v, r)) : v.length + r.length < b.length := by
  unfold takeLen at h
  split at h
  · cases h
  · next heq =>
    split at h
    · cases h
    · simp at h
      have := decVarint_length heq
      rw [← h.1, ← h.2, List.length_take, List.length_drop]
      omega

theorem mergeBytes_length {w : Nat} {b v r : Bytes} (h : mergeBytes w b = some (v, r)) :
    v.length + r.length < b.length := by
  unfold mergeBytes at h
  split at h
  · exact takeLen_length h
  · cases h

theorem mergeString_bytes {w : Nat} {b v r : Bytes} (h : mergeString w b = some (v, r)) :
    mergeBytes w b = some (v, r) ∧ utf8 v = true := by
  unfold mergeString at h
  split at h
  · cases h
  · next heq =>
    split at h
    · next hu => cases h; exact ⟨heq, hu⟩
    · cases h

theorem advance_length {n : Nat} {b r : Bytes} (h : advance n b = some r) : r.length ≤ b.length := by
  unfold advance at h
  split at h
  · cases h
  · cases h; simp

theorem groupLoop_length {inner : Nat → Nat → Bytes → Option Bytes}
    (hi : ∀ w t b r, inner w t b = some r → r.length ≤ b.length) {tag f : Nat} {b r : Bytes}
    (h : groupLoop inner tag f b = some r) : r.length ≤ b.length := by
  induction f generalizing b with
  | zero => cases h
  | succ f ih =>
    unfold groupLoop at h
    split at h
    · cases h
    · next heq =>
      have := decKey_length heq
      split at h
      · split at h
        · cases h; omega
        · cases h
      · split at h
        · cases h
        · next heq' =>
          have h1 := hi _ _ _ _ heq'
          have h2 := ih h
          omega

theorem skipField_length {d w tag : Nat} {b r : Bytes} (h : skipField d w tag b = some r) :
    r.length ≤ b.length := by
  induction d generalizing w tag b r with
  | zero => cases h
  | succ d ih =>
    unfold skipField at h
    split at h
    · rw [Option.map_eq_some_iff] at h
      obtain ⟨x, hx, rfl⟩ := h
      exact Nat.le_of_lt (decVarint_length (n := x.1) (by simpa using hx))
    · exact advance_length h
    · split at h
      · cases h
      · next heq =>
        have := decVarint_length heq
        have := advance_length h
        omega
    · exact groupLoop_length (fun _ _ _ _ hh => ih hh) h
    · cases h
    · exact advance_length h

/-- More fuel does not change the skipping of a group. -/
theorem groupLoop_fuel {inner : Nat → Nat → Bytes → Option Bytes}
    (hi : ∀ w t b r, inner w t b = some r → r.length ≤ b.length) (tag f : Nat) (b : Bytes)
    (hf : b.length ≤ f) : groupLoop inner tag f b = groupLoop inner tag b.length b := by
  suffices h : ∀ f g (b : Bytes), b.length ≤ f → b.length ≤ g →
      groupLoop inner tag f b = groupLoop inner tag g b from h f _ b hf (Nat.le_refl _)
  intro f
  induction f with
  | zero =>
    intro g b h1 h2
    have : b = [] := List.length_eq_zero_iff.1 (by omega)
    subst this
    cases g <;> rfl
  | succ f ih =>
    intro g b h1 h2
    cases g with
    | zero =>
      have : b = [] := List.length_eq_zero_iff.1 (by omega)
      subst this; rfl
    | succ g =>
      unfold groupLoop
      split
      · rfl
      · next t w r heq =>
        have := decKey_length heq
        split
        · rfl
        · split
          · rfl
          · next r' heq' =>
            have := hi _ _ _ _ heq'
            exact ih g r' (by omega) (by omega)

theorem mergeBytes_enc (v r : Bytes) (hv : v.length < 2 ^ 64) :
    mergeBytes 2 (encVarint v.length ++ v ++ r) = some (v, r) := by
  unfold mergeBytes
  rw [if_pos rfl, takeLen_enc v r hv]

theorem mergeString_enc (v r : Bytes) (hv : v.length < 2 ^ 64) (hu : utf8 v = true) :
    mergeString 2 (encVarint v.length ++ v ++ r) = some (v, r) := by
  unfold mergeString
  rw [mergeBytes_enc v r hv]
  simp [hu]

theorem entryLoop_length {limit f : Nat} {b r : Bytes} {kv kv' : Bytes × Bytes}
    (h : entryLoop limit f b kv = some (r, kv')) :
    r.length = limit ∧ kv'.1.length + kv'.2.length + r.length ≤ kv.1.length + kv.2.length + b.length ∧
      (utf8 kv.1 = true → utf8 kv'.1 = true) := by
  induction f generalizing b kv with
  | zero =>
    unfold entryLoop at h
    split at h
    · cases h
    · split at h
      · cases h
      · simp at h
        obtain ⟨rfl, rfl⟩ := h
        exact ⟨by omega, Nat.le_refl _, id⟩
  | succ f ih =>
    unfold entryLoop at h
    split at h
    · split at h
      · cases h
      · next heq =>
        have := decKey_length heq
        split at h
        · cases h
        · next heq' =>
          obtain ⟨h0, hu⟩ := mergeString_bytes heq'
          have h1 := mergeBytes_length h0
          obtain ⟨h2, h3, h4⟩ := ih h
          exact ⟨h2, by simp at h3; omega, fun _ => h4 hu⟩
      · next heq =>
        have := decKey_length heq
        split at h
        · cases h
        · next heq' =>
          have h1 := mergeBytes_length heq'
          obtain ⟨h2, h3, h4⟩ := ih h
          exact ⟨h2, by simp at h3; omega, h4⟩
      · next heq =>
        have := decKey_length heq
        split at h
        · cases h
        · next heq' =>
          have h1 := skipField_length heq'
          obtain ⟨h2, h3, h4⟩ := ih h
          exact ⟨h2, by omega, h4⟩
    · split at h
      · cases h
      · simp at h
        obtain ⟨rfl, rfl⟩ := h
        exact ⟨by omega, Nat.le_refl _, id⟩

theorem mergeEntry_length {b r : Bytes} {kv : Bytes × Bytes} (h : mergeEntry b = some (kv, r)) :
    kv.1.length + kv.2.length + r.length < b.length ∧ utf8 kv.1 = true := by
  unfold mergeEntry at h
  split at h
  · cases h
  · next heq =>
    have := decVarint_length heq
    split at h
    · cases h
    · split at h
      · cases h
      · next heq' =>
        cases h
        obtain ⟨h1, h2, h3⟩ := entryLoop_length heq'
        simp at h2
        exact ⟨by omega, h3 rfl⟩

theorem mergeField_length {m m' : Msg} {t w : Nat} {b r : Bytes} (h : mergeField m t w b = some (m', r)) :
    r.length ≤ b.length := by
  unfold mergeField at h
  split at h
  · split at h
    · cases h
    · next heq => simp at h; have := (mergeEntry_length heq).1; rw [← h.2]; omega
  · split at h
    · cases h
    · next heq => simp at h; have := mergeBytes_length (mergeString_bytes heq).1; rw [← h.2]; omega
  · split at h
    · cases h
    · next heq => simp at h; have := mergeBytes_length heq; rw [← h.2]; omega
  · split at h
    · cases h
    · next heq => simp at h; have := skipField_length heq; rw [← h.2]; exact this

/-- More fuel does not change the decoding. -/
theorem mergeAll_fuel (f g : Nat) (m : Msg) (b : Bytes) (hf : b.length ≤ f) (hg : b.length ≤ g) :
    mergeAll f m b = mergeAll g m b := by
  induction f generalizing g m b with
  | zero =>
    have : b = [] := List.length_eq_zero_iff.1 (by omega)
    subst this
    cases g <;> rfl
  | succ f ih =>
    cases b with
    | nil => cases g <;> rfl
    | cons x xs =>
      cases g with
      | zero => simp at hg
      | succ g =>
        unfold mergeAll
        split
        · rfl
        · next heq =>
          have := decKey_length heq
          split
          · rfl
          · next heq' =>
            have := mergeField_length heq'
            simp at hf hg this
            exact ih g _ _ (by simp_all; omega) (by simp_all; omega)

/-- One field after another: the first step of decoding `b`. -/
theorem mergeAll_step {m m' : Msg} {t w : Nat} {b r r' : Bytes} (hb : b ≠ []) (hk : decKey b = some (t, w, r))
    (hm : mergeField m t w r = some (m', r')) : mergeAll b.length m b = mergeAll r'.length m' r' := by
  cases b with
  | nil => exact absurd rfl hb
  | cons x xs =>
    rw [List.length_cons]
    conv => lhs; unfold mergeAll
    simp only [hk, hm]
    have := decKey_length hk
    have := mergeField_length hm
    exact mergeAll_fuel _ _ _ _ (by simp_all; omega) (Nat.le_refl _)

theorem encField_ne_nil (tag : Nat) (v r : Bytes) : encField tag v ++ r ≠ [] := by
  unfold encField encKey
  have := encVarint_ne_nil (tag * 8 + 2)
  simp [this]

end Axon.Proto
