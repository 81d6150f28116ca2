import Verif.Network.Proto
import Verif.Network.CompressProps

/-!
# C91 — a network message arrives as it was sent, and a received one is no larger than its bytes
-/

namespace Axon.Proto

open Axon.Assoc

/-! ## Specification -/

/-- A message that Rust can hold: no repeated header, texts are UTF-8. -/
structure Valid (m : Msg) : Prop where
  keys : NodupKeys m.headers
  names : ∀ kv ∈ m.headers, utf8 kv.1 = true
  url : utf8 m.url = true

/-- The same message, as maps are compared. -/
structure Same (m n : Msg) : Prop where
  headers : ∀ k, get m.headers k = get n.headers k
  url : m.url = n.url
  content : m.content = n.content

/-- Bytes held by a message. -/
def Msg.size (m : Msg) : Nat :=
  m.url.length + m.content.length + (m.headers.map fun kv => kv.1.length + kv.2.length).sum

/-! ## Decoding what was encoded -/

theorem field_length (tag : Nat) (v : Bytes) : v.length ≤ (encField tag v).length := by
  unfold encField; simp; omega

theorem opt_length (tag : Nat) (v : Bytes) : v.length ≤ (encOpt tag v).length := by
  unfold encOpt
  split
  · next h => simp at h; simp [h]
  · exact field_length tag v

theorem decKey_field (tag : Nat) (v r : Bytes) (h1 : 1 ≤ tag) (h2 : tag * 8 + 2 < 2 ^ 32) :
    decKey (encField tag v ++ r) = some (tag, 2, encVarint v.length ++ v ++ r) := by
  unfold encField
  rw [List.append_assoc, List.append_assoc, decKey_enc tag 2 h1 (by omega) h2, List.append_assoc]

/-- The loop over an entry reads back its two fields. -/
theorem entryLoop_enc (limit : Nat) (k v rest : Bytes) (hl : rest.length = limit) (hk : utf8 k = true)
    (hk' : k.length < 2 ^ 64) (hv' : v.length < 2 ^ 64) (f : Nat) (hf : 2 ≤ f)
    (hff : (encOpt 1 k ++ encOpt 2 v ++ rest).length - limit ≤ f) :
    entryLoop limit f (encOpt 1 k ++ encOpt 2 v ++ rest) ([], []) = some (rest, (k, v)) := by
  have tail : ∀ f k0, entryLoop limit f rest (k0, v) = some (rest, (k0, v)) := by
    intro f k0
    cases f <;> simp [entryLoop, hl]
  have value : ∀ f k0, 1 ≤ f → entryLoop limit f (encOpt 2 v ++ rest) (k0, []) = some (rest, (k0, v)) := by
    intro f k0 hf
    unfold encOpt
    split
    · next h => simp at h; subst h; exact tail f k0
    · next h =>
      obtain ⟨f, rfl⟩ : ∃ g, f = g + 1 := ⟨f - 1, by omega⟩
      have hlen : (encField 2 v ++ rest).length > limit := by
        have := field_length 2 v
        have : 0 < v.length := by rw [List.length_pos_iff]; simpa using h
        simp; omega
      unfold entryLoop
      rw [if_pos hlen, decKey_field 2 v rest (by omega) (by omega)]
      show (match mergeBytes 2 (encVarint v.length ++ v ++ rest) with
        | none => none
        | some (v, r') => entryLoop limit f r' (k0, v)) = _
      rw [mergeBytes_enc v rest hv']
      exact tail f k0
  rw [List.append_assoc]
  unfold encOpt
  split
  · next h => simp at h; subst h; exact value f [] (by omega)
  · next h =>
    obtain ⟨f, rfl⟩ : ∃ g, f = g + 1 := ⟨f - 1, by omega⟩
    have hlen : (encField 1 k ++ (encOpt 2 v ++ rest)).length > limit := by
      have := field_length 1 k
      have : 0 < k.length := by rw [List.length_pos_iff]; simpa using h
      simp; omega
    conv => lhs; unfold entryLoop
    rw [show (if v.isEmpty = true then [] else encField 2 v) = encOpt 2 v from rfl]
    rw [if_pos hlen, decKey_field 1 k _ (by omega) (by omega)]
    show (match mergeString 2 (encVarint k.length ++ k ++ (encOpt 2 v ++ rest)) with
      | none => none
      | some (k, r') => entryLoop limit f r' (k, [])) = _
    rw [mergeString_enc k _ hk' hk]
    exact value f k (by omega)

theorem mergeEntry_enc (k v rest : Bytes) (hk : utf8 k = true)
    (h : (encOpt 1 k ++ encOpt 2 v).length < 2 ^ 64) :
    mergeEntry (encVarint (encOpt 1 k ++ encOpt 2 v).length ++ (encOpt 1 k ++ encOpt 2 v) ++ rest) =
      some ((k, v), rest) := by
  have h1 := opt_length 1 k
  have h2 := opt_length 2 v
  have hl : (encOpt 1 k ++ encOpt 2 v).length = (encOpt 1 k).length + (encOpt 2 v).length :=
    List.length_append
  unfold mergeEntry
  rw [List.append_assoc, decVarint_enc _ h]
  dsimp only
  have hlen : (encOpt 1 k ++ encOpt 2 v ++ rest).length = (encOpt 1 k ++ encOpt 2 v).length + rest.length :=
    List.length_append
  rw [if_neg (by omega)]
  by_cases h0 : (encOpt 1 k ++ encOpt 2 v ++ rest).length < 2
  · -- nothing is encoded
    have hk0 : k = [] := by
      rcases Nat.eq_zero_or_pos k.length with hh | hh
      · exact List.length_eq_zero_iff.1 hh
      · exfalso
        have : encOpt 1 k = encField 1 k := by
          unfold encOpt; rw [if_neg]; simpa using List.length_pos_iff.1 hh
        rw [this] at hl
        have a : (encField 1 k).length = (encKey 1 2).length + (encVarint k.length).length + k.length := by
          unfold encField; simp; omega
        have b := List.length_pos_iff.2 (encVarint_ne_nil (1 * 8 + 2))
        have c := List.length_pos_iff.2 (encVarint_ne_nil k.length)
        unfold encKey at a
        rw [this] at h0 hlen
        omega
    have hv0 : v = [] := by
      rcases Nat.eq_zero_or_pos v.length with hh | hh
      · exact List.length_eq_zero_iff.1 hh
      · exfalso
        have : encOpt 2 v = encField 2 v := by
          unfold encOpt; rw [if_neg]; simpa using List.length_pos_iff.1 hh
        rw [this] at hl
        have a : (encField 2 v).length = (encKey 2 2).length + (encVarint v.length).length + v.length := by
          unfold encField; simp; omega
        have b := List.length_pos_iff.2 (encVarint_ne_nil (2 * 8 + 2))
        have c := List.length_pos_iff.2 (encVarint_ne_nil v.length)
        unfold encKey at a
        rw [this] at h0 hlen
        omega
    subst hk0 hv0
    have e : encOpt 1 [] ++ encOpt 2 [] ++ rest = rest := rfl
    rw [e]
    have e2 : (encOpt 1 [] ++ encOpt 2 [] : Bytes).length = 0 := rfl
    rw [e2, Nat.sub_zero]
    cases hr : rest.length with
    | zero => simp [entryLoop, hr]
    | succ n => simp [entryLoop, hr]
  · rw [entryLoop_enc _ k v rest (by omega) hk (by omega) (by omega) _ (by omega) (by omega)]

/-- Decoding from a message on. -/
def merge (m : Msg) (b : Bytes) : Option Msg := mergeAll b.length m b

theorem merge_step {m m' : Msg} {t w : Nat} {b r r' : Bytes} (hb : b ≠ []) (hk : decKey b = some (t, w, r))
    (hm : mergeField m t w r = some (m', r')) : merge m b = merge m' r' := mergeAll_step hb hk hm

theorem merge_entry (m : Msg) (kv : Bytes × Bytes) (rest : Bytes) (hk : utf8 kv.1 = true)
    (h : (encEntry kv).length < 2 ^ 64) :
    merge m (encEntry kv ++ rest) = merge { m with headers := put m.headers kv.1 kv.2 } rest := by
  unfold encEntry at h ⊢
  have hl := field_length 1 (encOpt 1 kv.1 ++ encOpt 2 kv.2)
  refine merge_step (encField_ne_nil _ _ _) (decKey_field 1 _ rest (by omega) (by omega)) ?_
  unfold mergeField
  rw [mergeEntry_enc kv.1 kv.2 rest hk (by omega)]
  rfl

theorem merge_url (m : Msg) (v rest : Bytes) (hu : utf8 v = true) (h : (encOpt 2 v).length < 2 ^ 64)
    (hm : m.url = []) : merge m (encOpt 2 v ++ rest) = merge { m with url := v } rest := by
  have hl := opt_length 2 v
  unfold encOpt
  split
  · next he => simp at he; subst he; rw [List.nil_append, ← hm]
  · refine merge_step (encField_ne_nil _ _ _) (decKey_field 2 _ rest (by omega) (by omega)) ?_
    unfold mergeField
    rw [mergeString_enc v rest (by omega) hu]
    rfl

theorem merge_content (m : Msg) (v rest : Bytes) (h : (encOpt 3 v).length < 2 ^ 64)
    (hm : m.content = []) : merge m (encOpt 3 v ++ rest) = merge { m with content := v } rest := by
  have hl := opt_length 3 v
  unfold encOpt
  split
  · next he => simp at he; subst he; rw [List.nil_append, ← hm]
  · refine merge_step (encField_ne_nil _ _ _) (decKey_field 3 _ rest (by omega) (by omega)) ?_
    unfold mergeField
    rw [mergeBytes_enc v rest (by omega)]
    rfl

theorem merge_headers (m : Msg) (hs : List (Bytes × Bytes)) (rest : Bytes) (hk : ∀ kv ∈ hs, utf8 kv.1 = true)
    (h : (hs.flatMap encEntry).length < 2 ^ 64) :
    merge m (hs.flatMap encEntry ++ rest) =
      merge { m with headers := hs.foldl (fun l kv => put l kv.1 kv.2) m.headers } rest := by
  induction hs generalizing m with
  | nil => rfl
  | cons kv hs ih =>
    rw [List.flatMap_cons, List.length_append] at h
    rw [List.flatMap_cons, List.append_assoc, merge_entry m kv _ (hk kv List.mem_cons_self) (by omega),
      ih _ (fun x hx => hk x (List.mem_cons_of_mem _ hx)) (by omega)]
    rfl

theorem get_foldl_put (hs l : List (Bytes × Bytes)) (hn : NodupKeys hs) (k : Bytes) :
    get (hs.foldl (fun l kv => put l kv.1 kv.2) l) k = (get hs k).or (get l k) := by
  induction hs generalizing l with
  | nil => simp [get_nil]
  | cons kv hs ih =>
    have hn' : NodupKeys hs := (List.pairwise_cons.1 hn).2
    have hnk : get hs kv.1 = none := by
      cases hg : get hs kv.1 with
      | none => rfl
      | some v =>
        exfalso
        exact (List.pairwise_cons.1 hn).1 _ (mem_of_get hg) rfl
    rw [List.foldl_cons, ih _ hn', get_put, get_cons]
    by_cases hk : kv.1 = k
    · subst hk; simp [hnk]
    · rw [if_neg (fun h => hk h.symm), if_neg hk]

/-- What is encoded is decoded as the same message, in whatever order the headers come. -/
theorem C91_roundtrip (m : Msg) (hv : Valid m) (hl : m.encode.length < 2 ^ 64) :
    ∃ m', decode m.encode = some m' ∧ Same m' m := by
  unfold Msg.encode at hl ⊢
  rw [List.length_append, List.length_append] at hl
  refine ⟨⟨m.headers.foldl (fun l kv => put l kv.1 kv.2) [], m.url, m.content⟩, ?_, ?_⟩
  · show merge Msg.default _ = _
    rw [List.append_assoc, merge_headers _ _ _ hv.names (by omega), merge_url _ _ _ hv.url (by omega) rfl]
    rw [show encOpt 3 m.content = encOpt 3 m.content ++ [] by simp, merge_content _ _ _ (by omega) rfl]
    rfl
  · refine ⟨fun k => ?_, rfl, rfl⟩
    show get (m.headers.foldl (fun l kv => put l kv.1 kv.2) []) k = _
    rw [get_foldl_put _ _ hv.keys]
    simp [get_nil]

/-- A field of a later version, of any content, is passed over. -/
theorem C91_unknown (tag : Nat) (ht : 4 ≤ tag) (ht' : tag < 2 ^ 29) (v b : Bytes) (hv : v.length < 2 ^ 64) :
    decode (encField tag v ++ b) = decode b := by
  show merge Msg.default _ = merge Msg.default _
  refine merge_step (encField_ne_nil _ _ _) (decKey_field tag v b (by omega) (by omega)) ?_
  unfold mergeField
  split
  · omega
  · omega
  · omega
  · have : skipField recursionLimit 2 tag (encVarint v.length ++ v ++ b) = some b := by
      unfold recursionLimit skipField
      rw [List.append_assoc, decVarint_enc _ hv]
      simp [advance]
    rw [this]

/-- The loop bound of the model is no restriction: decoding never stops for lack of it. -/
theorem C91_total (m : Msg) (b : Bytes) (f : Nat) (hf : b.length ≤ f) : mergeAll f m b = merge m b :=
  mergeAll_fuel _ _ _ _ hf (Nat.le_refl _)

/-! ## What a stranger can make of it -/

def entries (hs : List (Bytes × Bytes)) : Nat := (hs.map fun kv => kv.1.length + kv.2.length).sum

theorem entries_put (l : List (Bytes × Bytes)) (k v : Bytes) :
    entries (put l k v) ≤ entries l + (k.length + v.length) := by
  have h : ∀ l : List (Bytes × Bytes), entries (l.filter fun e => e.1 ≠ k) ≤ entries l := by
    intro l
    induction l with
    | nil => exact Nat.le_refl _
    | cons x xs ih =>
      unfold entries at ih ⊢
      rw [List.filter_cons]
      split
      · simp only [List.map_cons, List.sum_cons]; omega
      · simp only [List.map_cons, List.sum_cons]; omega
  have := h l
  unfold put
  unfold entries at this ⊢
  simp only [List.map_cons, List.sum_cons]
  omega

structure Good (m : Msg) (n : Nat) : Prop where
  valid : Valid m
  size : m.size ≤ n

theorem good_field {m m' : Msg} {t w n : Nat} {b r : Bytes} (hg : Good m n)
    (h : mergeField m t w b = some (m', r)) : ∃ n', Good m' n' ∧ n' + r.length ≤ n + b.length := by
  obtain ⟨⟨v1, v2, v3⟩, hs⟩ := hg
  unfold Msg.size at hs
  unfold mergeField at h
  split at h
  · split at h
    · cases h
    · next k v r0 heq =>
      obtain ⟨h1, h2⟩ := mergeEntry_length heq
      simp only [Option.some.injEq, Prod.mk.injEq] at h
      obtain ⟨rfl, rfl⟩ := h
      refine ⟨n + (k.length + v.length), ⟨⟨nodupKeys_put v1 k v, ?_, v3⟩, ?_⟩, by simp at h1; omega⟩
      · intro kv hkv
        rcases List.mem_cons.1 hkv with hh | hh
        · rw [hh]; exact h2
        · exact v2 kv (List.mem_filter.1 hh).1
      · unfold Msg.size
        have := entries_put m.headers k v
        unfold entries at this
        dsimp only
        omega
  · split at h
    · cases h
    · next heq =>
      obtain ⟨h0, hu⟩ := mergeString_bytes heq
      have h1 := mergeBytes_length h0
      simp only [Option.some.injEq, Prod.mk.injEq] at h
      obtain ⟨rfl, rfl⟩ := h
      exact ⟨_, ⟨⟨v1, v2, hu⟩, Nat.le_refl _⟩, by unfold Msg.size; dsimp only; omega⟩
  · split at h
    · cases h
    · next heq =>
      have h1 := mergeBytes_length heq
      simp only [Option.some.injEq, Prod.mk.injEq] at h
      obtain ⟨rfl, rfl⟩ := h
      exact ⟨_, ⟨⟨v1, v2, v3⟩, Nat.le_refl _⟩, by unfold Msg.size; dsimp only; omega⟩
  · split at h
    · cases h
    · next heq =>
      have h1 := skipField_length heq
      simp only [Option.some.injEq, Prod.mk.injEq] at h
      obtain ⟨rfl, rfl⟩ := h
      exact ⟨n, ⟨⟨v1, v2, v3⟩, hs⟩, by omega⟩

theorem good_mergeAll {f n : Nat} {m m' : Msg} {b : Bytes} (hg : Good m n) (h : mergeAll f m b = some m') :
    Good m' (n + b.length) := by
  induction f generalizing m b n with
  | zero =>
    cases b with
    | nil => cases h; exact ⟨hg.valid, by have := hg.size; simp; omega⟩
    | cons x xs => cases h
  | succ f ih =>
    cases b with
    | nil => cases h; exact ⟨hg.valid, by have := hg.size; simp; omega⟩
    | cons x xs =>
      unfold mergeAll at h
      split at h
      · cases h
      · next heq =>
        have h1 := decKey_length heq
        split at h
        · cases h
        · next heq' =>
          obtain ⟨n', g1, g2⟩ := good_field hg heq'
          obtain ⟨w1, w2⟩ := ih g1 h
          exact ⟨w1, by omega⟩

/-- Whatever bytes are received: a decoded message is a valid one and holds no more bytes than were
received. -/
theorem C91_bounded (b : Bytes) (m : Msg) (h : decode b = some m) : Valid m ∧ m.size ≤ b.length := by
  have := good_mergeAll (n := 0) (m := Msg.default) ⟨⟨List.Pairwise.nil, by simp [Msg.default], rfl⟩, Nat.le_refl _⟩ h
  exact ⟨this.valid, by have := this.size; omega⟩

/-- End to end through the compression frame (C14): a valid message of at most 8 MB. -/
theorem C91_sent (s : Compress.Snappy) (hs : s.Lossless) (m : Msg) (hv : Valid m) (h : m.encode.length ≤ 2 ^ 23) :
    ∃ d m', Compress.decompress s (Compress.compress s m.encode) = some d ∧ decode d = some m' ∧ Same m' m := by
  obtain ⟨m', h1, h2⟩ := C91_roundtrip m hv (by omega)
  exact ⟨_, m', Compress.C14_roundtrip_partial s hs _ h, h1, h2⟩

/-! ## Concrete cases -/

/-- A message with two headers, one of them empty. -/
def sample : Msg := ⟨[([115], [1, 2]), ([], [])], [47, 103], [9, 9, 9]⟩

example : sample.encode = [10, 7, 10, 1, 115, 18, 2, 1, 2, 10, 0, 18, 2, 47, 103, 26, 3, 9, 9, 9] := by
  simp [sample, Msg.encode, encEntry, encOpt, encField, encKey, encVarint]
example : decode [10, 7, 10, 1, 115, 18, 2, 1, 2, 10, 0, 18, 2, 47, 103, 26, 3, 9, 9, 9] =
    some { sample with headers := sample.headers.reverse } := by
  decide +kernel
example : Valid sample := ⟨by simp [NodupKeys, sample], by decide, by decide⟩
/-- A group, nested, is skipped; an unfinished one is an error; a text that is not UTF-8 is an error. -/
example : decode [0x23, 0x2b, 0x30, 0x7f, 0x2c, 0x24, 18, 1, 65] = some ⟨[], [65], []⟩ ∧ decode [0x23, 0x30, 1] = none ∧
    decode [18, 2, 0xc0, 0x80] = none ∧ decode [18, 2, 65] = none := by decide +kernel

end Axon.Proto
