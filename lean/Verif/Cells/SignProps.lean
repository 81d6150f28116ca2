import Verif.Cells.Sign

/-!
# C133: signed CKB transactions unlock the cells of the key

What is prepared stays as it is except for the locks of the witnesses that are to be signed (`C133_frame`), and a
transaction that was prepared in the way of the default lock of CKB passes it for every group (`C133_unlocks`).
-/

namespace Axon.CkbSign
open Axon.Mol

variable {B : Bytes → H256} {sig : H256 → Bytes}

/-! ## Specification -/

/-- A witness as it is fed to the hash: eight bytes of length, little-endian, then the bytes. -/
structure Fed (b : Bytes) (w : Bytes) : Prop where
  length : b.length = 8 + w.length
  size : leNat (b.take 8) = w.length
  bytes : b.drop 8 = w

/-- Witnesses fed one after the other. -/
inductive FedAll : Bytes → List Bytes → Prop
  | nil : FedAll [] []
  | cons {b c w l} : Fed b w → FedAll c l → FedAll (b ++ c) (w :: l)

/-- The default lock, `secp256k1_blake160_sighash_all`: the inputs of the group `first :: rest` are unlocked if the
lock of the first witness is a signature of 65 bytes for the hash of the transaction's hash, this witness with the
signature zeroed, the other witnesses of the group and the witnesses beyond the inputs. -/
structure Unlocks (B : Bytes → H256) (valid : H256 → Bytes → Prop) (tx : Tx) (inputs first : Nat) (rest : List Nat)
    (s i o m₁ m₂ m₃ : Bytes) : Prop where
  witness : tx.witnesses[first]? = some (table [bytesVec s, i, o])
  size : s.length = 65
  zeroed : Fed m₁ (table [bytesVec (List.replicate 65 0), i, o])
  group : FedAll m₂ (rest.filterMap (tx.witnesses[·]?))
  extra : FedAll m₃ (tx.witnesses.drop inputs)
  signed : valid (B ((B tx.raw).bytes ++ m₁ ++ m₂ ++ m₃)) s

/-- A group of inputs with the same lock. -/
structure Group where
  first : Nat
  rest : List Nat
  input : Bytes
  output : Bytes

/-- The action for a group: the other witnesses are those of the group and those beyond the inputs. -/
structure For (tx : Tx) (inputs : Nat) (a : Action) (g : Group) : Prop where
  index : a.index = g.first
  others : a.others = g.rest ++ List.range' inputs (tx.witnesses.length - inputs)
  empty : tx.witnesses[g.first]? = some (table [bytesVec (List.replicate 65 0), g.input, g.output])
  there : ∀ i ∈ g.rest, i < tx.witnesses.length
  before : g.first < inputs

/-- What can be signed: the witness named is a `WitnessArgs`, the others exist. -/
structure Valid (tx : Tx) (a : Action) : Prop where
  args : ∃ l i o, tx.witnesses[a.index]? = some (table [l, i, o])
  others : ∀ i ∈ a.others, i < tx.witnesses.length

/-! ## Lemmas -/

theorem fed_fed {w : Bytes} (h : w.length < 2 ^ 32) : Fed (fed w) w := by
  refine ⟨?_, ?_, ?_⟩
  · unfold fed
    rw [List.length_append, le_length]
  · unfold fed
    rw [List.take_left' (le_length _ _)]
    apply leNat_le
    show _ < 2 ^ 64
    omega
  · unfold fed
    rw [List.drop_left' (le_length _ _)]

theorem fedAll {l : List Bytes} (h : ∀ w ∈ l, w.length < 2 ^ 32) : FedAll (l.flatMap fed) l := by
  induction l with
  | nil => exact .nil
  | cons w l ih =>
    rw [List.flatMap_cons]
    exact .cons (fed_fed (h w (by simp))) (ih fun v hv => h v (by simp [hv]))

theorem le_flatten {l : List Bytes} {w : Bytes} (h : w ∈ l) : w.length ≤ l.flatten.length := by
  induction l with
  | nil => simp at h
  | cons x l ih =>
    rw [List.flatten_cons, List.length_append]
    rcases List.mem_cons.1 h with rfl | h
    · omega
    · have := ih h
      omega

theorem pack_le {ws : List Bytes} {w : Bytes} (h : w ∈ ws) : w.length ≤ (packWitnesses ws).length := by
  have h1 : bytesVec w ∈ ws.map bytesVec := List.mem_map_of_mem h
  have h2 := le_flatten h1
  unfold packWitnesses
  rw [table_length]
  have : (bytesVec w).length = 4 + w.length := by unfold bytesVec; rw [List.length_append, le_length]
  omega

theorem small {ws : List Bytes} (h : (packWitnesses ws).length < 2 ^ 32) {i : Nat} {w : Bytes} (hw : ws[i]? = some w) :
    w.length < 2 ^ 32 := Nat.lt_of_le_of_lt (pack_le (List.mem_of_getElem? hw)) h

theorem all_some {ws : List Bytes} {is : List Nat} (h : ∀ i ∈ is, i < ws.length) :
    is.map (fun i => ws[i]?) = (is.filterMap (ws[·]?)).map some := by
  induction is with
  | nil => rfl
  | cons i is ih =>
    have e := List.getElem?_eq_getElem (h i (by simp))
    rw [List.map_cons, List.filterMap_cons, e, ih fun j hj => h j (by simp [hj])]
    rfl

/-- The new witness for an action. -/
def made (B : Bytes → H256) (sig : H256 → Bytes) (tx : Tx) (a : Action) (w i o : Bytes) : Bytes :=
  table [bytesVec (sig (B ((B tx.raw).bytes ++ fed w ++ (a.others.filterMap (tx.witnesses[·]?)).flatMap fed))), i, o]

theorem signGroup_valid {tx : Tx} (h : (packWitnesses tx.witnesses).length < 2 ^ 32) {a : Action} (v : Valid tx a) :
    ∃ x, signGroup B sig tx.raw (packWitnesses tx.witnesses) a = .ok x ∧ x.1 = a.index ∧ ∀ l i o,
      tx.witnesses[a.index]? = some (table [l, i, o]) → x.2 = made B sig tx a (table [l, i, o]) i o := by
  obtain ⟨l, i, o, e⟩ := v.args
  refine ⟨_, signGroup_get h e (small h e) (all_some v.others), rfl, ?_⟩
  intro l' i' o' e'
  have e2 := e.symm.trans e'
  have e3 : table [l, i, o] = table [l', i', o'] := Option.some.inj e2
  have e4 := witnessFields_table (small h e)
  have e5 := witnessFields_table (small h e')
  rw [e3, e5] at e4
  obtain ⟨a1, a2⟩ := Prod.mk.inj (Outcome.ok.inj e4)
  obtain ⟨a2, a3⟩ := Prod.mk.inj a2
  subst a1 a2 a3
  rfl

theorem signGroups_valid {tx : Tx} (h : (packWitnesses tx.witnesses).length < 2 ^ 32) {as : List Action}
    (v : ∀ a ∈ as, Valid tx a) : ∃ f : Action → Nat × Bytes,
      signGroups B sig tx.raw (packWitnesses tx.witnesses) as = .ok (as.map f) ∧
      ∀ a ∈ as, (f a).1 = a.index ∧ ∀ l i o, tx.witnesses[a.index]? = some (table [l, i, o]) →
        (f a).2 = made B sig tx a (table [l, i, o]) i o := by
  have hf : ∀ a : Action, ∃ x : Nat × Bytes, a ∈ as →
      signGroup B sig tx.raw (packWitnesses tx.witnesses) a = .ok x ∧ x.1 = a.index ∧
      ∀ l i o, tx.witnesses[a.index]? = some (table [l, i, o]) → x.2 = made B sig tx a (table [l, i, o]) i o := by
    intro a
    by_cases ha : a ∈ as
    · obtain ⟨x, hx⟩ := signGroup_valid (B := B) (sig := sig) h (v a ha)
      exact ⟨x, fun _ => hx⟩
    · exact ⟨(0, []), fun k => absurd k ha⟩
  let f := fun a => Classical.choose (hf a)
  have fs := fun a => Classical.choose_spec (hf a)
  exact ⟨f, signGroups_all fun a ha => (fs a ha).1, fun a ha => (fs a ha).2⟩

theorem map_index {as : List Action} {f : Action → Nat × Bytes} (h : ∀ a ∈ as, (f a).1 = a.index) :
    (as.map f).map (·.1) = as.map (·.index) := by
  rw [List.map_map]
  exact List.map_congr_left fun a ha => h a ha

/-! ## The theorems -/

/-- C133: signing succeeds if the witnesses named are `WitnessArgs` and the others exist.  Then the raw part, hence
the hash of the transaction, the number of witnesses and the witnesses not named are as they were; a witness that is
named keeps its input and output type, and its lock is the signature of the last action that names it, which is for
the hash of the transaction's hash, the witness as it was and the others as they were, each with its length. -/
theorem C133_frame {tx : Tx} {as : List Action} (h : (packWitnesses tx.witnesses).length < 2 ^ 32)
    (v : ∀ a ∈ as, Valid tx a) : ∃ tx', sign B sig tx as = .ok tx' ∧ tx'.raw = tx.raw ∧
      tx'.witnesses.length = tx.witnesses.length ∧
      (∀ i, i ∉ as.map (·.index) → tx'.witnesses[i]? = tx.witnesses[i]?) ∧
      ∀ pre a post, as = pre ++ a :: post → a.index ∉ post.map (·.index) →
        ∀ l i o, tx.witnesses[a.index]? = some (table [l, i, o]) → ∃ m n,
          Fed m (table [l, i, o]) ∧ FedAll n (a.others.filterMap (tx.witnesses[·]?)) ∧
          tx'.witnesses[a.index]? = some (table [bytesVec (sig (B ((B tx.raw).bytes ++ m ++ n))), i, o]) := by
  obtain ⟨f, hf, hx⟩ := signGroups_valid (B := B) (sig := sig) h v
  refine ⟨{ tx with witnesses := replaceAll tx.witnesses (as.map f) }, ?_, rfl, replaceAll_length _ _, ?_, ?_⟩
  · unfold sign
    rw [hf]
    rfl
  · intro i hi
    exact replaceAll_other (by rw [map_index fun a ha => (hx a ha).1]; exact hi)
  · intro pre a post e hp l i o hw
    have ha : a ∈ as := by rw [e]; simp
    refine ⟨fed (table [l, i, o]), (a.others.filterMap (tx.witnesses[·]?)).flatMap fed, fed_fed (small h hw), ?_, ?_⟩
    · refine fedAll fun w hm => ?_
      obtain ⟨k, _, hk⟩ := List.mem_filterMap.1 hm
      exact small h hk
    · have hi : (f a).1 = a.index := (hx a ha).1
      have hpost : (f a).1 ∉ (post.map f).map (·.1) := by
        rw [hi, map_index fun b hb => (hx b (by rw [e]; simp [hb])).1]
        exact hp
      have hlt : (f a).1 < tx.witnesses.length := by
        rw [hi]
        exact (List.getElem?_eq_some_iff.1 hw).1
      have key := replaceAll_last (pre := pre.map f) hlt hpost
      rw [hi, (hx a ha).2 l i o hw] at key
      show (replaceAll tx.witnesses (as.map f))[a.index]? = _
      rw [e, List.map_append, List.map_cons]
      exact key

/-- C133: the signature is at byte 20 of the witness, the length of the witness is that of the lock given before if
that had the length of the signature. -/
theorem C133_place {s l i o : Bytes} : ((table [bytesVec s, i, o]).drop 20).take s.length = s ∧
    (l.length = s.length → (table [bytesVec s, i, o]).length = (table [bytesVec l, i, o]).length) := by
  constructor
  · have e : table [bytesVec s, i, o] = (le 4 (4 * (3 + 1) + [bytesVec s, i, o].flatten.length) ++
        ((offsets (4 * (3 + 1)) [bytesVec s, i, o]).map (le 4)).flatten ++ le 4 s.length) ++ (s ++ (i ++ o)) := by
      unfold table
      simp [bytesVec, List.append_assoc]
    rw [e, List.drop_left' (by simp [offsets]), List.take_left' rfl]
  · intro hl
    rw [table_length, table_length]
    simp [bytesVec, hl]

theorem filterMap_congr {ws ws' : List Bytes} : ∀ {is : List Nat}, (∀ i ∈ is, ws'[i]? = ws[i]?) →
    is.filterMap (ws'[·]?) = is.filterMap (ws[·]?)
  | [], _ => rfl
  | i :: is, h => by
    rw [List.filterMap_cons, List.filterMap_cons, h i (by simp), filterMap_congr fun j hj => h j (by simp [hj])]

theorem filterMap_range' {ws : List Bytes} : ∀ (k n : Nat), n + k = ws.length →
    (List.range' n k).filterMap (ws[·]?) = ws.drop n
  | 0, n, h => by
    rw [List.range'_zero, List.filterMap_nil, List.drop_of_length_le (by omega)]
  | k + 1, n, h => by
    rw [List.range'_succ, List.filterMap_cons, List.getElem?_eq_getElem (by omega : n < ws.length),
      filterMap_range' k (n + 1) (by omega), List.drop_eq_getElem_cons (by omega : n < ws.length)]

theorem drop_congr {ws ws' : List Bytes} {n : Nat} (h : ∀ i, n ≤ i → ws'[i]? = ws[i]?) :
    ws'.drop n = ws.drop n := by
  apply List.ext_getElem?
  intro i
  rw [List.getElem?_drop, List.getElem?_drop]
  exact h _ (by omega)

theorem Fed.eq {b c w : Bytes} (h : Fed b w) (k : Fed c w) : b = c := by
  have hb := h.length
  have hc := k.length
  have e : b.take 8 = c.take 8 := by
    have h1 := le_leNat (b.take 8)
    have h2 := le_leNat (c.take 8)
    rw [List.length_take, Nat.min_eq_left (by omega), h.size] at h1
    rw [List.length_take, Nat.min_eq_left (by omega), k.size] at h2
    exact h1.symm.trans h2
  rw [← List.take_append_drop 8 b, e, h.bytes, ← k.bytes, List.take_append_drop]

/-- C133: there is one string only that is fed for given witnesses. -/
theorem C133_fed {b c : Bytes} {l : List Bytes} (h : FedAll b l) (k : FedAll c l) : b = c := by
  induction h generalizing c with
  | nil => cases k; rfl
  | cons h1 _ ih =>
    cases k with
    | cons k1 k2 => rw [h1.eq k1, ih k2]

/-- C133: if a transaction was prepared for the default lock, the groups do not overlap and the signatures of the key
are valid and 65 bytes long, then the signed transaction unlocks every group. -/
theorem C133_unlocks {valid : H256 → Bytes → Prop} (hv : ∀ m, valid m (sig m)) (hs : ∀ m, (sig m).length = 65)
    {tx : Tx} {inputs : Nat} {l : List (Action × Group)} (h : (packWitnesses tx.witnesses).length < 2 ^ 32)
    (hi : inputs ≤ tx.witnesses.length) (hf : ∀ x ∈ l, For tx inputs x.1 x.2)
    (hd : (l.map (·.2.first)).Nodup) (hr : ∀ x ∈ l, ∀ y ∈ l, x.2.first ∉ y.2.rest) :
    ∃ tx', sign B sig tx (l.map (·.1)) = .ok tx' ∧ tx'.raw = tx.raw ∧
      ∀ x ∈ l, ∃ s m₁ m₂ m₃, Unlocks B valid tx' inputs x.2.first x.2.rest s x.2.input x.2.output m₁ m₂ m₃ := by
  have hv' : ∀ a ∈ l.map (·.1), Valid tx a := by
    intro a ha
    obtain ⟨x, hx, rfl⟩ := List.mem_map.1 ha
    have f := hf x hx
    refine ⟨⟨_, _, _, by rw [f.index]; exact f.empty⟩, ?_⟩
    intro i hm
    rw [f.others] at hm
    rcases List.mem_append.1 hm with hm | hm
    · exact f.there i hm
    · have := List.mem_range'_1.1 hm
      omega
  obtain ⟨tx', ht, hraw, hlen, hother, hnamed⟩ := C133_frame (B := B) (sig := sig) h hv'
  refine ⟨tx', ht, hraw, ?_⟩
  intro x hx
  have f := hf x hx
  obtain ⟨pre, post, e⟩ := List.append_of_mem hx
  have hidx : ∀ i, (∃ a ∈ l.map (·.1), a.index = i) → ∃ y ∈ l, y.2.first = i := by
    rintro i ⟨a, ha, rfl⟩
    obtain ⟨y, hy, rfl⟩ := List.mem_map.1 ha
    exact ⟨y, hy, (hf y hy).index.symm⟩
  have hpost : x.1.index ∉ (post.map (·.1)).map (·.index) := by
    intro hm
    obtain ⟨a, ha, hai⟩ := List.mem_map.1 hm
    obtain ⟨y, hy, rfl⟩ := List.mem_map.1 ha
    rw [e, List.map_append, List.map_cons] at hd
    have hd' := (List.nodup_append.1 hd).2.1
    rw [List.nodup_cons] at hd'
    apply hd'.1
    have fy := hf y (by rw [e]; simp [hy])
    exact List.mem_map.2 ⟨y, hy, by rw [← fy.index, ← f.index]; exact hai⟩
  have hw : tx.witnesses[x.1.index]? = some (table [bytesVec (List.replicate 65 0), x.2.input, x.2.output]) := by
    rw [f.index]
    exact f.empty
  obtain ⟨m, n, hm, hn, hnew⟩ := hnamed (pre.map (·.1)) x.1 (post.map (·.1)) (by rw [e]; simp) hpost _ _ _ hw
  have keep : ∀ i, (∀ y ∈ l, y.2.first ≠ i) → tx'.witnesses[i]? = tx.witnesses[i]? := by
    intro i hne
    refine hother i fun hm => ?_
    obtain ⟨a, ha, hai⟩ := List.mem_map.1 hm
    obtain ⟨y, hy, hyi⟩ := hidx i ⟨a, ha, hai⟩
    exact hne y hy hyi
  have hrest : x.2.rest.filterMap (tx'.witnesses[·]?) = x.2.rest.filterMap (tx.witnesses[·]?) :=
    filterMap_congr fun i hm => keep i fun y hy hyi => hr y hy x hx (hyi ▸ hm)
  have hextra : tx'.witnesses.drop inputs = tx.witnesses.drop inputs :=
    drop_congr fun i hge => keep i fun y hy hyi => by
      have := (hf y hy).before
      omega
  rw [f.others, List.filterMap_append, filterMap_range' _ _ (by omega)] at hn
  have split : ∀ {b : Bytes} {u w : List Bytes}, FedAll b (u ++ w) → ∃ c d, b = c ++ d ∧ FedAll c u ∧ FedAll d w := by
    intro b u
    induction u generalizing b with
    | nil => intro w hb; exact ⟨[], b, rfl, .nil, hb⟩
    | cons z u ih =>
      intro w hb
      cases hb with
      | cons h1 h2 =>
        obtain ⟨c, d, rfl, hc, hd⟩ := ih h2
        exact ⟨_, d, (List.append_assoc _ _ _).symm, .cons h1 hc, hd⟩
  obtain ⟨c, d, rfl, hc, hd'⟩ := split hn
  refine ⟨sig (B ((B tx.raw).bytes ++ m ++ (c ++ d))), m, c, d, ?_, hs _, hm, by rw [hrest]; exact hc, by rw [hextra]; exact hd', ?_⟩
  · rw [← f.index]
    exact hnew
  · have := hv (B ((B tx.raw).bytes ++ m ++ (c ++ d)))
    rw [hraw]
    rw [List.append_assoc _ c d]
    exact this

/-- C133: the offset that an action names does not matter. -/
theorem C133_offset {tx : Tx} {as : List Action} {k : Action → Nat} :
    sign B sig tx (as.map fun a => { a with offset := k a }) = sign B sig tx as := by
  have : ∀ as : List Action, signGroups B sig tx.raw (packWitnesses tx.witnesses)
      (as.map fun a => { a with offset := k a }) = signGroups B sig tx.raw (packWitnesses tx.witnesses) as := by
    intro as
    induction as with
    | nil => rfl
    | cons a as ih =>
      rw [List.map_cons]
      unfold signGroups
      rw [ih]
      rfl
  unfold sign
  rw [this]

/-! ## Examples -/

/-- Four witnesses for three inputs: inputs 0 and 2 have the same lock, input 1 another, the last witness is extra. -/
def tx0 : Tx :=
  { raw := [1, 2, 3]
    witnesses := [table [bytesVec (List.replicate 65 0), [], []], table [bytesVec (List.replicate 65 0), bytesVec [5], []],
      [], [7, 7]] }

def prepared0 : List (Action × Group) :=
  [(⟨0, 20, [2, 3]⟩, ⟨0, [2], [], []⟩), (⟨1, 20, [3]⟩, ⟨1, [], bytesVec [5], []⟩)]

/-- A hash that counts, a key whose signatures repeat the hash. -/
def hash0 (b : Bytes) : H256 := ⟨le 32 b.length, le_length _ _⟩
def sig0 (m : H256) : Bytes := m.bytes ++ List.replicate 33 1

theorem tx0_size : (packWitnesses tx0.witnesses).length < 2 ^ 32 := by decide +kernel

theorem for0 : ∀ x ∈ prepared0, For tx0 3 x.1 x.2 := by
  intro x hx
  simp only [prepared0, List.mem_cons, List.not_mem_nil, or_false] at hx
  rcases hx with rfl | rfl
  · exact ⟨rfl, by decide, rfl, by decide, by decide⟩
  · exact ⟨rfl, by decide, rfl, by decide, by decide⟩

theorem sig0_valid (m : H256) : (sig0 m).take 32 = m.bytes := List.take_left' m.len

theorem sig0_length (m : H256) : (sig0 m).length = 65 := by
  unfold sig0
  rw [List.length_append, m.len, List.length_replicate]

example : ∃ tx', sign hash0 sig0 tx0 (prepared0.map (·.1)) = .ok tx' ∧ tx'.raw = tx0.raw ∧
    ∀ x ∈ prepared0, ∃ s m₁ m₂ m₃, Unlocks hash0 (fun m s => s.take 32 = m.bytes) tx' 3 x.2.first x.2.rest s x.2.input
      x.2.output m₁ m₂ m₃ :=
  C133_unlocks (valid := fun m s => s.take 32 = m.bytes) sig0_valid sig0_length tx0_size (by decide +kernel) for0
    (by decide +kernel) (by decide +kernel)

/-- The lengths that the two signatures are for: of hash, the witness and the others, with their lengths. -/
example : (match sign hash0 sig0 tx0 (prepared0.map (·.1)) with
    | .ok tx' => tx'.witnesses.map fun w => ((w.drop 20).take 2).map UInt8.toNat
    | _ => []) = [[32 + 8 + 85 + 8 + 8 + 2, 0], [32 + 8 + 90 + 8 + 2, 0], [], []] := by decide +kernel

/-- The hypotheses of `C133_frame` with a witness that is named twice. -/
example : ∀ a ∈ [(⟨0, 0, [3]⟩ : Action), ⟨1, 0, []⟩, ⟨0, 9, [1]⟩], Valid tx0 a := by
  intro a ha
  simp only [List.mem_cons, List.not_mem_nil, or_false] at ha
  rcases ha with rfl | rfl | rfl
  · exact ⟨⟨_, _, _, rfl⟩, by decide⟩
  · exact ⟨⟨_, _, _, rfl⟩, by decide⟩
  · exact ⟨⟨_, _, _, rfl⟩, by decide⟩

end Axon.CkbSign
