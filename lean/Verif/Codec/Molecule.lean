import Verif.Codec.Fields

/-!
# Molecule encoding

The part of the `molecule` serialisation (a dependency, generated code in `ckb_types::packed`) used by the
image cell contract (`core/executor/src/system_contract/image_cell/store.rs:150-190` and
`abi/mod.rs:16-45`): little-endian numbers, byte vectors, tables and optional values, with the builders and
the field accessors.
-/

namespace Axon.Mol

/-- `to_le_bytes` of a number with `w` bytes -/
def le (w n : Nat) : Bytes := (beFixed w n).reverse

/-- `from_le_bytes` -/
def leNat (b : Bytes) : Nat := beNat b.reverse

@[simp] theorem le_length (w n : Nat) : (le w n).length = w := by simp [le]

theorem leNat_le {w n : Nat} (h : n < 256 ^ w) : leNat (le w n) = n := by
  simp [leNat, le, beNat_beFixed_of_lt h]

theorem le_leNat (b : Bytes) : le b.length (leNat b) = b := by
  unfold le leNat
  have := beFixed_beNat b.reverse
  rw [List.length_reverse] at this
  rw [this, List.reverse_reverse]

theorem le_inj {w a b : Nat} (ha : a < 256 ^ w) (hb : b < 256 ^ w) (h : le w a = le w b) : a = b := by
  have := congrArg leNat h
  rwa [leNat_le ha, leNat_le hb] at this

/-- `packed::Bytes` (a vector of bytes): the number of items as 4 bytes, then the items. -/
def bytesVec (b : Bytes) : Bytes := le 4 b.length ++ b

/-- `packed::Bytes::raw_data`: everything after the number of items. -/
def rawData (b : Bytes) : Bytes := b.drop 4

theorem rawData_bytesVec (b : Bytes) : rawData (bytesVec b) = b := by
  unfold rawData bytesVec
  exact List.drop_left' (le_length 4 b.length)

/-- The offsets of the fields of a table whose first field begins at `base`. -/
def offsets : Nat → List Bytes → List Nat
  | _, [] => []
  | base, f :: fs => base :: offsets (base + f.length) fs

/-- A table: total size, offset of each field, fields. -/
def table (fs : List Bytes) : Bytes :=
  le 4 (4 * (fs.length + 1) + fs.flatten.length) ++
    ((offsets (4 * (fs.length + 1)) fs).map (le 4)).flatten ++ fs.flatten

/-- `molecule::unpack_number` at a position. -/
def number (t : Bytes) (i : Nat) : Nat := leNat ((t.drop i).take 4)

/-- The accessor of field `i` of a table with `n` fields: from its offset to the offset of the next field,
for the last field to the end. -/
def field (n : Nat) (t : Bytes) (i : Nat) : Bytes :=
  let s := number t (4 * (i + 1))
  if i + 1 = n then t.drop s else (t.drop s).take (number t (4 * (i + 2)) - s)

theorem offsets_length (base : Nat) (fs : List Bytes) : (offsets base fs).length = fs.length := by
  induction fs generalizing base with
  | nil => rfl
  | cons f fs ih => simp [offsets, ih]

theorem flatten_le_length (l : List Nat) : (l.map (le 4)).flatten.length = 4 * l.length := by
  induction l with
  | nil => rfl
  | cons x l ih =>
    simp only [List.map_cons, List.flatten_cons, List.length_append, le_length, ih, List.length_cons]
    omega

theorem offsets_get (base : Nat) (fs : List Bytes) (i : Nat) (h : i < fs.length) :
    (offsets base fs)[i]? = some (base + (fs.take i).flatten.length) := by
  induction fs generalizing base i with
  | nil => simp at h
  | cons f fs ih =>
    cases i with
    | zero => simp [offsets]
    | succ i =>
      simp only [List.length_cons] at h
      simp only [offsets, List.getElem?_cons_succ, List.take_succ_cons, List.flatten_cons,
        List.length_append]
      rw [ih _ _ (by omega)]
      simp only [Option.some.injEq]; omega

theorem flatten_slot (l : List Nat) (i : Nat) (r : Bytes) {v : Nat} (h : l[i]? = some v) :
    (((l.map (le 4)).flatten ++ r).drop (4 * i)).take 4 = le 4 v := by
  induction l generalizing i with
  | nil => simp at h
  | cons x l ih =>
    cases i with
    | zero =>
      simp only [List.getElem?_cons_zero, Option.some.injEq] at h
      subst h
      simp only [List.map_cons, List.flatten_cons, Nat.mul_zero, List.drop_zero, List.append_assoc]
      exact List.take_left' (le_length 4 x)
    | succ i =>
      simp only [List.getElem?_cons_succ] at h
      simp only [List.map_cons, List.flatten_cons, List.append_assoc]
      have : 4 * (i + 1) = (le 4 x).length + 4 * i := by rw [le_length]; omega
      rw [this, ← List.drop_drop, List.drop_left]
      exact ih i h

theorem flatten_take_le (fs : List Bytes) (i : Nat) : (fs.take i).flatten.length ≤ fs.flatten.length := by
  induction fs generalizing i with
  | nil => simp
  | cons f fs ih =>
    cases i with
    | zero => simp
    | succ i =>
      simp only [List.take_succ_cons, List.flatten_cons, List.length_append]
      have := ih i
      omega

theorem table_length (fs : List Bytes) : (table fs).length = 4 * (fs.length + 1) + fs.flatten.length := by
  unfold table
  simp only [List.length_append, le_length, flatten_le_length, offsets_length]
  omega

theorem number_table (fs : List Bytes) (i : Nat) (hi : i < fs.length)
    (hs : (table fs).length < 2 ^ 32) :
    number (table fs) (4 * (i + 1)) = 4 * (fs.length + 1) + (fs.take i).flatten.length := by
  have hg := offsets_get (4 * (fs.length + 1)) fs i hi
  rw [table_length] at hs
  unfold number table
  have h4 : 4 * (i + 1) = (le 4 (4 * (fs.length + 1) + fs.flatten.length)).length + 4 * i := by
    rw [le_length]; omega
  rw [List.append_assoc, h4, ← List.drop_drop, List.drop_left, flatten_slot _ _ _ hg]
  apply leNat_le
  have := flatten_take_le fs i
  show _ < 2 ^ 32
  omega

theorem drop_flatten_take (fs : List Bytes) (i : Nat) :
    fs.flatten.drop (fs.take i).flatten.length = (fs.drop i).flatten := by
  induction fs generalizing i with
  | nil => simp
  | cons f fs ih =>
    cases i with
    | zero => simp
    | succ i =>
      simp only [List.take_succ_cons, List.flatten_cons, List.length_append, List.drop_succ_cons]
      rw [← List.drop_drop, List.drop_left, ih]

theorem drop_table (fs : List Bytes) (i : Nat) :
    (table fs).drop (4 * (fs.length + 1) + (fs.take i).flatten.length) = (fs.drop i).flatten := by
  have : (le 4 (4 * (fs.length + 1) + fs.flatten.length) ++
    ((offsets (4 * (fs.length + 1)) fs).map (le 4)).flatten).length = 4 * (fs.length + 1) := by
    simp only [List.length_append, le_length, flatten_le_length, offsets_length]; omega
  unfold table
  rw [← List.drop_drop, List.drop_left' this, drop_flatten_take]

/-- The accessor returns the field that was put in. -/
theorem field_table (fs : List Bytes) (i : Nat) (hi : i < fs.length) (hs : (table fs).length < 2 ^ 32) :
    field fs.length (table fs) i = fs[i] := by
  unfold field
  simp only
  rw [number_table fs i hi hs]
  have hd : (fs.drop i).flatten = fs[i] ++ (fs.drop (i + 1)).flatten := by
    rw [List.drop_eq_getElem_cons hi, List.flatten_cons]
  split
  · rename_i hl
    rw [drop_table, hd, List.drop_eq_nil_of_le (by omega)]
    simp
  · rename_i hl
    have : 4 * (i + 2) = 4 * ((i + 1) + 1) := by omega
    rw [this, number_table fs (i + 1) (by omega) hs, drop_table, hd]
    have : (fs.take (i + 1)).flatten.length = (fs.take i).flatten.length + fs[i].length := by
      rw [List.take_succ_eq_append_getElem hi, List.flatten_append, List.length_append]
      simp only [List.flatten_cons, List.flatten_nil, List.append_nil]
    rw [this]
    have e : 4 * (fs.length + 1) + ((fs.take i).flatten.length + fs[i].length) -
      (4 * (fs.length + 1) + (fs.take i).flatten.length) = fs[i].length := by omega
    rw [e]
    exact List.take_left

theorem field_table' {fs : List Bytes} {n i : Nat} {f : Bytes} (hn : fs.length = n) (hi : fs[i]? = some f)
    (hs : (table fs).length < 2 ^ 32) : field n (table fs) i = f := by
  subst hn
  have hlt : i < fs.length := by
    rw [List.getElem?_eq_some_iff] at hi
    exact hi.1
  rw [field_table fs i hlt hs]
  rw [List.getElem?_eq_getElem hlt] at hi
  exact Option.some.inj hi

end Axon.Mol
