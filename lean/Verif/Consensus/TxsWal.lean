import Verif.Codec.Fields

/-!
# Transaction WAL

Model of `SignedTxsWAL`, `core/consensus/src/wal.rs:12-147`.  The directory tree is a list of
numbered directories, each a list of named files; list order stands for the arbitrary order of
`read_dir`.  Transactions are given by an encoder `enc` and a decoder `dec` (`SignedTransaction`
encodes as one RLP string holding the raw transaction, `protocol/src/codec/transaction.rs:329-341`).
Input/output errors of the file system are not modelled, except a missing file.
-/

namespace Axon.TxsWal
open Axon.Rlp

/-- Association list lookup. -/
def alookup {K V : Type} [DecidableEq K] (l : List (K × V)) (k : K) : Option V :=
  (l.find? fun p => p.1 = k).map (·.2)

/-- Association list update (the position of a new entry is arbitrary). -/
def aput {K V : Type} [DecidableEq K] (l : List (K × V)) (k : K) (v : V) : List (K × V) :=
  (k, v) :: l.filter fun p => p.1 ≠ k

/-- File name of a hash: `Hash::to_string()` (`wal.rs:40,92`).  `Display` of `H256`
(`fixed-hash` crate) abbreviates to `0x`, the first two bytes, an ellipsis and the last two bytes;
the name is represented by these four bytes. -/
def shortName (h : H256) : Bytes := h.bytes.take 2 ++ h.bytes.drop 30

abbrev Dir := List (Bytes × Bytes)

/-- The WAL directory: one directory per block number. -/
abbrev Fs := List (Nat × Dir)

/-- `BatchSignedTxs::encode_msg`, `protocol/src/types/batch.rs:9-12`: an RLP list. -/
def batchBytes {T : Type} (enc : T → Bytes) (ts : List T) : Bytes :=
  encode (.list (ts.map fun t => .str (enc t)))

/-- `BatchSignedTxs::decode_msg`, `protocol/src/types/batch.rs:14-19`: reads one RLP list and ignores
bytes behind it (`Rlp::as_list`). -/
def batchDecode {T : Type} (dec : Bytes → Option T) (bs : Bytes) : Option (List T) :=
  (decodePrefix bs).bind fun (x, _) => toList (fun i => (toBytes i).bind dec) x

/-- Writing at offset 0 of a file opened without truncation, `wal.rs:43-61`. -/
def overlay (old new : Bytes) : Bytes := new ++ old.drop new.length

/-- Write `bs` to the file of `(n, h)`, creating directory and file as needed. -/
def writeFile (fs : Fs) (n : Nat) (h : H256) (bs : Bytes) : Fs :=
  let dir := (alookup fs n).getD []
  aput fs n (aput dir (shortName h) (overlay ((alookup dir (shortName h)).getD []) bs))

/-- `save`, `wal.rs:28-63` -/
def save {T : Type} (enc : T → Bytes) (fs : Fs) (n : Nat) (h : H256) (ts : List T) : Fs :=
  writeFile fs n h (batchBytes enc ts)

/-- `remove`, `wal.rs:116-136` -/
def remove (fs : Fs) (committed : Nat) : Fs := fs.filter fun p => ¬ p.1 ≤ committed

/-- `available_number`, `wal.rs:65-76` -/
def available (fs : Fs) : List Nat := fs.map (·.1)

/-- `remove_all`, `wal.rs:78-83` -/
def removeAll (fs : Fs) : Fs := (available fs).foldl remove fs

/-- `load`, `wal.rs:85-96,138-146`; `none` is an error. -/
def load {T : Type} (dec : Bytes → Option T) (fs : Fs) (n : Nat) (h : H256) : Option (List T) := do
  let dir ← alookup fs n
  let bs ← alookup dir (shortName h)
  batchDecode dec bs

/-- `load_by_number`, `wal.rs:98-114`: unreadable files are skipped. -/
def loadByNumber {T : Type} (dec : Bytes → Option T) (fs : Fs) (n : Nat) : List T :=
  match alookup fs n with
  | none => []
  | some dir => dir.flatMap fun p => (batchDecode dec p.2).getD []

/-- Operations on the WAL; `torn` is a save that is interrupted (crash, full disk) after writing the
first `k` bytes. -/
inductive Op (T : Type) where
  | save (n : Nat) (h : H256) (ts : List T)
  | torn (n : Nat) (h : H256) (ts : List T) (k : Nat)
  | remove (n : Nat)
  | removeAll

def step {T : Type} (enc : T → Bytes) (fs : Fs) : Op T → Fs
  | .save n h ts => save enc fs n h ts
  | .torn n h ts k => writeFile fs n h ((batchBytes enc ts).take k)
  | .remove n => remove fs n
  | .removeAll => removeAll fs

def run {T : Type} (enc : T → Bytes) (ops : List (Op T)) : Fs := ops.foldl (step enc) []

/-! ## Lemmas -/

theorem alookup_aput {K V : Type} [DecidableEq K] (l : List (K × V)) (k : K) (v : V) (x : K) :
    alookup (aput l k v) x = if x = k then some v else alookup l x := by
  unfold alookup aput
  rw [List.find?_cons]
  by_cases h : x = k
  · simp [h]
  · have h' : ¬ k = x := fun e => h e.symm
    simp only [h', decide_false, h, if_false]
    congr 1
    rw [List.find?_filter]
    congr 1
    funext p
    by_cases hp : p.1 = x
    · simp [hp, h]
    · simp [hp]

theorem alookup_remove (fs : Fs) (m n : Nat) :
    alookup (remove fs m) n = if n ≤ m then none else alookup fs n := by
  unfold alookup remove
  rw [List.find?_filter]
  split
  · rename_i h
    rw [Option.map_eq_none_iff, List.find?_eq_none]
    intro p _
    simp
    omega
  · rename_i h
    congr 2
    funext p
    by_cases hp : p.1 = n
    · simp [hp]; omega
    · simp [hp]

theorem foldl_remove_none (ns : List Nat) (fs : Fs) (n : Nat) :
    alookup (ns.foldl remove fs) n = if (∃ m ∈ ns, n ≤ m) then none else alookup fs n := by
  induction ns generalizing fs with
  | nil => simp
  | cons m ns ih =>
    rw [List.foldl_cons, ih, alookup_remove]
    by_cases h1 : n ≤ m
    · simp [h1]
    · simp [h1]

theorem alookup_removeAll (fs : Fs) (n : Nat) : alookup (removeAll fs) n = none := by
  unfold removeAll
  rw [foldl_remove_none]
  split
  · rfl
  · rename_i h
    unfold alookup
    rw [Option.map_eq_none_iff, List.find?_eq_none]
    intro p hp
    simp only [decide_eq_true_eq]
    rintro rfl
    exact h ⟨p.1, List.mem_map.2 ⟨p, hp, rfl⟩, Nat.le_refl _⟩

/-- The content of a file. -/
def content (fs : Fs) (n : Nat) (nm : Bytes) : Option Bytes := (alookup fs n).bind (alookup · nm)

theorem content_writeFile (fs : Fs) (n m : Nat) (h : H256) (bs nm : Bytes) :
    content (writeFile fs n h bs) m nm =
      if m = n ∧ nm = shortName h then some (overlay ((content fs n nm).getD []) bs)
      else content fs m nm := by
  unfold content writeFile
  simp only
  rw [alookup_aput]
  by_cases h1 : m = n
  · subst h1
    simp only [if_true, Option.bind_some, true_and]
    rw [alookup_aput]
    by_cases h2 : nm = shortName h
    · subst h2
      simp only [if_true]
      cases alookup fs m <;> simp [alookup]
    · simp only [h2, if_false]
      cases alookup fs m <;> simp [alookup]
  · simp [h1]

theorem load_eq {T : Type} (dec : Bytes → Option T) (fs : Fs) (n : Nat) (h : H256) :
    load dec fs n h = (content fs n (shortName h)).bind (batchDecode dec) := by
  unfold load content
  cases alookup fs n <;> rfl

theorem mapM_dec {T : Type} (enc : T → Bytes) (dec : Bytes → Option T)
    (hcodec : ∀ t, dec (enc t) = some t) (ts : List T) :
    toList (fun i => (toBytes i).bind dec) (.list (ts.map fun t => .str (enc t))) = some ts :=
  toList_map (fun i => (toBytes i).bind dec) (fun t => .str (enc t))
    (fun t => by simp [toBytes, hcodec]) ts

/-- Decoding ignores bytes behind the batch. -/
theorem batchDecode_append {T : Type} (enc : T → Bytes) (dec : Bytes → Option T)
    (hcodec : ∀ t, dec (enc t) = some t) (ts : List T) (rest : Bytes)
    (hf : (batchBytes enc ts).length < 2 ^ 64) :
    batchDecode dec (batchBytes enc ts ++ rest) = some ts := by
  unfold batchDecode
  unfold batchBytes at *
  rw [C01_decode_encode _ (fits_of_length _ hf) rest]
  simp only [Option.bind_some]
  exact mapM_dec enc dec hcodec ts

end Axon.TxsWal
