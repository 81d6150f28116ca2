import Verif.Util.Bytes

/-!
# Consensus WAL

Model of `ConsensusWal`, `core/consensus/src/wal.rs:149-314`.  The directory is a list of files named
by their timestamp; list order stands for the arbitrary order of `read_dir`.  The digest function is
arbitrary.  The clock is an input of each update (`SystemTime::now`, `wal.rs:181-196`).
-/

namespace Axon.ConsensusWal

structure File where
  stamp : Nat
  data : Bytes
deriving DecidableEq

abbrev Fs := List File

/-- Content of a WAL file: checksum, then payload; `wal.rs:174-178`. -/
def fileData (digest : Bytes → H256) (info : Bytes) : Bytes := (digest info).bytes ++ info

/-- `update_overlord_wal` when it completes, `wal.rs:166-237`: write the new file, then delete all
files with a smaller timestamp.  Creating a file that exists does not happen: the loop of
`wal.rs:181-196` waits for a fresh timestamp. -/
def update (digest : Bytes → H256) (fs : Fs) (stamp : Nat) (info : Bytes) : Fs :=
  (⟨stamp, fileData digest info⟩ :: fs).filter fun f => ¬ f.stamp < stamp

/-- A crash inside `update_overlord_wal`: only the first `k` bytes of the new file have reached the
disk and, if all have, those older files for which `gone` holds have been deleted. -/
def crash (digest : Bytes → H256) (fs : Fs) (stamp : Nat) (info : Bytes) (k : Nat)
    (gone : Nat → Bool) : Fs :=
  let data := fileData digest info
  ⟨stamp, data.take k⟩ ::
    (if k < data.length then fs else fs.filter fun f => ¬ (f.stamp < stamp ∧ gone f.stamp))

/-- The files in the order in which `load_overlord_wal` visits them, `wal.rs:248-262`: newest first. -/
def visitOrder (fs : Fs) : List File := fs.mergeSort fun a b => decide (b.stamp ≤ a.stamp)

/-- One pass through the loop of `load_overlord_wal`, `wal.rs:266-296`: either the next index or the
final result.  A file shorter than the checksum is met with `continue` and the index unchanged
(`wal.rs:285-287`). -/
def loadStep (digest : Bytes → H256) (files : List File) (i : Nat) : Nat ⊕ Option Bytes :=
  match files[i]? with
  | none => .inr none
  | some f =>
    if f.data.length < 32 then .inl i
    else if f.data.take 32 = (digest (f.data.drop 32)).bytes then .inr (some (f.data.drop 32))
    else .inl (i + 1)

/-- The loop after at most `fuel` passes; `none`: still running. -/
def loadRun (digest : Bytes → H256) (files : List File) : Nat → Nat → Option (Option Bytes)
  | 0, _ => none
  | fuel + 1, i =>
    match loadStep digest files i with
    | .inr r => some r
    | .inl j => loadRun digest files fuel j

/-- `load_overlord_wal` ends with result `r` (`none`: the error `ConsensusWalNoWalFile`). -/
def Loads (digest : Bytes → H256) (fs : Fs) (r : Option Bytes) : Prop :=
  ∃ fuel, loadRun digest (visitOrder fs) fuel 0 = some r

/-- `load_overlord_wal` never ends. -/
def Diverges (digest : Bytes → H256) (fs : Fs) : Prop :=
  ∀ fuel, loadRun digest (visitOrder fs) fuel 0 = none

/-- Operations, in the order of execution. -/
inductive Op where
  | update (stamp : Nat) (info : Bytes)
  | crash (stamp : Nat) (info : Bytes) (k : Nat) (gone : Nat → Bool)
  /-- `clear`, `wal.rs:301-313` -/
  | clear

def step (digest : Bytes → H256) (fs : Fs) : Op → Fs
  | .update s i => update digest fs s i
  | .crash s i k g => crash digest fs s i k g
  | .clear => []

def run (digest : Bytes → H256) (ops : List Op) : Fs := ops.foldl (step digest) []

def Op.stamp? : Op → Option Nat
  | .update s _ => some s
  | .crash s _ _ _ => some s
  | .clear => none

/-! ## Lemmas -/

theorem fileData_length (digest : Bytes → H256) (info : Bytes) :
    (fileData digest info).length = 32 + info.length := by
  simp [fileData, (digest info).len]

/-- A file written completely is accepted. -/
theorem accept_full (digest : Bytes → H256) (info : Bytes) :
    (fileData digest info).take 32 = (digest ((fileData digest info).drop 32)).bytes ∧
    (fileData digest info).drop 32 = info := by
  have h2 : (fileData digest info).drop 32 = info := by
    unfold fileData; exact List.drop_left' (digest info).len
  refine ⟨?_, h2⟩
  rw [h2]
  unfold fileData
  exact List.take_left' (digest info).len

/-- The loop from index `i` on equals the loop on the list without its first `i` files. -/
theorem loadRun_drop (digest : Bytes → H256) (files : List File) (fuel i : Nat) :
    loadRun digest files fuel i = loadRun digest (files.drop i) fuel 0 := by
  have gen : ∀ fuel i j, loadRun digest files fuel (i + j) = loadRun digest (files.drop i) fuel j := by
    intro fuel
    induction fuel with
    | zero => intros; rfl
    | succ fuel ih =>
      intro i j
      unfold loadRun
      have : loadStep digest files (i + j) = match loadStep digest (files.drop i) j with
          | .inr r => .inr r
          | .inl m => .inl (i + m) := by
        unfold loadStep
        rw [List.getElem?_drop]
        repeat' split
        all_goals simp_all [Nat.add_assoc]
      rw [this]
      split
      · rename_i r h; split at h <;> simp_all
      · rename_i m h
        split at h
        · simp at h
        · rename_i m' h'
          simp only [Sum.inl.injEq] at h
          rw [← h]
          exact ih i m'
  simpa using gen fuel i 0

theorem loadRun_cons_accept (digest : Bytes → H256) (f : File) (fs : List File) (fuel : Nat)
    (h1 : ¬ f.data.length < 32) (h2 : f.data.take 32 = (digest (f.data.drop 32)).bytes) :
    loadRun digest (f :: fs) (fuel + 1) 0 = some (some (f.data.drop 32)) := by
  simp [loadRun, loadStep, h1, h2]

theorem loadRun_cons_skip (digest : Bytes → H256) (f : File) (fs : List File) (fuel : Nat)
    (h1 : ¬ f.data.length < 32) (h2 : f.data.take 32 ≠ (digest (f.data.drop 32)).bytes) :
    loadRun digest (f :: fs) (fuel + 1) 0 = loadRun digest fs fuel 0 := by
  have hs : loadStep digest (f :: fs) 0 = .inl 1 := by
    unfold loadStep
    simp only [List.getElem?_cons_zero]
    rw [if_neg h1, if_neg h2]
  simp only [loadRun, hs]
  rw [loadRun_drop]
  rfl

theorem loadRun_cons_short (digest : Bytes → H256) (f : File) (fs : List File) (fuel : Nat)
    (h1 : f.data.length < 32) : loadRun digest (f :: fs) fuel 0 = none := by
  induction fuel with
  | zero => rfl
  | succ fuel ih => simp only [loadRun, loadStep, List.getElem?_cons_zero, h1, if_true]; exact ih

/-- Files in strictly descending order of timestamps are visited in that order. -/
theorem visitOrder_sorted (fs : Fs) (h : fs.Pairwise fun a b => b.stamp < a.stamp) :
    visitOrder fs = fs := by
  unfold visitOrder
  apply List.mergeSort_of_pairwise
  exact h.imp (fun {a b} hab => by simp; omega)

/-- Result of the loop on a list of files in visiting order; `none`: the loop does not end. -/
def resOf (digest : Bytes → H256) : List File → Option (Option Bytes)
  | [] => some none
  | f :: fs =>
    if f.data.length < 32 then none
    else if f.data.take 32 = (digest (f.data.drop 32)).bytes then some (some (f.data.drop 32))
    else resOf digest fs

theorem resOf_some (digest : Bytes → H256) (files : List File) (r : Option Bytes)
    (h : resOf digest files = some r) : ∃ fuel, loadRun digest files fuel 0 = some r := by
  induction files with
  | nil => simp [resOf] at h; exact ⟨1, by simp [loadRun, loadStep, h]⟩
  | cons f fs ih =>
    unfold resOf at h
    split at h
    · simp at h
    · rename_i h1
      split at h
      · rename_i h2
        simp only [Option.some.injEq] at h
        exact ⟨1, by rw [loadRun_cons_accept digest f fs 0 h1 h2, h]⟩
      · rename_i h2
        obtain ⟨fuel, hf⟩ := ih h
        exact ⟨fuel + 1, by rw [loadRun_cons_skip digest f fs fuel h1 h2, hf]⟩

theorem resOf_none (digest : Bytes → H256) (files : List File) (h : resOf digest files = none) :
    ∀ fuel, loadRun digest files fuel 0 = none := by
  induction files with
  | nil => simp [resOf] at h
  | cons f fs ih =>
    unfold resOf at h
    split at h
    · rename_i h1
      intro fuel
      exact loadRun_cons_short digest f fs fuel h1
    · rename_i h1
      split at h
      · simp at h
      · rename_i h2
        intro fuel
        cases fuel with
        | zero => rfl
        | succ fuel => rw [loadRun_cons_skip digest f fs fuel h1 h2]; exact ih h fuel

/-- More passes do not change a result. -/
theorem loadRun_mono (digest : Bytes → H256) (files : List File) (i fuel fuel' : Nat)
    (r : Option Bytes) (hle : fuel ≤ fuel') (h : loadRun digest files fuel i = some r) :
    loadRun digest files fuel' i = some r := by
  induction fuel generalizing i fuel' with
  | zero => simp [loadRun] at h
  | succ fuel ih =>
    obtain ⟨f', rfl⟩ : ∃ f', fuel' = f' + 1 := ⟨fuel' - 1, by omega⟩
    unfold loadRun at h ⊢
    split
    · rename_i r' hr; rw [hr] at h; exact h
    · rename_i j hj; rw [hj] at h; exact ih j f' (by omega) h

theorem loads_iff (digest : Bytes → H256) (fs : Fs) (r : Option Bytes) :
    Loads digest fs r ↔ resOf digest (visitOrder fs) = some r := by
  constructor
  · rintro ⟨fuel, hf⟩
    cases hr : resOf digest (visitOrder fs) with
    | none => rw [resOf_none digest _ hr fuel] at hf; simp at hf
    | some r' =>
      obtain ⟨fuel', hf'⟩ := resOf_some digest _ r' hr
      have h1 := loadRun_mono digest _ 0 fuel (max fuel fuel') r (by omega) hf
      have h2 := loadRun_mono digest _ 0 fuel' (max fuel fuel') r' (by omega) hf'
      rw [h1] at h2
      simpa using h2.symm
  · exact resOf_some digest _ r

theorem diverges_iff (digest : Bytes → H256) (fs : Fs) :
    Diverges digest fs ↔ resOf digest (visitOrder fs) = none := by
  constructor
  · intro h
    cases hr : resOf digest (visitOrder fs) with
    | none => rfl
    | some r =>
      obtain ⟨fuel, hf⟩ := resOf_some digest _ r hr
      rw [h fuel] at hf; simp at hf
  · exact resOf_none digest _

end Axon.ConsensusWal
