import Verif.Logger.Roller

/-!
# C113: rolled log files
-/

namespace Axon.Roller

open Axon.Assoc

/-! ## Specification -/

/-- Dates have one length and consist of digits and dashes: the years 0000 to 9999. -/
def Calendar (date : Nat → Text) : Prop :=
  ∀ t, (date t).length = 10 ∧ ∀ c ∈ date t, c.isDigit = true ∨ c = '-'

/-- No second at which the file was moved away sees a further roll. -/
def OncePerSecond (c : Cfg) : Log → List (Nat × Nat × Io) → Prop
  | _, [] => True
  | s, (rec, now, io) :: ops =>
    (((read s.files c.cur ++ [rec]).map c.size).sum > c.limit → now ∉ s.moved) ∧
      OncePerSecond c (append c s rec now io) ops

/-- The archive of second `t`. -/
def archiveOf (c : Cfg) (t : Nat) : Text := archive c.pattern (c.date t) (decimal t)

theorem decimal_inj {a b : Nat} (h : decimal a = decimal b) : a = b := by
  have := congrArg (fun l => Nat.ofDigitChars 10 l 0) h
  simpa [decimal, Nat.ofDigitChars_ten_toDigits] using this

theorem Calendar.plain {date : Nat → Text} (h : Calendar date) (t : Nat) :
    date t ≠ [] ∧ Plain (date t) := by
  refine ⟨?_, ?_⟩
  · intro e
    have := (h t).1
    rw [e] at this
    cases this
  · intro c hc hm
    have := (h t).2 c hc
    simp only [timeMark, List.mem_cons, List.not_mem_nil, or_false] at hm
    rcases hm with rfl | rfl | rfl | rfl | rfl | rfl | rfl | rfl | rfl | rfl | rfl <;>
      (revert this; decide)

/-! ## Names -/

/-- A pattern that `build` accepts gives different archives for different seconds, whatever else it
contains and wherever the marks stand. -/
theorem C113_names (pattern p : Text) (hb : build pattern = some p) (date : Nat → Text)
    (hc : Calendar date) (a b : Nat)
    (h : archive p (date a) (decimal a) = archive p (date b) (decimal b)) : a = b := by
  unfold build at hb
  split at hb
  · cases hb
  next hn =>
    cases hb
    rw [archive_render _ _ (hc.plain a).1 (hc.plain a).2 _ _ (Nat.le_refl _),
      archive_render _ _ (hc.plain b).1 (hc.plain b).2 _ _ (Nat.le_refl _)] at h
    apply decimal_inj
    refine render_inj ((hc a).1.trans (hc b).1.symm) _ (tokens_time _ ?_) h
    simp only [Bool.or_eq_true, Bool.not_eq_true', not_or] at hn
    simpa using hn.2

/-- `build` accepts exactly the patterns with both marks. -/
theorem C113_build (pattern : Text) :
    (build pattern).isSome = true ↔
      (∃ a b, pattern = a ++ "{date}".toList ++ b) ∧ (∃ a b, pattern = a ++ "{timestamp}".toList ++ b) := by
  have key : ∀ (m s : Text), contains m s = true ↔ ∃ a b, s = a ++ m ++ b := by
    intro m s
    induction s with
    | nil =>
      simp only [contains, List.isEmpty_iff]
      constructor
      · rintro rfl; exact ⟨[], [], rfl⟩
      · rintro ⟨a, b, h⟩
        have := congrArg List.length h
        simp only [List.length_nil, List.length_append] at this
        exact List.length_eq_zero_iff.1 (by omega)
    | cons c cs ih =>
      simp only [contains, Bool.or_eq_true, ih]
      constructor
      · rintro (h | ⟨a, b, rfl⟩)
        · exact ⟨[], _, by rw [List.nil_append]; exact prefix_split h⟩
        · exact ⟨c :: a, b, rfl⟩
      · rintro ⟨a, b, h⟩
        cases a with
        | nil =>
          left
          rw [h]
          exact List.isPrefixOf_iff_prefix.2 ⟨b, by simp⟩
        | cons x a =>
          right
          simp only [List.cons_append, List.cons.injEq] at h
          exact ⟨a, b, h.2⟩
  have e1 : "{date}".toList = dateMark := by decide
  have e2 : "{timestamp}".toList = timeMark := by decide
  rw [e1, e2, ← key, ← key]
  unfold build
  cases contains dateMark pattern <;> cases contains timeMark pattern <;> simp

/-! ## Nothing is lost -/

theorem read_put (fs : Files) (k p : Text) (v : List Nat) :
    read (put fs k v) p = if p = k then v else read fs p := by
  unfold read
  rw [get_put]
  split <;> rfl

theorem read_del (fs : Files) (k p : Text) :
    read (del fs k) p = if p = k then [] else read fs p := by
  unfold read
  rw [get_del]
  split <;> rfl

/-- Archives in the order in which they were made, and then the current file. -/
def allRecords (c : Cfg) (s : Log) : List Nat :=
  s.moved.reverse.flatMap (fun t => read s.files (archiveOf c t)) ++ read s.files c.cur

theorem flatMap_congr' {α β : Type} {l : List α} {f g : α → List β} (h : ∀ x ∈ l, f x = g x) :
    l.flatMap f = l.flatMap g := by
  induction l with
  | nil => rfl
  | cons x l ih =>
    simp only [List.flatMap_cons]
    rw [h x (List.mem_cons_self ..), ih (fun y hy => h y (List.mem_cons_of_mem _ hy))]

theorem append_all {c : Cfg} (hinj : ∀ a b, archiveOf c a = archiveOf c b → a = b)
    (hcur : ∀ t, c.cur ≠ archiveOf c t) (s : Log) (rec now : Nat) (io : Io)
    (hf : totalSize c.size (read s.files c.cur ++ [rec]) > c.limit → now ∉ s.moved)
    (hi : allRecords c s = s.written.reverse) :
    allRecords c (append c s rec now io) = (append c s rec now io).written.reverse := by
  have hw : (append c s rec now io).written.reverse = s.written.reverse ++ [rec] := by
    unfold append
    dsimp only
    split <;> simp
  rw [hw, ← hi]
  have hr1 : read (put s.files c.cur (read s.files c.cur ++ [rec])) c.cur =
      read s.files c.cur ++ [rec] := by rw [read_put, if_pos rfl]
  have hr2 : ∀ t, read (put s.files c.cur (read s.files c.cur ++ [rec])) (archiveOf c t) =
      read s.files (archiveOf c t) := by
    intro t; rw [read_put, if_neg (fun e => hcur t e.symm)]
  generalize hfs : put s.files c.cur (read s.files c.cur ++ [rec]) = fs at hr1 hr2
  have hplain : ∀ fs' : Files, (∀ t ∈ s.moved, read fs' (archiveOf c t) = read s.files (archiveOf c t)) →
      read fs' c.cur = read s.files c.cur ++ [rec] →
      allRecords c ⟨fs', rec :: s.written, s.moved⟩ = allRecords c s ++ [rec] := by
    intro fs' h1 h2
    unfold allRecords
    dsimp only
    rw [h2, flatMap_congr' (fun t ht => h1 t (List.mem_reverse.1 ht))]
    simp
  have hmoved : ∀ fs' : Files, now ∉ s.moved →
      (∀ t ∈ s.moved, read fs' (archiveOf c t) = read s.files (archiveOf c t)) →
      read fs' (archiveOf c now) = read s.files c.cur ++ [rec] → read fs' c.cur = [] →
      allRecords c ⟨fs', rec :: s.written, now :: s.moved⟩ = allRecords c s ++ [rec] := by
    intro fs' hn h1 h2 h3
    unfold allRecords
    dsimp only
    rw [h3, List.reverse_cons, List.flatMap_append,
      flatMap_congr' (l := s.moved.reverse) (fun t ht => h1 t (List.mem_reverse.1 ht))]
    simp [h2]
  unfold append
  dsimp only
  rw [hfs, hr1]
  split
  next hlim =>
    have hn := hf hlim
    have hne : ∀ t ∈ s.moved, archiveOf c t ≠ archiveOf c now :=
      fun t ht e => hn (hinj _ _ e ▸ ht)
    show allRecords c ⟨(rollFile c.cur (archiveOf c now) fs io).1, _, _⟩ = _
    cases io with
    | mkdirFails => exact hplain fs (fun t _ => hr2 t) hr1
    | notFound => exact hplain fs (fun t _ => hr2 t) hr1
    | renamed =>
      refine hmoved (put (del fs c.cur) (archiveOf c now) (read fs c.cur)) hn ?_ ?_ ?_
      · intro t ht
        rw [read_put, if_neg (hne t ht), read_del, if_neg (fun e => hcur t e.symm), hr2]
      · rw [read_put, if_pos rfl, hr1]
      · rw [read_put, if_neg (hcur now), read_del, if_pos rfl]
    | copied rm =>
      cases rm with
      | true =>
        refine hmoved (del (put fs (archiveOf c now) (read fs c.cur)) c.cur) hn ?_ ?_ ?_
        · intro t ht
          rw [read_del, if_neg (fun e => hcur t e.symm), read_put, if_neg (hne t ht), hr2]
        · rw [read_del, if_neg (fun e => hcur now e.symm), read_put, if_pos rfl, hr1]
        · rw [read_del, if_pos rfl]
      | false =>
        refine hplain (put fs (archiveOf c now) (read fs c.cur)) ?_ ?_
        · intro t ht
          rw [read_put, if_neg (hne t ht), hr2]
        · rw [read_put, if_neg (hcur now), hr1]
    | copyFails n =>
      refine hplain (put fs (archiveOf c now) ((read fs c.cur).take n)) ?_ ?_
      · intro t ht
        rw [read_put, if_neg (hne t ht), hr2]
      · rw [read_put, if_neg (hcur now), hr1]
  next hlim => exact hplain fs (fun t _ => hr2 t) hr1

/-- The statement one would like: reading the archives in the order in which they were made and then
the current file gives exactly the records that were written, in order, however the calls to the file
system end.  Proved for a checked pattern whose archives are not the current file, when no second sees
another roll after the file was moved away in it (false without: `C113_second_false`). -/
theorem C113_kept_partial (c : Cfg) (pattern : Text) (hb : build pattern = some c.pattern)
    (hc : Calendar c.date) (hcur : ∀ t, c.cur ≠ archiveOf c t) (ops : List (Nat × Nat × Io))
    (ho : OncePerSecond c ⟨[], [], []⟩ ops) :
    let s := runLog c ⟨[], [], []⟩ ops
    s.moved.reverse.flatMap (fun t => read s.files (archiveOf c t)) ++ read s.files c.cur =
      ops.map (·.1) := by
  have hinj : ∀ a b, archiveOf c a = archiveOf c b → a = b :=
    fun a b h => C113_names pattern c.pattern hb c.date hc a b h
  have key : ∀ (ops : List (Nat × Nat × Io)) (s : Log), OncePerSecond c s ops →
      allRecords c s = s.written.reverse →
      allRecords c (runLog c s ops) = s.written.reverse ++ ops.map (·.1) := by
    intro ops
    induction ops with
    | nil => intro s _ h; simpa [runLog] using h
    | cons o ops ih =>
      obtain ⟨rec, now, io⟩ := o
      intro s h hi
      obtain ⟨h1, h2⟩ := h
      have hs := append_all hinj hcur s rec now io h1 hi
      have := ih _ h2 hs
      have hw : (append c s rec now io).written = rec :: s.written := by
        unfold append; dsimp only; split <;> rfl
      show allRecords c (runLog c (append c s rec now io) ops) = _
      rw [this, hw]
      simp
  have := key ops ⟨[], [], []⟩ ho rfl
  simpa [allRecords] using this

/-- Axon's own file names (common/logger/src/lib.rs:60-74) in the directory `logs`, records of ten
bytes and a limit of fifteen, all on one day. -/
def cfg0 : Cfg :=
  ⟨"logs/axon.log".toList, "logs/{date}.axon.{timestamp}.log".toList, 15, fun _ => 10,
    fun _ => "2020-08-27".toList⟩

theorem cfg0_calendar : Calendar cfg0.date := by
  intro t
  exact ⟨rfl, (by decide : ∀ c ∈ "2020-08-27".toList, c.isDigit = true ∨ c = '-')⟩

theorem cfg0_cur (t : Nat) : cfg0.cur ≠ archiveOf cfg0 t := by
  intro h
  unfold archiveOf at h
  rw [archive_render _ _ (cfg0_calendar.plain t).1 (cfg0_calendar.plain t).2 _ _ (Nat.le_refl _)] at h
  have h2 := congrArg List.length h
  rw [(render_length _ _ _).1] at h2
  have e1 : cfg0.cur.length = 13 := by decide
  have e2 : (cfg0.date t).length = 10 := rfl
  have e3 : (tokens 0 cfg0.pattern).count .date = 1 := by decide +kernel
  have e4 : (tokens 0 cfg0.pattern).count .time = 1 := by decide +kernel
  have e5 : (tokens 0 cfg0.pattern).length = 17 := by decide +kernel
  rw [e1, e2, e3, e4, e5] at h2
  omega

/-- Two rolls in different seconds, the second by copying and after a failed attempt. -/
example :
    let ops := [(1, 100, .renamed), (2, 100, .renamed), (3, 100, .renamed), (4, 107, .copyFails 1),
      (5, 107, .copied true), (6, 107, .renamed)]
    build cfg0.pattern = some cfg0.pattern ∧ OncePerSecond cfg0 ⟨[], [], []⟩ ops ∧
    (runLog cfg0 ⟨[], [], []⟩ ops).moved = [107, 100] ∧
    read (runLog cfg0 ⟨[], [], []⟩ ops).files "logs/2020-08-27.axon.100.log".toList = [1, 2] ∧
    read (runLog cfg0 ⟨[], [], []⟩ ops).files "logs/2020-08-27.axon.107.log".toList = [3, 4, 5] ∧
    read (runLog cfg0 ⟨[], [], []⟩ ops).files cfg0.cur = [6] := by
  refine ⟨by decide +kernel, ?_, ?_⟩
  · simp only [OncePerSecond]
    decide +kernel
  · decide +kernel

/-- Whatever the pattern: after a roll that moves the file, a record that was only in a file of the
same name is in no file any more. -/
theorem C113_overwritten (c : Cfg) (s : Log) (rec now : Nat) (io : Io)
    (hio : io = .renamed ∨ io = .copied true)
    (hlim : ((read s.files c.cur ++ [rec]).map c.size).sum > c.limit) (r : Nat) (hr : r ≠ rec)
    (hcur : r ∉ read s.files c.cur) (honly : ∀ p, p ≠ archiveOf c now → r ∉ read s.files p) :
    ∀ p, r ∉ read (append c s rec now io).files p := by
  have hr1 : read (put s.files c.cur (read s.files c.cur ++ [rec])) c.cur =
      read s.files c.cur ++ [rec] := by rw [read_put, if_pos rfl]
  have hnot : r ∉ read s.files c.cur ++ [rec] := by
    simp only [List.mem_append, List.mem_singleton, not_or]
    exact ⟨hcur, hr⟩
  intro p
  unfold append
  dsimp only
  rw [hr1, if_pos (by exact hlim)]
  dsimp only
  show r ∉ read (rollFile c.cur (archiveOf c now) _ io).1 p
  rcases hio with rfl | rfl
  · simp only [rollFile]
    rw [read_put]
    split
    · rw [hr1]; exact hnot
    · rw [read_del]
      split
      · simp
      next h1 h2 => rw [read_put, if_neg h2]; exact honly p h1
  · simp only [rollFile]
    rw [read_del]
    split
    · simp
    next h2 =>
      rw [read_put]
      split
      · rw [hr1]; exact hnot
      next h1 => rw [read_put, if_neg h2]; exact honly p h1

/-- False without "once per second": with Axon's own file names, when the file fills up twice within
one second the second roll replaces the first archive; records 1 and 2 are in no file. -/
theorem C113_second_false :
    let s := runLog cfg0 ⟨[], [], []⟩ [(1, 100, .renamed), (2, 100, .renamed), (3, 100, .renamed),
      (4, 100, .renamed)]
    s.written = [4, 3, 2, 1] ∧ s.moved = [100, 100] ∧
    s.files.flatMap (·.2) = [3, 4] := by decide +kernel

/-- False for a configured pattern, which is not checked: one without the second is accepted and every
roll replaces the archive of the day. -/
theorem C113_unchecked_false :
    let p := "logs/{date}.log".toList
    let c : Cfg := { cfg0 with pattern := p }
    build p = none ∧ deserialize p = some p ∧
    (runLog c ⟨[], [], []⟩ [(1, 100, .renamed), (2, 101, .renamed), (3, 102, .renamed),
      (4, 103, .renamed)]).files.flatMap (·.2) = [3, 4] := by decide +kernel

/-- The current file stays within its limit as long as rolls succeed. -/
theorem C113_bound (c : Cfg) (s : Log) (rec now : Nat) (io : Io)
    (hio : io = .renamed ∨ io = .copied true) (hne : c.cur ≠ archiveOf c now) :
    ((read (append c s rec now io).files c.cur).map c.size).sum ≤ c.limit := by
  unfold append
  dsimp only
  split
  · show ((read (rollFile c.cur (archiveOf c now) _ io).1 c.cur).map c.size).sum ≤ _
    rcases hio with rfl | rfl
    · simp only [rollFile]
      rw [read_put, if_neg hne, read_del, if_pos rfl]
      exact Nat.zero_le _
    · simp only [rollFile]
      rw [read_del, if_pos rfl]
      exact Nat.zero_le _
  next h => unfold totalSize at h; dsimp only; omega

end Axon.Roller
