import Verif.Util.Assoc

/-!
# Rolling log files

A log file that has grown beyond its limit is moved to an archive whose name is made from a pattern, the
date and the second of the roll.  The appender (`RollingFileAppender` with `CompoundPolicy` and
`SizeTrigger` of log4rs 1.2) is modelled from its published source.
-/

namespace Axon.Roller

open Axon.Assoc

abbrev Text := List Char

/-- `str::replace` of Rust: occurrences from left to right that do not overlap; `skip` characters of
the last occurrence are still to be passed over. -/
def replaceFrom (pat sub : Text) : Nat → Text → Text
  | _, [] => []
  | skip + 1, _ :: cs => replaceFrom pat sub skip cs
  | 0, c :: cs =>
    if pat.isPrefixOf (c :: cs) then sub ++ replaceFrom pat sub (pat.length - 1) cs
    else c :: replaceFrom pat sub 0 cs

def replace (pat sub s : Text) : Text := replaceFrom pat sub 0 s

/-- `str::contains`. -/
def contains (pat : Text) : Text → Bool
  | [] => pat.isEmpty
  | c :: cs => pat.isPrefixOf (c :: cs) || contains pat cs

def dateMark : Text := ['{', 'd', 'a', 't', 'e', '}']
def timeMark : Text := ['{', 't', 'i', 'm', 'e', 's', 't', 'a', 'm', 'p', '}']

/-- common/logger/src/date_fixed_roller.rs:18-33 `build`. -/
def build (pattern : Text) : Option Text :=
  if !contains dateMark pattern || !contains timeMark pattern then none else some pattern

/-- common/logger/src/date_fixed_roller.rs:88-103: the roller of a configuration file is not checked. -/
def deserialize (pattern : Text) : Option Text := some pattern

/-- common/logger/src/date_fixed_roller.rs:53-57: the name of the archive. -/
def archive (pattern date timestamp : Text) : Text :=
  replace timeMark timestamp (replace dateMark date pattern)

/-- Decimal digits of `n`, most significant first (`to_string`). -/
def decimal (n : Nat) : Text := Nat.toDigits 10 n

/-- How the calls to the file system end (date_fixed_roller.rs:59-70). -/
inductive Io where
  /-- `create_dir_all` fails. -/
  | mkdirFails
  /-- `rename` succeeds. -/
  | renamed
  /-- `rename` says `NotFound`. -/
  | notFound
  /-- `rename` fails otherwise, `copy` succeeds, and `remove_file` as given. -/
  | copied (removed : Bool)
  /-- `rename` fails otherwise and `copy` fails after so many records. -/
  | copyFails (written : Nat)
deriving DecidableEq, Repr

/-- The files: records by path. -/
abbrev Files := List (Text × List Nat)

def read (fs : Files) (p : Text) : List Nat := (get fs p).getD []

/-- common/logger/src/date_fixed_roller.rs:52-72 `roll_file`: the files, whether `cur` is gone, and
whether `Ok` is returned.  A failing copy leaves a truncated archive. -/
def rollFile (cur arch : Text) (fs : Files) : Io → Files × Bool × Bool
  | .mkdirFails => (fs, false, false)
  | .renamed => (put (del fs cur) arch (read fs cur), true, true)
  | .notFound => (fs, false, true)
  | .copied true => (del (put fs arch (read fs cur)) cur, true, true)
  | .copied false => (put fs arch (read fs cur), false, false)
  | .copyFails n => (put fs arch ((read fs cur).take n), false, false)

/-- One appender. -/
structure Cfg where
  /-- The file that is written. -/
  cur : Text
  pattern : Text
  /-- Bytes, `SizeTrigger`. -/
  limit : Nat
  /-- Length of an encoded record. -/
  size : Nat → Nat
  /-- `format("%Y-%m-%d")` of a second since the epoch. -/
  date : Nat → Text

structure Log where
  files : Files
  /-- History: records appended, newest first. -/
  written : List Nat
  /-- History: seconds of rolls that moved the file away. -/
  moved : List Nat
deriving DecidableEq, Repr

def totalSize (size : Nat → Nat) (l : List Nat) : Nat := (l.map size).sum

/-- `RollingFileAppender::append` (log4rs): open for appending, write the record, and roll when the
file is longer than the limit.  `now`: second at which `roll` (date_fixed_roller.rs:76-83) reads the
clock. -/
def append (c : Cfg) (s : Log) (rec now : Nat) (io : Io) : Log :=
  let fs := put s.files c.cur (read s.files c.cur ++ [rec])
  if totalSize c.size (read fs c.cur) > c.limit then
    let r := rollFile c.cur (archive c.pattern (c.date now) (decimal now)) fs io
    ⟨r.1, rec :: s.written, if r.2.1 then now :: s.moved else s.moved⟩
  else ⟨fs, rec :: s.written, s.moved⟩

/-- Appending records one after another. -/
def runLog (c : Cfg) (s : Log) (ops : List (Nat × Nat × Io)) : Log :=
  ops.foldl (fun s o => append c s o.1 o.2.1 o.2.2) s

/-! ## Names of archives -/

/-- A pattern in pieces. -/
inductive Tok where
  | lit (c : Char)
  | date
  | time
deriving DecidableEq, Repr

def tokens : Nat → Text → List Tok
  | _, [] => []
  | skip + 1, _ :: cs => tokens skip cs
  | 0, c :: cs =>
    if dateMark.isPrefixOf (c :: cs) then .date :: tokens 5 cs
    else if timeMark.isPrefixOf (c :: cs) then .time :: tokens 10 cs
    else .lit c :: tokens 0 cs

def render (d t : Text) : List Tok → Text
  | [] => []
  | .lit c :: l => c :: render d t l
  | .date :: l => d ++ render d t l
  | .time :: l => t ++ render d t l

theorem replaceFrom_drop (pat sub : Text) : ∀ (s : Text) (k : Nat),
    replaceFrom pat sub k s = replaceFrom pat sub 0 (s.drop k) := by
  intro s
  induction s with
  | nil => intro k; cases k <;> simp [replaceFrom]
  | cons c cs ih =>
    intro k
    cases k with
    | zero => rfl
    | succ k => simp only [replaceFrom, List.drop_succ_cons]; exact ih k

theorem tokens_drop : ∀ (s : Text) (k : Nat), tokens k s = tokens 0 (s.drop k) := by
  intro s
  induction s with
  | nil => intro k; cases k <;> simp [tokens]
  | cons c cs ih =>
    intro k
    cases k with
    | zero => rfl
    | succ k => simp only [tokens, List.drop_succ_cons]; exact ih k

/-- Characters that occur in neither mark after the brace. -/
def Plain (d : Text) : Prop := ∀ c ∈ d, c ∉ timeMark

/-- Text without occurrences is copied. -/
theorem replace_plain (sub : Text) : ∀ (d s : Text), Plain d →
    replaceFrom timeMark sub 0 (d ++ s) = d ++ replaceFrom timeMark sub 0 s := by
  intro d
  induction d with
  | nil => intro s _; rfl
  | cons c d ih =>
    intro s h
    have hc : c ≠ '{' := fun e => h c (List.mem_cons_self ..) (by rw [e]; decide)
    have hp : timeMark.isPrefixOf (c :: (d ++ s)) = false := by
      simp only [timeMark, List.isPrefixOf]
      have : ('{' == c) = false := by simpa using hc.symm
      rw [this]; rfl
    show replaceFrom timeMark sub 0 (c :: (d ++ s)) = _
    simp only [replaceFrom, hp]
    show c :: replaceFrom timeMark sub 0 (d ++ s) = _
    rw [ih s (fun x hx => h x (List.mem_cons_of_mem _ hx))]
    rfl

/-- A word that shows up after replacing dates was there before. -/
theorem prefix_of_replace (d : Text) (hd : d ≠ []) : ∀ (w s : Text), (∀ c ∈ w, c ∉ d) →
    w.isPrefixOf (replaceFrom dateMark d 0 s) = true → w.isPrefixOf s = true := by
  intro w
  induction w with
  | nil => intro s _ _; cases s <;> rfl
  | cons x w ih =>
    intro s hw h
    cases s with
    | nil => simp [replaceFrom] at h
    | cons y ys =>
      simp only [replaceFrom] at h
      split at h
      · cases d with
        | nil => exact absurd rfl hd
        | cons z zs =>
          simp only [List.cons_append, List.isPrefixOf, Bool.and_eq_true, beq_iff_eq] at h
          exact absurd (by rw [h.1]; exact List.mem_cons_self ..) (hw x (List.mem_cons_self ..))
      · simp only [List.isPrefixOf, Bool.and_eq_true] at h ⊢
        exact ⟨h.1, ih ys (fun c hc => hw c (List.mem_cons_of_mem _ hc)) h.2⟩

theorem prefix_split {p s : Text} (h : p.isPrefixOf s = true) : s = p ++ s.drop p.length := by
  have := List.isPrefixOf_iff_prefix.1 h
  obtain ⟨r, rfl⟩ := this
  simp

/-- The two replacements in sequence fill the pieces of the pattern. -/
theorem archive_render (d t : Text) (hd : d ≠ []) (hp : Plain d) : ∀ (n : Nat) (s : Text),
    s.length ≤ n → archive s d t = render d t (tokens 0 s) := by
  intro n
  induction n with
  | zero =>
    intro s h
    have : s = [] := List.length_eq_zero_iff.1 (by omega)
    subst this; rfl
  | succ n ih =>
    intro s h
    cases s with
    | nil => rfl
    | cons c cs =>
      by_cases h1 : dateMark.isPrefixOf (c :: cs) = true
      · have e1 : replaceFrom dateMark d 0 (c :: cs) = d ++ replaceFrom dateMark d 0 (cs.drop 5) := by
          simp only [replaceFrom, h1, if_true]
          rw [replaceFrom_drop]; rfl
        have e2 : tokens 0 (c :: cs) = .date :: tokens 0 (cs.drop 5) := by
          simp only [tokens, h1, if_true]
          rw [tokens_drop]
        unfold archive replace
        rw [e1, e2, replace_plain _ _ _ hp]
        simp only [render]
        congr 1
        exact ih (cs.drop 5) (by simp only [List.length_drop, List.length_cons] at h ⊢; omega)
      · by_cases h2 : timeMark.isPrefixOf (c :: cs) = true
        · have hs := prefix_split h2
          have e2 : tokens 0 (c :: cs) = .time :: tokens 0 (cs.drop 10) := by
            simp only [tokens, h1, h2, if_true]
            show Tok.time :: tokens 10 cs = _
            rw [tokens_drop cs 10]
          have e3 : (c :: cs).drop timeMark.length = cs.drop 10 := rfl
          rw [e3] at hs
          rw [e2]
          have e1 : replaceFrom dateMark d 0 (timeMark ++ cs.drop 10) =
              timeMark ++ replaceFrom dateMark d 0 (cs.drop 10) := by
            simp [timeMark, dateMark, replaceFrom, List.isPrefixOf]
          have e4 : replaceFrom timeMark t 0 (timeMark ++ replaceFrom dateMark d 0 (cs.drop 10)) =
              t ++ replaceFrom timeMark t 0 (replaceFrom dateMark d 0 (cs.drop 10)) := by
            simp [timeMark, replaceFrom, List.isPrefixOf]
          unfold archive replace
          rw [hs, e1, e4]
          simp only [render]
          congr 1
          exact ih (cs.drop 10) (by simp only [List.length_drop, List.length_cons] at h ⊢; omega)
        · have e1 : replaceFrom dateMark d 0 (c :: cs) = c :: replaceFrom dateMark d 0 cs := by
            simp only [replaceFrom, h1]; rfl
          have e2 : tokens 0 (c :: cs) = .lit c :: tokens 0 cs := by
            simp only [tokens, h1, h2]; rfl
          have h3 : ¬ timeMark.isPrefixOf (c :: replaceFrom dateMark d 0 cs) = true := by
            intro h3
            apply h2
            simp only [timeMark, List.isPrefixOf_cons_cons, Bool.and_eq_true] at h3 ⊢
            refine ⟨h3.1, ?_⟩
            have := prefix_of_replace d hd ['t', 'i', 'm', 'e', 's', 't', 'a', 'm', 'p', '}'] cs
              (by
                intro x hx hxd
                exact hp x hxd (List.mem_cons_of_mem _ hx))
              (by simpa [List.isPrefixOf_cons_cons] using h3.2)
            simpa [List.isPrefixOf_cons_cons] using this
          unfold archive replace
          rw [e1, e2]
          simp only [replaceFrom, h3, render]
          simp only [Bool.false_eq_true, if_false]
          congr 1
          exact ih cs (by simp only [List.length_cons] at h; omega)

theorem tokens_time : ∀ (s : Text), contains timeMark s = true → Tok.time ∈ tokens 0 s := by
  have key : ∀ (n : Nat) (s : Text), s.length ≤ n → contains timeMark s = true →
      Tok.time ∈ tokens 0 s := by
    intro n
    induction n with
    | zero =>
      intro s h hc
      have : s = [] := List.length_eq_zero_iff.1 (by omega)
      subst this
      simp [contains, timeMark] at hc
    | succ n ih =>
      intro s h hc
      cases s with
      | nil => simp [contains, timeMark] at hc
      | cons c cs =>
        simp only [List.length_cons] at h
        by_cases h1 : dateMark.isPrefixOf (c :: cs) = true
        · have e2 : tokens 0 (c :: cs) = .date :: tokens 0 (cs.drop 5) := by
            simp only [tokens, h1, if_true]
            rw [tokens_drop]
          rw [e2]
          apply List.mem_cons_of_mem
          apply ih _ (by simp only [List.length_drop]; omega)
          have hs := prefix_split h1
          have e3 : (c :: cs).drop dateMark.length = cs.drop 5 := rfl
          rw [e3] at hs
          rw [hs] at hc
          simpa [dateMark, contains, timeMark, List.isPrefixOf] using hc
        · by_cases h2 : timeMark.isPrefixOf (c :: cs) = true
          · have : tokens 0 (c :: cs) = .time :: tokens 10 cs := by
              simp only [tokens, h1, h2, if_true]; rfl
            rw [this]; exact List.mem_cons_self ..
          · have e2 : tokens 0 (c :: cs) = .lit c :: tokens 0 cs := by
              simp only [tokens, h1, h2]; rfl
            rw [e2]
            apply List.mem_cons_of_mem
            apply ih _ (by omega)
            simp only [contains, h2, Bool.false_or] at hc
            exact hc
  intro s h
  exact key s.length s (Nat.le_refl _) h

theorem render_length (d t : Text) : ∀ l : List Tok, (render d t l).length =
    l.count .date * d.length + l.count .time * t.length +
      (l.length - l.count .date - l.count .time) ∧ l.count .date + l.count .time ≤ l.length := by
  intro l
  induction l with
  | nil => simp [render]
  | cons x l ih =>
    obtain ⟨h1, h2⟩ := ih
    cases x with
    | lit c =>
      have e1 : (Tok.lit c :: l).count .date = l.count .date := by
        rw [List.count_cons]; simp
      have e2 : (Tok.lit c :: l).count .time = l.count .time := by
        rw [List.count_cons]; simp
      simp only [render, List.length_cons, e1, e2, h1]
      omega
    | date =>
      have e1 : (Tok.date :: l).count .date = l.count .date + 1 := by
        rw [List.count_cons]; simp
      have e2 : (Tok.date :: l).count .time = l.count .time := by
        rw [List.count_cons]; simp
      simp only [render, List.length_append, List.length_cons, e1, e2, h1, Nat.add_mul, Nat.one_mul]
      omega
    | time =>
      have e1 : (Tok.time :: l).count .date = l.count .date := by
        rw [List.count_cons]; simp
      have e2 : (Tok.time :: l).count .time = l.count .time + 1 := by
        rw [List.count_cons]; simp
      simp only [render, List.length_append, List.length_cons, e1, e2, h1, Nat.add_mul, Nat.one_mul]
      omega

theorem render_inj {d1 d2 t1 t2 : Text} (hd : d1.length = d2.length) (l : List Tok)
    (ht : Tok.time ∈ l) (h : render d1 t1 l = render d2 t2 l) : t1 = t2 := by
  have hl : t1.length = t2.length := by
    have h0 := congrArg List.length h
    rw [(render_length d1 t1 l).1, (render_length d2 t2 l).1, hd] at h0
    have hpos : 0 < l.count .time := List.count_pos_iff.2 ht
    have : l.count .time * t1.length = l.count .time * t2.length := by omega
    exact Nat.eq_of_mul_eq_mul_left hpos this
  induction l with
  | nil => cases ht
  | cons x l ih =>
    cases x with
    | lit c =>
      simp only [render, List.cons.injEq, true_and] at h
      exact ih (by simpa using ht) h
    | date =>
      simp only [render] at h
      exact ih (by simpa using ht) (List.append_inj h hd).2
    | time =>
      simp only [render] at h
      exact (List.append_inj h hl).1

end Axon.Roller
