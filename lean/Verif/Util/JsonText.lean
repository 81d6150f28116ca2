import Verif.Util.Bytes

/-!
# JSON texts

What `serde_json` 1.0 writes and reads: `serde_json::to_string` and `serde_json::from_reader` as used in
core/network/src/peer_manager/peer_store/peer_store_db.rs:23-24, 37-39, 48-49, 63-65.  The crate is not part of
/repo; it is modelled from its published source.  Simplified: strings are byte strings (that a text is UTF-8 is
not checked), numbers are integers (a fraction, an exponent or `-0` makes the text unreadable, as it does for the
integer fields read here), `\u` escapes of surrogates are refused, and nesting is not limited to 128.
-/

namespace Axon.JsonText

open Axon

inductive Js where
  | null
  | bool (b : Bool)
  | num (n : Int)
  | str (s : Bytes)
  | arr (l : List Js)
  | obj (l : List (Bytes × Js))
deriving Repr

/-! ## Writing -/

/-- The digit of a number below ten. -/
def digit (n : Nat) : UInt8 := UInt8.ofNat (0x30 + n)

def decF : Nat → Nat → Bytes
  | 0, _ => []
  | f + 1, n => if n < 10 then [digit n] else decF f (n / 10) ++ [digit (n % 10)]

/-- The decimal digits of a natural number (crate `itoa`). -/
def dec (n : Nat) : Bytes := decF (n + 1) n

/-- `serialize_i64`, `serialize_u64` of `serde_json`. -/
def showInt (n : Int) : Bytes := if n < 0 then 0x2d :: dec n.natAbs else dec n.natAbs

/-- A lower-case hex digit. -/
def hexDigit (n : Nat) : UInt8 := if n < 10 then UInt8.ofNat (0x30 + n) else UInt8.ofNat (0x57 + n)

/-- `format_escaped_str_contents` of `serde_json`, one byte. -/
def esc (c : UInt8) : Bytes :=
  if c = 0x22 then [0x5c, 0x22]
  else if c = 0x5c then [0x5c, 0x5c]
  else if c = 0x08 then [0x5c, 0x62]
  else if c = 0x09 then [0x5c, 0x74]
  else if c = 0x0a then [0x5c, 0x6e]
  else if c = 0x0c then [0x5c, 0x66]
  else if c = 0x0d then [0x5c, 0x72]
  else if c.toNat < 0x20 then [0x5c, 0x75, 0x30, 0x30, hexDigit (c.toNat / 16), hexDigit (c.toNat % 16)]
  else [c]

def showStr (s : Bytes) : Bytes := 0x22 :: (s.flatMap esc ++ [0x22])

mutual
/-- `serde_json::to_string`: compact. -/
def write : Js → Bytes
  | .null => [0x6e, 0x75, 0x6c, 0x6c]
  | .bool true => [0x74, 0x72, 0x75, 0x65]
  | .bool false => [0x66, 0x61, 0x6c, 0x73, 0x65]
  | .num n => showInt n
  | .str s => showStr s
  | .arr [] => [0x5b, 0x5d]
  | .arr (v :: l) => 0x5b :: (write v ++ writeElems l)
  | .obj [] => [0x7b, 0x7d]
  | .obj ((k, v) :: l) => 0x7b :: (showStr k ++ 0x3a :: (write v ++ writeMembers l))
/-- The elements after the first, and the closing bracket. -/
def writeElems : List Js → Bytes
  | [] => [0x5d]
  | v :: l => 0x2c :: (write v ++ writeElems l)
/-- The members after the first, and the closing brace. -/
def writeMembers : List (Bytes × Js) → Bytes
  | [] => [0x7d]
  | (k, v) :: l => 0x2c :: (showStr k ++ 0x3a :: (write v ++ writeMembers l))
end

/-! ## Reading -/

/-- `parse_whitespace`: blanks, tabs and line ends. -/
def ws : Bytes → Bytes
  | [] => []
  | c :: r => if c = 0x20 ∨ c = 0x09 ∨ c = 0x0a ∨ c = 0x0d then ws r else c :: r

def isDigit (c : UInt8) : Bool := decide (0x30 ≤ c.toNat) && decide (c.toNat < 0x3a)

/-- No number goes on here. -/
def stop : Bytes → Bool
  | [] => true
  | c :: _ => !isDigit c && decide (c ≠ 0x2e ∧ c ≠ 0x65 ∧ c ≠ 0x45)

def digits (a : Nat) : Bytes → Nat × Bytes
  | [] => (a, [])
  | c :: r => if isDigit c then digits (10 * a + (c.toNat - 0x30)) r else (a, c :: r)

/-- `parse_integer` of `serde_json`: no leading zeros. -/
def readNat : Bytes → Option (Nat × Bytes)
  | [] => none
  | c :: r =>
    if c = 0x30 then (if stop r then some (0, r) else none)
    else if isDigit c then
      let (n, r') := digits (c.toNat - 0x30) r
      if stop r' then some (n, r') else none
    else none

def readInt : Bytes → Option (Int × Bytes)
  | [] => none
  | c :: r =>
    if c = 0x2d then
      match readNat r with
      | some (n, r') => if n = 0 then none else some (-(n : Int), r')
      | none => none
    else
      match readNat (c :: r) with
      | some (n, r') => some ((n : Int), r')
      | none => none

def hexVal (c : UInt8) : Option Nat :=
  if isDigit c then some (c.toNat - 0x30)
  else if 0x61 ≤ c.toNat ∧ c.toNat < 0x67 then some (c.toNat - 0x57)
  else if 0x41 ≤ c.toNat ∧ c.toNat < 0x47 then some (c.toNat - 0x37)
  else none

/-- The UTF-8 bytes of a code point of the basic plane; surrogates are refused. -/
def utf8 (n : Nat) : Option Bytes :=
  if n < 0x80 then some [UInt8.ofNat n]
  else if n < 0x800 then some [UInt8.ofNat (0xc0 + n / 64), UInt8.ofNat (0x80 + n % 64)]
  else if 0xd800 ≤ n ∧ n < 0xe000 then none
  else some [UInt8.ofNat (0xe0 + n / 4096), UInt8.ofNat (0x80 + n / 64 % 64), UInt8.ofNat (0x80 + n % 64)]

/-- The simple escapes of `parse_escape`. -/
def unesc (c : UInt8) : Option UInt8 :=
  if c = 0x22 ∨ c = 0x5c ∨ c = 0x2f then some c
  else if c = 0x62 then some 0x08
  else if c = 0x66 then some 0x0c
  else if c = 0x6e then some 0x0a
  else if c = 0x72 then some 0x0d
  else if c = 0x74 then some 0x09
  else none

def hex4 (a b c d : UInt8) : Option Nat :=
  match hexVal a, hexVal b, hexVal c, hexVal d with
  | some a, some b, some c, some d => some (4096 * a + 256 * b + 16 * c + d)
  | _, _, _, _ => none

/-- `parse_str` of `serde_json`, after the opening quote: a raw control character is an error. -/
def readStr : Bytes → Option (Bytes × Bytes)
  | [] => none
  | c :: r =>
    if c = 0x22 then some ([], r)
    else if c = 0x5c then
      match r with
      | [] => none
      | e :: r =>
        if e = 0x75 then
          match r with
          | x :: y :: z :: w :: r =>
            match (hex4 x y z w).bind utf8, readStr r with
            | some u, some (s, r') => some (u ++ s, r')
            | _, _ => none
          | _ => none
        else
          match unesc e, readStr r with
          | some u, some (s, r') => some (u :: s, r')
          | _, _ => none
    else if c.toNat < 0x20 then none
    else
      match readStr r with
      | some (s, r') => some (c :: s, r')
      | none => none

mutual
/-- `Deserializer::deserialize_any`, with fuel. -/
def readV : Nat → Bytes → Option (Js × Bytes)
  | 0, _ => none
  | f + 1, t =>
    match ws t with
    | [] => none
    | c :: r =>
      if c = 0x5b then
        match ws r with
        | [] => none
        | d :: r' =>
          if d = 0x5d then some (.arr [], r')
          else
            match readElems f (d :: r') with
            | some (l, r'') => some (.arr l, r'')
            | none => none
      else if c = 0x7b then
        match ws r with
        | [] => none
        | d :: r' =>
          if d = 0x7d then some (.obj [], r')
          else
            match readMembers f (d :: r') with
            | some (l, r'') => some (.obj l, r'')
            | none => none
      else if c = 0x22 then
        match readStr r with
        | some (s, r') => some (.str s, r')
        | none => none
      else if c = 0x6e then
        match r with
        | 0x75 :: 0x6c :: 0x6c :: r' => some (.null, r')
        | _ => none
      else if c = 0x74 then
        match r with
        | 0x72 :: 0x75 :: 0x65 :: r' => some (.bool true, r')
        | _ => none
      else if c = 0x66 then
        match r with
        | 0x61 :: 0x6c :: 0x73 :: 0x65 :: r' => some (.bool false, r')
        | _ => none
      else
        match readInt (c :: r) with
        | some (n, r') => some (.num n, r')
        | none => none
def readElems : Nat → Bytes → Option (List Js × Bytes)
  | 0, _ => none
  | f + 1, t =>
    match readV f t with
    | none => none
    | some (v, r) =>
      match ws r with
      | [] => none
      | d :: r' =>
        if d = 0x5d then some ([v], r')
        else if d = 0x2c then
          match readElems f r' with
          | some (l, r'') => some (v :: l, r'')
          | none => none
        else none
def readMembers : Nat → Bytes → Option (List (Bytes × Js) × Bytes)
  | 0, _ => none
  | f + 1, t =>
    match ws t with
    | [] => none
    | q :: r =>
      if q = 0x22 then
        match readStr r with
        | none => none
        | some (k, r) =>
          match ws r with
          | [] => none
          | e :: r =>
            if e = 0x3a then
              match readV f r with
              | none => none
              | some (v, r) =>
                match ws r with
                | [] => none
                | d :: r' =>
                  if d = 0x7d then some ([(k, v)], r')
                  else if d = 0x2c then
                    match readMembers f r' with
                    | some (l, r'') => some ((k, v) :: l, r'')
                    | none => none
                  else none
            else none
      else none
end

/-- `serde_json::from_reader`: one value, then nothing but blanks (`Deserializer::end`). -/
def read (t : Bytes) : Option Js :=
  match readV (2 * t.length + 2) t with
  | some (v, r) => if ws r = [] then some v else none
  | none => none

/-! ## What was written is read -/

theorem digit_toNat {n : Nat} (h : n < 10) : (digit n).toNat = 0x30 + n := by
  simp only [digit, UInt8.toNat_ofNat']
  omega

theorem isDigit_digit {n : Nat} (h : n < 10) : isDigit (digit n) = true := by
  simp only [isDigit, digit_toNat h]
  simp
  omega

theorem decF_all (f n : Nat) : ∀ c ∈ decF f n, isDigit c = true := by
  induction f generalizing n with
  | zero => simp [decF]
  | succ f ih =>
    intro c hc
    simp only [decF] at hc
    split at hc
    · rename_i h
      rw [List.mem_singleton.1 hc]
      exact isDigit_digit h
    · rcases List.mem_append.1 hc with hc | hc
      · exact ih _ _ hc
      · rw [List.mem_singleton.1 hc]
        exact isDigit_digit (by omega)

def value (a : Nat) (l : Bytes) : Nat := l.foldl (fun a c => 10 * a + (c.toNat - 0x30)) a

theorem value_decF (f n : Nat) (h : n < f) : value 0 (decF f n) = n := by
  induction f generalizing n with
  | zero => omega
  | succ f ih =>
    simp only [decF]
    split
    · rename_i h10
      simp [value, digit_toNat h10]
    · have hih := ih (n / 10) (by omega)
      simp only [value] at hih ⊢
      rw [List.foldl_append, hih]
      simp only [List.foldl_cons, List.foldl_nil, digit_toNat (show n % 10 < 10 by omega)]
      omega

theorem digits_append (l r : Bytes) (a : Nat) (hl : ∀ c ∈ l, isDigit c = true) (hr : stop r = true) :
    digits a (l ++ r) = (value a l, r) := by
  induction l generalizing a with
  | nil =>
    cases r with
    | nil => rfl
    | cons c r =>
      simp only [stop, Bool.and_eq_true, Bool.not_eq_true'] at hr
      simp [digits, hr.1, value]
  | cons c l ih =>
    simp only [List.cons_append, digits, hl c List.mem_cons_self, if_true]
    rw [ih _ (fun x hx => hl x (List.mem_cons_of_mem _ hx))]
    rfl

theorem decF_head (f n : Nat) (h : n < f) (h0 : 0 < n) :
    ∃ c l, decF f n = c :: l ∧ c ≠ 0x30 ∧ isDigit c = true := by
  induction f generalizing n with
  | zero => omega
  | succ f ih =>
    simp only [decF]
    split
    · rename_i h10
      refine ⟨_, [], rfl, ?_, isDigit_digit h10⟩
      intro hh
      have := congrArg UInt8.toNat hh
      rw [digit_toNat h10] at this
      have h48 : (0x30 : UInt8).toNat = 48 := rfl
      omega
    · obtain ⟨c, l, h1, h2, h3⟩ := ih (n / 10) (by omega) (by omega)
      exact ⟨c, l ++ [digit (n % 10)], by rw [h1]; rfl, h2, h3⟩

theorem readNat_dec (n : Nat) (r : Bytes) (hr : stop r = true) : readNat (dec n ++ r) = some (n, r) := by
  by_cases h0 : n = 0
  · subst h0
    have : dec 0 = [0x30] := by decide
    simp [this, readNat, hr]
  · obtain ⟨c, l, h1, h2, h3⟩ := decF_head (n + 1) n (by omega) (by omega)
    have hall := decF_all (n + 1) n
    have hval := value_decF (n + 1) n (by omega)
    rw [h1] at hall hval
    simp only [dec, h1, List.cons_append, readNat, if_neg h2, h3, if_true]
    rw [digits_append l r _ (fun x hx => hall x (List.mem_cons_of_mem _ hx)) hr]
    simp only [hr, if_true]
    have : value (c.toNat - 0x30) l = n := by
      rw [← hval]
      simp [value]
    rw [this]

theorem dec_head (n : Nat) : ∃ c l, dec n = c :: l ∧ isDigit c = true := by
  by_cases h0 : n = 0
  · subst h0; exact ⟨0x30, [], by decide, by decide⟩
  · obtain ⟨c, l, h1, _, h3⟩ := decF_head (n + 1) n (by omega) (by omega)
    exact ⟨c, l, h1, h3⟩

theorem readInt_show (n : Int) (r : Bytes) (hr : stop r = true) : readInt (showInt n ++ r) = some (n, r) := by
  unfold showInt
  by_cases h : n < 0
  · rw [if_pos h]
    simp only [List.cons_append, readInt, if_true, readNat_dec _ r hr]
    rw [if_neg (by omega)]
    congr 2
    omega
  · rw [if_neg h]
    obtain ⟨c, l, h1, h2⟩ := dec_head n.natAbs
    have hrd := readNat_dec n.natAbs r hr
    rw [h1] at hrd ⊢
    have hc : c ≠ 0x2d := by
      rintro rfl
      exact absurd h2 (by decide)
    simp only [List.cons_append] at hrd
    simp only [List.cons_append, readInt, if_neg hc, hrd]
    congr 2
    omega

theorem readStr_bs {e u : UInt8} (he : e ≠ 0x75) (hu : unesc e = some u) (r : Bytes) :
    readStr (0x5c :: e :: r) = (readStr r).map fun p => (u :: p.1, p.2) := by
  rw [readStr.eq_def]
  dsimp only
  rw [if_neg (by decide), if_pos rfl, if_neg he, hu]
  cases readStr r <;> rfl

theorem readStr_esc (c : UInt8) (r : Bytes) :
    readStr (esc c ++ r) = (readStr r).map fun p => (c :: p.1, p.2) := by
  have hu : ∀ n < 0x20,
      (hex4 0x30 0x30 (hexDigit (n / 16)) (hexDigit (n % 16))).bind utf8 = some [UInt8.ofNat n] := by
    decide +kernel
  unfold esc
  split
  · rename_i h; subst h
    exact readStr_bs (by decide) (by decide) r
  split
  · rename_i h; subst h
    exact readStr_bs (by decide) (by decide) r
  split
  · rename_i h; subst h
    exact readStr_bs (by decide) (by decide) r
  split
  · rename_i h; subst h
    exact readStr_bs (by decide) (by decide) r
  split
  · rename_i h; subst h
    exact readStr_bs (by decide) (by decide) r
  split
  · rename_i h; subst h
    exact readStr_bs (by decide) (by decide) r
  split
  · rename_i h; subst h
    exact readStr_bs (by decide) (by decide) r
  rename_i h1 h2 h3 h4 h5 h6 h7
  split
  · rename_i h
    have hx := hu c.toNat h
    rw [UInt8.ofNat_toNat] at hx
    simp only [List.cons_append, List.nil_append]
    rw [readStr.eq_def]
    dsimp only
    rw [if_neg (by decide), if_pos rfl, if_pos rfl, hx]
    cases readStr r <;> rfl
  · rename_i h
    simp only [List.cons_append, List.nil_append]
    rw [readStr.eq_def]
    simp [h1, h2, h]
    cases readStr r <;> rfl

theorem readStr_show (s r : Bytes) : readStr (s.flatMap esc ++ 0x22 :: r) = some (s, r) := by
  induction s with
  | nil => rw [List.flatMap_nil, List.nil_append, readStr.eq_def]; rfl
  | cons c s ih =>
    rw [List.flatMap_cons, List.append_assoc, readStr_esc, ih]
    rfl

def blank (c : UInt8) : Prop := c = 0x20 ∨ c = 0x09 ∨ c = 0x0a ∨ c = 0x0d

theorem ws_cons {c : UInt8} (h : ¬ blank c) (r : Bytes) : ws (c :: r) = c :: r := by
  simp only [ws]
  exact if_neg h

theorem not_blank_digit {c : UInt8} (h : isDigit c = true) : ¬ blank c := by
  rintro (rfl | rfl | rfl | rfl) <;> exact absurd h (by decide)

theorem ne_of_digit {c d : UInt8} (h : isDigit c = true) (hd : isDigit d = false) : c ≠ d := by
  rintro rfl
  rw [h] at hd
  cases hd

theorem showInt_head (n : Int) : ∃ c l, showInt n = c :: l ∧ (c = 0x2d ∨ isDigit c = true) := by
  unfold showInt
  split
  · exact ⟨_, _, rfl, .inl rfl⟩
  · obtain ⟨c, l, h1, h2⟩ := dec_head n.natAbs
    exact ⟨c, l, h1, .inr h2⟩

theorem write_head (v : Js) : ∃ c l, write v = c :: l ∧ ¬ blank c ∧ c ≠ 0x5d := by
  cases v with
  | null => exact ⟨_, _, rfl, by simp [blank], by decide⟩
  | bool b => cases b <;> exact ⟨_, _, rfl, by simp [blank], by decide⟩
  | num n =>
    obtain ⟨c, l, h1, h2⟩ := showInt_head n
    refine ⟨c, l, h1, ?_, ?_⟩
    · rcases h2 with rfl | h2
      · simp [blank]
      · exact not_blank_digit h2
    · rcases h2 with rfl | h2
      · decide
      · exact ne_of_digit h2 (by decide)
  | str s => exact ⟨_, _, rfl, by simp [blank], by decide⟩
  | arr l => cases l <;> exact ⟨_, _, rfl, by simp [blank], by decide⟩
  | obj l => rcases l with _ | ⟨⟨k, v⟩, l⟩ <;> exact ⟨_, _, rfl, by simp [blank], by decide⟩

mutual
/-- How much fuel reading back takes. -/
def cost : Js → Nat
  | .arr l => 1 + costL l
  | .obj l => 1 + costM l
  | .null => 1
  | .bool _ => 1
  | .num _ => 1
  | .str _ => 1
def costL : List Js → Nat
  | [] => 0
  | v :: l => 1 + cost v + costL l
def costM : List (Bytes × Js) → Nat
  | [] => 0
  | (_, v) :: l => 1 + cost v + costM l
end

mutual
theorem cost_le : (v : Js) → cost v ≤ 2 * (write v).length
  | .null => by simp [cost, write]
  | .bool b => by cases b <;> simp [cost, write]
  | .num n => by
    obtain ⟨c, l, h1, _⟩ := showInt_head n
    simp only [cost, write, h1, List.length_cons]
    omega
  | .str s => by simp only [cost, write, showStr, List.length_cons]; omega
  | .arr [] => by simp [cost, costL, write]
  | .arr (v :: l) => by
    have h1 := cost_le v
    have h2 := costL_le l
    simp only [cost, costL, write, List.length_cons, List.length_append]
    omega
  | .obj [] => by simp [cost, costM, write]
  | .obj ((k, v) :: l) => by
    have h1 := cost_le v
    have h2 := costM_le l
    simp only [cost, costM, write, List.length_cons, List.length_append]
    omega
theorem costL_le : (l : List Js) → costL l ≤ 2 * (writeElems l).length
  | [] => by simp [costL]
  | v :: l => by
    have h1 := cost_le v
    have h2 := costL_le l
    simp only [costL, writeElems, List.length_cons, List.length_append]
    omega
theorem costM_le : (l : List (Bytes × Js)) → costM l ≤ 2 * (writeMembers l).length
  | [] => by simp [costM]
  | (k, v) :: l => by
    have h1 := cost_le v
    have h2 := costM_le l
    simp only [costM, writeMembers, List.length_cons, List.length_append]
    omega
end

theorem readV_open {f : Nat} {t r : Bytes} {c : UInt8} (h : ws t = c :: r) (hc : c ≠ 0x5d) :
    readV (f + 1) (0x5b :: t) = (readElems f (c :: r)).map fun p => (.arr p.1, p.2) := by
  rw [readV]
  rw [ws_cons (by simp [blank])]
  dsimp only
  rw [if_pos rfl, h]
  dsimp only
  rw [if_neg hc]
  cases readElems f (c :: r) <;> rfl

theorem readV_openObj {f : Nat} {t r : Bytes} {c : UInt8} (h : ws t = c :: r) (hc : c ≠ 0x7d) :
    readV (f + 1) (0x7b :: t) = (readMembers f (c :: r)).map fun p => (.obj p.1, p.2) := by
  rw [readV]
  rw [ws_cons (by simp [blank])]
  dsimp only
  rw [if_neg (by decide), if_pos rfl, h]
  dsimp only
  rw [if_neg hc]
  cases readMembers f (c :: r) <;> rfl

theorem stop_elems (l : List Js) (r : Bytes) : stop (writeElems l ++ r) = true := by
  cases l <;> simp only [writeElems, List.cons_append, stop] <;> rfl

theorem stop_members (l : List (Bytes × Js)) (r : Bytes) : stop (writeMembers l ++ r) = true := by
  rcases l with _ | ⟨⟨k, v⟩, l⟩ <;> simp only [writeMembers, List.cons_append, stop] <;> rfl

mutual
theorem readV_write : (v : Js) → ∀ (f : Nat) (r : Bytes), cost v ≤ f → stop r = true →
    readV f (write v ++ r) = some (v, r)
  | .null => by
    intro f r hf hr
    obtain ⟨g, rfl⟩ : ∃ g, f = g + 1 := ⟨f - 1, by simp only [cost] at hf; omega⟩
    simp [write, readV, ws]
  | .bool b => by
    intro f r hf hr
    obtain ⟨g, rfl⟩ : ∃ g, f = g + 1 := ⟨f - 1, by simp only [cost] at hf; omega⟩
    cases b <;> simp [write, readV, ws]
  | .num n => by
    intro f r hf hr
    obtain ⟨g, rfl⟩ : ∃ g, f = g + 1 := ⟨f - 1, by simp only [cost] at hf; omega⟩
    have h := readInt_show n r hr
    obtain ⟨c, l, h1, h2⟩ := showInt_head n
    have hb : ¬ blank c := by
      rcases h2 with rfl | h2
      · simp [blank]
      · exact not_blank_digit h2
    have hne : c ≠ 0x5b ∧ c ≠ 0x7b ∧ c ≠ 0x22 ∧ c ≠ 0x6e ∧ c ≠ 0x74 ∧ c ≠ 0x66 := by
      rcases h2 with rfl | h2
      · decide
      · refine ⟨?_, ?_, ?_, ?_, ?_, ?_⟩ <;> exact ne_of_digit h2 (by decide)
    obtain ⟨a1, a2, a3, a4, a5, a6⟩ := hne
    simp only [write]
    rw [h1] at h ⊢
    simp only [List.cons_append] at h ⊢
    rw [readV, ws_cons hb]
    dsimp only
    rw [if_neg a1, if_neg a2, if_neg a3, if_neg a4, if_neg a5, if_neg a6, h]
  | .str s => by
    intro f r hf hr
    obtain ⟨g, rfl⟩ : ∃ g, f = g + 1 := ⟨f - 1, by simp only [cost] at hf; omega⟩
    simp only [write, showStr, List.cons_append, List.append_assoc, List.nil_append]
    rw [readV, ws_cons (by simp [blank])]
    dsimp only
    rw [if_neg (by decide), if_neg (by decide), if_pos rfl, readStr_show]
  | .arr [] => by
    intro f r hf hr
    obtain ⟨g, rfl⟩ : ∃ g, f = g + 1 := ⟨f - 1, by simp only [cost] at hf; omega⟩
    simp [write, readV, ws]
  | .arr (v :: l) => by
    intro f r hf hr
    obtain ⟨g, rfl⟩ : ∃ g, f = g + 1 := ⟨f - 1, by simp only [cost] at hf; omega⟩
    simp only [cost] at hf
    obtain ⟨c, t, h1, h2, h3⟩ := write_head v
    have hw : ws (write v ++ (writeElems l ++ r)) = c :: (t ++ (writeElems l ++ r)) := by
      rw [h1, List.cons_append, ws_cons h2]
    have he := readElems_write (v :: l) v l g r rfl (by omega)
    simp only [write, List.cons_append, List.append_assoc]
    rw [readV_open hw h3]
    rw [h1, List.cons_append] at he
    rw [he]
    rfl
  | .obj [] => by
    intro f r hf hr
    obtain ⟨g, rfl⟩ : ∃ g, f = g + 1 := ⟨f - 1, by simp only [cost] at hf; omega⟩
    simp [write, readV, ws]
  | .obj ((k, v) :: l) => by
    intro f r hf hr
    obtain ⟨g, rfl⟩ : ∃ g, f = g + 1 := ⟨f - 1, by simp only [cost] at hf; omega⟩
    simp only [cost] at hf
    have he := readMembers_write ((k, v) :: l) k v l g r rfl (by omega)
    simp only [write, showStr, List.cons_append, List.append_assoc] at he ⊢
    rw [readV_openObj (ws_cons (by simp [blank]) _) (by decide), he]
    rfl
theorem readElems_write : (ls : List Js) → ∀ (v : Js) (l : List Js) (f : Nat) (r : Bytes), ls = v :: l →
    costL ls ≤ f → readElems f (write v ++ (writeElems l ++ r)) = some (ls, r)
  | [] => by
    intro v l f r h
    cases h
  | v :: l => by
    intro v' l' f r h hf
    cases h
    have hv := readV_write v
    have hrec := readElems_write l
    simp only [costL] at hf
    obtain ⟨g, rfl⟩ : ∃ g, f = g + 1 := ⟨f - 1, by omega⟩
    rw [readElems, hv g _ (by omega) (stop_elems l r)]
    cases l with
    | nil => simp [writeElems, ws]
    | cons w l =>
      have he := hrec w l g r rfl (by omega)
      simp only [writeElems, List.cons_append, List.append_assoc]
      rw [ws_cons (by simp [blank])]
      simp [he]
theorem readMembers_write : (ls : List (Bytes × Js)) → ∀ (k : Bytes) (v : Js) (l : List (Bytes × Js)) (f : Nat)
    (r : Bytes), ls = (k, v) :: l → costM ls ≤ f →
    readMembers f (showStr k ++ 0x3a :: (write v ++ (writeMembers l ++ r))) = some (ls, r)
  | [] => by
    intro k v l f r h
    cases h
  | (k, v) :: l => by
    intro k' v' l' f r h hf
    cases h
    have hv := readV_write v
    have hrec := readMembers_write l
    simp only [costM] at hf
    obtain ⟨g, rfl⟩ : ∃ g, f = g + 1 := ⟨f - 1, by omega⟩
    have hv := hv g _ (by omega) (stop_members l r)
    simp only [showStr, List.cons_append, List.append_assoc, List.nil_append]
    rw [readMembers, ws_cons (by simp [blank])]
    simp only [readStr_show]
    rw [ws_cons (by simp [blank])]
    simp only [hv]
    rcases l with _ | ⟨⟨k', w⟩, l⟩
    · simp [writeMembers, ws]
    · have he := hrec k' w l g r rfl (by omega)
      simp only [showStr, List.cons_append, List.append_assoc, List.nil_append] at he
      simp only [writeMembers, showStr, List.cons_append, List.append_assoc, List.nil_append]
      rw [ws_cons (by simp [blank])]
      simp [he]
end

theorem read_write (v : Js) : read (write v) = some v := by
  have h := readV_write v (2 * (write v).length + 2) [] (by have := cost_le v; omega) rfl
  rw [List.append_nil] at h
  simp [read, h, ws]

/-! ## A text cut short is not read -/

theorem ws_append {p r : Bytes} {c : UInt8} (h : ws p = c :: r) (q : Bytes) : ws (p ++ q) = c :: (r ++ q) := by
  induction p with
  | nil => cases h
  | cons a p ih =>
    simp only [ws, List.cons_append] at h ⊢
    split at h
    · rename_i hb; rw [if_pos hb]; exact ih h
    · rename_i hb; rw [if_neg hb]; cases h; rfl

theorem stop_append {r : Bytes} (h : r ≠ []) (q : Bytes) : stop (r ++ q) = stop r := by
  cases r with
  | nil => exact absurd rfl h
  | cons c r => rfl

theorem digits_ext (p q : Bytes) (a n : Nat) (r : Bytes) (h : digits a p = (n, r)) (hr : r ≠ []) :
    digits a (p ++ q) = (n, r ++ q) := by
  induction p generalizing a with
  | nil => cases h; exact absurd rfl hr
  | cons c p ih =>
    simp only [digits, List.cons_append] at h ⊢
    split at h
    · rename_i hc; rw [if_pos hc]; exact ih _ h
    · rename_i hc; rw [if_neg hc]; cases h; rfl

theorem readNat_ext (p q : Bytes) (n : Nat) (r : Bytes) (h : readNat p = some (n, r)) (hr : r ≠ []) :
    readNat (p ++ q) = some (n, r ++ q) := by
  cases p with
  | nil => cases h
  | cons c p =>
    simp only [readNat, List.cons_append] at h ⊢
    split at h
    · rename_i hc
      rw [if_pos hc]
      split at h
      · rename_i hs
        cases h
        rw [stop_append hr, if_pos hs]
      · cases h
    · rename_i hc
      rw [if_neg hc]
      split at h
      · rename_i hd
        rw [if_pos hd]
        cases hg : digits (c.toNat - 0x30) p with
        | mk m r' =>
          rw [hg] at h
          dsimp only at h
          split at h
          · rename_i hs
            cases h
            rw [digits_ext p q _ _ _ hg hr]
            dsimp only
            rw [stop_append hr, if_pos hs]
          · cases h
      · cases h

theorem readInt_ext (p q : Bytes) (n : Int) (r : Bytes) (h : readInt p = some (n, r)) (hr : r ≠ []) :
    readInt (p ++ q) = some (n, r ++ q) := by
  cases p with
  | nil => cases h
  | cons c p =>
    simp only [readInt, List.cons_append] at h ⊢
    split at h
    · rename_i hc
      rw [if_pos hc]
      cases hg : readNat p with
      | none => rw [hg] at h; cases h
      | some x =>
        obtain ⟨m, r'⟩ := x
        rw [hg] at h
        dsimp only at h
        split at h
        · cases h
        · rename_i hm
          cases h
          rw [readNat_ext p q _ _ hg hr]
          dsimp only
          rw [if_neg hm]
    · rename_i hc
      rw [if_neg hc]
      cases hg : readNat (c :: p) with
      | none => rw [hg] at h; cases h
      | some x =>
        obtain ⟨m, r'⟩ := x
        rw [hg] at h
        cases h
        have := readNat_ext (c :: p) q _ _ hg hr
        rw [List.cons_append] at this
        rw [this]

theorem readStr_ext (p q s r : Bytes) (h : readStr p = some (s, r)) : readStr (p ++ q) = some (s, r ++ q) := by
  induction hn : p.length using Nat.strongRecOn generalizing p s r with
  | ind n ih =>
    subst hn
    rw [readStr.eq_def] at h
    cases p with
    | nil => cases h
    | cons c p =>
      rw [List.cons_append, readStr.eq_def]
      dsimp only at h ⊢
      split at h
      · rename_i hc; cases h; rw [if_pos hc]
      · rename_i hc
        rw [if_neg hc]
        split at h
        · rename_i hb
          rw [if_pos hb]
          cases p with
          | nil => cases h
          | cons e p =>
            dsimp only [List.cons_append] at h ⊢
            by_cases he : e = 0x75
            · rw [if_pos he] at h ⊢
              match p, h with
              | x :: y :: z :: w :: p, h =>
                dsimp only [List.cons_append] at h ⊢
                cases hu : (hex4 x y z w).bind utf8 with
                | none => rw [hu] at h; cases h
                | some u =>
                  rw [hu] at h
                  cases hs : readStr p with
                  | none => rw [hs] at h; cases h
                  | some v =>
                    obtain ⟨v1, v2⟩ := v
                    rw [hs] at h
                    cases h
                    rw [ih p.length (by simp only [List.length_cons]; omega) p _ _ hs rfl]
              | [], h => cases h
              | [_], h => cases h
              | [_, _], h => cases h
              | [_, _, _], h => cases h
            · rw [if_neg he] at h ⊢
              cases hu : unesc e with
              | none => rw [hu] at h; cases h
              | some u =>
                rw [hu] at h
                cases hs : readStr p with
                | none => rw [hs] at h; cases h
                | some v =>
                  obtain ⟨v1, v2⟩ := v
                  rw [hs] at h
                  cases h
                  rw [ih p.length (by simp only [List.length_cons]; omega) p _ _ hs rfl]
        · rename_i hb
          rw [if_neg hb]
          split at h
          · cases h
          · rename_i hl
            rw [if_neg hl]
            cases hs : readStr p with
            | none => rw [hs] at h; cases h
            | some v =>
              obtain ⟨v1, v2⟩ := v
              rw [hs] at h
              cases h
              rw [ih p.length (by simp only [List.length_cons]; omega) p _ _ hs rfl]

/-- Numbers are the only values whose end cannot be seen. -/
def Closed : Js → Prop
  | .num _ => False
  | _ => True

mutual
theorem readV_ext (q : Bytes) : (f : Nat) → ∀ (p : Bytes) (v : Js) (r : Bytes), readV f p = some (v, r) →
    (r ≠ [] ∨ Closed v) → readV f (p ++ q) = some (v, r ++ q)
  | 0 => by
    intro p v r h
    simp [readV] at h
  | f + 1 => by
    intro p v r h hr
    rw [readV] at h ⊢
    cases hw : ws p with
    | nil => rw [hw] at h; cases h
    | cons c t =>
      rw [hw] at h
      rw [ws_append hw q]
      dsimp only at h ⊢
      split at h
      · rename_i hc
        rw [if_pos hc]
        cases hw2 : ws t with
        | nil => rw [hw2] at h; cases h
        | cons d u =>
          rw [hw2] at h
          rw [ws_append hw2 q]
          dsimp only at h ⊢
          by_cases hd : d = 0x5d
          · rw [if_pos hd] at h ⊢
            cases h
            rfl
          · rw [if_neg hd] at h ⊢
            cases he : readElems f (d :: u) with
            | none => rw [he] at h; cases h
            | some x =>
              obtain ⟨l, r'⟩ := x
              rw [he] at h
              cases h
              have := readElems_ext q f _ _ _ he
              rw [List.cons_append] at this
              rw [this]
      · rename_i hc
        rw [if_neg hc]
        split at h
        · rename_i hc2
          rw [if_pos hc2]
          cases hw2 : ws t with
          | nil => rw [hw2] at h; cases h
          | cons d u =>
            rw [hw2] at h
            rw [ws_append hw2 q]
            dsimp only at h ⊢
            by_cases hd : d = 0x7d
            · rw [if_pos hd] at h ⊢
              cases h
              rfl
            · rw [if_neg hd] at h ⊢
              cases he : readMembers f (d :: u) with
              | none => rw [he] at h; cases h
              | some x =>
                obtain ⟨l, r'⟩ := x
                rw [he] at h
                cases h
                have := readMembers_ext q f _ _ _ he
                rw [List.cons_append] at this
                rw [this]
        · rename_i hc2
          rw [if_neg hc2]
          split at h
          · rename_i hc3
            rw [if_pos hc3]
            cases hs : readStr t with
            | none => rw [hs] at h; cases h
            | some x =>
              obtain ⟨s, r'⟩ := x
              rw [hs] at h
              cases h
              rw [readStr_ext _ q _ _ hs]
          · rename_i hc3
            rw [if_neg hc3]
            split at h
            · rename_i hc4
              rw [if_pos hc4]
              split at h
              · cases h; rfl
              · cases h
            · rename_i hc4
              rw [if_neg hc4]
              split at h
              · rename_i hc5
                rw [if_pos hc5]
                split at h
                · cases h; rfl
                · cases h
              · rename_i hc5
                rw [if_neg hc5]
                split at h
                · rename_i hc6
                  rw [if_pos hc6]
                  split at h
                  · cases h; rfl
                  · cases h
                · rename_i hc6
                  rw [if_neg hc6]
                  cases hi : readInt (c :: t) with
                  | none => rw [hi] at h; cases h
                  | some x =>
                    obtain ⟨n, r'⟩ := x
                    rw [hi] at h
                    cases h
                    have hr' : r ≠ [] := by
                      rcases hr with hr | hr
                      · exact hr
                      · exact hr.elim
                    have := readInt_ext _ q _ _ hi hr'
                    rw [List.cons_append] at this
                    rw [this]
theorem readElems_ext (q : Bytes) : (f : Nat) → ∀ (p : Bytes) (l : List Js) (r : Bytes), readElems f p = some (l, r) →
    readElems f (p ++ q) = some (l, r ++ q)
  | 0 => by
    intro p l r h
    simp [readElems] at h
  | f + 1 => by
    intro p l r h
    rw [readElems] at h ⊢
    cases hv : readV f p with
    | none => rw [hv] at h; cases h
    | some x =>
      obtain ⟨v, t⟩ := x
      rw [hv] at h
      dsimp only at h
      have ht : t ≠ [] := by
        rintro rfl
        simp [ws] at h
      rw [readV_ext q f p v t hv (.inl ht)]
      dsimp only
      cases hw : ws t with
      | nil => rw [hw] at h; cases h
      | cons d u =>
        rw [hw] at h
        rw [ws_append hw q]
        dsimp only at h ⊢
        by_cases hd : d = 0x5d
        · rw [if_pos hd] at h ⊢; cases h; rfl
        · rw [if_neg hd] at h ⊢
          split at h
          · rename_i hd2
            rw [if_pos hd2]
            cases he : readElems f u with
            | none => simp only [he] at h; cases h
            | some y =>
              obtain ⟨l', r'⟩ := y
              have := readElems_ext q f u _ _ he
              simp only [he] at h
              simp only [this]
              cases h
              rfl
          · cases h
theorem readMembers_ext (q : Bytes) : (f : Nat) → ∀ (p : Bytes) (l : List (Bytes × Js)) (r : Bytes),
    readMembers f p = some (l, r) → readMembers f (p ++ q) = some (l, r ++ q)
  | 0 => by
    intro p l r h
    simp [readMembers] at h
  | f + 1 => by
    intro p l r h
    rw [readMembers] at h ⊢
    cases hw0 : ws p with
    | nil => rw [hw0] at h; cases h
    | cons c p' =>
      rw [hw0] at h
      rw [ws_append hw0 q]
      dsimp only at h ⊢
      split at h
      · rename_i hc
        rw [if_pos hc]
        cases hs : readStr p' with
        | none => simp only [hs] at h; cases h
        | some x =>
          obtain ⟨k, t⟩ := x
          simp only [hs] at h
          simp only [readStr_ext _ q _ _ hs]
          cases hw1 : ws t with
          | nil => rw [hw1] at h; cases h
          | cons c1 t1 =>
            rw [hw1] at h
            rw [ws_append hw1 q]
            dsimp only at h ⊢
            split at h
            · rename_i hc1
              rw [if_pos hc1]
              cases hv : readV f t1 with
              | none => simp only [hv] at h; cases h
              | some x =>
                obtain ⟨v, t2⟩ := x
                simp only [hv] at h
                have ht : t2 ≠ [] := by
                  rintro rfl
                  simp [ws] at h
                simp only [readV_ext q f t1 v t2 hv (.inl ht)]
                cases hw : ws t2 with
                | nil => rw [hw] at h; cases h
                | cons d u =>
                  rw [hw] at h
                  rw [ws_append hw q]
                  dsimp only at h ⊢
                  by_cases hd : d = 0x7d
                  · rw [if_pos hd] at h ⊢; cases h; rfl
                  · rw [if_neg hd] at h ⊢
                    split at h
                    · rename_i hd2
                      rw [if_pos hd2]
                      cases he : readMembers f u with
                      | none => simp only [he] at h; cases h
                      | some y =>
                        obtain ⟨l', r'⟩ := y
                        have := readMembers_ext q f u _ _ he
                        simp only [he] at h
                        simp only [this]
                        cases h
                        rfl
                    · cases h
            · cases h
      · cases h
end

mutual
theorem readV_mono : (f : Nat) → ∀ (g : Nat) (p : Bytes) (x : Js × Bytes), f ≤ g → readV f p = some x →
    readV g p = some x
  | 0 => by
    intro g p x _ h
    simp [readV] at h
  | f + 1 => by
    intro g p x hg h
    obtain ⟨g, rfl⟩ : ∃ k, g = k + 1 := ⟨g - 1, by omega⟩
    have hE := readElems_mono f g
    have hM := readMembers_mono f g
    rw [readV] at h ⊢
    cases hw : ws p with
    | nil => rw [hw] at h; cases h
    | cons c t =>
      rw [hw] at h
      dsimp only at h ⊢
      split at h
      · rename_i hc
        rw [if_pos hc]
        cases hw2 : ws t with
        | nil => rw [hw2] at h; cases h
        | cons d u =>
          rw [hw2] at h
          dsimp only at h ⊢
          split at h
          · rename_i hd; rw [if_pos hd]; exact h
          · rename_i hd
            rw [if_neg hd]
            cases he : readElems f (d :: u) with
            | none => rw [he] at h; cases h
            | some y => rw [he] at h; rw [hE _ _ (by omega) he]; exact h
      · rename_i hc
        rw [if_neg hc]
        split at h
        · rename_i hc2
          rw [if_pos hc2]
          cases hw2 : ws t with
          | nil => rw [hw2] at h; cases h
          | cons d u =>
            rw [hw2] at h
            dsimp only at h ⊢
            split at h
            · rename_i hd; rw [if_pos hd]; exact h
            · rename_i hd
              rw [if_neg hd]
              cases he : readMembers f (d :: u) with
              | none => rw [he] at h; cases h
              | some y => rw [he] at h; rw [hM _ _ (by omega) he]; exact h
        · rename_i hc2
          rw [if_neg hc2]
          exact h
theorem readElems_mono : (f : Nat) → ∀ (g : Nat) (p : Bytes) (x : List Js × Bytes), f ≤ g → readElems f p = some x →
    readElems g p = some x
  | 0 => by
    intro g p x _ h
    simp [readElems] at h
  | f + 1 => by
    intro g p x hg h
    obtain ⟨g, rfl⟩ : ∃ k, g = k + 1 := ⟨g - 1, by omega⟩
    have hV := readV_mono f g
    have hE := readElems_mono f g
    rw [readElems] at h ⊢
    cases hv : readV f p with
    | none => rw [hv] at h; cases h
    | some y =>
      obtain ⟨v, t⟩ := y
      rw [hv] at h
      rw [hV _ _ (by omega) hv]
      dsimp only at h ⊢
      cases hw : ws t with
      | nil => rw [hw] at h; cases h
      | cons d u =>
        rw [hw] at h
        dsimp only at h ⊢
        split at h
        · rename_i hd; rw [if_pos hd]; exact h
        · rename_i hd
          rw [if_neg hd]
          split at h
          · rename_i hd2
            rw [if_pos hd2]
            cases he : readElems f u with
            | none => rw [he] at h; cases h
            | some y => rw [he] at h; rw [hE _ _ (by omega) he]; exact h
          · cases h
theorem readMembers_mono : (f : Nat) → ∀ (g : Nat) (p : Bytes) (x : List (Bytes × Js) × Bytes), f ≤ g →
    readMembers f p = some x → readMembers g p = some x
  | 0 => by
    intro g p x _ h
    simp [readMembers] at h
  | f + 1 => by
    intro g p x hg h
    obtain ⟨g, rfl⟩ : ∃ k, g = k + 1 := ⟨g - 1, by omega⟩
    have hV := readV_mono f g
    have hM := readMembers_mono f g
    rw [readMembers] at h ⊢
    cases hw0 : ws p with
    | nil => rw [hw0] at h; cases h
    | cons c p' =>
      rw [hw0] at h
      dsimp only at h ⊢
      split at h
      · rename_i hc
        rw [if_pos hc]
        cases hs : readStr p' with
        | none => rw [hs] at h; cases h
        | some y =>
          obtain ⟨k, t⟩ := y
          rw [hs] at h
          dsimp only at h ⊢
          cases hw1 : ws t with
          | nil => rw [hw1] at h; cases h
          | cons c1 t1 =>
            rw [hw1] at h
            dsimp only at h ⊢
            split at h
            · rename_i hc1
              rw [if_pos hc1]
              cases hv : readV f t1 with
              | none => rw [hv] at h; cases h
              | some y =>
                obtain ⟨v, t2⟩ := y
                rw [hv] at h
                rw [hV _ _ (by omega) hv]
                dsimp only at h ⊢
                cases hw : ws t2 with
                | nil => rw [hw] at h; cases h
                | cons d u =>
                  rw [hw] at h
                  dsimp only at h ⊢
                  split at h
                  · rename_i hd; rw [if_pos hd]; exact h
                  · rename_i hd
                    rw [if_neg hd]
                    split at h
                    · rename_i hd2
                      rw [if_pos hd2]
                      cases he : readMembers f u with
                      | none => rw [he] at h; cases h
                      | some y => rw [he] at h; rw [hM _ _ (by omega) he]; exact h
                    · cases h
            · cases h
      · cases h
end

/-- Of the text of an array no proper beginning can be read. -/
theorem read_cut (l : List Js) (k : Nat) (hk : k < (write (.arr l)).length) :
    read ((write (.arr l)).take k) = none := by
  cases hr : read ((write (.arr l)).take k) with
  | none => rfl
  | some v =>
    exfalso
    generalize hp : (write (.arr l)).take k = p at hr
    generalize hq : (write (.arr l)).drop k = q
    have hpq : p ++ q = write (.arr l) := by rw [← hp, ← hq]; exact List.take_append_drop _ _
    have hqne : q ≠ [] := by
      intro h
      rw [h, List.drop_eq_nil_iff] at hq
      omega
    unfold read at hr
    cases hv : readV (2 * p.length + 2) p with
    | none => rw [hv] at hr; cases hr
    | some x =>
      obtain ⟨w, r⟩ := x
      have hcl : Closed w := by
        cases p with
        | nil => simp [readV, ws] at hv
        | cons c t =>
          have hc : c = 0x5b := by
            rw [List.cons_append] at hpq
            cases l with
            | nil => simp only [write] at hpq; exact (List.cons.inj hpq).1
            | cons a l => simp only [write] at hpq; exact (List.cons.inj hpq).1
          subst hc
          rw [readV, ws_cons (by simp [blank])] at hv
          dsimp only at hv
          rw [if_pos rfl] at hv
          cases hw : ws t with
          | nil => rw [hw] at hv; cases hv
          | cons d u =>
            rw [hw] at hv
            dsimp only at hv
            split at hv
            · cases hv; trivial
            · cases he : readElems (2 * (0x5b :: t).length + 1) (d :: u) with
              | none => rw [he] at hv; cases hv
              | some y => rw [he] at hv; cases hv; trivial
      have h1 := readV_ext q _ p w r hv (.inr hcl)
      rw [hpq] at h1
      have h2 := readV_write (.arr l) (2 * (write (.arr l)).length + 2) []
        (by have := cost_le (.arr l); omega) rfl
      rw [List.append_nil] at h2
      have hlen : p.length ≤ (write (.arr l)).length := by rw [← hpq]; simp
      have h3 := readV_mono _ (2 * (write (.arr l)).length + 2) _ _ (by omega) h1
      rw [h2] at h3
      have h4 : [] = r ++ q := (Prod.mk.inj (Option.some.inj h3)).2
      exact hqne (List.append_eq_nil_iff.1 h4.symm).2

end Axon.JsonText
