import Verif.Codec.Molecule
import Verif.Util.Outcome

/-!
# Signing CKB transactions

`TransactionCompletionResponse::sign` (`protocol/src/types/ckb_client.rs:27-99`): a service prepares a transaction and
says which witnesses are to be signed; the node signs each of them and puts the signature into its lock.

The transaction is its packed raw part and its witnesses.  Parameters: the hash `B` (`ckb_hash`) and the function of
the key that signs a hash.  The accessors and builders are those that `molecule` generates (`ckb_types::packed`, a
dependency), on the bytes, with the places where they abort.  The conversions from and to JSON are not modelled.
-/

namespace Axon.CkbSign
open Axon.Mol

/-- `packed::Transaction`: `RawTransaction` as bytes, and the witnesses. -/
structure Tx where
  raw : Bytes
  witnesses : List Bytes
deriving DecidableEq

/-- `SignatureAction`, `ckb_client.rs:102-114`; algorithm and address are not read by `sign`. -/
structure Action where
  index : Nat
  offset : Nat
  others : List Nat

/-! ## Accessors -/

/-- `unpack_number(&slice[i..])` -/
def numberAt (t : Bytes) (i : Nat) : Outcome Nat := if i + 4 ≤ t.length then .ok (number t i) else .panic

/-- `slice(s..e)` -/
def cut (t : Bytes) (s e : Nat) : Outcome Bytes :=
  if s ≤ e ∧ e ≤ t.length then .ok ((t.drop s).take (e - s)) else .panic

/-- `field_count` of a table, `item_count` of a vector. -/
def count (t : Bytes) : Outcome Nat :=
  (numberAt t 0).bind fun total =>
    if total = 4 then .ok 0
    else (numberAt t 4).bind fun n => if n / 4 = 0 then .panic else .ok (n / 4 - 1)

/-- Field or item `i`, which is the last one or not. -/
def item (last : Bool) (t : Bytes) (i : Nat) : Outcome Bytes :=
  (numberAt t (4 * (i + 1))).bind fun s =>
    if last then cut t s t.length else (numberAt t (4 * (i + 2))).bind fun e => cut t s e

/-- `BytesVec::get_unchecked`; the number of items less one is computed, which aborts when there is none. -/
def vecGet (t : Bytes) (i : Nat) : Outcome Bytes :=
  (count t).bind fun n => if n = 0 then .panic else item (decide (i = n - 1)) t i

/-- `packed::Bytes::raw_data` -/
def rawBytes (b : Bytes) : Outcome Bytes := cut b 4 b.length

/-- The fields of `WitnessArgs` as `as_builder` reads them: lock, input type, output type. -/
def witnessFields (w : Bytes) : Outcome (Bytes × Bytes × Bytes) :=
  (item false w 0).bind fun l =>
  (item false w 1).bind fun i =>
  (count w).bind fun n =>
  (item (decide (n = 3)) w 2).bind fun o => .ok (l, i, o)

/-- `packed::BytesVec` of the witnesses. -/
def packWitnesses (ws : List Bytes) : Bytes := table (ws.map bytesVec)

/-! ## Signing -/

variable (B : Bytes → H256) (sig : H256 → Bytes)

/-- The witness at an index, `ckb_client.rs:34-37, 95` -/
def witnessAt (ws : Bytes) (i : Nat) : Outcome Bytes := (vecGet ws i).bind rawBytes

/-- A list of witnesses, `ckb_client.rs:94-96` -/
def witnessesAt (ws : Bytes) : List Nat → Outcome (List Bytes)
  | [] => .ok []
  | i :: l => (witnessAt ws i).bind fun w => (witnessesAt ws l).bind fun r => .ok (w :: r)

/-- What is fed to the hash for a witness: its length in 8 bytes and its bytes, `ckb_client.rs:51-57` -/
def fed (w : Bytes) : Bytes := le 8 w.length ++ w

/-- The string hashed for a group, `ckb_client.rs:46-60` -/
def message (raw : Bytes) (w : Bytes) (group : List Bytes) : Bytes :=
  (B raw).bytes ++ fed w ++ (group.drop 1).flatMap fed

/-- The witness with a signature in its lock, `ckb_client.rs:66-70` -/
def withLock (w s : Bytes) : Outcome Bytes :=
  (witnessFields w).bind fun f => .ok (table [bytesVec s, f.2.1, f.2.2])

/-- One group, `ckb_client.rs:45-73`: the index of its first witness and the new witness. -/
def signGroup (raw ws : Bytes) (a : Action) : Outcome (Nat × Bytes) :=
  (witnessAt ws a.index).bind fun w =>
  (witnessesAt ws a.others).bind fun os =>
  (withLock w (sig (B (message B raw w (w :: os))))).bind fun w' => .ok (a.index, w')

def signGroups (raw ws : Bytes) : List Action → Outcome (List (Nat × Bytes))
  | [] => .ok []
  | a :: l => (signGroup B sig raw ws a).bind fun x => (signGroups raw ws l).bind fun r => .ok (x :: r)

/-- `BytesVecBuilder::replace` for each new witness, `ckb_client.rs:75-79`; an index out of range is ignored. -/
def replaceAll (ws : List Bytes) (l : List (Nat × Bytes)) : List Bytes := l.foldl (fun ws x => ws.set x.1 x.2) ws

/-- `sign`, `ckb_client.rs:27-84` -/
def sign (tx : Tx) (as : List Action) : Outcome Tx :=
  (signGroups B sig tx.raw (packWitnesses tx.witnesses) as).bind fun l =>
    .ok { tx with witnesses := replaceAll tx.witnesses l }

/-! ## Lemmas -/

theorem total_table {fs : List Bytes} (h : (table fs).length < 2 ^ 32) : number (table fs) 0 = (table fs).length := by
  have hlen := table_length fs
  have : (table fs).take 4 = le 4 (4 * (fs.length + 1) + fs.flatten.length) := by
    unfold table
    rw [List.append_assoc, List.take_left' (le_length _ _)]
  unfold number
  rw [List.drop_zero, this, hlen]
  apply leNat_le
  show _ < 2 ^ 32
  omega

theorem count_of {t : Bytes} {m n : Nat} (h0 : numberAt t 0 = .ok m) (hm : m ≠ 4) (h1 : numberAt t 4 = .ok (4 * (n + 1))) :
    count t = .ok n := by
  unfold count
  rw [h0, h1]
  show (if m = 4 then _ else if 4 * (n + 1) / 4 = 0 then _ else _) = _
  rw [if_neg hm, Nat.mul_div_cancel_left _ (by decide), if_neg (by omega), Nat.add_sub_cancel]

theorem numberAt_of {t : Bytes} {i n : Nat} (h : i + 4 ≤ t.length) (e : number t i = n) : numberAt t i = .ok n := by
  unfold numberAt
  rw [if_pos h, e]

theorem count_table {fs : List Bytes} (h : (table fs).length < 2 ^ 32) (hne : fs ≠ []) :
    count (table fs) = .ok fs.length := by
  have hl : 0 < fs.length := List.length_pos_iff.2 hne
  have hlen := table_length fs
  have e := number_table fs 0 hl h
  have e' : number (table fs) 4 = 4 * (fs.length + 1) := by
    rw [show (4:Nat) = 4 * (0 + 1) from rfl]
    rw [e]
    simp
  have e0 := total_table h
  have a : 4 < (table fs).length := by omega
  exact count_of (numberAt_of (by omega) e0) (by omega) (numberAt_of (by omega) e')

theorem item_table {fs : List Bytes} (h : (table fs).length < 2 ^ 32) {i : Nat} (hi : i < fs.length) :
    item (decide (i + 1 = fs.length)) (table fs) i = .ok fs[i] := by
  have hlen := table_length fs
  have hs := number_table fs i hi h
  have hf := field_table fs i hi h
  have ht := flatten_take_le fs i
  unfold field at hf
  simp only [hs] at hf
  unfold item
  have h1 : numberAt (table fs) (4 * (i + 1)) = .ok (4 * (fs.length + 1) + (fs.take i).flatten.length) := by
    unfold numberAt
    rw [if_pos (by omega), hs]
  simp only [h1, Outcome.bind]
  by_cases hl : i + 1 = fs.length
  · rw [if_pos hl] at hf
    simp only [hl, decide_true, if_true]
    unfold cut
    rw [if_pos (by omega), hf, List.take_of_length_le]
    rw [← hf, List.length_drop]
    omega
  · rw [if_neg hl] at hf
    simp only [hl, decide_false, Bool.false_eq_true, if_false]
    have e2 : 4 * (i + 2) = 4 * (i + 1 + 1) := by omega
    have hs2 := number_table fs (i + 1) (by omega) h
    have ht2 := flatten_take_le fs (i + 1)
    have hm : (fs.take i).flatten.length ≤ (fs.take (i + 1)).flatten.length := by
      rw [List.take_succ_eq_append_getElem hi, List.flatten_append, List.length_append]
      omega
    have h2 : numberAt (table fs) (4 * (i + 2)) = .ok (4 * (fs.length + 1) + (fs.take (i + 1)).flatten.length) := by
      unfold numberAt
      rw [if_pos (by omega), e2, hs2]
    simp only [h2]
    unfold cut
    rw [if_pos (by omega)]
    rw [e2, hs2] at hf
    rw [hf]

theorem item_get {fs : List Bytes} (h : (table fs).length < 2 ^ 32) {i : Nat} {w : Bytes} {last : Bool}
    (hi : fs[i]? = some w) (hb : last = decide (i + 1 = fs.length)) : item last (table fs) i = .ok w := by
  obtain ⟨hlt, rfl⟩ := List.getElem?_eq_some_iff.1 hi
  rw [hb]
  exact item_table h hlt

theorem bind_ok {α β : Type} (a : α) (f : α → Outcome β) : (Outcome.ok a).bind f = f a := rfl

theorem witnessFields_of {t l i o : Bytes} (h0 : item false t 0 = .ok l) (h1 : item false t 1 = .ok i)
    (hc : count t = .ok 3) (h2 : item true t 2 = .ok o) : witnessFields t = .ok (l, i, o) := by
  unfold witnessFields
  rw [h0, bind_ok, h1, bind_ok, hc, bind_ok, decide_eq_true rfl, h2, bind_ok]

theorem witnessFields_table {l i o : Bytes} (h : (table [l, i, o]).length < 2 ^ 32) :
    witnessFields (table [l, i, o]) = .ok (l, i, o) :=
  witnessFields_of (item_get h rfl rfl) (item_get h rfl rfl) (count_table h (by simp)) (item_get h rfl rfl)

theorem witnessAt_of {t w : Bytes} {n i : Nat} (hc : count t = .ok n) (hn : n ≠ 0)
    (hi : item (decide (i = n - 1)) t i = .ok (bytesVec w)) : witnessAt t i = .ok w := by
  unfold witnessAt vecGet
  rw [hc, bind_ok, if_neg hn, hi, bind_ok]
  unfold rawBytes cut bytesVec
  rw [if_pos (by simp [le_length])]
  congr 1
  rw [List.drop_left' (le_length _ _)]
  exact List.take_of_length_le (by simp)

theorem witnessAt_get {ws : List Bytes} (h : (packWitnesses ws).length < 2 ^ 32) {i : Nat} {w : Bytes}
    (hi : ws[i]? = some w) : witnessAt (packWitnesses ws) i = .ok w := by
  have hlt := (List.getElem?_eq_some_iff.1 hi).1
  have hne : ws.map bytesVec ≠ [] := by
    intro e
    have := congrArg List.length e
    rw [List.length_map, List.length_nil] at this
    omega
  have hc := count_table h hne
  rw [List.length_map] at hc
  refine witnessAt_of hc (by omega) (item_get h (by rw [List.getElem?_map, hi]; rfl) ?_)
  rw [List.length_map]
  by_cases e : i + 1 = ws.length
  · rw [decide_eq_true e, decide_eq_true (by omega)]
  · rw [decide_eq_false e, decide_eq_false (by omega)]

theorem witnessesAt_get {ws : List Bytes} (h : (packWitnesses ws).length < 2 ^ 32) : ∀ {is : List Nat} {os : List Bytes},
    is.map (fun i => ws[i]?) = os.map some → witnessesAt (packWitnesses ws) is = .ok os
  | [], os, e => by
    cases os with
    | nil => rfl
    | cons _ _ => simp at e
  | i :: is, os, e => by
    cases os with
    | nil => simp at e
    | cons w os =>
      simp only [List.map_cons, List.cons.injEq] at e
      unfold witnessesAt
      rw [witnessAt_get h e.1, bind_ok, witnessesAt_get h e.2, bind_ok]

variable {B sig}

theorem signGroup_get {tx : Tx} (h : (packWitnesses tx.witnesses).length < 2 ^ 32) {a : Action} {l i o : Bytes}
    {os : List Bytes} (h1 : tx.witnesses[a.index]? = some (table [l, i, o])) (hs : (table [l, i, o]).length < 2 ^ 32)
    (h2 : a.others.map (fun i => tx.witnesses[i]?) = os.map some) :
    signGroup B sig tx.raw (packWitnesses tx.witnesses) a = .ok (a.index,
      table [bytesVec (sig (B ((B tx.raw).bytes ++ fed (table [l, i, o]) ++ os.flatMap fed))), i, o]) := by
  unfold signGroup
  rw [witnessAt_get h h1, bind_ok, witnessesAt_get h h2, bind_ok]
  unfold withLock
  rw [witnessFields_table hs]
  rfl

theorem signGroups_all {raw ws : Bytes} {f : Action → Nat × Bytes} : ∀ {as : List Action},
    (∀ a ∈ as, signGroup B sig raw ws a = .ok (f a)) → signGroups B sig raw ws as = .ok (as.map f)
  | [], _ => rfl
  | a :: as, h => by
    simp only [signGroups, h a (by simp), signGroups_all (as := as) (fun b hb => h b (by simp [hb])), Outcome.bind,
      List.map_cons]

theorem replaceAll_length (l : List (Nat × Bytes)) : ∀ ws, (replaceAll ws l).length = ws.length := by
  induction l with
  | nil => intro ws; rfl
  | cons x l ih => intro ws; exact (ih (ws.set x.1 x.2)).trans (by simp)

theorem replaceAll_other {l : List (Nat × Bytes)} {i : Nat} : ∀ {ws : List Bytes}, i ∉ l.map (·.1) →
    (replaceAll ws l)[i]? = ws[i]? := by
  induction l with
  | nil => intro ws _; rfl
  | cons x l ih =>
    intro ws h
    simp only [List.map_cons, List.mem_cons, not_or] at h
    have := ih (ws := ws.set x.1 x.2) h.2
    rw [List.getElem?_set_ne (fun e => h.1 e.symm)] at this
    exact this

theorem replaceAll_last {pre post : List (Nat × Bytes)} {x : Nat × Bytes} {ws : List Bytes} (hlt : x.1 < ws.length)
    (h : x.1 ∉ post.map (·.1)) : (replaceAll ws (pre ++ x :: post))[x.1]? = some x.2 := by
  have e : replaceAll ws (pre ++ x :: post) = replaceAll ((replaceAll ws pre).set x.1 x.2) post := by
    simp [replaceAll, List.foldl_append]
  rw [e, replaceAll_other h]
  rw [List.getElem?_set_self (by rw [replaceAll_length]; exact hlt)]

end Axon.CkbSign
