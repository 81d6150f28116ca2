import Verif.Storage.Store

/-! Helper lemmas for the storage theorems. -/

namespace Axon.Storage
open Axon.Block (Block Header Proof encodeHeader)

/-! ### Specification: last saved value of a key -/

/-- The value of a key according to a list of modifications: what the last modification that
concerns the key says.  `says e = some (some v)`: sets it to `v`; `some none`: deletes it;
`none`: does not concern it. -/
def saved {V : Type} (says : Entry → Option (Option V)) (es : List Entry) : Option V :=
  (es.reverse.findSome? says).join

def blockSays (n : Nat) : Entry → Option (Option Block)
  | .block m b => if m = n then some (some b) else none
  | .delBlock m => if m = n then some none else none
  | _ => none

def headerSays (n : Nat) : Entry → Option (Option Header)
  | .header m x => if m = n then some (some x) else none
  | _ => none

def numSays (h : H256) : Entry → Option (Option Nat)
  | .num k n => if k = h then some (some n) else none
  | _ => none

def txSays (n : Nat) (h : H256) : Entry → Option (Option Stx)
  | .tx m k t => if m = n ∧ k = h then some (some t) else none
  | _ => none

def receiptSays (n : Nat) (h : H256) : Entry → Option (Option Rcpt)
  | .receipt m k t => if m = n ∧ k = h then some (some t) else none
  | _ => none

def latestSays : Entry → Option (Option Block)
  | .latest b => some (some b)
  | _ => none

def proofSays : Entry → Option (Option Proof)
  | .proof p => some (some p)
  | _ => none

theorem saved_snoc {V : Type} (says : Entry → Option (Option V)) (es : List Entry) (e : Entry) :
    saved says (es ++ [e]) = match says e with
      | some v => v
      | none => saved says es := by
  unfold saved
  rw [List.reverse_append, List.reverse_singleton, List.singleton_append, List.findSome?_cons]
  split <;> simp_all

theorem saved_nil {V : Type} (says : Entry → Option (Option V)) : saved says [] = none := rfl

theorem saved_mem {V : Type} {says : Entry → Option (Option V)} {es : List Entry} {v : V}
    (h : saved says es = some v) : ∃ e ∈ es, says e = some (some v) := by
  unfold saved at h
  rw [Option.join_eq_some_iff] at h
  obtain ⟨e, he, hs⟩ := List.exists_of_findSome?_eq_some h
  exact ⟨e, by simpa using he, hs⟩

/-- If every modification of a key sets it to `v` and there is one, the saved value is `v`. -/
theorem saved_eq_of_unique {V : Type} {says : Entry → Option (Option V)} {es : List Entry} {v : V}
    (hu : ∀ e ∈ es, ∀ w, says e = some w → w = some v) (hm : ∃ e ∈ es, (says e).isSome) :
    saved says es = some v := by
  induction es using snoc_induction with
  | nil => obtain ⟨e, he, -⟩ := hm; simp at he
  | snoc es e ih =>
    rw [saved_snoc]
    cases hs : says e with
    | some w => exact hu e (by simp) w hs
    | none =>
      refine ih (fun e' he' => hu e' (by simp [he'])) ?_
      obtain ⟨e', he', hs'⟩ := hm
      rw [List.mem_append, List.mem_singleton] at he'
      rcases he' with he' | rfl
      · exact ⟨e', he', hs'⟩
      · simp [hs] at hs'

theorem db_block (es : List Entry) (n : Nat) :
    (es.foldl Db.apply Db.empty).block n = saved (blockSays n) es := by
  induction es using snoc_induction with
  | nil => rfl
  | snoc es e ih =>
    rw [List.foldl_append, saved_snoc, ← ih]
    cases e <;> simp only [List.foldl_cons, List.foldl_nil, Db.apply, blockSays, upd]
    · by_cases h : n = ‹Nat› <;> simp [h, eq_comm]
    · by_cases h : n = ‹Nat› <;> simp [h, eq_comm]

theorem db_header (es : List Entry) (n : Nat) :
    (es.foldl Db.apply Db.empty).header n = saved (headerSays n) es := by
  induction es using snoc_induction with
  | nil => rfl
  | snoc es e ih =>
    rw [List.foldl_append, saved_snoc, ← ih]
    cases e <;> simp only [List.foldl_cons, List.foldl_nil, Db.apply, headerSays, upd]
    by_cases h : n = ‹Nat› <;> simp [h, eq_comm]

theorem db_num (es : List Entry) (k : H256) :
    (es.foldl Db.apply Db.empty).num k = saved (numSays k) es := by
  induction es using snoc_induction with
  | nil => rfl
  | snoc es e ih =>
    rw [List.foldl_append, saved_snoc, ← ih]
    cases e <;> simp only [List.foldl_cons, List.foldl_nil, Db.apply, numSays, upd]
    by_cases h : k = ‹H256› <;> simp [h, eq_comm]

theorem db_tx (es : List Entry) (m : Nat) (k : H256) :
    (es.foldl Db.apply Db.empty).tx (m, k) = saved (txSays m k) es := by
  induction es using snoc_induction with
  | nil => rfl
  | snoc es e ih =>
    rw [List.foldl_append, saved_snoc, ← ih]
    cases e <;> simp only [List.foldl_cons, List.foldl_nil, Db.apply, txSays, upd]
    rename_i a b c
    by_cases h : m = a ∧ k = b
    · obtain ⟨rfl, rfl⟩ := h; simp
    · rw [if_neg (by simpa using h), if_neg (by rintro ⟨rfl, rfl⟩; simp at h)]

theorem db_receipt (es : List Entry) (m : Nat) (k : H256) :
    (es.foldl Db.apply Db.empty).receipt (m, k) = saved (receiptSays m k) es := by
  induction es using snoc_induction with
  | nil => rfl
  | snoc es e ih =>
    rw [List.foldl_append, saved_snoc, ← ih]
    cases e <;> simp only [List.foldl_cons, List.foldl_nil, Db.apply, receiptSays, upd]
    rename_i a b c
    by_cases h : m = a ∧ k = b
    · obtain ⟨rfl, rfl⟩ := h; simp
    · rw [if_neg (by simpa using h), if_neg (by rintro ⟨rfl, rfl⟩; simp at h)]

theorem db_latest (es : List Entry) :
    (es.foldl Db.apply Db.empty).latest = saved latestSays es := by
  induction es using snoc_induction with
  | nil => rfl
  | snoc es e ih =>
    rw [List.foldl_append, saved_snoc, ← ih]
    cases e <;> simp [Db.apply, latestSays]

theorem db_proof (es : List Entry) :
    (es.foldl Db.apply Db.empty).proof = saved proofSays es := by
  induction es using snoc_induction with
  | nil => rfl
  | snoc es e ih =>
    rw [List.foldl_append, saved_snoc, ← ih]
    cases e <;> simp [Db.apply, proofSays]

theorem blockSays_some {n : Nat} {e : Entry} {b : Block} (h : blockSays n e = some (some b)) :
    e = .block n b := by
  unfold blockSays at h
  repeat' split at h
  all_goals simp_all

theorem headerSays_some {n : Nat} {e : Entry} {b : Header} (h : headerSays n e = some (some b)) :
    e = .header n b := by
  unfold headerSays at h
  repeat' split at h
  all_goals simp_all

theorem numSays_some {n : H256} {e : Entry} {b : Nat} (h : numSays n e = some (some b)) :
    e = .num n b := by
  unfold numSays at h
  repeat' split at h
  all_goals simp_all

theorem txSays_some {n : Nat} {k : H256} {e : Entry} {b : Stx}
    (h : txSays n k e = some (some b)) : e = .tx n k b := by
  unfold txSays at h
  repeat' split at h
  all_goals simp_all

theorem receiptSays_some {n : Nat} {k : H256} {e : Entry} {b : Rcpt}
    (h : receiptSays n k e = some (some b)) : e = .receipt n k b := by
  unfold receiptSays at h
  repeat' split at h
  all_goals simp_all

/-! ### Caches contain only what was saved under the key -/

/-- Every cached or stored value was saved under its key. -/
structure Sound (es : List Entry) (s : St) : Prop where
  db : s.db = es.foldl Db.apply Db.empty
  blocks : ∀ n b, s.cache.blocks n = some b → .block n b ∈ es
  headers : ∀ n x, s.cache.headers n = some x → .header n x ∈ es
  numbers : ∀ h n, s.cache.numbers h = some n → .num h n ∈ es
  txs : ∀ h t, s.cache.txs h = some t → ∃ n, .num h n ∈ es ∧ .tx n h t ∈ es
  receipts : ∀ h t, s.cache.receipts h = some t → ∃ n, .num h n ∈ es ∧ .receipt n h t ∈ es

theorem Sound.db_block_mem {es : List Entry} {s : St} (hs : Sound es s) {n : Nat} {b : Block}
    (h : s.db.block n = some b) : .block n b ∈ es := by
  rw [hs.db, db_block] at h
  obtain ⟨e, he, hx⟩ := saved_mem h
  rw [blockSays_some hx] at he
  exact he

theorem Sound.db_header_mem {es : List Entry} {s : St} (hs : Sound es s) {n : Nat} {b : Header}
    (h : s.db.header n = some b) : .header n b ∈ es := by
  rw [hs.db, db_header] at h
  obtain ⟨e, he, hx⟩ := saved_mem h
  rw [headerSays_some hx] at he
  exact he

theorem Sound.db_num_mem {es : List Entry} {s : St} (hs : Sound es s) {n : H256} {b : Nat}
    (h : s.db.num n = some b) : .num n b ∈ es := by
  rw [hs.db, db_num] at h
  obtain ⟨e, he, hx⟩ := saved_mem h
  rw [numSays_some hx] at he
  exact he

theorem Sound.db_tx_mem {es : List Entry} {s : St} (hs : Sound es s) {n : Nat} {k : H256} {b : Stx}
    (h : s.db.tx (n, k) = some b) : .tx n k b ∈ es := by
  rw [hs.db, db_tx] at h
  obtain ⟨e, he, hx⟩ := saved_mem h
  rw [txSays_some hx] at he
  exact he

theorem Sound.db_receipt_mem {es : List Entry} {s : St} (hs : Sound es s) {n : Nat} {k : H256}
    {b : Rcpt} (h : s.db.receipt (n, k) = some b) : .receipt n k b ∈ es := by
  rw [hs.db, db_receipt] at h
  obtain ⟨e, he, hx⟩ := saved_mem h
  rw [receiptSays_some hx] at he
  exact he

theorem putc_some {K V : Type} [DecidableEq K] {f : K → Option V} {k x : K} {v : Option V} {w : V}
    (h : putc f k v x = some w) : (x = k ∧ v = some w) ∨ f x = some w := by
  unfold putc at h
  split at h
  · unfold upd at h
    split at h
    · left; exact ⟨‹_›, h⟩
    · right; exact h
  · right; exact h

theorem upd_none_some {K V : Type} [DecidableEq K] {f : K → Option V} {k x : K} {w : V}
    (h : upd f k none x = some w) : f x = some w := by
  unfold upd at h
  split at h
  · simp at h
  · exact h

theorem Sound.getBlock {es : List Entry} {s : St} (hs : Sound es s) (n : Nat) :
    Sound es (getBlock s n).2 := by
  unfold Storage.getBlock
  split
  · exact hs
  · refine ⟨hs.db, ?_, hs.headers, hs.numbers, hs.txs, hs.receipts⟩
    intro m b hb
    rcases putc_some hb with ⟨rfl, h⟩ | h
    · exact hs.db_block_mem h
    · exact hs.blocks m b h

theorem Sound.getNumber {es : List Entry} {s : St} (hs : Sound es s) (n : H256) :
    Sound es (getNumber s n).2 := by
  unfold Storage.getNumber
  split
  · exact hs
  · refine ⟨hs.db, hs.blocks, hs.headers, ?_, hs.txs, hs.receipts⟩
    intro m b hb
    rcases putc_some hb with ⟨rfl, h⟩ | h
    · exact hs.db_num_mem h
    · exact hs.numbers m b h

theorem Sound.getHeader {es : List Entry} {s : St} (hs : Sound es s) (n : Nat) :
    Sound es (getHeader s n).2 := by
  unfold Storage.getHeader
  split
  · exact hs
  · split
    · rename_i x hx
      refine ⟨hs.db, hs.blocks, ?_, hs.numbers, hs.txs, hs.receipts⟩
      intro m b hb
      rcases putc_some (f := s.cache.headers) (v := some x) hb with ⟨rfl, h⟩ | h
      · exact hs.db_header_mem (by rw [hx]; exact h)
      · exact hs.headers m b h
    · exact hs.getBlock n

theorem Sound.getBlockByHash {es : List Entry} {s : St} (hs : Sound es s) (h : H256) :
    Sound es (getBlockByHash s h).2 := by
  have h1 := hs.getNumber h
  unfold Storage.getBlockByHash
  split
  · rename_i n s' he; rw [he] at h1; exact h1.getBlock n
  · rename_i s' he; rw [he] at h1; exact h1

theorem Sound.getTx {es : List Entry} {s : St} (hs : Sound es s) (h : H256) :
    Sound es (getTx s h).2 := by
  unfold Storage.getTx
  split
  · exact hs
  · split
    · rename_i n hn
      refine ⟨hs.db, hs.blocks, hs.headers, hs.numbers, ?_, hs.receipts⟩
      intro m b hb
      rcases putc_some hb with ⟨rfl, hx⟩ | hx
      · exact ⟨n, hs.db_num_mem hn, hs.db_tx_mem hx⟩
      · exact hs.txs m b hx
    · exact hs

theorem Sound.getReceipt {es : List Entry} {s : St} (hs : Sound es s) (h : H256) :
    Sound es (getReceipt s h).2 := by
  unfold Storage.getReceipt
  split
  · exact hs
  · split
    · rename_i n hn
      refine ⟨hs.db, hs.blocks, hs.headers, hs.numbers, hs.txs, ?_⟩
      intro m b hb
      rcases putc_some hb with ⟨rfl, hx⟩ | hx
      · exact ⟨n, hs.db_num_mem hn, hs.db_receipt_mem hx⟩
      · exact hs.receipts m b hx
    · exact hs

theorem Sound.grow {es : List Entry} {s : St} (hs : Sound es s) (es' : List Entry) (d : Db)
    (ml : Option Block) (mp : Option Proof) (hd : d = es'.foldl Db.apply s.db) :
    Sound (es ++ es') ⟨d, s.cache, ml, mp⟩ := by
  refine ⟨?_, ?_, ?_, ?_, ?_, ?_⟩
  · rw [List.foldl_append, ← hs.db]; exact hd
  · intro n b h; simp [hs.blocks n b h]
  · intro n b h; simp [hs.headers n b h]
  · intro n b h; simp [hs.numbers n b h]
  · intro n b h
    obtain ⟨m, h1, h2⟩ := hs.txs n b h
    exact ⟨m, by simp [h1], by simp [h2]⟩
  · intro n b h
    obtain ⟨m, h1, h2⟩ := hs.receipts n b h
    exact ⟨m, by simp [h1], by simp [h2]⟩

theorem run_sound (evs : List Ev) : Sound (entries evs) (run evs) := by
  induction evs using snoc_induction with
  | nil =>
    refine ⟨rfl, ?_, ?_, ?_, ?_, ?_⟩ <;> intro _ _ h <;>
      simp [run, St.init, Cache.empty] at h
  | snoc evs e ih =>
    rw [run_snoc, entries_snoc]
    cases e with
    | put es => exact ih.grow es _ _ _ rfl
    | setLatest b => exact ih.grow [.latest b] _ _ _ rfl
    | setProof p => exact ih.grow [.proof p] _ _ _ rfl
    | getBlock n => simpa [Ev.entries, step] using ih.getBlock n
    | getHeader n => simpa [Ev.entries, step] using ih.getHeader n
    | getNumber n => simpa [Ev.entries, step] using ih.getNumber n
    | getBlockByHash n => simpa [Ev.entries, step] using ih.getBlockByHash n
    | getTx n => simpa [Ev.entries, step] using ih.getTx n
    | getReceipt n => simpa [Ev.entries, step] using ih.getReceipt n
    | evictBlock n =>
      simp only [Ev.entries, List.append_nil, step]
      exact ⟨ih.db, fun m b h => ih.blocks m b (upd_none_some h), ih.headers, ih.numbers, ih.txs,
        ih.receipts⟩
    | evictNumber n =>
      simp only [Ev.entries, List.append_nil, step]
      exact ⟨ih.db, ih.blocks, ih.headers, fun m b h => ih.numbers m b (upd_none_some h), ih.txs,
        ih.receipts⟩
    | evictHeader n =>
      simp only [Ev.entries, List.append_nil, step]
      exact ⟨ih.db, ih.blocks, fun m b h => ih.headers m b (upd_none_some h), ih.numbers, ih.txs,
        ih.receipts⟩
    | evictTx n =>
      simp only [Ev.entries, List.append_nil, step]
      exact ⟨ih.db, ih.blocks, ih.headers, ih.numbers, fun m b h => ih.txs m b (upd_none_some h),
        ih.receipts⟩
    | evictReceipt n =>
      simp only [Ev.entries, List.append_nil, step]
      exact ⟨ih.db, ih.blocks, ih.headers, ih.numbers, ih.txs,
        fun m b h => ih.receipts m b (upd_none_some h)⟩
    | restart =>
      simp only [Ev.entries, List.append_nil, step]
      refine ⟨ih.db, ?_, ?_, ?_, ?_, ?_⟩ <;> intro _ _ h <;> simp [Cache.empty] at h

/-! ### In-memory latest block and proof -/

theorem getBlock_mem (s : St) (n : Nat) :
    (getBlock s n).2.memLatest = s.memLatest ∧ (getBlock s n).2.memProof = s.memProof := by
  unfold getBlock; split <;> exact ⟨rfl, rfl⟩

theorem getNumber_mem (s : St) (n : H256) :
    (getNumber s n).2.memLatest = s.memLatest ∧ (getNumber s n).2.memProof = s.memProof := by
  unfold getNumber; split <;> exact ⟨rfl, rfl⟩

theorem getHeader_mem (s : St) (n : Nat) :
    (getHeader s n).2.memLatest = s.memLatest ∧ (getHeader s n).2.memProof = s.memProof := by
  unfold getHeader
  split
  · exact ⟨rfl, rfl⟩
  · split
    · exact ⟨rfl, rfl⟩
    · exact getBlock_mem s n

theorem getBlockByHash_mem (s : St) (h : H256) :
    (getBlockByHash s h).2.memLatest = s.memLatest ∧
      (getBlockByHash s h).2.memProof = s.memProof := by
  have h1 := getNumber_mem s h
  unfold getBlockByHash
  split
  · rename_i n s' he
    rw [he] at h1
    have := getBlock_mem s' n
    exact ⟨this.1.trans h1.1, this.2.trans h1.2⟩
  · rename_i s' he; rw [he] at h1; exact h1

theorem getTx_mem (s : St) (h : H256) :
    (getTx s h).2.memLatest = s.memLatest ∧ (getTx s h).2.memProof = s.memProof := by
  unfold getTx
  split
  · exact ⟨rfl, rfl⟩
  · split <;> exact ⟨rfl, rfl⟩

theorem getReceipt_mem (s : St) (h : H256) :
    (getReceipt s h).2.memLatest = s.memLatest ∧ (getReceipt s h).2.memProof = s.memProof := by
  unfold getReceipt
  split
  · exact ⟨rfl, rfl⟩
  · split <;> exact ⟨rfl, rfl⟩

end Axon.Storage
