import Verif.Storage.StoreLemmas

/-!
# C10, C11, C53: what storage reads return after any history

Histories contain every interleaving of adapter writes, reads, cache evictions and restarts.
`saved says es` is the specification: the value given by the last modification of the key.
-/

namespace Axon.Storage
open Axon.Block (Block Header Proof encodeHeader)

/-- Each key is written with one value only and no block is removed.  The node satisfies this as
long as it stores one block per height and `remove_block` is not called. -/
structure WriteOnce (es : List Entry) : Prop where
  noDel : ∀ n, Entry.delBlock n ∉ es
  block : ∀ n b b', .block n b ∈ es → .block n b' ∈ es → b = b'
  header : ∀ n b b', .header n b ∈ es → .header n b' ∈ es → b = b'
  num : ∀ h n n', .num h n ∈ es → .num h n' ∈ es → n = n'
  tx : ∀ n h t t', .tx n h t ∈ es → .tx n h t' ∈ es → t = t'
  receipt : ∀ n h t t', .receipt n h t ∈ es → .receipt n h t' ∈ es → t = t'

theorem WriteOnce.saved_block {es : List Entry} (w : WriteOnce es) {n : Nat} {b : Block}
    (h : .block n b ∈ es) : saved (blockSays n) es = some b := by
  apply saved_eq_of_unique
  · intro e he v hv
    cases e with
    | block m c =>
      simp only [blockSays] at hv
      split at hv
      · rename_i hm; subst hm; simp at hv; subst hv; rw [w.block m c b he h]
      · simp at hv
    | delBlock m => exact absurd he (w.noDel m)
    | _ => simp [blockSays] at hv
  · exact ⟨_, h, by simp [blockSays]⟩

theorem WriteOnce.saved_header {es : List Entry} (w : WriteOnce es) {n : Nat} {b : Header}
    (h : .header n b ∈ es) : saved (headerSays n) es = some b := by
  apply saved_eq_of_unique
  · intro e he v hv
    cases e with
    | header m c =>
      simp only [headerSays] at hv
      split at hv
      · rename_i hm; subst hm; simp at hv; subst hv; rw [w.header m c b he h]
      · simp at hv
    | _ => simp [headerSays] at hv
  · exact ⟨_, h, by simp [headerSays]⟩

theorem WriteOnce.saved_num {es : List Entry} (w : WriteOnce es) {n : H256} {b : Nat}
    (h : .num n b ∈ es) : saved (numSays n) es = some b := by
  apply saved_eq_of_unique
  · intro e he v hv
    cases e with
    | num m c =>
      simp only [numSays] at hv
      split at hv
      · rename_i hm; subst hm; simp at hv; subst hv; rw [w.num m c b he h]
      · simp at hv
    | _ => simp [numSays] at hv
  · exact ⟨_, h, by simp [numSays]⟩

theorem WriteOnce.saved_tx {es : List Entry} (w : WriteOnce es) {n : Nat} {k : H256} {b : Stx}
    (h : .tx n k b ∈ es) : saved (txSays n k) es = some b := by
  apply saved_eq_of_unique
  · intro e he v hv
    cases e with
    | tx m a c =>
      simp only [txSays] at hv
      split at hv
      · rename_i hm; obtain ⟨rfl, rfl⟩ := hm; simp at hv; subst hv; rw [w.tx m a c b he h]
      · simp at hv
    | _ => simp [txSays] at hv
  · exact ⟨_, h, by simp [txSays]⟩

theorem WriteOnce.saved_receipt {es : List Entry} (w : WriteOnce es) {n : Nat} {k : H256} {b : Rcpt}
    (h : .receipt n k b ∈ es) : saved (receiptSays n k) es = some b := by
  apply saved_eq_of_unique
  · intro e he v hv
    cases e with
    | receipt m a c =>
      simp only [receiptSays] at hv
      split at hv
      · rename_i hm; obtain ⟨rfl, rfl⟩ := hm; simp at hv; subst hv; rw [w.receipt m a c b he h]
      · simp at hv
    | _ => simp [receiptSays] at hv
  · exact ⟨_, h, by simp [receiptSays]⟩

/-! ### C10, every history: storage never invents values -/

/-- C10: a block read at a height was saved at that height (every history, including rewrites). -/
theorem C10_block_was_saved (evs : List Ev) (n : Nat) (b : Block)
    (h : (getBlock (run evs) n).1 = some b) : .block n b ∈ entries evs := by
  have hs := run_sound evs
  unfold getBlock at h
  split at h
  · rename_i c hc; simp at h; subst h; exact hs.blocks n c hc
  · exact hs.db_block_mem h

/-- C10: a number read for a hash was saved for that hash. -/
theorem C10_number_was_saved (evs : List Ev) (k : H256) (n : Nat)
    (h : (getNumber (run evs) k).1 = some n) : .num k n ∈ entries evs := by
  have hs := run_sound evs
  unfold getNumber at h
  split at h
  · rename_i c hc; simp at h; subst h; exact hs.numbers k c hc
  · exact hs.db_num_mem h

/-- C10: a transaction read by hash was saved under that hash. -/
theorem C10_tx_was_saved (evs : List Ev) (k : H256) (t : Stx)
    (h : (getTx (run evs) k).1 = some t) :
    ∃ n, .num k n ∈ entries evs ∧ .tx n k t ∈ entries evs := by
  have hs := run_sound evs
  unfold getTx at h
  split at h
  · rename_i c hc; simp at h; subst h; exact hs.txs k c hc
  · split at h
    · rename_i n hn; exact ⟨n, hs.db_num_mem hn, hs.db_tx_mem h⟩
    · simp at h

/-- C10: a receipt read by hash was saved under that hash. -/
theorem C10_receipt_was_saved (evs : List Ev) (k : H256) (t : Rcpt)
    (h : (getReceipt (run evs) k).1 = some t) :
    ∃ n, .num k n ∈ entries evs ∧ .receipt n k t ∈ entries evs := by
  have hs := run_sound evs
  unfold getReceipt at h
  split at h
  · rename_i c hc; simp at h; subst h; exact hs.receipts k c hc
  · split at h
    · rename_i n hn; exact ⟨n, hs.db_num_mem hn, hs.db_receipt_mem h⟩
    · simp at h

/-- C10: right after a restart every read returns the last saved value, whatever was written
before (the caches are the only source of stale answers). -/
theorem C10_after_restart (evs : List Ev) (n : Nat) (k : H256) :
    let s := run (evs ++ [.restart])
    (getBlock s n).1 = saved (blockSays n) (entries evs) ∧
    (getNumber s k).1 = saved (numSays k) (entries evs) ∧
    (getTx s k).1 = (saved (numSays k) (entries evs)).bind (fun m => saved (txSays m k) (entries evs)) ∧
    (getReceipt s k).1 =
      (saved (numSays k) (entries evs)).bind (fun m => saved (receiptSays m k) (entries evs)) := by
  intro s
  have hdb : s.db = (entries evs).foldl Db.apply Db.empty := by
    simp only [s, run_snoc, step]; exact run_db evs
  have hc : s.cache = Cache.empty := by simp [s, run_snoc, step]
  refine ⟨?_, ?_, ?_, ?_⟩
  · simp only [getBlock, hc, Cache.empty, hdb, db_block]
  · simp only [getNumber, hc, Cache.empty, hdb, db_num]
  · simp only [getTx, hc, Cache.empty, hdb, db_num, db_tx]
    cases saved (numSays k) (entries evs) <;> rfl
  · simp only [getReceipt, hc, Cache.empty, hdb, db_num, db_receipt]
    cases saved (numSays k) (entries evs) <;> rfl

/-! ### C10, write-once histories: reads return the last saved value

Full statement: after every history a read returns the most recently saved value.  It is false when
a key is saved again with another value after it was read (`C10_false`), so these theorems assume
that it is not. -/

theorem C10_block_partial (evs : List Ev) (w : WriteOnce (entries evs)) (n : Nat) :
    (getBlock (run evs) n).1 = saved (blockSays n) (entries evs) := by
  have hs := run_sound evs
  unfold getBlock
  split
  · rename_i c hc
    rw [w.saved_block (hs.blocks n c hc)]
  · simp only [hs.db, db_block]

theorem C10_number_partial (evs : List Ev) (w : WriteOnce (entries evs)) (k : H256) :
    (getNumber (run evs) k).1 = saved (numSays k) (entries evs) := by
  have hs := run_sound evs
  unfold getNumber
  split
  · rename_i c hc
    rw [w.saved_num (hs.numbers k c hc)]
  · simp only [hs.db, db_num]

/-- The header read falls back to the block, so it also answers between the two writes of
`set_block`. -/
theorem C10_header_partial (evs : List Ev) (w : WriteOnce (entries evs)) (n : Nat) :
    (getHeader (run evs) n).1 =
      (saved (headerSays n) (entries evs)).or ((saved (blockSays n) (entries evs)).map (·.header)) := by
  have hs := run_sound evs
  have hb := C10_block_partial evs w n
  unfold getHeader
  split
  · rename_i c hc
    rw [w.saved_header (hs.headers n c hc)]; rfl
  · split
    · rename_i x hx
      rw [hs.db, db_header] at hx
      rw [hx]; rfl
    · rename_i hx
      rw [hs.db, db_header] at hx
      rw [hx, hb]; rfl

theorem C10_tx_partial (evs : List Ev) (w : WriteOnce (entries evs)) (k : H256) :
    (getTx (run evs) k).1 =
      (saved (numSays k) (entries evs)).bind (fun m => saved (txSays m k) (entries evs)) := by
  have hs := run_sound evs
  unfold getTx
  split
  · rename_i c hc
    obtain ⟨m, h1, h2⟩ := hs.txs k c hc
    rw [w.saved_num h1, Option.bind_some, w.saved_tx h2]
  · simp only [hs.db, db_num, db_tx]
    cases saved (numSays k) (entries evs) <;> rfl

theorem C10_receipt_partial (evs : List Ev) (w : WriteOnce (entries evs)) (k : H256) :
    (getReceipt (run evs) k).1 =
      (saved (numSays k) (entries evs)).bind (fun m => saved (receiptSays m k) (entries evs)) := by
  have hs := run_sound evs
  unfold getReceipt
  split
  · rename_i c hc
    obtain ⟨m, h1, h2⟩ := hs.receipts k c hc
    rw [w.saved_num h1, Option.bind_some, w.saved_receipt h2]
  · simp only [hs.db, db_num, db_receipt]
    cases saved (numSays k) (entries evs) <;> rfl

theorem C10_by_hash_partial (evs : List Ev) (w : WriteOnce (entries evs)) (k : H256) :
    (getBlockByHash (run evs) k).1 =
      (saved (numSays k) (entries evs)).bind (fun m => saved (blockSays m) (entries evs)) := by
  have h1 := C10_number_partial evs w k
  rw [← h1]
  have hrun : (getNumber (run evs) k).2 = run (evs ++ [.getNumber k]) := by rw [run_snoc]; rfl
  have he : entries (evs ++ [.getNumber k]) = entries evs := by rw [entries_snoc]; simp [Ev.entries]
  unfold getBlockByHash
  split
  · rename_i n s' hn
    rw [hn] at hrun
    simp only at hrun
    rw [hrun, C10_block_partial _ (by rw [he]; exact w), he]
    simp [hn]
  · rename_i s' hn
    simp [hn]

/-- C10: a block whose save has completed is read back by number, header and hash, whatever other
writes, reads, evictions and restarts surround its three writes. -/
theorem C10_saved_block_readable_partial (evs : List Ev) (w : WriteOnce (entries evs))
    (digest : Bytes → H256) (b : Block) (hb : ∀ e ∈ setBlockEvs digest b, e ∈ evs) :
    (getBlock (run evs) b.header.number.val).1 = some b ∧
    (getHeader (run evs) b.header.number.val).1 = some b.header ∧
    (getBlockByHash (run evs) (blockHash digest b)).1 = some b := by
  have hmem : ∀ es, Ev.put es ∈ evs → ∀ e ∈ es, e ∈ entries evs := by
    intro es hes e he
    exact List.mem_flatMap.2 ⟨_, hes, he⟩
  have h1 : .block b.header.number.val b ∈ entries evs :=
    hmem _ (hb (.put [.block b.header.number.val b]) (by simp [setBlockEvs])) _ (by simp)
  have h2 : .header b.header.number.val b.header ∈ entries evs :=
    hmem _ (hb (.put [.header b.header.number.val b.header]) (by simp [setBlockEvs])) _ (by simp)
  have h3 : .num (blockHash digest b) b.header.number.val ∈ entries evs :=
    hmem _ (hb (.put [.num (blockHash digest b) b.header.number.val]) (by simp [setBlockEvs])) _
      (by simp)
  refine ⟨?_, ?_, ?_⟩
  · rw [C10_block_partial evs w, w.saved_block h1]
  · rw [C10_header_partial evs w, w.saved_header h2]; rfl
  · rw [C10_by_hash_partial evs w, w.saved_num h3, Option.bind_some, w.saved_block h1]

/-- C10: the same for transactions, whose save is two batches. -/
theorem C10_saved_tx_readable_partial (evs : List Ev) (w : WriteOnce (entries evs)) (n : Nat)
    (ts : List Stx) (hb : ∀ e ∈ insertTxsEvs n ts, e ∈ evs) (t : Stx) (ht : t ∈ ts) :
    (getTx (run evs) t.hash).1 = some t := by
  have hmem : ∀ es, Ev.put es ∈ evs → ∀ e ∈ es, e ∈ entries evs := by
    intro es hes e he
    exact List.mem_flatMap.2 ⟨_, hes, he⟩
  have h1 : .tx n t.hash t ∈ entries evs :=
    hmem (ts.map fun t => .tx n t.hash t) (hb _ (by simp [insertTxsEvs])) _
      (List.mem_map.2 ⟨t, ht, rfl⟩)
  have h2 : .num t.hash n ∈ entries evs :=
    hmem (ts.map fun t => .num t.hash n) (hb _ (by simp [insertTxsEvs])) _
      (List.mem_map.2 ⟨t, ht, rfl⟩)
  rw [C10_tx_partial evs w, w.saved_num h2, Option.bind_some, w.saved_tx h1]

/-- C10: the latest block and the latest proof are the last ones set, in every history whose raw
writes leave these two keys to `set_latest_block` and `update_latest_proof`; also after a restart. -/
theorem C10_latest (evs : List Ev)
    (hraw : ∀ es, Ev.put es ∈ evs → ∀ e ∈ es, (∀ b, e ≠ .latest b) ∧ (∀ p, e ≠ .proof p)) :
    getLatest (run evs) = saved latestSays (entries evs) ∧
    getLatestProof (run evs) = saved proofSays (entries evs) := by
  suffices h : ((run evs).memLatest = none ∨ (run evs).memLatest = saved latestSays (entries evs)) ∧
      ((run evs).memProof = none ∨ (run evs).memProof = saved proofSays (entries evs)) by
    constructor
    · unfold getLatest
      rcases h.1 with h1 | h1
      · rw [h1]; simp only [run_db, db_latest]
      · cases hm : (run evs).memLatest with
        | some b => rw [← h1, hm]
        | none => simp only [run_db, db_latest]
    · unfold getLatestProof
      rcases h.2 with h1 | h1
      · rw [h1]; simp only [run_db, db_proof]
      · cases hm : (run evs).memProof with
        | some b => rw [← h1, hm]
        | none => simp only [run_db, db_proof]
  induction evs using snoc_induction with
  | nil => exact ⟨Or.inl rfl, Or.inl rfl⟩
  | snoc evs e ih =>
    have ih := ih (fun es hes => hraw es (by simp [hes]))
    rw [run_snoc, entries_snoc]
    cases e with
    | put es =>
      have key : ∀ (xs : List Entry), (∀ e ∈ xs, (∀ b, e ≠ .latest b) ∧ (∀ p, e ≠ .proof p)) →
          saved latestSays (entries evs ++ xs) = saved latestSays (entries evs) ∧
          saved proofSays (entries evs ++ xs) = saved proofSays (entries evs) := by
        intro xs
        induction xs using snoc_induction with
        | nil => simp
        | snoc xs x ihx =>
          intro hx
          have hi := ihx (fun e he => hx e (by simp [he]))
          have hx' := hx x (by simp)
          rw [← List.append_assoc, saved_snoc, saved_snoc, hi.1, hi.2]
          cases x with
          | latest b => exact absurd rfl (hx'.1 b)
          | proof p => exact absurd rfl (hx'.2 p)
          | _ => exact ⟨rfl, rfl⟩
      have := key es (hraw es (by simp))
      simp only [Ev.entries, step]
      rw [this.1, this.2]
      exact ih
    | setLatest b =>
      simp only [Ev.entries, step, saved_snoc, latestSays, proofSays]
      exact ⟨Or.inr trivial, ih.2⟩
    | setProof p =>
      simp only [Ev.entries, step, saved_snoc, latestSays, proofSays]
      exact ⟨ih.1, Or.inr trivial⟩
    | getBlock n =>
      simp only [Ev.entries, step, List.append_nil, getBlock_mem]; exact ih
    | getHeader n =>
      simp only [Ev.entries, step, List.append_nil, getHeader_mem]; exact ih
    | getNumber n =>
      simp only [Ev.entries, step, List.append_nil, getNumber_mem]; exact ih
    | getBlockByHash n =>
      simp only [Ev.entries, step, List.append_nil, getBlockByHash_mem]; exact ih
    | getTx n =>
      simp only [Ev.entries, step, List.append_nil, getTx_mem]; exact ih
    | getReceipt n =>
      simp only [Ev.entries, step, List.append_nil, getReceipt_mem]; exact ih
    | restart => exact ⟨Or.inl rfl, Or.inl rfl⟩
    | _ => simp only [Ev.entries, step, List.append_nil]; exact ih

/-- C10 is false of histories that save a height twice: if the first block was read in between, later
reads by height still return the first one. -/
theorem C10_false (digest : Bytes → H256) (b b' : Block)
    (hn : b'.header.number = b.header.number) :
    let evs := setBlockEvs digest b ++ [.getBlock b.header.number.val] ++ setBlockEvs digest b'
    (getBlock (run evs) b.header.number.val).1 = some b ∧
    saved (blockSays b.header.number.val) (entries evs) = some b' := by
  constructor
  · simp [run, setBlockEvs, step, getBlock, Db.apply, upd, putc, St.init, Cache.empty, Db.empty]
  · simp [saved, entries, setBlockEvs, Ev.entries, List.findSome?, blockSays, hn]

/-! ### C11 -/

/-- C11, what holds: after a removal and a restart the height reads as absent, until a block is saved
there again.  Full statement: right after the removal every lookup (height, header, hash) is empty;
see `C11_false`. -/
theorem C11_removed_after_restart_partial (evs : List Ev) (n : Nat) :
    (getBlock (run (evs ++ removeBlockEvs n ++ [.restart])) n).1 = none := by
  rw [(C10_after_restart (evs ++ removeBlockEvs n) n ⟨List.replicate 32 0, rfl⟩).1]
  simp [removeBlockEvs, entries_snoc, Ev.entries, saved_snoc, blockSays]

/-- C11: removing a block does not change lookups of other heights. -/
theorem C11_other_heights (evs : List Ev) (n m : Nat) (h : m ≠ n) :
    (getBlock (run (evs ++ removeBlockEvs n)) m).1 = (getBlock (run evs) m).1 := by
  simp only [removeBlockEvs, run_snoc, step, getBlock]
  split
  · rfl
  · simp [Db.apply, upd, h]

/-- C11 is false: after saving, reading and removing a block, it is still found by height; and in
every case its header (by height) and its number (by hash) are still found, even after a restart. -/
theorem C11_false (digest : Bytes → H256) (b : Block) :
    (getBlock (run (insertBlockEvs digest b ++ [.getBlock b.header.number.val] ++
      removeBlockEvs b.header.number.val)) b.header.number.val).1 = some b ∧
    (let s := run (insertBlockEvs digest b ++ removeBlockEvs b.header.number.val ++ [.restart])
     (getHeader s b.header.number.val).1 = some b.header ∧
     (getNumber s (blockHash digest b)).1 = some b.header.number.val ∧
     getLatest s = some b) := by
  refine ⟨?_, ?_, ?_, ?_⟩
  · simp [run, insertBlockEvs, setBlockEvs, removeBlockEvs, step, getBlock, Db.apply, upd, putc,
      St.init, Cache.empty, Db.empty]
  · simp [run, insertBlockEvs, setBlockEvs, removeBlockEvs, step, getHeader, Db.apply, upd, putc,
      St.init, Cache.empty, Db.empty]
  · simp [run, insertBlockEvs, setBlockEvs, removeBlockEvs, step, getNumber, Db.apply, upd, putc,
      St.init, Cache.empty, Db.empty]
  · simp [run, insertBlockEvs, setBlockEvs, removeBlockEvs, step, getLatest, Db.apply,
      St.init, Cache.empty, Db.empty]

/-! ### C53 -/

/-- A storage call that writes. -/
inductive Call where
  | setBlock (b : Block)
  | insertBlock (b : Block)
  | insertTxs (n : Nat) (ts : List Stx)
  | insertReceipts (n : Nat) (rs : List Rcpt)
  | updateProof (p : Proof)
  | removeBlock (n : Nat)

def Call.evs (digest : Bytes → H256) : Call → List Ev
  | .setBlock b => setBlockEvs digest b
  | .insertBlock b => insertBlockEvs digest b
  | .insertTxs n ts => insertTxsEvs n ts
  | .insertReceipts n rs => insertReceiptsEvs n rs
  | .updateProof p => [.setProof p]
  | .removeBlock n => removeBlockEvs n

/-- A history made of writing calls: every write belongs to some call (calls may interleave, stop
half-way, and be mixed with reads, evictions and restarts). -/
def FromCalls (digest : Bytes → H256) (calls : List Call) (evs : List Ev) : Prop :=
  ∀ e ∈ evs, e.entries ≠ [] → ∃ c ∈ calls, e ∈ c.evs digest

/-- C53, what holds: a block returned for hash `h` has hash `h`, unless `h` is the hash of a
transaction or receipt that was saved at that block's height.  The digest is arbitrary.  Full
statement: the returned block always has hash `h`; see `C53_false`. -/
theorem C53_by_hash_partial (digest : Bytes → H256) (calls : List Call) (evs : List Ev)
    (hc : FromCalls digest calls evs) (w : WriteOnce (entries evs))
    (hblocks : ∀ c ∈ calls, ∀ b, c = .setBlock b ∨ c = .insertBlock b →
      .block b.header.number.val b ∈ entries evs)
    (h : H256) (b : Block) (hr : (getBlockByHash (run evs) h).1 = some b) :
    blockHash digest b = h ∨
    (∃ n ts, .insertTxs n ts ∈ calls ∧ n = b.header.number.val ∧ h ∈ ts.map (·.hash)) ∨
    (∃ n rs, .insertReceipts n rs ∈ calls ∧ n = b.header.number.val ∧ h ∈ rs.map (·.txHash)) := by
  have prov : ∀ e ∈ entries evs, ∃ c ∈ calls, ∃ ev ∈ c.evs digest, e ∈ ev.entries := by
    intro e he
    obtain ⟨ev, hev, hin⟩ := List.mem_flatMap.1 he
    obtain ⟨c, hcm, hce⟩ := hc ev hev (List.ne_nil_of_mem hin)
    exact ⟨c, hcm, ev, hce, hin⟩
  have hnumOfBlock : ∀ n b, .block n b ∈ entries evs → n = b.header.number.val := by
    intro n b hb
    obtain ⟨c, -, ev, hev, hin⟩ := prov _ hb
    cases c <;> simp [Call.evs, setBlockEvs, insertBlockEvs, insertTxsEvs, insertReceiptsEvs,
      removeBlockEvs] at hev
    case setBlock x => rcases hev with rfl | rfl | rfl <;> simp_all [Ev.entries]
    case insertBlock x => rcases hev with rfl | rfl | rfl | rfl <;> simp_all [Ev.entries]
    case insertTxs => rcases hev with rfl | rfl <;> simp [Ev.entries] at hin
    case insertReceipts => rcases hev with rfl | rfl <;> simp [Ev.entries] at hin
    all_goals (subst hev; simp [Ev.entries] at hin)
  rw [C10_by_hash_partial evs w, Option.bind_eq_some_iff] at hr
  obtain ⟨n, hn, hb⟩ := hr
  obtain ⟨e, he, hx⟩ := saved_mem hn
  rw [numSays_some hx] at he
  obtain ⟨e', he', hx'⟩ := saved_mem hb
  rw [blockSays_some hx'] at he'
  have hnb := hnumOfBlock n b he'
  obtain ⟨c, hcm, ev, hev, hin⟩ := prov _ he
  cases c with
  | setBlock x =>
    left
    have hxm := hblocks _ hcm x (Or.inl rfl)
    simp [Call.evs, setBlockEvs] at hev
    rcases hev with rfl | rfl | rfl <;> simp [Ev.entries] at hin
    obtain ⟨h1, h2⟩ := hin
    rw [← h2] at hxm
    rw [w.block n b x he' hxm, h1]
  | insertBlock x =>
    left
    have hxm := hblocks _ hcm x (Or.inr rfl)
    simp [Call.evs, insertBlockEvs, setBlockEvs] at hev
    rcases hev with rfl | rfl | rfl | rfl <;> simp [Ev.entries] at hin
    obtain ⟨h1, h2⟩ := hin
    rw [← h2] at hxm
    rw [w.block n b x he' hxm, h1]
  | insertTxs m ts =>
    right; left
    simp [Call.evs, insertTxsEvs] at hev
    rcases hev with rfl | rfl <;> simp [Ev.entries] at hin
    obtain ⟨t, ht, h1, h2⟩ := hin
    exact ⟨m, ts, hcm, by omega, List.mem_map.2 ⟨t, ht, h1⟩⟩
  | insertReceipts m ts =>
    right; right
    simp [Call.evs, insertReceiptsEvs] at hev
    rcases hev with rfl | rfl <;> simp [Ev.entries] at hin
    obtain ⟨t, ht, h1, h2⟩ := hin
    exact ⟨m, ts, hcm, by omega, List.mem_map.2 ⟨t, ht, h1⟩⟩
  | updateProof p => simp [Call.evs] at hev; subst hev; simp [Ev.entries] at hin
  | removeBlock m =>
    simp [Call.evs, removeBlockEvs] at hev; subst hev; simp [Ev.entries] at hin

/-- C53 is false: for every digest, block and transaction, once the block and the transactions of its
height are saved, looking a block up by the *transaction's* hash returns the block. -/
theorem C53_false (digest : Bytes → H256) (b : Block) (t : Stx) (hne : t.hash ≠ blockHash digest b) :
    (getBlockByHash (run (insertTxsEvs b.header.number.val [t] ++ insertBlockEvs digest b)) t.hash).1
      = some b := by
  simp [run, insertTxsEvs, insertBlockEvs, setBlockEvs, step, getBlockByHash, getNumber, getBlock,
    Db.apply, upd, putc, St.init, Cache.empty, Db.empty, hne]

/-! ### Concrete histories -/

def zero32 : H256 := ⟨List.replicate 32 0, rfl⟩
def one32 : H256 := ⟨List.replicate 32 1, rfl⟩

/-- A block with the given number and timestamp. -/
def sampleBlock (n t : Nat) (hn : n < 2 ^ 64) (ht : t < 2 ^ 64) : Block :=
  ⟨⟨zero32, ⟨List.replicate 20 7, rfl⟩, zero32, zero32, zero32, zero32,
    ⟨List.replicate 256 0, List.length_replicate⟩, ⟨t, ht⟩, ⟨n, hn⟩, ⟨0, by decide⟩,
    ⟨30000000, by decide⟩, [], ⟨0, by decide⟩,
    ⟨⟨0, by decide⟩, ⟨0, by decide⟩, zero32, [], []⟩, ⟨0, by decide⟩, ⟨0, by decide⟩⟩, []⟩

def b1 : Block := sampleBlock 1 10 (by decide) (by decide)
def b1' : Block := sampleBlock 1 11 (by decide) (by decide)

/-- A digest for the examples (any function will do). -/
def sampleDigest (_ : Bytes) : H256 := zero32

/-- Save, read, crash, re-save of the same block, evictions and reads: a write-once history in which
the block's save completed (the second time). -/
def sampleHistory : List Ev :=
  [.put [.block 1 b1], .getHeader 1, .restart] ++ setBlockEvs sampleDigest b1 ++
    [.getBlock 1, .evictBlock 1, .getHeader 1]

example : (getBlock (run sampleHistory) 1).1 = some b1 ∧ (getHeader (run sampleHistory) 1).1 =
    some b1.header ∧ (getBlockByHash (run sampleHistory) zero32).1 = some b1 := by
  have := C10_saved_block_readable_partial sampleHistory
    (by
      have : entries sampleHistory = [.block 1 b1, .block 1 b1, .header 1 b1.header,
        .num zero32 1] := rfl
      rw [this]
      constructor <;> simp <;> grind) sampleDigest b1
    (by
      intro e he
      simp only [sampleHistory, List.mem_append]
      exact Or.inl (Or.inr he))
  exact this

/-- The stale read of `C10_false` with two different blocks of height 1. -/
example : b1'.header.number = b1.header.number ∧ b1' ≠ b1 ∧
    (getBlock (run (setBlockEvs sampleDigest b1 ++ [.getBlock 1] ++ setBlockEvs sampleDigest b1')) 1).1
      = some b1 :=
  ⟨rfl, by decide +kernel, (C10_false sampleDigest b1 b1' rfl).1⟩

example : one32 ≠ blockHash sampleDigest b1 ∧
    (getBlockByHash (run (insertTxsEvs 1 [⟨one32, []⟩] ++ insertBlockEvs sampleDigest b1)) one32).1
      = some b1 :=
  ⟨by decide, C53_false sampleDigest b1 ⟨one32, []⟩ (by decide)⟩

end Axon.Storage
