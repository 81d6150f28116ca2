import Verif.Codec.Block

/-!
# Storage with caches

Model of `core/storage/src/lib.rs` over a database adapter.  Database columns are maps from decoded
keys to decoded values (the key and value codecs are `C09` and `C05`); the LRU caches are maps whose
entries may vanish at any time (`evict`), which covers every capacity and every replacement order.
One event is one adapter write (a put or an atomic batch), one read call, one eviction or one
restart, so any interleaving of concurrent API calls and any process crash between two adapter
writes is a sequence of events.  A read call is one event (simplification: cache miss, database read
and cache fill are not interleaved with other events).  Contract code storage (`get_code_by_hash`,
`insert_code`) is not modelled.
-/

namespace Axon.Storage
open Axon.Block (Block Header Proof encodeHeader)

/-- `SignedTransaction`, reduced to its hash and everything else. -/
structure Stx where
  hash : H256
  body : Bytes
deriving DecidableEq

/-- `Receipt`, reduced to its transaction hash and everything else. -/
structure Rcpt where
  txHash : H256
  body : Bytes
deriving DecidableEq

/-- One key/value modification of a column. -/
inductive Entry where
  /-- `BlockSchema` -/
  | block (n : Nat) (b : Block)
  /-- `BlockSchema`, removal -/
  | delBlock (n : Nat)
  /-- `BlockHeaderSchema` -/
  | header (n : Nat) (x : Header)
  /-- `BlockHashNumberSchema` and `TxHashNumberSchema`: both live in the column `HashHeight` under a
  bare 32-byte key (`schema.rs:37,40`). -/
  | num (h : H256) (n : Nat)
  /-- `TransactionSchema` -/
  | tx (n : Nat) (h : H256) (t : Stx)
  /-- `ReceiptSchema` -/
  | receipt (n : Nat) (h : H256) (r : Rcpt)
  /-- `LatestBlockSchema` -/
  | latest (b : Block)
  /-- `LatestProofSchema` -/
  | proof (p : Proof)

/-- Map update. -/
def upd {K V : Type} [DecidableEq K] (f : K → Option V) (k : K) (v : Option V) : K → Option V :=
  fun x => if x = k then v else f x

/-- Database columns used here, `schema.rs`. -/
structure Db where
  block : Nat → Option Block
  header : Nat → Option Header
  num : H256 → Option Nat
  tx : Nat × H256 → Option Stx
  receipt : Nat × H256 → Option Rcpt
  latest : Option Block
  proof : Option Proof

def Db.empty : Db := ⟨fun _ => none, fun _ => none, fun _ => none, fun _ => none, fun _ => none, none, none⟩

/-- Effect of one modification. -/
def Db.apply (d : Db) : Entry → Db
  | .block n b => { d with block := upd d.block n (some b) }
  | .delBlock n => { d with block := upd d.block n none }
  | .header n x => { d with header := upd d.header n (some x) }
  | .num h n => { d with num := upd d.num h (some n) }
  | .tx n h t => { d with tx := upd d.tx (n, h) (some t) }
  | .receipt n h r => { d with receipt := upd d.receipt (n, h) (some r) }
  | .latest b => { d with latest := some b }
  | .proof p => { d with proof := some p }

/-- `StorageCache`, `cache.rs:8-16` -/
structure Cache where
  blocks : Nat → Option Block
  numbers : H256 → Option Nat
  headers : Nat → Option Header
  txs : H256 → Option Stx
  receipts : H256 → Option Rcpt

def Cache.empty : Cache := ⟨fun _ => none, fun _ => none, fun _ => none, fun _ => none, fun _ => none⟩

/-- `ImplStorage`, `lib.rs:90-96` -/
structure St where
  db : Db
  cache : Cache
  memLatest : Option Block
  memProof : Option Proof

def St.init : St := ⟨Db.empty, Cache.empty, none, none⟩

/-- `put_cache!`, `lib.rs:57-64`: a missing value is not cached. -/
def putc {K V : Type} [DecidableEq K] (f : K → Option V) (k : K) (v : Option V) : K → Option V :=
  match v with
  | some x => upd f k (some x)
  | none => f

/-- `get_block`, `lib.rs:181-186` -/
def getBlock (s : St) (n : Nat) : Option Block × St :=
  match s.cache.blocks n with
  | some b => (some b, s)
  | none =>
    let r := s.db.block n
    (r, { s with cache := { s.cache with blocks := putc s.cache.blocks n r } })

/-- `get_block_header`, `lib.rs:188-199` -/
def getHeader (s : St) (n : Nat) : Option Header × St :=
  match s.cache.headers n with
  | some x => (some x, s)
  | none =>
    match s.db.header n with
    | some x =>
      (some x, { s with cache := { s.cache with headers := putc s.cache.headers n (some x) } })
    | none => ((getBlock s n).1.map (·.header), (getBlock s n).2)

/-- `get_block_number_by_hash`, `lib.rs:108-113` -/
def getNumber (s : St) (h : H256) : Option Nat × St :=
  match s.cache.numbers h with
  | some n => (some n, s)
  | none =>
    let r := s.db.num h
    (r, { s with cache := { s.cache with numbers := putc s.cache.numbers h r } })

/-- `get_block_by_hash`, `lib.rs:225-235` -/
def getBlockByHash (s : St) (h : H256) : Option Block × St :=
  match getNumber s h with
  | (some n, s') => getBlock s' n
  | (none, s') => (none, s')

/-- `get_transaction_by_hash`, `lib.rs:347-365` -/
def getTx (s : St) (h : H256) : Option Stx × St :=
  match s.cache.txs h with
  | some t => (some t, s)
  | none =>
    match s.db.num h with
    | some n =>
      let r := s.db.tx (n, h)
      (r, { s with cache := { s.cache with txs := putc s.cache.txs h r } })
    | none => (none, s)

/-- `get_receipt_by_hash`, `lib.rs:367-385` -/
def getReceipt (s : St) (h : H256) : Option Rcpt × St :=
  match s.cache.receipts h with
  | some t => (some t, s)
  | none =>
    match s.db.num h with
    | some n =>
      let r := s.db.receipt (n, h)
      (r, { s with cache := { s.cache with receipts := putc s.cache.receipts h r } })
    | none => (none, s)

/-- `get_latest_block`, `lib.rs:201-208`; `none` is the error `GetNone`. -/
def getLatest (s : St) : Option Block :=
  match s.memLatest with
  | some b => some b
  | none => s.db.latest

/-- `get_latest_proof`, `lib.rs:468-475` -/
def getLatestProof (s : St) : Option Proof :=
  match s.memProof with
  | some p => some p
  | none => s.db.proof

/-- Events. -/
inductive Ev where
  /-- one adapter write: an atomic list of modifications -/
  | put (es : List Entry)
  /-- `set_latest_block`, `lib.rs:508-515` -/
  | setLatest (b : Block)
  /-- `update_latest_proof`, `lib.rs:552-559` -/
  | setProof (p : Proof)
  | getBlock (n : Nat)
  | getHeader (n : Nat)
  | getNumber (h : H256)
  | getBlockByHash (h : H256)
  | getTx (h : H256)
  | getReceipt (h : H256)
  | evictBlock (n : Nat)
  | evictNumber (h : H256)
  | evictHeader (n : Nat)
  | evictTx (h : H256)
  | evictReceipt (h : H256)
  /-- crash or stop, then restart: memory is lost -/
  | restart

/-- State after one event. -/
def step (s : St) : Ev → St
  | .put es => { s with db := es.foldl Db.apply s.db }
  | .setLatest b => { s with db := s.db.apply (.latest b), memLatest := some b }
  | .setProof p => { s with db := s.db.apply (.proof p), memProof := some p }
  | .getBlock n => (getBlock s n).2
  | .getHeader n => (getHeader s n).2
  | .getNumber h => (getNumber s h).2
  | .getBlockByHash h => (getBlockByHash s h).2
  | .getTx h => (getTx s h).2
  | .getReceipt h => (getReceipt s h).2
  | .evictBlock n => { s with cache := { s.cache with blocks := upd s.cache.blocks n none } }
  | .evictNumber h => { s with cache := { s.cache with numbers := upd s.cache.numbers h none } }
  | .evictHeader n => { s with cache := { s.cache with headers := upd s.cache.headers n none } }
  | .evictTx h => { s with cache := { s.cache with txs := upd s.cache.txs h none } }
  | .evictReceipt h => { s with cache := { s.cache with receipts := upd s.cache.receipts h none } }
  | .restart => { s with cache := Cache.empty, memLatest := none, memProof := none }

/-- State after a history. -/
def run (evs : List Ev) : St := evs.foldl step St.init

/-! ## API calls as event sequences -/

/-- `Block::hash`, `types/block.rs:191-193,300-302`, for an arbitrary digest function. -/
def blockHash (digest : Bytes → H256) (b : Block) : H256 := digest (encodeHeader b.header)

/-- `set_block`, `lib.rs:492-502`: three separate puts. -/
def setBlockEvs (digest : Bytes → H256) (b : Block) : List Ev :=
  [.put [.block b.header.number.val b], .put [.header b.header.number.val b.header],
    .put [.num (blockHash digest b) b.header.number.val]]

/-- `insert_block`, `lib.rs:484-490` -/
def insertBlockEvs (digest : Bytes → H256) (b : Block) : List Ev :=
  setBlockEvs digest b ++ [.setLatest b]

/-- `remove_block`, `lib.rs:504-506` -/
def removeBlockEvs (n : Nat) : List Ev := [.put [.delBlock n]]

/-- `insert_transactions` / `batch_insert_stxs`, `lib.rs:115-147`: two batches. -/
def insertTxsEvs (n : Nat) (ts : List Stx) : List Ev :=
  [.put (ts.map fun t => .tx n t.hash t), .put (ts.map fun t => .num t.hash n)]

/-- `insert_receipts` / `batch_insert_receipts`, `lib.rs:149-176`: two batches. -/
def insertReceiptsEvs (n : Nat) (rs : List Rcpt) : List Ev :=
  [.put (rs.map fun r => .receipt n r.txHash r), .put (rs.map fun r => .num r.txHash n)]

/-- The modifications an event makes to the database, in order. -/
def Ev.entries : Ev → List Entry
  | .put es => es
  | .setLatest b => [.latest b]
  | .setProof p => [.proof p]
  | _ => []

/-- All modifications of a history, in order. -/
def entries (evs : List Ev) : List Entry := evs.flatMap Ev.entries

/-! ## Lemmas -/

theorem run_snoc (evs : List Ev) (e : Ev) : run (evs ++ [e]) = step (run evs) e := by
  simp [run, List.foldl_append]

theorem entries_snoc (evs : List Ev) (e : Ev) : entries (evs ++ [e]) = entries evs ++ e.entries := by
  simp [entries]

@[simp] theorem getBlock_db (s : St) (n : Nat) : (getBlock s n).2.db = s.db := by
  unfold getBlock; split <;> rfl

@[simp] theorem getHeader_db (s : St) (n : Nat) : (getHeader s n).2.db = s.db := by
  unfold getHeader
  split
  · rfl
  · split
    · rfl
    · simp

@[simp] theorem getNumber_db (s : St) (h : H256) : (getNumber s h).2.db = s.db := by
  unfold getNumber; split <;> rfl

@[simp] theorem getBlockByHash_db (s : St) (h : H256) : (getBlockByHash s h).2.db = s.db := by
  have h1 := getNumber_db s h
  unfold getBlockByHash
  split
  · rename_i n s' he; rw [he] at h1; simp only at h1; simp [h1]
  · rename_i s' he; rw [he] at h1; exact h1

@[simp] theorem getTx_db (s : St) (h : H256) : (getTx s h).2.db = s.db := by
  unfold getTx
  split
  · rfl
  · split <;> rfl

@[simp] theorem getReceipt_db (s : St) (h : H256) : (getReceipt s h).2.db = s.db := by
  unfold getReceipt
  split
  · rfl
  · split <;> rfl

/-- The database is the fold of all modifications. -/
theorem run_db (evs : List Ev) : (run evs).db = (entries evs).foldl Db.apply Db.empty := by
  induction evs using snoc_induction with
  | nil => rfl
  | snoc evs e ih =>
    rw [run_snoc, entries_snoc, List.foldl_append, ← ih]
    cases e <;> simp [step, Ev.entries]

end Axon.Storage
