import Verif.Cells.Provider

/-!
# C132: the node reports the CKB headers and cells that were submitted

Over all histories of C130 and for the state root of every committed block: headers are reported with the fields that
were submitted and the hash of their packed form, cells with the output and data of the output that created them.

Two things are not so.  The contract takes the hash of a header on trust, so the hash reported can differ from the one
asked for (`C132_hash_false`); and the hash of empty data is zero for scripts, but not in the RPC (`C132_data_false`).
A cell whose script has an unknown hash type is accepted, and asking for it stops the node (`C132_cell_false`).
-/

namespace Axon.CkbData
open Axon.Exec Axon.WorldDb Axon.CkbChain
open Axon.Mol (le leNat)
open Axon.Trie (Node)
open Axon.Cells (OutPoint CellInfo CellOutput Script cellKey)
open Axon.MetaChain (ofVal zeroRoot)
open Axon.SysAbi (Header headerAbi)

variable {B H : Bytes → H256}

/-! ## Specification -/

/-- The fields reported are those of the header. -/
structure SameFields (v : HeaderView) (h : Header) : Prop where
  version : v.version = h.version
  compactTarget : v.compactTarget = h.compactTarget
  timestamp : v.timestamp = h.timestamp
  number : v.number = h.number
  epoch : v.epoch = h.epoch
  parentHash : v.parentHash = h.parentHash
  transactionsRoot : v.transactionsRoot = h.transactionsRoot
  proposalsHash : v.proposalsHash = h.proposalsHash
  extraHash : v.extraHash = h.extraHash
  dao : v.dao = h.dao
  nonce : v.nonce = h.nonce

/-- `w` bytes from position `i`. -/
def slice (b : Bytes) (i w : Nat) : Bytes := (b.drop i).take w

/-- The packed form of a header, as CKB hashes it: 208 bytes with each field in its place. -/
structure Packed (b : Bytes) (h : Header) : Prop where
  length : b.length = 208
  version : leNat (slice b 0 4) = h.version.val
  compactTarget : leNat (slice b 4 4) = h.compactTarget.val
  timestamp : leNat (slice b 8 8) = h.timestamp.val
  number : leNat (slice b 16 8) = h.number.val
  epoch : leNat (slice b 24 8) = h.epoch.val
  parentHash : slice b 32 32 = h.parentHash.bytes
  transactionsRoot : slice b 64 32 = h.transactionsRoot.bytes
  proposalsHash : slice b 96 32 = h.proposalsHash.bytes
  extraHash : slice b 128 32 = h.extraHash.bytes
  dao : slice b 160 32 = h.dao.bytes
  nonce : leNat (slice b 192 16) = h.nonce.val

/-- The numbers of hash types in CKB. -/
def codeOf : HashType → UInt8
  | .data => 0
  | .type => 1
  | .data1 => 2

structure SameScript (j : JsonScript) (s : Script) : Prop where
  codeHash : j.codeHash = s.codeHash
  hashType : codeOf j.hashType = s.hashType
  args : j.args = s.args

/-- The output reported is the one submitted; of the list of types the first counts. -/
structure SameOutput (j : JsonOutput) (o : CellOutput) : Prop where
  capacity : j.capacity = o.capacity
  lock : SameScript j.lock o.lock
  type_ : match j.type_ with
    | none => o.type_ = []
    | some t => ∃ s l, o.type_ = s :: l ∧ SameScript t s

/-- The scripts of an output have hash types that CKB knows. -/
def Known (o : CellOutput) : Prop := o.lock.hashType.toNat < 3 ∧ ∀ s ∈ o.type_.head?, s.hashType.toNat < 3

instance (o : CellOutput) : Decidable (Known o) := inferInstanceAs (Decidable (_ ∧ _))

/-! ## Headers -/

theorem slice_mid (a b c : Bytes) {i w : Nat} (ha : a.length = i) (hb : b.length = w) :
    slice (a ++ (b ++ c)) i w = b := by
  unfold slice
  rw [List.drop_left' ha, List.take_left' hb]

theorem packed_view (h : Header) : Packed (headerBytes (viewOf h)) h := by
  have e256 : ∀ x : H256, x.bytes.length = 32 := fun x => x.len
  have num : ∀ {w : Nat} (n : Nat), n < 256 ^ w → leNat (le w n) = n := fun n hn => Mol.leNat_le hn
  constructor
  · simp [headerBytes, viewOf, e256]
  · rw [show slice (headerBytes (viewOf h)) 0 4 = le 4 h.version.val from
      slice_mid [] (le 4 h.version.val) _ rfl (Mol.le_length _ _)]
    exact num _ h.version.lt
  · rw [show slice (headerBytes (viewOf h)) 4 4 = le 4 h.compactTarget.val from
      slice_mid (le 4 h.version.val) _ _ (by simp) (by simp)]
    exact num _ h.compactTarget.lt
  · rw [show slice (headerBytes (viewOf h)) 8 8 = le 8 h.timestamp.val by
      have := slice_mid (le 4 h.version.val ++ le 4 h.compactTarget.val) (le 8 h.timestamp.val) (i := 8) (w := 8)
      simp only [headerBytes, viewOf]
      simp only [List.append_assoc] at this
      exact this _ (by simp) (by simp)]
    exact num _ h.timestamp.lt
  · rw [show slice (headerBytes (viewOf h)) 16 8 = le 8 h.number.val by
      have := slice_mid (le 4 h.version.val ++ (le 4 h.compactTarget.val ++ le 8 h.timestamp.val))
        (le 8 h.number.val) (i := 16) (w := 8)
      simp only [headerBytes, viewOf]
      simp only [List.append_assoc] at this
      exact this _ (by simp) (by simp)]
    exact num _ h.number.lt
  · rw [show slice (headerBytes (viewOf h)) 24 8 = le 8 h.epoch.val by
      have := slice_mid (le 4 h.version.val ++ (le 4 h.compactTarget.val ++ (le 8 h.timestamp.val ++
        le 8 h.number.val))) (le 8 h.epoch.val) (i := 24) (w := 8)
      simp only [headerBytes, viewOf]
      simp only [List.append_assoc] at this
      exact this _ (by simp) (by simp)]
    exact num _ h.epoch.lt
  · have := slice_mid (le 4 h.version.val ++ (le 4 h.compactTarget.val ++ (le 8 h.timestamp.val ++
      (le 8 h.number.val ++ le 8 h.epoch.val)))) h.parentHash.bytes (i := 32) (w := 32)
    simp only [headerBytes, viewOf]
    simp only [List.append_assoc] at this
    exact this _ (by simp) (e256 _)
  · have := slice_mid (le 4 h.version.val ++ (le 4 h.compactTarget.val ++ (le 8 h.timestamp.val ++
      (le 8 h.number.val ++ (le 8 h.epoch.val ++ h.parentHash.bytes))))) h.transactionsRoot.bytes (i := 64) (w := 32)
    simp only [headerBytes, viewOf]
    simp only [List.append_assoc] at this
    exact this _ (by simp [e256]) (e256 _)
  · have := slice_mid (le 4 h.version.val ++ (le 4 h.compactTarget.val ++ (le 8 h.timestamp.val ++
      (le 8 h.number.val ++ (le 8 h.epoch.val ++ (h.parentHash.bytes ++ h.transactionsRoot.bytes))))))
      h.proposalsHash.bytes (i := 96) (w := 32)
    simp only [headerBytes, viewOf]
    simp only [List.append_assoc] at this
    exact this _ (by simp [e256]) (e256 _)
  · have := slice_mid (le 4 h.version.val ++ (le 4 h.compactTarget.val ++ (le 8 h.timestamp.val ++
      (le 8 h.number.val ++ (le 8 h.epoch.val ++ (h.parentHash.bytes ++ (h.transactionsRoot.bytes ++
      h.proposalsHash.bytes))))))) h.extraHash.bytes (i := 128) (w := 32)
    simp only [headerBytes, viewOf]
    simp only [List.append_assoc] at this
    exact this _ (by simp [e256]) (e256 _)
  · have := slice_mid (le 4 h.version.val ++ (le 4 h.compactTarget.val ++ (le 8 h.timestamp.val ++
      (le 8 h.number.val ++ (le 8 h.epoch.val ++ (h.parentHash.bytes ++ (h.transactionsRoot.bytes ++
      (h.proposalsHash.bytes ++ h.extraHash.bytes)))))))) h.dao.bytes (i := 160) (w := 32)
    simp only [headerBytes, viewOf]
    simp only [List.append_assoc] at this
    exact this _ (by simp [e256]) (e256 _)
  · rw [show slice (headerBytes (viewOf h)) 192 16 = le 16 h.nonce.val by
      have := slice_mid (le 4 h.version.val ++ (le 4 h.compactTarget.val ++ (le 8 h.timestamp.val ++
        (le 8 h.number.val ++ (le 8 h.epoch.val ++ (h.parentHash.bytes ++ (h.transactionsRoot.bytes ++
        (h.proposalsHash.bytes ++ (h.extraHash.bytes ++ h.dao.bytes))))))))) (le 16 h.nonce.val) [] (i := 192)
        (w := 16) (by simp [e256]) (by simp)
      simp only [headerBytes, viewOf]
      simp only [List.append_assoc, List.append_nil] at this
      exact this]
    exact num _ h.nonce.lt

/-- There is one packed form only: a string is determined by its slices. -/
theorem C132_packed {b b' : Bytes} {h : Header} (p : Packed b h) (q : Packed b' h) : b = b' := by
  have cut : ∀ (b : Bytes) (i w : Nat), b.drop i = slice b i w ++ b.drop (i + w) := by
    intro b i w
    unfold slice
    rw [← List.drop_drop, List.take_append_drop]
  have num : ∀ {i w n : Nat}, i + w ≤ 208 → leNat (slice b i w) = n → leNat (slice b' i w) = n →
      slice b i w = slice b' i w := by
    intro i w n hi h1 h2
    have l1 : (slice b i w).length = w := by simp [slice, p.length]; omega
    have l2 : (slice b' i w).length = w := by simp [slice, q.length]; omega
    have e1 := Mol.le_leNat (slice b i w)
    have e2 := Mol.le_leNat (slice b' i w)
    rw [l1, h1] at e1
    rw [l2, h2] at e2
    rw [← e1, ← e2]
  have last : ∀ b : Bytes, b.length = 208 → b.drop 208 = [] := fun b h => by simp [h]
  have full : ∀ b : Bytes, b.length = 208 → b = slice b 0 4 ++ (slice b 4 4 ++ (slice b 8 8 ++ (slice b 16 8 ++
      (slice b 24 8 ++ (slice b 32 32 ++ (slice b 64 32 ++ (slice b 96 32 ++ (slice b 128 32 ++ (slice b 160 32 ++
      slice b 192 16))))))))) := by
    intro b hb'
    have hz : b.drop (0 + 4 + 4 + 8 + 8 + 8 + 32 + 32 + 32 + 32 + 32 + 16) = [] := last b hb'
    calc b = b.drop 0 := rfl
      _ = _ := by
        rw [cut b 0 4, cut b (0 + 4) 4, cut b (0 + 4 + 4) 8, cut b (0 + 4 + 4 + 8) 8, cut b (0 + 4 + 4 + 8 + 8) 8,
          cut b (0 + 4 + 4 + 8 + 8 + 8) 32, cut b (0 + 4 + 4 + 8 + 8 + 8 + 32) 32,
          cut b (0 + 4 + 4 + 8 + 8 + 8 + 32 + 32) 32, cut b (0 + 4 + 4 + 8 + 8 + 8 + 32 + 32 + 32) 32,
          cut b (0 + 4 + 4 + 8 + 8 + 8 + 32 + 32 + 32 + 32) 32,
          cut b (0 + 4 + 4 + 8 + 8 + 8 + 32 + 32 + 32 + 32 + 32) 16, hz, List.append_nil]
  rw [full b p.length, full b' q.length, num (by decide) p.version q.version,
    num (by decide) p.compactTarget q.compactTarget, num (by decide) p.timestamp q.timestamp,
    num (by decide) p.number q.number, num (by decide) p.epoch q.epoch, p.parentHash, q.parentHash,
    p.transactionsRoot, q.transactionsRoot, p.proposalsHash, q.proposalsHash, p.extraHash, q.extraHash, p.dao, q.dao,
    num (by decide) p.nonce q.nonce]

variable {asks : List Bytes} {ops : List (Op headerAbi)} {c : Chain}

/-- C132: what is known about the committed states of a run. -/
theorem states (sm : Smooth H headerAbi asks ops) (h : run H headerAbi ops .init = .ok c) :
    ∃ m, memRun headerAbi ops (.init headerAbi) = .ok m ∧ c.world.roots.length = m.saved.length ∧
      ∀ (i : Nat) r, c.world.roots[i]? = some r → ∃ p root t, m.saved[i]? = some p ∧ rootAt H c r = .ok root ∧
        openStore H c.db root = .ok t ∧ Reads H headerAbi asks t p.1 ∧ Told headerAbi p.1 p.2 := by
  obtain ⟨m, h1, -, -, h4, h5⟩ := C130_past sm h
  have ht := told_run ops sm.roomy h1 told_init (fun p hp => by simp [Mem.init] at hp)
  refine ⟨m, h1, h4, fun i r hr => ?_⟩
  obtain ⟨p, t, e1, e2, e3⟩ := h5 i r hr
  obtain ⟨root, r1, r2⟩ := rootAt_of (e2 image (.inr rfl))
  exact ⟨p, root, t, e1, r1, r2, e3, ht.2 p (List.mem_of_getElem? e1)⟩

/-- C132: for every committed state and every hash asked for, a header that the calls left is reported with its
fields and the hash of its packed form, to scripts and in the RPC; any other hash is not found. -/
theorem C132_header (sm : Smooth H headerAbi asks ops) (h : run H headerAbi ops .init = .ok c) :
    ∃ m, memRun headerAbi ops (.init headerAbi) = .ok m ∧ c.world.roots.length = m.saved.length ∧
      ∀ (i : Nat) r, c.world.roots[i]? = some r → ∃ p root, m.saved[i]? = some p ∧ rootAt H c r = .ok root ∧
        ∀ k : H256, k.bytes ∈ asks →
          rpcHeader B H c r k = provideHeader B H c.db root k ∧
          match headers p.1 k with
          | none => rpcHeader B H c r k = .ok none ∧ provideExtension H c.db root k = .ok none
          | some x => provideExtension H c.db root k = .ok (some x.1.extension) ∧
              ∃ v b, rpcHeader B H c r k = .ok (some (v, B b)) ∧ SameFields v x.1 ∧ Packed b x.1 := by
  obtain ⟨m, h1, h2, h3⟩ := states sm h
  refine ⟨m, h1, h2, fun i r hr => ?_⟩
  obtain ⟨p, root, t, e1, e2, e3, e4, -⟩ := h3 i r hr
  refine ⟨p, root, e1, e2, fun k hk => ⟨?_, ?_⟩⟩
  · simp only [rpcHeader, e2, Outcome.bind]
  · have hr := e4.header k hk
    cases hx : headers p.1 k with
    | none =>
      rw [hx] at hr
      simp only [rpcHeader, provideExtension, provideHeader, readHeader, e2, e3, hr, Outcome.bind, settle, Option.map_none,
        and_self]
    | some x =>
      rw [hx] at hr
      simp only [rpcHeader, provideExtension, provideHeader, readHeader, e2, e3, hr, Outcome.bind, settle, Option.map_some]
      exact ⟨trivial, viewOf x.1, headerBytes (viewOf x.1), rfl, ⟨rfl, rfl, rfl, rfl, rfl, rfl, rfl, rfl, rfl, rfl, rfl⟩,
        packed_view _⟩

/-- C132, as far as it holds: a header submitted under the hash of its packed form is reported with the hash asked
for.  Missing: other headers, see `C132_hash_false`. -/
theorem C132_hash_partial (sm : Smooth H headerAbi asks ops) (h : run H headerAbi ops .init = .ok c) :
    ∃ m, memRun headerAbi ops (.init headerAbi) = .ok m ∧ c.world.roots.length = m.saved.length ∧
      ∀ (i : Nat) r, c.world.roots[i]? = some r → ∃ p, m.saved[i]? = some p ∧ ∀ k : H256, k.bytes ∈ asks →
        ∀ x, headers p.1 k = some x → (∀ b, Packed b x.1 → B b = x.1.blockHash) →
          ∃ v, rpcHeader B H c r k = .ok (some (v, k)) ∧ SameFields v x.1 := by
  obtain ⟨m, h1, h2, h3⟩ := C132_header (B := B) sm h
  refine ⟨m, h1, h2, fun i r hr => ?_⟩
  obtain ⟨p, root, e1, -, e3⟩ := h3 i r hr
  refine ⟨p, e1, fun k hk x hx hh => ?_⟩
  have := (e3 k hk).2
  rw [hx] at this
  obtain ⟨-, v, b, r1, r2, r3⟩ := this
  have hb' : B b = k := by rw [hh b r3]; exact headers_hash p.1 hx
  rw [hb'] at r1
  exact ⟨v, r1, r2⟩

/-! ## Cells -/

theorem hashType_known {b : UInt8} (h : b.toNat < 3) : ∃ t, hashType? b = some t ∧ codeOf t = b := by
  have : b = 0 ∨ b = 1 ∨ b = 2 := by
    have e : UInt8.ofNat b.toNat = b := UInt8.ofNat_toNat
    have : b.toNat = 0 ∨ b.toNat = 1 ∨ b.toNat = 2 := by omega
    rcases this with h | h | h <;> rw [h] at e
    · exact .inl e.symm
    · exact .inr (.inl e.symm)
    · exact .inr (.inr e.symm)
  rcases this with rfl | rfl | rfl
  · exact ⟨.data, rfl, rfl⟩
  · exact ⟨.type, rfl, rfl⟩
  · exact ⟨.data1, rfl, rfl⟩

theorem hashType_unknown {b : UInt8} (h : ¬b.toNat < 3) : hashType? b = none := by
  unfold hashType?
  have h0 : b ≠ 0 := by rintro rfl; exact h (by decide)
  have h1 : b ≠ 1 := by rintro rfl; exact h (by decide)
  have h2 : b ≠ 2 := by rintro rfl; exact h (by decide)
  simp [h0, h1, h2]

theorem jsonScript_known {s : Script} (h : s.hashType.toNat < 3) : ∃ j, jsonScript s = .ok j ∧ SameScript j s := by
  obtain ⟨t, h1, h2⟩ := hashType_known h
  refine ⟨⟨s.codeHash, t, s.args⟩, ?_, rfl, h2, rfl⟩
  simp only [jsonScript, h1, Outcome.orPanic, Outcome.bind]

theorem jsonScript_unknown {s : Script} (h : ¬s.hashType.toNat < 3) : jsonScript s = .panic := by
  simp only [jsonScript, hashType_unknown h, Outcome.orPanic, Outcome.bind]

theorem jsonOutput_known {o : CellOutput} (h : Known o) :
    ∃ j, jsonOutput { o with type_ := o.type_.take 1 } = .ok j ∧ SameOutput j o := by
  obtain ⟨l, h1, h2⟩ := jsonScript_known h.1
  cases ht : o.type_ with
  | nil =>
    refine ⟨⟨o.capacity, l, none⟩, ?_, rfl, h2, ht⟩
    simp only [jsonOutput, h1, Outcome.bind, List.take_nil]
  | cons s ts =>
    obtain ⟨t, t1, t2⟩ := jsonScript_known (s := s) (h.2 s (by simp [ht]))
    refine ⟨⟨o.capacity, l, some t⟩, ?_, rfl, h2, s, ts, ht, t2⟩
    simp only [jsonOutput, h1, t1, Outcome.bind, List.take_succ_cons, List.take_zero]

theorem jsonOutput_unknown {o : CellOutput} (h : ¬Known o) :
    jsonOutput { o with type_ := o.type_.take 1 } = .panic := by
  by_cases hl : o.lock.hashType.toNat < 3
  · obtain ⟨l, h1, -⟩ := jsonScript_known hl
    cases ht : o.type_ with
    | nil => exact absurd ⟨hl, by simp [ht]⟩ h
    | cons s ts =>
      have : ¬s.hashType.toNat < 3 := fun hs => h ⟨hl, by simpa [ht] using hs⟩
      simp only [jsonOutput, h1, jsonScript_unknown this, Outcome.bind, List.take_succ_cons]
  · simp only [jsonOutput, jsonScript_unknown hl, Outcome.bind]

/-- Outputs that are packed alike have the same scripts. -/
theorem known_pack {a b : CellOutput} (h : Cells.packOutput a = Cells.packOutput b)
    (hl : (Cells.packOutput a).length < 2 ^ 32) : Known a ↔ Known b := by
  have h1 := Cells.C75_output_partial a hl
  have h2 := Cells.C75_output_partial b (h ▸ hl)
  rw [h, h2] at h1
  have h3 := Outcome.ok.inj h1
  injection h3 with e1 e2 e3
  unfold Known
  rw [e2]
  have : a.type_.head? = b.type_.head? := by
    have := congrArg List.head? e3
    revert this
    cases a.type_ <;> cases b.type_ <;> simp
    exact fun h => h.symm
  rw [this]

/-- C132, as far as it holds: for every committed state and every out point, a cell that is there is reported with
the output and data of an accepted update that created it; other out points are unknown.  Asking for a cell with an
unknown hash type stops the node, see `C132_cell_false`; for empty data the RPC reports another hash than scripts
get, see `C132_data_false`. -/
theorem C132_cell_partial (sm : Smooth H headerAbi asks ops) (h : run H headerAbi ops .init = .ok c) :
    ∃ m, memRun headerAbi ops (.init headerAbi) = .ok m ∧ c.world.roots.length = m.saved.length ∧
      ∀ (i : Nat) r, c.world.roots[i]? = some r → ∃ p root, m.saved[i]? = some p ∧ rootAt H c r = .ok root ∧
        ∀ o : OutPoint, cellKey o ∈ asks →
          match cells p.1 o with
          | none => (∀ wd, rpcCell B H c r o wd = .ok none) ∧ provideMeta B H c.db root o = .ok none ∧
              provideData H c.db root o = .ok none ∧ provideDataHash B H c.db root o = .ok none
          | some x => ∃ n, Submitted p.1 n ∧ n.outPoint = o ∧ x.output = Cells.packOutput n.output ∧
              x.data = n.data ∧
              (∃ y, provideMeta B H c.db root o = .ok (some y) ∧ y.output = x.output ∧ y.data = n.data ∧
                y.dataBytes = n.data.length ∧ provideData H c.db root o = .ok (some n.data) ∧
                provideDataHash B H c.db root o = .ok (some y.dataHash) ∧
                (n.data = [] → y.dataHash = zeroRoot) ∧ (n.data ≠ [] → y.dataHash = B n.data)) ∧
              (Known n.output → ∀ wd, ∃ j, rpcCell B H c r o wd = .ok (some j) ∧ SameOutput j.output n.output ∧
                j.data = if wd then some (n.data, B n.data) else none) ∧
              (¬Known n.output → ∀ wd, rpcCell B H c r o wd = .panic) := by
  obtain ⟨m, h1, h2, h3⟩ := states sm h
  refine ⟨m, h1, h2, fun i r hr => ?_⟩
  obtain ⟨p, root, t, e1, e2, e3, e4, e5⟩ := h3 i r hr
  refine ⟨p, root, e1, e2, fun o ho => ?_⟩
  have hr := e4.cell o ho
  cases hx : cells p.1 o with
  | none =>
    rw [hx] at hr
    simp only [rpcCell, provideMeta, provideData, provideDataHash, readCell, e2, e3, hr, Outcome.bind, settle,
      Option.map_none, implies_true, and_self]
  | some x =>
    rw [hx] at hr
    obtain ⟨n, n1, n2, n3, n4⟩ := cells_submitted p.1 hx
    have hfit := (Cells.view_fits (Cells.inv_reach headerAbi e5.reach).good (o := o) (c := x)
      (by rw [e5.cell, hx])).2.1
    rw [n3] at hfit
    have hu := Cells.C75_output_partial n.output hfit
    rw [← n3] at hu
    refine ⟨n, n1, n2, n3, n4, ⟨metaOf B x, ?_, rfl, n4, ?_, ?_, ?_, ?_, ?_⟩, fun hk wd => ?_, fun hk wd => ?_⟩
    · simp only [provideMeta, readCell, e3, hr, Outcome.bind, settle, Option.map_some]
    · simp only [metaOf, n4]
    · simp only [provideData, readCell, e3, hr, Outcome.bind, settle, Option.map_some, n4]
    · simp only [provideDataHash, provideData, readCell, e3, hr, Outcome.bind, settle, Option.map_some, metaOf, dataHash]
      cases x.data <;> simp
    · intro hn
      simp [metaOf, dataHash, n4, hn]
    · intro hn
      simp [metaOf, dataHash, n4, hn]
    · obtain ⟨j, j1, j2⟩ := jsonOutput_known hk
      refine ⟨⟨j, if wd then some (n.data, B n.data) else none⟩, ?_, j2, rfl⟩
      simp only [rpcCell, provideMeta, readCell, e2, e3, hr, Outcome.bind, settle, Option.map_some, metaOf, hu, j1, n4]
    · simp only [rpcCell, provideMeta, readCell, e2, e3, hr, Outcome.bind, settle, Option.map_some, metaOf, hu,
        jsonOutput_unknown hk]

/-! ## Where it fails -/

/-- Two headers that differ in their version, submitted under the same hash. -/
def other : headerAbi.Header :=
  ⟨{ (head 11).1 with version := ⟨7, by decide⟩ }, by show 3 + 512 < 2 ^ 32; decide⟩

/-- Cell 1 has no data, cell 2 a lock with the hash type 9, cell 3 nothing special. -/
def strange : List Cells.BlockUpdate :=
  [⟨Cells.num 1, [], [⟨Cells.op 1, ⟨Cells.num 100, Cells.lockScript, []⟩, []⟩,
    ⟨Cells.op 2, ⟨Cells.num 100, ⟨Cells.hashOf 7, 9, []⟩, []⟩, [5]⟩,
    ⟨Cells.op 3, ⟨Cells.num 100, Cells.lockScript, [⟨Cells.hashOf 8, 2, [1]⟩]⟩, [5]⟩]⟩]

def life2 : List (Op headerAbi) :=
  [.boot, .finish, .block, .call alice (some (.saveHeaders [head 11])), .call alice (some (.update strange)), .finish,
   .block, .call alice (some (.saveHeaders [other])), .finish]

theorem life2_smooth : Smooth toy headerAbi asks0 life2 where
  fine := fine_of (by decide +kernel)
  harmless := by
    intro o ho
    simp only [life2, List.mem_cons, List.not_mem_nil, or_false] at ho
    rcases ho with rfl | rfl | rfl | rfl | rfl | rfl | rfl | rfl | rfl <;> trivial
  roomy := by
    intro o ho
    simp only [life2, List.mem_cons, List.not_mem_nil, or_false] at ho
    rcases ho with rfl | rfl | rfl | rfl | rfl | rfl | rfl | rfl | rfl <;>
      first
      | trivial
      | (show Cells.FitsBlocks strange
         unfold Cells.FitsBlocks
         decide +kernel)
  sized := by
    have h : ((committed toy headerAbi life2 .init).all fun t => MetaTrie.sizedB t) = true := by
      decide +kernel
    rw [List.all_eq_true] at h
    exact fun t ht => MetaTrie.sized_of t (h t ht)

theorem life2_ok : MetaChain.isOk (run toy headerAbi life2 .init) = true := by decide +kernel

def fields (x : headerAbi.Header) : Header := x.1

/-- Of the commits: the header under hash 11 and the cells 1, 2 and 3. -/
def facts2 : Outcome (Mem headerAbi) → List (Option headerAbi.Header × List (Option CellInfo))
  | .ok m => m.saved.map fun p => (headers p.1 (Cells.hashOf 11), [Cells.op 1, Cells.op 2, Cells.op 3].map (cells p.1))
  | _ => []

def stored2 : List (Option CellInfo) := (strange.flatMap (·.outputs)).map fun n => some (Cells.newInfo n (Cells.num 1))

theorem life2_facts : (facts2 (memRun headerAbi life2 (.init _))).map (fun x => (x.1.map fields, x.2)) =
    [(none, [none, none, none]), (some (head 11).1, stored2), (some other.1, stored2)] := by decide +kernel

/-- What the second and third commit of this life hold. -/
theorem life2_states : ∃ c m p q r₁ r₂, run toy headerAbi life2 .init = .ok c ∧
    memRun headerAbi life2 (.init headerAbi) = .ok m ∧ c.world.roots[1]? = some r₁ ∧ c.world.roots[2]? = some r₂ ∧
    m.saved[1]? = some p ∧ m.saved[2]? = some q ∧
    (headers p.1 (Cells.hashOf 11)).map fields = some (head 11).1 ∧
    (headers q.1 (Cells.hashOf 11)).map fields = some other.1 ∧
    [Cells.op 1, Cells.op 2, Cells.op 3].map (cells p.1) = stored2 := by
  obtain ⟨c, hc⟩ := MetaChain.some_of_isOk life2_ok
  obtain ⟨m, h1, h2, -⟩ := states life2_smooth hc
  have hf := life2_facts
  rw [h1] at hf
  have hlen : m.saved.length = 3 := by
    have := congrArg List.length hf
    simpa [facts2] using this
  have g1 : c.world.roots[1]? = some (c.world.roots[1]'(by omega)) := by simp [show 1 < c.world.roots.length by omega]
  have g2 : c.world.roots[2]? = some (c.world.roots[2]'(by omega)) := by simp [show 2 < c.world.roots.length by omega]
  have s1 : m.saved[1]? = some (m.saved[1]'(by omega)) := by simp [show 1 < m.saved.length by omega]
  have s2 : m.saved[2]? = some (m.saved[2]'(by omega)) := by simp [show 2 < m.saved.length by omega]
  have f1 := congrArg (fun l => l[1]?) hf
  have f2 := congrArg (fun l => l[2]?) hf
  simp only [facts2, List.getElem?_map, s1, s2, Option.map_some, List.getElem?_cons_succ, List.getElem?_cons_zero,
    Option.some.injEq, Prod.mk.injEq] at f1 f2
  exact ⟨c, m, _, _, _, _, hc, h1, g1, g2, s1, s2, f1.1, f2.1, f1.2⟩

/-- Not so: unless the hash of CKB collides on the two headers, there is a run with a committed state for which the
header reported has another hash than the one asked for. -/
theorem C132_hash_false (hB : ∀ b b', Packed b (head 11).1 → Packed b' other.1 → B b ≠ B b') :
    ∃ (ops : List (Op headerAbi)) (asks : List Bytes) (c : Chain), Smooth toy headerAbi asks ops ∧
      run toy headerAbi ops .init = .ok c ∧ ∃ r ∈ c.world.roots, ∃ k v h, k.bytes ∈ asks ∧
        rpcHeader B toy c r k = .ok (some (v, h)) ∧ h ≠ k := by
  obtain ⟨c, m, p, q, r₁, r₂, hc, hm, g1, g2, s1, s2, f1, f2, -⟩ := life2_states
  refine ⟨life2, asks0, c, life2_smooth, hc, ?_⟩
  obtain ⟨m', h1, -, h3⟩ := C132_header (B := B) life2_smooth hc
  rw [hm] at h1
  cases h1
  obtain ⟨p', root, e1, -, e3⟩ := h3 1 r₁ g1
  obtain ⟨q', root', d1, -, d3⟩ := h3 2 r₂ g2
  rw [s1] at e1
  rw [s2] at d1
  cases e1
  cases d1
  have hk : (Cells.hashOf 11).bytes ∈ asks0 := by simp [asks0]
  obtain ⟨x, x1, x2⟩ := Option.map_eq_some_iff.1 f1
  obtain ⟨y, y1, y2⟩ := Option.map_eq_some_iff.1 f2
  have a1 := (e3 _ hk).2
  have a2 := (d3 _ hk).2
  rw [x1] at a1
  rw [y1] at a2
  obtain ⟨-, v, b, v1, -, v3⟩ := a1
  obtain ⟨-, w, b', w1, -, w3⟩ := a2
  rw [show x.1 = (head 11).1 from x2] at v3
  rw [show y.1 = other.1 from y2] at w3
  by_cases h : B b = Cells.hashOf 11
  · exact ⟨r₂, List.mem_of_getElem? g2, _, w, B b', hk, w1, fun e => hB b b' v3 w3 (h.trans e.symm)⟩
  · exact ⟨r₁, List.mem_of_getElem? g1, _, v, B b, hk, v1, h⟩

/-- The hypothesis of `C132_hash_false` holds of a hash that keeps the first 32 bytes. -/
example : ∃ B : Bytes → H256, ∀ b b', Packed b (head 11).1 → Packed b' other.1 → B b ≠ B b' := by
  refine ⟨fun b => ⟨b.take 32 ++ List.replicate (32 - (b.take 32).length) 0, by simp; omega⟩, fun b b' p q e => ?_⟩
  have h1 := congrArg FixedBytes.bytes e
  have l1 := p.length
  have l2 := q.length
  simp only at h1
  have t1 : (b.take 32).length = 32 := by simp [l1]
  have t2 : (b'.take 32).length = 32 := by simp [l2]
  rw [t1, t2] at h1
  simp only [Nat.sub_self, List.replicate_zero, List.append_nil] at h1
  have h2 := congrArg (List.take 4) h1
  rw [List.take_take, List.take_take] at h2
  have v1 := p.version
  have v2 := q.version
  have : slice b 0 4 = slice b' 0 4 := h2
  rw [this, v2] at v1
  exact absurd v1 (by decide)

/-- Not so: there is a run, accepted by the contract, after which asking for a cell stops the node. -/
theorem C132_cell_false : ∃ (ops : List (Op headerAbi)) (asks : List Bytes) (c : Chain), Smooth toy headerAbi asks ops ∧
    run toy headerAbi ops .init = .ok c ∧ ∃ r ∈ c.world.roots, ∃ o, cellKey o ∈ asks ∧
      ∀ B wd, rpcCell B toy c r o wd = .panic := by
  obtain ⟨c, m, p, q, r₁, r₂, hc, hm, g1, -, s1, -, -, -, f⟩ := life2_states
  refine ⟨life2, asks0, c, life2_smooth, hc, r₁, List.mem_of_getElem? g1, Cells.op 2, by simp [asks0], fun B => ?_⟩
  obtain ⟨m', h1, -, h3⟩ := C132_cell_partial (B := B) life2_smooth hc
  rw [hm] at h1
  cases h1
  obtain ⟨p', root, e1, -, e3⟩ := h3 1 r₁ g1
  rw [s1] at e1
  cases e1
  have a := e3 (Cells.op 2) (by simp [asks0])
  simp only [List.map_cons, List.map_nil, stored2, strange, List.flatMap_cons, List.flatMap_nil, List.append_nil,
    List.cons.injEq] at f
  rw [f.2.1] at a
  obtain ⟨n, -, -, n3, -, -, -, n7⟩ := a
  refine n7 fun hk => ?_
  exact absurd ((known_pack n3 (by decide +kernel)).2 hk) (by decide)

/-- Not so: for a cell without data the RPC reports the hash of the empty string, scripts get zero. -/
theorem C132_data_false (hB : B [] ≠ zeroRoot) : ∃ (ops : List (Op headerAbi)) (asks : List Bytes) (c : Chain),
    Smooth toy headerAbi asks ops ∧ run toy headerAbi ops .init = .ok c ∧ ∃ r ∈ c.world.roots, ∃ root o j h h',
      cellKey o ∈ asks ∧ rootAt toy c r = .ok root ∧ provideDataHash B toy c.db root o = .ok (some h) ∧
      rpcCell B toy c r o true = .ok (some ⟨j, some ([], h')⟩) ∧ h ≠ h' := by
  obtain ⟨c, m, p, q, r₁, r₂, hc, hm, g1, -, s1, -, -, -, f⟩ := life2_states
  refine ⟨life2, asks0, c, life2_smooth, hc, r₁, List.mem_of_getElem? g1, ?_⟩
  obtain ⟨m', h1, -, h3⟩ := C132_cell_partial (B := B) life2_smooth hc
  rw [hm] at h1
  cases h1
  obtain ⟨p', root, e1, e2, e3⟩ := h3 1 r₁ g1
  rw [s1] at e1
  cases e1
  have a := e3 (Cells.op 1) (by simp [asks0])
  simp only [List.map_cons, List.map_nil, stored2, strange, List.flatMap_cons, List.flatMap_nil, List.append_nil,
    List.cons.injEq] at f
  rw [f.1] at a
  obtain ⟨n, -, -, n3, n4, ⟨y, y1, y2, y3, y4, y5, y6, y7, y8⟩, n6, -⟩ := a
  have n4 : n.data = [] := n4.symm
  obtain ⟨j, j1, -, j3⟩ := n6 ((known_pack n3 (by decide +kernel)).1 (by decide)) true
  refine ⟨root, Cells.op 1, j.output, zeroRoot, B [], by simp [asks0], e2, ?_, ?_, fun e => hB e.symm⟩
  · rw [y6, y7 n4]
  · rw [j1]
    rw [n4] at j3
    cases j
    simp only at j3
    rw [j3]
    rfl

/-- The hypotheses of the other theorems hold of this life; cell 3 is reported with its two scripts and its data. -/
example : ∃ c r j, run toy headerAbi life2 .init = .ok c ∧ r ∈ c.world.roots ∧
    rpcCell toy toy c r (Cells.op 3) true = .ok (some j) ∧ j.output.lock = ⟨Cells.hashOf 7, .type, [1, 2, 3]⟩ ∧
    j.output.type_ = some ⟨Cells.hashOf 8, .data1, [1]⟩ ∧ j.data = some ([5], toy [5]) := by
  have h : (match run toy headerAbi life2 .init with
    | .ok c => match c.world.roots[1]? with
      | some r => match rpcCell toy toy c r (Cells.op 3) true with
        | .ok (some j) => decide (j.output.lock = ⟨Cells.hashOf 7, .type, [1, 2, 3]⟩ ∧
            j.output.type_ = some ⟨Cells.hashOf 8, .data1, [1]⟩ ∧ j.data = some ([5], toy [5]))
        | _ => false
      | none => false
    | _ => false) = true := by decide +kernel
  split at h
  · split at h
    · rename_i hr
      split at h
      · rename_i hj
        exact ⟨_, _, _, by assumption, List.mem_of_getElem? hr, hj, of_decide_eq_true h⟩
      · cases h
    · cases h
  · cases h

theorem viewOf_hash (h : Header) (k : H256) : viewOf { h with blockHash := k } = viewOf h := rfl

/-- The hypothesis of `C132_hash_partial`: a header under the hash of its packed form. -/
example : ∃ x : Header, ∀ b, Packed b x → toy b = x.blockHash :=
  ⟨{ (head 11).1 with blockHash := toy (headerBytes (viewOf (head 11).1)) }, fun b p => by
    have q := packed_view { (head 11).1 with blockHash := toy (headerBytes (viewOf (head 11).1)) }
    rw [C132_packed p q, viewOf_hash]⟩

end Axon.CkbData
