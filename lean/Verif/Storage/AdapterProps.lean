import Verif.Storage.AdapterLemmas

/-!
# C121: the database is a set of independent typed tables, whichever adapter holds it
-/

namespace Axon.Adapter
open Axon.Assoc Axon.Rlp Axon.Storage

/-! ## Specification -/

/-- Typed tables. -/
abbrev Tables (ρ : Type) := Table → Key → Option (Value ρ)

def Tables.set {ρ : Type} (s : Tables ρ) (t : Table) (k : Key) (v : Option (Value ρ)) : Tables ρ :=
  fun t' k' => if t' = t ∧ k' = k then v else s t' k'

/-- Whether a value has bytes at all: all but legacy transactions whose `v` overflows. -/
def Value.writable {ρ : Type} : Value ρ → Bool
  | .signed t => (Tx.encodeTx t.tx).isSome
  | _ => true

/-- What the calls mean. -/
def Tables.step {ρ : Type} (s : Tables ρ) : Op ρ → Tables ρ × Outcome (Reply ρ)
  | .insert t k v => if v.writable then (s.set t k (some v), .ok .done) else (s, .panic)
  | .get t k => (s, .ok (.value (s t k)))
  | .remove t k => (s.set t k none, .ok .done)
  | .contains t k => (s, .ok (.flag (s t k).isSome))
  | .batch t ks vs =>
    if ks.length = vs.length then
      if vs.all (fun v => v.all Value.writable) then
        ((ks.zip vs).foldl (fun s p => s.set t p.1 p.2) s, .ok .done)
      else (s, .panic)
    else (s, .err)

/-- Values that come back as they were: transactions that were made by `from_unverified` from a submittable
one (types/transaction.rs:433-461), and nothing of more than 2^64 bytes. -/
def Storable {ρ : Type} (c : Ctx ρ) (v : Value ρ) : Prop :=
  (∀ b, encodeValue c v = .ok b → b.length < 2 ^ 64) ∧
  match v with
  | .signed t => Tx.Submittable t.tx ∧ ∃ p, c.recover t.tx = some p ∧ t.sender = p.2 ∧ t.pubkey = some p.1
  | _ => True

/-- The calls that the type checker of Rust lets through, with storable values. -/
def Typed {ρ : Type} (c : Ctx ρ) : Op ρ → Prop
  | .insert t k v => t.hasKey k ∧ t.hasValue v ∧ Storable c v
  | .get t k | .remove t k | .contains t k => t.hasKey k
  | .batch t ks vs => (∀ k ∈ ks, t.hasKey k) ∧ ∀ v ∈ vs, ∀ x, v = some x → t.hasValue x ∧ Storable c x

/-- A call is about this key of this table. -/
def About {ρ : Type} (t : Table) (k : Key) : Op ρ → Prop
  | .insert t' k' _ | .get t' k' | .remove t' k' | .contains t' k' => t' = t ∧ k' = k
  | .batch t' ks _ => t' = t ∧ k ∈ ks

/-- No hash is the key of two tables that share a category. -/
def Apart {ρ : Type} (ops : List (Op ρ)) : Prop :=
  ∀ h, ∀ p ∈ [(Table.blockHashNumber, Table.txHashNumber), (.latestBlock, .latestProof), (.evmCode, .evmCodeAddress)],
    (∃ op ∈ ops, About p.1 (.hash h) op) → ¬ ∃ op ∈ ops, About p.2 (.hash h) op

/-! ## Theorems -/

theorem roundtrip {ρ : Type} (c : Ctx ρ) {t : Table} {v : Value ρ} (ht : t.hasValue v) (hs : Storable c v)
    {b : Bytes} (he : encodeValue c v = .ok b) : decodeValue c t b = .ok v := by
  have hl := hs.1 b he
  have o64 : ∀ {α : Type} (x : α), Outcome.ofOption (some x) = .ok x := fun _ => rfl
  cases v with
  | signed x =>
    have h2 := hs.2
    obtain ⟨hsub, p, hr, h3, h4⟩ := h2
    cases t <;> simp only [Table.hasValue] at ht <;> try contradiction
    cases hx : Tx.encodeTx x.tx with
    | none => simp [encodeValue, hx, Outcome.orPanic, Outcome.bind] at he
    | some raw =>
      simp only [encodeValue, hx, Outcome.orPanic, Outcome.bind, Outcome.ok.injEq] at he
      subst he
      have hraw : raw.length < 2 ^ 64 := Nat.lt_of_le_of_lt (encStr_length raw) hl
      have hd := Tx.C02_roundtrip x.tx hsub raw hx hraw
      obtain ⟨sg, hsg, -⟩ := hsub.1
      simp only [decodeValue, decodeSigned, decode_encode_item _ hl, Option.bind_some, toBytes_str,
        Outcome.ofOption, Outcome.bind, hd, hsg, hr]
      cases x
      simp_all
  | block x =>
    simp only [encodeValue, Outcome.ok.injEq] at he
    subst he
    cases t <;> simp only [Table.hasValue] at ht <;> try contradiction
    all_goals simp only [decodeValue, Block.C05_block_roundtrip x hl]; rfl
  | header x =>
    simp only [encodeValue, Outcome.ok.injEq] at he
    subst he
    cases t <;> simp only [Table.hasValue] at ht <;> try contradiction
    all_goals simp only [decodeValue, Block.C05_header_roundtrip x hl]; rfl
  | receipt x =>
    simp only [encodeValue, Outcome.ok.injEq] at he
    subst he
    cases t <;> simp only [Table.hasValue] at ht <;> try contradiction
    all_goals simp only [decodeValue, Block.C07_receipt_roundtrip_partial c.exit x hl]; rfl
  | number x =>
    simp only [encodeValue, Outcome.ok.injEq] at he
    subst he
    cases t <;> simp only [Table.hasValue] at ht <;> try contradiction
    all_goals simp only [decodeValue, decode_encode_item _ hl, Option.bind_some, toUint_ofUint]; rfl
  | proof x =>
    simp only [encodeValue, Outcome.ok.injEq] at he
    subst he
    cases t <;> simp only [Table.hasValue] at ht <;> try contradiction
    all_goals simp only [decodeValue, Block.C05_proof_roundtrip x hl]; rfl
  | bytes x =>
    simp only [encodeValue, Outcome.ok.injEq] at he
    subst he
    cases t <;> simp only [Table.hasValue] at ht <;> try contradiction
    all_goals simp only [decodeValue, decode_encode_item _ hl, Option.bind_some, toBytes_str]; rfl
  | hash x =>
    simp only [encodeValue, Outcome.ok.injEq] at he
    subst he
    cases t <;> simp only [Table.hasValue] at ht <;> try contradiction
    all_goals simp only [decodeValue, decode_encode_item _ hl, Option.bind_some, toFixed_ofFixed]; rfl
  | fork x =>
    simp only [encodeValue, Outcome.ok.injEq] at he
    subst he
    cases t <;> simp only [Table.hasValue] at ht <;> try contradiction
    simp only [decodeValue, decode_encode_item _ hl, Option.bind_some]
    simp [itemFork, Block.valAt, Outcome.ofOption]

theorem encodeValue_writable {ρ : Type} (c : Ctx ρ) (v : Value ρ) :
    (v.writable = true ∧ ∃ b, encodeValue c v = .ok b) ∨ (v.writable = false ∧ encodeValue c v = .panic) := by
  cases v with
  | signed t =>
    cases h : Tx.encodeTx t.tx with
    | none => right; simp [Value.writable, encodeValue, h, Outcome.orPanic, Outcome.bind]
    | some b => left; simp [Value.writable, encodeValue, h, Outcome.orPanic, Outcome.bind]
  | _ => left; exact ⟨rfl, _, rfl⟩

/-- What the bytes under a key mean for the table. -/
def Means {ρ : Type} (c : Ctx ρ) (t : Table) : Option Bytes → Option (Value ρ) → Prop
  | none, none => True
  | some b, some v => encodeValue c v = .ok b ∧ t.hasValue v ∧ Storable c v
  | _, _ => False

/-- The contents hold the tables for the keys in use. -/
def Agree {ρ : Type} (c : Ctx ρ) (U : Table → Key → Prop) (r : Raw) (s : Tables ρ) : Prop :=
  ∀ t k, U t k → Means c t (r t.cat (encodeKey k)) (s t k)

/-- Distinct keys in use do not share bytes. -/
def Separate (U : Table → Key → Prop) : Prop :=
  ∀ t k t' k', U t k → U t' k' → t.cat = t'.cat → encodeKey k = encodeKey k' → t = t' ∧ k = k'

theorem agree_set {ρ : Type} {c : Ctx ρ} {U : Table → Key → Prop} (hu : Separate U) {r : Raw} {s : Tables ρ}
    (h : Agree c U r s) {t : Table} {k : Key} (hk : U t k) {b : Option Bytes} {v : Option (Value ρ)}
    (hm : Means c t b v) : Agree c U (r.set t.cat (encodeKey k) b) (s.set t k v) := by
  intro t' k' hk'
  by_cases e : t' = t ∧ k' = k
  · obtain ⟨rfl, rfl⟩ := e
    simpa [Raw.set, Tables.set] using hm
  · have hne : ¬ (t'.cat = t.cat ∧ encodeKey k' = encodeKey k) := by
      rintro ⟨e1, e2⟩
      exact e (hu t' k' t k hk' hk e1 e2)
    simp only [Raw.set, Tables.set, if_neg e, if_neg hne]
    exact h t' k' hk'

theorem agree_batch {ρ : Type} {c : Ctx ρ} {U : Table → Key → Prop} (hu : Separate U) {t : Table}
    (l : List (Key × Option (Value ρ))) (hk : ∀ p ∈ l, U t p.1)
    (hv : ∀ p ∈ l, ∀ x, p.2 = some x → t.hasValue x ∧ Storable c x) :
    (∃ ps, encodePairs c l = .ok ps ∧ (∀ p ∈ l, p.2.all Value.writable) ∧
      ∀ r s, Agree c U r s → Agree c U (r.sets t.cat ps) (l.foldl (fun s p => s.set t p.1 p.2) s)) ∨
    (encodePairs c l = .panic ∧ ∃ p ∈ l, p.2.all Value.writable = false) := by
  induction l with
  | nil => left; exact ⟨[], rfl, by simp, fun r s h => h⟩
  | cons p l ih =>
    obtain ⟨k, v⟩ := p
    have hk0 := hk (k, v) (by simp)
    rcases ih (fun p hp => hk p (by simp [hp])) (fun p hp => hv p (by simp [hp])) with
      ⟨ps, h1, h2, h3⟩ | ⟨h1, p, hp, h2⟩
    · cases v with
      | none =>
        left
        refine ⟨(encodeKey k, none) :: ps, by simp [encodePairs, h1, Outcome.bind], ?_, ?_⟩
        · intro p hp
          rcases List.mem_cons.1 hp with rfl | hp
          · rfl
          · exact h2 p hp
        · intro r s h
          exact h3 _ _ (agree_set hu h hk0 (b := none) (v := none) trivial)
      | some v =>
        rcases encodeValue_writable c v with ⟨hw, b, hb⟩ | ⟨hw, hb⟩
        · left
          refine ⟨(encodeKey k, some b) :: ps, by simp [encodePairs, h1, hb, Outcome.bind], ?_, ?_⟩
          · intro p hp
            rcases List.mem_cons.1 hp with rfl | hp
            · simpa using hw
            · exact h2 p hp
          · intro r s h
            obtain ⟨e1, e2⟩ := hv (k, some v) (by simp) v rfl
            exact h3 _ _ (agree_set hu h hk0 (b := some b) (v := some v) ⟨hb, e1, e2⟩)
        · right
          exact ⟨by simp [encodePairs, hb, Outcome.bind], (k, some v), by simp, by simpa using hw⟩
    · right
      cases v with
      | none => exact ⟨by simp [encodePairs, h1, Outcome.bind], p, by simp [hp], h2⟩
      | some v =>
        rcases encodeValue_writable c v with ⟨hw, b, hb⟩ | ⟨hw, hb⟩
        · exact ⟨by simp [encodePairs, h1, hb, Outcome.bind], p, by simp [hp], h2⟩
        · exact ⟨by simp [encodePairs, hb, Outcome.bind], p, by simp [hp], h2⟩

theorem means_found {ρ : Type} {c : Ctx ρ} {t : Table} {b : Option Bytes} {v : Option (Value ρ)}
    (h : Means c t b v) : decodeFound c t b = .ok (.value v) ∧ b.isSome = v.isSome := by
  cases b with
  | none =>
    cases v with
    | none => exact ⟨rfl, rfl⟩
    | some v => exact h.elim
  | some b =>
    cases v with
    | none => exact h.elim
    | some v =>
      obtain ⟨h1, h2, h3⟩ := h
      refine ⟨?_, rfl⟩
      simp [decodeFound, roundtrip c h2 h3 h1, Outcome.bind]

theorem step_agree {ρ : Type} {c : Ctx ρ} {U : Table → Key → Prop} (hu : Separate U) {r : Raw} {s : Tables ρ}
    (h : Agree c U r s) (op : Op ρ) (ht : Typed c op) (ho : ∀ t k, About t k op → U t k) :
    Agree c U (Raw.step c r op).1 (Tables.step s op).1 ∧ (Raw.step c r op).2 = (Tables.step s op).2 := by
  cases op with
  | insert t k v =>
    obtain ⟨h1, h2, h3⟩ := ht
    have hk := ho t k ⟨rfl, rfl⟩
    rcases encodeValue_writable c v with ⟨hw, b, hb⟩ | ⟨hw, hb⟩
    · simp only [Raw.step, Tables.step, hb, hw, if_true]
      exact ⟨agree_set hu h hk (b := some b) (v := some v) ⟨hb, h2, h3⟩, trivial⟩
    · simp only [Raw.step, Tables.step, hb, hw]
      exact ⟨h, rfl⟩
  | get t k =>
    have hk := ho t k ⟨rfl, rfl⟩
    exact ⟨h, (means_found (h t k hk)).1⟩
  | remove t k =>
    have hk := ho t k ⟨rfl, rfl⟩
    exact ⟨agree_set hu h hk (b := none) (v := none) trivial, rfl⟩
  | contains t k =>
    have hk := ho t k ⟨rfl, rfl⟩
    exact ⟨h, by simp only [Raw.step, Tables.step, (means_found (h t k hk)).2]⟩
  | batch t ks vs =>
    obtain ⟨h1, h2⟩ := ht
    by_cases hl : ks.length = vs.length
    · have hmem : ∀ v, v ∈ vs ↔ ∃ k, (k, v) ∈ ks.zip vs := by
        intro v
        have : vs = (ks.zip vs).map (·.2) := (List.map_snd_zip (by omega)).symm
        constructor
        · intro hv
          rw [this] at hv
          obtain ⟨p, hp, rfl⟩ := List.mem_map.1 hv
          exact ⟨p.1, hp⟩
        · rintro ⟨k, hk⟩
          exact (List.of_mem_zip hk).2
      have hb := agree_batch (c := c) hu (t := t) (ks.zip vs)
        (fun p hp => ho t p.1 ⟨rfl, (List.of_mem_zip hp).1⟩)
        (fun p hp x hx => h2 p.2 (List.of_mem_zip hp).2 x hx)
      rcases hb with ⟨ps, e1, e2, e3⟩ | ⟨e1, p, hp, e2⟩
      · have hall : vs.all (fun v => v.all Value.writable) = true := by
          rw [List.all_eq_true]
          intro v hv
          obtain ⟨k, hk⟩ := (hmem v).1 hv
          exact e2 _ hk
        simp only [Raw.step, Tables.step, hl, ne_eq, not_true_eq_false, if_false, if_true, e1, hall]
        exact ⟨e3 r s h, trivial⟩
      · have hall : vs.all (fun v => v.all Value.writable) = false := by
          rw [List.all_eq_false]
          exact ⟨p.2, (List.of_mem_zip hp).2, by simpa using e2⟩
        simp only [Raw.step, Tables.step, hl, ne_eq, not_true_eq_false, if_false, if_true, e1, hall]
        exact ⟨h, rfl⟩
    · simp only [Raw.step, Tables.step, ne_eq, hl, not_false_eq_true, if_true, if_false]
      exact ⟨h, trivial⟩

/-- Keys in use by the calls, and all keys of transactions and receipts. -/
def Used {ρ : Type} (ops : List (Op ρ)) (t : Table) (k : Key) : Prop :=
  t.hasKey k ∧ ((∃ op ∈ ops, About t k op) ∨ ∃ n h, k = .both n h)

theorem typed_key {ρ : Type} {c : Ctx ρ} {op : Op ρ} (h : Typed c op) {t : Table} {k : Key}
    (ha : About t k op) : t.hasKey k := by
  cases op with
  | insert t' k' v => obtain ⟨rfl, rfl⟩ := ha; exact h.1
  | get t' k' => obtain ⟨rfl, rfl⟩ := ha; exact h
  | remove t' k' => obtain ⟨rfl, rfl⟩ := ha; exact h
  | contains t' k' => obtain ⟨rfl, rfl⟩ := ha; exact h
  | batch t' ks vs => obtain ⟨rfl, hk⟩ := ha; exact h.1 k hk

/-- Two tables of one category with one kind of key are one, or one of the three pairs. -/
theorem clash {t t' : Table} {k : Key} (hc : t.cat = t'.cat) (h1 : t.hasKey k) (h2 : t'.hasKey k) :
    t = t' ∨ ∃ h, k = .hash h ∧
      ((t, t') ∈ [(Table.blockHashNumber, Table.txHashNumber), (.latestBlock, .latestProof), (.evmCode, .evmCodeAddress)] ∨
       (t', t) ∈ [(Table.blockHashNumber, Table.txHashNumber), (.latestBlock, .latestProof), (.evmCode, .evmCodeAddress)]) := by
  cases t <;> cases t' <;> first | exact Or.inl rfl | cases hc | skip
  all_goals cases k <;> first | cases h1 | skip
  all_goals first | cases h2 | skip
  all_goals exact Or.inr ⟨_, rfl, by simp⟩

theorem separate {ρ : Type} {ops : List (Op ρ)} (ha : Apart ops) : Separate (Used ops) := by
  intro t k t' k' hu hu' hc he
  have hk := key_inj he
  subst hk
  refine ⟨?_, rfl⟩
  rcases clash hc hu.1 hu'.1 with e | ⟨h, rfl, hm⟩
  · exact e
  · have u1 : ∃ op ∈ ops, About t (.hash h) op := by
      rcases hu.2 with u | ⟨n, x, e⟩
      · exact u
      · cases e
    have u2 : ∃ op ∈ ops, About t' (.hash h) op := by
      rcases hu'.2 with u | ⟨n, x, e⟩
      · exact u
      · cases e
    rcases hm with hm | hm
    · exact absurd u2 (ha h _ hm u1)
    · exact absurd u1 (ha h _ hm u2)

/-- **C121, adapters.**  For every sequence of calls the RocksDB adapter and the memory adapter give the same
replies. -/
theorem C121_adapters {ρ : Type} (c : Ctx ρ) (ops : List (Op ρ)) :
    replies (Rocks.step c) Rocks.fresh ops = replies (Memory.step c) Memory.fresh ops := by
  have h1 := (replies_eq (f := Rocks.step c) (g := Raw.step c) Rocks.Holds (fun _ => True)
    (fun a b op h _ => Rocks.step_holds c h op) Rocks.holds_fresh ops (fun _ _ => trivial)).1
  have h2 := (replies_eq (f := Memory.step c) (g := Raw.step c) Memory.Holds (fun _ => True)
    (fun a b op h _ => Memory.step_holds c h op) Memory.holds_fresh ops (fun _ _ => trivial)).1
  rw [h1, h2]

theorem raw_agree {ρ : Type} (c : Ctx ρ) (ops : List (Op ρ)) (ht : ∀ op ∈ ops, Typed c op) (ha : Apart ops) :
    replies (Raw.step c) (fun _ _ => none) ops = replies Tables.step (fun _ _ => none) ops ∧
    Agree c (Used ops) (after (Raw.step c) (fun _ _ => none) ops) (after Tables.step (fun _ _ => none) ops) :=
  replies_eq (f := Raw.step c) (g := Tables.step) (Agree c (Used ops))
    (fun op => Typed c op ∧ ∀ t k, About t k op → Used ops t k)
    (fun _ _ op h hp => step_agree (separate ha) h op hp.1 hp.2)
    (a := fun _ _ => none) (b := fun _ _ => none)
    (fun _ _ _ => trivial) ops (fun op ho => ⟨ht op ho, fun _ _ hab => ⟨typed_key (ht op ho) hab, .inl ⟨op, ho, hab⟩⟩⟩)

/-- **C121, tables.**  For every sequence of well-typed calls with storable values the replies are those of
independent tables: a read returns exactly the value written last under the key in its table, and a batch
changes all its keys or none.  Full statement: without `Apart`; see `C121_shared_false`. -/
theorem C121_tables_partial {ρ : Type} (c : Ctx ρ) (ops : List (Op ρ)) (ht : ∀ op ∈ ops, Typed c op)
    (ha : Apart ops) :
    replies (Rocks.step c) Rocks.fresh ops = replies Tables.step (fun _ _ => none) ops ∧
    replies (Memory.step c) Memory.fresh ops = replies Tables.step (fun _ _ => none) ops := by
  have h1 := (replies_eq (f := Rocks.step c) (g := Raw.step c) Rocks.Holds (fun _ => True)
    (fun a b op h _ => Rocks.step_holds c h op) Rocks.holds_fresh ops (fun _ _ => trivial)).1
  rw [← C121_adapters, h1]
  exact ⟨(raw_agree c ops ht ha).1, (raw_agree c ops ht ha).1⟩

/-! ### Iteration -/

theorem byteLt_total : ∀ a b : Bytes, byteLt a b ∨ a = b ∨ byteLt b a
  | [], [] => .inr (.inl rfl)
  | [], _ :: _ => .inl trivial
  | _ :: _, [] => .inr (.inr trivial)
  | x :: a, y :: b => by
    simp only [byteLt]
    rcases Nat.lt_trichotomy x.toNat y.toNat with h | h | h
    · exact .inl (.inl h)
    · have e : x = y := UInt8.toNat_inj.1 h
      subst e
      rcases byteLt_total a b with h | h | h
      · exact .inl (.inr ⟨rfl, h⟩)
      · exact .inr (.inl (by rw [h]))
      · exact .inr (.inr (.inr ⟨rfl, h⟩))
    · exact .inr (.inr (.inl h))

theorem keyLe_iff (a b : Bytes × Bytes) : keyLe a b = true ↔ byteLt a.1 b.1 ∨ a.1 = b.1 := by
  unfold keyLe
  simp only [Bool.not_eq_true', decide_eq_false_iff_not]
  constructor
  · intro h
    rcases byteLt_total a.1 b.1 with e | e | e
    · exact .inl e
    · exact .inr e
    · exact absurd e h
  · rintro (h | h) h'
    · exact byteLt_irrefl _ (byteLt_trans _ _ _ h h')
    · rw [h] at h'; exact byteLt_irrefl _ h'

theorem sorted_column {col : Col} (h : Distinct col) :
    (col.mergeSort keyLe).Pairwise fun a b => byteLt a.1 b.1 := by
  have h1 : (col.mergeSort keyLe).Pairwise fun a b => keyLe a b = true := by
    apply List.pairwise_mergeSort
    · intro a b c hab hbc
      rw [keyLe_iff] at *
      rcases hab with hab | hab
      · rcases hbc with hbc | hbc
        · exact .inl (byteLt_trans _ _ _ hab hbc)
        · exact .inl (hbc ▸ hab)
      · rw [hab]; exact hbc
    · intro a b
      rw [Bool.or_eq_true, keyLe_iff, keyLe_iff]
      rcases byteLt_total a.1 b.1 with e | e | e
      · exact .inl (.inl e)
      · exact .inl (.inr e)
      · exact .inr (.inl e)
  have h2 : (col.mergeSort keyLe).Pairwise fun a b => a.1 ≠ b.1 := by
    have : ((col.mergeSort keyLe).map (·.1)).Nodup :=
      (((List.mergeSort_perm col keyLe).map (fun p : Bytes × Bytes => p.1)).nodup_iff).2 h
    exact List.pairwise_map.1 this
  refine (List.Pairwise.and h1 h2).imp ?_
  rintro a b ⟨e1, e2⟩
  rcases (keyLe_iff a b).1 e1 with e | e
  · exact e
  · exact absurd e e2

theorem mem_column {col : Col} (h : Distinct col) (k b : Bytes) : (k, b) ∈ col ↔ get col k = some b :=
  ⟨fun hm => get_of_mem (List.pairwise_map.1 h) hm, mem_of_get⟩

/-- Keys of transactions and receipts have 40 bytes. -/
def Form (r : Raw) : Prop :=
  ∀ t : Table, (t = .transaction ∨ t = .receipt) → ∀ k b, r t.cat k = some b → ∃ (n : U64) (h : H256), k = hashKey n.val h

theorem form_set {r : Raw} (h : Form r) {t : Table} {k : Key} (hk : t.hasKey k) (b : Option Bytes) :
    Form (r.set t.cat (encodeKey k) b) := by
  intro t' ht k' b' hb
  by_cases e : t'.cat = t.cat ∧ k' = encodeKey k
  · obtain ⟨e1, rfl⟩ := e
    have : t = t' := by
      rcases ht with rfl | rfl <;> cases t <;> first | rfl | cases e1
    subst this
    cases k with
    | both n x => exact ⟨n, x, rfl⟩
    | number n => rcases ht with rfl | rfl <;> simp [Table.hasKey] at hk
    | hash x => rcases ht with rfl | rfl <;> simp [Table.hasKey] at hk
  · rw [Raw.set, if_neg e] at hb
    exact h t' ht k' b' hb

theorem form_batch {ρ : Type} {c : Ctx ρ} {t : Table} (l : List (Key × Option (Value ρ)))
    (hk : ∀ p ∈ l, t.hasKey p.1) {ps : List (Bytes × Option Bytes)} (he : encodePairs c l = .ok ps) {r : Raw}
    (h : Form r) : Form (r.sets t.cat ps) := by
  induction l generalizing ps r with
  | nil => simp only [encodePairs, Outcome.ok.injEq] at he; subst he; exact h
  | cons p l ih =>
    obtain ⟨k, v⟩ := p
    have hk0 := hk (k, v) (by simp)
    cases v with
    | none =>
      cases hl : encodePairs c l with
      | ok qs =>
        simp only [encodePairs, hl, Outcome.bind, Outcome.ok.injEq] at he
        subst he
        exact ih (fun p hp => hk p (by simp [hp])) hl (form_set h hk0 none)
      | err => simp [encodePairs, hl, Outcome.bind] at he
      | panic => simp [encodePairs, hl, Outcome.bind] at he
    | some v =>
      cases hv : encodeValue c v with
      | ok b =>
        cases hl : encodePairs c l with
        | ok qs =>
          simp only [encodePairs, hv, hl, Outcome.bind, Outcome.ok.injEq] at he
          subst he
          exact ih (fun p hp => hk p (by simp [hp])) hl (form_set h hk0 (some b))
        | err => simp [encodePairs, hv, hl, Outcome.bind] at he
        | panic => simp [encodePairs, hv, hl, Outcome.bind] at he
      | err => simp [encodePairs, hv, Outcome.bind] at he
      | panic => simp [encodePairs, hv, Outcome.bind] at he

theorem form_step {ρ : Type} {c : Ctx ρ} {r : Raw} (h : Form r) {op : Op ρ} (ht : Typed c op) :
    Form (Raw.step c r op).1 := by
  cases op with
  | insert t k v =>
    simp only [Raw.step]
    split
    · exact form_set h ht.1 _
    · exact h
    · exact h
  | get t k => exact h
  | remove t k => exact form_set h ht _
  | contains t k => exact h
  | batch t ks vs =>
    simp only [Raw.step]
    split
    · exact h
    · split
      · rename_i ps hp
        exact form_batch _ (fun p hm => ht.1 p.1 (List.of_mem_zip hm).1) hp h
      · exact h
      · exact h

theorem mapM_some {α β : Type} {f : α → Option β} {g : α → β} (l : List α) (h : ∀ a ∈ l, f a = some (g a)) :
    l.mapM f = some (l.map g) := by
  induction l with
  | nil => rfl
  | cons a l ih =>
    rw [List.mapM_cons, h a (by simp), ih (fun a ha => h a (by simp [ha]))]
    rfl

/-- The rows under the prefix of a height, in a database with such keys. -/
theorem rocks_rows {d : Disk} {r : Raw} (hd : Rocks.Holds d r) (hf : Form r) {t : Table}
    (ht : t = .transaction ∨ t = .receipt) (n : U64) :
    ∃ rows, (Rocks.iter d t.cat (blockKey n.val)).mapM decodeRow = some rows ∧
      RocksRows (fun m h => r t.cat (hashKey m h)) n.val rows := by
  obtain ⟨col, hc, hdis, hget⟩ := hd t.cat
  have hkey : ∀ p ∈ col, ∃ (m : U64) (h : H256), p.1 = hashKey m.val h := by
    intro p hp
    have := (mem_column hdis p.1 p.2).1 hp
    rw [hget] at this
    exact hf t ht _ _ this
  have hit : Rocks.iter d t.cat (blockKey n.val) =
      (col.mergeSort keyLe).filter fun p => !decide (byteLt p.1 (blockKey n.val)) := by
    unfold Rocks.iter; rw [hc]; rfl
  let g : Bytes × Bytes → Row Bytes := fun p =>
    match decodeHashKey p.1 with
    | some k => ⟨k.1, k.2, p.2⟩
    | none => ⟨0, ⟨List.replicate 32 0, by simp⟩, p.2⟩
  have hg : ∀ (m : U64) (h : H256) (b : Bytes), g (hashKey m.val h, b) = ⟨m.val, h, b⟩ := by
    intro m h b
    simp only [g, C09_decode_encode m.val h m.lt]
  have hkey' : ∀ p ∈ Rocks.iter d t.cat (blockKey n.val),
      p ∈ col ∧ ¬ byteLt p.1 (blockKey n.val) := by
    intro p hp
    rw [hit] at hp
    obtain ⟨h1, h2⟩ := List.mem_filter.1 hp
    exact ⟨List.mem_mergeSort.1 h1, by simpa using h2⟩
  refine ⟨(Rocks.iter d t.cat (blockKey n.val)).map g, mapM_some _ ?_, ?_, ?_, ?_⟩
  · intro p hp
    obtain ⟨m, h, e⟩ := hkey p (hkey' p hp).1
    obtain ⟨k, b⟩ := p
    simp only at e
    subst e
    rw [hg]
    simp only [decodeRow, C09_decode_encode m.val h m.lt, Option.map_some]
  · intro x hx
    obtain ⟨p, hp, rfl⟩ := List.mem_map.1 hx
    obtain ⟨hp1, hp2⟩ := hkey' p hp
    obtain ⟨m, h, e⟩ := hkey p hp1
    obtain ⟨k, b⟩ := p
    simp only at e
    subst e
    rw [hg]
    refine ⟨m.lt, ?_, hp2⟩
    rw [← hget]
    exact (mem_column hdis _ _).1 hp1
  · intro m h b hm hb hlt
    refine List.mem_map.2 ⟨(hashKey m h, b), ?_, hg ⟨m, hm⟩ h b⟩
    rw [hit]
    refine List.mem_filter.2 ⟨List.mem_mergeSort.2 ?_, by simpa using hlt⟩
    exact (mem_column hdis _ _).2 (by rw [hget]; exact hb)
  · rw [List.pairwise_map]
    have hs : (Rocks.iter d t.cat (blockKey n.val)).Pairwise fun a b => byteLt a.1 b.1 := by
      rw [hit]
      exact (sorted_column hdis).filter _
    refine (List.Pairwise.and_mem.1 hs).imp ?_
    rintro a b ⟨ha, hb, hlt⟩
    obtain ⟨m, h, e⟩ := hkey a (hkey' a ha).1
    obtain ⟨m', h', e'⟩ := hkey b (hkey' b hb).1
    obtain ⟨k, v⟩ := a
    obtain ⟨k', v'⟩ := b
    simp only at e e' hlt
    subst e e'
    rw [hg, hg]
    exact hlt

theorem decodeAll_means {ρ : Type} {c : Ctx ρ} {t : Table} (l : List (Option Bytes × Option (Value ρ)))
    (h : ∀ p ∈ l, Means c t p.1 p.2) : decodeAll c t (l.map (·.1)) = .ok (l.map (·.2)) := by
  induction l with
  | nil => rfl
  | cons p l ih =>
    have ih := ih (fun p hp => h p (by simp [hp]))
    have h0 := h p (by simp)
    obtain ⟨b, v⟩ := p
    cases b with
    | none =>
      cases v with
      | none => simp [decodeAll, ih, Outcome.bind]
      | some v => exact h0.elim
    | some b =>
      cases v with
      | none => exact h0.elim
      | some v =>
        obtain ⟨h1, h2, h3⟩ := h0
        simp [decodeAll, ih, Outcome.bind, roundtrip c h2 h3 h1]

/-- **C121, many at once.**  After every sequence of well-typed calls, transactions and receipts asked for by
their height and hashes come from the table: for each hash the value under the height and the hash, wherever
else the same hash or height occurs.  For distinct hashes; RocksDB adapter (see `C54_duplicates_false` and
`C121_iter_false`). -/
theorem C121_many_partial {ρ : Type} (c : Ctx ρ) (ops : List (Op ρ)) (ht : ∀ op ∈ ops, Typed c op)
    (ha : Apart ops) (t : Table) (hb : t = .transaction ∨ t = .receipt) (n : U64) (hashes : List H256)
    (hn : hashes.Nodup) :
    Rocks.many c (after (Rocks.step c) Rocks.fresh ops) t n hashes =
      .ok (hashes.map fun h => after Tables.step (fun _ _ => none) ops t (.both n h)) := by
  have h1 := (replies_eq (f := Rocks.step c) (g := Raw.step c) Rocks.Holds (fun _ => True)
    (fun a b op h _ => Rocks.step_holds c h op) Rocks.holds_fresh ops (fun _ _ => trivial)).2
  have h2 := (raw_agree c ops ht ha).2
  have h3 : Form (after (Raw.step c) (fun _ _ => none) ops) :=
    (replies_eq (f := Raw.step c) (g := Raw.step c) (fun a b => a = b ∧ Form a) (Typed c)
      (fun a b op h hp => by
        obtain ⟨rfl, h⟩ := h
        exact ⟨⟨rfl, form_step h hp⟩, rfl⟩)
      (a := fun _ _ => none) (b := fun _ _ => none) ⟨rfl, fun _ _ _ _ h => by cases h⟩ ops ht).2.2
  obtain ⟨rows, e1, e2⟩ := rocks_rows h1 h3 hb n
  unfold Rocks.many
  rw [e1]
  simp only
  rw [C54_rocks_partial _ n.val n.lt hashes hn rows e2]
  have := decodeAll_means (c := c) (t := t)
    (hashes.map fun h => (after (Raw.step c) (fun _ _ => none) ops t.cat (hashKey n.val h),
      after Tables.step (fun _ _ => none) ops t (.both n h))) (by
      intro p hp
      obtain ⟨h, -, rfl⟩ := List.mem_map.1 hp
      refine h2 t (.both n h) ⟨?_, .inr ⟨n, h, rfl⟩⟩
      rcases hb with rfl | rfl <;> rfl)
  simpa [List.map_map, Function.comp_def] using this

/-! ## Where it fails -/

/-- **C121 fails for tables that share a category.**  For every hash and value: the code hash written under the
hash of an address (`insert_code`, lib.rs:325-345) is answered as code to whoever asks for the code of that hash,
and writing code of that hash destroys the address's entry, which then cannot be read.  Either adapter. -/
theorem C121_shared_false {ρ : Type} (c : Ctx ρ) (h x : H256) (code : Bytes)
    (hl : (encode (.str code)).length < 2 ^ 64) (h32 : code.length ≠ 32) :
    let ops : List (Op ρ) := [.insert .evmCodeAddress (.hash h) (.hash x), .get .evmCode (.hash h),
      .insert .evmCode (.hash h) (.bytes code), .get .evmCodeAddress (.hash h)]
    (∀ op ∈ ops, Typed c op) ∧
    replies (Memory.step c) Memory.fresh ops =
      [.ok .done, .ok (.value (some (.bytes x.bytes))), .ok .done, .err] ∧
    replies (Rocks.step c) Rocks.fresh ops =
      [.ok .done, .ok (.value (some (.bytes x.bytes))), .ok .done, .err] ∧
    replies (Rocks.step c) Rocks.fresh ops ≠ replies Tables.step (fun _ _ => none) ops := by
  intro ops
  have hx : (encode (ofFixed x)).length < 2 ^ 64 := by rw [hash_key_length]; decide
  have e1 : decodeValue c .evmCode (encode (ofFixed x)) = .ok (.bytes x.bytes) := by
    simp only [decodeValue, decode_encode_item _ hx, Option.bind_some]
    rfl
  have e2 : decodeValue c .evmCodeAddress (encode (.str code)) = .err := by
    simp only [decodeValue, decode_encode_item _ hl, Option.bind_some, toFixed, FixedBytes.ofBytes]
    simp [h32, Outcome.ofOption]
  have hm : replies (Memory.step c) Memory.fresh ops =
      [.ok .done, .ok (.value (some (.bytes x.bytes))), .ok .done, .err] := by
    simp [ops, replies, Memory.step, Memory.fresh, Memory.column, encodeValue, Table.cat, Col.set, get_put,
      decodeFound, e1, e2, Outcome.bind]
  refine ⟨?_, hm, (C121_adapters c ops).trans hm, ?_⟩
  · intro op ho
    simp only [ops, List.mem_cons, List.not_mem_nil, or_false] at ho
    rcases ho with rfl | rfl | rfl | rfl
    · exact ⟨rfl, rfl, fun b hb => by simp only [encodeValue, Outcome.ok.injEq] at hb; rw [← hb]; exact hx, trivial⟩
    · rfl
    · exact ⟨rfl, rfl, fun b hb => by simp only [encodeValue, Outcome.ok.injEq] at hb; rw [← hb]; exact hl, trivial⟩
    · rfl
  · rw [C121_adapters, hm]
    simp [ops, replies, Tables.step, Tables.set, Value.writable]

/-- **C121 fails for iteration in memory.**  A row before the prefix comes with the others: the two adapters
hold the same and iterate differently. -/
theorem C121_iter_false {ρ : Type} (c : Ctx ρ) (r : Block.Receipt ρ) (h : H256) :
    let ops : List (Op ρ) := [.insert .receipt (.both ⟨1, by decide⟩ h) (.receipt r)]
    Rocks.iter (after (Rocks.step c) Rocks.fresh ops) .receipt (blockKey 2) = [] ∧
    Memory.iter (after (Memory.step c) Memory.fresh ops) .receipt (blockKey 2) =
      [(hashKey 1 h, Block.encodeReceipt c.exit r)] := by
  intro ops
  have hlt : byteLt (hashKey 1 h) (blockKey 2) :=
    Decidable.byContradiction fun hn => by
      have := (hashKey_not_lt_prefix (m := 1) (n := 2) h (by decide) (by decide)).1 hn
      omega
  constructor
  · have e : get (after (Rocks.step c) Rocks.fresh ops) (columnName .receipt) =
        some [(hashKey 1 h, Block.encodeReceipt c.exit r)] := rfl
    unfold Rocks.iter
    rw [e]
    simp [hlt]
  · rfl

/-! ## Non-trivial instances -/

/-- A recovery that knows one public key. -/
def sampleCtx : Ctx Bool :=
  { exit := Block.boolExit, recover := fun _ => some (⟨List.replicate 64 4, rfl⟩, ⟨List.replicate 20 9, rfl⟩) }

def sampleSigned : Signed :=
  { tx := Tx.sampleTx, sender := ⟨List.replicate 20 9, rfl⟩, pubkey := some ⟨List.replicate 64 4, rfl⟩ }

def hashOf (n : Nat) : H256 := ⟨List.replicate 32 (UInt8.ofNat n), by simp⟩

/-- Two heights of receipts and transactions, a code with its address, an overwrite and a removal. -/
def sampleOps : List (Op Bool) :=
  [.insert .receipt (.both ⟨5, by decide⟩ (hashOf 1)) (.receipt Block.sampleReceipt),
   .batch .transaction [.both ⟨5, by decide⟩ (hashOf 1), .both ⟨6, by decide⟩ (hashOf 2)]
     [some (.signed sampleSigned), some (.signed sampleSigned)],
   .insert .evmCode (.hash (hashOf 3)) (.bytes [1, 2, 3]),
   .insert .evmCodeAddress (.hash (hashOf 4)) (.hash (hashOf 3)),
   .get .evmCode (.hash (hashOf 3)),
   .insert .evmCode (.hash (hashOf 3)) (.bytes [7]),
   .get .evmCode (.hash (hashOf 3)),
   .batch .transaction [.both ⟨5, by decide⟩ (hashOf 1)] [none, none],
   .remove .evmCodeAddress (.hash (hashOf 4)),
   .contains .evmCodeAddress (.hash (hashOf 4)),
   .get .transaction (.both ⟨6, by decide⟩ (hashOf 2))]

theorem sample_signed : Storable sampleCtx (.signed sampleSigned) := by
  refine ⟨?_, ⟨⟨_, rfl, Or.inl ⟨rfl, rfl⟩, fun _ h => by simp [sampleSigned, Tx.sampleTx] at h⟩, fun _ => ⟨_, rfl⟩⟩, (⟨List.replicate 64 4, rfl⟩, ⟨List.replicate 20 9, rfl⟩), rfl, rfl, rfl⟩
  intro b hb
  have : (match encodeValue sampleCtx (.signed sampleSigned) with
    | .ok b => decide (b.length < 2 ^ 64) | _ => true) = true := by decide +kernel
  rw [hb] at this
  simpa using this

theorem sample_receipt : Storable sampleCtx (.receipt Block.sampleReceipt) := by
  refine ⟨?_, trivial⟩
  intro b hb
  have : (match encodeValue sampleCtx (.receipt Block.sampleReceipt) with
    | .ok b => decide (b.length < 2 ^ 64) | _ => true) = true := by decide +kernel
  rw [hb] at this
  simpa using this

theorem sample_bytes (l : Bytes) (h : (encode (.str l)).length < 2 ^ 64) : Storable sampleCtx (.bytes l) := by
  refine ⟨?_, trivial⟩
  intro b hb
  simp only [encodeValue, Outcome.ok.injEq] at hb
  rw [← hb]; exact h

theorem sample_hash (x : H256) : Storable sampleCtx (.hash x) := by
  refine ⟨?_, trivial⟩
  intro b hb
  simp only [encodeValue, Outcome.ok.injEq] at hb
  rw [← hb, hash_key_length]; decide

theorem sample_typed : ∀ op ∈ sampleOps, Typed sampleCtx op := by
  intro op ho
  simp only [sampleOps, List.mem_cons, List.not_mem_nil, or_false] at ho
  rcases ho with rfl | rfl | rfl | rfl | rfl | rfl | rfl | rfl | rfl | rfl | rfl
  · exact ⟨rfl, rfl, sample_receipt⟩
  · refine ⟨?_, ?_⟩
    · intro k hk
      simp only [List.mem_cons, List.not_mem_nil, or_false] at hk
      rcases hk with rfl | rfl <;> rfl
    · intro v hv x hx
      simp only [List.mem_cons, List.not_mem_nil, or_false] at hv
      rcases hv with rfl | rfl <;> (cases hx; exact ⟨rfl, sample_signed⟩)
  · exact ⟨rfl, rfl, sample_bytes _ (by decide)⟩
  · exact ⟨rfl, rfl, sample_hash _⟩
  · rfl
  · exact ⟨rfl, rfl, sample_bytes _ (by decide)⟩
  · rfl
  · refine ⟨?_, ?_⟩
    · intro k hk
      simp only [List.mem_cons, List.not_mem_nil, or_false] at hk
      rcases hk with rfl; rfl
    · intro v hv x hx
      simp only [List.mem_cons, List.not_mem_nil, or_false] at hv
      rcases hv with rfl | rfl <;> cases hx
  · rfl
  · rfl
  · rfl

theorem sample_apart : Apart sampleOps := by
  intro h p hp h1 h2
  obtain ⟨op, ho, ha⟩ := h1
  obtain ⟨op', ho', ha'⟩ := h2
  simp only [List.mem_cons, List.not_mem_nil, or_false] at hp
  simp only [sampleOps, List.mem_cons, List.not_mem_nil, or_false] at ho ho'
  rcases hp with rfl | rfl | rfl
  · rcases ho with rfl | rfl | rfl | rfl | rfl | rfl | rfl | rfl | rfl | rfl | rfl <;> cases ha.1
  · rcases ho with rfl | rfl | rfl | rfl | rfl | rfl | rfl | rfl | rfl | rfl | rfl <;> cases ha.1
  · have e1 : h = hashOf 3 := by
      rcases ho with rfl | rfl | rfl | rfl | rfl | rfl | rfl | rfl | rfl | rfl | rfl <;>
        first | (have e := ha.2; cases e; rfl) | cases ha.1
    have e2 : h = hashOf 4 := by
      rcases ho' with rfl | rfl | rfl | rfl | rfl | rfl | rfl | rfl | rfl | rfl | rfl <;>
        first | (have e := ha'.2; cases e; rfl) | cases ha'.1
    rw [e1] at e2
    exact absurd (congrArg (fun x : H256 => x.bytes) e2) (by decide)

example : (∀ op ∈ sampleOps, Typed sampleCtx op) ∧ Apart sampleOps := ⟨sample_typed, sample_apart⟩

/-- The replies of the sample, by both adapters. -/
example : replies (Rocks.step sampleCtx) Rocks.fresh sampleOps =
    [.ok .done, .ok .done, .ok .done, .ok .done, .ok (.value (some (.bytes [1, 2, 3]))), .ok .done,
     .ok (.value (some (.bytes [7]))), .err, .ok .done, .ok (.flag false),
     .ok (.value (some (.signed sampleSigned)))] := by
  rw [(C121_tables_partial sampleCtx sampleOps sample_typed sample_apart).1]
  have hw : (Tx.encodeTx Tx.sampleTx).isSome = true := by decide +kernel
  have h1 : hashOf 3 ≠ hashOf 4 := fun e => absurd (congrArg (fun x : H256 => x.bytes) e) (by decide)
  simp [sampleOps, replies, Tables.step, Tables.set, Value.writable, sampleSigned, hw]

/-- The transaction of height 6 is found there, and not at height 5. -/
example : Rocks.many sampleCtx (after (Rocks.step sampleCtx) Rocks.fresh sampleOps) .transaction ⟨6, by decide⟩
    [hashOf 1, hashOf 2] = .ok [none, some (.signed sampleSigned)] := by
  have hw : (Tx.encodeTx Tx.sampleTx).isSome = true := by decide +kernel
  have hn : hashOf 1 ≠ hashOf 2 := fun e => absurd (congrArg (fun x : H256 => x.bytes) e) (by decide)
  rw [C121_many_partial sampleCtx sampleOps sample_typed sample_apart .transaction (.inl rfl) _ _
    (by simp [hn])]
  simp [sampleOps, after, Tables.step, Tables.set, Value.writable, sampleSigned, hw, hn]

example : (encode (.str [1, 2, 3])).length < 2 ^ 64 ∧ ([1, 2, 3] : Bytes).length ≠ 32 := by decide

end Axon.Adapter
