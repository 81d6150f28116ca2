import Verif.Cells.StoreProps

/-!
# C72–C75: reading cells and headers
-/

namespace Axon.Cells
open Axon.Assoc Axon.Rlp Axon.Mol

variable (abi : HeaderAbi)

/-! ## C75: codecs -/

theorem packScript_ne_nil (s : Script) : packScript s ≠ [] := by
  intro h
  have := congrArg List.length h
  unfold packScript at this
  rw [table_length] at this
  simp at this

theorem script0 (s : Script) (h : (packScript s).length < 2 ^ 32) : field 3 (packScript s) 0 = s.codeHash.bytes :=
  field_table' (fs := [s.codeHash.bytes, [s.hashType], bytesVec s.args]) rfl rfl h

theorem script1 (s : Script) (h : (packScript s).length < 2 ^ 32) : field 3 (packScript s) 1 = [s.hashType] :=
  field_table' (fs := [s.codeHash.bytes, [s.hashType], bytesVec s.args]) rfl rfl h

theorem script2 (s : Script) (h : (packScript s).length < 2 ^ 32) :
    field 3 (packScript s) 2 = bytesVec s.args :=
  field_table' (fs := [s.codeHash.bytes, [s.hashType], bytesVec s.args]) rfl rfl h

theorem unpackScript_of {b : Bytes} {s : Script} (h0 : field 3 b 0 = s.codeHash.bytes)
    (h1 : field 3 b 1 = [s.hashType]) (h2 : field 3 b 2 = bytesVec s.args) : unpackScript b = .ok s := by
  unfold unpackScript
  rw [h0, h1, h2, FixedBytes.ofBytes_bytes, rawData_bytesVec]

theorem unpackScript_packScript (s : Script) (h : (packScript s).length < 2 ^ 32) :
    unpackScript (packScript s) = .ok s := 
  unpackScript_of (script0 s h) (script1 s h) (script2 s h)

theorem output0 (o : CellOutput) (h : (packOutput o).length < 2 ^ 32) :
    field 3 (packOutput o) 0 = le 8 o.capacity.val :=
  field_table' (fs := [le 8 o.capacity.val, packScript o.lock, packType o.type_]) rfl rfl h

theorem output1 (o : CellOutput) (h : (packOutput o).length < 2 ^ 32) :
    field 3 (packOutput o) 1 = packScript o.lock :=
  field_table' (fs := [le 8 o.capacity.val, packScript o.lock, packType o.type_]) rfl rfl h

theorem output2 (o : CellOutput) (h : (packOutput o).length < 2 ^ 32) :
    field 3 (packOutput o) 2 = packType o.type_ :=
  field_table' (fs := [le 8 o.capacity.val, packScript o.lock, packType o.type_]) rfl rfl h

theorem unpackOutput_of {b : Bytes} {o : CellOutput} (h0 : field 3 b 0 = le 8 o.capacity.val)
    (h1 : field 3 b 1 = packScript o.lock) (h2 : field 3 b 2 = packType o.type_)
    (l1 : unpackScript (packScript o.lock) = .ok o.lock)
    (l2 : ∀ s, s ∈ o.type_.head? → unpackScript (packScript s) = .ok s) :
    unpackOutput b = .ok { o with type_ := o.type_.take 1 } := by
  unfold unpackOutput
  rw [h0, h1, h2, leNat_le (show o.capacity.val < 256 ^ 8 from o.capacity.lt), UIntN.ofNat?_val, l1]
  simp only
  cases ht : o.type_ with
  | nil => simp [packType]
  | cons s l =>
    have e : packType (s :: l) = packScript s := rfl
    rw [if_neg (e ▸ packScript_ne_nil s), e, l2 s (by simp [ht])]
    simp

theorem field_lt {fs : List Bytes} {f : Bytes} (hf : f ∈ fs) (h : (table fs).length < 2 ^ 32) :
    f.length < 2 ^ 32 := by
  rw [table_length] at h
  have : f.length ≤ fs.flatten.length := by
    clear h
    induction fs with
    | nil => simp at hf
    | cons g gs ih =>
      simp only [List.flatten_cons, List.length_append]
      rcases List.mem_cons.1 hf with hf | hf
      · subst hf; omega
      · have := ih hf; omega
  omega

/-- C75: the packed form of a cell output reads back with its capacity, its lock script and its first type
script. -/
theorem C75_output_partial (o : CellOutput) (h : (packOutput o).length < 2 ^ 32) :
    unpackOutput (packOutput o) = .ok { o with type_ := o.type_.take 1 } := by
  have l1 : (packScript o.lock).length < 2 ^ 32 :=
    field_lt (fs := [le 8 o.capacity.val, packScript o.lock, packType o.type_]) (by simp) h
  have l2 : (packType o.type_).length < 2 ^ 32 :=
    field_lt (fs := [le 8 o.capacity.val, packScript o.lock, packType o.type_]) (by simp) h
  refine unpackOutput_of (output0 o h) (output1 o h) (output2 o h) (unpackScript_packScript _ l1) ?_
  intro s hs
  apply unpackScript_packScript
  cases ht : o.type_ with
  | nil => rw [ht] at hs; simp at hs
  | cons x l =>
    rw [ht] at hs l2
    simp only [List.head?_cons, Option.mem_def, Option.some.injEq] at hs
    subst hs
    exact l2

/-- C75: keys of cells are 36 bytes, different for different out points, and decode to exactly the out point
they were made from; every other length is refused. -/
theorem C75_key (o : OutPoint) :
    (cellKey o).length = 36 ∧ decodeKey (cellKey o) = some o ∧
    (∀ o', cellKey o' = cellKey o → o' = o) ∧
    (∀ b, decodeKey b = some o ↔ b = cellKey o) ∧
    (∀ b : Bytes, decodeKey b = none ↔ b.length ≠ 36) := by
  have hdec : ∀ b : Bytes, b.length = 36 → ∃ o', b = cellKey o' := by
    intro b hb
    have h32 : (b.take 32).length = 32 := by rw [List.length_take]; omega
    have h4 : (b.drop 32).length = 4 := by rw [List.length_drop]; omega
    have hlt : leNat (b.drop 32) < 2 ^ 32 := by
      have := beNat_lt (b.drop 32).reverse
      rw [List.length_reverse, h4] at this
      exact this
    refine ⟨⟨⟨b.take 32, h32⟩, ⟨leNat (b.drop 32), hlt⟩⟩, ?_⟩
    unfold cellKey
    simp only
    have := le_leNat (b.drop 32)
    rw [h4] at this
    rw [this, List.take_append_drop]
  refine ⟨cellKey_length o, decodeKey_cellKey o, fun o' h => cellKey_inj h, fun b => ⟨?_, ?_⟩, fun b => ⟨?_, ?_⟩⟩
  · intro h
    by_cases hb : b.length = 36
    · obtain ⟨o', rfl⟩ := hdec b hb
      rw [decodeKey_cellKey] at h
      rw [Option.some.inj h]
    · unfold decodeKey at h
      rw [if_pos hb] at h
      cases h
  · rintro rfl; exact decodeKey_cellKey o
  · intro h hb
    obtain ⟨o', rfl⟩ := hdec b hb
    rw [decodeKey_cellKey] at h
    cases h
  · intro h
    unfold decodeKey
    rw [if_pos h]

/-- C75: a stored cell record reads back unchanged. -/
theorem C75_cell {c : CellInfo} (h : FitsCell c) : decodeCell (encodeCell c) = some c :=
  decodeCell_encodeCell h

/-- C75 does not hold for an output with two type scripts: the second one is silently dropped. -/
theorem C75_types_false : ∃ o : CellOutput, (packOutput o).length < 2 ^ 32 ∧
    ∃ o', unpackOutput (packOutput o) = .ok o' ∧ o' ≠ o :=
  ⟨⟨num 100, lockScript, [lockScript, lockScript]⟩, by decide +kernel,
    ⟨num 100, lockScript, [lockScript]⟩, by decide +kernel, by decide +kernel⟩

example : unpackOutput (packOutput ⟨num 100, lockScript, [⟨hashOf 8, 2, []⟩]⟩) =
    .ok ⟨num 100, lockScript, [⟨hashOf 8, 2, []⟩]⟩ := C75_output_partial _ (by decide +kernel)

/-! ## C72: what scripts and contracts see -/

/-- C72: in every reachable state a script is given a cell iff it is stored, with the stored output and data;
the precompile reports in addition whether and when it was consumed, and never aborts. -/
theorem C72_read_partial {s : Ctx} (h : Reach abi s) (o : OutPoint) :
    (provideCell s.current o = match view s.current o with
      | some c => .live c.output c.data
      | none => .unknown) ∧
    (provideData s.current o = (view s.current o).map (·.data)) ∧
    precompileCell s.current o ≠ .panic ∧
    (∀ v, precompileCell s.current o = .ok v → ∃ c, view s.current o = some c ∧
      unpackOutput c.output = .ok v.output ∧ v.data = c.data ∧ v.created = c.created ∧
      (v.isConsumed = true ↔ c.consumed = some v.consumed) ∧
      (v.isConsumed = false ↔ c.consumed = none)) ∧
    ((∃ v, precompileCell s.current o = .ok v) ↔ (view s.current o).isSome) := by
  have hg := (inv_reach abi h).good
  have e := getCell_good hg o
  have hun : ∀ c, view s.current o = some c → ∃ out, unpackOutput c.output = .ok out := by
    intro c hc
    obtain ⟨⟨out, ho⟩, h1, -⟩ := view_fits hg hc
    rw [ho] at h1 ⊢
    exact ⟨_, C75_output_partial out h1⟩
  refine ⟨?_, ?_, ?_, ?_, ?_⟩
  · unfold provideCell
    rw [e]
    cases view s.current o <;> rfl
  · unfold provideData
    rw [e]
    cases view s.current o <;> rfl
  · unfold precompileCell
    rw [e]
    cases hv : view s.current o with
    | none => simp
    | some c =>
      obtain ⟨out, ho⟩ := hun c hv
      simp [ho]
  · intro v hv
    unfold precompileCell at hv
    rw [e] at hv
    cases hw : view s.current o with
    | none => rw [hw] at hv; simp at hv
    | some c =>
      obtain ⟨out, ho⟩ := hun c hw
      rw [hw] at hv
      simp only [ho, Outcome.ok.injEq] at hv
      subst hv
      refine ⟨c, rfl, ho, rfl, rfl, ?_, ?_⟩ <;> cases c.consumed <;> simp
  · unfold precompileCell
    rw [e]
    cases hw : view s.current o with
    | none => simp
    | some c =>
      obtain ⟨out, ho⟩ := hun c hw
      simp [ho]

/-- A codec for headers that are just hashes. -/
def testAbi : HeaderAbi where
  Header := H256
  hash := id
  enc := fun h => h.bytes
  dec := FixedBytes.ofBytes 32
  law := by simp
  nonempty := by
    intro h hc
    have := h.len
    rw [hc] at this
    simp at this

instance : DecidableEq testAbi.Header := inferInstanceAs (DecidableEq H256)

theorem reach_update (bs : List BlockUpdate) (hf : FitsBlocks bs) {t : Trie} (h : update [] bs = .ok t)
    (a b : Bool) : Reach testAbi ⟨t, t, t, a, b⟩ := by
  refine Reach.call (Reach.init a b) (c := some (.update bs)) (ok := true) hf ?_
  simp [exec, runTrie, h, runFlags, updateStates]

/-- C72 is false: a cell consumed at block 5 is still offered to scripts as live. -/
theorem C72_consumed_false : ∃ (s : Ctx) (o : OutPoint) (c : CellInfo) (out dat : Bytes),
    Reach testAbi s ∧ getCell s.current o = .ok (some c) ∧
    c.consumed = some (num 5) ∧ provideCell s.current o = .live out dat := by
  refine ⟨⟨trieSpent, trieSpent, trieSpent, false, false⟩, op 1,
    { newInfo (newCell 1) (num 1) with consumed := some (num 5) }, packOutput (newCell 1).output,
    (newCell 1).data,
    reach_update [⟨num 1, [], [newCell 1]⟩, ⟨num 5, [op 1], []⟩] (by unfold FitsBlocks; decide +kernel)
      (by decide +kernel) _ _, ?_⟩
  decide +kernel

/-! ## C73: headers -/

/-- The last of the headers with a hash. -/
def lastHeader (hs : List abi.Header) (k : H256) : Option abi.Header := hs.reverse.find? (abi.hash · = k)

theorem lastHeader_snoc (hs : List abi.Header) (x : abi.Header) (k : H256) :
    lastHeader abi (hs ++ [x]) k = if abi.hash x = k then some x else lastHeader abi hs k := by
  unfold lastHeader
  rw [List.reverse_append]
  by_cases h : abi.hash x = k <;> simp [h]

theorem bytes_eq_iff {a b : H256} : a.bytes = b.bytes ↔ a = b := ⟨bytes_inj, fun h => h ▸ rfl⟩

/-- C73: after saving headers, looking up a hash yields the last saved header with this hash, otherwise what
was there before; no cell changes. -/
theorem C73_update (t : Trie) (hs : List abi.Header) :
    (∀ k, getHeader abi (saveHeaders abi t hs) k = match lastHeader abi hs k with
      | some x => .ok (some x)
      | none => getHeader abi t k) ∧
    ∀ o, getCell (saveHeaders abi t hs) o = getCell t o := by
  induction hs using snoc_induction with
  | nil => exact ⟨fun k => rfl, fun o => rfl⟩
  | snoc hs x ih =>
    refine ⟨fun k => ?_, fun o => ?_⟩
    · rw [lastHeader_snoc, saveHeaders_snoc]
      by_cases hk : abi.hash x = k
      · subst hk
        simp [getHeader, get_put, abi.law]
      · rw [if_neg hk, ← ih.1]
        unfold getHeader
        rw [get_put, if_neg (fun hh => hk (bytes_inj hh).symm)]
    · rw [saveHeaders_snoc, ← ih.2]
      unfold getCell
      rw [get_put, if_neg (fun hh => cellKey_ne_hash o _ hh.symm)]

theorem removeHeaders_spec (t : Trie) (l : List H256) :
    (l.Nodup ∧ (∀ h ∈ l, (get t h.bytes).isSome) →
      ∃ t', removeHeaders t l = .ok t' ∧
        ∀ k, get t' k = if k ∈ l.map (·.bytes) then none else get t k) ∧
    (¬ (l.Nodup ∧ (∀ h ∈ l, (get t h.bytes).isSome)) → removeHeaders t l = .err) := by
  induction l generalizing t with
  | nil => exact ⟨fun _ => ⟨t, rfl, fun k => by simp⟩, fun hn => by simp at hn⟩
  | cons a l ih =>
    unfold removeHeaders
    refine ⟨?_, ?_⟩
    · rintro ⟨hnd, hp⟩
      rw [List.nodup_cons] at hnd
      obtain ⟨v, hv⟩ := Option.isSome_iff_exists.1 (hp a (by simp))
      rw [hv]
      simp only
      obtain ⟨t', h1, h2⟩ := (ih (del t a.bytes)).1 ⟨hnd.2, fun h hh => by
        rw [get_del, if_neg (fun (hc : h.bytes = a.bytes) => hnd.1 (bytes_inj hc ▸ hh))]
        exact hp h (by simp [hh])⟩
      refine ⟨t', h1, fun k => ?_⟩
      rw [h2, get_del]
      by_cases hk : k = a.bytes
      · subst hk; simp
      · simp [hk]
    · intro hn
      cases hv : get t a.bytes with
      | none => rfl
      | some v =>
        simp only
        apply (ih _).2
        rintro ⟨hnd, hp⟩
        apply hn
        refine ⟨List.nodup_cons.2 ⟨fun ha => ?_, hnd⟩, ?_⟩
        · have := hp a ha
          rw [get_del, if_pos rfl] at this
          cases this
        · intro h hh
          rcases List.mem_cons.1 hh with hh | hh
          · subst hh; rw [hv]; rfl
          · have := hp h hh
            rw [get_del] at this
            split at this
            · cases this
            · exact this

/-- C73: removing headers succeeds iff they are distinct and known; then exactly these are gone. -/
theorem C73_rollback (t : Trie) (l : List H256) :
    ((∃ t', removeHeaders t l = .ok t') ↔
      l.Nodup ∧ ∀ h ∈ l, getHeader abi t h ≠ .ok none) ∧
    ∀ t', removeHeaders t l = .ok t' →
      (∀ k, getHeader abi t' k = if k ∈ l then .ok none else getHeader abi t k) ∧
      ∀ o, getCell t' o = getCell t o := by
  obtain ⟨r1, r2⟩ := removeHeaders_spec t l
  have hp : (∀ h ∈ l, getHeader abi t h ≠ .ok none) ↔ ∀ h ∈ l, (get t h.bytes).isSome := by
    have key : ∀ h, getHeader abi t h ≠ .ok none ↔ (get t h.bytes).isSome := by
      intro h
      unfold getHeader
      cases get t h.bytes with
      | none => simp
      | some v => cases hd : abi.dec v <;> simp [hd]
    constructor
    · intro hh h hl; exact (key h).1 (hh h hl)
    · intro hh h hl; exact (key h).2 (hh h hl)
  rw [hp]
  refine ⟨⟨?_, ?_⟩, ?_⟩
  · rintro ⟨t', ht⟩
    refine Classical.byContradiction fun hc => ?_
    rw [r2 hc] at ht
    cases ht
  · intro hc
    obtain ⟨t', ht, -⟩ := r1 hc
    exact ⟨t', ht⟩
  · intro t' ht
    by_cases hc : l.Nodup ∧ ∀ h ∈ l, (get t h.bytes).isSome
    · obtain ⟨t2, e, g⟩ := r1 hc
      rw [e] at ht
      simp only [Outcome.ok.injEq] at ht
      subst ht
      refine ⟨fun k => ?_, fun o => ?_⟩
      · unfold getHeader
        rw [g]
        by_cases hk : k ∈ l
        · rw [if_pos (List.mem_map.2 ⟨k, hk, rfl⟩), if_pos hk]
        · rw [if_neg (fun hh => by
            obtain ⟨x, hx, he⟩ := List.mem_map.1 hh
            exact hk (bytes_inj he ▸ hx)), if_neg hk]
      · unfold getCell
        rw [g, if_neg (fun hh => by
          obtain ⟨x, hx, he⟩ := List.mem_map.1 hh
          exact cellKey_ne_hash o x he)]
    · rw [r2 hc] at ht
      cases ht

/-- C73: removing the headers just saved, in any order, restores the store if their hashes were distinct and
unknown before. -/
theorem C73_inverse_partial (t : Trie) (hs : List abi.Header) (l : List H256)
    (hperm : l.Perm (hs.map abi.hash)) (hnd : (hs.map abi.hash).Nodup)
    (hfresh : ∀ x ∈ hs, getHeader abi t (abi.hash x) = .ok none) :
    ∃ t', removeHeaders (saveHeaders abi t hs) l = .ok t' ∧ ∀ k, get t' k = get t k := by
  have hk : ∀ hs' : List abi.Header, (∀ k, (∀ x ∈ hs', k ≠ (abi.hash x).bytes) →
      get (saveHeaders abi t hs') k = get t k) ∧
      (∀ x ∈ hs', (get (saveHeaders abi t hs') (abi.hash x).bytes).isSome) := by
    intro hs'
    induction hs' using snoc_induction with
    | nil => exact ⟨fun _ _ => rfl, by simp⟩
    | snoc hs' y ih =>
      rw [saveHeaders_snoc]
      refine ⟨fun k hk => ?_, fun x hx => ?_⟩
      · rw [get_put, if_neg (hk y (by simp))]
        exact ih.1 k (fun z hz => hk z (by simp [hz]))
      · rw [get_put]
        split
        · rfl
        · rename_i hne
          rcases List.mem_append.1 hx with hx | hx
          · exact ih.2 x hx
          · rw [List.mem_singleton] at hx; subst hx; exact absurd rfl hne
  obtain ⟨h1, h2⟩ := hk hs
  obtain ⟨t', e, g⟩ := (removeHeaders_spec (saveHeaders abi t hs) l).1 ⟨hperm.nodup_iff.2 hnd, fun h hh => by
    obtain ⟨x, hx, he⟩ := List.mem_map.1 (hperm.mem_iff.1 hh)
    exact he ▸ h2 x hx⟩
  refine ⟨t', e, fun k => ?_⟩
  rw [g]
  split
  · rename_i hm
    obtain ⟨h, hh, he⟩ := List.mem_map.1 hm
    obtain ⟨x, hx, hx'⟩ := List.mem_map.1 (hperm.mem_iff.1 hh)
    subst hx' he
    have := hfresh x hx
    unfold getHeader at this
    cases hg : get t (abi.hash x).bytes with
    | none => rfl
    | some v =>
      rw [hg] at this
      simp only at this
      split at this <;> simp at this
  · rename_i hm
    exact h1 k (fun x hx hc => hm (List.mem_map.2 ⟨abi.hash x,
      hperm.mem_iff.2 (List.mem_map.2 ⟨x, hx, rfl⟩), hc.symm⟩))

/-- C73: in every reachable state a stored header has the hash it is stored under, and the precompile
returns it without aborting. -/
theorem C73_precompile {s : Ctx} (h : Reach abi s) (k : H256) :
    precompileHeader abi s.current k ≠ .panic ∧
    (∀ x, precompileHeader abi s.current k = .ok x → abi.hash x = k) ∧
    (∀ x, precompileHeader abi s.current k = .ok x ↔ getHeader abi s.current k = .ok (some x)) := by
  have hg := (inv_reach abi h).headers
  unfold precompileHeader getHeader
  cases hv : get s.current k.bytes with
  | none => simp
  | some v =>
    obtain ⟨x, rfl, hx⟩ := hg k v hv
    simp [abi.law, hx]

/-- Saving a header twice and removing it once loses it: the second save is not undone but the header
removed. -/
theorem C73_overwrite_false : ∃ (t : Trie) (x : H256), getHeader testAbi t x = .ok (some x) ∧
    ∃ t', removeHeaders (saveHeaders testAbi t [x]) [x] = .ok t' ∧ getHeader testAbi t' x = .ok none := by
  exact ⟨[((hashOf 1).bytes, (hashOf 1).bytes)], hashOf 1, by decide +kernel, [], by decide +kernel,
    by decide +kernel⟩

example : ∃ t', removeHeaders (saveHeaders testAbi trie4 [hashOf 1, hashOf 2]) [hashOf 2, hashOf 1] = .ok t' ∧
    ∀ k, get t' k = get trie4 k :=
  C73_inverse_partial testAbi trie4 [hashOf 1, hashOf 2] [hashOf 2, hashOf 1] (List.Perm.swap ..)
    (by show [hashOf 1, hashOf 2].Nodup; decide +kernel)
    (show ∀ x ∈ [hashOf 1, hashOf 2], getHeader testAbi trie4 x = .ok none from by decide +kernel)

/-! ## C74: one root -/

/-- C74: in every reachable state the accounts of both contracts hold the same root, the one the executor
works with; after a successful call this is the trie the call produced. -/
theorem C74_roots {s : Ctx} (h : Reach abi s) :
    s.lightRoot = s.imageRoot ∧ s.current = s.lightRoot ∧
    ∀ s' c, exec abi s c = .ok (s', true) → ∃ d, c = some d ∧
      runTrie abi s.lightRoot d = .ok s'.lightRoot ∧ s'.imageRoot = s'.lightRoot := by
  have hi := inv_reach abi h
  refine ⟨by rw [hi.light, hi.image], hi.light.symm, ?_⟩
  intro s' c hx
  obtain ⟨d, t, rfl, ht, h1, h2, h3⟩ := exec_true abi hx
  exact ⟨d, rfl, by rw [hi.light, h2]; exact ht, by rw [h2, h3]⟩

/-- C74 in full is false: `setState(false)` is recorded but reading goes on. -/
theorem C74_switch_false : ∃ (s s' : Ctx) (o : OutPoint) (v : CellView), Reach testAbi s ∧
    exec testAbi s (some (.setCellState false)) = .ok (s', true) ∧ s'.allowCells = false ∧
    precompileCell s'.current o = .ok v := by
  refine ⟨⟨trieSpent, trieSpent, trieSpent, true, true⟩, ⟨trieSpent, trieSpent, trieSpent, true, false⟩, op 1,
    ⟨(newCell 1).output, (newCell 1).data, true, num 1, num 5⟩,
    reach_update [⟨num 1, [], [newCell 1]⟩, ⟨num 5, [op 1], []⟩] (by unfold FitsBlocks; decide +kernel)
      (by decide +kernel) _ _, ?_, rfl, by decide +kernel⟩
  rfl

end Axon.Cells
