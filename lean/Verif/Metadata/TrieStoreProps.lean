import Verif.Metadata.TrieStore

/-!
# C127: the metadata trie gives back what was written

The metadata contract keeps epochs, validators, configuration, CKB information and hardforks as bytes in one
trie.  Whatever transactions and block ends happen, everything read from that trie is what was submitted, with
every field, and the record-level store of C38, C39 and C68 to C71 says the same.

Assumed of the digests: the four fixed keys differ and the keys in use have different places in the trie
(`Apart`, for the epochs below a bound that is arbitrary); no value is longer than a `Vec` can be (`Held`).
-/

namespace Axon.MetaTrie
open Axon.Rlp Axon.Block Axon.Meta Axon.Assoc

/-- `Reach E n ops t`: `t` is reached from the empty store by operations of which `ops` took effect; failed
transactions are left out, a panic ends the history. -/
inductive Reach (E : Env) (n : Nat) : List Op → TStore → Prop
  | init : Reach E n [] (TStore.init E)
  | done {ops t o t'} : Reach E n ops t → Held E n t → step E t o = .ok (t', true) → Reach E n (ops ++ [o]) t'
  | failed {ops t o t'} : Reach E n ops t → Held E n t → step E t o = .ok (t', false) → Reach E n ops t'

variable {E : Env} {n : Nat} {t : TStore} {ops : List Op}

/-! ## Records -/

/-- C127: every kind of record is read back from its bytes, with every field. -/
theorem C127_records :
    (∀ r : Record, (encode (recordItem r)).length < 2 ^ 64 →
      decodeWith itemRecord (encode (recordItem r)) = .ok r) ∧
    (∀ l : List Fork, (encode (forksItem l)).length < 2 ^ 64 →
      decodeWith itemForks (encode (forksItem l)) = .ok l) ∧
    (∀ c : CkbInfo, decodeWith itemCkb (encode (ckbItem c)) = .ok c) ∧
    (∀ f : Fork, decodeWith itemFork (encode (forkItem f)) = .ok f) := by
  refine ⟨fun r h => decodeWith_encode (itemRecord_item r) h, fun l h => decodeWith_encode (itemForks_item l) h,
    fun c => ?_, fun f => ?_⟩
  · apply decodeWith_encode (itemCkb_item c)
    have hx : ∀ h : H256, (encode (ofFixed h)).length ≤ 33 := by
      intro h
      unfold ofFixed
      rw [encode]
      have := encStr_length_le h.bytes (by rw [h.len]; omega)
      rw [h.len] at this
      omega
    have h1 := hx c.metadataTypeId
    have h2 := hx c.checkpointTypeId
    have h3 := hx c.xudtArgs
    have h4 := hx c.stakeSmtTypeId
    have h5 := hx c.delegateSmtTypeId
    have h6 := hx c.rewardSmtTypeId
    unfold ckbItem
    rw [encode]
    simp only [encodeMany, List.append_nil]
    refine Nat.lt_of_le_of_lt (encPayload_le _ ?_) ?_ <;> simp only [List.length_append] <;> omega
  · apply decodeWith_encode (itemFork_item f)
    have := encode_forkItem_length f
    omega

/-! ## Refinement -/

theorem accepted_snoc_le (ops : List Op) (o : Op) : (accepted ops).length ≤ (accepted (ops ++ [o])).length := by
  unfold accepted
  rw [List.filterMap_append, List.length_append]
  omega

theorem track (ap : Apart E n) (h : Reach E n ops t) (hn : (accepted ops).length < n) :
    ∃ s, Meta.Reach (ops.map Op.forget) s ∧ Rel E n t s ∧ Full E ops t ∧ Trie.Canon t.trie := by
  induction h with
  | init =>
    refine ⟨_, .init, rel_init ap, full_init ap, ?_⟩
    exact canon_write (t := ⟨.empty, zeroH⟩) Trie.canon_empty _ _
  | done hr hd hs ih =>
    rename_i ops t o t'
    have hle := accepted_snoc_le ops o
    obtain ⟨s, h1, h2, h3, h4⟩ := ih (by omega)
    have inv := reach_inv h1
    rw [appended_forget] at inv
    have hlen : ((accepted ops).map Submitted.forget).length = (accepted ops).length := by simp
    have hst := step_rel ap h2 hd inv (by omega) o
    rw [hs] at hst
    generalize hy : Meta.step s o.forget = y at hst
    cases hst with
    | ok hb =>
      rename_i sb
      obtain ⟨s', b⟩ := sb
      obtain ⟨hb1, hb2⟩ := hb
      simp only at hb1 hb2
      subst hb2
      refine ⟨s', ?_, hb1, full_step ap h2 hd h3 inv hlen (by omega) hs, canon_step h4 hs⟩
      rw [List.map_append]
      exact .done h1 hy
  | failed hr hd hs ih =>
    rw [step_failed hs]
    exact ih hn

/-- C127: for every history of the bytes there is the same history of the records, and whatever happens next
has the same outcome on both: success, failure or panic. -/
theorem C127_refines (ap : Apart E n) (h : Reach E n ops t) (hn : (accepted ops).length < n) (hd : Held E n t) :
    ∃ s, Meta.Reach (ops.map Op.forget) s ∧ Rel E n t s ∧
      ∀ o, Agree (RelB E n) (step E t o) (Meta.step s o.forget) := by
  obtain ⟨s, h1, h2, -, -⟩ := track ap h hn
  have inv := reach_inv h1
  rw [appended_forget] at inv
  exact ⟨s, h1, h2, fun o => step_rel ap h2 hd inv (by simpa using hn) o⟩

/-! ## Reading by epoch -/

/-- The record of an epoch says what was submitted for it. -/
structure Says (r : Record) (m : Submitted) : Prop where
  start : r.start = m.start
  last : r.last = m.last
  epoch : r.epoch = m.epoch
  verifiers : r.verifiers = m.verifiers

theorem record_of (ap : Apart E n) (h : Reach E n ops t) (hn : (accepted ops).length < n) (hd : Held E n t)
    {e : Nat} {m : Submitted} (hm : (accepted ops)[e]? = some m) :
    ∃ r, getRecord E t e = .ok r ∧ Says r m := by
  obtain ⟨s, h1, h2, h3, -⟩ := track ap h hn
  have inv := reach_inv h1
  rw [appended_forget] at inv
  have hlt := (List.getElem?_eq_some_iff.1 hm).1
  obtain ⟨r, hl, hv⟩ := h3.verifiers e m hm
  have hg : getRecord E t e = .ok r := by
    unfold getRecord
    rw [hl]
    exact decodeWith_encode (itemRecord_item r) (hd.sized _ _ (.epoch (by omega)) hl)
  have ha := getRecord_rel h2 hd.sized (show e < n by omega)
  rw [hg] at ha
  generalize hy : getInner s e = y at ha
  cases ha with
  | ok hb =>
    have hi := getInner_spec inv e
    have hm' : ((accepted ops).map Submitted.forget)[e]? = some m.forget := by simp [hm]
    rw [hm'] at hi
    obtain ⟨i, hi1, hi2⟩ := hi
    rw [hy] at hi1
    simp only [Outcome.ok.injEq] at hi1
    rw [← hi1, hb] at hi2
    exact ⟨r, hg, hi2.1, hi2.2.1, hi2.2.2.1, hv⟩

/-- C127: the record of an epoch is the metadata accepted for it, range and validators with every field;
for an epoch that was not appended there is an error. -/
theorem C127_epoch (ap : Apart E n) (h : Reach E n ops t) (hn : (accepted ops).length < n) (hd : Held E n t)
    (e : Nat) (he : e < n) : match (accepted ops)[e]? with
      | some m => ∃ r, getRecord E t e = .ok r ∧ Says r m
      | none => getRecord E t e = .err := by
  cases hm : (accepted ops)[e]? with
  | some m => exact record_of ap h hn hd hm
  | none =>
    obtain ⟨s, h1, h2, -, -⟩ := track ap h hn
    have inv := reach_inv h1
    rw [appended_forget] at inv
    have ha := getRecord_rel h2 hd.sized he
    have hi := getInner_spec inv e
    have hm' : ((accepted ops).map Submitted.forget)[e]? = none := by simpa using hm
    rw [hm'] at hi
    rw [hi] at ha
    simp only
    generalize getRecord E t e = x at ha ⊢
    cases ha with
    | err => rfl

/-- The number of proposals the record counts for an address. -/
def countOf (r : Record) (a : H160) : Option Nat := (r.counter.find? fun c => c.address = a).map (·.count.val)

theorem countOf_get (l : List Count) (a : H160) :
    (l.find? fun c => c.address = a).map (·.count.val) =
      get (l.map fun c => (addr c.address, c.count.val)) (addr a) := by
  induction l with
  | nil => rfl
  | cons c l ih =>
    rw [List.map_cons, get_cons]
    by_cases hc : c.address = a
    · simp [hc]
    · have : ¬ addr c.address = addr a := fun e => hc (addr_inj.1 e)
      simp [hc, this, ih]

/-- C127: the counter of an epoch has exactly its validators, each with the number of blocks credited to it
(the blocks of C70). -/
theorem C127_counts (ap : Apart E n) (h : Reach E n ops t) (hn : (accepted ops).length < n) (hd : Held E n t)
    (e : Nat) (m : Submitted) (hm : (accepted ops)[e]? = some m) (r : Record) (hr : getRecord E t e = .ok r)
    (a : H160) : countOf r a = if a ∈ m.verifiers.map (·.address) then
      some (credited ((accepted ops).map Submitted.forget) e (addr a) (ops.map Op.forget)) else none := by
  obtain ⟨s, h1, h2, -, -⟩ := track ap h hn
  have hlt := (List.getElem?_eq_some_iff.1 hm).1
  have ha := getRecord_rel h2 hd.sized (show e < n by omega)
  rw [hr] at ha
  generalize hy : getInner s e = y at ha
  cases ha with
  | ok hb =>
    obtain ⟨i, hi, hc⟩ := C70_counter_partial h1 e m.forget (by rw [appended_forget]; simp [hm])
    rw [hy] at hi
    simp only [Outcome.ok.injEq] at hi
    have := hc (addr a)
    rw [← hi, hb, appended_forget] at this
    unfold countOf
    rw [countOf_get]
    refine this.trans ?_
    have hmem : addr a ∈ m.forget.verifiers ↔ a ∈ m.verifiers.map (·.address) := by
      unfold Submitted.forget
      simp only [List.mem_map]
      constructor
      · rintro ⟨v, hv, hav⟩; exact ⟨v, hv, addr_inj.1 hav⟩
      · rintro ⟨v, hv, rfl⟩; exact ⟨v, hv, rfl⟩
    by_cases hmm : a ∈ m.verifiers.map (·.address)
    · rw [if_pos hmm, if_pos (hmem.2 hmm)]
    · rw [if_neg hmm, if_neg (fun hx => hmm (hmem.1 hx))]

/-! ## Reading by block -/

/-- The epoch of a block after genesis: the first whose end is not below the block. -/
def epochOfBlock (A : List Submitted) (k : Nat) : Option Nat := A.findIdx? fun m => k ≤ m.last.val

theorem epochOfBlock_range {s : Store} {A : List Submitted} (inv : Inv (A.map Submitted.forget) s) {k : Nat}
    (hk : k ≠ 0) (e : Nat) : epochOfBlock A k = some e ↔ InRange (A.map Submitted.forget) e k := by
  unfold epochOfBlock InRange
  rw [List.findIdx?_eq_some_iff_getElem]
  have hmono : ∀ (i j : Nat) (a b : Submitted), A[i]? = some a → A[j]? = some b → i < j → a.last.val < b.last.val := by
    intro i j a b hi hj hij
    have hp := inv.ok.incr
    unfold segOf at hp
    have hp' := (List.pairwise_cons.1 hp).2
    rw [List.pairwise_iff_getElem] at hp'
    obtain ⟨hi1, hi2⟩ := List.getElem?_eq_some_iff.1 hi
    obtain ⟨hj1, hj2⟩ := List.getElem?_eq_some_iff.1 hj
    have := hp' i j (by simpa using hi1) (by simpa using hj1) hij
    simp only [List.getElem_map] at this
    rw [hi2, hj2] at this
    exact this
  constructor
  · rintro ⟨h1, h2, h3⟩
    refine ⟨A[e].forget, by simp [h1], of_decide_eq_true h2, ?_⟩
    by_cases h0 : e = 0
    · rw [if_pos h0]; omega
    · rw [if_neg h0]
      have hlt : e - 1 < A.length := by omega
      refine ⟨A[e - 1].forget, by simp [hlt], ?_⟩
      have := h3 (e - 1) (by omega)
      simp only [decide_eq_true_eq, Nat.not_le] at this
      exact this
  · rintro ⟨m, hm, hle, hif⟩
    simp only [List.getElem?_map, Option.map_eq_some_iff] at hm
    obtain ⟨a, ha, rfl⟩ := hm
    obtain ⟨h1, h2⟩ := List.getElem?_eq_some_iff.1 ha
    refine ⟨h1, ?_, ?_⟩
    · rw [h2]; exact decide_eq_true hle
    · intro j hj
      have h0 : e ≠ 0 := by omega
      rw [if_neg h0] at hif
      obtain ⟨p, hp, hlt⟩ := hif
      simp only [List.getElem?_map, Option.map_eq_some_iff] at hp
      obtain ⟨b, hb, rfl⟩ := hp
      have hjl : j < A.length := by omega
      have hlt' : b.last.val < k := hlt
      simp only [decide_eq_true_eq, Nat.not_le]
      rcases Nat.lt_or_ge j (e - 1) with hj' | hj'
      · have := hmono j (e - 1) A[j] b (by simp [hjl]) hb hj'
        omega
      · have : j = e - 1 := by omega
        subst this
        obtain ⟨hb1, hb2⟩ := List.getElem?_eq_some_iff.1 hb
        rw [hb2]
        exact hlt'

/-- The configuration an operation submits. -/
def configOf : Op → Option Config
  | .tx _ _ (some (.append m)) => some m.config
  | .tx _ _ (some (.config c)) => some c
  | _ => none

theorem submits_forget (o : Op) : submits o.forget = configOf o := by
  cases o with
  | endBlock => rfl
  | tx b a c =>
    cases c with
    | none => rfl
    | some c => cases c <;> rfl

/-- C127: the configuration read is the one submitted last, as far as the flags in force at that time let it
be stored. -/
theorem C127_config (ap : Apart E n) (h : Reach E n ops t) (hn : (accepted ops).length < n)
    {pre post : List Op} {o : Op} {c : Config} (ho : ops = pre ++ o :: post) (hc : configOf o = some c)
    (hp : ∀ o ∈ post, configOf o = none) :
    getConfig E t = .ok (visible (flagsIn (pre.map Op.forget)) c) := by
  obtain ⟨s, h1, h2, -, -⟩ := track ap h hn
  rw [getConfig_rel h2]
  refine C68_latest h1 (pre := pre.map Op.forget) (post := post.map Op.forget) (op := o.forget) ?_ ?_ ?_
  · rw [ho]; simp
  · rw [submits_forget, hc]
  · intro q hq
    obtain ⟨o', ho', rfl⟩ := List.mem_map.1 hq
    rw [submits_forget]
    exact hp o' ho'

/-- C127: the metadata of a block after genesis is what was submitted for its epoch, with the configuration in
force; a block beyond the last epoch has none. -/
theorem C127_block (ap : Apart E n) (h : Reach E n ops t) (hn : (accepted ops).length < n) (hd : Held E n t)
    (k : Nat) (hk : k ≠ 0) : match epochOfBlock (accepted ops) k with
      | some e => ∃ m r c, (accepted ops)[e]? = some m ∧ metadataAt E t k = .ok (r, c) ∧
          getConfig E t = .ok c ∧ Says r m
      | none => metadataAt E t k = .err := by
  obtain ⟨s, h1, h2, -, -⟩ := track ap h hn
  have inv := reach_inv h1
  rw [appended_forget] at inv
  unfold metadataAt
  rw [if_neg hk, epochByBlock_eq h2]
  cases he : epochOfBlock (accepted ops) k with
  | none =>
    cases hb : Meta.epochByBlock s k with
    | ok e =>
      have := (epochOfBlock_range inv hk e).2 ((epochByBlock_spec inv k e).1 hb)
      rw [he] at this
      cases this
    | err => rfl
    | panic => exact absurd hb (epochByBlock_no_panic inv k)
  | some e =>
    have hr := (epochOfBlock_range inv hk e).1 he
    rw [(epochByBlock_spec inv k e).2 hr]
    obtain ⟨m', hm', -⟩ := hr
    simp only [List.getElem?_map, Option.map_eq_some_iff] at hm'
    obtain ⟨m, hm, rfl⟩ := hm'
    obtain ⟨r, hg, hs⟩ := record_of ap h hn hd hm
    obtain ⟨c, hc⟩ := config_readable inv (by intro e0; rw [List.map_eq_nil_iff] at e0; rw [e0] at hm; simp at hm)
    rw [← getConfig_rel h2] at hc
    refine ⟨m, r, c, hm, ?_, hc, hs⟩
    simp only [Outcome.bind, getMetadata]
    rw [hg]
    simp only
    rw [hc]

/-- C127: the metadata of genesis is that of epoch 0. -/
theorem C127_genesis (ap : Apart E n) (h : Reach E n ops t) (hn : (accepted ops).length < n) (hd : Held E n t) :
    match (accepted ops)[0]? with
      | some m => ∃ r c, metadataAt E t 0 = .ok (r, c) ∧ getConfig E t = .ok c ∧ Says r m
      | none => metadataAt E t 0 = .err := by
  have he := C127_epoch ap h hn hd 0 ap.pos
  cases hm : (accepted ops)[0]? with
  | none =>
    rw [hm] at he
    simp only at he ⊢
    unfold metadataAt getMetadata
    rw [if_pos rfl, he]
    rfl
  | some m =>
    rw [hm] at he
    obtain ⟨r, hg, hs⟩ := he
    obtain ⟨s, h1, h2, -, -⟩ := track ap h hn
    have inv := reach_inv h1
    rw [appended_forget] at inv
    obtain ⟨c, hc⟩ := config_readable inv (by intro e0; rw [List.map_eq_nil_iff] at e0; rw [e0] at hm; simp at hm)
    rw [← getConfig_rel h2] at hc
    refine ⟨r, c, ?_, hc, hs⟩
    unfold metadataAt getMetadata
    rw [if_pos rfl, hg]
    simp only [Outcome.bind]
    rw [hc]

/-- C127: an address is a validator at a block exactly if it is the address of a validator submitted for the
block's epoch. -/
theorem C127_validator (ap : Apart E n) (h : Reach E n ops t) (hn : (accepted ops).length < n) (hd : Held E n t)
    (k : Nat) (hk : k ≠ 0) (a : H160) : isValidator E t k a = .ok true ↔
      ∃ e m v, epochOfBlock (accepted ops) k = some e ∧ (accepted ops)[e]? = some m ∧ v ∈ m.verifiers ∧
        v.address = a := by
  have hb := C127_block ap h hn hd k hk
  unfold isValidator
  cases he : epochOfBlock (accepted ops) k with
  | none =>
    rw [he] at hb
    simp only at hb
    rw [hb]
    simp [Outcome.bind]
  | some e =>
    rw [he] at hb
    obtain ⟨m, r, c, hm, hmd, -, hs⟩ := hb
    rw [hmd]
    simp only [Outcome.bind, Outcome.ok.injEq, List.any_eq_true, decide_eq_true_eq, hs.verifiers]
    constructor
    · rintro ⟨v, hv, hva⟩; exact ⟨e, m, v, rfl, hm, hv, hva⟩
    · rintro ⟨e', m', v, he', hm', hv, hva⟩
      cases he'
      rw [hm] at hm'
      cases hm'
      exact ⟨v, hv, hva⟩

/-! ## The other records -/

/-- C127: the CKB information read is the one submitted last, if any, with all six ids. -/
theorem C127_ckb (ap : Apart E n) (h : Reach E n ops t) (hn : (accepted ops).length < n) (hd : Held E n t) :
    getCkb E t = .ofOption (ops.filterMap ckbOf).getLast? := by
  obtain ⟨s, -, -, h3, -⟩ := track ap h hn
  exact getCkb_eq hd.sized h3.ckb

/-- C127: the table of hardforks read is the one the executed headers build, and the flags at any block are
looked up in it. -/
theorem C127_forks (ap : Apart E n) (h : Reach E n ops t) (hn : (accepted ops).length < n) (hd : Held E n t) :
    (∃ l, getForks E t = .ok l ∧ l.map Fork.pair = registerAll (registered (ops.map Op.forget))) ∧
    (∀ k, forkAt E t k = .ok (Meta.forkAt (registerAll (registered (ops.map Op.forget))) k)) ∧
    t.current = flagsIn (ops.map Op.forget) := by
  obtain ⟨s, h1, h2, -, -⟩ := track ap h hn
  have hh := hist_reach h1
  refine ⟨?_, ?_, ?_⟩
  · obtain ⟨l, hl, hl2⟩ := getForks_rel h2 hd.sized
    exact ⟨l, hl, by rw [hl2, hh.forks]⟩
  · intro k
    rw [forkAt_rel h2 hd.sized k, hh.forks]
  · rw [h2.current, hh.current]

/-- C127: what a header announces is its first entry of extra data, if that is the encoding of a hardfork;
an operation counts in the histories of `C127_forks` with exactly this announcement. -/
theorem C127_announced (k : Nat) (p : H160) (l : List H160) :
    (∀ (f : Fork) (rest : List Bytes), (Op.endBlock k (encode (forkItem f) :: rest) p l).forget =
      .endBlock k (some (f.number.val, f.flags)) (addr p) (l.map addr)) ∧
    (Op.endBlock k [] p l).forget = .endBlock k none (addr p) (l.map addr) ∧
    (∀ (b : Bytes) (rest : List Bytes), (∀ f, decodeWith itemFork b ≠ .ok f) →
      (Op.endBlock k (b :: rest) p l).forget = .endBlock k none (addr p) (l.map addr)) := by
  refine ⟨fun f rest => ?_, rfl, fun b rest h => ?_⟩
  · have := C127_records.2.2.2 f
    unfold decodeWith at this
    cases hd : (decode (encode (forkItem f))).bind itemFork with
    | none => rw [hd] at this; cases this
    | some g =>
      rw [hd] at this
      simp only [Outcome.ofOption, Outcome.ok.injEq] at this
      subst this
      simp only [Op.forget, extraFork, List.head?_cons, Option.bind_some, hd]
      rfl
  · cases hd : (decode b).bind itemFork with
    | none =>
      simp only [Op.forget, extraFork, List.head?_cons, Option.bind_some, hd]
      rfl
    | some g => exact absurd (by unfold decodeWith; rw [hd]; rfl) (h g)

/-! ## Roots -/

/-- C127: two nodes with the same root of the metadata trie read the same records, whatever histories led
there; of the hash only what occurs in the two tries must not collide. -/
theorem C127_root {n' : Nat} {ops' : List Op} {t' : TStore} (hH : ∀ b, (E.H b).length = 32) (ap : Apart E n)
    (ap' : Apart E n') (h : Reach E n ops t) (h' : Reach E n' ops' t') (hn : (accepted ops).length < n)
    (hn' : (accepted ops').length < n') (hs : Trie.Sized t.trie) (hs' : Trie.Sized t'.trie)
    (hc : ∀ a ∈ Trie.pieces E.H t.trie ++ Trie.pieces E.H t'.trie,
      ∀ b ∈ Trie.pieces E.H t.trie ++ Trie.pieces E.H t'.trie, E.H a = E.H b → a = b)
    (hr : Trie.root E.H t.trie = Trie.root E.H t'.trie) :
    (∀ e, getRecord E t e = getRecord E t' e) ∧ (∀ k, metadataAt E t k = metadataAt E t' k) ∧
    getConfig E t = getConfig E t' ∧ getCkb E t = getCkb E t' ∧ getForks E t = getForks E t' := by
  obtain ⟨-, -, -, -, c1⟩ := track ap h hn
  obtain ⟨-, -, -, -, c2⟩ := track ap' h' hn'
  have e : t.trie = t'.trie := Trie.root_inj hH c1 c2 hs hs'
    (fun b hb a ha => hc b (by simp [hb]) a (by simp [ha]))
    (fun b hb a ha => hc b (by simp [hb]) a (by simp [ha])) hr
  have hl : t.look E = t'.look E := by
    unfold TStore.look
    rw [e]
  have h1 : ∀ e, getRecord E t e = getRecord E t' e := by intro e; unfold getRecord; rw [hl]
  have h2 : getConfig E t = getConfig E t' := by unfold getConfig; rw [hl]
  have h3 : ∀ e, getMetadata E t e = getMetadata E t' e := by
    intro e; unfold getMetadata; rw [h1, h2]
  refine ⟨h1, ?_, h2, ?_, ?_⟩
  · intro k
    unfold metadataAt epochByBlock getSeg
    rw [hl, h3]
    simp only [h3]
  · unfold getCkb; rw [hl]
  · unfold getForks; rw [hl]

/-! ## Examples -/

/-- A hash for examples: the number modulo the largest prime below 2^256, on 32 bytes. -/
def pad (b : Bytes) : Bytes := beFixed 32 (beNat b % (2 ^ 256 - 189))

def key (i : Nat) : H256 := ⟨beFixed 32 (2 ^ 200 + i), by simp⟩

def E0 : Env := ⟨pad, ⟨key 1, key 2, key 3, key 4⟩⟩

theorem pad_key {i : Nat} (hi : i < 100) : pad (key i).bytes = (key i).bytes := by
  unfold pad key
  have h1 : beNat (beFixed 32 (2 ^ 200 + i)) = 2 ^ 200 + i := beNat_beFixed_of_lt (by omega)
  have h2 : (2 ^ 200 + i) % (2 ^ 256 - 189) = 2 ^ 200 + i := Nat.mod_eq_of_lt (by omega)
  simp only [h1, h2]

theorem pad_epoch {e : Nat} (h : e < 10) : pad (epochKey e) = beFixed 32 e := by
  unfold pad epochKey
  have h1 : beNat (beFixed 8 e) = e := beNat_beFixed_of_lt (by omega)
  have h2 : e % (2 ^ 256 - 189) = e := Nat.mod_eq_of_lt (by omega)
  rw [h1, h2]

theorem pad_ne {e i : Nat} (h : e < 10) (hi : i < 10) : pad (epochKey e) ≠ pad (key i).bytes := by
  rw [pad_epoch h, pad_key (by omega)]
  intro hc
  have := beFixed_inj (w := 32) (a := e) (b := 2 ^ 200 + i) (by omega) (by omega) hc
  omega

theorem isKey0 {a : Bytes} (h : IsKey E0 10 a) :
    (∃ i, i < 10 ∧ a = (key i).bytes) ∨ ∃ e, e < 10 ∧ a = epochKey e := by
  cases h with
  | seg => exact .inl ⟨1, by decide, rfl⟩
  | ckb => exact .inl ⟨2, by decide, rfl⟩
  | config => exact .inl ⟨3, by decide, rfl⟩
  | forks => exact .inl ⟨4, by decide, rfl⟩
  | epoch he => exact .inr ⟨_, he, rfl⟩

theorem pad_key_inj {i j : Nat} (hi : i < 10) (hj : j < 10) (h : pad (key i).bytes = pad (key j).bytes) : (key i).bytes = (key j).bytes :=
  (pad_key (by omega)).symm.trans (h.trans (pad_key (by omega)))

theorem pad_epoch_inj {e f : Nat} (he : e < 10) (hf : f < 10) (h : pad (epochKey e) = pad (epochKey f)) :
    epochKey e = epochKey f := by
  have h' := (pad_epoch he).symm.trans (h.trans (pad_epoch hf))
  have : e = f := beFixed_inj (w := 32) (a := e) (b := f) (by omega) (by omega) h'
  exact congrArg epochKey this

theorem inj0 {a b : Bytes} (ha : IsKey E0 10 a) (hb : IsKey E0 10 b) (h : pad a = pad b) : a = b := by
  rcases isKey0 ha with ⟨i, hi, ha'⟩ | ⟨e, he, ha'⟩ <;> rcases isKey0 hb with ⟨j, hj, hb'⟩ | ⟨f, hf, hb'⟩ <;>
    rw [ha', hb'] at h ⊢
  · exact pad_key_inj hi hj h
  · exact absurd h.symm (pad_ne hf hi)
  · exact absurd h (pad_ne he hj)
  · exact pad_epoch_inj he hf h

theorem apart0 : Apart E0 10 where
  pos := by decide
  le := by decide
  nodup := by decide +kernel
  inj := fun _ _ => inj0

def who (i : Nat) : H160 := ⟨beFixed 20 i, by simp⟩

def val (i : Nat) (h : i < 2 ^ 32 := by decide) : Validator :=
  ⟨beFixed 48 (7 * i), 3 :: beFixed 32 i, who i, ⟨i, h⟩, ⟨1, by decide⟩⟩

def sub0 : Submitted := ⟨u 1, u 10, u 0, [val 2, val 1], sampleConfig (u 1000)⟩
def sub1 : Submitted := ⟨u 11, u 20, u 1, [val 3], sampleConfig (u 2000)⟩
def info : CkbInfo := ⟨key 11, key 12, key 13, key 14, key 15, key 16⟩

/-- Genesis; a block of validator 2 that announces a hardfork; the next epoch, refused from a stranger and
accepted from validator 1; CKB information; the end of that block. -/
def story : List Op :=
  [.tx 0 (who 9) (some (.append sub0)), .endBlock 0 [] (who 9) [],
   .endBlock 1 [encode (forkItem ⟨u 2, andromeda⟩)] (who 2) [],
   .tx 2 (who 1) (some (.append sub1)), .tx 2 (who 1) (some (.ckb info)),
   .endBlock 2 [] (who 2) [who 1]]

def runAll (t : TStore) : List Op → Option TStore
  | [] => some t
  | o :: l => match step E0 t o with
    | .ok (t', true) => runAll t' l
    | _ => none

/-- Decidable form of `Held` for the ten epochs. -/
def heldB (t : TStore) : Bool :=
  ([E0.keys.seg.bytes, E0.keys.ckb.bytes, E0.keys.config.bytes, E0.keys.forks.bytes] ++
    (List.range 10).map epochKey).all fun k => (t.look E0 k).all fun v => decide (v.length < 2 ^ 63)

theorem held_of (t : TStore) (h : heldB t = true) : Held E0 10 t := by
  intro k v hk hv
  unfold heldB at h
  rw [List.all_eq_true] at h
  have hk' : k ∈ [E0.keys.seg.bytes, E0.keys.ckb.bytes, E0.keys.config.bytes, E0.keys.forks.bytes] ++
      (List.range 10).map epochKey := by
    cases hk with
    | seg => simp
    | ckb => simp
    | config => simp
    | forks => simp
    | epoch he => exact List.mem_append_right _ (List.mem_map.2 ⟨_, List.mem_range.2 he, rfl⟩)
  have := h k hk'
  rw [hv] at this
  simpa using this

/-- All states on the way fit. -/
def allHeld (t : TStore) : List Op → Bool
  | [] => heldB t
  | o :: l => heldB t && match step E0 t o with
    | .ok (t', true) => allHeld t' l
    | _ => true

theorem reach_run {pre l : List Op} {t t' : TStore} (h : Reach E0 10 pre t) (hh : allHeld t l = true)
    (hr : runAll t l = some t') : Reach E0 10 (pre ++ l) t' ∧ Held E0 10 t' := by
  induction l generalizing pre t with
  | nil =>
    simp only [runAll, Option.some.injEq] at hr
    subst hr
    exact ⟨by simpa using h, held_of _ hh⟩
  | cons o l ih =>
    unfold runAll at hr
    unfold allHeld at hh
    rw [Bool.and_eq_true] at hh
    split at hr
    · rename_i t1 h1
      rw [h1] at hh
      have := ih (Reach.done h (held_of _ hh.1) h1) hh.2 hr
      simpa using this
    · cases hr

theorem story_runs : (runAll (TStore.init E0) story).isSome = true ∧ allHeld (TStore.init E0) story = true := by
  decide +kernel

/-- The hypotheses hold of the story, and this is what is read afterwards: the validators of epoch 1 for block
15, one block credited to each validator of epoch 0, Andromeda from block 2 on, the CKB information. -/
example : ∃ t, Reach E0 10 story t ∧ Held E0 10 t ∧ (accepted story).length < 10 ∧
    (∃ r c, metadataAt E0 t 15 = .ok (r, c) ∧ r.verifiers = [val 3]) ∧
    (∃ r, getRecord E0 t 0 = .ok r ∧ countOf r (who 1) = some 1 ∧ countOf r (who 2) = some 1 ∧
      countOf r (who 9) = none) ∧
    forkAt E0 t 1 = .ok zeroH ∧ forkAt E0 t 2 = .ok andromeda ∧ getCkb E0 t = .ok info ∧
    metadataAt E0 t 21 = .err := by
  obtain ⟨t, ht⟩ := Option.isSome_iff_exists.1 story_runs.1
  obtain ⟨hr, hd⟩ := reach_run (pre := []) Reach.init story_runs.2 ht
  have hn : (accepted story).length < 10 := by decide
  refine ⟨t, hr, hd, hn, ?_, ?_, ?_, ?_, ?_, ?_⟩
  · obtain ⟨m, r, c, h1, h2, -, h3⟩ := C127_block apart0 hr hn hd 15 (by decide)
    refine ⟨r, c, h2, ?_⟩
    rw [h3.verifiers]
    have : m = sub1 := by
      have he : epochOfBlock (accepted ([] ++ story)) 15 = some 1 := by decide +kernel
      exact (Option.some.inj h1).symm
    rw [this]; rfl
  · obtain ⟨r, h1, h2⟩ := record_of apart0 hr hn hd (e := 0) (m := sub0) rfl
    refine ⟨r, h1, ?_, ?_, ?_⟩ <;>
      rw [C127_counts apart0 hr hn hd 0 sub0 rfl r h1] <;> decide +kernel
  · rw [(C127_forks apart0 hr hn hd).2.1]; decide +kernel
  · rw [(C127_forks apart0 hr hn hd).2.1]; decide +kernel
  · rw [C127_ckb apart0 hr hn hd]; rfl
  · exact C127_block apart0 hr hn hd 21 (by decide)

/-- A stranger's transaction fails and changes nothing. -/
example : ∀ t, runAll (TStore.init E0) (story.take 3) = some t →
    step E0 t (.tx 2 (who 9) (some (.append sub1))) = .ok (t, false) := by
  intro t ht
  obtain ⟨t', ht'⟩ := Option.isSome_iff_exists.1
    (show (runAll (TStore.init E0) (story.take 3)).isSome = true by decide +kernel)
  rw [ht] at ht'
  cases ht'
  obtain ⟨hr, hd⟩ := reach_run (pre := []) Reach.init
    (show allHeld (TStore.init E0) (story.take 3) = true by decide +kernel) ht
  have hv : isValidator E0 t 2 (who 9) ≠ .ok true := by
    rw [ne_eq, C127_validator apart0 hr (by decide) hd 2 (by decide)]
    rintro ⟨e, m, v, h1, h2, h3, h4⟩
    have he : e = 0 := by
      have : epochOfBlock (accepted ([] ++ story.take 3)) 2 = some 0 := by decide +kernel
      rw [this] at h1; exact (Option.some.inj h1).symm
    subst he
    have hm : m = sub0 := (Option.some.inj h2).symm
    subst hm
    simp only [sub0, List.mem_cons, List.not_mem_nil, or_false] at h3
    rcases h3 with rfl | rfl <;> revert h4 <;> decide +kernel
  unfold step exec
  simp only [show (2 : Nat) ≠ 0 by decide, if_false]
  cases hx : isValidator E0 t 2 (who 9) with
  | ok b =>
    cases b with
    | true => exact absurd hx hv
    | false => rfl
  | err => rfl
  | panic =>
    exfalso
    have hb := C127_block apart0 hr (by decide) hd 2 (by decide)
    have : epochOfBlock (accepted ([] ++ story.take 3)) 2 = some 0 := by decide +kernel
    rw [this] at hb
    obtain ⟨m, r, c, -, hmd, -, -⟩ := hb
    unfold isValidator at hx
    rw [hmd] at hx
    cases hx

/-- Decidable form of `Trie.Sized`. -/
def sizedB : Trie.Node → Bool
  | .empty => true
  | .leaf p v => decide (p.length < 2 ^ 32) && decide (v.length < 2 ^ 32)
  | .ext p c => decide (p.length < 2 ^ 32) && sizedB c
  | .branch cs v => ((List.finRange 16).all fun i => sizedB (cs i)) && v.all fun w => decide (w.length < 2 ^ 32)

theorem sized_of : ∀ t : Trie.Node, sizedB t = true → Trie.Sized t
  | .empty, _ => trivial
  | .leaf p v, h => by simpa [sizedB, Trie.Sized] using h
  | .ext p c, h => by
    simp only [sizedB, Bool.and_eq_true, decide_eq_true_eq] at h
    exact ⟨h.1, sized_of c h.2⟩
  | .branch cs v, h => by
    simp only [sizedB, Bool.and_eq_true, List.all_eq_true] at h
    refine ⟨fun i => sized_of (cs i) (h.1 i (List.mem_finRange i)), ?_⟩
    rintro w rfl
    simpa using h.2

def order1 : List Op := [.tx 0 (who 9) (some (.append sub0)), .tx 0 (who 9) (some (.ckb info))]
def order2 : List Op := [.tx 0 (who 9) (some (.ckb info)), .tx 0 (who 9) (some (.append sub0))]

/-- Everything asked of the two tries of the next example. -/
def rootsB : Option TStore → Option TStore → Bool
  | some t, some t' =>
    sizedB t.trie && sizedB t'.trie && decide (Trie.root pad t.trie = Trie.root pad t'.trie) &&
    ((Trie.pieces pad t.trie ++ Trie.pieces pad t'.trie).all fun a =>
      (Trie.pieces pad t.trie ++ Trie.pieces pad t'.trie).all fun b => decide (pad a = pad b → a = b))
  | _, _ => false

theorem orders_root : rootsB (runAll (TStore.init E0) order1) (runAll (TStore.init E0) order2) = true := by
  decide +kernel

theorem orders_held : allHeld (TStore.init E0) order1 = true ∧ allHeld (TStore.init E0) order2 = true := by
  decide +kernel

/-- The hypotheses of `C127_root` hold of two nodes that saw the same two transactions in different order. -/
example : ∃ t t', Reach E0 10 order1 t ∧ Reach E0 10 order2 t' ∧
    (∀ k, metadataAt E0 t k = metadataAt E0 t' k) ∧ getCkb E0 t = getCkb E0 t' := by
  have hb := orders_root
  cases h1 : runAll (TStore.init E0) order1 with
  | none => rw [h1] at hb; simp [rootsB] at hb
  | some t =>
    cases h2 : runAll (TStore.init E0) order2 with
    | none => rw [h1, h2] at hb; simp [rootsB] at hb
    | some t' =>
      rw [h1, h2] at hb
      simp only [rootsB, Bool.and_eq_true, decide_eq_true_eq, List.all_eq_true] at hb
      obtain ⟨⟨⟨s1, s2⟩, hr⟩, hc⟩ := hb
      have r1 := (reach_run (pre := []) Reach.init orders_held.1 h1).1
      have r2 := (reach_run (pre := []) Reach.init orders_held.2 h2).1
      have := C127_root (E := E0) (fun b => by simp [E0, pad]) apart0 apart0 r1 r2 (by decide) (by decide)
        (sized_of _ s1) (sized_of _ s2) hc hr
      exact ⟨t, t', r1, r2, this.2.1, this.2.2.2.1⟩

end Axon.MetaTrie
