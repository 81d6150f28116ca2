import Verif.Api.AxonRpc

/-!
# C106: what the methods for light clients answer
-/

namespace Axon.AxonRpc

open Axon Axon.Block Axon.Api Axon.Meta Axon.Light

/-! ## Specification -/

/-- Every block between genesis and the last one is proved, to a node, by the proof in the header of
its child; `vs n` are the validators for block `n`. -/
def Sealed (E : Env) (vs : Nat → List Proof.Validator) (chain : List Full) : Prop :=
  ∀ (n : Nat) (a b c : Full), chain[n]? = some a → chain[n + 1]? = some b → chain[n + 2]? = some c →
    nodeVerify E (some a.block.header.stateRoot) (some (vs (n + 1))) b.block c.block.header.proof = .ok ()

/-- Validator lists that node and light client count in the same way. -/
def Countable (vs : List Proof.Validator) : Prop :=
  Proof.Distinct vs ∧ (∃ w, 0 < w ∧ ∀ v ∈ vs, v.vote = w) ∧ 3 * Proof.weight vs < 2 ^ 64

/-- The flag, bit by bit, has a bit that is set in the hash. -/
def Has (h : H256) (flag : Nat) : Prop := ∃ k < 64, flag.testBit k = true ∧ bitOf h (192 + k) = true

/-- What the status of a hardfork should be at a height: in force; in force at some later height of the
registered list; proposed by this node; or nothing. -/
def Reported (l : Forks) (proposal : Option (Nat × H256)) (current flag : Nat) : Status → Prop
  | .enabled => Has (forkAt l current) flag
  | .determined => ¬ Has (forkAt l current) flag ∧ ∃ m, current < m ∧ Has (forkAt l m) flag
  | .proposed => (¬ ∃ m, current ≤ m ∧ Has (forkAt l m) flag) ∧ ∃ p, proposal = some p ∧ Has p.2 flag

/-! ## Blocks and proofs -/

theorem block_of {A : Adapter} {chain : List Full} (hs : Serves A chain) {n : Nat} {f : Full}
    (h : chain[n]? = some f) : A.blockAt (some n) = some (some f.block) := by
  simp [Adapter.blockAt, hs.block, h]

theorem small {A : Adapter} {chain : List Full} (hs : Serves A chain) {n : Nat} {f : Full}
    (h : chain[n]? = some f) : n < 2 ^ 64 := by
  rw [← hs.wf.number n f h]
  exact f.block.header.number.lt

/-- `axon_getProposalByNumber` answers the proposal of the block with the parent's state root. -/
theorem C106_proposal {A : Adapter} {chain : List Full} (hs : Serves A chain) {n : Nat} {a b : Full}
    (ha : chain[n]? = some a) (hb : chain[n + 1]? = some b) :
    getProposalByNumber A (n + 1) = .ok (proposalOf a.block.header.stateRoot b.block) := by
  have hn : lowU64 (n + 1) = n + 1 := Nat.mod_eq_of_lt (small hs hb)
  unfold getProposalByNumber
  rw [hn, if_neg (by omega), Nat.add_sub_cancel, block_of hs ha, block_of hs hb]
  rfl

/-- **C106, a light client can verify.**  For every block after genesis that has a successor, the block,
its proposal and the proof asked for under the *next* number pass the light client's check, and the
proof names the digest of the proposal. -/
theorem C106_verify_partial {E : Env} (hE : OrderFree E) {A : Adapter} {chain : List Full}
    (hs : Serves A chain) {vs : Nat → List Proof.Validator} (hq : Sealed E vs chain) (n : Nat)
    (hv : Countable (vs (n + 1))) (hl : n + 2 < chain.length) (k k' : U64) (hk : k.val = n + 1)
    (hk' : k'.val = n + 2) :
    ∃ b q p, getBlockById A (.num k) = .ok (some b) ∧ getProposalByNumber A (n + 1) = .ok q ∧
      getProofById A (.num k') = .ok (some p) ∧
      toolsVerify E q.prevStateRoot (vs (n + 1)) b p = .ok () ∧ E.keccak (encodeProposal q) = p.blockHash := by
  have ha : chain[n]? = some (chain[n]'(by omega)) := List.getElem?_eq_getElem _
  have hb : chain[n + 1]? = some (chain[n + 1]'(by omega)) := List.getElem?_eq_getElem _
  have hc : chain[n + 2]? = some (chain[n + 2]'(by omega)) := List.getElem?_eq_getElem _
  revert ha hb hc
  generalize chain[n]'(by omega) = a
  generalize chain[n + 1]'(by omega) = b
  generalize chain[n + 2]'(by omega) = c
  intro ha hb hc
  obtain ⟨hd, ⟨w, hw0, hw⟩, hwt⟩ := hv
  have hn := hs.wf.number _ _ hb
  have ht := C105_node_partial hE hd hw0 hw hwt _ _ _ (by omega) (hq n a b c ha hb hc)
  refine ⟨b.block, proposalOf a.block.header.stateRoot b.block, c.block.header.proof, ?_,
    C106_proposal hs ha hb, ?_, ht, ((C105_accept_iff hE hd _ _ _).1 ht).1⟩
  · rw [getBlockById, hk, block_of hs hb]; rfl
  · rw [getProofById, getBlockById, hk', block_of hs hc]; rfl

/-- **The proof answered for a block does not prove it.**  Whatever block after the first one a client
asks for, and whatever state root it uses, `verify_proof` refuses the block with the proof answered for
the same identifier, unless two different proposals have the same digest. -/
theorem C106_own_proof_false {E : Env} {A : Adapter} {chain : List Full}
    (hs : Serves A chain) {vs : Nat → List Proof.Validator} (hq : Sealed E vs chain) (n : Nat)
    {a b c : Full} (ha : chain[n]? = some a) (hb : chain[n + 1]? = some b) (hc : chain[n + 2]? = some c)
    (hlen : (encodeProposal (proposalOf a.block.header.stateRoot b.block)).length < 2 ^ 64)
    (k : U64) (hk : k.val = n + 2) (r : H256) (vs' : List Proof.Validator) :
    ∃ p, getBlockById A (.num k) = .ok (some c.block) ∧ getProofById A (.num k) = .ok (some p) ∧
      (toolsVerify E r vs' c.block p = .ok () →
        Clash E (encodeProposal (proposalOf a.block.header.stateRoot b.block))
          (encodeProposal (proposalOf r c.block))) := by
  refine ⟨c.block.header.proof, ?_, ?_, ?_⟩
  · rw [getBlockById, hk, block_of hs hc]; rfl
  · rw [getProofById, getBlockById, hk, block_of hs hc]; rfl
  · intro h
    have hn := hs.wf.number _ _ hb
    have hn' := hs.wf.number _ _ hc
    have h1 := hq n a b c ha hb hc
    unfold nodeVerify at h1
    rw [if_neg (by omega)] at h1
    split at h1
    · cases h1
    dsimp only at h1
    split at h1
    · cases h1
    next hx =>
      have hx : E.keccak (encodeProposal (proposalOf a.block.header.stateRoot b.block)) =
          c.block.header.proof.blockHash := Classical.byContradiction fun hh => hx hh
      unfold toolsVerify at h
      rw [toolsProposal_eq] at h
      split at h
      · cases h
      next hy =>
        have hy : E.keccak (encodeProposal (proposalOf r c.block)) = c.block.header.proof.blockHash :=
          Classical.byContradiction fun hh => hy hh
        refine ⟨?_, hx.trans hy.symm⟩
        intro e
        rw [C06_same_bytes_iff _ _ hlen] at e
        simp only [proposalOf, Block.Proposal.mk.injEq] at e
        have := congrArg UIntN.val e.2.2.2.2.2.2.1
        omega

/-- The proof of the latest block is not served: there is nothing under the next number. -/
theorem C106_latest {A : Adapter} {chain : List Full} (hs : Serves A chain) (k : U64)
    (hk : chain.length ≤ k.val) :
    getBlockById A (.num k) = .ok none ∧ getProofById A (.num k) = .ok none ∧
      ∃ f, chain.getLast? = some f ∧ getBlockById A .latest = .ok (some f.block) := by
  have h : A.blockAt (some k.val) = some none := by
    simp [Adapter.blockAt, hs.block, List.getElem?_eq_none hk]
  refine ⟨by rw [getBlockById, h]; rfl, by rw [getProofById, getBlockById, h]; rfl, ?_⟩
  cases hl : chain.getLast? with
  | none => exact absurd (List.getLast?_eq_none_iff.1 hl) hs.wf.nonempty
  | some f =>
    refine ⟨f, rfl, ?_⟩
    simp [getBlockById, Adapter.blockAt, hs.latest, hl, Answer.ofOption]

/-- Only these two tags are refused; the answer for a hash is the stored block. -/
theorem C106_tags (A : Adapter) (id : BlockId) :
    getBlockById A id = .invalidRequest ↔ id = .earliest ∨ id = .pending := by
  have h : ∀ {α : Type} (x : Option α), Answer.ofOption x ≠ .invalidRequest := by
    intro α x
    cases x <;> simp [Answer.ofOption]
  cases id <;> simp [getBlockById, h]

/-- Nothing here panics. -/
theorem C106_no_panic (A : Adapter) (id : BlockId) (n : Nat) :
    getBlockById A id ≠ .panic ∧ getProofById A id ≠ .panic ∧ getProposalByNumber A n ≠ .panic := by
  have h : ∀ {α : Type} (x : Option α), Answer.ofOption x ≠ .panic := by
    intro α x
    cases x <;> simp [Answer.ofOption]
  have hb : ∀ {α β : Type} (x : Answer α) (f : α → Answer β), x ≠ .panic → (∀ a, f a ≠ .panic) →
      x.bind f ≠ .panic := by
    intro α β x f hx hf
    cases x with
    | ok a => exact hf a
    | invalidRequest => intro h; cases h
    | internal => intro h; cases h
    | panic => exact absurd rfl hx
  have h1 : getBlockById A id ≠ .panic := by
    cases id <;> simp [getBlockById, h]
  refine ⟨h1, hb _ _ h1 (fun _ => by intro h; cases h), ?_⟩
  unfold getProposalByNumber
  refine hb _ _ ?_ fun _ => hb _ _ (h _) fun _ => hb _ _ (h _) fun _ => by intro h; cases h
  split
  · intro h; cases h
  · exact hb _ _ (h _) fun _ => hb _ _ (h _) fun _ => by intro h; cases h

/-- **Numbers are cut to 64 bits.**  A request with `2^64` more gets the same proposal and metadata
instead of an error. -/
theorem C106_truncated_false (A : Adapter) {M : Type} (md : Option Nat → Option M) (n k : Nat) :
    getProposalByNumber A (n + k * 2 ^ 64) = getProposalByNumber A n ∧
    getMetadataByNumber md (n + k * 2 ^ 64) = getMetadataByNumber md n := by
  have h : lowU64 (n + k * 2 ^ 64) = lowU64 n := by
    unfold lowU64
    rw [Nat.mul_comm, Nat.add_mul_mod_self_left]
  unfold getProposalByNumber getMetadataByNumber
  rw [h]
  exact ⟨rfl, rfl⟩

/-! ## Metadata -/

/-- **Which metadata is answered.**  For a number below `2^64`: the metadata that applies to that block
by the state after that block, and an error when the block is not stored.  The current metadata: the
one that applies to the latest block by the state after it; so it is the answer for the number of the
latest block whenever that block is stored under its number. -/
theorem C106_metadata {M : Type} (S : MetaSource M) :
    (∀ n, n < 2 ^ 64 → ∀ m, getMetadataByNumber S.metadata n = .ok m ↔
      ∃ h, S.header n = some (some h) ∧ S.read h.stateRoot n = some m) ∧
    (∀ n, n < 2 ^ 64 → S.header n = some none → getMetadataByNumber S.metadata n = .internal) ∧
    (∀ m, getCurrentMetadata S.metadata = .ok m ↔
      ∃ h, S.latest = some h ∧ S.read h.stateRoot h.number.val = some m) ∧
    (∀ h, S.latest = some h → S.header h.number.val = some (some h) →
      getCurrentMetadata S.metadata = getMetadataByNumber S.metadata h.number.val) := by
  have hof : ∀ (x : Option M) m, Answer.ofOption x = .ok m ↔ x = some m := by
    intro x m
    cases x <;> simp [Answer.ofOption]
  have hlow : ∀ n, n < 2 ^ 64 → lowU64 n = n := fun n h => Nat.mod_eq_of_lt h
  refine ⟨?_, ?_, ?_, ?_⟩
  · intro n hn m
    unfold getMetadataByNumber
    rw [hof, hlow n hn]
    simp only [MetaSource.metadata, MetaSource.stateRoot]
    rcases S.header n with _ | _ | h <;> simp
  · intro n hn h
    unfold getMetadataByNumber
    rw [hlow n hn]
    simp [MetaSource.metadata, MetaSource.stateRoot, h, Answer.ofOption]
  · intro m
    unfold getCurrentMetadata
    rw [hof]
    simp only [MetaSource.metadata, MetaSource.stateRoot]
    rcases S.latest with _ | h <;> simp
  · intro h hl hh
    unfold getCurrentMetadata getMetadataByNumber
    rw [hlow _ h.number.lt]
    simp [MetaSource.metadata, MetaSource.stateRoot, hl, hh]

/-- Two blocks; the state after each gives the block's own number as its metadata. -/
example (h0 h1 : Header) (hn : h1.number.val = 1) (read : H256 → Nat → Option Nat)
    (hr : ∀ r n, read r n = some n) :
    let S : MetaSource Nat := ⟨fun n => if n = 0 then some (some h0) else
      if n = 1 then some (some h1) else some none, some h1, read⟩
    getCurrentMetadata S.metadata = .ok 1 ∧ getMetadataByNumber S.metadata 0 = .ok 0 ∧
    getMetadataByNumber S.metadata 2 = .internal := by
  intro S
  obtain ⟨a, b, c, _⟩ := C106_metadata S
  exact ⟨(c 1).2 ⟨h1, rfl, by rw [hn]; exact hr _ _⟩, (a 0 (by decide) 0).2 ⟨h0, rfl, hr _ _⟩,
    b 2 (by decide) rfl⟩

/-! ## Hardforks -/

theorem has_iff (h : H256) (f : Nat) : andH h (mask f) ≠ zeroH ↔ Has h f := by
  rw [ne_zeroH_iff]
  unfold Has
  constructor
  · rintro ⟨p, hp, hb⟩
    rw [bitOf_andH, bitOf_mask, Bool.and_eq_true, Bool.and_eq_true] at hb
    obtain ⟨h1, h2, h3⟩ := hb
    have h2 := of_decide_eq_true h2
    exact ⟨p - 192, by omega, h3, by rw [show 192 + (p - 192) = p by omega]; exact h1⟩
  · rintro ⟨k, hk, hf, hb⟩
    refine ⟨192 + k, by omega, ?_⟩
    rw [bitOf_andH, bitOf_mask, hb, show 192 + k - 192 = k by omega, hf]
    simp
    omega

theorem has_zero (f : Nat) : ¬ Has zeroH f := by
  rintro ⟨k, -, -, h⟩
  rw [bitOf_zeroH] at h
  cases h

theorem has_xor {a b : H256} {f : Nat} (h : ¬ Has b f) : Has (xorH a b) f ↔ Has a f := by
  unfold Has
  constructor
  · rintro ⟨k, hk, hf, hb⟩
    refine ⟨k, hk, hf, ?_⟩
    rw [bitOf_xorH] at hb
    cases hx : bitOf b (192 + k) with
    | true => exact absurd ⟨k, hk, hf, hx⟩ h
    | false => rw [hx] at hb; simpa using hb
  · rintro ⟨k, hk, hf, hb⟩
    refine ⟨k, hk, hf, ?_⟩
    rw [bitOf_xorH, hb]
    cases hx : bitOf b (192 + k) with
    | true => exact absurd ⟨k, hk, hf, hx⟩ h
    | false => rfl

theorem has_includes {a b : H256} {f : Nat} (h : Includes a b) (hb : Has b f) : Has a f := by
  obtain ⟨k, hk, hf, hb⟩ := hb
  refine ⟨k, hk, hf, ?_⟩
  rw [← h, bitOf_orH, hb]
  simp

theorem scan_some (current : Nat) (l : List (Nat × H256)) (d : H256) :
    scan current l (some d) = (some d, (l.find? fun e => e.1 ≤ current).map (·.2)) := by
  induction l with
  | nil => rfl
  | cons e l ih =>
    unfold scan
    by_cases h : current < e.1
    · rw [if_pos h, List.find?_cons_of_neg (by simpa using h)]
      exact ih
    · rw [if_neg h, List.find?_cons_of_pos (by simpa using h)]
      rfl

/-- The enabled flags are those in force; the determined ones are those of the last entry where they
differ, if it is still to come. -/
theorem enabled_eq (l : Forks) (current : Nat) :
    (enabledAndDetermined l current).1 = forkAt l current := by
  have hs : ∀ l : List (Nat × H256), (scan current l none).2 = (l.find? fun e => e.1 ≤ current).map (·.2) := by
    intro l
    cases l with
    | nil => rfl
    | cons e l =>
      unfold scan
      by_cases h : current < e.1
      · rw [if_pos h, List.find?_cons_of_neg (by simpa using h)]
        dsimp only
        rw [scan_some]
      · rw [if_neg h, List.find?_cons_of_pos (by simpa using h)]
        rfl
  unfold enabledAndDetermined
  split
  next h =>
    cases l using snoc_induction with
    | nil => rfl
    | snoc t e =>
      have : t = [] := by
        rw [List.length_append, List.length_singleton] at h
        exact List.eq_nil_of_length_eq_zero (by omega)
      subst this
      rw [List.nil_append, List.getLast?_singleton]
      have := forkAt_snoc [] e current
      rw [List.nil_append] at this
      rw [this]
      by_cases hc : current < e.1
      · simp [hc, forkAt, Nat.not_le.2 hc]
      · simp [hc, Nat.not_lt.1 hc]
  next h =>
    dsimp only
    rw [hs]
    unfold forkAt
    cases l.reverse.find? (fun e => e.1 ≤ current) <;> rfl

theorem determined_has (regs : List (Nat × H256)) (current flag : Nat)
    (hn : ¬ Has (forkAt (registerAll regs) current) flag) :
    Has (enabledAndDetermined (registerAll regs) current).2 flag ↔
      ∃ m, current < m ∧ Has (forkAt (registerAll regs) m) flag := by
  have hmono := C39_monotone regs
  have hinc := increasing_registerAll regs
  revert hn hmono hinc
  generalize registerAll regs = l
  intro hn hmono hinc
  cases l using snoc_induction with
  | nil =>
    simp [enabledAndDetermined, forkAt, has_zero]
  | snoc t e =>
    -- the flags from the last entry on
    have hlast : (∃ m, current < m ∧ Has (forkAt (t ++ [e]) m) flag) ↔ (current < e.1 ∧ Has e.2 flag) := by
      constructor
      · rintro ⟨m, hm, hh⟩
        by_cases hc : current < e.1
        · refine ⟨hc, ?_⟩
          have h1 := hmono m (max m e.1) (by omega)
          have h2 : forkAt (t ++ [e]) (max m e.1) = e.2 := by
            rw [forkAt_snoc, if_pos (by omega)]
          rw [h2] at h1
          exact has_includes h1 hh
        · exfalso
          rw [forkAt_snoc, if_pos (by omega)] at hh hn
          exact hn hh
      · rintro ⟨hc, hh⟩
        exact ⟨e.1, hc, by rw [forkAt_snoc, if_pos (Nat.le_refl _)]; exact hh⟩
    rw [hlast]
    have hen := enabled_eq (t ++ [e]) current
    unfold enabledAndDetermined at hen ⊢
    by_cases hl : (t ++ [e]).length < 2
    · rw [if_pos hl] at *
      rw [List.getLast?_concat]
      dsimp only
      by_cases hc : current < e.1
      · simp [hc]
      · simp [hc, has_zero]
    · rw [if_neg hl] at *
      dsimp only at hen ⊢
      rw [hen, List.reverse_append, List.reverse_singleton, List.singleton_append]
      unfold scan
      by_cases hc : current < e.1
      · rw [if_pos hc]
        dsimp only
        rw [scan_some]
        simp only [Option.getD_some, hc, true_and]
        by_cases hz : e.2 = zeroH
        · rw [if_neg (by simpa using hz)]
        · rw [if_pos hz]
          exact has_xor hn
      · rw [if_neg hc]
        simp [hc, has_zero]

/-- **C106, hardforks.**  For every history of registered hardforks, a name is reported with a status
exactly when that status holds at the latest height. -/
theorem C106_status (regs : List (Nat × H256)) (p : Option (Nat × H256)) (current flag : Nat) (s : Status) :
    statusOf p (enabledAndDetermined (registerAll regs) current).1
        (enabledAndDetermined (registerAll regs) current).2 flag = some s ↔
      Reported (registerAll regs) p current flag s := by
  rw [enabled_eq]
  unfold statusOf
  have hsplit : (∃ m, current ≤ m ∧ Has (forkAt (registerAll regs) m) flag) ↔
      (Has (forkAt (registerAll regs) current) flag ∨
        ∃ m, current < m ∧ Has (forkAt (registerAll regs) m) flag) := by
    constructor
    · rintro ⟨m, hm, hh⟩
      rcases Nat.lt_or_eq_of_le hm with h | rfl
      · exact .inr ⟨m, h, hh⟩
      · exact .inl hh
    · rintro (h | ⟨m, hm, hh⟩)
      · exact ⟨current, Nat.le_refl _, h⟩
      · exact ⟨m, by omega, hh⟩
  by_cases h1 : Has (forkAt (registerAll regs) current) flag
  · rw [if_pos ((has_iff _ _).2 h1)]
    cases s <;> simp [Reported, h1, hsplit]
  · rw [if_neg (fun h => h1 ((has_iff _ _).1 h))]
    have hd := determined_has regs current flag h1
    by_cases h2 : ∃ m, current < m ∧ Has (forkAt (registerAll regs) m) flag
    · rw [if_pos ((has_iff _ _).2 (hd.2 h2))]
      cases s <;> simp only [Reported, h1, hsplit, h2, not_false_eq_true, true_and, or_true, not_true, false_and, reduceCtorEq, Option.some.injEq]
    · rw [if_neg (fun h => h2 (hd.1 ((has_iff _ _).1 h)))]
      cases p with
      | none =>
        cases s <;> simp only [Reported, h1, hsplit, h2, reduceCtorEq, false_and, and_false, exists_false, not_false_eq_true, false_or]
      | some q =>
        dsimp only
        by_cases h3 : Has q.2 flag
        · rw [if_pos ((has_iff _ _).2 h3)]
          cases s <;> simp only [Reported, h1, hsplit, h2, reduceCtorEq, false_and, and_false, not_false_eq_true, false_or, Option.some.injEq, exists_eq_left', h3, true_and]
        · rw [if_neg (fun h => h3 ((has_iff _ _).1 h))]
          cases s <;> simp only [Reported, h1, hsplit, h2, reduceCtorEq, false_and, and_false, not_false_eq_true, false_or, Option.some.injEq, exists_eq_left', h3]

/-- The whole answer: every name with the status that holds, and no other name. -/
theorem C106_hardforks (regs : List (Nat × H256)) (p : Option (Nat × H256)) (current : Nat) :
    ∃ m, hardforkInfos (some (registerAll regs)) (some p) (some current) = .ok m ∧
      ∀ f s, (f, s) ∈ m ↔ f ∈ names ∧ Reported (registerAll regs) p current f s := by
  refine ⟨_, rfl, ?_⟩
  intro f s
  rw [List.mem_filterMap]
  constructor
  · rintro ⟨f', hf, h⟩
    rw [Option.map_eq_some_iff] at h
    obtain ⟨s', hs, e⟩ := h
    cases e
    exact ⟨hf, (C106_status ..).1 hs⟩
  · rintro ⟨hf, h⟩
    exact ⟨f, hf, by rw [(C106_status ..).2 h]; rfl⟩

/-- A name with one flag bit is reported as enabled exactly when the executor takes it to be. -/
theorem C106_enabled_iff (regs : List (Nat × H256)) (p : Option (Nat × H256)) (current k : Nat) (hk : k < 64) :
    Reported (registerAll regs) p current (2 ^ k) .enabled ↔
      enableHardfork (forkAt (registerAll regs) current) (2 ^ k) = true := by
  unfold Reported enableHardfork Has
  rw [decide_eq_true_iff]
  constructor
  · rintro ⟨j, hj, hf, hb⟩
    have hjk : k = j := by simpa [Nat.testBit_two_pow] using hf
    subst hjk
    apply bitOf_ext
    intro q hq
    rw [bitOf_andH, bitOf_mask, Nat.testBit_two_pow]
    by_cases h : q = 192 + k
    · subst h; rw [hb]; simp
    · by_cases h2 : 192 ≤ q
      · have : ¬ k = q - 192 := by omega
        simp [this]
      · simp [h2]
  · intro h
    have hb := congrArg (fun x => bitOf x (192 + k)) h
    simp only [bitOf_andH, bitOf_mask, Nat.testBit_two_pow] at hb
    refine ⟨k, hk, by simp [Nat.testBit_two_pow], ?_⟩
    have h4 : 192 ≤ 192 + k ∧ 192 + k < 256 := by omega
    simpa [h4, show 192 + k - 192 = k by omega] using hb

/-! ## Concrete instances -/

/-- Headers of a small chain. -/
def mk (n : U64) (prev state : H256) (p : Block.Proof) : Block :=
  ⟨⟨prev, ⟨List.replicate 20 2, rfl⟩, state, zeroHash, zeroHash, zeroHash,
    ⟨List.replicate 256 0, List.length_replicate⟩, ⟨5, by decide⟩, n, ⟨0, by decide⟩, ⟨100, by decide⟩, [],
    ⟨1337, by decide⟩, p, ⟨0, by decide⟩, ⟨1, by decide⟩⟩, []⟩

/-- Three of the four sample validators sign a block. -/
def signed (r : H256) (b : Block) : Block.Proof :=
  let h := toyDigest (encodeProposal (proposalOf r b))
  ⟨b.header.number, ⟨0, by decide⟩, h,
    (voteHash toyEnv ⟨b.header.number, ⟨0, by decide⟩, h, [], []⟩).bytes ++ beFixed 8 13, [0xb0]⟩

def b0 : Block := mk ⟨0, by decide⟩ zeroHash zeroHash ⟨⟨0, by decide⟩, ⟨0, by decide⟩, zeroHash, [], []⟩
def b1 : Block := mk ⟨1, by decide⟩ zeroHash sampleRoot ⟨⟨0, by decide⟩, ⟨0, by decide⟩, zeroHash, [], []⟩
def b2 : Block := mk ⟨2, by decide⟩ sampleRoot zeroHash (signed zeroHash b1)
def b3 : Block := mk ⟨3, by decide⟩ sampleRoot sampleRoot (signed sampleRoot b2)

def sampleChain : List Full := [⟨b0, []⟩, ⟨b1, []⟩, ⟨b2, []⟩, ⟨b3, []⟩]

def sampleAdapter : Adapter where
  block n := some (sampleChain[n]?.map (·.block))
  latest := sampleChain.getLast?.map (·.block)
  blockByHash _ := some none
  numberByHash _ := some none
  receipts _ _ := some []

theorem sample_serves : Serves sampleAdapter sampleChain := by
  refine ⟨⟨?_, ?_, by simp [sampleChain]⟩, fun _ => rfl, rfl, ?_⟩
  · intro n f h
    match n, h with
    | 0, h => cases h; rfl
    | 1, h => cases h; rfl
    | 2, h => cases h; rfl
    | 3, h => cases h; rfl
    | n + 4, h => simp [sampleChain] at h
  · intro f hf
    simp [sampleChain] at hf
    rcases hf with rfl | rfl | rfl | rfl <;> rfl
  · intro n f h
    match n, h with
    | 0, h => cases h; rfl
    | 1, h => cases h; rfl
    | 2, h => cases h; rfl
    | 3, h => cases h; rfl
    | n + 4, h => simp [sampleChain] at h

theorem sample_sealed : Sealed toyEnv (fun _ => sampleVs) sampleChain := by
  intro n a b c ha hb hc
  match n, ha, hb, hc with
  | 0, ha, hb, hc => cases ha; cases hb; cases hc; decide +kernel
  | 1, ha, hb, hc => cases ha; cases hb; cases hc; decide +kernel
  | n + 2, _, _, hc => simp [sampleChain] at hc

example : Countable sampleVs :=
  ⟨by unfold Proof.Distinct; decide +kernel, ⟨1, by decide, by decide +kernel⟩, by decide +kernel⟩

example : toolsVerify toyEnv sampleRoot sampleVs b2 b3.header.proof = .ok () ∧
    toolsVerify toyEnv sampleRoot sampleVs b2 b2.header.proof = .error .blockHash := by decide +kernel

/-- What one would expect of `axon_getProofById`: the proof answered for an identifier proves the block
answered for it. -/
def OwnProof (E : Env) (A : Adapter) (vs : List Proof.Validator) : Prop :=
  ∀ id b p q, getBlockById A id = .ok (some b) → getProofById A id = .ok (some p) →
    b.header.number.val ≠ 0 → getProposalByNumber A b.header.number.val = .ok q →
    toolsVerify E q.prevStateRoot vs b p = .ok ()

theorem C106_proof_by_id_false : ¬ OwnProof toyEnv sampleAdapter sampleVs := by
  intro h
  have := h .latest b3 (signed sampleRoot b2) (proposalOf zeroHash b3) rfl rfl (by decide) rfl
  exact absurd this (by decide +kernel)

/-- A hardfork registered for height 10, and another proposed. -/
example : hardforkInfos (some (registerAll [(0, flag 0), (10, flag 1)])) (some none) (some 9) =
    .ok [(1, .determined)] ∧
    hardforkInfos (some (registerAll [(0, flag 0), (10, flag 1)])) (some none) (some 10) = .ok [(1, .enabled)] ∧
    hardforkInfos (some (registerAll [(0, flag 0)])) (some (some (20, flag 1))) (some 10) =
      .ok [(1, .proposed)] := by decide +kernel

end Axon.AxonRpc
