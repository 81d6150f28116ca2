import Verif.Api.StateProof
import Verif.Executor.StateProps

/-!
# C109: state proofs
-/

namespace Axon.StateProof

open Axon Axon.Assoc Axon.Exec

variable {H : Type} [DecidableEq H]

/-! ## Specification -/

/-- What a client checks of an entry for a storage position: the proof is valid for the storage root, and
the value is the proved one, absence meaning zero. -/
def SlotOk {R : Type} (P : Prover H R) (root : H) (s : SlotProof) : Prop :=
  ∃ k o, beNat k.bytes = s.key.val ∧ P.checkSlot root k s.proof = some o ∧
    match o with
    | some b => decVal b = some s.value
    | none => s.value = U256.zero

/-- What a client checks of an answer, given the state root of a header: the proof is valid and proves
exactly the reported account, and every storage entry checks. -/
def AnswerOk {R : Type} (P : Prover H R) (root : R) (r : AccountProof H) : Prop :=
  P.checkAccount root r.address r.accountProof
      = some (some ⟨r.nonce, r.balance, r.storageHash, r.codeHash⟩) ∧
    ∀ s ∈ r.storageProof, SlotOk P r.storageHash s

/-- The storage trie of the account is in the database. -/
def Stored (w : World H) (a : H160) : Prop :=
  ∀ acc, get w.accounts a = some acc → get w.db acc.storageRoot ≠ none

/-! ## Theorems -/

/-- **C109, values.**  The answer names the address and the positions asked for, in order, and reports the
balance, the nonce and the storage that the virtual machine reads in this state. -/
theorem C109_values_partial {R : Type} {env : Env H} (hg : env.Good) (P : Prover H R) {w : World H}
    (hw : WF env w) (a : H160) (ps : List U256) (hs : Stored w a) :
    ∃ r, getProof env P w a ps = .ok r ∧ r.address = a ∧
      r.balance = (basic w a).balance ∧ r.nonce = (basic w a).nonce ∧
      r.storageProof.map (·.key) = ps ∧
      ∀ s ∈ r.storageProof, ∀ k : H256, beNat k.bytes = s.key.val →
        s.value = (view env w a).slot k := by
  cases ha : get w.accounts a with
  | none =>
    refine ⟨_, getProof_none P ha _, rfl, by simp [basic, ha], by simp [basic, ha],
      by simp [List.map_map, Function.comp_def], ?_⟩
    intro s hs k _
    obtain ⟨p, _, rfl⟩ := List.mem_map.1 hs
    simp [view, slot, storage, ha]
  | some acc =>
    cases hm : get w.db acc.storageRoot with
    | none => exact absurd hm (hs acc ha)
    | some m =>
      have hv : Vals m := fun k b h => hw.vals _ m k b hm h
      refine ⟨_, getProof_some P ha hm hv _, rfl, by simp [basic, ha],
        by simp [basic, ha], by simp [List.map_map, Function.comp_def], ?_⟩
      intro s hs k hk
      obtain ⟨p, _, rfl⟩ := List.mem_map.1 hs
      rw [eq_keyOf hk]
      simp [view, slot_of_db hg hw ha hm]

/-- **C109, proofs.**  For an existing account the answer passes every check of a client who knows only
the state root. -/
theorem C109_verifies_partial {R : Type} {env : Env H} (P : Prover H R) (hP : P.Good env)
    {w : World H} (hw : WF env w) (a : H160) (ps : List U256) (hs : Stored w a)
    (hex : existsAccount w a = true) :
    ∃ r, getProof env P w a ps = .ok r ∧ AnswerOk P (P.stateRoot w.accounts) r := by
  cases ha : get w.accounts a with
  | none => simp [existsAccount, ha] at hex
  | some acc =>
    cases hm : get w.db acc.storageRoot with
    | none => exact absurd hm (hs acc ha)
    | some m =>
      have hv : Vals m := fun k b h => hw.vals _ m k b hm h
      refine ⟨_, getProof_some P ha hm hv _, ?_, ?_⟩
      · dsimp only
        rw [hP.account_complete, ha]
      · intro s hs
        dsimp only at hs ⊢
        obtain ⟨p, _, rfl⟩ := List.mem_map.1 hs
        refine ⟨keyOf p, get m (keyOf p), keyOf_nat p, ?_, ?_⟩
        · dsimp only
          rw [← hw.db _ _ hm]
          exact hP.slot_complete m _
        · cases hb : get m (keyOf p) with
          | none => simp [slotOf, hb]
          | some b =>
            obtain ⟨v, _, rfl⟩ := hv _ _ hb
            simp [slotOf, hb, decVal_encVal]

/-- **C109, no forged answers.**  Whoever answers: an answer that passes the checks reports what the
virtual machine reads. -/
theorem C109_truth {R : Type} {env : Env H} (hg : env.Good) (P : Prover H R) (hP : P.Good env)
    {w : World H} (hw : WF env w) (r : AccountProof H)
    (hr : AnswerOk P (P.stateRoot w.accounts) r) :
    existsAccount w r.address = true ∧
    r.balance = (view env w r.address).balance ∧ r.nonce = (view env w r.address).nonce ∧
    (∀ c, env.digest c = r.codeHash → (view env w r.address).code = c) ∧
    ∀ s ∈ r.storageProof, ∀ k : H256, beNat k.bytes = s.key.val →
      s.value = (view env w r.address).slot k := by
  obtain ⟨h1, h2⟩ := hr
  have ha := (hP.account_sound _ _ _ _ h1).symm
  refine ⟨by simp [existsAccount, ha], by simp [view, basic, ha], by simp [view, basic, ha], ?_, ?_⟩
  · intro c hc
    simp only [view, code, ha]
    split
    next hn =>
      rw [hn] at hc
      exact (hg.digest_inj _ _ hc).symm
    next hn =>
      obtain ⟨c', hc'⟩ := hw.hash _ _ ha hn
      simp only at hc'
      rw [hc']
      exact hg.digest_inj _ _ ((hw.codes _ _ hc').trans hc.symm)
  · intro s hs k hk
    obtain ⟨k', o, hk', ho, hval⟩ := h2 s hs
    have : k' = k := (eq_keyOf hk').trans (eq_keyOf hk).symm
    subst this
    by_cases hn : r.storageHash = env.rlpNull
    · have hno : o = none := by
        rw [hn] at ho
        have := hP.slot_sound [] _ _ _ ho
        rw [this, get_nil]
      subst hno
      simp [view, slot, storage, ha, hn]
      exact hval
    · obtain ⟨m, hm⟩ := hw.root _ _ ha hn
      simp only at hm
      have hroot := hw.db _ _ hm
      rw [← hroot] at ho
      have ho := hP.slot_sound m _ _ _ ho
      simp only [view]
      rw [slot_of_db hg hw ha (by simpa using hm)]
      subst ho
      unfold slotOf
      cases hb : get m k' with
      | none => rw [hb] at hval; exact hval
      | some b => rw [hb] at hval; simp at hval; simp [hval]

/-- `eth_getStorageAt` answers what the virtual machine reads, in every well-formed state. -/
theorem C109_storage {env : Env H} (hg : env.Good) {w : World H} (hw : WF env w) (a : H160) (p : U256)
    (k : H256) (hk : beNat k.bytes = p.val) : ethGetStorageAt w a p = .ok ((view env w a).slot k) := by
  rw [eq_keyOf hk]
  unfold ethGetStorageAt getStorageAt
  cases ha : get w.accounts a with
  | none => simp [view, slot, storage, ha]
  | some acc =>
    dsimp only
    cases hm : get w.db acc.storageRoot with
    | none =>
      have hn : acc.storageRoot = env.rlpNull := by
        refine Classical.byContradiction fun hn => ?_
        obtain ⟨m, h⟩ := hw.root _ _ ha hn
        rw [hm] at h
        cases h
      simp [view, slot, storage, ha, hn]
    | some m =>
      have hv : Vals m := fun k b h => hw.vals _ m k b hm h
      dsimp only
      rw [slotValue_eq hv]
      simp [view, slot_of_db hg hw ha hm]

/-- **Missing accounts.**  For an address without an account the answer is given, but it does not pass the
checks: it claims the zero hash for code and storage, which no code has, and its storage entries come
without a proof. -/
theorem C109_missing_false {R : Type} {env : Env H} (hg : env.Good) (P : Prover H R) (hP : P.Good env)
    (w : World H) (a : H160) (p : U256) (ps : List U256) (ha : existsAccount w a = false) :
    ∃ r, getProof env P w a (p :: ps) = .ok r ∧
      P.checkAccount (P.stateRoot w.accounts) a r.accountProof = some none ∧
      (∀ c, env.digest c ≠ r.codeHash) ∧ r.codeHash ≠ (getAccount env w a).codeHash ∧
      ∀ s ∈ r.storageProof, ¬ SlotOk P r.storageHash s := by
  have ha : get w.accounts a = none := by simpa [existsAccount] using ha
  refine ⟨_, getProof_none P ha _, ?_, hg.digest_ne_zero, ?_, ?_⟩
  · dsimp only
    rw [hP.account_complete, ha]
  · intro h
    simp only [getAccount, ha, Option.getD_none, emptyAccount] at h
    exact hg.digest_ne_zero _ h.symm
  · intro s hs
    obtain ⟨q, _, rfl⟩ := List.mem_map.1 hs
    rintro ⟨k, o, _, ho, _⟩
    dsimp only at ho
    rw [hP.empty] at ho
    cases ho

/-- **Genesis accounts.**  As long as no empty storage trie has been committed, `eth_getProof` fails for
every account of the genesis block, although the state is well formed and `eth_getStorageAt` answers. -/
theorem C109_genesis_false {R : Type} {env : Env H} (P : Prover H R) {w : World H}
    (hw : WF env w) (hdb : get w.db env.rlpNull = none) (a : H160) (balance p : U256) (ps : List U256) :
    WF env (insertAccount env w a balance) ∧
    (basic (insertAccount env w a balance) a).balance = balance ∧
    ethGetStorageAt (insertAccount env w a balance) a p = .ok U256.zero ∧
    getProof env P (insertAccount env w a balance) a ps = .err := by
  have hget : get (insertAccount env w a balance).accounts a
      = some { emptyAccount env with balance := balance } := by
    simp [insertAccount, get_put]
  refine ⟨⟨?_, ?_, hw.db, hw.vals, hw.codes⟩, by simp [basic, hget], ?_, ?_⟩
  · intro b acc hb hr
    simp only [insertAccount, get_put] at hb
    split at hb
    · cases hb; exact absurd rfl hr
    · exact hw.root b acc hb hr
  · intro b acc hb hr
    simp only [insertAccount, get_put] at hb
    split at hb
    · cases hb; exact absurd rfl hr
    · exact hw.hash b acc hb hr
  · have h2 : get (insertAccount env w a balance).db env.rlpNull = none := hdb
    simp [ethGetStorageAt, getStorageAt, hget, emptyAccount, h2]
  · have h2 : get (insertAccount env w a balance).db env.rlpNull = none := hdb
    simp [getProof, hget, emptyAccount, h2]

/-- In a well-formed state only the empty trie can be missing: once it is stored, `eth_getProof` answers
for every address. -/
theorem C109_total {R : Type} {env : Env H} (P : Prover H R) {w : World H} (hw : WF env w)
    (hdb : get w.db env.rlpNull ≠ none) (a : H160) (ps : List U256) :
    Stored w a ∧ ∃ r, getProof env P w a ps = .ok r := by
  have hs : Stored w a := by
    intro acc ha
    by_cases hr : acc.storageRoot = env.rlpNull
    · rw [hr]; exact hdb
    · obtain ⟨m, hm⟩ := hw.root _ _ ha hr
      simp [hm]
  refine ⟨hs, ?_⟩
  cases ha : get w.accounts a with
  | none => exact ⟨_, getProof_none P ha _⟩
  | some acc =>
    cases hm : get w.db acc.storageRoot with
    | none => exact absurd hm (hs acc ha)
    | some m =>
      have hv : Vals m := fun k b h => hw.vals _ m k b hm h
      exact ⟨_, getProof_some P ha hm hv _⟩

/-- ... it is stored by the first change to an account without storage, for instance by paying for a
transaction ... -/
theorem C109_first_change {env : Env H} {w w' : World H} (a : H160) (b : Basic) (c : Option Bytes)
    (e : Bool) (hr : (getAccount env w a).storageRoot = env.rlpNull)
    (h : applyOne env w a b c [] false = .ok (w', e)) : get w'.db env.rlpNull ≠ none := by
  unfold applyOne openStorage at h
  simp only [hr, if_true, Bool.false_eq_true, if_false, List.foldl_nil] at h
  injection h with h
  injection h with h _
  subst h
  cases c with
  | none => simp [saveAccount, Env.rlpNull, get_put]
  | some c =>
    dsimp only
    split <;> simp [saveAccount, Env.rlpNull, get_put]

/-- ... and no execution removes it. -/
theorem C109_stays {env : Env H} {w w' : World H} (cs : List Change) (logs : List Log) (de : Bool)
    (h : apply env w cs logs de = .ok w') (hdb : get w.db env.rlpNull ≠ none) :
    get w'.db env.rlpNull ≠ none := by
  unfold apply at h
  cases h1 : applyChanges env de cs w with
  | err => rw [h1] at h; cases h
  | panic => rw [h1] at h; cases h
  | ok w1 =>
    rw [h1] at h
    simp only [Outcome.bind] at h
    injection h with h
    subst h
    exact applyChanges_db h1 _ hdb

/-! ## Cases that meet the hypotheses -/

/-- Roots that are their own contents, with proofs of one node. -/
def toyProver : Prover ToyHash (List (H160 × Account ToyHash)) where
  stateRoot m := m
  proveAccount _ _ := [[1]]
  checkAccount m a π := if π = [] then none else some (get m a)
  proveSlot _ _ := [[1]]
  checkSlot h k π := match h with
    | some (.inr m) => if π = [] then none else some (get m k)
    | _ => none

theorem toyProver_good : toyProver.Good toyEnv where
  account_complete m a := by simp [toyProver]
  account_sound m a π r h := by
    simp only [toyProver] at h
    split at h
    · cases h
    · exact (Option.some.inj h).symm
  slot_complete m k := by simp [toyProver, toyEnv]
  slot_sound m k π r h := by
    simp only [toyProver, toyEnv] at h
    split at h
    · cases h
    · exact (Option.some.inj h).symm
  empty h k := by
    simp only [toyProver]
    split <;> simp

/-- A contract with one slot, beside an account of the genesis block. -/
def toyState : Outcome (World ToyHash) :=
  apply toyEnv (insertAccount toyEnv toyWorld (toyAddr 9) (u256 50))
    [.modify (toyAddr 7) ⟨u256 5, u256 1⟩ none [(toyKey 1, u256 300)] false] [] true

/-- The reported balance and storage entries of an answer. -/
def reported (r : Outcome (AccountProof ToyHash)) : Outcome (U256 × List SlotProof) :=
  r.bind fun r => .ok (r.balance, r.storageProof)

-- the contract's slot and an empty slot are proved
example : reported (toyState.bind fun w => getProof toyEnv toyProver w (toyAddr 7) [u256 1, u256 2])
    = .ok (u256 5, [⟨u256 1, u256 300, [[1]]⟩, ⟨u256 2, u256 0, [[1]]⟩]) := by decide +kernel
-- the account of the genesis block has no proof, an absent account has one of zeros
example : reported (toyState.bind fun w => getProof toyEnv toyProver w (toyAddr 9) []) = .err := by
  decide +kernel
example : reported (toyState.bind fun w => getProof toyEnv toyProver w (toyAddr 8) [u256 1])
    = .ok (u256 0, [⟨u256 1, u256 0, []⟩]) := by decide +kernel
example : (toyState.bind fun w => ethGetStorageAt w (toyAddr 7) (u256 1)) = .ok (u256 300) ∧
    (toyState.bind fun w => ethGetStorageAt w (toyAddr 9) (u256 1)) = .ok (u256 0) := by decide +kernel
-- a change to the account of the genesis block makes its proofs available
example : reported ((apply toyEnv (insertAccount toyEnv toyWorld (toyAddr 9) (u256 50))
      [.modify (toyAddr 9) ⟨u256 49, u256 1⟩ none [] false] [] true).bind
        fun w => getProof toyEnv toyProver w (toyAddr 9) [u256 3])
    = .ok (u256 49, [⟨u256 3, u256 0, [[1]]⟩]) := by decide +kernel
-- the states are well formed
example : ∃ w, toyState = .ok w ∧ WF toyEnv w := by
  have h := (C109_genesis_false toyProver (wf_of_no_accounts toyEnv toyWorld rfl rfl rfl) rfl (toyAddr 9)
    (u256 50) (u256 0) []).1
  obtain ⟨w, hw, hwf, _⟩ := C33_read_back toyEnv_good h
    [.modify (toyAddr 7) ⟨u256 5, u256 1⟩ none [(toyKey 1, u256 300)] false] [] true
  exact ⟨w, hw, hwf⟩

end Axon.StateProof
