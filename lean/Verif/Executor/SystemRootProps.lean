import Verif.Executor.FeeProps

/-!
# C35: where the roots of the system contracts are kept

A system contract works on a trie of its own.  The chain's state only keeps the root of that trie, in
one storage slot of the contract's account.
-/

namespace Axon.Exec
open Axon.Assoc Axon.Tx Axon.Admission

variable {H : Type} [DecidableEq H]

theorem specSlots_one (old : H256 → U256) (k : H256) (v : U256) : specSlots old [(k, v)] false k = v := by
  simp [specSlots]

theorem specSlots_none (old : H256 → U256) : specSlots old [] false = old := by
  funext k
  simp [specSlots]

/-- **An accepted call is kept.**  When the metadata contract, or the light client or image cell contract,
accepts a call, the root of the contract's trie after it stands in the slot the contract reads at the
start of the next block: for the metadata contract its own slot, for the two others the slots of both,
which share one trie.  No other account changes but the sender's. -/
theorem C35_root_kept {env : Env H} (hg : env.Good) {vm : Vm H} {w w' : World H} (hw : WF env w) {a : H160}
    (ha : a = sysAddr 1 ∨ a = sysAddr 2 ∨ a = sysAddr 3) {tx : SignedTx} {r : TxResp H} {root : U256}
    (hs : vm.sys w tx = some root) (h : sysExec env vm w a tx = .ok (w', r)) :
    (a = sysAddr 1 → slot env w' (sysAddr 1) vm.metadataKey = root ∧
      (initRoots env vm w').metadataRoot = root) ∧
    (a ≠ sysAddr 1 → slot env w' (sysAddr 2) vm.headerKey = root ∧
      slot env w' (sysAddr 3) vm.headerKey = root ∧ (initRoots env vm w').headerRoot = root) ∧
    (∀ x, x ≠ tx.sender → (a = sysAddr 1 → x ≠ sysAddr 1) →
      (a ≠ sysAddr 1 → x ≠ sysAddr 2 ∧ x ≠ sysAddr 3) → view env w' x = view env w x) := by
  have h21 : sysAddr 2 ≠ sysAddr 1 := by decide
  have h31 : sysAddr 3 ≠ sysAddr 1 := by decide
  have h32 : sysAddr 3 ≠ sysAddr 2 := by decide
  unfold sysExec at h
  simp only [hs] at h
  rw [bind_ok] at h
  obtain ⟨w1, hu, h⟩ := h
  cases h
  unfold updateStates at hu
  rw [bind_ok] at hu
  obtain ⟨nonce, _, hu⟩ := hu
  obtain ⟨w2, h2, _, hv, _⟩ := apply_spec hg false _ [] (wf_setRoot hw a root)
  rw [hu] at h2
  cases h2
  have hview : view env (setRoot w a root) = view env w := by
    unfold setRoot
    split <;> rfl
  have hslot : ∀ x k, slot env w' x k = (view env w' x).slot k := fun _ _ => rfl
  rw [hview, List.foldl_append] at hv
  by_cases h1 : a = sysAddr 1
  · subst h1
    have key : slot env w' (sysAddr 1) vm.metadataKey = root := by
      rw [hslot, hv]
      simp only [rootChanges, Ne.symm h21, Ne.symm h31, or_self, if_false, rootChange, List.foldl_cons,
        List.foldl_nil, specChange, setRoot, if_true]
      split
      · rename_i e
        rw [specSlots_none, ← e]
        simp [specSlots_one]
      · simp [specSlots_one]
    refine ⟨fun _ => ⟨key, key⟩, fun hn => absurd rfl hn, ?_⟩
    intro x hx h1 _
    have h1 := h1 rfl
    rw [hv]
    simp [rootChanges, Ne.symm h21, Ne.symm h31, rootChange, specChange, hx, h1]
  · have h23 : a = sysAddr 2 ∨ a = sysAddr 3 := ha.resolve_left h1
    have hfold : ∀ x, x = sysAddr 2 ∨ x = sysAddr 3 → slot env w' x vm.headerKey = root := by
      intro x hx
      rw [hslot, hv]
      simp only [rootChanges, h23, if_true, rootChange, List.foldl_cons, List.foldl_nil, specChange, setRoot,
        h1, if_false]
      rcases hx with rfl | rfl
      · split
        · rename_i e
          rw [specSlots_none, ← e]
          simp [Ne.symm h32, specSlots_one]
        · simp [Ne.symm h32, specSlots_one]
      · split
        · rename_i e
          rw [specSlots_none, ← e]
          simp [specSlots_one]
        · simp [specSlots_one]
    refine ⟨fun e => absurd e h1, fun _ => ⟨hfold _ (.inl rfl), hfold _ (.inr rfl), hfold _ (.inl rfl)⟩, ?_⟩
    intro x hx _ h2
    obtain ⟨x2, x3⟩ := h2 h1
    rw [hv]
    simp [rootChanges, h23, rootChange, specChange, hx, x2, x3]

/-- **The hook at the end of a block is kept.**  In every block but the first the metadata contract's hook
runs after the fees are distributed; the root it leaves is what the next block starts from, and nothing
else changes, not even the contract's balance. -/
theorem C35_hook_kept {env : Env H} (hg : env.Good) {vm : Vm H} {w w' : World H} (hw : WF env w)
    (h : afterBlock env vm w = .ok w') :
    (w.blockNumber.val = 0 → w' = w) ∧
    (w.blockNumber.val ≠ 0 → ∃ root, vm.afterMeta w = .ok root ∧
      slot env w' (sysAddr 1) vm.metadataKey = root ∧ (initRoots env vm w').metadataRoot = root ∧
      (basic w' (sysAddr 1)).balance = (basic w (sysAddr 1)).balance ∧
      (basic w' (sysAddr 1)).nonce = (basic w (sysAddr 1)).nonce ∧
      (∀ k, k ≠ vm.metadataKey → slot env w' (sysAddr 1) k = slot env w (sysAddr 1) k) ∧
      ∀ x, x ≠ sysAddr 1 → view env w' x = view env w x) := by
  have h12 : sysAddr 1 ≠ sysAddr 2 := by decide
  have h13 : sysAddr 1 ≠ sysAddr 3 := by decide
  unfold afterBlock at h
  have hz : w.blockNumber = U256.zero ↔ w.blockNumber.val = 0 :=
    ⟨fun e => (by rw [e]; rfl), fun e => UIntN.ext' e⟩
  split at h
  · rename_i e
    cases h
    exact ⟨fun _ => rfl, fun hn => absurd (hz.1 e) hn⟩
  · rename_i e
    refine ⟨fun hn => absurd (hz.2 hn) e, fun _ => ?_⟩
    rw [bind_ok] at h
    obtain ⟨root, hr, h⟩ := h
    simp only at h
    have hw1 : WF env { w with metadataRoot := root } := ⟨hw.root, hw.hash, hw.db, hw.vals, hw.codes⟩
    obtain ⟨w2, h2, _, hv, _⟩ := apply_spec hg false
      (rootChanges vm { w with metadataRoot := root } (sysAddr 1)) [] hw1
    rw [h] at h2
    cases h2
    have hv : view env w' = [Change.modify (sysAddr 1) (basic w (sysAddr 1)) none
        [(vm.metadataKey, root)] false].foldl specChange (view env w) := by
      rw [hv]
      simp only [rootChanges, h12, h13, or_self, if_false, rootChange]
      rfl
    have h1 := congrFun hv (sysAddr 1)
    simp only [List.foldl_cons, List.foldl_nil, specChange, if_true] at h1
    have key : slot env w' (sysAddr 1) vm.metadataKey = root := by
      have := congrArg (fun v => v.slot vm.metadataKey) h1
      simpa [view, specSlots_one] using this
    refine ⟨root, hr, key, key, ?_, ?_, ?_, ?_⟩
    · exact congrArg View.balance h1
    · exact congrArg View.nonce h1
    · intro k hk
      have := congrArg (fun v => v.slot k) h1
      simpa [view, specSlots, Ne.symm hk] using this
    · intro x hx
      rw [hv]
      simp [specChange, hx]

/-- A machine whose contracts accept every call and leave the root 9, and whose hook leaves the root 8. -/
def keepVm : Vm ToyHash := { toyVm with sys := fun _ _ => some (u256 9), afterMeta := fun _ => .ok (u256 8) }

/-- A call of the light client: both slots hold 9; after the hook the metadata slot holds 8. -/
example :
    (match execTx toyEnv keepVm { richWorld with blockNumber := u256 3 }
        (toyTx 1 (u64 0) (u64 1) (u64 50000) (sysAddr 2) (u256 0) []) with
      | .ok (w1, _) =>
        match afterBlock toyEnv keepVm w1 with
        | .ok w2 => some ((slot toyEnv w2 (sysAddr 2) keepVm.headerKey).val,
            (slot toyEnv w2 (sysAddr 3) keepVm.headerKey).val,
            (slot toyEnv w2 (sysAddr 1) keepVm.metadataKey).val)
        | _ => none
      | _ => none) = some (9, 9, 8) := by decide +kernel

end Axon.Exec
