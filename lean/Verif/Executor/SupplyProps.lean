import Verif.Executor.FeeProps

/-!
# Property C67: executing a block does not create money
-/

namespace Axon.Exec
open Axon.Assoc Axon.Tx
open Axon.Admission (SignedTx gasPrice gasLimit value action checkAuthorization)

variable {H : Type} [DecidableEq H]

/-- The sender can pay for the whole gas limit. -/
def CanPay (w : World H) (tx : SignedTx) : Prop :=
  (gasPrice tx.transaction.unsigned).val * (gasLimit tx.transaction.unsigned).val
    ≤ (basic w tx.sender).balance.val

/-- A block in which, at the moment it is executed, every ordinary transaction can be paid for in full, no system
contract refuses a call, and there is no call of the native token contract. -/
inductive Paid (env : Env H) (vm : Vm H) : World H → List SignedTx → Prop
  | nil (w : World H) : Paid env vm w []
  | cons {w : World H} {tx : SignedTx} {txs : List SignedTx}
      (hnative : action tx.transaction.unsigned ≠ .call (sysAddr 0))
      (hpay : dispatch (action tx.transaction.unsigned) = .evm → CanPay w tx)
      (hsys : ∀ w' r, execTx env vm w tx = .ok (w', r) →
        dispatch (action tx.transaction.unsigned) ≠ .evm → r.succeed = true)
      (htl : ∀ w' r, execTx env vm w tx = .ok (w', r) → Paid env vm w' txs) : Paid env vm w (tx :: txs)

theorem wf_taken {env : Env H} {w : World H} (hw : WF env w) : WF env (takeLogs w).2 :=
  ⟨hw.root, hw.hash, hw.db, hw.vals, hw.codes⟩

theorem wf_evm {env : Env H} (hg : env.Good) {vm : Vm H} (hvm : vm.Metered)
    {w w' : World H} {tx : SignedTx} {r : TxResp H} (hw : WF env w) (hp : w.gasPrice.val < 2 ^ 64)
    (h : evmExec env vm w tx = .ok (w', r)) : WF env w' := by
  have hspec := evmExec_spec hg hvm hw hp tx
  by_cases hn : (view env w tx.sender).nonce.val + 1 < 2 ^ 256
  · obtain ⟨w1, r1, n, b, h1, hw1, _⟩ := hspec.2 hn
    rw [h] at h1
    cases h1
    exact hw1
  · rw [hspec.1 (by omega)] at h; cases h

theorem supply_sys {env : Env H} (hg : env.Good) {vm : Vm H} {w w' : World H} {a : H160} {tx : SignedTx}
    {r : TxResp H} (hw : WF env w) (hn : NodupKeys w.accounts) (h : sysExec env vm w a tx = .ok (w', r))
    (hr : r.succeed = true) :
    WF env w' ∧ NodupKeys w'.accounts ∧ supply w' = supply w ∧ r.feeCost.val = 0 := by
  unfold sysExec at h
  simp only at h
  cases hs : vm.sys w tx with
  | none =>
    rw [hs] at h
    simp only [bind_ok] at h
    obtain ⟨r1, h1, h⟩ := h
    unfold revertResp at h1
    split at h1
    · cases h1
    · cases h1; cases h; simp at hr
  | some root =>
    rw [hs] at h
    simp only [bind_ok] at h
    obtain ⟨w1, h1, h⟩ := h
    cases h
    have := supply_updateStates hg (wf_setRoot hw a root) (by rw [setRoot_accounts]; exact hn) h1
    refine ⟨this.1, this.2.1, ?_, rfl⟩
    rw [this.2.2]
    unfold supply
    rw [setRoot_accounts]

theorem supply_tx {env : Env H} (hg : env.Good) {vm : Vm H} (hvm : vm.Metered) (hc : vm.Conserves env)
    {w w' : World H} {tx : SignedTx} {r : TxResp H} (hw : WF env w) (hn : NodupKeys w.accounts)
    (hnative : action tx.transaction.unsigned ≠ .call (sysAddr 0))
    (hpay : dispatch (action tx.transaction.unsigned) = .evm → CanPay w tx)
    (hsys : dispatch (action tx.transaction.unsigned) ≠ .evm → r.succeed = true)
    (h : execTx env vm w tx = .ok (w', r)) :
    WF env w' ∧ NodupKeys w'.accounts ∧ supply w' + r.feeCost.val ≤ supply w := by
  unfold execTx at h
  simp only [bind_ok] at h
  obtain ⟨⟨w1, r1⟩, h1, h⟩ := h
  simp only [Outcome.ok.injEq, Prod.mk.injEq] at h
  obtain ⟨rfl, rfl⟩ := h
  simp only at hsys ⊢
  have hlt := (gasPrice tx.transaction.unsigned).lt
  have hw0 : WF env { w with gasPrice := ⟨(gasPrice tx.transaction.unsigned).val,
      Nat.lt_trans (gasPrice tx.transaction.unsigned).lt (by decide)⟩, origin := tx.sender } :=
    ⟨hw.root, hw.hash, hw.db, hw.vals, hw.codes⟩
  have key : WF env w1 ∧ NodupKeys w1.accounts ∧ supply w1 + r1.feeCost.val ≤ supply w := by
    cases hd : dispatch (action tx.transaction.unsigned) with
    | native => exact absurd (((C35_routing _).2.1).1 hd) hnative
    | contract a =>
      rw [hd] at h1 hsys
      simp only at h1
      have := supply_sys hg hw0 hn h1 (hsys (by simp))
      refine ⟨this.1, this.2.1, ?_⟩
      have e : supply w1 = supply w := this.2.2.1
      have := this.2.2.2
      omega
    | evm =>
      rw [hd] at h1 hpay
      simp only at h1
      have := supply_evm hg hvm hc hw0 hn (hpay rfl) h1
      refine ⟨wf_evm hg hvm hw0 hlt h1, this.1, ?_⟩
      have h2 := this.2
      exact h2
  refine ⟨wf_taken key.1, key.2.1, ?_⟩
  have e : supply (takeLogs w1).2 = supply w1 := rfl
  rw [e]; exact key.2.2

theorem supply_runs {env : Env H} (hg : env.Good) {vm : Vm H} (hvm : vm.Metered) (hc : vm.Conserves env)
    {w w' : World H} {txs : List SignedTx} {rs : List (TxResp H)} (h : Runs env vm w txs w' rs) :
    WF env w → NodupKeys w.accounts → Paid env vm w txs →
    WF env w' ∧ NodupKeys w'.accounts ∧ supply w' + (rs.map (·.feeCost.val)).sum ≤ supply w := by
  induction h with
  | nil w => intro hw hn _; exact ⟨hw, hn, by simp⟩
  | cons hx ht ih =>
    intro hw hn hp
    cases hp with
    | cons hnative hpay hsys htl =>
      have h1 := supply_tx hg hvm hc hw hn hnative hpay (hsys _ _ hx) hx
      have h2 := ih h1.1 h1.2.1 (htl _ _ hx)
      refine ⟨h2.1, h2.2.1, ?_⟩
      simp only [List.map_cons, List.sum_cons]
      omega

theorem supply_distribute {env : Env H} {w w' : World H} {fee : U256} {vs : List Validator}
    (hn : NodupKeys w.accounts) (h : distribute env w fee vs = .ok w') :
    NodupKeys w'.accounts ∧ supply w' ≤ supply w + fee.val := by
  unfold distribute at h
  split at h
  · cases h; exact ⟨hn, by omega⟩
  · rw [bind_ok] at h
    obtain ⟨l, hl, h⟩ := h
    have := (creditAll_spec l h).2.2 hn
    have hle := allocate_le hl
    exact ⟨this.1, by omega⟩

theorem wf_credit {env : Env H} (hg : env.Good) {w w' : World H} {i : H160 × U256} (hw : WF env w)
    (h : credit env w i = .ok w') : WF env w' := by
  unfold credit at h
  split at h
  · cases h; exact hw
  · rw [bind_ok] at h
    obtain ⟨b, hb, h⟩ := h
    cases h
    exact (save_balance_spec hg hw i.1 b).1

theorem wf_creditAll {env : Env H} (hg : env.Good) (l : List (H160 × U256)) : ∀ {w w' : World H},
    WF env w → creditAll env l w = .ok w' → WF env w' := by
  induction l with
  | nil => intro w w' hw h; simp only [creditAll, Outcome.ok.injEq] at h; exact h ▸ hw
  | cons i l ih =>
    intro w w' hw h
    simp only [creditAll, bind_ok] at h
    obtain ⟨w1, h1, h⟩ := h
    exact ih (wf_credit hg hw h1) h

theorem wf_distribute {env : Env H} (hg : env.Good) {w w' : World H} {fee : U256} {vs : List Validator}
    (hw : WF env w) (h : distribute env w fee vs = .ok w') : WF env w' := by
  unfold distribute at h
  split at h
  · cases h; exact hw
  · rw [bind_ok] at h
    obtain ⟨l, hl, h⟩ := h
    exact wf_creditAll hg l hw h

theorem supply_afterBlock {env : Env H} (hg : env.Good) {vm : Vm H} {w w' : World H} (hw : WF env w)
    (hn : NodupKeys w.accounts) (h : afterBlock env vm w = .ok w') : supply w' = supply w := by
  unfold afterBlock at h
  split at h
  · cases h; rfl
  · rw [bind_ok] at h
    obtain ⟨root, _, h⟩ := h
    have hw' : WF env { w with metadataRoot := root } := ⟨hw.root, hw.hash, hw.db, hw.vals, hw.codes⟩
    have := supply_apply_keep hg hw' hn (rootChanges_keep env vm _ _) h
    exact this

/-- **C67, what does hold.**  If the virtual machine itself creates no money, a block in which every ordinary
transaction can be paid for when its turn comes, no system contract refuses a call, and the native token
contract is not called, leaves at most the money there was: fees paid to the validators are covered by what the
senders were charged. -/
theorem C67_no_creation_partial {env : Env H} (hg : env.Good) {vm : Vm H} (hvm : vm.Metered)
    (hc : vm.Conserves env) {w w' : World H} {txs : List SignedTx} {vs : List Validator} {e : ExecResp H}
    (hw : WF env w) (hn : NodupKeys w.accounts) (hp : Paid env vm (initRoots env vm w) txs)
    (h : exec env vm w txs vs = .ok (w', e)) : supply w' ≤ supply w := by
  obtain ⟨w1, hr, _, _, _, fee, hfee, w2, h2, h3⟩ := C31_totals h
  have hw0 : WF env (initRoots env vm w) := ⟨hw.root, hw.hash, hw.db, hw.vals, hw.codes⟩
  have h1 := supply_runs hg hvm hc hr hw0 hn hp
  have h4 := supply_distribute h1.2.1 h2
  have h5 := supply_afterBlock hg (wf_distribute hg h1.1 h2) h4.1 h3
  have e0 : supply (initRoots env vm w) = supply w := rfl
  omega

/-! ### The hypotheses can be met -/

theorem toyVm_conserves : toyVm.Conserves toyEnv := by
  intro w w' tx hw hn h
  unfold settle at h
  simp only [toyVm, toyRun] at h
  cases hact : action tx.transaction.unsigned with
  | create => simp [hact] at h; subst h; exact Nat.le_refl _
  | call to =>
    simp only [hact] at h
    split at h
    · simp at h; subst h; exact Nat.le_refl _
    · split at h
      · simp at h; subst h; exact Nat.le_refl _
      · split at h
        · simp at h; subst h; exact Nat.le_refl _
        · split at h
          · simp at h; subst h; exact Nat.le_refl _
          · rename_i hd hb hlim hto
            simp only [if_true, apply, bind_ok, Outcome.ok.injEq] at h
            obtain ⟨w2, h, hw'⟩ := h
            subst hw'
            show supply w2 ≤ supply w
            simp only [applyChanges, applyChange, bind_ok, Outcome.ok.injEq] at h
            obtain ⟨wa, ⟨⟨wa0, ea⟩, h1, ha⟩, wb, ⟨⟨wb0, eb⟩, h2, hb2⟩, rfl⟩ := h
            obtain ⟨n1, s1⟩ := nodup_applyOne hn h1
            obtain ⟨wx, hx, hwx, hvx, _⟩ := applyOne_spec toyEnv_good hw tx.sender
              { balance := satSub (basic w tx.sender).balance (value tx.transaction.unsigned),
                nonce := satAdd (basic w tx.sender).nonce.val 1 } none [] false
            rw [h1] at hx
            simp only [Outcome.ok.injEq, Prod.mk.injEq] at hx
            obtain ⟨rfl, _⟩ := hx
            have hto' : (basic wa0 to).balance = (basic w to).balance := by
              have := congrArg View.balance (hvx to)
              simp [specChange, hto] at this
              exact this
            simp only at ha hb2 s1
            -- the sender's account is never empty here: its nonce is positive
            have hda : supply wa + (basic w tx.sender).balance.val
                ≤ supply w + (satSub (basic w tx.sender).balance (value tx.transaction.unsigned)).val ∧
                NodupKeys wa.accounts ∧ (basic wa to).balance = (basic w to).balance := by
              subst ha
              by_cases he : ea = true
              · have hdel := sum_del (fun acc : Account ToyHash => acc.balance.val) wa0.accounts n1 tx.sender
                rw [getD_balance] at hdel
                have hs : supply wa0 = (wa0.accounts.map (fun e => e.2.balance.val)).sum := rfl
                simp only [he, Bool.true_and, if_true]
                refine ⟨?_, nodupKeys_del n1 _, ?_⟩
                · show ((del wa0.accounts tx.sender).map (fun e => e.2.balance.val)).sum + _ ≤ _
                  omega
                · rw [← hto']
                  simp only [basic, get_del, hto, if_false]
              · simp only [he]
                exact ⟨by simp; omega, n1, hto'⟩
            obtain ⟨n2, s2⟩ := nodup_applyOne hda.2.1 h2
            have hdb : supply wb ≤ supply wb0 := by
              subst hb2
              split
              · have hdel := sum_del (fun acc : Account ToyHash => acc.balance.val) wb0.accounts n2 to
                show ((del wb0.accounts to).map (fun e => e.2.balance.val)).sum ≤
                  (wb0.accounts.map (fun e => e.2.balance.val)).sum
                omega
              · exact Nat.le_refl _
            rw [hda.2.2] at s2
            simp only [satAdd_val, satSub_val] at s2 hda
            omega

/-- Price and limit of the transaction fit the sender's balance, checked by computation. -/
theorem paid_single {vm : Vm H} {env : Env H} {w : World H} {tx : SignedTx}
    (hnative : action tx.transaction.unsigned ≠ .call (sysAddr 0))
    (hevm : dispatch (action tx.transaction.unsigned) = .evm) (hpay : CanPay w tx) :
    Paid env vm w [tx] :=
  .cons hnative (fun _ => hpay) (fun _ _ _ h => absurd hevm h) (fun _ _ _ => .nil _)

/-- Supply before and after a block. -/
def supplies (w : World ToyHash) (txs : List SignedTx) (vs : List Validator) : Option (Nat × Nat) :=
  match exec toyEnv toyVm w txs vs with
  | .ok (w', _) => some (supply w, supply w')
  | _ => none

/-- A payment of 500 with a fee of 63000, of which the single validator gets everything. -/
example : supplies { richWorld with blockNumber := u256 7 }
    [toyTx 1 (u64 0) (u64 3) (u64 100000) (toyAddr 2) (u256 500) []]
    [⟨toyAddr 9, ⟨1, by decide⟩⟩] = some (1000000, 1000000) := by decide +kernel

example : Paid toyEnv toyVm (initRoots toyEnv toyVm { richWorld with blockNumber := u256 7 })
    [toyTx 1 (u64 0) (u64 3) (u64 100000) (toyAddr 2) (u256 500) []] :=
  paid_single (by decide) (by decide) (by unfold CanPay; decide +kernel)

/-! ### The unconditional claim is false -/

def spend : SignedTx := toyTx 1 (u64 0) (u64 1) (u64 21000) (toyAddr 2) (u256 979000) []
def hollow : SignedTx := toyTx 1 (u64 1) (u64 1) (u64 1000000) (toyAddr 2) (u256 0) []

/-- Admission against the state before the block. -/
def admitted (w : World ToyHash) (tx : SignedTx) : Bool :=
  match checkAuthorization (fun a => ⟨(basic w a).nonce, (basic w a).balance⟩) (fun _ => false) [] tx with
  | some (_, .ok _) => true
  | _ => false

/-- **C67 is false of the code: overdraft.**  Two transactions, each of which passes the admission check in the
state before the block.  The first spends the whole balance; the second one's prepaid gas is then taken from
nothing (`saturating_sub`) and given back in full.  The block ends with almost twice the money there was. -/
theorem C67_overdraft_false :
    admitted richWorld spend = true ∧ admitted richWorld hollow = true ∧
    supplies { richWorld with blockNumber := u256 7 } [spend, hollow] [⟨toyAddr 9, ⟨1, by decide⟩⟩]
      = some (1000000, 2000000) := by decide +kernel

/-- **C67 is false of the code: refused system calls.**  A refused system call costs the sender nothing, but a fee
of one is paid to the validators. -/
theorem C67_revert_false :
    supplies { richWorld with blockNumber := u256 7 }
      [toyTx 1 (u64 0) (u64 1) (u64 50000) (sysAddr 1) (u256 0) []] [⟨toyAddr 9, ⟨1, by decide⟩⟩]
      = some (1000000, 1000001) := by decide +kernel

end Axon.Exec
