import Verif.Executor.Exec

/-!
# Lemmas about executing transactions
-/

namespace Axon.Exec
open Axon.Assoc Axon.Tx
open Axon.Admission (SignedTx gasPrice gasLimit value action systemAddress)

variable {H : Type} [DecidableEq H]

theorem chk_ok {n : Nat} {x : U256} : chk n = .ok x ↔ x.val = n := by
  unfold chk UIntN.ofNat? Outcome.orPanic
  by_cases h : n < 2 ^ 256
  · simp only [h, dif_pos]
    constructor
    · intro e; cases e; rfl
    · intro e; cases x; simp only at e; subst e; rfl
  · simp only [h, dif_neg, not_false_eq_true]
    constructor
    · intro e; cases e
    · intro e; exact absurd (e ▸ x.lt) h

theorem chk_lt {n : Nat} (h : n < 2 ^ 256) : chk n = .ok ⟨n, h⟩ := chk_ok.2 rfl

theorem chk_panic {n : Nat} (h : 2 ^ 256 ≤ n) : chk n = .panic := by
  unfold chk UIntN.ofNat? Outcome.orPanic
  rw [dif_neg (by omega)]

theorem chk_ne_err (n : Nat) : chk n ≠ .err := by
  by_cases h : n < 2 ^ 256
  · rw [chk_lt h]; simp
  · rw [chk_panic (by omega)]; simp

theorem satAdd_val (a b : Nat) : (satAdd a b).val = min (a + b) (2 ^ 256 - 1) := by
  unfold satAdd UIntN.ofNat?
  by_cases h : a + b < 2 ^ 256
  · simp only [h, dif_pos, Option.getD_some]; omega
  · simp only [h, dif_neg, not_false_eq_true, Option.getD_none, U256.max]; omega

theorem satSub_val (a b : U256) : (satSub a b).val = a.val - b.val := rfl

theorem price_mul_lt {p l : Nat} (hp : p < 2 ^ 64) (hl : l < 2 ^ 64) : p * l < 2 ^ 256 := by
  have h1 : p * l ≤ p * 2 ^ 64 := Nat.mul_le_mul_left _ (by omega)
  have h2 : p * 2 ^ 64 ≤ 2 ^ 64 * 2 ^ 64 := Nat.mul_le_mul_right _ (by omega)
  have h3 : (2 : Nat) ^ 64 * 2 ^ 64 < 2 ^ 256 := by decide
  omega

theorem basic_view (env : Env H) (w : World H) (a : H160) :
    (getAccount env w a).balance = (view env w a).balance ∧
    (getAccount env w a).nonce = (view env w a).nonce := by
  cases h : get w.accounts a <;> simp [getAccount, view, basic, h, emptyAccount]

/-- Saving an account whose storage and code are those it already has. -/
theorem save_spec {env : Env H} (hg : env.Good) {w : World H} (hw : WF env w) (a : H160) (n b : U256) :
    WF env (saveAccount w a { getAccount env w a with nonce := n, balance := b }) ∧
    view env (saveAccount w a { getAccount env w a with nonce := n, balance := b }) =
      specChange (view env w) (.modify a { balance := b, nonce := n } none [] false) := by
  have hwf : WF env (saveAccount w a { getAccount env w a with nonce := n, balance := b }) := by
    constructor
    · intro x acc hx hr
      simp only [saveAccount, get_put] at hx
      by_cases hxa : x = a
      · simp only [hxa, if_true, Option.some.injEq] at hx
        subst hx
        simp only at hr
        cases ha : get w.accounts a with
        | none => simp [getAccount, ha, emptyAccount] at hr
        | some acc' =>
          have : getAccount env w a = acc' := by simp [getAccount, ha]
          rw [this] at hr
          simpa [this, saveAccount] using hw.root a acc' ha hr
      · simp only [hxa, if_false] at hx
        exact hw.root x acc hx hr
    · intro x acc hx hr
      simp only [saveAccount, get_put] at hx
      by_cases hxa : x = a
      · simp only [hxa, if_true, Option.some.injEq] at hx
        subst hx
        simp only at hr
        cases ha : get w.accounts a with
        | none => simp [getAccount, ha, emptyAccount] at hr
        | some acc' =>
          have : getAccount env w a = acc' := by simp [getAccount, ha]
          rw [this] at hr
          simpa [this, saveAccount] using hw.hash a acc' ha hr
      · simp only [hxa, if_false] at hx
        exact hw.hash x acc hx hr
    · exact hw.db
    · exact hw.vals
    · exact hw.codes
  refine ⟨hwf, funext fun x => ?_⟩
  by_cases hx : x = a
  · subst hx
    simp only [specChange, if_true]
    have hget : get (saveAccount w x { getAccount env w x with nonce := n, balance := b }).accounts x
        = some { getAccount env w x with nonce := n, balance := b } := by
      simp [saveAccount, get_put]
    refine View.ext' ?_ ?_ ?_ (fun k => ?_)
    · simp [view, basic, hget]
    · simp [view, basic, hget]
    · simp only [Option.getD_none]
      show code env _ x = code env w x
      unfold code
      rw [hget]
      cases ha : get w.accounts x with
      | none => simp [getAccount, ha, emptyAccount]
      | some acc => simp [getAccount, ha, saveAccount]
    · show slot env _ x k = specSlots (slot env w x) [] false k
      simp only [specSlots, List.reverse_nil, List.find?_nil]
      unfold slot storage
      rw [hget]
      cases ha : get w.accounts x with
      | none => simp [getAccount, ha, emptyAccount]
      | some acc => simp [getAccount, ha, saveAccount]
  · simp only [specChange, hx, if_false]
    exact view_congr hg hw hwf (by simp [saveAccount, get_put, hx]) (fun _ h => h) (fun _ h => h)

theorem save_balance_spec {env : Env H} (hg : env.Good) {w : World H} (hw : WF env w) (a : H160)
    (b : U256) :
    WF env (saveAccount w a { getAccount env w a with balance := b }) ∧
    view env (saveAccount w a { getAccount env w a with balance := b }) =
      specChange (view env w) (.modify a { balance := b, nonce := (view env w a).nonce } none [] false) := by
  rw [← (basic_view env w a).2]
  exact save_spec hg hw a (getAccount env w a).nonce b

/-- What can be read after the virtual machine, before the remaining gas is given back. -/
def afterVm (env : Env H) (w1 : World H) (o : VmOut) : H160 → View :=
  if o.succeed then o.changes.foldl specChange (view env w1) else view env w1

theorem settle_spec {env : Env H} (hg : env.Good) {w : World H} (hw : WF env w) (o : VmOut) :
    ∃ w', settle env w o = .ok w' ∧ WF env w' ∧ view env w' = afterVm env w o ∧
      w' = { w with accounts := w'.accounts, db := w'.db, codes := w'.codes,
                    logs := if o.succeed then o.logs else w.logs } := by
  unfold settle afterVm
  by_cases hs : o.succeed = true
  · obtain ⟨w', h, hwf, hv, hr⟩ := apply_spec hg true o.changes o.logs hw
    exact ⟨w', by simp [hs, h], hwf, by simp [hs, hv], by simpa [hs] using hr⟩
  · exact ⟨w, by simp [hs], hw, by simp [hs], by simp [hs]⟩

/-- The world before the virtual machine. -/
theorem prepaid_spec {env : Env H} (hg : env.Good) {w : World H} (hw : WF env w) (s : H160)
    (p : U256) : WF env (prepaid env w s p) ∧
      view env (prepaid env w s p) = specChange (view env w)
        (.modify s { balance := satSub (view env w s).balance p, nonce := (view env w s).nonce } none [] false) := by
  rw [← (basic_view env w s).1]
  exact save_balance_spec hg hw s (satSub (getAccount env w s).balance p)

/-- Prepaid amount. -/
def prepayOf (w : World H) (tx : SignedTx) : Nat :=
  w.gasPrice.val * (gasLimit tx.transaction.unsigned).val

/-- The state handed to the virtual machine. -/
def vmStart (env : Env H) (w : World H) (tx : SignedTx) : World H :=
  prepaid env w tx.sender ((UIntN.ofNat? 256 (prepayOf w tx)).getD U256.max)

/-- The virtual machine's outcome for a transaction. -/
def vmOut (env : Env H) (vm : Vm H) (w : World H) (tx : SignedTx) : VmOut := vm.run (vmStart env w tx) tx

/-- The virtual machine never uses more than the limit. -/
def Vm.Metered (vm : Vm H) : Prop :=
  ∀ w tx, (vm.run w tx).total ≤ (gasLimit tx.transaction.unsigned).val

theorem used_le (o : VmOut) : o.used ≤ o.total := Nat.sub_le ..

/-- `evm_exec` in full: it panics exactly when the nonce is exhausted; otherwise the state changes as the
virtual machine asks, the nonce is set and the remaining gas given back. -/
theorem evmExec_spec {env : Env H} (hg : env.Good) {vm : Vm H} (hvm : vm.Metered) {w : World H}
    (hw : WF env w) (hp : w.gasPrice.val < 2 ^ 64) (tx : SignedTx) :
    (2 ^ 256 ≤ (view env w tx.sender).nonce.val + 1 → evmExec env vm w tx = .panic) ∧
    ((view env w tx.sender).nonce.val + 1 < 2 ^ 256 →
      ∃ (w' : World H) (r : TxResp H) (n b : U256),
        evmExec env vm w tx = .ok (w', r) ∧ WF env w' ∧
        n.val = (view env w tx.sender).nonce.val + 1 ∧
        b.val = min ((afterVm env (vmStart env w tx) (vmOut env vm w tx) tx.sender).balance.val +
          w.gasPrice.val * r.remainGas) (2 ^ 256 - 1) ∧
        view env w' = specChange (afterVm env (vmStart env w tx) (vmOut env vm w tx))
          (.modify tx.sender { balance := b, nonce := n } none [] false) ∧
        r.succeed = (vmOut env vm w tx).succeed ∧
        r.gasUsed = (vmOut env vm w tx).used ∧
        r.remainGas + (vmOut env vm w tx).total = (gasLimit tx.transaction.unsigned).val ∧
        r.feeCost.val = w.gasPrice.val * r.gasUsed ∧
        w'.logs = (if r.succeed then (vmOut env vm w tx).logs else w.logs) ∧
        w' = { w with accounts := w'.accounts, db := w'.db, codes := w'.codes, logs := w'.logs }) := by
  have hl := (gasLimit tx.transaction.unsigned).lt
  have hpre := price_mul_lt hp hl
  obtain ⟨hw1, hv1⟩ := prepaid_spec hg hw tx.sender ⟨_, hpre⟩
  have hstart : vmStart env w tx = prepaid env w tx.sender ⟨_, hpre⟩ := by
    simp [vmStart, prepayOf, UIntN.ofNat?, hpre]
  generalize hW1 : prepaid env w tx.sender ⟨_, hpre⟩ = w1 at *
  have hlog1 : w1 = { w with accounts := w1.accounts, db := w1.db, codes := w1.codes } := by
    rw [← hW1]; rfl
  have ho : vmOut env vm w tx = vm.run w1 tx := by rw [vmOut, hstart]
  have htot := hvm w1 tx
  rw [ho, hstart]
  generalize hO : vm.run w1 tx = o at *
  obtain ⟨w2, h2, hw2, hv2, hr2⟩ := settle_spec hg hw1 o
  have hrem : o.remained (gasLimit tx.transaction.unsigned).val < 2 ^ 64 := by
    unfold VmOut.remained; omega
  have hback : ∃ b, giveBack (getAccount env w2 tx.sender).balance w.gasPrice
      (o.remained (gasLimit tx.transaction.unsigned).val) = .ok b ∧
      b.val = min ((view env w2 tx.sender).balance.val +
        w.gasPrice.val * o.remained (gasLimit tx.transaction.unsigned).val) (2 ^ 256 - 1) := by
    rw [(basic_view env w2 tx.sender).1]
    unfold giveBack
    by_cases h0 : o.remained (gasLimit tx.transaction.unsigned).val = 0
    · refine ⟨(view env w2 tx.sender).balance, by simp [h0], ?_⟩
      have := (view env w2 tx.sender).balance.lt
      simp [h0]; omega
    · have hlt := price_mul_lt hrem hp
      simp only [h0, ne_eq, not_false_eq_true, if_true, chk_lt hlt, Outcome.bind]
      refine ⟨_, rfl, ?_⟩
      rw [satAdd_val, Nat.mul_comm w.gasPrice.val]
  obtain ⟨b, hb, hbv⟩ := hback
  have hfee : w.gasPrice.val * o.used < 2 ^ 256 := by
    have h1 := used_le o
    have h2 : w.gasPrice.val * o.used ≤ w.gasPrice.val * (gasLimit tx.transaction.unsigned).val :=
      Nat.mul_le_mul_left _ (by omega)
    omega
  constructor
  · intro hn
    rw [← (basic_view env w tx.sender).2] at hn
    unfold evmExec
    simp only [chk_lt hpre, Outcome.bind, hW1, hO, h2, chk_panic hn]
  · intro hn
    have hn' := hn
    rw [← (basic_view env w tx.sender).2] at hn'
    obtain ⟨hw3, hv3⟩ := save_spec hg hw2 tx.sender ⟨_, hn'⟩ b
    have hex : evmExec env vm w tx = .ok (saveAccount w2 tx.sender
        { getAccount env w2 tx.sender with nonce := ⟨_, hn'⟩, balance := b },
        { succeed := o.succeed
          ret := o.ret
          gasUsed := o.used
          remainGas := o.remained (gasLimit tx.transaction.unsigned).val
          feeCost := ⟨_, hfee⟩
          logs := []
          codeAddress := if action tx.transaction.unsigned = .create ∧ o.succeed = true then
            some (vm.codeAddr tx.sender (getAccount env w tx.sender).nonce) else none }) := by
      unfold evmExec
      simp only [chk_lt hpre, Outcome.bind, hW1, hO, h2, chk_lt hn', hb, chk_lt hfee]
    refine ⟨_, _, ⟨_, hn'⟩, b, hex, hw3, ?_, ?_, ?_, rfl, rfl, ?_, rfl, ?_, ?_⟩
    · simp [(basic_view env w tx.sender).2]
    · rw [hbv, hv2]
    · rw [hv3, hv2]
    · simp only [VmOut.remained]; omega
    · simp only [saveAccount]
      rw [hr2]
      simp only
      rw [hlog1]
    · simp only [saveAccount]
      rw [hr2]
      simp only
      rw [hlog1]

end Axon.Exec
