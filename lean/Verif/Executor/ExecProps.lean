import Verif.Executor.Supply
import Verif.Executor.StateProps

/-!
# Properties C30 (nonce and fees), C31 (block totals), C35 (reserved addresses), C36 (native token)
-/

namespace Axon.Exec
open Axon.Assoc Axon.Tx
open Axon.Admission (SignedTx gasPrice gasLimit value action systemAddress isCallSystemScript
  checkAuthorization)

variable {H : Type} [DecidableEq H]

/-! ## C30 -/

/-- **C30, what does hold.**  A transaction executed by the virtual machine, whether it succeeds or fails:
the sender's nonce rises by one; the reported gas is within the limit; the reported fee is that gas times the
price; and if it fails no other account changes in any respect and the sender keeps code and storage. -/
theorem C30_account_partial {env : Env H} (hg : env.Good) {vm : Vm H} (hvm : vm.Metered)
    {w w' : World H} {tx : SignedTx} {r : TxResp H} (hw : WF env w) (hp : w.gasPrice.val < 2 ^ 64)
    (h : evmExec env vm w tx = .ok (w', r)) :
    (basic w' tx.sender).nonce.val = (basic w tx.sender).nonce.val + 1 ∧
    r.gasUsed + r.remainGas ≤ (gasLimit tx.transaction.unsigned).val ∧
    r.feeCost.val = w.gasPrice.val * r.gasUsed ∧
    (r.succeed = false → (∀ x, x ≠ tx.sender → view env w' x = view env w x) ∧
      code env w' tx.sender = code env w tx.sender ∧
      slot env w' tx.sender = slot env w tx.sender) := by
  have hspec := evmExec_spec hg hvm hw hp tx
  by_cases hn : (view env w tx.sender).nonce.val + 1 < 2 ^ 256
  · obtain ⟨w1, r1, n, b, h1, hw1, hnv, hb, hv, hs, hgas, hrem, hfee, _⟩ := hspec.2 hn
    rw [h] at h1
    simp only [Outcome.ok.injEq, Prod.mk.injEq] at h1
    obtain ⟨rfl, rfl⟩ := h1
    have hstart := prepaid_spec hg hw tx.sender ((UIntN.ofNat? 256 (prepayOf w tx)).getD U256.max)
    refine ⟨?_, ?_, hfee, ?_⟩
    · have := congrArg View.nonce (congrFun hv tx.sender)
      simp only [specChange, if_true] at this
      have e : (basic w' tx.sender).nonce = n := this
      rw [e]; exact hnv
    · have := used_le (vmOut env vm w tx); omega
    · intro hfail
      rw [hfail] at hs
      have ha : afterVm env (vmStart env w tx) (vmOut env vm w tx) = view env (vmStart env w tx) := by
        simp [afterVm, ← hs]
      rw [ha] at hv
      have hv2 : view env (vmStart env w tx) = _ := hstart.2
      rw [hv2] at hv
      refine ⟨fun x hx => ?_, ?_, ?_⟩
      · rw [congrFun hv x]; simp [specChange, hx]
      · have := congrArg View.code (congrFun hv tx.sender)
        simp only [specChange, if_true, Option.getD_none] at this
        exact this
      · have := congrArg View.slot (congrFun hv tx.sender)
        simp only [specChange, if_true] at this
        refine this.trans ?_
        funext k
        simp [specSlots, view]
  · rw [hspec.1 (by omega)] at h; cases h

/-- **C30, the charge.**  If the sender can pay for the whole gas limit and no refund was earned, the sender
ends up with exactly gas used times price less, and less the net amount `v` the virtual machine moved out of
its account (`v = 0` for a failed transaction). -/
theorem C30_charge_partial {env : Env H} (hg : env.Good) {vm : Vm H} (hvm : vm.Metered)
    {w w' : World H} {tx : SignedTx} {r : TxResp H} (hw : WF env w) (hp : w.gasPrice.val < 2 ^ 64)
    (h : evmExec env vm w tx = .ok (w', r))
    (hafford : w.gasPrice.val * (gasLimit tx.transaction.unsigned).val ≤ (basic w tx.sender).balance.val)
    (hrefund : r.gasUsed + r.remainGas = (gasLimit tx.transaction.unsigned).val) :
    (r.succeed = false →
      (basic w' tx.sender).balance.val + w.gasPrice.val * r.gasUsed = (basic w tx.sender).balance.val) ∧
    (r.succeed = true → ∀ w2 v, settle env (vmStart env w tx) (vmOut env vm w tx) = .ok w2 →
      (basic w2 tx.sender).balance.val + v = (basic (vmStart env w tx) tx.sender).balance.val →
      (basic w' tx.sender).balance.val + v + w.gasPrice.val * r.gasUsed
        = (basic w tx.sender).balance.val) := by
  have hspec := evmExec_spec hg hvm hw hp tx
  by_cases hn : (view env w tx.sender).nonce.val + 1 < 2 ^ 256
  · obtain ⟨w1, r1, n, b, h1, hw1, hnv, hb, hv, hs, hgas, hrem, hfee, _⟩ := hspec.2 hn
    rw [h] at h1
    simp only [Outcome.ok.injEq, Prod.mk.injEq] at h1
    obtain ⟨rfl, rfl⟩ := h1
    have hstart := prepaid_spec hg hw tx.sender ((UIntN.ofNat? 256 (prepayOf w tx)).getD U256.max)
    have hpre : prepayOf w tx < 2 ^ 256 := price_mul_lt hp (gasLimit tx.transaction.unsigned).lt
    have hsb : (basic (vmStart env w tx) tx.sender).balance.val
        = (basic w tx.sender).balance.val - prepayOf w tx := by
      have := congrArg View.balance (congrFun hstart.2 tx.sender)
      simp only [specChange, if_true] at this
      have e : (basic (vmStart env w tx) tx.sender).balance = satSub (basic w tx.sender).balance
        ((UIntN.ofNat? 256 (prepayOf w tx)).getD U256.max) := this
      rw [e, satSub_val]
      simp [UIntN.ofNat?, hpre]
    have hbb : (basic w' tx.sender).balance = b := by
      have := congrArg View.balance (congrFun hv tx.sender)
      simp only [specChange, if_true] at this
      exact this
    have hmul : w.gasPrice.val * (gasLimit tx.transaction.unsigned).val
        = w.gasPrice.val * r.gasUsed + w.gasPrice.val * r.remainGas := by
      rw [← Nat.mul_add, hrefund]
    have hlt := (basic w tx.sender).balance.lt
    rw [hbb, hb]
    constructor
    · intro hfail
      rw [hfail] at hs
      have ha : afterVm env (vmStart env w tx) (vmOut env vm w tx) = view env (vmStart env w tx) := by
        simp [afterVm, ← hs]
      rw [ha]
      have e : (view env (vmStart env w tx) tx.sender).balance
        = (basic (vmStart env w tx) tx.sender).balance := rfl
      rw [e, hsb]
      unfold prepayOf
      omega
    · intro _ w2 v h2 hv2
      obtain ⟨w3, h3, _, hv3, _⟩ := settle_spec hg hstart.1 (vmOut env vm w tx)
      have e3 : settle env (vmStart env w tx) (vmOut env vm w tx) = .ok w3 := h3
      rw [h2] at e3
      cases e3
      have e : (afterVm env (vmStart env w tx) (vmOut env vm w tx) tx.sender).balance
        = (basic w2 tx.sender).balance := by
        have := congrArg View.balance (congrFun hv3 tx.sender)
        exact this.symm
      rw [e]
      rw [hsb] at hv2
      unfold prepayOf at hv2
      omega
  · rw [hspec.1 (by omega)] at h; cases h

/-! ### A small virtual machine -/

/-- A virtual machine that only transfers, using 21000 gas; data `[1]` makes it fail after all gas, data `[2]`
earns a refund. -/
def toyRun (w : World ToyHash) (tx : SignedTx) : VmOut :=
  let u := tx.transaction.unsigned
  let limit := (gasLimit u).val
  let fail (n : Nat) : VmOut := { succeed := false, ret := [], total := min n limit, refund := 0, changes := [],
                                  logs := [] }
  match action u with
  | .create => fail limit
  | .call to =>
    let b := basic w tx.sender
    if data u = [1] then fail limit
    else if b.balance.val < (value u).val then fail limit
    else if limit < 21000 then fail limit
    else if to = tx.sender then fail 21000
    else
      { succeed := true, ret := [], total := 21000, refund := if data u = [2] then 4800 else 0
        changes :=
          [.modify tx.sender { balance := satSub b.balance (value u), nonce := satAdd b.nonce.val 1 } none [] false,
           .modify to { basic w to with balance := satAdd (basic w to).balance.val (value u).val } none [] false]
        logs := [] }

def toyVm : Vm ToyHash :=
  { run := toyRun, sys := fun _ _ => none, afterMeta := fun w => .ok w.metadataRoot
    receipt := fun _ _ => [], receiptRoot := fun _ => none, stateRoot := fun _ => none
    codeAddr := fun _ _ => none, headerKey := toyKey 1, metadataKey := toyKey 2 }

theorem toyVm_metered : toyVm.Metered := by
  intro w tx
  simp only [toyVm, toyRun]
  cases action tx.transaction.unsigned with
  | create => simp only; omega
  | call to =>
    simp only
    repeat' split
    all_goals simp only
    all_goals omega

def toyTx (sender : Nat) (nonce price limit : U64) (to : H160) (v : U256) (d : Bytes) : SignedTx :=
  { transaction :=
      { unsigned := .legacy { nonce := nonce, gasPrice := price, gasLimit := limit, action := .call to,
                              value := v, data := d }
        signature := none, chainId := none }
    sender := toyAddr sender, pub := none }

def u64 (n : Nat) (h : n < 2 ^ 64 := by decide) : U64 := ⟨n, h⟩

/-- Account 1 owns a million. -/
def richWorld : World ToyHash :=
  { toyWorld with
    accounts := [(toyAddr 1, ⟨u256 0, u256 1000000, toyEnv.rlpNull, toyEnv.nilData⟩)] }

theorem richWorld_wf : WF toyEnv richWorld := by
  constructor
  · intro a acc h
    simp only [richWorld, get_cons, get_nil] at h
    split at h
    · cases h; intro hne; exact absurd rfl hne
    · cases h
  · intro a acc h
    simp only [richWorld, get_cons, get_nil] at h
    split at h
    · cases h; intro hne; exact absurd rfl hne
    · cases h
  · simp [richWorld, toyWorld, get_nil]
  · simp [richWorld, toyWorld, get_nil]
  · simp [richWorld, toyWorld, get_nil]

/-- Result of one ordinary transaction: sender's balance and nonce, recipient's balance, gas used. -/
def summary (w : World ToyHash) (tx : SignedTx) (to : H160) : Option (Nat × Nat × Nat × Nat) :=
  match evmExec toyEnv toyVm w tx with
  | .ok (w', r) => some ((basic w' tx.sender).balance.val, (basic w' tx.sender).nonce.val,
      (basic w' to).balance.val, r.gasUsed)
  | _ => none

/-- The hypotheses of the two theorems are met: a successful and a failed transaction. -/
example :
    summary { richWorld with gasPrice := u256 3 }
      (toyTx 1 (u64 0) (u64 3) (u64 100000) (toyAddr 2) (u256 500) []) (toyAddr 2)
      = some (1000000 - 500 - 3 * 21000, 1, 500, 21000) ∧
    summary { richWorld with gasPrice := u256 3 }
      (toyTx 1 (u64 0) (u64 3) (u64 100000) (toyAddr 2) (u256 500) [1]) (toyAddr 2)
      = some (1000000 - 3 * 100000, 1, 0, 100000) := by decide +kernel

/-- **C30 is false of the code: refunds.**  With a refund the sender is charged for more gas than the
transaction reports: `executor.gas()` ignores the refund, `executor.used_gas()` does not.  Here 16800 gas are
reported (and paid on to the validators) and 21000 are charged. -/
theorem C30_refund_false :
    summary { richWorld with gasPrice := u256 3 }
      (toyTx 1 (u64 0) (u64 3) (u64 100000) (toyAddr 2) (u256 500) [2]) (toyAddr 2)
      = some (1000000 - 500 - 3 * 21000, 1, 500, 16800) := by decide +kernel

/-- **C30 is false of the code: overdraft.**  The prepaid gas is taken with `saturating_sub`, the remaining gas
is given back in full: a sender with an empty account *gains* money by sending a transaction, whatever the
virtual machine does, as long as it leaves gas. -/
theorem C30_overdraft_false {env : Env H} (hg : env.Good) {vm : Vm H} (hvm : vm.Metered)
    {w w' : World H} {tx : SignedTx} {r : TxResp H} (hw : WF env w) (hp : w.gasPrice.val < 2 ^ 64)
    (hempty : (basic w tx.sender).balance.val = 0) (h : evmExec env vm w tx = .ok (w', r))
    (hfail : r.succeed = false) :
    (basic w' tx.sender).balance.val = w.gasPrice.val * r.remainGas := by
  have hspec := evmExec_spec hg hvm hw hp tx
  by_cases hn : (view env w tx.sender).nonce.val + 1 < 2 ^ 256
  · obtain ⟨w1, r1, n, b, h1, hw1, hnv, hb, hv, hs, hgas, hrem, hfee, _⟩ := hspec.2 hn
    rw [h] at h1
    simp only [Outcome.ok.injEq, Prod.mk.injEq] at h1
    obtain ⟨rfl, rfl⟩ := h1
    have hstart := prepaid_spec hg hw tx.sender ((UIntN.ofNat? 256 (prepayOf w tx)).getD U256.max)
    have hsb : (basic (vmStart env w tx) tx.sender).balance.val = 0 := by
      have := congrArg View.balance (congrFun hstart.2 tx.sender)
      simp only [specChange, if_true] at this
      have e : (basic (vmStart env w tx) tx.sender).balance = satSub (basic w tx.sender).balance
        ((UIntN.ofNat? 256 (prepayOf w tx)).getD U256.max) := this
      rw [e, satSub_val, hempty]; omega
    have hbb : (basic w' tx.sender).balance = b := by
      have := congrArg View.balance (congrFun hv tx.sender)
      simp only [specChange, if_true] at this
      exact this
    rw [hfail] at hs
    have ha : afterVm env (vmStart env w tx) (vmOut env vm w tx) = view env (vmStart env w tx) := by
      simp [afterVm, ← hs]
    rw [hbb, hb, ha]
    have e : (view env (vmStart env w tx) tx.sender).balance
      = (basic (vmStart env w tx) tx.sender).balance := rfl
    rw [e, hsb]
    have := price_mul_lt hp (by have := (gasLimit tx.transaction.unsigned).lt; omega : r.remainGas < 2 ^ 64)
    omega
  · rw [hspec.1 (by omega)] at h; cases h

/-- An account with nothing ends up with 79000 after sending a transaction. -/
example : summary { richWorld with gasPrice := u256 1 }
    (toyTx 5 (u64 0) (u64 1) (u64 100000) (toyAddr 2) (u256 0) []) (toyAddr 2)
    = some (79000, 1, 0, 21000) := by decide +kernel

/-- **C30 is false of the code: refused system calls.**  A call a system contract refuses changes nothing at
all, not even the nonce (so it can be repeated), yet reports all gas but one as used and a fee of one, which
nobody pays. -/
theorem C30_system_revert_false (env : Env H) (vm : Vm H) (w : World H) (a : H160) (tx : SignedTx)
    (hs : vm.sys w tx = none) (hl : (gasLimit tx.transaction.unsigned).val ≠ 0) :
    ∃ r, sysExec env vm w a tx = .ok (w, r) ∧
      r.gasUsed + 1 = (gasLimit tx.transaction.unsigned).val ∧ r.feeCost.val = 1 := by
  refine ⟨_, by simp [sysExec, hs, revertResp, hl, Outcome.bind]; rfl, ?_, rfl⟩
  simp only; omega

example : toyVm.sys richWorld (toyTx 1 (u64 0) (u64 1) (u64 50000) (sysAddr 1) (u256 0) []) = none := rfl

/-- **What a call to a system contract costs.**  Whatever the contract does, the response has no output and
names no contract.  An accepted call uses no gas and costs nothing, whatever its gas price; a refused one
reports all gas but one and a fee of one. -/
theorem C30_system_partial {env : Env H} {vm : Vm H} {w w' : World H} {tx : SignedTx} {r : TxResp H}
    (ht : action tx.transaction.unsigned = .call (sysAddr 0) ∨
      action tx.transaction.unsigned = .call (sysAddr 1) ∨
      action tx.transaction.unsigned = .call (sysAddr 2) ∨
      action tx.transaction.unsigned = .call (sysAddr 3))
    (h : execTx env vm w tx = .ok (w', r)) :
    r.ret = [] ∧ r.codeAddress = none ∧
    (r.succeed = true → r.gasUsed = 0 ∧ r.feeCost.val = 0 ∧
      r.remainGas = (gasLimit tx.transaction.unsigned).val) ∧
    (r.succeed = false → r.gasUsed + 1 = (gasLimit tx.transaction.unsigned).val ∧ r.feeCost.val = 1 ∧
      r.remainGas = 1) := by
  have hrev : ∀ (w0 : World H) (x : World H × TxResp H),
      ((revertResp (H := H) (gasLimit tx.transaction.unsigned).val).bind fun r => .ok (w0, r)) = .ok x →
      x.2.ret = [] ∧ x.2.codeAddress = none ∧ x.2.succeed = false ∧
        x.2.gasUsed + 1 = (gasLimit tx.transaction.unsigned).val ∧ x.2.feeCost.val = 1 ∧
        x.2.remainGas = 1 := by
    intro w0 x hx
    unfold revertResp at hx
    split at hx
    · cases hx
    · cases hx
      refine ⟨rfl, rfl, rfl, ?_, rfl, rfl⟩
      simp only; omega
  have hok : ∀ x : TxResp H, x = succeedResp (gasLimit tx.transaction.unsigned).val →
      x.ret = [] ∧ x.codeAddress = none ∧ x.succeed = true ∧ x.gasUsed = 0 ∧ x.feeCost.val = 0 ∧
        x.remainGas = (gasLimit tx.transaction.unsigned).val := by
    rintro x rfl
    exact ⟨rfl, rfl, rfl, rfl, rfl, rfl⟩
  have hsys : ∀ (w0 : World H) (a : H160) x, sysExec env vm w0 a tx = .ok x →
      (∃ w1, ((revertResp (H := H) (gasLimit tx.transaction.unsigned).val).bind fun r => .ok (w1, r)) =
        .ok x) ∨ x.2 = succeedResp (gasLimit tx.transaction.unsigned).val := by
    intro w0 a x hx
    unfold sysExec at hx
    simp only at hx
    split at hx
    · exact .inl ⟨_, hx⟩
    · rw [bind_ok] at hx
      obtain ⟨w1, _, hx⟩ := hx
      cases hx
      exact .inr rfl
  have hnat : ∀ (w0 : World H) x, nativeToken env w0 tx = .ok x →
      (∃ w1, ((revertResp (H := H) (gasLimit tx.transaction.unsigned).val).bind fun r => .ok (w1, r)) =
        .ok x) ∨ x.2 = succeedResp (gasLimit tx.transaction.unsigned).val := by
    intro w0 x hx
    unfold nativeToken at hx
    simp only at hx
    split at hx
    · exact .inl ⟨_, hx⟩
    · split at hx
      · rw [bind_ok] at hx
        obtain ⟨b, _, hx⟩ := hx
        rw [bind_ok] at hx
        obtain ⟨n, _, hx⟩ := hx
        rw [bind_ok] at hx
        obtain ⟨w1, _, hx⟩ := hx
        cases hx
        exact .inr rfl
      · split at hx
        · exact .inl ⟨_, hx⟩
        · rw [bind_ok] at hx
          obtain ⟨n, _, hx⟩ := hx
          rw [bind_ok] at hx
          obtain ⟨w1, _, hx⟩ := hx
          cases hx
          exact .inr rfl
  have key : ∃ (x : World H × TxResp H), r.ret = x.2.ret ∧ r.codeAddress = x.2.codeAddress ∧
      r.succeed = x.2.succeed ∧ r.gasUsed = x.2.gasUsed ∧ r.feeCost = x.2.feeCost ∧
      r.remainGas = x.2.remainGas ∧
      ((∃ w1, ((revertResp (H := H) (gasLimit tx.transaction.unsigned).val).bind fun r => .ok (w1, r)) =
        .ok x) ∨ x.2 = succeedResp (gasLimit tx.transaction.unsigned).val) := by
    unfold execTx at h
    simp only at h
    rw [bind_ok] at h
    obtain ⟨x, hx, h⟩ := h
    cases h
    refine ⟨x, rfl, rfl, rfl, rfl, rfl, rfl, ?_⟩
    have h1 : sysAddr 1 ≠ sysAddr 0 := by decide
    have h2 : sysAddr 2 ≠ sysAddr 0 := by decide
    have h3 : sysAddr 3 ≠ sysAddr 0 := by decide
    have h4 : sysAddr 2 ≠ sysAddr 1 := by decide
    have h5 : sysAddr 3 ≠ sysAddr 1 := by decide
    have h6 : sysAddr 3 ≠ sysAddr 2 := by decide
    rcases ht with ht | ht | ht | ht <;>
      simp only [ht, dispatch, target, h1, h2, h3, h4, h5, h6, if_true, if_false] at hx
    · exact hnat _ _ hx
    · exact hsys _ _ _ hx
    · exact hsys _ _ _ hx
    · exact hsys _ _ _ hx
  obtain ⟨x, e1, e2, e3, e4, e5, e6, hx⟩ := key
  rw [e1, e2, e3, e4, e5, e6]
  rcases hx with ⟨w1, hx⟩ | hx
  · obtain ⟨p1, p2, p3, p4, p5, p6⟩ := hrev w1 x hx
    exact ⟨p1, p2, fun q => (by rw [p3] at q; cases q), fun _ => ⟨p4, p5, p6⟩⟩
  · obtain ⟨p1, p2, p3, p4, p5, p6⟩ := hok _ hx
    exact ⟨p1, p2, fun _ => ⟨p4, p5, p6⟩, fun q => (by rw [p3] at q; cases q)⟩

/-- A mint of 5 tokens is accepted for nothing, at a gas price of seven. -/
example : (match execTx toyEnv toyVm richWorld (toyTx 1 (u64 0) (u64 7) (u64 50000) (sysAddr 0) (u256 5)
      (0 :: (toyAddr 2).bytes)) with
    | .ok (w', r) => some ((basic w' (toyAddr 2)).balance.val, r.succeed, r.gasUsed, r.feeCost.val)
    | _ => none) = some (5, true, 0, 0) := by decide +kernel

/-- **What the virtual machine sees of the transaction's context.**  It only ever runs a transaction in a
world whose origin is the transaction's sender and whose gas price is the transaction's: two machines that
agree there execute every transaction alike. -/
theorem C30_context_partial (env : Env H) (vm vm' : Vm H) (w : World H) (tx : SignedTx)
    (hd : dispatch (action tx.transaction.unsigned) = .evm) (hc : vm.codeAddr = vm'.codeAddr)
    (h : ∀ w1 : World H, w1.origin = tx.sender → w1.gasPrice.val = (gasPrice tx.transaction.unsigned).val →
      vm.run w1 tx = vm'.run w1 tx) : execTx env vm w tx = execTx env vm' w tx := by
  have key : ∀ w0 : World H, w0.origin = tx.sender →
      w0.gasPrice.val = (gasPrice tx.transaction.unsigned).val →
      evmExec env vm w0 tx = evmExec env vm' w0 tx := by
    intro w0 ho hp
    unfold evmExec
    have hr : ∀ p, vm.run (prepaid env w0 tx.sender p) tx = vm'.run (prepaid env w0 tx.sender p) tx :=
      fun p => h _ ho hp
    simp only [hr, hc]
  unfold execTx
  simp only [hd]
  rw [key _ rfl rfl]

/-- A machine that fails whenever the origin is not the sender. -/
def strictVm : Vm ToyHash :=
  { toyVm with
    run := fun w tx =>
      if w.origin = tx.sender then toyVm.run w tx
      else { toyVm.run w tx with succeed := false, changes := [] } }

example (w : World ToyHash) :
    execTx toyEnv strictVm w (toyTx 1 (u64 0) (u64 1) (u64 50000) (toyAddr 2) (u256 5) []) =
    execTx toyEnv toyVm w (toyTx 1 (u64 0) (u64 1) (u64 50000) (toyAddr 2) (u256 5) []) :=
  C30_context_partial _ _ _ _ _ (by decide) rfl fun w1 ho _ => (by simp only [strictVm, ho, if_true])

/-- **Nothing is left for the next transaction.**  Whatever a transaction did, it leaves no logs behind, so the logs
of a response are those of its own transaction. -/
theorem C30_logs_taken (env : Env H) (vm : Vm H) (w w' : World H) (tx : SignedTx) (r : TxResp H)
    (h : execTx env vm w tx = .ok (w', r)) : w'.logs = [] := by
  unfold execTx at h
  obtain ⟨⟨w1, r1⟩, _, h2⟩ := bind_ok.1 h
  cases h2
  rfl

example : (match execTx toyEnv toyVm toyWorld (toyTx 1 (u64 0) (u64 1) (u64 50000) (toyAddr 2) (u256 5) []) with
    | .ok (w, _) => w.logs.length
    | _ => 1) = 0 := by decide +kernel

/-! ## C31 -/

/-- One response per transaction, each produced in the state the previous one left. -/
inductive Runs (env : Env H) (vm : Vm H) : World H → List SignedTx → World H → List (TxResp H) → Prop
  | nil (w : World H) : Runs env vm w [] w []
  | cons {w w1 w2 : World H} {tx : SignedTx} {txs : List SignedTx} {r : TxResp H} {rs : List (TxResp H)}
      (h : execTx env vm w tx = .ok (w1, r)) (ht : Runs env vm w1 txs w2 rs) :
      Runs env vm w (tx :: txs) w2 (r :: rs)

theorem runs_length {env : Env H} {vm : Vm H} {w w' : World H} {txs : List SignedTx}
    {rs : List (TxResp H)} (h : Runs env vm w txs w' rs) : rs.length = txs.length := by
  induction h with
  | nil => rfl
  | cons _ _ ih => simp [ih]

theorem loop_runs {env : Env H} {vm : Vm H} (txs : List SignedTx) :
    ∀ (s s' : Loop H), loop env vm txs s = .ok s' →
    ∃ rs, Runs env vm s.world txs s'.world rs ∧ s'.resps = s.resps ++ rs ∧
      s'.receipts = s.receipts ++ List.zipWith vm.receipt txs rs ∧
      s'.gas = s.gas + (rs.map (·.gasUsed)).sum ∧ (txs ≠ [] → s'.gas < 2 ^ 64) ∧
      s'.fee.val = min (s.fee.val + (rs.map (·.feeCost.val)).sum) (2 ^ 256 - 1) := by
  induction txs with
  | nil =>
    intro s s' h
    simp only [loop, Outcome.ok.injEq] at h
    subst h
    have := s.fee.lt
    exact ⟨[], .nil _, by simp, by simp, by simp, by simp, by simp; omega⟩
  | cons tx txs ih =>
    intro s s' h
    simp only [loop, bind_ok] at h
    obtain ⟨s1, h1, h⟩ := h
    unfold loopStep at h1
    rw [bind_ok] at h1
    obtain ⟨⟨w1, r⟩, hx, h1⟩ := h1
    simp only at h1
    split at h1
    · rename_i hgas
      simp only [Outcome.ok.injEq] at h1
      subst h1
      obtain ⟨rs, hr, h2, h3, h4, h5, h6⟩ := ih _ _ h
      refine ⟨r :: rs, .cons hx hr, ?_, ?_, ?_, ?_, ?_⟩
      · simp [h2]
      · simp [h3]
      · simp only [h4, List.map_cons, List.sum_cons]; omega
      · intro _
        cases txs with
        | nil =>
          simp only [loop, Outcome.ok.injEq] at h
          subst h; exact hgas
        | cons _ _ => exact h5 (by simp)
      · simp only [satAdd_val, List.map_cons, List.sum_cons] at h6 ⊢
        omega
    · cases h1

theorem runs_loop {env : Env H} {vm : Vm H} {w w' : World H} {txs : List SignedTx}
    {rs : List (TxResp H)} (h : Runs env vm w txs w' rs) :
    ∀ s : Loop H, s.world = w →
      (s.gas + (rs.map (·.gasUsed)).sum < 2 ^ 64 → ∃ s', loop env vm txs s = .ok s' ∧ s'.world = w') ∧
      (s.gas < 2 ^ 64 → 2 ^ 64 ≤ s.gas + (rs.map (·.gasUsed)).sum → loop env vm txs s = .panic) := by
  induction h with
  | nil w =>
    intro s hs
    simp only [List.map_nil, List.sum_nil, Nat.add_zero, loop]
    exact ⟨fun _ => ⟨s, rfl, hs⟩, fun h1 h2 => by omega⟩
  | cons hx ht ih =>
    rename_i w w1 w2 tx txs r rs
    intro s hs
    subst hs
    simp only [List.map_cons, List.sum_cons]
    by_cases hgas : s.gas + r.gasUsed < 2 ^ 64
    · have hstep : loopStep env vm s tx = .ok
          { world := w1, gas := s.gas + r.gasUsed, fee := satAdd s.fee.val r.feeCost.val,
            resps := s.resps ++ [r], receipts := s.receipts ++ [vm.receipt tx r] } := by
        simp [loopStep, hx, Outcome.bind, hgas]
      have := ih ⟨w1, s.gas + r.gasUsed, satAdd s.fee.val r.feeCost.val, s.resps ++ [r],
        s.receipts ++ [vm.receipt tx r]⟩ rfl
      simp only [loop, hstep, Outcome.bind]
      exact ⟨fun h1 => this.1 (by simp only; omega),
        fun _ h2 => this.2 hgas (by simp only; omega)⟩
    · have hstep : loopStep env vm s tx = .panic := by
        simp [loopStep, hx, Outcome.bind, hgas]
      refine ⟨fun h1 => by omega, fun _ _ => by simp only [loop, hstep, Outcome.bind]⟩

/-- **C31.**  When a block executes, there is one response per transaction, in block order, each produced in
the state its predecessor left; the gas reported for the block is the sum of theirs, the receipt root is that
of exactly their receipts, and the fee handed to the distribution is the sum of theirs (capped at the largest
number). -/
theorem C31_totals {env : Env H} {vm : Vm H} {w w' : World H} {txs : List SignedTx}
    {vs : List Validator} {e : ExecResp H} (h : exec env vm w txs vs = .ok (w', e)) :
    ∃ w1, Runs env vm (initRoots env vm w) txs w1 e.resps ∧
      e.gasUsed = (e.resps.map (·.gasUsed)).sum ∧
      (txs = [] → e.receiptRoot = env.rlpNull) ∧
      (txs ≠ [] → e.receiptRoot = vm.receiptRoot (List.zipWith vm.receipt txs e.resps)) ∧
      ∃ fee : U256, fee.val = min (e.resps.map (·.feeCost.val)).sum (2 ^ 256 - 1) ∧
        ∃ w2, distribute env w1 fee vs = .ok w2 ∧ afterBlock env vm w2 = .ok w' := by
  unfold exec at h
  simp only [bind_ok] at h
  obtain ⟨s, hs, w2, h2, w3, h3, h⟩ := h
  obtain ⟨rs, hr, h4, h5, h6, h7, h8⟩ := loop_runs txs _ _ hs
  simp only [List.nil_append, Nat.zero_add, U256.zero] at h4 h5 h6 h8
  simp only [Outcome.ok.injEq, Prod.mk.injEq] at h
  obtain ⟨rfl, rfl⟩ := h
  simp only
  rw [h4, h5]
  have hlen := runs_length hr
  refine ⟨s.world, hr, h6, ?_, ?_, s.fee, h8, w2, h2, h3⟩
  · intro ht; subst ht; simp
  · intro ht
    rw [if_neg]
    intro hz
    cases txs with
    | nil => exact ht rfl
    | cons tx txs =>
      cases rs with
      | nil => simp at hlen
      | cons r rs => simp at hz

/-- **C31, overflow.**  If the gas the transactions use does not fit 64 bits in total, execution of the block
panics: there is no block whose reported gas is not the true sum. -/
theorem C31_overflow {env : Env H} {vm : Vm H} {w w1 : World H} {txs : List SignedTx}
    {vs : List Validator} {rs : List (TxResp H)} (h : Runs env vm (initRoots env vm w) txs w1 rs)
    (hsum : 2 ^ 64 ≤ (rs.map (·.gasUsed)).sum) : exec env vm w txs vs = .panic := by
  unfold exec
  rw [(runs_loop h ⟨initRoots env vm w, 0, U256.zero, [], []⟩ rfl).2 (by show (0 : Nat) < 2 ^ 64; decide) (by simpa using hsum)]
  rfl

/-- Gas used by a block of three transactions with different outcomes. -/
def blockGas (w : World ToyHash) (txs : List SignedTx) (vs : List Validator) :
    Option (Nat × List Nat) :=
  match exec toyEnv toyVm w txs vs with
  | .ok (_, e) => some (e.gasUsed, e.resps.map (·.gasUsed))
  | _ => none

example : blockGas richWorld
    [toyTx 1 (u64 0) (u64 3) (u64 100000) (toyAddr 2) (u256 500) [],
     toyTx 1 (u64 1) (u64 3) (u64 40000) (toyAddr 2) (u256 500) [1],
     toyTx 1 (u64 2) (u64 3) (u64 30000) (sysAddr 3) (u256 0) []]
    [⟨toyAddr 9, ⟨1, by decide⟩⟩] = some (90999, [21000, 40000, 29999]) := by decide +kernel

end Axon.Exec
