import Verif.Executor.ExecLemmas

/-!
# Total supply

The sum of all balances in the state trie and how each step of block execution changes it.
-/

namespace Axon.Exec
open Axon.Assoc Axon.Tx
open Axon.Admission (SignedTx gasPrice gasLimit value action systemAddress)

variable {H : Type} [DecidableEq H]

/-- The sum of all balances. -/
def supply (w : World H) : Nat := (w.accounts.map (fun e => e.2.balance.val)).sum

theorem sum_del {α : Type} (f : α → Nat) (m : List (H160 × α)) (hn : NodupKeys m) (k : H160) :
    ((del m k).map (fun e => f e.2)).sum + ((get m k).map f).getD 0 = (m.map (fun e => f e.2)).sum := by
  induction m with
  | nil => simp [del, get_nil]
  | cons e m ih =>
    have hn' := List.pairwise_cons.1 hn
    have ih := ih hn'.2
    unfold del at ih ⊢
    rw [get_cons]
    by_cases h : e.1 = k
    · rw [List.filter_cons_of_neg (by simp [h])]
      have hno : get m k = none := by
        cases hg : get m k with
        | none => rfl
        | some v => exact absurd h (hn'.1 _ (mem_of_get hg))
      rw [hno] at ih
      simp only [h, if_true, List.map_cons, List.sum_cons, Option.map_some, Option.getD_some,
        Option.map_none, Option.getD_none] at ih ⊢
      omega
    · rw [List.filter_cons_of_pos (by simp [h])]
      simp only [h, if_false, List.map_cons, List.sum_cons]
      omega

theorem sum_put {α : Type} (f : α → Nat) (m : List (H160 × α)) (hn : NodupKeys m) (k : H160) (v : α) :
    ((put m k v).map (fun e => f e.2)).sum + ((get m k).map f).getD 0
      = (m.map (fun e => f e.2)).sum + f v := by
  have := sum_del f m hn k
  unfold del at this
  unfold put
  simp only [List.map_cons, List.sum_cons]
  omega

omit [DecidableEq H] in
theorem getD_balance (w : World H) (a : H160) :
    ((get w.accounts a).map (fun acc : Account H => acc.balance.val)).getD 0 = (basic w a).balance.val := by
  cases h : get w.accounts a <;> simp [basic, h, U256.zero]

omit [DecidableEq H] in
theorem supply_save (w : World H) (hn : NodupKeys w.accounts) (a : H160) (acc : Account H) :
    supply (saveAccount w a acc) + (basic w a).balance.val = supply w + acc.balance.val := by
  have := sum_put (fun acc : Account H => acc.balance.val) w.accounts hn a acc
  rw [getD_balance] at this
  exact this

omit [DecidableEq H] in
theorem nodup_save (w : World H) (hn : NodupKeys w.accounts) (a : H160) (acc : Account H) :
    NodupKeys (saveAccount w a acc).accounts := nodupKeys_put hn a acc

omit [DecidableEq H] in
theorem balance_le_supply (w : World H) (hn : NodupKeys w.accounts) (a : H160) :
    (basic w a).balance.val ≤ supply w := by
  have := sum_del (fun acc : Account H => acc.balance.val) w.accounts hn a
  rw [getD_balance] at this
  unfold supply; omega

theorem nodup_applyOne {env : Env H} {w w' : World H} {a : H160} {b : Basic} {c : Option Bytes}
    {ws : List (H256 × U256)} {reset e : Bool} (hn : NodupKeys w.accounts)
    (h : applyOne env w a b c ws reset = .ok (w', e)) :
    NodupKeys w'.accounts ∧ supply w' + (basic w a).balance.val = supply w + b.balance.val := by
  cases ho : openStorage env w (getAccount env w a) reset with
  | err => simp [applyOne, ho] at h
  | panic => simp [applyOne, ho] at h
  | ok m0 =>
    rw [applyOne_eq ho] at h
    simp only [Outcome.ok.injEq, Prod.mk.injEq] at h
    obtain ⟨rfl, _⟩ := h
    refine ⟨nodupKeys_put hn _ _, ?_⟩
    have := sum_put (fun acc : Account H => acc.balance.val) w.accounts hn a
      { nonce := b.nonce, balance := b.balance, storageRoot := env.rootOf (ws.foldl writeSlot m0),
        codeHash := (c.map env.digest).getD (getAccount env w a).codeHash }
    rw [getD_balance] at this
    exact this

theorem nodup_applyChange {env : Env H} {de : Bool} {w w' : World H} {ch : Change}
    (hn : NodupKeys w.accounts) (h : applyChange env de w ch = .ok w') : NodupKeys w'.accounts := by
  cases ch with
  | modify a b c ws reset =>
    simp only [applyChange] at h
    cases h1 : applyOne env w a b c ws reset with
    | err => simp [h1, Outcome.bind] at h
    | panic => simp [h1, Outcome.bind] at h
    | ok r =>
      obtain ⟨w1, e⟩ := r
      simp only [h1, Outcome.bind, Outcome.ok.injEq] at h
      have := (nodup_applyOne hn h1).1
      subst h
      split
      · exact nodupKeys_del this _
      · exact this
  | delete a =>
    simp only [applyChange, Outcome.ok.injEq] at h
    subst h
    exact nodupKeys_del hn _

theorem nodup_applyChanges {env : Env H} {de : Bool} {w w' : World H} {cs : List Change}
    (hn : NodupKeys w.accounts) (h : applyChanges env de cs w = .ok w') : NodupKeys w'.accounts := by
  induction cs generalizing w with
  | nil => simp only [applyChanges, Outcome.ok.injEq] at h; exact h ▸ hn
  | cons ch cs ih =>
    simp only [applyChanges] at h
    cases h1 : applyChange env de w ch with
    | err => simp [h1, Outcome.bind] at h
    | panic => simp [h1, Outcome.bind] at h
    | ok w1 =>
      simp only [h1, Outcome.bind] at h
      exact ih (nodup_applyChange hn h1) h

theorem nodup_apply {env : Env H} {de : Bool} {w w' : World H} {cs : List Change} {logs : List Log}
    (hn : NodupKeys w.accounts) (h : apply env w cs logs de = .ok w') : NodupKeys w'.accounts := by
  simp only [apply] at h
  cases h1 : applyChanges env de cs w with
  | err => simp [h1, Outcome.bind] at h
  | panic => simp [h1, Outcome.bind] at h
  | ok w1 =>
    simp only [h1, Outcome.bind, Outcome.ok.injEq] at h
    subst h
    have := nodup_applyChanges hn h1
    exact this

/-- Changes that keep every balance keep the supply. -/
theorem supply_keep {env : Env H} (hg : env.Good) {cs : List Change} :
    ∀ {w w' : World H}, WF env w → NodupKeys w.accounts →
    (∀ ch ∈ cs, ∃ a b c ws reset, ch = .modify a b c ws reset ∧ b.balance = (view env w a).balance) →
    applyChanges env false cs w = .ok w' →
    supply w' = supply w ∧ ∀ a, (view env w' a).balance = (view env w a).balance := by
  induction cs with
  | nil =>
    intro w w' _ _ _ h
    simp only [applyChanges, Outcome.ok.injEq] at h
    subst h; exact ⟨rfl, fun _ => rfl⟩
  | cons ch cs ih =>
    intro w w' hw hn hk h
    obtain ⟨a, b, c, ws, reset, rfl, hb⟩ := hk ch (List.mem_cons_self ..)
    obtain ⟨w1, h1, hw1, hv1, _, _, _⟩ := applyOne_spec hg hw a b c ws reset
    simp only [applyChanges, applyChange, h1, Outcome.bind, Bool.false_and] at h
    obtain ⟨hn1, hs1⟩ := nodup_applyOne hn h1
    have hbal : ∀ x, (view env w1 x).balance = (view env w x).balance := by
      intro x
      rw [hv1]
      simp only [specChange]
      split
      · rename_i hx; subst hx; exact hb
      · rfl
    have := ih hw1 hn1 (by
      intro ch hch
      obtain ⟨a', b', c', ws', r', rfl, hb'⟩ := hk ch (List.mem_cons_of_mem _ hch)
      exact ⟨a', b', c', ws', r', rfl, by rw [hbal, hb']⟩) h
    refine ⟨?_, fun x => by rw [this.2, hbal]⟩
    rw [this.1]
    have e : b.balance = (basic w a).balance := hb
    rw [e] at hs1
    omega

theorem bind_ok {α β : Type} {x : Outcome α} {f : α → Outcome β} {b : β} :
    x.bind f = .ok b ↔ ∃ a, x = .ok a ∧ f a = .ok b := by
  cases x <;> simp [Outcome.bind]

/-- The virtual machine moves money but does not create any. -/
def Vm.Conserves (env : Env H) (vm : Vm H) : Prop :=
  ∀ w w' tx, WF env w → NodupKeys w.accounts → settle env w (vm.run w tx) = .ok w' →
    supply w' ≤ supply w

theorem supply_evm {env : Env H} (hg : env.Good) {vm : Vm H} (hvm : vm.Metered)
    (hc : vm.Conserves env) {w w' : World H} {r : TxResp H} {tx : SignedTx} (hw : WF env w)
    (hn : NodupKeys w.accounts) (hafford : prepayOf w tx ≤ (basic w tx.sender).balance.val)
    (h : evmExec env vm w tx = .ok (w', r)) :
    NodupKeys w'.accounts ∧ supply w' + r.feeCost.val ≤ supply w := by
  unfold evmExec at h
  simp only [bind_ok] at h
  obtain ⟨prepay, hp, w2, h2, n, hnn, b, hb, fee, hfee, h⟩ := h
  rw [chk_ok] at hp hfee
  simp only [Outcome.ok.injEq, Prod.mk.injEq] at h
  obtain ⟨rfl, rfl⟩ := h
  generalize hW1 : prepaid env w tx.sender prepay = w1 at *
  have hw1 : WF env w1 := by rw [← hW1]; exact (prepaid_spec hg hw tx.sender prepay).1
  have hn1 : NodupKeys w1.accounts := by rw [← hW1]; exact nodup_save w hn _ _
  have hs1 := supply_save w hn tx.sender { getAccount env w tx.sender with
    balance := satSub (getAccount env w tx.sender).balance prepay }
  have e1 : saveAccount w tx.sender { getAccount env w tx.sender with
    balance := satSub (getAccount env w tx.sender).balance prepay } = w1 := hW1
  rw [e1] at hs1
  have hbal : (getAccount env w tx.sender).balance = (basic w tx.sender).balance :=
    (basic_view env w tx.sender).1
  simp only [satSub_val, hbal] at hs1
  have htot := hvm w1 tx
  have hc1 := hc w1 w2 tx hw1 hn1 h2
  have hn2 : NodupKeys w2.accounts := by
    unfold settle at h2
    split at h2
    · exact nodup_apply hn1 h2
    · cases h2; exact hn1
  generalize vm.run w1 tx = o at *
  refine ⟨nodup_save w2 hn2 _ _, ?_⟩
  have hs2 := supply_save w2 hn2 tx.sender
    { getAccount env w2 tx.sender with nonce := n, balance := b }
  have hbal2 : (getAccount env w2 tx.sender).balance = (basic w2 tx.sender).balance :=
    (basic_view env w2 tx.sender).1
  have hbv : b.val ≤ (basic w2 tx.sender).balance.val +
      o.remained (gasLimit tx.transaction.unsigned).val * w.gasPrice.val := by
    unfold giveBack at hb
    rw [hbal2] at hb
    split at hb
    · rw [bind_ok] at hb
      obtain ⟨x, hx, hb⟩ := hb
      rw [chk_ok] at hx
      cases hb
      rw [satAdd_val, hx]
      omega
    · cases hb; omega
  simp only at hs2 ⊢
  unfold prepayOf at hafford
  have hmul : w.gasPrice.val * (gasLimit tx.transaction.unsigned).val
      = o.remained (gasLimit tx.transaction.unsigned).val * w.gasPrice.val + w.gasPrice.val * o.total := by
    rw [Nat.mul_comm _ w.gasPrice.val, ← Nat.mul_add]
    unfold VmOut.remained
    congr 1; omega
  have hfu : w.gasPrice.val * o.used ≤ w.gasPrice.val * o.total := Nat.mul_le_mul_left _ (used_le o)
  omega

/-- Storing a root keeps balances. -/
theorem rootChanges_keep (env : Env H) (vm : Vm H) (w : World H) (a : H160) :
    ∀ ch ∈ rootChanges vm w a, ∃ a b c ws reset, ch = .modify a b c ws reset ∧
      b.balance = (view env w a).balance := by
  intro ch hch
  unfold rootChanges at hch
  split at hch
  · rcases List.mem_cons.1 hch with h | h
    · exact ⟨_, _, _, _, _, h, rfl⟩
    · exact ⟨_, _, _, _, _, List.mem_singleton.1 h, rfl⟩
  · exact ⟨_, _, _, _, _, List.mem_singleton.1 hch, rfl⟩

theorem supply_apply_keep {env : Env H} (hg : env.Good) {cs : List Change} {w w' : World H}
    (hw : WF env w) (hn : NodupKeys w.accounts)
    (hk : ∀ ch ∈ cs, ∃ a b c ws reset, ch = .modify a b c ws reset ∧ b.balance = (view env w a).balance)
    (h : apply env w cs [] false = .ok w') : supply w' = supply w := by
  unfold apply at h
  rw [bind_ok] at h
  obtain ⟨w1, h1, h⟩ := h
  cases h
  exact (supply_keep hg hw hn hk h1).1

theorem wf_roots {env : Env H} {w : World H} (hw : WF env w) (a b : U256) :
    WF env { w with headerRoot := a, metadataRoot := b } :=
  ⟨hw.root, hw.hash, hw.db, hw.vals, hw.codes⟩

theorem wf_setRoot {env : Env H} {w : World H} (hw : WF env w) (a : H160) (root : U256) :
    WF env (setRoot w a root) := by
  unfold setRoot
  split
  · exact ⟨hw.root, hw.hash, hw.db, hw.vals, hw.codes⟩
  · exact ⟨hw.root, hw.hash, hw.db, hw.vals, hw.codes⟩

omit [DecidableEq H] in
theorem setRoot_accounts (w : World H) (a : H160) (root : U256) :
    (setRoot w a root).accounts = w.accounts := by
  unfold setRoot; split <;> rfl

theorem wf_apply {env : Env H} (hg : env.Good) {cs : List Change} {w w' : World H} {logs : List Log}
    {de : Bool} (hw : WF env w) (h : apply env w cs logs de = .ok w') : WF env w' := by
  obtain ⟨w1, h1, hw1, _⟩ := apply_spec hg de cs logs hw
  rw [h] at h1; cases h1; exact hw1

theorem supply_updateStates {env : Env H} (hg : env.Good) {vm : Vm H} {w w' : World H} {s a : H160}
    (hw : WF env w) (hn : NodupKeys w.accounts) (h : updateStates env vm w s a = .ok w') :
    WF env w' ∧ NodupKeys w'.accounts ∧ supply w' = supply w := by
  unfold updateStates at h
  rw [bind_ok] at h
  obtain ⟨n, _, h⟩ := h
  refine ⟨wf_apply hg hw h, nodup_apply hn h, supply_apply_keep hg hw hn ?_ h⟩
  intro ch hch
  rcases List.mem_append.1 hch with h | h
  · exact rootChanges_keep env vm w a ch h
  · exact ⟨_, _, _, _, _, List.mem_singleton.1 h, rfl⟩

end Axon.Exec
