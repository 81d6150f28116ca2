import Verif.Executor.ExecProps

/-!
# Properties C32 (fee distribution), C35 (reserved addresses), C36 (native token), C67 (money is not created)
-/

namespace Axon.Exec
open Axon.Assoc Axon.Tx
open Axon.Admission (SignedTx gasPrice gasLimit value action systemAddress systemAddresses
  isCallSystemScript checkAuthorization)

variable {H : Type} [DecidableEq H]

/-! ## C32 -/

/-- Total weight of a validator list. -/
def weights (vs : List Validator) : Nat := (vs.map (·.weight.val)).sum

theorem weight_le {v : Validator} {vs : List Validator} (h : v ∈ vs) : v.weight.val ≤ weights vs := by
  induction vs with
  | nil => cases h
  | cons u us ih =>
    simp only [weights, List.map_cons, List.sum_cons] at *
    rcases List.mem_cons.1 h with rfl | h
    · omega
    · have := ih h; omega

theorem share_lt {fee : U256} {sum w : Nat} (h : w ≤ sum) : fee.val / sum * w < 2 ^ 256 := by
  have h1 : fee.val / sum * w ≤ fee.val / sum * sum := Nat.mul_le_mul_left _ h
  have h2 := Nat.div_mul_le_self fee.val sum
  have := fee.lt
  omega

/-- The fold of `allocate`. -/
theorem allocate_fold (fee : U256) (sum : Nat) (h0 : sum ≠ 0) (vs : List Validator)
    (hle : ∀ v ∈ vs, v.weight.val ≤ sum) :
    ∃ l, vs.foldr (fun v rest =>
      if sum = 0 then .panic
      else (chk (fee.val / sum * v.weight.val)).bind fun amount =>
        rest.bind fun l => .ok ((v.address, amount) :: l)) (.ok []) = Outcome.ok l ∧
      l.map (·.1) = vs.map (·.address) ∧
      l.map (·.2.val) = vs.map (fun v => fee.val / sum * v.weight.val) := by
  induction vs with
  | nil => exact ⟨[], rfl, rfl, rfl⟩
  | cons v vs ih =>
    obtain ⟨l, hl, h1, h2⟩ := ih (fun u hu => hle u (List.mem_cons_of_mem _ hu))
    have hlt : fee.val / sum * v.weight.val < 2 ^ 256 := share_lt (hle v (List.mem_cons_self ..))
    refine ⟨(v.address, ⟨_, hlt⟩) :: l, ?_, ?_, ?_⟩
    · rw [List.foldr_cons, hl]
      have : chk (fee.val / sum * v.weight.val) = .ok ⟨_, hlt⟩ := (chk_ok).2 rfl
      simp [h0, this, Outcome.bind]
    · simp [h1]
    · simp [h2]

theorem sum_mul (c : Nat) (l : List Validator) :
    (l.map (fun v => c * v.weight.val)).sum = c * weights l := by
  unfold weights
  induction l with
  | nil => simp
  | cons v l ih => simp only [List.map_cons, List.sum_cons, ih, Nat.mul_add]

/-- **C32.**  For a total weight that is neither zero nor beyond 32 bits: every validator gets a share, in
order; the shares are proportional to the weights; together they never exceed the fee, and what is left over
is less than the total weight. -/
theorem C32_shares (n fee : U256) (vs : List Validator) (hn : n.val ≠ 0) (hf : fee.val ≠ 0)
    (h0 : weights vs ≠ 0) (h1 : weights vs < 2 ^ 32) :
    ∃ l, allocate n fee vs = .ok l ∧ l.map (·.1) = vs.map (·.address) ∧
      (l.map (·.2.val)).sum ≤ fee.val ∧ fee.val < (l.map (·.2.val)).sum + weights vs ∧
      ∀ (i j : Nat) (si sj : H160 × U256) (vi vj : Validator), l[i]? = some si → l[j]? = some sj → vs[i]? = some vi → vs[j]? = some vj →
        si.2.val * vj.weight.val = sj.2.val * vi.weight.val := by
  obtain ⟨l, hl, ha, hs⟩ := allocate_fold fee (weights vs) h0 vs (fun v hv => weight_le hv)
  refine ⟨l, ?_, ha, ?_, ?_, ?_⟩
  · unfold allocate
    rw [if_neg]
    · show (if 2 ^ 32 ≤ weights vs then _ else _) = _
      rw [if_neg (by omega)]
      exact hl
    · rintro (h | h)
      · exact hf (by rw [h]; rfl)
      · exact hn (by rw [h]; rfl)
  · rw [hs, sum_mul]
    exact Nat.div_mul_le_self _ _
  · rw [hs, sum_mul]
    have := Nat.div_add_mod fee.val (weights vs)
    have hm := Nat.mod_lt fee.val (Nat.pos_of_ne_zero h0)
    rw [Nat.mul_comm] at this
    omega
  · intro i j si sj vi vj hi hj hvi hvj
    have e1 : (l.map (·.2.val))[i]? = some si.2.val := by simp [hi]
    have e2 : (l.map (·.2.val))[j]? = some sj.2.val := by simp [hj]
    rw [hs] at e1 e2
    simp only [List.getElem?_map, hvi, hvj, Option.map_some, Option.some.injEq] at e1 e2
    rw [← e1, ← e2]
    rw [Nat.mul_assoc, Nat.mul_assoc, Nat.mul_comm vi.weight.val]

/-- **C32, no fee, no block.** -/
theorem C32_nothing (n fee : U256) (vs : List Validator) (h : n.val = 0 ∨ fee.val = 0) :
    allocate n fee vs = .ok [] := by
  unfold allocate
  rw [if_pos]
  rcases h with h | h
  · right; cases n; simp only at h; subst h; rfl
  · left; cases fee; simp only at h; subst h; rfl

/-- **C32, the excluded cases panic.**  With a positive fee the executor panics exactly when the weights do not
fit 32 bits in total or are all zero (and there is a validator at all). -/
theorem C32_panic (n fee : U256) (vs : List Validator) (hn : n.val ≠ 0) (hf : fee.val ≠ 0) :
    allocate n fee vs = .panic ↔ 2 ^ 32 ≤ weights vs ∨ (vs ≠ [] ∧ weights vs = 0) := by
  by_cases h1 : weights vs < 2 ^ 32
  · by_cases h0 : weights vs = 0
    · have e : allocate n fee vs = if vs = [] then .ok [] else .panic := by
        unfold allocate
        rw [if_neg]
        · show (if 2 ^ 32 ≤ weights vs then _ else _) = _
          rw [if_neg (by omega)]
          cases vs with
          | nil => rfl
          | cons v vs =>
            rw [List.foldr_cons]
            rw [if_pos (by exact h0)]
            simp
        · rintro (h | h)
          · exact hf (by rw [h]; rfl)
          · exact hn (by rw [h]; rfl)
      rw [e]
      by_cases hv : vs = []
      · rw [if_pos hv]; simp [hv, weights]
      · rw [if_neg hv]; simp [hv, h0]
    · obtain ⟨l, hl, _⟩ := C32_shares n fee vs hn hf h0 h1
      rw [hl]
      simp only [reduceCtorEq, false_iff]
      rintro (h | h)
      · omega
      · exact h0 h.2
  · have : allocate n fee vs = .panic := by
      unfold allocate
      rw [if_neg]
      · show (if 2 ^ 32 ≤ weights vs then _ else _) = _
        rw [if_pos (by omega)]
      · rintro (h | h)
        · exact hf (by rw [h]; rfl)
        · exact hn (by rw [h]; rfl)
    simp only [this, true_iff]
    left; omega

/-- Three validators share 1000 as 1:2:4; six remain. -/
example : (match allocate (u256 5) (u256 1000)
      [⟨toyAddr 1, ⟨1, by decide⟩⟩, ⟨toyAddr 2, ⟨2, by decide⟩⟩, ⟨toyAddr 3, ⟨4, by decide⟩⟩] with
    | .ok l => l.map (·.2.val)
    | _ => []) = [142, 284, 568] ∧
    allocate (u256 5) (u256 1000) [⟨toyAddr 1, ⟨0, by decide⟩⟩] = .panic := by decide +kernel

/-- What an account is owed by a list of shares. -/
def owed (a : H160) : List (H160 × U256) → Nat
  | [] => 0
  | s :: l => (if s.1 = a then s.2.val else 0) + owed a l

theorem credit_spec {env : Env H} {w w' : World H} {i : H160 × U256}
    (h : credit env w i = .ok w') :
    (∀ a, (basic w' a).balance.val = (basic w a).balance.val + owed a [i]) ∧
    (∀ a, (basic w' a).nonce = (basic w a).nonce) ∧
    (NodupKeys w.accounts → NodupKeys w'.accounts ∧ supply w' = supply w + i.2.val) := by
  unfold credit at h
  split at h
  · rename_i hz
    cases h
    refine ⟨fun a => ?_, fun _ => rfl, fun hn => ⟨hn, ?_⟩⟩
    · simp [owed, hz, U256.zero]
    · simp [hz, U256.zero]
  · rw [bind_ok] at h
    obtain ⟨b, hb, h⟩ := h
    cases h
    rw [chk_ok] at hb
    rw [show (getAccount env w i.1).balance = (basic w i.1).balance from (basic_view env w i.1).1] at hb
    refine ⟨fun a => ?_, fun a => ?_, fun hn => ⟨nodup_save w hn _ _, ?_⟩⟩
    · simp only [basic, saveAccount, get_put, owed]
      by_cases hx : a = i.1
      · subst hx; simp only [if_true]; rw [hb]; simp [basic]
      · have : ¬ i.1 = a := fun e => hx e.symm
        simp [this, hx]
    · simp only [basic, saveAccount, get_put]
      by_cases hx : a = i.1
      · subst hx
        simp only [if_true]
        have : (getAccount env w i.1).nonce = (basic w i.1).nonce := (basic_view env w i.1).2
        simpa [basic] using this
      · simp [hx]
    · have := supply_save w hn i.1 { getAccount env w i.1 with balance := b }
      simp only at this ⊢
      omega

theorem owed_cons (a : H160) (i : H160 × U256) (l : List (H160 × U256)) :
    owed a (i :: l) = owed a [i] + owed a l := by simp [owed]

theorem creditAll_spec {env : Env H} (l : List (H160 × U256)) : ∀ {w w' : World H},
    creditAll env l w = .ok w' →
    (∀ a, (basic w' a).balance.val = (basic w a).balance.val + owed a l) ∧
    (∀ a, (basic w' a).nonce = (basic w a).nonce) ∧
    (NodupKeys w.accounts → NodupKeys w'.accounts ∧ supply w' = supply w + (l.map (·.2.val)).sum) := by
  induction l with
  | nil =>
    intro w w' h
    simp only [creditAll, Outcome.ok.injEq] at h
    subst h
    exact ⟨fun _ => rfl, fun _ => rfl, fun hn => ⟨hn, by simp⟩⟩
  | cons i l ih =>
    intro w w' h
    simp only [creditAll, bind_ok] at h
    obtain ⟨w1, h1, h⟩ := h
    obtain ⟨a1, b1, c1⟩ := credit_spec h1
    obtain ⟨a2, b2, c2⟩ := ih h
    refine ⟨fun a => by rw [a2, a1, owed_cons a i l]; omega, fun a => by rw [b2, b1], fun hn => ?_⟩
    have := c1 hn
    have h2 := c2 this.1
    refine ⟨h2.1, ?_⟩
    rw [h2.2, this.2]
    simp only [List.map_cons, List.sum_cons]; omega

/-- **C32, payment.**  Distributing a fee adds to every account exactly the shares it is owed (a validator
listed twice gets both) and changes no nonce. -/
theorem C32_payment {env : Env H} {w w' : World H} {fee : U256} {vs : List Validator}
    (h : distribute env w fee vs = .ok w') :
    ∃ l, allocate w.blockNumber fee vs = .ok l ∧
      (∀ a, (basic w' a).balance.val = (basic w a).balance.val + owed a l) ∧
      (∀ a, (basic w' a).nonce = (basic w a).nonce) := by
  unfold distribute at h
  split at h
  · rename_i hz
    cases h
    exact ⟨[], C32_nothing _ _ _ (.inl (by rw [hz]; rfl)), fun _ => rfl, fun _ => rfl⟩
  · rw [bind_ok] at h
    obtain ⟨l, hl, h⟩ := h
    have := creditAll_spec l h
    exact ⟨l, hl, this.1, this.2.1⟩

theorem allocate_le {n fee : U256} {vs : List Validator} {l : List (H160 × U256)}
    (h : allocate n fee vs = .ok l) : (l.map (·.2.val)).sum ≤ fee.val := by
  by_cases hz : n.val = 0 ∨ fee.val = 0
  · rw [C32_nothing n fee vs hz] at h
    cases h; simp
  · have hn : n.val ≠ 0 := fun e => hz (.inl e)
    have hf : fee.val ≠ 0 := fun e => hz (.inr e)
    have hp := C32_panic n fee vs hn hf
    rw [h] at hp
    simp only [reduceCtorEq, false_iff, not_or, not_and, Nat.not_le] at hp
    by_cases hv : vs = []
    · subst hv
      have e : allocate n fee [] = .ok [] := by
        unfold allocate
        split
        · rfl
        · rfl
      rw [e] at h; cases h; simp
    · obtain ⟨l', hl', _, hle, _⟩ := C32_shares n fee vs hn hf (hp.2 hv) hp.1
      rw [h] at hl'; cases hl'; exact hle

/-! ## C35 -/

/-- A registered system contract: the address is nineteen `ff` bytes and a last byte below four. -/
def Registered (a : H160) : Prop :=
  a.bytes.take 19 = List.replicate 19 0xff ∧ ∃ b : UInt8, b.toNat < 4 ∧ a.bytes[19]? = some b

/-- A reserved address: nineteen `ff` bytes followed by anything. -/
def Reserved (a : H160) : Prop := a.bytes.take 19 = List.replicate 19 0xff

theorem eq_sysAddr {a : H160} {b : UInt8} :
    a = sysAddr b ↔ a.bytes.take 19 = List.replicate 19 0xff ∧ a.bytes[19]? = some b := by
  constructor
  · rintro rfl
    simp [sysAddr, systemAddress]
  · rintro ⟨h1, h2⟩
    have hl := a.len
    have : a.bytes = systemAddress b := by
      have h3 := List.take_append_drop 19 a.bytes
      have h4 : a.bytes.drop 19 = [b] := by
        apply List.ext_getElem?
        intro i
        rw [List.getElem?_drop]
        cases i with
        | zero => simpa using h2
        | succ i =>
          rw [List.getElem?_eq_none (by omega)]
          simp
      rw [← h3, h1, h4]; rfl
    cases a
    simp only at this
    subst this
    rfl

theorem u8_small (b : UInt8) (h : b.toNat < 4) : b = 0 ∨ b = 1 ∨ b = 2 ∨ b = 3 := by
  have h' : b.toNat = 0 ∨ b.toNat = 1 ∨ b.toNat = 2 ∨ b.toNat = 3 := by omega
  rcases h' with h | h | h | h
  · exact .inl (UInt8.toNat_inj.1 h)
  · exact .inr (.inl (UInt8.toNat_inj.1 h))
  · exact .inr (.inr (.inl (UInt8.toNat_inj.1 h)))
  · exact .inr (.inr (.inr (UInt8.toNat_inj.1 h)))

theorem registered_iff (a : H160) :
    Registered a ↔ a = sysAddr 0 ∨ a = sysAddr 1 ∨ a = sysAddr 2 ∨ a = sysAddr 3 := by
  simp only [eq_sysAddr]
  constructor
  · rintro ⟨h1, b, hb, h2⟩
    rcases u8_small b hb with rfl | rfl | rfl | rfl
    · exact .inl ⟨h1, h2⟩
    · exact .inr (.inl ⟨h1, h2⟩)
    · exact .inr (.inr (.inl ⟨h1, h2⟩))
    · exact .inr (.inr (.inr ⟨h1, h2⟩))
  · rintro (h | h | h | h)
    · exact ⟨h.1, 0, by decide, h.2⟩
    · exact ⟨h.1, 1, by decide, h.2⟩
    · exact ⟨h.1, 2, by decide, h.2⟩
    · exact ⟨h.1, 3, by decide, h.2⟩

theorem sysAddr_inj {a b : UInt8} (h : sysAddr a = sysAddr b) : a = b := by
  have := (eq_sysAddr.1 h).2
  simpa [sysAddr, systemAddress] using this

/-- **C35, routing.**  A transaction is executed by a native contract exactly if it calls a registered
address, and then by the one registered there. -/
theorem C35_routing (act : Action) :
    (dispatch act ≠ .evm ↔ ∃ a, act = .call a ∧ Registered a) ∧
    (dispatch act = .native ↔ act = .call (sysAddr 0)) ∧
    (∀ a, dispatch act = .contract a ↔ act = .call a ∧ Registered a ∧ a ≠ sysAddr 0) := by
  have h10 : sysAddr 1 ≠ sysAddr 0 := fun h => by have := sysAddr_inj h; revert this; decide
  have h20 : sysAddr 2 ≠ sysAddr 0 := fun h => by have := sysAddr_inj h; revert this; decide
  have h30 : sysAddr 3 ≠ sysAddr 0 := fun h => by have := sysAddr_inj h; revert this; decide
  cases act with
  | create => simp [dispatch, target]
  | call x =>
    simp only [dispatch, target, Action.call.injEq, registered_iff]
    by_cases h0 : x = sysAddr 0
    · subst h0
      simp only [if_true]
      refine ⟨by simp, by simp, fun a => ?_⟩
      simp only [reduceCtorEq, false_iff]
      rintro ⟨rfl, _, h⟩; exact h rfl
    · simp only [h0, if_false]
      by_cases h1 : x = sysAddr 1
      · subst h1
        simp only [if_true]
        refine ⟨by simp, by simp, fun a => ?_⟩
        simp only [Route.contract.injEq]
        constructor
        · rintro rfl; exact ⟨rfl, by simp, h10⟩
        · rintro ⟨h, _⟩; exact h
      · simp only [h1, if_false]
        by_cases h2 : x = sysAddr 2
        · subst h2
          simp only [if_true]
          refine ⟨by simp, by simp, fun a => ?_⟩
          simp only [Route.contract.injEq]
          constructor
          · rintro rfl; exact ⟨rfl, by simp, h20⟩
          · rintro ⟨h, _⟩; exact h
        · simp only [h2, if_false]
          by_cases h3 : x = sysAddr 3
          · subst h3
            simp only [if_true]
            refine ⟨by simp, by simp, fun a => ?_⟩
            simp only [Route.contract.injEq]
            constructor
            · rintro rfl; exact ⟨rfl, by simp, h30⟩
            · rintro ⟨h, _⟩; exact h
          · simp only [h3, if_false]
            refine ⟨?_, by simp, fun a => ?_⟩
            · simp only [ne_eq, not_true, false_iff]
              rintro ⟨a, rfl, h | h | h | h⟩
              · exact h0 h
              · exact h1 h
              · exact h2 h
              · exact h3 h
            · simp only [reduceCtorEq, false_iff]
              rintro ⟨rfl, h | h | h | h, _⟩
              · exact h0 h
              · exact h1 h
              · exact h2 h
              · exact h3 h

theorem mem_systemAddresses (a : H160) (h : Reserved a) :
    systemAddresses.contains a.bytes = true ↔ Registered a := by
  rw [registered_iff]
  have e : ∀ b, a = sysAddr b ↔ a.bytes = systemAddress b := by
    intro b
    constructor
    · rintro rfl; rfl
    · intro h; cases a; simp only at h; subst h; rfl
  simp only [e, systemAddresses, List.contains_iff_mem, List.mem_cons, List.not_mem_nil, or_false]

/-- **C35, admission.**  The mempool takes a transaction for a system call exactly if it calls a registered
address, refuses it exactly if it calls a reserved but unregistered one, and treats all others as ordinary. -/
theorem C35_admission (act : Action) :
    (isCallSystemScript act = some true ↔ ∃ a, act = .call a ∧ Registered a) ∧
    (isCallSystemScript act = none ↔ ∃ a, act = .call a ∧ Reserved a ∧ ¬ Registered a) := by
  cases act with
  | create => simp [isCallSystemScript]
  | call x =>
    simp only [isCallSystemScript, Action.call.injEq]
    by_cases h : Reserved x
    · have h' : x.bytes.take 19 = List.replicate 19 0xff := h
      rw [if_pos h']
      by_cases hr : Registered x
      · rw [if_pos ((mem_systemAddresses x h).2 hr)]
        refine ⟨by simp [hr], by simp [h, hr]⟩
      · rw [if_neg (fun e => hr ((mem_systemAddresses x h).1 e))]
        refine ⟨by simp [hr], by simp [h, hr]⟩
    · rw [if_neg (show ¬ x.bytes.take 19 = List.replicate 19 0xff from h)]
      refine ⟨?_, by simp [h]⟩
      simp only [Option.some.injEq, Bool.false_eq_true, false_iff]
      rintro ⟨a, rfl, hr⟩
      exact h hr.1

/-- Agreement: what admission takes for a system call is what execution routes to a native contract. -/
theorem C35_agree (act : Action) : isCallSystemScript act = some true ↔ dispatch act ≠ .evm := by
  rw [(C35_admission act).1, (C35_routing act).1]

/-- **C35 is false of execution.**  Only admission refuses reserved addresses: a block that contains a call to
one (a block fetched during synchronisation is executed without any admission check) has it executed as an
ordinary transfer. -/
theorem C35_execution_false :
    Reserved (sysAddr 4) ∧ ¬ Registered (sysAddr 4) ∧
    dispatch (.call (sysAddr 4)) = .evm ∧
    summary { richWorld with gasPrice := u256 1 }
      (toyTx 1 (u64 0) (u64 1) (u64 100000) (sysAddr 4) (u256 500) []) (sysAddr 4)
      = some (1000000 - 500 - 21000, 1, 500, 21000) := by
  refine ⟨by unfold Reserved; decide, ?_, by decide, by decide +kernel⟩
  rw [registered_iff]
  decide

/-! ## C36 -/

/-- What call data of the native token contract asks for. -/
inductive TokenCall where
  | mint (a : H160)
  | burn (a : H160)
  | malformed

/-- The call data: one byte 0 (mint) or 1 (burn) and a twenty-byte address; more may follow. -/
def Means (d : Bytes) : TokenCall → Prop
  | .mint a => ∃ rest, d = 0 :: (a.bytes ++ rest)
  | .burn a => ∃ rest, d = 1 :: (a.bytes ++ rest)
  | .malformed => d.length < 21 ∨ ∃ b rest, d = b :: rest ∧ 1 < b.toNat

theorem tokenTarget_eq (b : UInt8) (a : H160) (rest : Bytes) :
    tokenTarget (b :: (a.bytes ++ rest)) = a := by
  have hl := a.len
  have e : ((b :: (a.bytes ++ rest)).drop 1).take 20 = a.bytes := by
    simp only [List.drop_succ_cons, List.drop_zero]
    rw [List.take_append_of_le_length (by omega), List.take_of_length_le (by omega)]
  cases a with
  | mk bytes hb =>
    simp only at e hl
    apply FixedBytes.ext'
    simp only [tokenTarget, e]
    have := beFixed_beNat bytes
    rwa [hl] at this

/-- What happens around a successful change of one account. -/
theorem token_apply {env : Env H} (hg : env.Good) {w : World H} (hw : WF env w) (a : H160) (b : Basic) :
    ∃ w', apply env w [.modify a b none [] false] [] false = .ok w' ∧
      (basic w' a).balance = b.balance ∧ (basic w' a).nonce = b.nonce ∧
      ∀ x, x ≠ a → view env w' x = view env w x := by
  obtain ⟨w', h, _, hv, _⟩ := apply_spec hg false [.modify a b none [] false] [] hw
  refine ⟨w', h, ?_, ?_, ?_⟩
  · have := congrArg View.balance (congrFun hv a)
    simp [specChange] at this
    exact this
  · have := congrArg View.nonce (congrFun hv a)
    simp [specChange] at this
    exact this
  · intro x hx
    rw [hv]
    simp [specChange, hx]

/-- **C36.**  Every call of the native token contract: a mint that fits raises exactly the named balance by
exactly the value; a burn within the balance lowers it by exactly the value; a burn above the balance and
malformed data leave the state as it is and report failure.  No other account changes in any respect. -/
theorem C36_token {env : Env H} (hg : env.Good) {w : World H} (hw : WF env w) (tx : SignedTx)
    (hl : (gasLimit tx.transaction.unsigned).val ≠ 0) (c : TokenCall)
    (hc : Means (data tx.transaction.unsigned) c) :
    match c with
    | .mint a =>
      (basic w a).nonce.val + 1 < 2 ^ 256 →
      (basic w a).balance.val + (value tx.transaction.unsigned).val < 2 ^ 256 →
      ∃ w' r, nativeToken env w tx = .ok (w', r) ∧ r.succeed = true ∧
        (basic w' a).balance.val = (basic w a).balance.val + (value tx.transaction.unsigned).val ∧
        ∀ x, x ≠ a → view env w' x = view env w x
    | .burn a =>
      (basic w a).nonce.val + 1 < 2 ^ 256 →
      if (value tx.transaction.unsigned).val ≤ (basic w a).balance.val then
        ∃ w' r, nativeToken env w tx = .ok (w', r) ∧ r.succeed = true ∧
          (basic w' a).balance.val + (value tx.transaction.unsigned).val = (basic w a).balance.val ∧
          ∀ x, x ≠ a → view env w' x = view env w x
      else ∃ r, nativeToken env w tx = .ok (w, r) ∧ r.succeed = false
    | .malformed => ∃ r, nativeToken env w tx = .ok (w, r) ∧ r.succeed = false := by
  have href : ∃ r : TxResp H, ((revertResp (gasLimit tx.transaction.unsigned).val).bind fun r => .ok (w, r))
      = Outcome.ok (w, r) ∧ r.succeed = false := by
    refine ⟨_, by simp only [revertResp, hl, if_false, Outcome.bind]; rfl, rfl⟩
  cases c with
  | mint a =>
    obtain ⟨rest, hd⟩ := hc
    intro hn hb
    obtain ⟨w', h1, h2, _, h3⟩ := token_apply hg hw a
      { balance := ⟨_, hb⟩, nonce := ⟨_, hn⟩ }
    refine ⟨w', succeedResp (gasLimit tx.transaction.unsigned).val, ?_, rfl, by rw [h2], h3⟩
    have e1 : chk ((basic w a).balance.val + (value tx.transaction.unsigned).val) = .ok ⟨_, hb⟩ :=
      (chk_ok).2 rfl
    have e2 : chk ((basic w a).nonce.val + 1) = .ok ⟨_, hn⟩ := (chk_ok).2 rfl
    have := a.len
    unfold nativeToken
    simp only [hd, tokenTarget_eq]
    rw [if_neg (by simp; omega)]
    simp only [List.headD_cons, if_true, e1, Outcome.bind, e2, h1]
  | burn a =>
    obtain ⟨rest, hd⟩ := hc
    intro hn
    have := a.len
    have e2 : chk ((basic w a).nonce.val + 1) = .ok ⟨_, hn⟩ := (chk_ok).2 rfl
    split
    · rename_i hb
      obtain ⟨w', h1, h2, _, h3⟩ := token_apply hg hw a
        { balance := satSub (basic w a).balance (value tx.transaction.unsigned), nonce := ⟨_, hn⟩ }
      refine ⟨w', succeedResp (gasLimit tx.transaction.unsigned).val, ?_, rfl, ?_, h3⟩
      · unfold nativeToken
        simp only [hd, tokenTarget_eq]
        rw [if_neg (by simp; omega)]
        rw [if_neg (by simp), if_neg (by omega)]
        simp only [e2, Outcome.bind, h1]
      · rw [h2, satSub_val]; omega
    · rename_i hb
      obtain ⟨r, hr, hs⟩ := href
      refine ⟨r, ?_, hs⟩
      unfold nativeToken
      simp only [hd, tokenTarget_eq]
      rw [if_neg (by simp; omega)]
      rw [if_neg (by simp), if_pos (by omega)]
      exact hr
  | malformed =>
    obtain ⟨r, hr, hs⟩ := href
    refine ⟨r, ?_, hs⟩
    unfold nativeToken
    simp only
    rw [if_pos]
    · exact hr
    · rcases hc with h | ⟨b, rest, hd, hb⟩
      · exact .inl h
      · right; rw [hd]; simpa using hb

/-- **C36, overflow.**  A mint that does not fit 256 bits panics (the process stops) rather than changing the
balance by a different amount. -/
theorem C36_overflow {env : Env H} {w : World H} (tx : SignedTx) (a : H160) (rest : Bytes)
    (hd : data tx.transaction.unsigned = 0 :: (a.bytes ++ rest))
    (hb : 2 ^ 256 ≤ (basic w a).balance.val + (value tx.transaction.unsigned).val) :
    nativeToken env w tx = .panic := by
  have := a.len
  unfold nativeToken
  simp only [hd, tokenTarget_eq]
  rw [if_neg (by simp; omega)]
  simp only [List.headD_cons, if_true]
  rw [chk_panic hb]
  rfl

/-- The sender's and the target's balance and nonce after a call of the native token contract. -/
def tokenSummary (w : World ToyHash) (tx : SignedTx) (to : H160) : Option (Bool × Nat × Nat × Nat × Nat) :=
  match nativeToken toyEnv w tx with
  | .ok (w', r) => some (r.succeed, (basic w' tx.sender).balance.val, (basic w' tx.sender).nonce.val,
      (basic w' to).balance.val, (basic w' to).nonce.val)
  | _ => none

/-- Account 1 mints 777 for account 2; burning more than there is is refused. -/
example :
    tokenSummary richWorld (toyTx 1 (u64 0) (u64 1) (u64 100000) (sysAddr 0) (u256 777)
      (0 :: (toyAddr 2).bytes)) (toyAddr 2) = some (true, 1000000, 0, 777, 1) ∧
    tokenSummary richWorld (toyTx 1 (u64 0) (u64 1) (u64 100000) (sysAddr 0) (u256 777)
      (1 :: (toyAddr 2).bytes)) (toyAddr 2) = some (false, 1000000, 0, 0, 0) := by decide +kernel

/-- **C30 is false of the code: native token calls.**  A successful native token call raises the nonce of the
account named in the call data, never the sender's (unless they coincide): the transaction stays valid and can be
executed again, minting again. -/
theorem C30_native_nonce_false :
    tokenSummary richWorld (toyTx 1 (u64 0) (u64 1) (u64 100000) (sysAddr 0) (u256 777)
      (0 :: (toyAddr 2).bytes)) (toyAddr 2) = some (true, 1000000, 0, 777, 1) := by decide +kernel

end Axon.Exec
