import Verif.Api.Call
import Verif.Mempool.AdmissionProps

/-!
# What calls and estimates tell about a transaction

C102.  The specification names the run a request asks for (`Asks`) and the requests that are to be
refused (`Callable`); neither mentions the mocked header.
-/

namespace Axon.Api.Calls

open Axon Axon.Block Axon.Tx Axon.Exec
open Axon.Admission (SignedTx gasPrice gasLimit value action checkTransaction)

/-- The requests that are served: within the limits of the chain, not aimed at one of the reserved
addresses, and naming a caller or a target. -/
structure Callable (r : CallReq) : Prop where
  gas : ∀ g, r.gas = some g → g.val ≤ 30000000
  price : ∀ p, r.gasPrice = some p → p.val ≤ 500000000000
  target : ∀ a b, r.target = some a → a.bytes ≠ List.replicate 19 0xff ++ [b]
  named : r.caller ≠ none ∨ r.target ≠ none

/-- The run a request asks for on the block with header `h`: the request's caller, target, value,
data and limits, on the state after the block and in its environment. -/
structure Asks (r : CallReq) (h : Header) (j : Job) : Prop where
  root : j.root = h.stateRoot
  number : j.number = h.number.val
  timestamp : j.timestamp = h.timestamp.val
  coinbase : j.coinbase = h.proposer
  /-- only when the request gives no gas -/
  blockGasLimit : r.gas = none → j.blockGasLimit = h.gasLimit.val
  /-- only when the request gives no maximum fee -/
  baseFee : r.maxFeePerGas = none → j.baseFee = h.baseFeePerGas.val
  /-- only when the request gives no other chain id -/
  chainId : (∀ c, r.chainId = some c → c = h.chainId) → j.chainId = h.chainId.val
  caller : ∀ a, r.caller = some a → j.caller = a
  nobody : r.caller = none → ∀ b ∈ j.caller.bytes, b = 0
  origin : j.origin = j.caller
  target : j.target = r.target
  value : ∀ v, r.value = some v → j.value = v.val
  noValue : r.value = none → j.value = 0
  data : ∀ d, r.data = some d → j.data = d
  noData : r.data = none → j.data = []
  limit : ∀ g, r.gas = some g → j.limit = g.val
  noLimit : r.gas = none → j.limit = 30000000
  price : ∀ p, r.gasPrice = some p → j.price = p.val

theorem asks_callJob (r : CallReq) (h : Header) : Asks r h (callJob h r) where
  root := rfl
  number := rfl
  timestamp := rfl
  coinbase := rfl
  blockGasLimit e := by simp [callJob, mockHeader, e]
  baseFee e := by simp [callJob, mockHeader, e]
  chainId e := by
    cases hc : r.chainId with
    | none => simp [callJob, mockHeader, hc]
    | some c => simp [callJob, mockHeader, hc, e c hc]
  caller a e := by simp [callJob, e]
  nobody e := by simp [callJob, e, noAddress]
  origin := rfl
  target := rfl
  value v e := by simp [callJob, e]
  noValue e := by simp [callJob, e]
  data v e := by simp [callJob, e]
  noData e := by simp [callJob, e]
  limit v e := by simp [callJob, e]
  noLimit e := by simp [callJob, e, Axon.Admission.maxGasLimit]
  price v e := by simp [callJob, e]

theorem systemFormat_iff (a : H160) :
    systemFormat a = true ↔ ∃ b, a.bytes = List.replicate 19 0xff ++ [b] := by
  have hl := a.len
  constructor
  · intro h
    have ht : a.bytes.take 19 = List.replicate 19 0xff := by simpa [systemFormat] using h
    have hd : (a.bytes.drop 19).length = 1 := by simp [hl]
    obtain ⟨b, hb⟩ := List.length_eq_one_iff.1 hd
    exact ⟨b, by rw [← ht, ← hb, List.take_append_drop]⟩
  · rintro ⟨b, hb⟩
    simp [systemFormat, hb]

theorem refuses_none_iff (r : CallReq) :
    refuses r = none ↔ (∀ g, r.gas = some g → g.val ≤ 30000000) ∧
      (∀ p, r.gasPrice = some p → p.val ≤ 500000000000) ∧
      (∀ a b, r.target = some a → a.bytes ≠ List.replicate 19 0xff ++ [b]) := by
  have h1 : (r.gas.map (·.val)).getD 0 > Axon.Admission.maxGasLimit ↔
      ¬ ∀ g, r.gas = some g → g.val ≤ 30000000 := by
    cases r.gas <;> simp [Axon.Admission.maxGasLimit]
  have h2 : (r.gasPrice.map (·.val)).getD 0 > Axon.Admission.maxGasPrice ↔
      ¬ ∀ g, r.gasPrice = some g → g.val ≤ 500000000000 := by
    cases r.gasPrice <;> simp [Axon.Admission.maxGasPrice]
  unfold refuses
  by_cases c1 : (r.gas.map (·.val)).getD 0 > Axon.Admission.maxGasLimit
  · rw [if_pos c1]
    have := h1.1 c1
    simp only [reduceCtorEq, false_iff]
    exact fun h => this h.1
  rw [if_neg c1]
  have d1 : ∀ g, r.gas = some g → g.val ≤ 30000000 := by
    rw [h1] at c1; exact Classical.not_not.1 c1
  by_cases c2 : (r.gasPrice.map (·.val)).getD 0 > Axon.Admission.maxGasPrice
  · rw [if_pos c2]
    have := h2.1 c2
    simp only [reduceCtorEq, false_iff]
    exact fun h => this h.2.1
  rw [if_neg c2]
  have d2 : ∀ g, r.gasPrice = some g → g.val ≤ 500000000000 := by
    rw [h2] at c2; exact Classical.not_not.1 c2
  cases ht : r.target with
  | none => exact iff_of_true rfl ⟨d1, d2, fun a b e => by simp at e⟩
  | some a =>
    by_cases c3 : systemFormat a = true
    · obtain ⟨b, hb⟩ := (systemFormat_iff a).1 c3
      simp only [c3, if_true, reduceCtorEq, false_iff]
      exact fun h => h.2.2 a b rfl hb
    · simp only [c3]
      refine iff_of_true (by simp) ⟨d1, d2, ?_⟩
      rintro a' b e hb
      cases e
      exact c3 ((systemFormat_iff a).2 ⟨b, hb⟩)

theorem callable_iff (r : CallReq) :
    Callable r ↔ refuses r = none ∧ ¬ (r.caller = none ∧ r.target = none) := by
  rw [refuses_none_iff]
  constructor
  · intro h
    exact ⟨⟨h.gas, h.price, h.target⟩, fun ⟨a, b⟩ => h.named.elim (· a) (· b)⟩
  · rintro ⟨⟨a, b, c⟩, d⟩
    refine ⟨a, b, c, ?_⟩
    cases hc : r.caller with
    | some x => left; simp
    | none => right; exact fun e => d ⟨hc, e⟩

/-! ## C102 -/

/-- **C102 (part): a call is the run asked for.**  When the selector stands for block `n` whose state
can be opened, `eth_call` answers exactly the served requests whose run succeeds, with what the run
returned; a failed run is reported as such.  Missing: the environment the run sees is the block's
only as far as the request does not overwrite it (`C102_env_false`), and the access list is dropped
(`C102_access_false`). -/
theorem C102_call_partial {A : StateAdapter} {hashOf : Block → H256} {chain : List Full}
    {world : Nat → H160 → Acct} (hA : ReadsState A hashOf chain world) (id : Option BlockId) (n : Nat)
    (f : Full) (h : Means hashOf chain id = some n) (hf : chain[n]? = some f) (r : CallReq) :
    ∃ j, Asks r f.block.header j ∧ ∀ M : Machine, M.opens f.block.header.stateRoot = true →
      (∀ ret, call M A r id = .ok ret ↔
        Callable r ∧ (M.run j).succeed = true ∧ (M.run j).ret = ret) ∧
      (Callable r → (M.run j).succeed = false → call M A r id = .err .evm) ∧
      call M A r id ≠ .panic := by
  refine ⟨callJob f.block.header r, asks_callJob r _, fun M hM => ?_⟩
  obtain ⟨o, ho, hon, hn⟩ := numberById_spec hA id n h
  have hhd := header_spec hA o n f hon hf
  have hcall : call M A r id = match refuses r with
      | some e => .err e
      | none => if r.caller = none ∧ r.target = none then .err .internal
        else if (M.run (callJob f.block.header r)).succeed then
          .ok (M.run (callJob f.block.header r)).ret else .err .evm := by
    unfold call
    cases hr : refuses r with
    | some e => rfl
    | none =>
      simp only [ho, Reply.bind, callEvm]
      by_cases c : r.caller = none ∧ r.target = none
      · simp only [if_pos c, Reply.bind]
      · simp only [if_neg c, callHeader, hhd, Reply.bind, hM, if_true]
  have hcl := callable_iff r
  generalize M.run (callJob f.block.header r) = out at hcall ⊢
  rw [hcall]
  cases hr : refuses r with
  | some e =>
    have hnc : ¬ Callable r := fun hc => by simpa [hr] using (hcl.1 hc).1
    exact ⟨fun ret => by simp [hnc], fun hc => absurd hc hnc, by simp⟩
  | none =>
    by_cases c : r.caller = none ∧ r.target = none
    · have hnc : ¬ Callable r := fun hc => (hcl.1 hc).2 c
      simp only [if_pos c]
      exact ⟨fun ret => by simp [hnc], fun hc => absurd hc hnc, by simp⟩
    · have hc : Callable r := hcl.2 ⟨hr, c⟩
      simp only [if_neg c]
      cases out.succeed <;> simp [hc]

/-- The block an estimate is made on. -/
def EstimateMeans (chain : List Full) : Option BlockId → Option Nat
  | some (.num n) => if n.val < chain.length then some n.val else none
  | _ => some (chain.length - 1)

theorem estimateHeader {A : StateAdapter} {hashOf : Block → H256} {chain : List Full}
    {world : Nat → H160 → Acct} (hA : ReadsState A hashOf chain world) (id : Option BlockId) (n : Nat)
    (f : Full) (h : EstimateMeans chain id = some n) (hf : chain[n]? = some f) :
    A.headerAt (estimateNumber id) = some (some f.block.header) := by
  cases id with
  | none =>
    simp only [EstimateMeans, Option.some.injEq] at h
    rw [show estimateNumber none = none from rfl, hA.headerLatest, h, hf]; rfl
  | some b =>
    cases b with
    | num m =>
      simp only [EstimateMeans] at h
      split at h
      · cases h
        rw [show estimateNumber (some (.num m)) = some m.val from rfl, hA.header, hf]; rfl
      · simp at h
    | hash x | latest | earliest | pending =>
      simp only [EstimateMeans, Option.some.injEq] at h
      simp only [estimateNumber]
      rw [hA.headerLatest, h, hf]; rfl

theorem covers (o : VmOut) : o.total ≤ reported o true ∧ 4 * reported o true ≤ 5 * o.total := by
  have e : reported o true = o.used / 4 + o.used := rfl
  have u : o.used = o.total - min (o.total / 5) o.refund := rfl
  rw [e, u]
  omega

/-- **C102 (part): an estimate covers the run.**  `eth_estimateGas` answers exactly when the request
is served and its run succeeds; the answer is at least the gas the run took before refunds, and at
most a quarter more.  Missing: the answer may not be usable (`C102_cap_false`), may not suffice for
contracts that look at the gas left (`C102_guard_false`), and does not count the access list
(`C102_access_false`). -/
theorem C102_estimate_partial {A : StateAdapter} {hashOf : Block → H256} {chain : List Full}
    {world : Nat → H160 → Acct} (hA : ReadsState A hashOf chain world) (id : Option BlockId) (n : Nat)
    (f : Full) (h : EstimateMeans chain id = some n) (hf : chain[n]? = some f) (r : CallReq) :
    ∃ j, Asks r f.block.header j ∧ ∀ M : Machine, M.opens f.block.header.stateRoot = true →
      ((∃ g, estimate M A r id = .ok g) ↔
        Callable r ∧ (∀ g, r.gas = some g → 21000 ≤ g.val) ∧ (M.run j).succeed = true) ∧
      (∀ g, estimate M A r id = .ok g → (M.run j).total ≤ g ∧ 4 * g ≤ 5 * (M.run j).total) := by
  refine ⟨callJob f.block.header r, asks_callJob r _, fun M hM => ?_⟩
  have hhd := estimateHeader hA id n f h hf
  have hlow : (r.gas.map (·.val)).getD Axon.Admission.minGasLimit < Axon.Admission.minGasLimit ↔
      ¬ ∀ g, r.gas = some g → 21000 ≤ g.val := by
    cases r.gas <;> simp [Axon.Admission.minGasLimit]
  have hest : estimate M A r id =
      if (r.gas.map (·.val)).getD Axon.Admission.minGasLimit < Axon.Admission.minGasLimit then
        .err .gasLimitIsTooLow
      else match refuses r with
      | some e => .err e
      | none => if r.caller = none ∧ r.target = none then .err .internal
        else if (M.run (callJob f.block.header r)).succeed then
          .ok (reported (M.run (callJob f.block.header r)) true) else .err .evm := by
    unfold estimate
    congr 1
    cases hr : refuses r with
    | some e => rfl
    | none =>
      simp only [callEvm]
      by_cases c : r.caller = none ∧ r.target = none
      · simp only [if_pos c, Reply.bind]
      · simp only [if_neg c, callHeader, hhd, Reply.bind, hM, if_true]
  have hcl := callable_iff r
  generalize M.run (callJob f.block.header r) = out at hest ⊢
  rw [hest]
  by_cases cl : (r.gas.map (·.val)).getD Axon.Admission.minGasLimit < Axon.Admission.minGasLimit
  · rw [if_pos cl]
    have := hlow.1 cl
    exact ⟨by simp only [reduceCtorEq, exists_false, false_iff]; exact fun h => this h.2.1, by simp⟩
  rw [if_neg cl]
  have dl : ∀ g, r.gas = some g → 21000 ≤ g.val := by
    rw [hlow] at cl; exact Classical.not_not.1 cl
  cases hr : refuses r with
  | some e =>
    have hnc : ¬ Callable r := fun hc => by simpa [hr] using (hcl.1 hc).1
    exact ⟨by simp [hnc], by simp⟩
  | none =>
    by_cases c : r.caller = none ∧ r.target = none
    · have hnc : ¬ Callable r := fun hc => (hcl.1 hc).2 c
      simp only [if_pos c]
      exact ⟨by simp [hnc], by simp⟩
    · have hc : Callable r := hcl.2 ⟨hr, c⟩
      have hcov := covers out
      simp only [if_neg c]
      cases hs : out.succeed
      · simp
      · simp only [if_true, Reply.ok.injEq]
        refine ⟨⟨fun _ => ⟨hc, dl, trivial⟩, fun _ => ⟨_, rfl⟩⟩, ?_⟩
        rintro g rfl
        exact hcov

/-- A machine whose contracts look neither at the gas left nor at the gas limit of the block: a run
that succeeds goes the same way with every limit that covers what it took. -/
def Oblivious (M : Machine) : Prop :=
  ∀ (j : Job) (limit blockLimit : Nat), (M.run j).succeed = true → (M.run j).total ≤ limit →
    M.run { j with limit := limit, blockGasLimit := blockLimit } = M.run j

/-- The transaction a request describes: sender, target, value, data, gas price, no access list. -/
structure Describes (r : CallReq) (t : SignedTx) : Prop where
  caller : r.caller = some t.sender
  target : ∀ a, r.target = some a ↔ action t.transaction.unsigned = .call a
  value : (r.value.map (·.val)).getD 0 = (value t.transaction.unsigned).val
  data : r.data.getD [] = Axon.Exec.data t.transaction.unsigned
  price : r.gasPrice = some (gasPrice t.transaction.unsigned)
  noMaxFee : r.maxFeePerGas = none
  noChainId : r.chainId = none
  noAccess : accessListOf t.transaction.unsigned = []

theorem txJob_eq {r : CallReq} {t : SignedTx} (hd : Describes r t) (h ctx : Header) (root : H256) :
    { txJob ctx root t with root := h.stateRoot, number := h.number.val, timestamp := h.timestamp.val,
                            coinbase := h.proposer, chainId := h.chainId.val,
                            baseFee := h.baseFeePerGas.val } =
    { callJob h r with limit := (gasLimit t.transaction.unsigned).val,
                       blockGasLimit := ctx.gasLimit.val } := by
  have ht : Axon.Exec.target (action t.transaction.unsigned) = r.target := by
    cases ha : action t.transaction.unsigned with
    | call a => simp [Axon.Exec.target, (hd.target a).2 ha]
    | create =>
      cases hr : r.target with
      | none => rfl
      | some a => have := (hd.target a).1 hr; simp [ha] at this
  simp [txJob, callJob, mockHeader, hd.caller, ht, hd.value, hd.data, hd.price, hd.noMaxFee, hd.noChainId,
    hd.noAccess]

/-- **C102 (part): the estimate suffices.**  A transaction sent with the estimated gas limit, described
by the request and run in the environment and on the state the estimate was made on, succeeds and
returns the same, on machines whose contracts do not look at the gas.  Missing: contracts that do
(`C102_guard_false`), access lists (`C102_access_false`); the state and block a later transaction
finds are others. -/
theorem C102_suffices_partial {A : StateAdapter} {hashOf : Block → H256} {chain : List Full}
    {world : Nat → H160 → Acct} (hA : ReadsState A hashOf chain world) (id : Option BlockId) (n : Nat)
    (f : Full) (h : EstimateMeans chain id = some n) (hf : chain[n]? = some f) (r : CallReq)
    (M : Machine) (hM : M.opens f.block.header.stateRoot = true) (hO : Oblivious M) (g : Nat)
    (hg : estimate M A r id = .ok g) (t : SignedTx) (hd : Describes r t)
    (hl : (gasLimit t.transaction.unsigned).val = g) (ctx : Header)
    (hctx : ctx.number = f.block.header.number ∧ ctx.timestamp = f.block.header.timestamp ∧
      ctx.proposer = f.block.header.proposer ∧ ctx.chainId = f.block.header.chainId ∧
      ctx.baseFeePerGas = f.block.header.baseFeePerGas) :
    (M.run (txJob ctx f.block.header.stateRoot t)).succeed = true ∧
    (M.run (txJob ctx f.block.header.stateRoot t)).total ≤ (gasLimit t.transaction.unsigned).val ∧
    ∃ j, Asks r f.block.header j ∧
      (M.run (txJob ctx f.block.header.stateRoot t)).ret = (M.run j).ret := by
  have key : (M.run (callJob f.block.header r)).succeed = true ∧
      (M.run (callJob f.block.header r)).total ≤ g := by
    have hx := hg
    unfold estimate at hx
    split at hx
    · simp at hx
    · split at hx
      · simp at hx
      · obtain ⟨x, hx1, hx2⟩ := Axon.Api.bind_ok hx
        unfold callEvm at hx1
        split at hx1
        · simp at hx1
        · obtain ⟨hd', hh1, hh2⟩ := Axon.Api.bind_ok hx1
          have : hd' = f.block.header := by
            have hhd := estimateHeader hA id n f h hf
            simp only [callHeader, hhd, Reply.ok.injEq] at hh1
            exact hh1.symm
          subst this
          rw [if_pos hM] at hh2
          cases hh2
          simp only at hx2
          split at hx2
          · rename_i hs
            cases hx2
            exact ⟨hs, (covers _).1⟩
          · simp at hx2
  obtain ⟨h1, h2, h3, h4, h5⟩ := hctx
  have ej : txJob ctx f.block.header.stateRoot t =
      { callJob f.block.header r with limit := g, blockGasLimit := ctx.gasLimit.val } := by
    rw [← hl, ← txJob_eq hd f.block.header ctx f.block.header.stateRoot]
    simp [txJob, h1, h2, h3, h4, h5]
  have er := hO (callJob f.block.header r) g ctx.gasLimit.val key.1 key.2
  rw [ej, er, hl]
  exact ⟨key.1, key.2, _, asks_callJob r _, rfl⟩

/-- **C102 fails: an estimate may be above the limit of the chain.**  A run that takes more than
24 million gas is estimated at more than 30 million; a transaction with that limit is refused by the
pool, and so is a call. -/
theorem C102_cap_false {A : StateAdapter} (r : CallReq) (h : Header) (id : Option BlockId)
    (hA : A.headerAt (estimateNumber id) = some (some h)) (hr : Callable r) (hg : r.gas = none)
    (M : Machine) (hM : M.opens h.stateRoot = true)
    (hrun : (M.run (callJob h r)).succeed = true ∧ (M.run (callJob h r)).refund = 0 ∧
      24000000 < (M.run (callJob h r)).total) :
    ∃ g, estimate M A r id = .ok g ∧ 30000000 < g ∧
      (∀ c t, (gasLimit t.transaction.unsigned).val = g → checkTransaction c t ≠ some (.ok ())) ∧
      ∀ g' id', g'.val = g → call M A { r with gas := some g' } id' = .err .gasLimitIsTooLarge := by
  obtain ⟨hs, hz, ht⟩ := hrun
  have hcl := (callable_iff r).1 hr
  have hbig : 30000000 < reported (M.run (callJob h r)) true := by
    have e : reported (M.run (callJob h r)) true =
      (M.run (callJob h r)).used / 4 + (M.run (callJob h r)).used := rfl
    have u : (M.run (callJob h r)).used = (M.run (callJob h r)).total -
      min ((M.run (callJob h r)).total / 5) (M.run (callJob h r)).refund := rfl
    rw [e, u, hz]
    omega
  refine ⟨reported (M.run (callJob h r)) true, ?_, hbig, ?_, ?_⟩
  · simp only [estimate, hg, Option.map_none, Option.getD_none, Nat.lt_irrefl, if_false, hcl.1, callEvm,
      if_neg hcl.2, callHeader, hA, Reply.bind, hM, if_true, hs]
  · intro c t hl hc
    have := (Axon.Admission.admissible_iff.1 ((Axon.Admission.C24_limits c t).1 hc).1).2.1.2
    rw [hl] at this
    simp only [Axon.Admission.maxGasLimit] at this
    omega
  · intro g' id' hg'
    have : refuses { r with gas := some g' } = some .gasLimitIsTooLarge := by
      unfold refuses
      rw [if_pos (by simp [Axon.Admission.maxGasLimit, hg']; omega)]
    simp only [call, this]

/-- **C102 fails: a quarter more is not always enough.**  A contract that insists on a million gas
being left (as forwarding contracts do) takes little gas itself: the estimate is below what it
insists on, and a call with the estimated gas fails. -/
theorem C102_guard_false {A : StateAdapter} (r : CallReq) (h : Header)
    (hA : A.headerAt none = some (some h)) (hr : Callable r) (hg : r.gas = none)
    (M : Machine) (hM : M.opens h.stateRoot = true)
    (hrun : ∀ j, M.run j = { succeed := decide (1000000 ≤ j.limit), ret := [], total := 30000, refund := 0,
                             changes := [], logs := [] }) :
    estimate M A r none = .ok 37500 ∧
    call M A { r with gas := some ⟨37500, by decide⟩ } none = .err .evm := by
  have hcl := (callable_iff r).1 hr
  have hl : (callJob h r).limit = 30000000 := by simp [callJob, hg, Axon.Admission.maxGasLimit]
  constructor
  · have : estimateNumber none = none := rfl
    simp only [estimate, hg, Option.map_none, Option.getD_none, Nat.lt_irrefl, if_false, hcl.1, callEvm,
      if_neg hcl.2, callHeader, this, hA, Reply.bind, hM, if_true, hrun, hl]
    decide
  · have hc' : Callable { r with gas := some ⟨37500, by decide⟩ } :=
      { gas := fun g e => by cases e; decide, price := hr.price, target := hr.target, named := hr.named }
    have hcl' := (callable_iff _).1 hc'
    simp only [call, hcl'.1, numberById, Option.getD_none, BlockId.toNumber, Reply.bind, callEvm]
    rw [if_neg hcl.2]
    simp [callHeader, hA, Reply.bind, hM, hrun, callJob]

/-- **C102 fails: the access list of a request is dropped.**  Whatever access list (nonce, type,
priority fee) a request carries, the answers are the same; the run of a transaction does get its
list. -/
theorem C102_access_false (M : Machine) (A : StateAdapter) (r : CallReq) (id : Option BlockId)
    (al : Option (List AccessItem)) (nonce : Option U256) (ty : Option U64) (tip : Option U256) :
    let r' := { r with accessList := al, nonce := nonce, transactionType := ty, maxPriorityFeePerGas := tip }
    call M A r' id = call M A r id ∧ estimate M A r' id = estimate M A r id ∧
    ∀ ctx root t, (txJob ctx root t).accessList = accessListOf t.transaction.unsigned :=
  ⟨rfl, rfl, fun _ _ _ => rfl⟩

/-- The consequence for a machine that charges for the list as the protocol does (2400 for an address,
EIP-2930): the transaction with the list and the estimated limit does not get by on it. -/
theorem C102_access_short_false {A : StateAdapter} (r : CallReq) (h ctx : Header) (root : H256)
    (hA : A.headerAt none = some (some h)) (hr : Callable r) (hg : r.gas = none)
    (M : Machine) (hM : M.opens h.stateRoot = true)
    (hrun : ∀ j, (M.run j).total = 21000 + 2400 * j.accessList.length ∧ (M.run j).refund = 0 ∧
      (M.run j).succeed = decide ((M.run j).total ≤ j.limit))
    (t : SignedTx) (ht : (gasLimit t.transaction.unsigned).val = 26250)
    (hl : 3 ≤ (accessListOf t.transaction.unsigned).length) :
    estimate M A r none = .ok 26250 ∧ (M.run (txJob ctx root t)).succeed = false := by
  have hcl := (callable_iff r).1 hr
  constructor
  · have hn : estimateNumber none = none := rfl
    obtain ⟨h1, h2, h3⟩ := hrun (callJob h r)
    have hl : (callJob h r).limit = 30000000 := by simp [callJob, hg, Axon.Admission.maxGasLimit]
    have h0 : (callJob h r).accessList = [] := rfl
    have hs : (M.run (callJob h r)).succeed = true := by simp [h3, h1, hl, h0]
    have hrep : reported (M.run (callJob h r)) true = 26250 := by
      have e : reported (M.run (callJob h r)) true =
        (M.run (callJob h r)).used / 4 + (M.run (callJob h r)).used := rfl
      have u : (M.run (callJob h r)).used = (M.run (callJob h r)).total -
        min ((M.run (callJob h r)).total / 5) (M.run (callJob h r)).refund := rfl
      rw [e, u, h1, h2, h0]
      rfl
    simp only [estimate, hg, Option.map_none, Option.getD_none, Nat.lt_irrefl, if_false, hcl.1, callEvm,
      if_neg hcl.2, callHeader, hn, hA, Reply.bind, hM, if_true, hs, hrep]
  · obtain ⟨h1, -, h3⟩ := hrun (txJob ctx root t)
    have e1 : (txJob ctx root t).accessList = accessListOf t.transaction.unsigned := rfl
    have e2 : (txJob ctx root t).limit = (gasLimit t.transaction.unsigned).val := rfl
    rw [h3, h1, e1, e2, ht]
    simp
    omega

/-- **C102 fails: the request rewrites the environment.**  What a contract sees as base fee, block gas
limit and chain id is what the request says, not what the block says. -/
theorem C102_env_false (h : Header) (r : CallReq) (fee gas chain : U64) :
    let j := callJob h { r with maxFeePerGas := some fee, gas := some gas, chainId := some chain }
    j.baseFee = fee.val ∧ j.blockGasLimit = gas.val ∧ j.chainId = chain.val :=
  ⟨rfl, rfl, rfl⟩

/-! ## Examples -/

namespace Sample

open Axon.Api.Sample (h20 state reads chain block0 block1)

/-- A machine whose runs take 25000 gas, of which a part is refunded, and return the data. -/
def echo : Machine where
  opens _ := true
  run j := { succeed := decide (25000 ≤ j.limit), ret := j.data, total := 25000, refund := 7000,
             changes := [], logs := [] }

theorem echo_oblivious : Oblivious echo := by
  intro j limit _ _ hl
  have : 25000 ≤ j.limit := by simp_all [echo]
  have hl' : 25000 ≤ limit := hl
  simp [echo, this, hl']

def req : CallReq :=
  { caller := some (h20 1), target := some (h20 3), data := some [1, 2], gasPrice := some ⟨9, by decide⟩ }

theorem req_callable : Callable req where
  gas := by simp [req]
  price p e := by simp [req] at e; subst e; decide
  target a b e := by
    simp [req] at e
    subst e
    intro hb
    exact absurd (congrArg (·.headD 0) hb) (by simp [h20])
  named := by simp [req]

example : call echo state req (some .earliest) = .ok [1, 2] ∧
    estimate echo state req none = .ok 25000 ∧
    call echo state { req with gas := some ⟨24999, by decide⟩ } none = .err .evm ∧
    call echo state { req with gas := some ⟨30000001, by decide⟩ } none = .err .gasLimitIsTooLarge ∧
    estimate echo state { req with gas := some ⟨20999, by decide⟩ } none = .err .gasLimitIsTooLow ∧
    call echo state { req with target := some ⟨List.replicate 20 0xff, by decide⟩ } none =
      .err .callSystemContract ∧
    call echo state { req with caller := none, target := none } none = .err .internal := by
  decide +kernel

/-- A transaction described by the request, with the estimated limit: the hypotheses of
`C102_suffices_partial`. -/
def tx : SignedTx :=
  { transaction :=
      { unsigned := .legacy ⟨⟨0, by decide⟩, ⟨9, by decide⟩, ⟨25000, by decide⟩, .call (h20 3), ⟨0, by decide⟩, [1, 2]⟩
        signature := none
        chainId := none }
    sender := h20 1
    pub := none }

example : Describes req tx where
  caller := rfl
  target a := by simp [req, tx, action]
  value := rfl
  data := rfl
  price := rfl
  noMaxFee := rfl
  noChainId := rfl
  noAccess := rfl

/-- The hypotheses of `C102_cap_false`. -/
example : ∃ g, estimate { echo with run := fun j => { echo.run j with total := 25000000, refund := 0 } }
    state req none = .ok g ∧ 30000000 < g :=
  ⟨31250000, by decide +kernel, by decide⟩

example : Means Axon.Api.Sample.hashOf chain (some .earliest) = some 0 ∧
    EstimateMeans chain (some .earliest) = some 1 := by decide +kernel

end Sample

end Axon.Api.Calls
