import Verif.Api.Transaction
import Verif.Api.ReceiptProps
import Verif.Mempool.IdentityProps

/-!
# C99: a reported transaction is the transaction

Specification: how a client reads a transaction object of the Ethereum JSON-RPC interface.
-/

namespace Axon.Api

open Axon Axon.Block Axon.Admission Axon.Tx

/-- The bytes of half a signature. -/
def halfBytes : Half → Bytes
  | .number n => beFixed 32 n.val
  | .hex b => b

/-- How EIP-155 reads `v`: recovery id and chain id. -/
def readV (v : Nat) : Option (Nat × Option Nat) :=
  if v = 27 then some (0, none)
  else if v = 28 then some (1, none)
  else if 35 ≤ v then some ((v - 35) % 2, some ((v - 35) / 2))
  else none

/-- The target of a transaction object. -/
def readTo : Option H160 → Action
  | some a => .call a
  | none => .create

/-- A client's reading of a transaction object by the Ethereum JSON-RPC specification: for type 0 `v` is read
by EIP-155, for types 1 and 2 it is the recovery id, and type 2 has `maxFeePerGas` and `maxPriorityFeePerGas`
instead of `gasPrice`. -/
def read (w : Web3Tx) : Option Unverified :=
  if w.type_ = 0 then
    (readV w.v).bind fun (p, c) =>
      (UIntN.ofNat? 8 p).bind fun p =>
        (match c with | none => some none | some c => (UIntN.ofNat? 64 c).map some).map fun c =>
          { unsigned := .legacy ⟨w.nonce, w.gasPrice, w.gas, readTo w.to, w.value, w.input⟩
            signature := some ⟨halfBytes w.r, halfBytes w.s, p⟩, chainId := c }
  else if w.v ≤ 1 then
    (UIntN.ofNat? 8 w.v).bind fun p =>
      w.accessList.bind fun al =>
        let sig : Option Sig := some ⟨halfBytes w.r, halfBytes w.s, p⟩
        if w.type_ = 1 then
          some { unsigned := .eip2930 ⟨w.nonce, w.gasPrice, w.gas, readTo w.to, w.value, w.input, al⟩
                 signature := sig, chainId := w.chainId }
        else if w.type_ = 2 then
          w.maxFeePerGas.bind fun fee => (UIntN.ofNat? 64 fee).bind fun fee =>
            w.maxPriorityFeePerGas.map fun prio =>
              { unsigned := .eip1559 ⟨w.nonce, prio, fee, w.gas, readTo w.to, w.value, w.input, al⟩
                signature := sig, chainId := w.chainId }
        else none
  else none

/-- What the property asks for. -/
def SameTx (x : Known) (w : Web3Tx) : Prop := read w = some x.stx.transaction

/-! ## Helpers -/

theorem half_number {b : Bytes} (h : b.length = 32) : halfBytes (.number (u256OfSlice b)) = b := by
  have h1 : b.take 32 = b := List.take_of_length_le (by omega)
  have := beFixed_beNat b
  rw [h] at this
  simp only [halfBytes, u256OfSlice, h1, this]

theorem readTo_toOf (u : Unsigned) : readTo (toOf u) = action u := by
  unfold toOf readTo
  cases action u <;> rfl

theorem ofNat?_val {n : Nat} (x : UIntN n) : UIntN.ofNat? n x.val = some x := by
  unfold UIntN.ofNat?
  rw [dif_pos x.lt]

/-- The signature of a decoded transaction is reported completely. -/
theorem halves_wf {sg : Sig} (h : sg.Wf) : ∃ r s, halves sg = .ok (r, s) ∧ halfBytes r = sg.r ∧ halfBytes s = sg.s := by
  unfold halves
  by_cases he : sg.isEth = true
  · have hlen : sg.r.length = 32 ∧ sg.s.length = 32 := by
      simp only [Sig.isEth, beq_iff_eq] at he
      rcases h with h | h <;> omega
    refine ⟨.number (u256OfSlice sg.r), .number (u256OfSlice sg.s), ?_, half_number hlen.1, half_number hlen.2⟩
    simp [he, u256From, hlen, Outcome.bind]
  · exact ⟨.hex sg.r, .hex sg.s, by simp [he], rfl, rfl⟩

/-- All about an answer. -/
structure Shown (x : Known) (sg : Sig) (w : Web3Tx) : Prop where
  sig : x.stx.transaction.signature = some sg
  type_ : w.type_ = typeOf x.stx.transaction.unsigned
  place : w.blockNumber = none ∧ w.blockHash = none ∧ w.transactionIndex = none
  hash : w.hash = x.hash
  nonce : w.nonce = nonce x.stx.transaction.unsigned
  sender : w.sender = x.stx.sender
  to : w.to = toOf x.stx.transaction.unsigned
  value : w.value = value x.stx.transaction.unsigned
  gas : w.gas = gasLimit x.stx.transaction.unsigned
  gasPrice : w.gasPrice = gasPrice x.stx.transaction.unsigned
  input : w.input = dataOf x.stx.transaction.unsigned
  publicKey : w.publicKey = x.stx.pub
  accessList : w.accessList = some (accessListOf x.stx.transaction.unsigned)
  chainId : w.chainId = x.stx.transaction.chainId
  raw : encodeTx x.stx.transaction = some w.raw
  r : halfBytes w.r = sg.r
  s : halfBytes w.s = sg.s
  v : ∃ u, addReplay sg.standardV x.stx.transaction.chainId = some u ∧ w.v = u.val
  fee : w.maxFeePerGas = match x.stx.transaction.unsigned with | .eip1559 _ => some 1337 | _ => none
  priority : w.maxPriorityFeePerGas = match x.stx.transaction.unsigned with | .eip1559 t => some t.maxPriorityFee | _ => none

theorem shown_of {x : Known} (ht : Submittable x.stx.transaction) {w : Web3Tx} (hw : web3Tx x = .ok w) :
    ∃ sg, Shown x sg w := by
  obtain ⟨⟨sg, hsig, hwf, _⟩, _⟩ := ht
  refine ⟨sg, ?_⟩
  unfold web3Tx at hw
  simp only [hsig, Option.getD_some] at hw
  cases hv : addReplay sg.standardV x.stx.transaction.chainId with
  | none => rw [hv] at hw; cases hw
  | some u =>
    rw [hv] at hw
    obtain ⟨r, s, hh, hr, hs⟩ := halves_wf hwf
    simp only [hh, Outcome.bind] at hw
    cases he : encodeTx x.stx.transaction with
    | none => rw [he] at hw; cases hw
    | some raw =>
      rw [he] at hw
      cases hw
      refine ⟨hsig, rfl, ⟨rfl, rfl, rfl⟩, rfl, rfl, rfl, rfl, rfl, rfl, rfl, rfl, rfl, rfl, rfl, he, hr, hs,
        ⟨u, hv, rfl⟩, ?_, ?_⟩
      · cases x.stx.transaction.unsigned <;> rfl
      · cases x.stx.transaction.unsigned <;> rfl

theorem addReplay_val {v : U8} {c : Option U64} {u : U64} (h : addReplay v c = some u) :
    u.val = v.val + (c.elim 27 fun c => c.val * 2 + 35) := by
  unfold addReplay at h
  cases c with
  | none =>
    simp only [UIntN.ofNat?] at h
    split at h
    · cases h; rfl
    · cases h
  | some c =>
    simp only [UIntN.ofNat?] at h
    split at h
    · cases h; rfl
    · cases h

theorem readV_addReplay {v : U8} {c : Option U64} {u : U64} (hv : v.val ≤ 1) (h : addReplay v c = some u) :
    readV u.val = some (v.val, c.map (·.val)) := by
  have h1 := addReplay_val h
  unfold readV
  cases c with
  | none =>
    simp only [Option.elim] at h1
    by_cases h0 : v.val = 0
    · rw [if_pos (by omega), h0]; rfl
    · rw [if_neg (by omega), if_pos (by omega)]
      have : v.val = 1 := by omega
      rw [this]; rfl
  | some c =>
    simp only [Option.elim] at h1
    rw [if_neg (by omega), if_neg (by omega), if_pos (by omega)]
    have e1 : (u.val - 35) % 2 = v.val := by omega
    have e2 : (u.val - 35) / 2 = c.val := by omega
    rw [e1, e2]
    rfl

/-! ## C99 -/

/-- A legacy transaction is reported faithfully, and nothing can go wrong on the way. -/
theorem C99_legacy (k : Keys) {raw : Bytes} {x : Known} (h : fromPeer k raw = .ok x) (tx : LegacyTx)
    (hl : x.stx.transaction.unsigned = .legacy tx) : ∃ w, web3Tx x = .ok w ∧ SameTx x w := by
  obtain ⟨d, _, _⟩ := fromPeer_ok h
  obtain ⟨hsub, e, _, he, _⟩ := C02_canonical _ _ d
  obtain ⟨sg, hsig, hwf, hv⟩ := hsub.signed
  have hv := hv tx hl
  have : ∃ u, addReplay sg.standardV x.stx.transaction.chainId = some u := by
    unfold encodeTx at he
    rw [hl] at he
    simp only [legacyFields, hsig, Option.map_map] at he
    cases hx : addReplay sg.standardV x.stx.transaction.chainId with
    | none => rw [hx] at he; cases he
    | some u => exact ⟨u, rfl⟩
  obtain ⟨u, hu⟩ := this
  obtain ⟨r, s, hh, _, _⟩ := halves_wf hwf
  have hok : ∃ w, web3Tx x = .ok w := by
    unfold web3Tx
    simp only [hsig, Option.getD_some, hu, hh, Outcome.bind, he]
    exact ⟨_, rfl⟩
  obtain ⟨w, hw⟩ := hok
  refine ⟨w, hw, ?_⟩
  obtain ⟨sg', sh⟩ := shown_of hsub hw
  have : sg' = sg := by have := sh.sig; rw [hsig] at this; cases this; rfl
  subst this
  obtain ⟨u', hu', hwv⟩ := sh.v
  unfold SameTx read
  rw [if_pos (by rw [sh.type_, hl]; rfl), hwv, readV_addReplay hv hu']
  simp only [Option.bind_some, ofNat?_val, sh.nonce, sh.gasPrice, sh.gas, sh.to, sh.value, sh.input, sh.r, sh.s,
    readTo_toOf]
  have hc : (match x.stx.transaction.chainId.map (·.val) with
      | none => some none | some c => (UIntN.ofNat? 64 c).map some) = some x.stx.transaction.chainId := by
    cases x.stx.transaction.chainId with
    | none => rfl
    | some c => simp [ofNat?_val]
  rw [hc]
  simp only [Option.map_some, Option.some.injEq]
  generalize x.stx.transaction = t at *
  obtain ⟨un, si, ch⟩ := t
  simp only at hl hsig
  subst hl hsig
  simp [nonce, gasPrice, gasLimit, action, value, dataOf]

/-- What is reported of any transaction: its type, hash, nonce, sender, target, amount, gas, the price it pays,
input, access list, chain id, signature and key; `raw` decodes to it, and no place is claimed.  Missing: the
recovery id and the maximum fee of typed transactions (`C99_v_false`, `C99_fee_false`). -/
theorem C99_fields_partial (k : Keys) {raw : Bytes} {x : Known} (h : fromPeer k raw = .ok x) (hlen : raw.length < 2 ^ 64)
    {w : Web3Tx} (hw : web3Tx x = .ok w) :
    ∃ sg, Shown x sg w ∧ decodeTx w.raw = .ok x.stx.transaction := by
  obtain ⟨d, _, _⟩ := fromPeer_ok h
  obtain ⟨hsub, e, rest, he, hr⟩ := C02_canonical _ _ d
  obtain ⟨sg, sh⟩ := shown_of hsub hw
  refine ⟨sg, sh, C02_roundtrip _ hsub _ sh.raw ?_⟩
  have := sh.raw
  rw [he] at this
  cases this
  rw [hr] at hlen
  simp at hlen
  omega

/-- Apart from `v` and the maximum fee typed transactions are faithful too: with the recovery id in place of the
reported `v`, a transaction of type 1 is read back, and one of type 2 exactly if its maximum fee is 1337. -/
theorem C99_typed_partial (k : Keys) {raw : Bytes} {x : Known} (h : fromPeer k raw = .ok x) {w : Web3Tx}
    (hw : web3Tx x = .ok w) {sg : Sig} (hsig : x.stx.transaction.signature = some sg) (hv : sg.standardV.val ≤ 1) :
    (∀ tx, x.stx.transaction.unsigned = .eip2930 tx → SameTx x { w with v := sg.standardV.val }) ∧
    (∀ tx, x.stx.transaction.unsigned = .eip1559 tx →
      (SameTx x { w with v := sg.standardV.val } ↔ tx.gasPrice.val = 1337)) := by
  obtain ⟨d, _, _⟩ := fromPeer_ok h
  obtain ⟨hsub, -⟩ := C02_canonical _ _ d
  obtain ⟨sg', sh⟩ := shown_of hsub hw
  have : sg' = sg := by have := sh.sig; rw [hsig] at this; cases this; rfl
  subst this
  constructor
  · intro tx hu
    unfold SameTx read
    simp only
    rw [if_neg (by rw [sh.type_, hu]; simp [typeOf]), if_pos hv]
    simp only [ofNat?_val, Option.bind_some, sh.accessList]
    rw [if_pos (by rw [sh.type_, hu]; rfl)]
    simp only [sh.nonce, sh.gasPrice, sh.gas, sh.to, sh.value, sh.input, sh.r, sh.s, readTo_toOf, sh.chainId,
      Option.some.injEq]
    generalize x.stx.transaction = t at *
    obtain ⟨un, si, ch⟩ := t
    simp only at hu hsig
    subst hu hsig
    simp [nonce, gasPrice, gasLimit, action, value, dataOf, accessListOf]
  · intro tx hu
    unfold SameTx read
    simp only
    rw [if_neg (by rw [sh.type_, hu]; simp [typeOf]), if_pos hv]
    simp only [ofNat?_val, Option.bind_some, sh.accessList]
    rw [if_neg (by rw [sh.type_, hu]; simp [typeOf]), if_pos (by rw [sh.type_, hu]; rfl)]
    simp only [sh.fee, sh.priority, hu, Option.bind_some, Option.map_some]
    have h1337 : UIntN.ofNat? 64 1337 = some ⟨1337, by decide⟩ := by rfl
    rw [h1337]
    simp only [Option.bind_some, sh.nonce, sh.gas, sh.to, sh.value, sh.input, sh.r, sh.s, readTo_toOf, sh.chainId,
      Option.some.injEq]
    generalize x.stx.transaction = t at *
    obtain ⟨un, si, ch⟩ := t
    simp only at hu hsig
    subst hu hsig
    simp only [nonce, gasLimit, action, value, dataOf, accessListOf, Unverified.mk.injEq, Unsigned.eip1559.injEq,
      and_true]
    obtain ⟨n, mp, gp, gl, ac, va, da, al⟩ := tx
    simp only [Eip1559Tx.mk.injEq, true_and, and_true]
    constructor
    · rintro rfl; rfl
    · intro e
      cases gp
      simp only at e
      subst e
      rfl

/-- C99 is false of typed transactions: `v` is reported as if they were legacy ones, so a client cannot read
them. -/
theorem C99_v_false (k : Keys) {raw : Bytes} {x : Known} (h : fromPeer k raw = .ok x) {w : Web3Tx}
    (hw : web3Tx x = .ok w) (ht : ∀ tx, x.stx.transaction.unsigned ≠ .legacy tx) : 35 ≤ w.v ∧ read w = none := by
  obtain ⟨d, _, _⟩ := fromPeer_ok h
  obtain ⟨hsub, -⟩ := C02_canonical _ _ d
  obtain ⟨sg, sh⟩ := shown_of hsub hw
  obtain ⟨c, hc⟩ := hsub.chain ht
  obtain ⟨u, hu, hwv⟩ := sh.v
  have := addReplay_val hu
  rw [hc] at this
  simp only [Option.elim] at this
  have h35 : 35 ≤ w.v := by omega
  refine ⟨h35, ?_⟩
  unfold read
  rw [if_neg, if_neg (by omega)]
  rw [sh.type_]
  cases hq : x.stx.transaction.unsigned with
  | legacy tx => exact absurd hq (ht tx)
  | eip2930 tx => simp [typeOf]
  | eip1559 tx => simp [typeOf]

/-- C99 is false of type 2: whatever the maximum fee, 1337 is reported. -/
theorem C99_fee_false (k : Keys) {raw : Bytes} {x : Known} (h : fromPeer k raw = .ok x) {w : Web3Tx}
    (hw : web3Tx x = .ok w) (tx : Eip1559Tx) (hu : x.stx.transaction.unsigned = .eip1559 tx) :
    w.maxFeePerGas = some 1337 := by
  obtain ⟨d, _, _⟩ := fromPeer_ok h
  obtain ⟨hsub, -⟩ := C02_canonical _ _ d
  obtain ⟨sg, sh⟩ := shown_of hsub hw
  rw [sh.fee, hu]

/-- A received transaction can be reported unless its chain id is too large for `v`. -/
theorem C99_total_iff (k : Keys) {raw : Bytes} {x : Known} (h : fromPeer k raw = .ok x) {sg : Sig}
    (hsig : x.stx.transaction.signature = some sg) :
    (∃ w, web3Tx x = .ok w) ↔
      ∀ c, x.stx.transaction.chainId = some c → sg.standardV.val + (c.val * 2 + 35) < 2 ^ 64 := by
  obtain ⟨d, _, _⟩ := fromPeer_ok h
  obtain ⟨hsub, e, _, he, _⟩ := C02_canonical _ _ d
  obtain ⟨sg', hsig', hwf, _⟩ := hsub.signed
  rw [hsig] at hsig'
  cases hsig'
  obtain ⟨r, s, hh, _, _⟩ := halves_wf hwf
  have key : (∃ w, web3Tx x = .ok w) ↔ ∃ u, addReplay sg.standardV x.stx.transaction.chainId = some u := by
    unfold web3Tx
    simp only [hsig, Option.getD_some, hh, Outcome.bind, he]
    cases addReplay sg.standardV x.stx.transaction.chainId <;> simp
  rw [key]
  unfold addReplay UIntN.ofNat?
  cases x.stx.transaction.chainId with
  | none =>
    have := sg.standardV.lt
    simp only [reduceCtorEq, false_imp_iff, implies_true, iff_true]
    exact ⟨⟨sg.standardV.val + 27, by omega⟩, by rw [dif_pos]⟩
  | some c =>
    simp only [Option.some.injEq, forall_eq']
    constructor
    · rintro ⟨u, hu⟩
      split at hu
      · assumption
      · cases hu
    · intro hc
      exact ⟨_, dif_pos hc⟩

/-- C99 is false of a chain whose id exceeds 63 bits: reporting any typed transaction of it stops the node. -/
theorem C99_panic_false (k : Keys) {raw : Bytes} {x : Known} (h : fromPeer k raw = .ok x) {c : U64}
    (hc : x.stx.transaction.chainId = some c) (hbig : 2 ^ 63 ≤ c.val) : web3Tx x = .panic := by
  obtain ⟨d, _, _⟩ := fromPeer_ok h
  obtain ⟨hsub, e, _, he, _⟩ := C02_canonical _ _ d
  obtain ⟨sg, hsig, hwf, _⟩ := hsub.signed
  unfold web3Tx
  simp only [hsig, Option.getD_some, hc]
  have : addReplay sg.standardV (some c) = none := by
    unfold addReplay UIntN.ofNat?
    simp only
    rw [dif_neg (by omega)]
  rw [this]

/-! ## The place in the chain -/

/-- The transactions of a block, each reported at its position. -/
theorem richTxs_ok (A : TxSource) (number : Nat) (hash : H256) : ∀ (hs : List H256) (i : Nat) (ws : List Web3Tx),
    richTxs A number hash i hs = .ok ws ↔
      ws.length = hs.length ∧ ∀ j h, hs[j]? = some h →
        ∃ x w, A.tx h = some (some x) ∧ web3Tx x = .ok w ∧ ws[j]? = some (w.place number hash (i + j)) := by
  intro hs
  induction hs with
  | nil =>
    intro i ws
    simp only [richTxs, List.length_nil, List.getElem?_nil, reduceCtorEq, false_imp_iff, implies_true, and_true]
    constructor
    · intro h; cases h; rfl
    · intro h; rw [List.eq_nil_of_length_eq_zero h]
  | cons a hs ih =>
    intro i ws
    constructor
    · intro h
      unfold richTxs at h
      cases ht : A.tx a with
      | none => rw [ht] at h; cases h
      | some o =>
        cases o with
        | none => rw [ht] at h; cases h
        | some x =>
          rw [ht] at h
          simp only [Reply.internal, Reply.unwrap, Reply.bind] at h
          cases hw : web3Tx x with
          | err => rw [hw] at h; cases h
          | panic => rw [hw] at h; cases h
          | ok w =>
            rw [hw] at h
            simp only [Reply.ofOutcome] at h
            cases hr : richTxs A number hash (i + 1) hs with
            | err e => rw [hr] at h; cases h
            | panic => rw [hr] at h; cases h
            | ok ws' =>
              rw [hr] at h
              cases h
              obtain ⟨h1, h2⟩ := (ih _ _).1 hr
              refine ⟨by simp [h1], ?_⟩
              intro j b hj
              cases j with
              | zero =>
                simp only [List.getElem?_cons_zero, Option.some.injEq] at hj
                subst hj
                exact ⟨x, w, ht, hw, by simp⟩
              | succ j =>
                simp only [List.getElem?_cons_succ] at hj
                obtain ⟨y, v, e1, e2, e3⟩ := h2 j b hj
                exact ⟨y, v, e1, e2, by simp only [List.getElem?_cons_succ]; rw [e3]; congr 2; omega⟩
    · rintro ⟨hlen, hall⟩
      cases ws with
      | nil => simp at hlen
      | cons w0 ws' =>
        obtain ⟨x, w, e1, e2, e3⟩ := hall 0 a rfl
        simp only [List.getElem?_cons_zero, Option.some.injEq, Nat.add_zero] at e3
        have : richTxs A number hash (i + 1) hs = .ok ws' := by
          refine (ih _ _).2 ⟨by simpa using hlen, ?_⟩
          intro j b hj
          obtain ⟨y, v, f1, f2, f3⟩ := hall (j + 1) b (by simpa using hj)
          refine ⟨y, v, f1, f2, ?_⟩
          simp only [List.getElem?_cons_succ] at f3
          rw [f3]
          congr 2
          omega
        unfold richTxs
        rw [e1, this]
        simp only [Reply.internal, Reply.unwrap, Reply.bind, e2, Reply.ofOutcome]
        rw [e3]

/-- A transaction is reported alike by its hash and within its block: if the receipts of a block are those
generated when it was executed, the answer for each of its hashes is what the block shows at that position, with
the block's number and hash and that position. -/
theorem C99_place (H : Bytes → H256) (A : TxSource) (e : Executed) (hashes : List H256)
    (hids : e.ids.map (·.hash) = hashes)
    (hrec : ∀ (rs : List Rcpt) ls, Bloom.generateReceipts H e.ctx e.ids e.resps = .ok (rs, ls) →
      ∀ (i : Nat) (h : H256), hashes[i]? = some h → A.receipt h = some (rs[i]?))
    {ws : List Web3Tx} (hrich : richTxs A e.ctx.number.val e.ctx.hash 0 hashes = .ok ws) (i : Nat) (h : H256)
    (hi : hashes[i]? = some h) :
    ∃ w, ws[i]? = some w ∧ getTransactionByHash A h = .ok (some w) ∧ w.blockNumber = some e.ctx.number.val ∧
      w.blockHash = some e.ctx.hash ∧ w.transactionIndex = some i := by
  obtain ⟨_, hall⟩ := (richTxs_ok _ _ _ _ _ _).1 hrich
  obtain ⟨x, w, e1, e2, e3⟩ := hall i h hi
  rw [Nat.zero_add] at e3
  refine ⟨_, e3, ?_, rfl, rfl, rfl⟩
  have l1 := e.lenIds
  have l2 := e.lenResps
  have l3 := e.fewTxs
  obtain ⟨rs, ls, hg, _, _, hd⟩ := Bloom.C81_receipts H e.ctx e.ids e.resps (by omega) (by omega) e.fewLogs
  have hid : ∃ id, e.ids[i]? = some id := by
    rw [← hids, List.getElem?_map] at hi
    cases hx : e.ids[i]? with
    | none => rw [hx] at hi; cases hi
    | some id => exact ⟨id, rfl⟩
  obtain ⟨id, hid⟩ := hid
  have hresp : ∃ r, e.resps[i]? = some r := by
    have : i < e.ids.length := by
      rcases Nat.lt_or_ge i e.ids.length with h1 | h1
      · exact h1
      · rw [List.getElem?_eq_none h1] at hid; cases hid
    exact ⟨e.resps[i]'(by omega), List.getElem?_eq_getElem _⟩
  obtain ⟨resp, hresp⟩ := hresp
  obtain ⟨r, hr, hdesc⟩ := hd i id resp hid hresp
  have hrc := hrec rs ls hg i h hi
  rw [hr] at hrc
  unfold getTransactionByHash
  simp only [e1, Reply.internal, Reply.bind, e2, Reply.ofOutcome, hrc]
  have := hdesc.blockNumber
  have := hdesc.blockHash
  have := hdesc.txIndex
  simp [*]

/-- A transaction that is only in the pool is reported without a place. -/
theorem C99_pending (A : TxSource) (h : H256) {x : Known} {w : Web3Tx} (hx : A.pool h = some x)
    (hw : web3Tx x = .ok w) (hr : A.receipt h = some none) :
    getTransactionByHash A h = .ok (some w) ∧ w.blockNumber = none ∧ w.blockHash = none ∧ w.transactionIndex = none := by
  have : w.blockNumber = none ∧ w.blockHash = none ∧ w.transactionIndex = none := by
    unfold web3Tx at hw
    simp only at hw
    split at hw
    · cases hw
    · obtain ⟨p, _, hw⟩ := bind_ok hw
      split at hw
      · cases hw
      · cases hw; exact ⟨rfl, rfl, rfl⟩
  refine ⟨?_, this⟩
  unfold getTransactionByHash
  simp only [TxSource.tx, hx, Reply.internal, Reply.bind, hw, Reply.ofOutcome, hr]

/-- Nothing is reported of a transaction that is neither in the pool nor stored. -/
theorem C99_unknown (A : TxSource) (h : H256) (hp : A.pool h = none) (hst : A.stored h = some none) :
    getTransactionByHash A h = .ok none := by
  unfold getTransactionByHash
  simp only [TxSource.tx, hp, hst, Reply.internal, Reply.bind]

/-- C99 is false where a block names a transaction that can no longer be read: asking for the block with its
transactions stops the node. -/
theorem C99_missing_false (A : TxSource) (number : Nat) (hash : H256) (i : Nat) (h : H256) (hs : List H256)
    (hp : A.pool h = none) (hst : A.stored h = some none) : richTxs A number hash i (h :: hs) = .panic := by
  unfold richTxs
  simp only [TxSource.tx, hp, hst, Reply.internal, Reply.unwrap, Reply.bind]

/-- C99 is false of a transaction received with bytes behind it: read back from storage it is reported under
another hash than the one asked for. -/
theorem C99_hash_false (k : Keys) {raw : Bytes} {x y : Known} (hx : fromPeer k raw = .ok x) (hl : raw.length < 2 ^ 64)
    (hj : encodeTx x.stx.transaction ≠ some raw)
    (hc : ∀ e, encodeTx x.stx.transaction = some e → ¬ Collide k e raw) (A : TxSource) (hp : A.pool x.hash = none)
    (hy : relay k x = .ok y) (hst : A.stored x.hash = some (some y)) {w : Web3Tx}
    (hw : getTransactionByHash A x.hash = .ok (some w)) : w.hash ≠ x.hash := by
  have hne : y.hash ≠ x.hash := by
    intro he
    obtain ⟨e, he', h'⟩ := (C98_relay_iff k hl hx hy).1 he
    rcases h' with h' | h'
    · rw [h'] at he'; exact hj he'
    · exact hc e he' h'
  unfold getTransactionByHash at hw
  simp only [TxSource.tx, hp, hst, Reply.internal, Reply.bind] at hw
  cases hz : web3Tx y with
  | err => rw [hz] at hw; cases hw
  | panic => rw [hz] at hw; cases hw
  | ok v =>
    rw [hz] at hw
    simp only [Reply.ofOutcome] at hw
    have hv : v.hash = y.hash := by
      unfold web3Tx at hz
      simp only at hz
      split at hz
      · cases hz
      · obtain ⟨p, _, hz⟩ := bind_ok hz
        split at hz
        · cases hz
        · cases hz; rfl
    cases hrc : A.receipt x.hash with
    | none => rw [hrc] at hw; cases hw
    | some o =>
      rw [hrc] at hw
      cases o with
      | none => cases hw; rw [hv]; exact hne
      | some rc => cases hw; show v.hash ≠ x.hash; rw [hv]; exact hne

/-! ## Concrete cases -/

/-- The sample transaction (type 2, recovery id 1, chain 2022, maximum fee 9, tip 5): its recovery id is reported
as 4080 and its maximum fee as 1337. -/
example : (match web3Tx ⟨sampleTx, sampleHash 3⟩ with
    | .ok w => some (w.type_, w.v, w.maxFeePerGas, w.gasPrice.val, w.raw == sampleRaw, read w == none)
    | _ => none) = some (2, 4080, some 1337, 9, true, true) := by decide +kernel

/-- A legacy transaction with a chain id and one without. -/
def sampleLegacy (c : Option U64) : Known :=
  ⟨{ transaction :=
      { unsigned := .legacy ⟨⟨7, by decide⟩, ⟨5, by decide⟩, ⟨21000, by decide⟩, .create, ⟨0, by decide⟩, [1, 2, 3]⟩
        signature := some { r := List.replicate 32 5, s := List.replicate 32 6, standardV := ⟨1, by decide⟩ }
        chainId := c }
     sender := ⟨List.replicate 20 7, rfl⟩, pub := some [] }, sampleHash 4⟩

example : (match web3Tx (sampleLegacy (some ⟨2022, by decide⟩)) with
    | .ok w => read w
    | _ => none) = some (sampleLegacy (some ⟨2022, by decide⟩)).stx.transaction ∧
    (match web3Tx (sampleLegacy none) with
    | .ok w => read w
    | _ => none) = some (sampleLegacy none).stx.transaction := by decide +kernel

end Axon.Api
