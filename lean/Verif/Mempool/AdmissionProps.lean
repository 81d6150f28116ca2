import Verif.Mempool.Admission
import Verif.Codec.TxProps

/-!
# C24, C57, C58: admission limits, received bytes, authorisation
-/

namespace Axon.Admission
open Axon.Tx Axon.Assoc

/-! ## Specification -/

/-- The price a transaction offers, given by its own fields. -/
inductive Offers : Unsigned → Nat → Prop
  | legacy (tx : LegacyTx) : Offers (.legacy tx) tx.gasPrice.val
  | eip2930 (tx : Eip2930Tx) : Offers (.eip2930 tx) tx.gasPrice.val
  | eip1559 (tx : Eip1559Tx) : Offers (.eip1559 tx) (max tx.gasPrice.val tx.maxPriorityFee.val)

/-- The gas limit field. -/
inductive Limits : Unsigned → Nat → Prop
  | legacy (tx : LegacyTx) : Limits (.legacy tx) tx.gasLimit.val
  | eip2930 (tx : Eip2930Tx) : Limits (.eip2930 tx) tx.gasLimit.val
  | eip1559 (tx : Eip1559Tx) : Limits (.eip1559 tx) tx.gasLimit.val

/-- What the stateless checks are meant to enforce. -/
structure Admissible (chain : U64) (maxSize : Nat) (t : Unverified) : Prop where
  price : ∃ p, Offers t.unsigned p ∧ 0 < p ∧ p < 500000000000
  limit : ∃ l, Limits t.unsigned l ∧ 21000 ≤ l ∧ l ≤ 30000000
  size : ∃ bs, encodeTx t = some bs ∧ bs.length ≤ maxSize
  chain : ∀ c, t.chainId = some c → c = chain

theorem offers_iff {u : Unsigned} {p : Nat} : Offers u p ↔ p = (gasPrice u).val := by
  constructor
  · intro h
    cases h <;> simp only [gasPrice]
    split <;> omega
  · rintro rfl
    cases u with
    | legacy tx => exact .legacy tx
    | eip2930 tx => exact .eip2930 tx
    | eip1559 tx =>
      have : (gasPrice (.eip1559 tx)).val = max tx.gasPrice.val tx.maxPriorityFee.val := by
        simp only [gasPrice]; split <;> omega
      rw [this]; exact .eip1559 tx

theorem limits_iff {u : Unsigned} {l : Nat} : Limits u l ↔ l = (gasLimit u).val := by
  constructor
  · intro h; cases h <;> rfl
  · rintro rfl
    cases u with
    | legacy tx => exact .legacy tx
    | eip2930 tx => exact .eip2930 tx
    | eip1559 tx => exact .eip1559 tx

theorem admissible_iff {chain : U64} {maxSize : Nat} {t : Unverified} :
    Admissible chain maxSize t ↔
      ((gasPrice t.unsigned).val ≠ 0 ∧ (gasPrice t.unsigned).val < maxGasPrice) ∧
      (minGasLimit ≤ (gasLimit t.unsigned).val ∧ (gasLimit t.unsigned).val ≤ maxGasLimit) ∧
      (∃ bs, encodeTx t = some bs ∧ bs.length ≤ maxSize) ∧
      ¬ (t.chainId.isSome ∧ some chain ≠ t.chainId) := by
  constructor
  · rintro ⟨⟨p, hp, h1, h2⟩, ⟨l, hl, h3, h4⟩, h5, h6⟩
    rw [offers_iff] at hp; rw [limits_iff] at hl
    subst hp hl
    refine ⟨⟨by omega, by unfold maxGasPrice; omega⟩, ⟨h3, h4⟩, h5, ?_⟩
    rintro ⟨h7, h8⟩
    obtain ⟨c, hc⟩ := Option.isSome_iff_exists.1 h7
    exact h8 (by rw [hc, h6 c hc])
  · rintro ⟨⟨h1, h2⟩, ⟨h3, h4⟩, h5, h6⟩
    refine ⟨⟨_, offers_iff.2 rfl, by omega, by unfold maxGasPrice at h2; omega⟩,
      ⟨_, limits_iff.2 rfl, h3, h4⟩, h5, ?_⟩
    intro c hc
    rw [hc] at h6
    simp at h6
    exact h6.symm

/-! ## C24 -/

/-- The checks accept exactly the admissible transactions that carry a signature which verifies. -/
theorem C24_limits (c : Config) (t : SignedTx) :
    checkTransaction c t = some (.ok ()) ↔
      Admissible c.chainId c.maxTxSize t.transaction ∧
      ∃ sg pub, t.transaction.signature = some sg ∧ t.pub = some pub ∧
        verifySignature c t.transaction sg pub = some (.ok ()) := by
  rw [admissible_iff]
  unfold checkTransaction
  cases hs : t.transaction.signature with
  | none => simp
  | some sg =>
    cases hp : t.pub with
    | none => simp
    | some pub =>
      simp only
      split
      · rename_i h
        simp [h]
      · rename_i h
        cases he : encodeTx t.transaction with
        | none => simp
        | some bs =>
          simp only
          split
          · simp; intros; omega
          · split
            · simp; intros; omega
            · split
              · simp; intros; omega
              · split
                · simp; intros; omega
                · constructor
                  · intro hv
                    exact ⟨⟨⟨by omega, by omega⟩, ⟨by omega, by omega⟩, ⟨bs, rfl, by omega⟩, h⟩,
                      sg, pub, rfl, rfl, hv⟩
                  · rintro ⟨_, sg', pub', h1, h2, hv⟩
                    cases h1; cases h2
                    exact hv

/-- For an Ethereum signature with a recovered key the decision is the limits and the signature, nothing
else. -/
theorem C24_eth (c : Config) (t : SignedTx) {sg : Sig} {pub : Bytes} (hs : t.transaction.signature = some sg)
    (hp : t.pub = some pub) (he : sg.isEth = true) :
    checkTransaction c t = some (.ok ()) ↔
      Admissible c.chainId c.maxTxSize t.transaction ∧ c.secp t.transaction pub = true := by
  rw [C24_limits]
  constructor
  · rintro ⟨h, sg', pub', h1, h2, h3⟩
    rw [hs, Option.some.injEq] at h1; rw [hp, Option.some.injEq] at h2
    subst h1 h2
    unfold verifySignature at h3
    rw [if_pos he] at h3
    exact ⟨h, by cases hc : c.secp t.transaction pub <;> simp [hc] at h3 ⊢⟩
  · rintro ⟨h, hc⟩
    refine ⟨h, sg, pub, hs, hp, ?_⟩
    unfold verifySignature
    rw [if_pos he, hc]; rfl

/-- What each error says about the transaction. -/
def Reason (c : Config) (t : SignedTx) : CheckErr → Prop
  | .missingSignature => t.transaction.signature = none
  | .missingPublic => t.pub = none
  | .wrongChain => ∃ i, t.transaction.chainId = some i ∧ i ≠ c.chainId
  | .exceedSize => ∃ bs, encodeTx t.transaction = some bs ∧ c.maxTxSize < bs.length
  | .invalidGasPrice => ∃ p, Offers t.transaction.unsigned p ∧ (p = 0 ∨ 500000000000 ≤ p)
  | .underGasLimit => ∃ l, Limits t.transaction.unsigned l ∧ l < 21000
  | .exceedGasLimit => ∃ l, Limits t.transaction.unsigned l ∧ 30000000 < l
  | .verifySignature => Admissible c.chainId c.maxTxSize t.transaction

/-- A rejection names a limit that is really violated. -/
theorem C24_reason (c : Config) (t : SignedTx) (e : CheckErr) (h : checkTransaction c t = some (.error e)) :
    Reason c t e := by
  have hadm := @admissible_iff c.chainId c.maxTxSize t.transaction
  unfold checkTransaction at h
  cases hs : t.transaction.signature with
  | none => simp [hs] at h; subst h; exact hs
  | some sg =>
    cases hp : t.pub with
    | none => simp [hs, hp] at h; subst h; exact hp
    | some pub =>
      simp only [hs, hp] at h
      split at h
      · rename_i hc
        simp at h; subst h
        obtain ⟨i, hi⟩ := Option.isSome_iff_exists.1 hc.1
        exact ⟨i, hi, fun hh => hc.2 (by rw [hi, hh])⟩
      · rename_i hc
        cases he : encodeTx t.transaction with
        | none => simp [he] at h
        | some bs =>
          simp only [he] at h
          split at h
          · simp at h; subst h; exact ⟨bs, he, by omega⟩
          · split at h
            · rename_i hg
              simp at h; subst h
              exact ⟨_, offers_iff.2 rfl, by unfold maxGasPrice at hg; omega⟩
            · split at h
              · rename_i hl
                simp at h; subst h
                exact ⟨_, limits_iff.2 rfl, hl⟩
              · split at h
                · rename_i hl
                  simp at h; subst h
                  exact ⟨_, limits_iff.2 rfl, hl⟩
                · have he' : e = .verifySignature := by
                    unfold verifySignature at h
                    split at h
                    · split at h <;> simp at h; exact h.symm
                    · split at h
                      · simp at h
                      · split at h <;> simp at h; exact h.symm
                  subst he'
                  exact hadm.2 ⟨⟨by omega, by omega⟩, ⟨by omega, by omega⟩, ⟨bs, he, by omega⟩, hc⟩

/-- The RPC entry accepts a superset with respect to the price: exactly the maximum passes the RPC check and
is refused by the pool. -/
theorem C24_rpc_boundary (k : Keys) (cap : Nat) (c : Config) {raw : Bytes} {t : SignedTx}
    (h : sendRaw k cap raw = .ok t) :
    (gasPrice t.transaction.unsigned).val ≤ maxGasPrice ∧
    (checkTransaction c t = some (.ok ()) → (gasPrice t.transaction.unsigned).val < maxGasPrice) := by
  constructor
  · unfold sendRaw at h
    cases hd : decodeTx raw with
    | err => simp [hd, Outcome.bind] at h
    | panic => simp [hd, Outcome.bind] at h
    | ok utx =>
      simp only [hd, Outcome.bind] at h
      split at h
      · cases h
      · split at h
        · cases h
        · split at h
          · cases h
          · split at h
            · cases h
            · cases hch : checkHash k raw utx with
              | err => simp [hch, Outcome.bind] at h
              | panic => simp [hch, Outcome.bind] at h
              | ok _ =>
              simp only [hch, Outcome.bind] at h
              have : t.transaction = utx := by
                unfold fromUnverified at h
                split at h
                · cases h
                · split at h
                  · split at h
                    · cases h; rfl
                    · cases h
                  · split at h
                    · cases h; rfl
                    · cases h
                    · cases h
              rw [this]; omega
  · intro hc
    exact (admissible_iff.1 ((C24_limits c t).1 hc).1).1.2

/-! ## C57: received bytes -/

/-- Bytes from outside crash the node exactly when they are empty, or decode to a transaction whose signature
is not of Ethereum shape and has an empty `r`. -/
theorem C57_panic_iff_partial (k : Keys) (raw : Bytes) :
    receive k raw = .panic ↔
      raw = [] ∨ ∃ t sg, decodeTx raw = .ok t ∧ t.signature = some sg ∧ sg.r = [] ∧ sg.s.length ≠ 64 := by
  unfold receive
  cases raw with
  | nil => simp [decodeTx, Outcome.bind]
  | cons b bs =>
    cases hd : decodeTx (b :: bs) with
    | err => simp [Outcome.bind]
    | panic =>
      exfalso
      unfold decodeTx at hd
      simp only at hd
      split at hd
      · cases hx : (Rlp.decode (b :: bs)).bind decodeLegacy <;> simp [hx, Outcome.ofOption] at hd
      · split at hd
        · cases hx : (Rlp.decode bs).bind decode2930 <;> simp [hx, Outcome.ofOption] at hd
        · split at hd
          · cases hx : (Rlp.decode bs).bind decode1559 <;> simp [hx, Outcome.ofOption] at hd
          · cases hd
    | ok t =>
      simp only [Outcome.bind, reduceCtorEq, false_or, Outcome.ok.injEq, exists_and_left, exists_eq_left']
      unfold fromUnverified
      cases hs : t.signature with
      | none => simp
      | some sg =>
        simp only [Option.some.injEq, exists_eq_left']
        by_cases he : sg.isEth = true
        · rw [if_pos he]
          constructor
          · intro h; split at h <;> cases h
          · rintro ⟨h1, h2⟩
            unfold Sig.isEth at he
            simp [h1] at he
            omega
        · rw [if_neg he]
          unfold interopSender
          cases hr : sg.r with
          | nil =>
            simp only [true_and, true_iff]
            unfold Sig.isEth at he
            simp [hr] at he
            omega
          | cons x rest =>
            simp only [reduceCtorEq, false_and, iff_false]
            intro h
            by_cases hx : x = 0
            · simp only [hx, if_true] at h
              cases hk : k.senderOf rest <;> simp [hk, Outcome.ofOption] at h
            · simp [hx] at h

/-- A legacy transaction whose signature has an empty `r` and a 65-byte `s`. -/
def crashTx : Unverified :=
  { unsigned := .legacy
      { nonce := ⟨0, by decide⟩, gasPrice := ⟨9, by decide⟩, gasLimit := ⟨21000, by decide⟩,
        action := .create, value := ⟨0, by decide⟩, data := [] }
    signature := some { r := [], s := List.replicate 65 1, standardV := ⟨0, by decide⟩ }
    chainId := some ⟨5, by decide⟩ }

/-- Such a transaction can be written down as bytes; they crash a node that receives them from a peer and one
that receives them by RPC, whatever the keys. -/
theorem C57_empty_r_false :
    ∃ raw, encodeTx crashTx = some raw ∧ ∀ k : Keys,
      receive k raw = .panic ∧ sendRaw k 30000000 raw = .panic := by
  have h : (encodeTx crashTx).map decodeTx = some (.ok crashTx) := by decide +kernel
  cases he : encodeTx crashTx with
  | none => simp [he] at h
  | some raw =>
    simp only [he, Option.map_some, Option.some.injEq] at h
    refine ⟨raw, rfl, fun k => ?_⟩
    constructor
    · unfold receive; rw [h]; rfl
    · have hch : checkHash k raw crashTx = .ok () := by simp [checkHash, he]
      unfold sendRaw
      rw [h]
      simp only [Outcome.bind, hch]
      rfl

/-- The empty byte string crashes it too. -/
theorem C57_empty_false (k : Keys) (cap : Nat) : receive k [] = .panic ∧ sendRaw k cap [] = .panic :=
  ⟨rfl, rfl⟩

/-- Once a transaction has been received, the stateless checks of the pool do not panic on it. -/
theorem C57_checks_total (k : Keys) (c : Config) {raw : Bytes} {t : SignedTx} (h : receive k raw = .ok t) :
    (checkTransaction c t).isSome := by
  have henc : (encodeTx t.transaction).isSome := by
    unfold receive at h
    cases hd : decodeTx raw with
    | err => simp [hd, Outcome.bind] at h
    | panic => simp [hd, Outcome.bind] at h
    | ok utx =>
      simp only [hd, Outcome.bind] at h
      obtain ⟨e, _, he, _⟩ := (C02_canonical raw utx hd).2
      have : t.transaction = utx := by
        unfold fromUnverified at h
        split at h
        · cases h
        · split at h
          · split at h
            · cases h; rfl
            · cases h
          · split at h
            · cases h; rfl
            · cases h
            · cases h
      rw [this, he]; rfl
  have hne : ∀ sg, t.transaction.signature = some sg → sg.isEth = true ∨ sg.r ≠ [] := by
    intro sg hsg
    unfold receive at h
    cases hd : decodeTx raw with
    | err => simp [hd, Outcome.bind] at h
    | panic => simp [hd, Outcome.bind] at h
    | ok utx =>
      simp only [hd, Outcome.bind] at h
      unfold fromUnverified at h
      split at h
      · cases h
      · rename_i sg' hsg'
        split at h
        · rename_i he
          split at h
          · cases h
            simp only [hsg', Option.some.injEq] at hsg
            subst hsg; exact .inl he
          · cases h
        · split at h
          · rename_i a ha
            cases h
            simp only [hsg', Option.some.injEq] at hsg
            subst hsg
            refine .inr fun hr => ?_
            unfold interopSender at ha
            rw [hr] at ha
            cases ha
          · cases h
          · cases h
  unfold checkTransaction
  split
  · rfl
  · rename_i sg hsg
    split
    · rfl
    · split
      · rfl
      · split
        · rename_i he; simp [he] at henc
        · split
          · rfl
          · split
            · rfl
            · split
              · rfl
              · split
                · rfl
                · unfold verifySignature
                  split
                  · rfl
                  · rename_i he
                    split
                    · rename_i hr
                      rcases hne sg hsg with h1 | h1
                      · exact absurd h1 he
                      · exact absurd hr h1
                    · rfl

/-! ## C58: authorisation -/

/-- The most a transaction can cost: price times limit plus value, capped at the largest balance. -/
def Costs (u : Unsigned) (n : Nat) : Prop :=
  ∃ p l, Offers u p ∧ Limits u l ∧ n = min (p * l + (value u).val) (2 ^ 256 - 1)

theorem mayCost_spec (u : Unsigned) : ∃ c, mayCost u = some c ∧ Costs u c.val := by
  unfold mayCost mul256?
  have hlt : (gasPrice u).val * (gasLimit u).val < 2 ^ 256 := by
    have h1 := (gasPrice u).lt
    have h2 := (gasLimit u).lt
    calc (gasPrice u).val * (gasLimit u).val ≤ 2 ^ 64 * 2 ^ 64 := Nat.mul_le_mul (by omega) (by omega)
      _ < 2 ^ 256 := by decide
  unfold UIntN.ofNat?
  rw [dif_pos hlt]
  refine ⟨_, rfl, _, _, offers_iff.2 rfl, limits_iff.2 rfl, ?_⟩
  simp only
  split
  · rename_i h
    simp only [Option.getD_some]
    exact (Nat.min_eq_left (by omega)).symm
  · rename_i h
    simp only [Option.getD_none]
    exact (Nat.min_eq_right (by omega)).symm

theorem costs_unique {u : Unsigned} {a b : Nat} (ha : Costs u a) (hb : Costs u b) : a = b := by
  obtain ⟨p, l, h1, h2, rfl⟩ := ha
  obtain ⟨p', l', h3, h4, rfl⟩ := hb
  rw [offers_iff] at h1 h3; rw [limits_iff] at h2 h4
  subst h1 h2 h3 h4; rfl

/-- Reading the account: a transaction is authorised iff its nonce is not used up and the account can pay its
largest cost; the answer is the distance to the account's nonce. -/
theorem C58_fresh_partial {a : Account} (hn : a.nonce.val < 2 ^ 64) (u : Unsigned) (d : Nat) :
    authFresh a u = some (.ok d) ↔
      a.nonce.val ≤ (nonce u).val ∧ d = (nonce u).val - a.nonce.val ∧
      ∃ c, Costs u c ∧ c ≤ a.balance.val := by
  obtain ⟨c, hc, hcost⟩ := mayCost_spec u
  have hm : a.nonce.val % 2 ^ 64 = a.nonce.val := Nat.mod_eq_of_lt hn
  unfold authFresh
  rw [hm, hc]
  split
  · rename_i h
    simp; intros; omega
  · rename_i h
    simp only
    split
    · rename_i hb
      simp only [Option.some.injEq, reduceCtorEq, false_iff, not_and]
      rintro _ _ ⟨c', hc', hle⟩
      have := costs_unique hcost hc'
      omega
    · rename_i hb
      simp only [Option.some.injEq, Except.ok.injEq]
      constructor
      · rintro rfl; exact ⟨by omega, rfl, _, hcost, by omega⟩
      · rintro ⟨_, rfl, _⟩; rfl

/-- The cached decision agrees with the fresh one, panics aside, when the entry is what would be read. -/
theorem authCached_eq {a : Account} (hn : a.nonce.val < 2 ^ 64) (u : Unsigned) :
    authFresh a u = some (authCached (a.nonce.val % 2 ^ 64, a.balance.val) u) := by
  have hm : a.nonce.val % 2 ^ 64 = a.nonce.val := Nat.mod_eq_of_lt hn
  unfold authFresh authCached
  simp only [hm]
  by_cases h : (nonce u).val < a.nonce.val
  · simp [h, hn]
  · rw [if_neg (by omega), if_neg h]
    cases mayCost u with
    | none => rfl
    | some c => simp only; split <;> rfl

/-- Executions in which a block is committed only while no authorisation is in progress, and the cache is
cleared before the next one. -/
inductive Clean : AuthSt → List (H160 × Unsigned × Except AuthErr Nat) → AuthSt → Prop
  | refl (s : AuthSt) : Clean s [] s
  | step {s s' : AuthSt} {out} (op : AuthOp) (hop : ∀ st, op ≠ .stored st) (h : Clean s out s') :
      Clean s (out ++ (authStep s' op).2.toList) (authStep s' op).1
  | commit {s s' : AuthSt} {out} (st : H160 → Account) (hw : ∀ a, (st a).nonce.val < 2 ^ 64)
      (hp : s'.pending = []) (h : Clean s out s') :
      Clean s out (authStep (authStep s' (.stored st)).1 .clear).1

/-- Cache and pending reads agree with the latest state. -/
structure Coherent (s : AuthSt) : Prop where
  fits : ∀ a, (s.state a).nonce.val < 2 ^ 64
  cache : ∀ a n, get s.cache a = some n → n = ((s.state a).nonce.val % 2 ^ 64, (s.state a).balance.val)
  pending : ∀ i t a, get s.pending i = some (t, a) → a = s.state t.sender

theorem Coherent.step {s : AuthSt} (h : Coherent s) {op : AuthOp} (hop : ∀ st, op ≠ .stored st) :
    Coherent (authStep s op).1 ∧ (authStep s op).1.state = s.state ∧
    ∀ a u r, (a, u, r) ∈ (authStep s op).2 → authFresh (s.state a) u = some r := by
  cases op with
  | stored st => exact absurd rfl (hop st)
  | clear =>
    refine ⟨⟨h.fits, ?_, h.pending⟩, rfl, ?_⟩
    · intro a n hn; simp [authStep, get_nil] at hn
    · intro a u r hr; simp [authStep] at hr
  | read id t =>
    cases hg : get s.cache t.sender with
    | some n =>
      have e : authStep s (.read id t) = (s, none) := by simp only [authStep, hg]
      rw [e]; exact ⟨h, rfl, by simp⟩
    | none =>
      have e : authStep s (.read id t) =
        ({ s with pending := put s.pending id (t, s.state t.sender) }, none) := by simp only [authStep, hg]
      rw [e]
      refine ⟨⟨h.fits, h.cache, ?_⟩, rfl, by simp⟩
      intro i t' a hi
      simp only [get_put] at hi
      split at hi
      · simp only [Option.some.injEq, Prod.mk.injEq] at hi
        obtain ⟨rfl, rfl⟩ := hi; rfl
      · exact h.pending i t' a hi
  | finish id =>
    cases hg : get s.pending id with
    | none =>
      have e : authStep s (.finish id) = (s, none) := by simp only [authStep, hg]
      rw [e]; exact ⟨h, rfl, by simp⟩
    | some x =>
      obtain ⟨t, a⟩ := x
      have e : authStep s (.finish id) =
        ({ s with cache := put s.cache t.sender (a.nonce.val % 2 ^ 64, a.balance.val)
                  pending := del s.pending id },
          (authFresh a t.transaction.unsigned).map fun r => (t.sender, t.transaction.unsigned, r)) := by
        simp only [authStep, hg]
      rw [e]
      have ha := h.pending id t a hg
      refine ⟨⟨h.fits, ?_, ?_⟩, rfl, ?_⟩
      · intro b n hb
        simp only [get_put] at hb
        split at hb
        · rename_i e
          simp only [Option.some.injEq] at hb
          rw [← hb, e, ha]
        · exact h.cache b n hb
      · intro i t' a' hi
        simp only [get_del] at hi
        split at hi
        · cases hi
        · exact h.pending i t' a' hi
      · intro b u r hr
        simp only [Option.mem_def, Option.map_eq_some_iff, Prod.mk.injEq] at hr
        obtain ⟨r', h1, rfl, rfl, rfl⟩ := hr
        rw [← ha]; exact h1
  | hit t =>
    cases hg : get s.cache t.sender with
    | none =>
      have e : authStep s (.hit t) = (s, none) := by simp only [authStep, hg]
      rw [e]; exact ⟨h, rfl, by simp⟩
    | some n =>
      have e : authStep s (.hit t) =
        (s, some (t.sender, t.transaction.unsigned, authCached n t.transaction.unsigned)) := by
        simp only [authStep, hg]
      rw [e]
      refine ⟨h, rfl, ?_⟩
      intro b u r hr
      simp only [Option.mem_def, Option.some.injEq, Prod.mk.injEq] at hr
      obtain ⟨rfl, rfl, rfl⟩ := hr
      rw [h.cache _ _ hg]
      exact authCached_eq (h.fits _) _

theorem clean_coherent {s s' : AuthSt} {out} (hc : Clean s out s') (h : Coherent s) : Coherent s' := by
  induction hc with
  | refl => exact h
  | step op hop _ ih => exact (ih.step hop).1
  | commit st hw hp _ ih =>
    refine ⟨hw, ?_, ?_⟩
    · intro a n hn; simp [authStep, get_nil] at hn
    · intro i t a hi; simp [authStep, hp, get_nil] at hi

/-- While commits do not overlap authorisations, every answer - cached or not - is the decision on the latest
state at that moment. -/
theorem C58_latest_state_partial {s s' : AuthSt} {out} (hc : Clean s out s') (h : Coherent s) {op : AuthOp}
    (hop : ∀ st, op ≠ .stored st) {a : H160} {u : Unsigned} {r : Except AuthErr Nat}
    (hr : (a, u, r) ∈ (authStep s' op).2) : authFresh (s'.state a) u = some r :=
  ((clean_coherent hc h).step hop).2.2 a u r hr

/-- A transaction from address `a` with nonce 0. -/
def nonceZero : SignedTx :=
  { transaction := crashTx, sender := ⟨List.replicate 20 7, rfl⟩, pub := some [] }

/-- An authorisation that read the state before a commit writes its entry after the commit cleared the cache:
from then on a transaction with nonce 0 is authorised although the account's nonce is 1. -/
theorem C58_overlap_false :
    let old : H160 → Account := fun _ => ⟨⟨0, by decide⟩, ⟨10 ^ 18, by decide⟩⟩
    let new : H160 → Account := fun _ => ⟨⟨1, by decide⟩, ⟨10 ^ 18, by decide⟩⟩
    let s1 := (authStep ⟨old, [], []⟩ (.read 0 nonceZero)).1
    let s2 := (authStep s1 (.stored new)).1
    let s3 := (authStep s2 .clear).1
    let s4 := (authStep s3 (.finish 0)).1
    (authStep s4 (.hit nonceZero)).2 = some (nonceZero.sender, nonceZero.transaction.unsigned, .ok 0) ∧
    (authFresh (s4.state nonceZero.sender) nonceZero.transaction.unsigned) =
      some (.error (.invalidNonce 1 0)) := by
  refine ⟨?_, ?_⟩ <;> rfl

/-- An account nonce beyond 64 bits makes the rejection itself panic. -/
theorem C58_wide_nonce_false :
    authFresh ⟨⟨2 ^ 64 + 1, by decide⟩, ⟨0, by decide⟩⟩ nonceZero.transaction.unsigned = none := by
  decide +kernel

/-- Which calls are system scripts: exactly the four system addresses; the rest of that address range is
refused; everything else is an ordinary transaction. -/
theorem C58_system (a : Action) :
    (isCallSystemScript a = some true ↔
      ∃ to, a = .call to ∧ ∃ b : UInt8, b.toNat < 4 ∧ to.bytes = List.replicate 19 0xff ++ [b]) ∧
    (isCallSystemScript a = none ↔
      ∃ to, a = .call to ∧ ∃ b : UInt8, 4 ≤ b.toNat ∧ to.bytes = List.replicate 19 0xff ++ [b]) := by
  cases a with
  | create => simp [isCallSystemScript]
  | call to =>
    have hlen := to.len
    have hsplit : to.bytes.take 19 = List.replicate 19 0xff ↔ ∃ b, to.bytes = List.replicate 19 0xff ++ [b] := by
      constructor
      · intro h
        have := List.take_append_drop 19 to.bytes
        have hd : (to.bytes.drop 19).length = 1 := by rw [List.length_drop, hlen]
        obtain ⟨b, hb⟩ := List.length_eq_one_iff.1 hd
        exact ⟨b, by rw [← this, h, hb]⟩
      · rintro ⟨b, hb⟩
        rw [hb]; rfl
    have hsys : ∀ b : UInt8, systemAddresses.contains (List.replicate 19 0xff ++ [b]) = true ↔ b.toNat < 4 := by
      intro b
      simp only [systemAddresses, systemAddress, List.contains_iff_mem, List.mem_cons, List.append_cancel_left_eq,
        List.cons.injEq, and_true, List.not_mem_nil, or_false]
      constructor
      · rintro (rfl | rfl | rfl | rfl) <;> decide
      · intro h
        have : b.toNat = 0 ∨ b.toNat = 1 ∨ b.toNat = 2 ∨ b.toNat = 3 := by omega
        rcases this with h | h | h | h
        · exact .inl (UInt8.toNat_inj.1 h)
        · exact .inr (.inl (UInt8.toNat_inj.1 h))
        · exact .inr (.inr (.inl (UInt8.toNat_inj.1 h)))
        · exact .inr (.inr (.inr (UInt8.toNat_inj.1 h)))
    simp only [isCallSystemScript, Action.call.injEq, exists_eq_left']
    by_cases h : to.bytes.take 19 = List.replicate 19 0xff
    · rw [if_pos h]
      obtain ⟨b, hb⟩ := hsplit.1 h
      rw [hb]
      have hinj : ∀ b' : UInt8, (List.replicate 19 (0xff : UInt8) ++ [b] = List.replicate 19 0xff ++ [b']) ↔ b = b' := by
        intro b'; simp
      simp only [hinj, exists_eq_right']
      by_cases h4 : systemAddresses.contains (List.replicate 19 0xff ++ [b]) = true
      · rw [if_pos h4]; simp [(hsys b).1 h4]
      · rw [if_neg h4]
        have := mt (hsys b).2 h4
        simp; omega
    · rw [if_neg h]
      have hn : ∀ b, to.bytes ≠ List.replicate 19 0xff ++ [b] := fun b hb => h (hsplit.2 ⟨b, hb⟩)
      constructor
      · constructor
        · intro hh; simp at hh
        · rintro ⟨b, _, hb⟩; exact absurd hb (hn b)
      · constructor
        · intro hh; simp at hh
        · rintro ⟨b, _, hb⟩; exact absurd hb (hn b)

/-- The address has the form of a system address, with the given last byte. -/
def SystemForm (a : Action) (b : UInt8) : Prop := ∃ to, a = .call to ∧ to.bytes = List.replicate 19 0xff ++ [b]

/-- The whole decision, while no commit interferes (the cache agrees with the state, see
`C58_latest_state_partial`): a call of one of the four system addresses is authorised iff the sender is a
validator; other addresses of that form never are; every other transaction iff its nonce is not used up
and the sender can pay its largest cost.  The cache keeps agreeing with the state.  Missing for the full
statement: interleaved commits (`C58_overlap_false`) and account nonces beyond 64 bits
(`C58_wide_nonce_false`). -/
theorem C58_decision_partial (st : H160 → Account) (valid : H160 → Bool) (cache : NonceCache) (t : SignedTx)
    (hfit : ∀ a, (st a).nonce.val < 2 ^ 64)
    (hcache : ∀ a n, get cache a = some n → n = ((st a).nonce.val, (st a).balance.val)) :
    ∃ cache' r, checkAuthorization st valid cache t = some (cache', r) ∧
      (∀ a n, get cache' a = some n → n = ((st a).nonce.val, (st a).balance.val)) ∧
      ∀ d, r = .ok d ↔
        (∃ b, SystemForm (action t.transaction.unsigned) b ∧ b.toNat < 4 ∧ valid t.sender = true ∧ d = 0) ∨
        ((∀ b, ¬ SystemForm (action t.transaction.unsigned) b) ∧
          (st t.sender).nonce.val ≤ (nonce t.transaction.unsigned).val ∧
          d = (nonce t.transaction.unsigned).val - (st t.sender).nonce.val ∧
          ∃ c, Costs t.transaction.unsigned c ∧ c ≤ (st t.sender).balance.val) := by
  have hsys := C58_system (action t.transaction.unsigned)
  have huniq : ∀ b b', SystemForm (action t.transaction.unsigned) b →
      SystemForm (action t.transaction.unsigned) b' → b = b' := by
    rintro b b' ⟨to, h1, h2⟩ ⟨to', h3, h4⟩
    rw [h1] at h3
    cases h3
    rw [h2] at h4
    simpa using h4
  unfold checkAuthorization
  cases hc : isCallSystemScript (action t.transaction.unsigned) with
  | none =>
    refine ⟨cache, _, rfl, hcache, ?_⟩
    obtain ⟨to, h1, b, h2, h3⟩ := hsys.2.1 hc
    intro d
    simp only [reduceCtorEq, false_iff, not_or]
    refine ⟨?_, fun h => h.1 b ⟨to, h1, h3⟩⟩
    rintro ⟨b', hb', hlt, -⟩
    have := huniq b b' ⟨to, h1, h3⟩ hb'
    subst this
    omega
  | some x =>
    cases x with
    | true =>
      refine ⟨cache, _, rfl, hcache, ?_⟩
      obtain ⟨to, h1, b, h2, h3⟩ := hsys.1.1 hc
      intro d
      constructor
      · intro hr
        split at hr
        · rename_i hv
          left
          exact ⟨b, ⟨to, h1, h3⟩, h2, hv, by simpa using hr.symm⟩
        · cases hr
      · rintro (⟨b', _, _, hv, rfl⟩ | ⟨hn, _⟩)
        · rw [if_pos hv]
        · exact absurd ⟨to, h1, h3⟩ (hn b)
    | false =>
      have hno : ∀ b, ¬ SystemForm (action t.transaction.unsigned) b := by
        rintro b ⟨to, h1, h2⟩
        rcases Nat.lt_or_ge b.toNat 4 with h | h
        · have := hsys.1.2 ⟨to, h1, b, h, h2⟩; rw [hc] at this; cases this
        · have := hsys.2.2 ⟨to, h1, b, h, h2⟩; rw [hc] at this; cases this
      have hfresh := authCached_eq (hfit t.sender) t.transaction.unsigned
      have hm : (st t.sender).nonce.val % 2 ^ 64 = (st t.sender).nonce.val := Nat.mod_eq_of_lt (hfit _)
      have hspec : ∀ d, authCached ((st t.sender).nonce.val, (st t.sender).balance.val) t.transaction.unsigned = .ok d ↔
          (∃ b, SystemForm (action t.transaction.unsigned) b ∧ b.toNat < 4 ∧ valid t.sender = true ∧ d = 0) ∨
          ((∀ b, ¬ SystemForm (action t.transaction.unsigned) b) ∧
            (st t.sender).nonce.val ≤ (nonce t.transaction.unsigned).val ∧
            d = (nonce t.transaction.unsigned).val - (st t.sender).nonce.val ∧
            ∃ c, Costs t.transaction.unsigned c ∧ c ≤ (st t.sender).balance.val) := by
        intro d
        have h1 := C58_fresh_partial (hfit t.sender) t.transaction.unsigned d
        rw [hfresh, hm, Option.some.injEq] at h1
        rw [h1]
        constructor
        · intro h; exact Or.inr ⟨hno, h⟩
        · rintro (⟨b, hb, _⟩ | h)
          · exact absurd hb (hno b)
          · exact h.2
      cases hg : get cache t.sender with
      | some n =>
        refine ⟨cache, _, rfl, hcache, ?_⟩
        rw [hcache _ _ hg]
        exact hspec
      | none =>
        simp only
        rw [hfresh, hm]
        refine ⟨_, _, rfl, ?_, hspec⟩
        intro a n
        rw [get_put]
        split
        · rename_i ha
          subst ha
          intro hh
          simpa using hh.symm
        · exact hcache a n

/-! ## Non-trivial instances -/

/-- A call of the metadata contract by a validator and by somebody else. -/
example (t : SignedTx) (a : H160) (ha : a.bytes = List.replicate 19 0xff ++ [1])
    (ht : action t.transaction.unsigned = .call a) (st : H160 → Account) (h : ∀ a, (st a).nonce.val < 2 ^ 64) :
    (∃ c, checkAuthorization st (fun _ => true) [] t = some (c, .ok 0)) ∧
    (∀ c d, checkAuthorization st (fun _ => false) [] t ≠ some (c, .ok d)) := by
  refine ⟨?_, ?_⟩
  · obtain ⟨c, r, h1, _, h3⟩ := C58_decision_partial st (fun _ => true) [] t h (by simp [get_nil])
    rw [(h3 0).2 (Or.inl ⟨1, ⟨a, ht, ha⟩, by decide, rfl, rfl⟩)] at h1
    exact ⟨c, h1⟩
  · intro c d hc
    obtain ⟨c', r, h1, _, h3⟩ := C58_decision_partial st (fun _ => false) [] t h (by simp [get_nil])
    rw [hc] at h1
    simp only [Option.some.injEq, Prod.mk.injEq] at h1
    rcases (h3 d).1 h1.2.symm with ⟨_, _, _, h, _⟩ | ⟨hn, _⟩
    · cases h
    · exact hn 1 ⟨a, ht, ha⟩

/-- A signed transaction that passes every check, and its variants at the boundaries. -/
def okTx (price limit : U64) : SignedTx :=
  { transaction :=
      { unsigned := .eip1559
          { nonce := ⟨7, by decide⟩, maxPriorityFee := price, gasPrice := ⟨9, by decide⟩, gasLimit := limit,
            action := .create, value := ⟨0, by decide⟩, data := [1, 2, 3], accessList := [] }
        signature := some { r := List.replicate 32 5, s := List.replicate 32 6, standardV := ⟨1, by decide⟩ }
        chainId := some ⟨2022, by decide⟩ }
    sender := ⟨List.replicate 20 7, rfl⟩, pub := some [] }

def okConfig : Config :=
  { chainId := ⟨2022, by decide⟩, maxTxSize := 1000, secp := fun _ _ => true, ckbVm := fun _ _ => true }

example : (checkTransaction okConfig (okTx ⟨499999999999, by decide⟩ ⟨30000000, by decide⟩)).map
    (·.toOption.isSome) = some true := by decide +kernel
example : (checkTransaction okConfig (okTx ⟨500000000000, by decide⟩ ⟨30000000, by decide⟩)).map
    (·.toOption.isSome) = some false := by decide +kernel
example : (checkTransaction okConfig (okTx ⟨5, by decide⟩ ⟨30000001, by decide⟩)).map
    (·.toOption.isSome) = some false := by decide +kernel
example : (checkTransaction { okConfig with maxTxSize := 10 } (okTx ⟨5, by decide⟩ ⟨21000, by decide⟩)).map
    (·.toOption.isSome) = some false := by decide +kernel

/-- A price of exactly the maximum reaches the pool through RPC. -/
example : ((encodeTx (okTx ⟨500000000000, by decide⟩ ⟨21000, by decide⟩).transaction).map fun raw =>
    (sendRaw ⟨fun _ => some ([], ⟨List.replicate 20 7, rfl⟩), fun _ => none, fun _ => ⟨List.replicate 32 0, rfl⟩⟩ 30000000 raw)) =
      some (.ok (okTx ⟨500000000000, by decide⟩ ⟨21000, by decide⟩)) := by decide +kernel

/-- A coherent start and an answer from it. -/
example : Coherent ⟨fun _ => ⟨⟨3, by decide⟩, ⟨10 ^ 18, by decide⟩⟩, [], []⟩ :=
  ⟨fun _ => by show 3 < 2 ^ 64; decide, fun _ _ h => by simp [get_nil] at h, fun _ _ _ h => by simp [get_nil] at h⟩

example : authFresh ⟨⟨3, by decide⟩, ⟨10 ^ 18, by decide⟩⟩ (okTx ⟨5, by decide⟩ ⟨21000, by decide⟩).transaction.unsigned =
    some (.ok 4) := by rfl

end Axon.Admission
