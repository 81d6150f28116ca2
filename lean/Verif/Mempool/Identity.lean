import Verif.Mempool.Admission
import Verif.Codec.TxProps

/-!
# The hash a transaction is known by

`UnverifiedTransaction` carries a `hash` field besides its contents.  Every part of the node that refers to
a transaction (pool, proposals, blocks, storage) uses that field; nothing but the contents is sent on.
-/

namespace Axon.Admission
open Axon.Tx Axon.Rlp

/-- A signed transaction with its `hash` field, `types/transaction.rs:271-276, 426-430`. -/
structure Known where
  stx : SignedTx
  hash : H256
deriving DecidableEq

/-- A transaction out of a peer's message (`NewTxsHandler`, answers to `pull_txs` and to synchronisation) or out
of storage: `Decodable for SignedTransaction`, `codec/transaction.rs:335-364`.  `hash` is the digest of all the
bytes received for it, `codec/transaction.rs:132,201,275` (for typed transactions the type byte and the rest,
which is the same byte string); it is not checked. -/
def fromPeer (k : Keys) (raw : Bytes) : Outcome Known :=
  (receive k raw).bind fun t => .ok ⟨t, k.digest raw⟩

/-- A transaction out of `eth_sendRawTransaction`, `web3.rs:197-224`; `from_unverified` sets `hash` anew by
`calc_hash`, `types/transaction.rs:293-298,433-461`. -/
def fromRpc (k : Keys) (cap : Nat) (raw : Bytes) : Outcome Known :=
  (sendRaw k cap raw).bind fun t =>
    match encodeTx t.transaction with
    | none => .panic
    | some e => .ok ⟨t, k.digest e⟩

/-- The bytes written for a transaction in gossip, in answers and in storage: `Encodable for SignedTransaction`,
`codec/transaction.rs:330-333`; `none` = panic. -/
def wire (x : Known) : Option Bytes := encodeTx x.stx.transaction

/-- What another node, or this node after a restart, makes of a transaction passed on. -/
def relay (k : Keys) (x : Known) : Outcome Known :=
  match wire x with
  | none => .panic
  | some e => fromPeer k e

/-- A hash as the key used in the models of pool and chain. -/
def key (h : H256) : Nat := beNat h.bytes

theorem key_inj {a b : H256} (h : key a = key b) : a = b := by
  cases a with | mk a ha => cases b with | mk b hb =>
  have : a = b := by
    have h1 := beFixed_beNat a
    have h2 := beFixed_beNat b
    simp only [key] at h
    rw [ha] at h1
    rw [hb] at h2
    rw [← h1, ← h2, h]
  subst this
  rfl

/-! ## Lemmas -/

theorem decode_append {b : Bytes} {i : Item} (junk : Bytes) (hl : b.length < 2 ^ 64) (h : decode b = some i) :
    decode (b ++ junk) = some i := by
  unfold decode at h ⊢
  cases hp : decodePrefix b with
  | none => simp [hp] at h
  | some p =>
    obtain ⟨x, rest⟩ := p
    simp only [hp, Option.map_some, Option.some.injEq] at h
    subst h
    have hc := C01_canonical _ _ _ hp
    subst hc
    rw [List.append_assoc, C01_decode_encode _ (fits_of_length _ (by simp at hl; omega))]
    rfl

/-- Bytes behind a transaction do not change what it is decoded to. -/
theorem decodeTx_append {raw : Bytes} {t : Unverified} (junk : Bytes) (hl : raw.length < 2 ^ 64)
    (h : decodeTx raw = .ok t) : decodeTx (raw ++ junk) = .ok t := by
  have ko : ∀ {o : Option Unverified}, Outcome.ofOption o = .ok t → o = some t := by
    intro o ho; cases o <;> simp [Outcome.ofOption] at ho; simp [ho]
  cases raw with
  | nil => simp [decodeTx] at h
  | cons b tl =>
    have hl' : tl.length < 2 ^ 64 := by simp at hl; omega
    simp only [decodeTx, List.cons_append] at h ⊢
    split at h
    · rename_i hb
      rw [if_pos hb]
      obtain ⟨i, hi, hd⟩ := Option.bind_eq_some_iff.1 (ko h)
      have := decode_append junk hl hi
      rw [List.cons_append] at this
      rw [this]
      simp [hd, Outcome.ofOption]
    · rename_i hb
      rw [if_neg hb]
      split at h
      · rename_i h1
        rw [if_pos h1]
        obtain ⟨i, hi, hd⟩ := Option.bind_eq_some_iff.1 (ko h)
        rw [decode_append junk hl' hi]
        simp [hd, Outcome.ofOption]
      · rename_i h1
        rw [if_neg h1]
        split at h
        · rename_i h2
          rw [if_pos h2]
          obtain ⟨i, hi, hd⟩ := Option.bind_eq_some_iff.1 (ko h)
          rw [decode_append junk hl' hi]
          simp [hd, Outcome.ofOption]
        · cases h

theorem fromUnverified_tx {k : Keys} {t : Unverified} {s : SignedTx} (h : fromUnverified k t = .ok s) :
    s.transaction = t := by
  unfold fromUnverified at h
  split at h
  · cases h
  · split at h
    · split at h
      · cases h; rfl
      · cases h
    · split at h
      · cases h; rfl
      · cases h
      · cases h

theorem bind_ok {α β : Type} {o : Outcome α} {f : α → Outcome β} {b : β} (h : o.bind f = .ok b) :
    ∃ a, o = .ok a ∧ f a = .ok b := by
  cases o with
  | ok a => exact ⟨a, rfl, h⟩
  | err => cases h
  | panic => cases h

theorem receive_ok {k : Keys} {raw : Bytes} {s : SignedTx} (h : receive k raw = .ok s) :
    decodeTx raw = .ok s.transaction ∧ fromUnverified k s.transaction = .ok s := by
  obtain ⟨t, h1, h2⟩ := bind_ok h
  have := fromUnverified_tx h2
  subst this
  exact ⟨h1, h2⟩

theorem fromPeer_ok {k : Keys} {raw : Bytes} {x : Known} (h : fromPeer k raw = .ok x) :
    decodeTx raw = .ok x.stx.transaction ∧ fromUnverified k x.stx.transaction = .ok x.stx ∧
      x.hash = k.digest raw := by
  obtain ⟨s, h1, h2⟩ := bind_ok h
  cases h2
  exact ⟨(receive_ok h1).1, (receive_ok h1).2, rfl⟩

theorem fromPeer_of {k : Keys} {raw : Bytes} {s : SignedTx} (h1 : decodeTx raw = .ok s.transaction)
    (h2 : fromUnverified k s.transaction = .ok s) : fromPeer k raw = .ok ⟨s, k.digest raw⟩ := by
  simp [fromPeer, receive, h1, h2, Outcome.bind]

theorem fromRpc_ok {k : Keys} {cap : Nat} {raw : Bytes} {x : Known} (h : fromRpc k cap raw = .ok x) :
    decodeTx raw = .ok x.stx.transaction ∧ fromUnverified k x.stx.transaction = .ok x.stx ∧
      ∃ e, encodeTx x.stx.transaction = some e ∧ x.hash = k.digest e ∧ k.digest raw = k.digest e := by
  obtain ⟨s, h1, h2⟩ := bind_ok h
  obtain ⟨t, h3, h4⟩ := bind_ok h1
  have : ∃ u, checkHash k raw t = .ok u ∧ fromUnverified k t = .ok s := by
    split at h4
    · cases h4
    · split at h4
      · cases h4
      · split at h4
        · cases h4
        · split at h4
          · cases h4
          · exact bind_ok h4
  obtain ⟨u, hc, hs⟩ := this
  have := fromUnverified_tx hs
  subst this
  split at h2
  · cases h2
  · rename_i e he
    cases h2
    refine ⟨h3, hs, e, he, rfl, ?_⟩
    unfold checkHash at hc
    rw [he] at hc
    simp only at hc
    split at hc
    · assumption
    · cases hc

end Axon.Admission
