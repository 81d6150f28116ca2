import Verif.Consensus.RpcResponse

/-!
# C15: sync RPC responses
-/

namespace Axon.RpcResponse
open Axon.Rlp Axon.Tx Axon.Block

/-- C15: a block response decodes to itself. -/
theorem C15_block_roundtrip (rec : Unverified → Bool) (b : Block) (bs : Bytes)
    (he : encodeMsg (.blocks b) = some bs) (hlen : bs.length < 2 ^ 64) :
    decodeMsg rec bs = .ok (.blocks b) := by
  simp only [encodeMsg, Option.some.injEq] at he
  subst he
  unfold decodeMsg
  rw [List.getLast?_concat, List.dropLast_concat]
  simp only [if_true]
  rw [C05_block_roundtrip b (by rw [List.length_append] at hlen; omega)]

theorem mapM_some_iff {α β : Type} (f : α → Option β) (l : List α) (r : List β) :
    l.mapM f = some r → l.length = r.length ∧
      ∀ i (h1 : i < l.length) (h2 : i < r.length), f l[i] = some r[i] := by
  induction l generalizing r with
  | nil => intro h; simp at h; subst h; simp
  | cons x xs ih =>
    intro h
    rw [List.mapM_cons] at h
    simp only [Option.bind_eq_bind, Option.pure_def, Option.bind_eq_some_iff, Option.some.injEq] at h
    obtain ⟨y, hy, ys, hys, rfl⟩ := h
    obtain ⟨h1, h2⟩ := ih ys hys
    refine ⟨by simp [h1], fun i hi1 hi2 => ?_⟩
    cases i with
    | zero => simpa using hy
    | succ i => simpa using h2 i (by simpa using hi1) (by simpa using hi2)

theorem encode_str_length_le {l : List Item} {b : Bytes} (h : .str b ∈ l) :
    b.length ≤ (encode (.list l)).length := by
  have h1 : (encode (.str b)).length ≤ (encodeMany l).length := by
    induction l with
    | nil => simp at h
    | cons x xs ih =>
      rw [encodeMany, List.length_append]
      rw [List.mem_cons] at h
      rcases h with rfl | h
      · omega
      · have := ih h; omega
  have h2 : b.length ≤ (encode (.str b)).length := by
    rw [encode]
    unfold encStr
    repeat' split
    all_goals simp [longHeader] <;> omega
  have h3 : (encodeMany l).length ≤ (encode (.list l)).length := by
    rw [encode]
    unfold encPayload
    split <;> simp [longHeader] <;> omega
  omega

/-- C15: a response with transactions decodes to itself, if each transaction can be submitted and its
sender can be recovered. -/
theorem C15_txs_roundtrip (rec : Unverified → Bool) (ts : List Unverified)
    (hsub : ∀ t ∈ ts, Submittable t ∧ rec t = true) (bs : Bytes)
    (he : encodeMsg (.txs ts) = some bs) (hlen : bs.length < 2 ^ 64) :
    decodeMsg rec bs = .ok (.txs ts) := by
  simp only [encodeMsg, encodeBatch, Option.map_map, Option.map_eq_some_iff, Function.comp_apply] at he
  obtain ⟨l, hl, rfl⟩ := he
  obtain ⟨hll, hli⟩ := mapM_some_iff _ _ _ hl
  have hlen' : (encode (.list l)).length < 2 ^ 64 := by
    rw [List.length_append] at hlen; omega
  have hdec : decodeBatch rec (encode (.list l)) = .ok ts := by
    unfold decodeBatch
    have := C01_decode_encode (.list l) (fits_of_length _ hlen') []
    rw [List.append_nil] at this
    rw [this]
    simp only
    apply mapOutcome_ok _ _ _ hll.symm
    intro i h1 h2
    have hi := hli i h2 h1
    unfold signedItem at hi
    rw [Option.map_eq_some_iff] at hi
    obtain ⟨raw, hraw, hitem⟩ := hi
    rw [← hitem]
    obtain ⟨hs, hr⟩ := hsub ts[i] (List.getElem_mem h2)
    have hrl : raw.length < 2 ^ 64 := by
      have := encode_str_length_le (l := l) (b := raw) (by rw [hitem]; exact List.getElem_mem h1)
      omega
    simp only [decodeSigned, C02_roundtrip _ hs raw hraw hrl]
    obtain ⟨sg, hsg, -⟩ := hs.signed
    simp [hsg, hr]
  unfold decodeMsg
  rw [List.getLast?_concat, List.dropLast_concat]
  simp only
  rw [if_neg (by decide), if_pos trivial, hdec]

/-- C15: every transaction of an accepted response carries a signature from which a sender can be
recovered, whatever bytes the peer sent. -/
theorem C15_txs_signed (rec : Unverified → Bool) (bs : Bytes) (ts : List Unverified)
    (h : decodeMsg rec bs = .ok (.txs ts)) : ∀ t ∈ ts, t.signature.isSome ∧ rec t = true := by
  unfold decodeMsg at h
  split at h
  · cases h
  split at h
  · split at h <;> simp at h
  split at h
  · split at h
    · rename_i us hus
      simp only [Outcome.ok.injEq, Response.txs.injEq] at h
      subst h
      unfold decodeBatch at hus
      split at hus
      · intro t ht
        obtain ⟨i, _, hi⟩ := mapOutcome_mem _ _ _ hus t ht
        unfold decodeSigned at hi
        split at hi
        · cases hi
        split at hi
        · split at hi
          · rename_i hc
            simp only [Outcome.ok.injEq] at hi
            subst hi
            simpa using hc
          · cases hi
        · cases hi
        · cases hi
      · cases hus
    · cases h
    · cases h
  · cases h

/-- C15: exactly the inputs on which decoding aborts: the empty message, an unknown last byte, or a
transaction list in which an empty string follows only good transactions. -/
theorem C15_panic_iff (rec : Unverified → Bool) (bs : Bytes) :
    decodeMsg rec bs = .panic ↔
      bs = [] ∨ (∃ pre flag, bs = pre ++ [flag] ∧ flag ≠ 97 ∧ flag ≠ 98) ∨
      (∃ pre l rest good post, bs = pre ++ [98] ∧ decodePrefix pre = some (.list l, rest) ∧
        l = good ++ .str [] :: post ∧ ∀ i ∈ good, ∃ t, decodeSigned rec i = .ok t) := by
  have hsp : ∀ i, decodeSigned rec i = .panic ↔ i = .str [] := by
    intro i
    cases i with
    | list l => simp [decodeSigned]
    | str b =>
      unfold decodeSigned
      simp only [Item.str.injEq]
      rw [← C02_panic_only_on_empty]
      split
      · rename_i t ht; split <;> simp [ht]
      · rename_i ht; simp [ht]
      · rename_i ht; simp [ht]
  rcases bs.eq_nil_or_concat with rfl | ⟨pre, flag, rfl⟩
  · simp [decodeMsg]
  · rw [List.concat_eq_append]
    unfold decodeMsg
    rw [List.getLast?_concat, List.dropLast_concat]
    simp only
    by_cases h97 : flag = 97
    · subst h97
      rw [if_pos rfl]
      constructor
      · intro h; split at h <;> simp at h
      · rintro (h | ⟨p, f, he, h1, h2⟩ | ⟨p, l, rest, good, post, he, -⟩)
        · simp at h
        · have := List.append_inj' he rfl; simp at this; exact absurd this.2.symm h1
        · have := List.append_inj' he rfl; simp at this
    · rw [if_neg h97]
      by_cases h98 : flag = 98
      · subst h98
        rw [if_pos rfl]
        constructor
        · intro h
          right; right
          split at h
          · simp at h
          · simp at h
          · rename_i hp
            unfold decodeBatch at hp
            split at hp
            · rename_i l rest hd
              obtain ⟨good, x, post, rfl, hx, hg⟩ := (mapOutcome_panic _ _).1 hp
              rw [hsp] at hx
              subst hx
              exact ⟨pre, _, rest, good, post, rfl, hd, rfl, hg⟩
            · simp at hp
        · rintro (h | ⟨p, f, he, h1, h2⟩ | ⟨p, l, rest, good, post, he, hd, rfl, hg⟩)
          · simp at h
          · have := List.append_inj' he rfl; simp at this; exact absurd this.2.symm h2
          · have := List.append_inj' he rfl
            simp at this
            subst this
            have : decodeBatch rec pre = .panic := by
              unfold decodeBatch
              rw [hd]
              exact (mapOutcome_panic _ _).2 ⟨good, _, post, rfl, (hsp _).2 rfl, hg⟩
            rw [this]
      · rw [if_neg h98]
        simp only [true_iff]
        exact Or.inr (Or.inl ⟨pre, flag, rfl, h97, h98⟩)

/-- C15 is false: a peer's message can abort the node in three ways.  What holds instead is
`C15_panic_iff`. -/
theorem C15_never_aborts_false (rec : Unverified → Bool) :
    decodeMsg rec [] = .panic ∧ decodeMsg rec [0] = .panic ∧ decodeMsg rec [0xc1, 0x80, 98] = .panic := by
  refine ⟨rfl, rfl, ?_⟩
  rw [C15_panic_iff]
  right; right
  exact ⟨[0xc1, 0x80], [.str []], [], [], [], rfl, by rfl, rfl, by simp⟩

/-- Decoding is safe for responses with a known last byte whose transaction strings are not empty. -/
theorem C15_safe_partial (rec : Unverified → Bool) (pre : Bytes) (flag : UInt8)
    (hf : flag = 97 ∨ flag = 98)
    (hne : ∀ l rest, decodePrefix pre = some (.list l, rest) → .str [] ∉ l) :
    decodeMsg rec (pre ++ [flag]) ≠ .panic := by
  rw [Ne, C15_panic_iff]
  rintro (h | ⟨p, f, he, h1, h2⟩ | ⟨p, l, rest, good, post, he, hd, rfl, hg⟩)
  · simp at h
  · have := List.append_inj' he rfl
    simp at this
    obtain ⟨-, rfl⟩ := this
    rcases hf with h | h
    · exact h1 h
    · exact h2 h
  · have := List.append_inj' he rfl
    simp at this
    obtain ⟨rfl, -⟩ := this
    exact hne _ _ hd (by simp)

/-- The transaction response of one concrete transaction, read back. -/
example : ∃ bs, encodeMsg (.txs [sampleTx]) = some bs ∧
    decodeMsg (fun _ => true) bs = .ok (.txs [sampleTx]) := by
  refine ⟨(encodeMsg (.txs [sampleTx])).get (by decide +kernel), by simp, ?_⟩
  apply C15_txs_roundtrip
  · intro t ht
    simp at ht
    subst ht
    exact ⟨⟨⟨_, rfl, Or.inl ⟨rfl, rfl⟩, fun _ h => by simp [sampleTx] at h⟩, fun _ => ⟨_, rfl⟩⟩, rfl⟩
  · simp
  · decide +kernel

end Axon.RpcResponse
