import Verif.Executor.Bloom

/-!
# C50: blooms

The specification reads a bloom as the Yellow Paper does: a number of 2048 bits, and an item sets
three bits, each given by two bytes of its digest modulo 2048.
-/

namespace Axon.Bloom

open Axon Axon.Rlp Axon.Block

/-! ## Specification -/

/-- The three bits of an item. -/
def bitsOf (H : Bytes → H256) (x : Bytes) : List Nat :=
  [0, 2, 4].map fun i => beNat (((H x).bytes.drop i).take 2) % 2048

/-- Bit `k` of a bloom read as a big-endian number. -/
def has (b : Bloom) (k : Nat) : Bool := (beNat b.bytes).testBit k

/-- An item may be in a bloom. -/
def Contains (H : Bytes → H256) (b : Bloom) (x : Bytes) : Prop := ∀ k ∈ bitsOf H x, has b k

/-- The searchable items of a log: its address and its topics. -/
def itemsOf (g : Log) : List Bytes := g.address.bytes :: g.topics.map (·.bytes)

/-! ## Bits of bytes -/

theorem testBit_beNat (bs : Bytes) (k : Nat) :
    (beNat bs).testBit k =
      if k / 8 < bs.length then (bs.getD (bs.length - 1 - k / 8) 0).toNat.testBit (k % 8)
      else false := by
  induction bs using snoc_induction generalizing k with
  | nil => simp [beNat]
  | snoc xs x ih =>
    have hx : x.toNat < 2 ^ 8 := UInt8.toNat_lt x
    have e : beNat (xs ++ [x]) = 2 ^ 8 * beNat xs + x.toNat := by
      rw [beNat_snoc]; omega
    rw [e, Nat.testBit_two_pow_mul_add _ hx]
    by_cases hk : k < 8
    · have h0 : k / 8 = 0 := by omega
      have h1 : k % 8 = k := by omega
      rw [if_pos hk, h0, h1]
      simp [List.getD_eq_getElem?_getD]
    · rw [if_neg hk, ih]
      have hd : (k - 8) / 8 = k / 8 - 1 := by omega
      have hm : (k - 8) % 8 = k % 8 := by omega
      have hp : 1 ≤ k / 8 := by omega
      rw [hd, hm]
      simp only [List.length_append, List.length_cons, List.length_nil]
      by_cases hlt : k / 8 - 1 < xs.length
      · rw [if_pos hlt, if_pos (by omega)]
        have hi : xs.length + (0 + 1) - 1 - k / 8 = xs.length - 1 - (k / 8 - 1) := by omega
        rw [hi, List.getD_eq_getElem?_getD, List.getD_eq_getElem?_getD,
          List.getElem?_append_left (by omega)]
      · rw [if_neg hlt, if_neg (by omega)]

theorem u8_bit : ∀ (x : UInt8) (i : Fin 8) (j : Fin 8),
    (x ||| ((1 : UInt8) <<< UInt8.ofNat i.val)).toNat.testBit j.val =
      (x.toNat.testBit j.val || decide (i = j)) := by
  intro x i j
  rw [UInt8.toNat_or, Nat.testBit_or]
  congr 1
  revert i j
  decide +kernel

theorem testBit_setBit (b : Bytes) (hb : b.length = 256) (i k : Nat) (hi : i < 2048) :
    (beNat (setBit b i)).testBit k = ((beNat b).testBit k || decide (i = k)) := by
  rw [testBit_beNat, testBit_beNat, length_setBit, hb]
  by_cases hk : k / 8 < 256
  · rw [if_pos hk, if_pos hk]
    unfold setBit
    rw [List.getD_eq_getElem?_getD, List.getElem?_modify, List.getD_eq_getElem?_getD]
    by_cases he : i / 8 = k / 8
    · have hq : 256 - 1 - i / 8 = 256 - 1 - k / 8 := by omega
      simp only [if_pos hq]
      have hlt : 256 - 1 - k / 8 < b.length := by omega
      rw [List.getElem?_eq_getElem hlt]
      simp only [Option.map_eq_map, Option.map_some, Option.getD_some]
      have := u8_bit (b[256 - 1 - k / 8]) ⟨i % 8, by omega⟩ ⟨k % 8, by omega⟩
      simp only at this
      rw [this]
      congr 1
      rw [decide_eq_decide, Fin.mk.injEq]
      omega
    · have hq : ¬ 256 - 1 - i / 8 = 256 - 1 - k / 8 := by omega
      simp only [if_neg hq]
      have : i ≠ k := by intro h; subst h; exact he rfl
      simp [this]
  · rw [if_neg hk, if_neg hk]
    have : i ≠ k := by omega
    simp [this]

theorem bitIndex_eq (h : H256) (i : Nat) (hi : i < 31) :
    bitIndex h.bytes i = beNat ((h.bytes.drop i).take 2) % 2048 := by
  have hl := h.len
  have h1 : i < h.bytes.length := by omega
  have h2 : i + 1 < h.bytes.length := by omega
  have e : (h.bytes.drop i).take 2 = [h.bytes[i], h.bytes[i + 1]] := by
    rw [List.drop_eq_getElem_cons h1, List.drop_eq_getElem_cons h2]
    rfl
  rw [e]
  unfold bitIndex
  rw [List.getD_eq_getElem?_getD, List.getD_eq_getElem?_getD, List.getElem?_eq_getElem h1,
    List.getElem?_eq_getElem h2]
  have : (0x7FF : Nat) = 2 ^ 11 - 1 := rfl
  rw [this, Nat.and_two_pow_sub_one_eq_mod]
  simp only [Option.getD_some, beNat, List.length_cons, List.length_nil, Nat.shiftLeft_eq]
  omega

theorem bitIndex_lt (h : Bytes) (i : Nat) : bitIndex h i < 2048 := by
  unfold bitIndex
  exact Nat.lt_of_le_of_lt Nat.and_le_right (by decide)

theorem testBit_m3 (H : Bytes → H256) (b x : Bytes) (hb : b.length = 256) (k : Nat) :
    (beNat (m3 H b x)).testBit k = ((beNat b).testBit k || decide (k ∈ bitsOf H x)) := by
  simp only [m3, List.foldl_cons, List.foldl_nil]
  rw [testBit_setBit _ (by simp [length_setBit, hb]) _ _ (bitIndex_lt ..),
    testBit_setBit _ (by simp [length_setBit, hb]) _ _ (bitIndex_lt ..),
    testBit_setBit _ hb _ _ (bitIndex_lt ..)]
  simp only [bitsOf, List.map_cons, List.map_nil]
  rw [bitIndex_eq _ 0 (by decide), bitIndex_eq _ 2 (by decide), bitIndex_eq _ 4 (by decide)]
  generalize beNat (((H x).bytes.drop 0).take 2) % 2048 = a
  generalize beNat (((H x).bytes.drop 2).take 2) % 2048 = c
  generalize beNat (((H x).bytes.drop 4).take 2) % 2048 = d
  have : decide (k ∈ [a, c, d]) = (decide (a = k) || decide (c = k) || decide (d = k)) := by
    simp only [List.mem_cons, List.not_mem_nil, or_false, Bool.decide_or]
    simp only [eq_comm (a := k), Bool.or_assoc]
  rw [this]
  simp only [Bool.or_assoc]

theorem testBit_m3_iff (H : Bytes → H256) (b x : Bytes) (hb : b.length = 256) (k : Nat) :
    (beNat (m3 H b x)).testBit k = true ↔ (beNat b).testBit k = true ∨ k ∈ bitsOf H x := by
  rw [testBit_m3 H b x hb]
  simp

theorem testBit_topics (H : Bytes → H256) (ts : List H256) (b : Bytes) (hb : b.length = 256)
    (k : Nat) :
    (beNat (ts.foldl (fun b t => m3 H b t.bytes) b)).testBit k = true ↔
      (beNat b).testBit k = true ∨ ∃ x ∈ ts.map (fun t : H256 => t.bytes), k ∈ bitsOf H x := by
  induction ts generalizing b with
  | nil => simp
  | cons t ts ih =>
    rw [List.foldl_cons, ih _ (by rw [length_m3, hb]), testBit_m3_iff H b _ hb, or_assoc]
    simp

theorem testBit_addLog (H : Bytes → H256) (g : Log) (b : Bytes) (hb : b.length = 256) (k : Nat) :
    (beNat (addLog H b g)).testBit k = true ↔
      (beNat b).testBit k = true ∨ ∃ x ∈ itemsOf g, k ∈ bitsOf H x := by
  unfold addLog
  rw [testBit_topics H _ _ (by rw [length_m3, hb]), testBit_m3_iff H b _ hb, or_assoc]
  simp [itemsOf]

theorem testBit_logs (H : Bytes → H256) (logs : List Log) (b : Bytes) (hb : b.length = 256)
    (k : Nat) :
    (beNat (logs.foldl (addLog H) b)).testBit k = true ↔
      (beNat b).testBit k = true ∨ ∃ g ∈ logs, ∃ x ∈ itemsOf g, k ∈ bitsOf H x := by
  induction logs generalizing b with
  | nil => simp
  | cons g l ih =>
    rw [List.foldl_cons, ih _ (by rw [length_addLog, hb]), testBit_addLog H g b hb, or_assoc]
    simp

theorem beNat_zeros (n : Nat) : beNat (List.replicate n 0) = 0 := by
  induction n with
  | zero => rfl
  | succ n ih => rw [List.replicate_succ, beNat, ih]; simp

theorem nodup_length_le {l m : List Nat} (hn : l.Nodup) (h : ∀ k ∈ l, k ∈ m) :
    l.length ≤ m.length := by
  induction l generalizing m with
  | nil => simp
  | cons a l ih =>
    have ha := h a (by simp)
    have hn' := List.nodup_cons.1 hn
    have hle := ih (m := m.erase a) hn'.2 (fun k hk => by
      have hne : k ≠ a := fun e => hn'.1 (e ▸ hk)
      exact (List.mem_erase_of_ne hne).2 (h k (by simp [hk])))
    have hpos := List.length_pos_of_mem ha
    rw [List.length_erase_of_mem ha] at hle
    simp only [List.length_cons]
    omega

theorem testBit_zero (k : Nat) : (beNat zero).testBit k = false := by
  rw [zero, beNat_zeros, Nat.zero_testBit]

/-! ## The properties -/

/-- **C50 (part).** The bloom of a list of logs has exactly the bits of the addresses and topics of
these logs, for every digest function. -/
theorem C50_logs_bits_partial (H : Bytes → H256) (logs : List Log) (k : Nat) :
    has (logsBloom H logs) k = true ↔ ∃ g ∈ logs, ∃ x ∈ itemsOf g, k ∈ bitsOf H x := by
  have := testBit_logs H logs zero length_zero k
  rw [testBit_zero] at this
  unfold has logsBloom logsBloomBytes
  rw [this]
  simp

/-- **C50 (part).** Every address and topic of every log of a receipt is contained in the bloom of
the receipt: searching with the bloom of a receipt never misses a log.  Missing: the bloom of the
block header (`C50_header_false`). -/
theorem C50_receipts_partial {ρ : Type} (H : Bytes → H256) (b : Ctx) (txs : List TxId)
    (resps : List (TxResp ρ)) (rs : List (Receipt ρ)) (ls : List (List Log))
    (h : generateReceipts H b txs resps = .ok (rs, ls)) (r : Receipt ρ) (hr : r ∈ rs) (g : Log)
    (hg : g ∈ r.logs) (x : Bytes) (hx : x ∈ itemsOf g) : Contains H r.logsBloom x := by
  have key : ∀ (l : List (TxId × TxResp ρ)) (idx : Nat) (li : U32) (rs : List (Receipt ρ)),
      receiptsFrom H b idx li l = .ok rs → ∀ r ∈ rs, r.logsBloom = logsBloom H r.logs := by
    intro l
    induction l with
    | nil => intro idx li rs h r hr; simp [receiptsFrom] at h; subst h; cases hr
    | cons p l ih =>
      intro idx li rs h r hr
      obtain ⟨tx, resp⟩ := p
      simp only [receiptsFrom] at h
      cases h1 : UIntN.ofNat? 32 (li.val + (asU32 resp.logs.length).val) with
      | none => rw [h1] at h; cases h
      | some li' =>
        rw [h1] at h
        simp only [Outcome.orPanic, Outcome.bind] at h
        cases h2 : receiptsFrom H b (idx + 1) li' l with
        | err => rw [h2] at h; cases h
        | panic => rw [h2] at h; cases h
        | ok l' =>
          rw [h2] at h
          simp only [Outcome.ok.injEq] at h
          subst h
          rcases List.mem_cons.1 hr with rfl | hm
          · rfl
          · exact ih _ _ _ h2 r hm
  unfold generateReceipts at h
  cases h1 : receiptsFrom H b 0 ⟨0, by decide⟩ (txs.zip resps) with
  | err => rw [h1] at h; cases h
  | panic => rw [h1] at h; cases h
  | ok l =>
    rw [h1] at h
    simp only [Outcome.bind, Outcome.ok.injEq, Prod.mk.injEq] at h
    obtain ⟨rfl, _⟩ := h
    rw [key _ _ _ _ h1 r hr]
    intro k hk
    exact (C50_logs_bits_partial H r.logs k).2 ⟨g, hg, x, hx, hk⟩

/-- The header bloom has at most three bits, whatever the block contains: they all come from one
digest. -/
theorem C50_header_bits (H : Bytes → H256) (logs : List (List Log)) :
    ∃ x, ∀ k, has (headerBloom H logs) k = true ↔ k ∈ bitsOf H x := by
  refine ⟨encode (.list (logs.map fun l =>
    ofFixed (rawBloom H (encode (.list (l.map logItem)))))), fun k => ?_⟩
  unfold headerBloom rawBloom has
  rw [testBit_m3_iff H zero _ length_zero, testBit_zero]
  simp

/-- **C50, the full statement is false.** The bloom in the block header misses logs: as soon as the
addresses and topics of the logs of a block need more than three different bits, one of them is not
contained in the header bloom, for every digest function. -/
theorem C50_header_false (H : Bytes → H256) (logs : List (List Log)) (ks : List Nat)
    (hnd : ks.Nodup) (hlen : 3 < ks.length)
    (hks : ∀ k ∈ ks, ∃ l ∈ logs, ∃ g ∈ l, ∃ x ∈ itemsOf g, k ∈ bitsOf H x) :
    ∃ l ∈ logs, ∃ g ∈ l, ∃ x ∈ itemsOf g, ¬ Contains H (headerBloom H logs) x := by
  refine Classical.byContradiction fun hno => ?_
  obtain ⟨y, hy⟩ := C50_header_bits H logs
  have hsub : ∀ k ∈ ks, k ∈ bitsOf H y := by
    intro k hk
    obtain ⟨l, hl, g, hg, x, hx, hkx⟩ := hks k hk
    have hc : Contains H (headerBloom H logs) x :=
      Classical.byContradiction fun hn => hno ⟨l, hl, g, hg, x, hx, hn⟩
    exact (hy k).1 (hc k hkx)
  have hle : ks.length ≤ (bitsOf H y).length :=
    nodup_length_le hnd hsub
  have : (bitsOf H y).length = 3 := rfl
  omega

/-- A toy digest: the last two bytes of the item, three times. -/
def toy (x : Bytes) : H256 :=
  ⟨(List.replicate 2 (0 : UInt8) ++ x.drop (x.length - 2) ++ List.replicate 32 0).take 32, by simp⟩

def log1 : Log := ⟨⟨List.replicate 19 0 ++ [7], rfl⟩, [⟨List.replicate 31 0 ++ [9], rfl⟩], [1, 2]⟩

def log2 : Log := ⟨⟨List.replicate 19 0 ++ [17], rfl⟩, [⟨List.replicate 31 0 ++ [19], rfl⟩], [1]⟩

/-- Bits of a bloom with two logs, and bits missing in the header bloom of a block with both. -/
example : ∀ k, has (logsBloom toy [log1, log2]) k = true ↔
    ∃ g ∈ [log1, log2], ∃ x ∈ itemsOf g, k ∈ bitsOf toy x :=
  C50_logs_bits_partial toy [log1, log2]

example : [0, 7, 9, 17, 19].map (has (logsBloom toy [log1, log2])) = [true, true, true, true, true]
    ∧ has (logsBloom toy [log1, log2]) 8 = false := by decide +kernel

example : ∃ l ∈ [[log1], [log2]], ∃ g ∈ l, ∃ x ∈ itemsOf g,
    ¬ Contains toy (headerBloom toy [[log1], [log2]]) x := by
  refine C50_header_false toy _ [7, 9, 17, 19] (by decide) (by decide) ?_
  intro k hk
  have h1 : 7 ∈ bitsOf toy log1.address.bytes := by decide +kernel
  have h2 : ∀ t ∈ log1.topics, 9 ∈ bitsOf toy t.bytes := by decide +kernel
  have h3 : 17 ∈ bitsOf toy log2.address.bytes := by decide +kernel
  have h4 : ∀ t ∈ log2.topics, 19 ∈ bitsOf toy t.bytes := by decide +kernel
  simp only [List.mem_cons, List.not_mem_nil, or_false] at hk
  rcases hk with rfl | rfl | rfl | rfl
  · exact ⟨[log1], by simp, log1, by simp, _, List.mem_cons_self, h1⟩
  · exact ⟨[log1], by simp, log1, by simp, _, List.mem_cons_of_mem _ (List.mem_map_of_mem
      (List.mem_singleton_self _)), h2 _ (List.mem_singleton_self _)⟩
  · exact ⟨[log2], by simp, log2, by simp, _, List.mem_cons_self, h3⟩
  · exact ⟨[log2], by simp, log2, by simp, _, List.mem_cons_of_mem _ (List.mem_map_of_mem
      (List.mem_singleton_self _)), h4 _ (List.mem_singleton_self _)⟩

end Axon.Bloom
