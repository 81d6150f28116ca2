import Verif.Api.Logs

/-!
# C49 and C83: searching logs

Specification: a log is selected by a query when its address is in the address list (an absent or
empty list selects every address) and its topics match the pattern position by position.  The answer
of a query for a range is the list of selected logs of these blocks in chain order.
-/

namespace Axon.Api

open Axon Axon.Block

/-! ## Specification -/

/-- What one position of the pattern accepts. -/
def accepts : MultiNest → H256 → Bool
  | .null, _ => true
  | .single h, t => t == h
  | .multi l, t => l.contains none || l.contains (some t)

/-- Positional match: the log has at least as many topics as the pattern has positions. -/
def topicsMatch : List MultiNest → List H256 → Bool
  | [], _ => true
  | _ :: _, [] => false
  | p :: ps, t :: ts => accepts p t && topicsMatch ps ts

def addrMatch : MultiAddr → H160 → Bool
  | .null, _ => true
  | .single h, a => a == h
  | .multi [], _ => true
  | .multi l, a => l.contains a

/-- A log is selected by an address list and a pattern. -/
def selects (addr : MultiAddr) (topics : Option (List MultiNest)) (g : Log) : Bool :=
  addrMatch addr g.address && topicsMatch (topics.getD []) g.topics

/-- The entries for a receipt at position `i` of its block: the selected logs in order. -/
def entries (addr : MultiAddr) (topics : Option (List MultiNest)) (i : Nat) (r : Rcpt) :
    List Web3Log :=
  (r.logs.zipIdx.filter fun (g, _) => selects addr topics g).map fun (g, k) =>
    { address := g.address, topics := g.topics, data := g.data, blockHash := r.blockHash,
      blockNumber := r.blockNumber.val, transactionHash := r.txHash, transactionIndex := i,
      logIndex := k, removed := false }

/-- The entries for a block. -/
def blockEntries (addr : MultiAddr) (topics : Option (List MultiNest)) (f : Full) :
    List Web3Log :=
  f.receipts.zipIdx.flatMap fun (r, i) => entries addr topics i r

/-- The entries for the blocks `start` to `stop`. -/
def rangeEntries (addr : MultiAddr) (topics : Option (List MultiNest)) (chain : List Full)
    (start stop : Nat) : List Web3Log :=
  ((chain.drop start).take (stop + 1 - start)).flatMap (blockEntries addr topics)

/-! ## Matching -/

theorem offset_accepts (m : MultiNest) (t : H256) :
    (match m.toOption with
      | none => true
      | some alts => alts.contains none || alts.contains (some t)) = accepts m t := by
  cases m with
  | null => rfl
  | single h => rw [Bool.eq_iff_iff]; simp [MultiNest.toOption, accepts]
  | multi l => rfl

theorem offsetOk_eq (pat : List MultiNest) (log : Log) (i : Nat) (p : MultiNest) (t : H256)
    (hp : pat[i]? = some p) (ht : log.topics[i]? = some t) :
    offsetOk (pat.map MultiNest.toOption) log i = accepts p t := by
  unfold offsetOk
  rw [List.getElem?_map, hp, ht, ← offset_accepts]
  simp only [Option.map_some, Option.getD_some]
  cases p.toOption <;> rfl

theorem containsTopic_eq (pat : List MultiNest) (h : pat.length ≤ 4) (log : Log) :
    containsTopic (pat.map MultiNest.toOption) log = topicsMatch pat log.topics := by
  have hb : ∀ (n : Nat) (h : n ≠ pat.length) (os : List Nat),
      topicArm (pat.map MultiNest.toOption) log n os = false := by
    intro n hn os
    simp only [topicArm, List.length_map]
    have : (pat.length == n) = false := by simp; omega
    rw [this]; rfl
  have ha : ∀ os, (∀ o ∈ os, o < pat.length) →
      (topicArm (pat.map MultiNest.toOption) log pat.length os = true ↔
        pat.length ≤ log.topics.length ∧
          ∀ o ∈ os, ∀ p t, pat[o]? = some p → log.topics[o]? = some t → accepts p t = true) := by
    intro os hos
    simp only [topicArm, List.length_map, BEq.rfl, Bool.true_and, Bool.and_eq_true,
      decide_eq_true_eq, List.all_eq_true]
    refine and_congr_right fun hl => forall_congr' fun o => ?_
    constructor
    · intro h ho p t hp ht
      rw [← offsetOk_eq pat log o p t hp ht]
      exact h ho
    · intro h ho
      have h1 := hos o ho
      have hp : pat[o]? = some pat[o] := List.getElem?_eq_getElem h1
      have ht : log.topics[o]? = some log.topics[o] := List.getElem?_eq_getElem (by omega)
      rw [offsetOk_eq pat log o _ _ hp ht]
      exact h ho _ _ hp ht
  generalize hts : log.topics = ts at *
  rw [Bool.eq_iff_iff]
  unfold containsTopic
  match pat, h, hb, ha with
  | [], _, _, _ => simp [topicsMatch]
  | [p0], _, hb, ha =>
    rw [hb 2 (by simp), hb 3 (by simp), hb 4 (by simp)]
    have := ha [0] (by simp)
    simp only [List.length_cons, List.length_nil, Nat.zero_add] at this
    simp only [List.map_cons, List.isEmpty_cons, Bool.false_or, Bool.or_false]
    simp only [List.map_cons] at this
    rw [this]
    match ts with
    | [] => simp [topicsMatch]
    | t0 :: ts => simp [topicsMatch]
  | [p0, p1], _, hb, ha =>
    rw [hb 1 (by simp), hb 3 (by simp), hb 4 (by simp)]
    have := ha [0, 1] (by simp)
    simp only [List.length_cons, List.length_nil, Nat.zero_add] at this
    simp only [List.map_cons, List.isEmpty_cons, Bool.false_or, Bool.or_false]
    simp only [List.map_cons] at this
    rw [this]
    match ts with
    | [] => simp [topicsMatch]
    | [t0] => simp [topicsMatch]
    | t0 :: t1 :: ts => simp [topicsMatch]
  | [p0, p1, p2], _, hb, ha =>
    rw [hb 1 (by simp), hb 2 (by simp), hb 4 (by simp)]
    have := ha [0, 1, 2] (by simp)
    simp only [List.length_cons, List.length_nil, Nat.zero_add] at this
    simp only [List.map_cons, List.isEmpty_cons, Bool.false_or, Bool.or_false]
    simp only [List.map_cons] at this
    rw [this]
    match ts with
    | [] => simp [topicsMatch]
    | [t0] => simp [topicsMatch]
    | [t0, t1] => simp [topicsMatch]
    | t0 :: t1 :: t2 :: ts => simp [topicsMatch]
  | [p0, p1, p2, p3], _, hb, ha =>
    rw [hb 1 (by simp), hb 2 (by simp), hb 3 (by simp)]
    have := ha [0, 1, 2, 3] (by simp)
    simp only [List.length_cons, List.length_nil, Nat.zero_add] at this
    simp only [List.map_cons, List.isEmpty_cons, Bool.false_or, Bool.or_false]
    simp only [List.map_cons] at this
    rw [this]
    match ts with
    | [] => simp [topicsMatch]
    | [t0] => simp [topicsMatch]
    | [t0, t1] => simp [topicsMatch]
    | [t0, t1, t2] => simp [topicsMatch]
    | t0 :: t1 :: t2 :: t3 :: ts => simp [topicsMatch]

theorem compile_eq (topics : Option (List MultiNest)) (log : Log) :
    containsTopic (compile topics) log = topicsMatch ((topics.getD []).take 4) log.topics := by
  unfold compile
  exact containsTopic_eq _ (by simp; omega) log

theorem addr_eq (addr : MultiAddr) (a : H160) :
    ((addr.toOption.getD []).isEmpty || (addr.toOption.getD []).contains a) = addrMatch addr a := by
  cases addr with
  | null => rfl
  | single h => rw [Bool.eq_iff_iff]; simp [MultiAddr.toOption, addrMatch]
  | multi l => cases l <;> simp [MultiAddr.toOption, addrMatch]

theorem fromLogs_eq (addr : MultiAddr) (topics : Option (List MultiNest)) (i : Nat) (r : Rcpt)
    (l : List Log) (k : Nat) :
    fromLogs i (compile topics) (addr.toOption.getD []) r k l =
      ((l.zipIdx k).filter fun p => addrMatch addr p.1.address &&
        topicsMatch ((topics.getD []).take 4) p.1.topics).map fun p => web3Log i p.2 r p.1 := by
  induction l generalizing k with
  | nil => rfl
  | cons g l ih =>
    rw [fromLogs, addr_eq, compile_eq, List.zipIdx_cons, List.filter_cons, ih]
    by_cases hs : (addrMatch addr g.address &&
        topicsMatch ((topics.getD []).take 4) g.topics) = true
    · simp only [hs, if_true, List.map_cons]
    · simp only [hs]
      simp

/-- **C49 (part).** For a pattern of at most four positions, the logs a receipt contributes to an
answer are exactly the selected ones, in order, each with its transaction and position.  Missing:
longer patterns (`C49_long_false`). -/
theorem C49_match_partial (addr : MultiAddr) (topics : Option (List MultiNest))
    (h : (topics.getD []).length ≤ 4) (i : Nat) (r : Rcpt) :
    fromReceipt i (compile topics) (addr.toOption.getD []) r = entries addr topics i r := by
  unfold fromReceipt entries selects
  rw [fromLogs_eq, List.take_of_length_le h]
  rfl

/-- **C49, the full statement is false.** Positions after the fourth are ignored.  A log of the
virtual machine has at most four topics, so a pattern of five or more positions selects none; but
every log that matches the first four positions is returned. -/
theorem C49_long_false (pat : List MultiNest) (hp : 4 < pat.length) (g : Log)
    (hg : g.topics.length ≤ 4) (hm : topicsMatch (pat.take 4) g.topics = true) (i : Nat) (r : Rcpt)
    (hr : r.logs = [g]) :
    selects .null (some pat) g = false ∧ entries .null (some pat) i r = [] ∧
      fromReceipt i (compile (some pat)) (MultiAddr.null.toOption.getD []) r ≠ [] := by
  have hlen : ∀ (ps : List MultiNest) (ts : List H256), ts.length < ps.length →
      topicsMatch ps ts = false := by
    intro ps
    induction ps with
    | nil => intro ts h; simp at h
    | cons p ps ih =>
      intro ts h
      cases ts with
      | nil => rfl
      | cons t ts =>
        simp only [topicsMatch, ih ts (by simp at h; omega), Bool.and_false]
  have hs : selects .null (some pat) g = false := by
    simp only [selects, addrMatch, Bool.true_and, Option.getD_some]
    exact hlen pat g.topics (by omega)
  refine ⟨hs, ?_, ?_⟩
  · simp [entries, hr, hs]
  · unfold fromReceipt
    rw [fromLogs_eq, hr]
    simp only [Option.getD_some, List.zipIdx_cons, List.zipIdx_nil, addrMatch, Bool.true_and]
    simp [hm]

/-! ## Ranges -/

theorem extendLogs_spec (addr : MultiAddr) (topics : Option (List MultiNest))
    (h : (topics.getD []).length ≤ 4) (rs : List Rcpt) :
    ∀ (i : Nat) (logs : List Web3Log),
      ∃ pre early, extendLogs (compile topics) (addr.toOption.getD []) i rs logs =
          (logs ++ pre, early) ∧
        pre <+: (rs.zipIdx i).flatMap (fun p => entries addr topics p.2 p.1) ∧
        (early = false → pre = (rs.zipIdx i).flatMap (fun p => entries addr topics p.2 p.1) ∧
          (rs ≠ [] → (logs ++ pre).length ≤ maxLogNum)) ∧
        (early = true → maxLogNum < (logs ++ pre).length) := by
  induction rs with
  | nil => intro i logs; exact ⟨[], false, by simp [extendLogs], by simp, by simp, by simp⟩
  | cons r rs ih =>
    intro i logs
    rw [extendLogs, C49_match_partial addr topics h, List.zipIdx_cons, List.flatMap_cons]
    simp only
    by_cases hm : maxLogNum < (logs ++ entries addr topics i r).length
    · rw [if_pos hm]
      exact ⟨_, true, rfl, List.prefix_append _ _, by simp, fun _ => hm⟩
    · rw [if_neg hm]
      obtain ⟨pre, early, he, hp, hf, ht⟩ := ih (i + 1) (logs ++ entries addr topics i r)
      refine ⟨entries addr topics i r ++ pre, early, ?_, ?_, ?_, ?_⟩
      · rw [he, List.append_assoc]
      · exact (List.prefix_append_right_inj _).2 hp
      · intro hh
        obtain ⟨h1, h2⟩ := hf hh
        refine ⟨by rw [h1], fun _ => ?_⟩
        rw [← List.append_assoc]
        by_cases hrs : rs = []
        · subst hrs
          simp only [List.zipIdx_nil, List.flatMap_nil] at h1
          rw [h1, List.append_nil]
          omega
        · exact h2 hrs
      · intro hh
        rw [← List.append_assoc]
        exact ht hh

theorem filterMap_map_some {α : Type} (l : List α) : (l.map some).filterMap id = l := by
  induction l with
  | nil => rfl
  | cons a l ih => simp [ih]

/-- Whether an answer `got` may stand for the whole list `all`. -/
def Faithful (got all : List Web3Log) : Prop :=
  got <+: all ∧ (got ≠ all → maxLogNum < got.length)

theorem logsOfBlock_spec {A : Adapter} {chain : List Full} (hA : Serves A chain)
    (addr : MultiAddr) (topics : Option (List MultiNest)) (h : (topics.getD []).length ≤ 4)
    (n : Nat) (f : Full) (hf : chain[n]? = some f) (logs : List Web3Log) :
    ∃ pre early, logsOfBlock A (compile topics) (addr.toOption.getD []) f.block logs =
        .ok (logs ++ pre, early) ∧
      pre <+: blockEntries addr topics f ∧
      (early = false → pre = blockEntries addr topics f) ∧
      (early = true → maxLogNum < (logs ++ pre).length) := by
  unfold logsOfBlock
  rw [hA.wf.number n f hf, hA.receipts n f hf]
  simp only [Reply.internal, Reply.bind, filterMap_map_some]
  obtain ⟨pre, early, he, hp, h1, h2⟩ := extendLogs_spec addr topics h f.receipts 0 logs
  exact ⟨pre, early, by rw [he], hp, fun hh => (h1 hh).1, h2⟩

/-- Entries of a block number. -/
def at' (addr : MultiAddr) (topics : Option (List MultiNest)) (chain : List Full) (n : Nat) :
    List Web3Log :=
  (chain[n]?.map (blockEntries addr topics)).getD []

theorem range_entries (addr : MultiAddr) (topics : Option (List MultiNest)) (chain : List Full)
    (k : Nat) : ∀ s, (List.range' s k).flatMap (at' addr topics chain) =
      ((chain.drop s).take k).flatMap (blockEntries addr topics) := by
  induction k with
  | zero => intro s; simp
  | succ k ih =>
    intro s
    rw [List.range'_succ, List.flatMap_cons, ih]
    by_cases hs : s < chain.length
    · rw [List.drop_eq_getElem_cons hs, List.take_succ_cons, List.flatMap_cons]
      congr 1
      simp [at', List.getElem?_eq_getElem hs]
    · have h1 : chain.drop s = [] := List.drop_eq_nil_of_le (by omega)
      have h2 : chain.drop (s + 1) = [] := List.drop_eq_nil_of_le (by omega)
      rw [h1, h2]
      simp [at', List.getElem?_eq_none (Nat.le_of_not_lt hs)]

theorem logsOfRange_spec {A : Adapter} {chain : List Full} (hA : Serves A chain)
    (addr : MultiAddr) (topics : Option (List MultiNest)) (h : (topics.getD []).length ≤ 4)
    (latest : Nat) (ns : List Nat) (hns : ∀ n ∈ ns, n < chain.length) :
    ∀ (logs : List Web3Log),
      ∃ pre early, logsOfRange A (compile topics) (addr.toOption.getD []) latest ns logs =
          .ok (logs ++ pre, early) ∧
        pre <+: (ns.filter (· ≠ latest)).flatMap (at' addr topics chain) ∧
        (early = false → pre = (ns.filter (· ≠ latest)).flatMap (at' addr topics chain)) ∧
        (early = true → maxLogNum < (logs ++ pre).length) := by
  induction ns with
  | nil => intro logs; exact ⟨[], false, by simp [logsOfRange], by simp, by simp, by simp⟩
  | cons n ns ih =>
    intro logs
    have ih := ih (fun m hm => hns m (by simp [hm]))
    rw [logsOfRange]
    by_cases hn : n = latest
    · rw [if_pos hn, List.filter_cons_of_neg (by simp [hn])]
      exact ih logs
    · rw [if_neg hn, List.filter_cons_of_pos (by simp [hn]), List.flatMap_cons]
      have hlt : n < chain.length := hns n (by simp)
      have hg : chain[n]? = some chain[n] := List.getElem?_eq_getElem hlt
      rw [hA.block n, hg]
      simp only [Reply.internal, Reply.bind, Option.map_some, Reply.unwrap]
      obtain ⟨p1, e1, h1, h2, h3, h4⟩ := logsOfBlock_spec hA addr topics h n chain[n] hg logs
      rw [h1]
      have hat : at' addr topics chain n = blockEntries addr topics chain[n] := by
        simp [at', hg]
      rw [hat]
      simp only
      cases e1 with
      | true =>
        simp only [if_true]
        exact ⟨p1, true, rfl, h2.trans (List.prefix_append _ _), by simp, h4⟩
      | false =>
        simp only [Bool.false_eq_true, if_false]
        obtain ⟨p2, e2, g1, g2, g3, g4⟩ := ih (logs ++ p1)
        refine ⟨p1 ++ p2, e2, by rw [g1, List.append_assoc], ?_, ?_, ?_⟩
        · rw [h3 rfl]; exact (List.prefix_append_right_inj _).2 g2
        · intro hh; rw [h3 rfl, g3 hh]
        · intro hh; rw [← List.append_assoc]; exact g4 hh

theorem rangeIncl_mem (s e n : Nat) : n ∈ rangeIncl s e ↔ s ≤ n ∧ n ≤ e := by
  simp only [rangeIncl, List.mem_range'_1]
  omega

theorem filter_rangeIncl (s e latest : Nat) (hs : s ≤ latest) (he : e ≤ latest)
    (g : Nat → List Web3Log) :
    (rangeIncl s e).flatMap g =
      ((rangeIncl s e).filter (· ≠ latest)).flatMap g ++
        (if (rangeIncl s e).contains latest then g latest else []) := by
  by_cases hc : e = latest
  · subst hc
    have hm : (rangeIncl s e).contains e = true := by
      simp [rangeIncl_mem, hs]
    rw [if_pos hm]
    have e1 : rangeIncl s e = List.range' s (e - s) ++ [e] := by
      unfold rangeIncl
      rw [show e + 1 - s = (e - s) + 1 by omega, List.range'_concat]
      simp
      omega
    rw [e1, List.flatMap_append, List.filter_append]
    have e2 : (List.range' s (e - s)).filter (· ≠ e) = List.range' s (e - s) := by
      rw [List.filter_eq_self]
      intro a ha
      simp only [List.mem_range'_1] at ha
      simp; omega
    rw [e2]
    simp
  · have hm : (rangeIncl s e).contains latest = false := by
      rw [Bool.eq_false_iff]
      intro h
      have := (rangeIncl_mem s e latest).1 (List.contains_iff_mem.1 h)
      omega
    rw [hm]
    have e2 : (rangeIncl s e).filter (· ≠ latest) = rangeIncl s e := by
      rw [List.filter_eq_self]
      intro a ha
      have := (rangeIncl_mem s e a).1 ha
      simp; omega
    rw [e2]
    simp

/-- The number a boundary of the query stands for: an absent boundary and every tag but `earliest`
is the latest block. -/
def boundary (latest : Nat) : Option BlockId → Nat
  | some (.num n) => n.val
  | some .earliest => 0
  | _ => latest

/-- **C83 (part).** The answer of `eth_getLogs` for a range: an error when the range starts after
the latest block or is wider than allowed; otherwise a list that begins as the list of all selected
logs of the range, and is all of it unless it already has more than 10 000 entries.  Missing: that
it is always all of it (`C83_truncated_false`). -/
theorem C83_range_partial {A : Adapter} {chain : List Full} (hA : Serves A chain) (maxRange : Nat)
    (f : Filter) (hh : f.blockHash = none) (ht : (f.topics.getD []).length ≤ 4) :
    let latest := chain.length - 1
    let start := boundary latest f.fromBlock
    let stop := min (boundary latest f.toBlock) latest
    if latest < start then getLogs A maxRange f = .err (.invalidFromBlockNumber start)
    else if start + maxRange < stop then
      getLogs A maxRange f = .err (.invalidBlockRange start stop maxRange)
    else ∃ got, getLogs A maxRange f = .ok got ∧
      Faithful got (rangeEntries f.address f.topics chain start stop) := by
  intro latest start stop
  have hpos : 0 < chain.length := List.length_pos_iff.2 hA.wf.nonempty
  have hlast : chain.getLast? = some chain[chain.length - 1] := by
    rw [List.getLast?_eq_getElem?, List.getElem?_eq_getElem (by omega)]
  have hlg : chain[chain.length - 1]? = some chain[chain.length - 1] :=
    List.getElem?_eq_getElem (by omega)
  have hnum : (chain[chain.length - 1]).block.header.number.val = latest :=
    hA.wf.number _ _ hlg
  have hs : (f.fromBlock.map (convertId latest)).getD latest = start := by
    simp only [start, boundary]
    cases f.fromBlock with
    | none => rfl
    | some b => cases b <;> rfl
  have he : min ((f.toBlock.map (convertId latest)).getD latest) latest = stop := by
    simp only [stop, boundary]
    cases f.toBlock with
    | none => rfl
    | some b => cases b <;> rfl
  unfold getLogs
  rw [hh]
  simp only
  unfold getLogsRange
  rw [hA.latest, hlast]
  simp only [Option.map_some, Reply.internal, Reply.bind, hnum, hs, he]
  by_cases h1 : latest < start
  · rw [if_pos h1, if_pos h1]
  rw [if_neg h1, if_neg h1]
  by_cases h2 : start + maxRange < stop
  · rw [if_pos h2, if_pos (by omega)]
  rw [if_neg h2, if_neg (by omega)]
  have hle : stop ≤ latest := Nat.min_le_right _ _
  obtain ⟨p1, e1, g1, g2, g3, g4⟩ := logsOfRange_spec hA f.address f.topics ht latest
    (rangeIncl start stop) (fun n hn => by
      have := (rangeIncl_mem start stop n).1 hn
      have : latest = chain.length - 1 := rfl
      omega) []
  rw [g1]
  simp only [List.nil_append] at g4 ⊢
  have hall : rangeEntries f.address f.topics chain start stop =
      ((rangeIncl start stop).filter (· ≠ latest)).flatMap (at' f.address f.topics chain) ++
        (if (rangeIncl start stop).contains latest then at' f.address f.topics chain latest
          else []) := by
    rw [← filter_rangeIncl start stop latest (by omega) hle, rangeIncl, range_entries]
    rfl
  cases e1 with
  | true =>
    simp only [if_true]
    refine ⟨p1, rfl, ?_, fun _ => g4 rfl⟩
    rw [hall]
    exact g2.trans (List.prefix_append _ _)
  | false =>
    simp only [Bool.false_eq_true, if_false]
    have g3 := g3 rfl
    by_cases hc : (rangeIncl start stop).contains latest = true
    · rw [if_pos hc]
      rw [if_pos hc] at hall
      obtain ⟨p2, e2, k1, k2, k3, k4⟩ := logsOfBlock_spec hA f.address f.topics ht _ _ hlg p1
      rw [k1]
      simp only
      have hat : at' f.address f.topics chain latest =
          blockEntries f.address f.topics chain[chain.length - 1] := by
        simp only [at', latest, hlg]
        rfl
      refine ⟨p1 ++ p2, rfl, ?_, ?_⟩
      · rw [hall, ← g3, hat]
        exact (List.prefix_append_right_inj _).2 k2
      · intro hne
        cases e2 with
        | true => exact k4 rfl
        | false => exact absurd (by rw [hall, ← g3, hat, k3 rfl]) hne
    · rw [if_neg hc]
      rw [if_neg hc, List.append_nil] at hall
      refine ⟨p1, rfl, ?_, ?_⟩
      · rw [hall, ← g3]; exact List.prefix_refl _
      · intro hne; exact absurd (by rw [hall, ← g3]) hne

/-- **C83 (part).** A query for one block, given by hash: an unknown hash is an error, a known one
yields the selected logs of this block under the same limit; the boundaries of the range are not
looked at. -/
theorem C83_hash_partial {A : Adapter} {chain : List Full} (hA : Serves A chain) (maxRange : Nat)
    (f : Filter) (h : H256) (hf : f.blockHash = some h) (ht : (f.topics.getD []).length ≤ 4) :
    (A.blockByHash h = none → getLogs A maxRange f = .err .internal) ∧
    (A.blockByHash h = some none → getLogs A maxRange f = .err .invalidBlockHash) ∧
    ∀ (n : Nat) (b : Full), chain[n]? = some b → A.blockByHash h = some (some b.block) →
      ∃ got, getLogs A maxRange f = .ok got ∧
        Faithful got (blockEntries f.address f.topics b) := by
  unfold getLogs
  rw [hf]
  simp only
  refine ⟨fun hb => by rw [hb]; rfl, fun hb => by rw [hb]; rfl, fun n b hn hb => ?_⟩
  rw [hb]
  simp only [Reply.internal, Reply.bind]
  obtain ⟨pre, e, h1, h2, h3, h4⟩ := logsOfBlock_spec hA f.address f.topics ht n b hn []
  rw [h1]
  simp only [List.nil_append] at h4 ⊢
  refine ⟨pre, rfl, h2, fun hne => ?_⟩
  cases e with
  | true => exact h4 rfl
  | false => exact absurd (h3 rfl) hne

theorem entries_all (i : Nat) (r : Rcpt) : (entries .null none i r).length = r.logs.length := by
  unfold entries
  have : (fun (p : Log × Nat) => match p with | (g, _) => selects .null none g) = fun _ => true := by
    funext p
    simp [selects, addrMatch, topicsMatch]
  rw [this, List.filter_eq_self.2 (by simp)]
  simp

/-- **C83, the full statement is false.** A block with more than 10 000 logs in one transaction:
`eth_getLogs` without conditions answers normally, but silently without the logs of the following
transactions. -/
theorem C83_truncated_false (A : Adapter) (b : Full) (hA : Serves A [b]) (r1 r2 : Rcpt)
    (hr : b.receipts = [r1, r2]) (h1 : 10000 < r1.logs.length) (h2 : r2.logs ≠ []) :
    getLogs A 0 {} = .ok (entries .null none 0 r1) ∧
      rangeEntries .null none [b] 0 0 ≠ entries .null none 0 r1 := by
  have hnum : b.block.header.number.val = 0 := hA.wf.number 0 b rfl
  constructor
  · have hl : A.latest = some b.block := hA.latest
    have hrec : A.receipts b.block.header.number.val b.block.txHashes =
        some [some r1, some r2] := by
      rw [hnum, hA.receipts 0 b rfl, hr]; rfl
    have hone := C49_match_partial .null none (by simp) 0 r1
    have hlen : maxLogNum < (entries .null none 0 r1).length := by
      rw [entries_all]; exact h1
    simp only [getLogs, getLogsRange, hl, Reply.internal, Reply.bind, hnum, Option.map_none,
      Option.getD_none, Nat.min_self, Nat.lt_irrefl, if_false, Nat.sub_self]
    have hri : rangeIncl 0 0 = [0] := rfl
    rw [hri]
    simp only [logsOfRange, if_true, Bool.false_eq_true, if_false]
    rw [if_pos (by simp)]
    simp only [logsOfBlock, hrec, Reply.internal, Reply.bind]
    simp only [List.filterMap_cons, id, extendLogs, List.nil_append]
    rw [hone, if_pos hlen]
  · intro heq
    have := congrArg List.length heq
    simp only [rangeEntries, List.drop_zero, List.take_succ_cons, List.take_zero,
      Nat.sub_zero, Nat.zero_add, List.flatMap_cons, List.flatMap_nil, List.append_nil,
      blockEntries, hr, List.zipIdx_cons, List.zipIdx_nil, List.length_append, entries_all] at this
    have hp := List.length_pos_iff.2 h2
    omega

/-! ## A chain of two blocks -/

/-- The adapter that reads a chain. -/
def ofChain (chain : List Full) : Adapter where
  block n := some (chain[n]?.map (·.block))
  latest := chain.getLast?.map (·.block)
  blockByHash h := some ((chain.find? fun f => f.block.header.stateRoot = h).map (·.block))
  numberByHash h := some (chain.findIdx? fun f => f.block.header.stateRoot = h)
  receipts n _ := (chain[n]?).map fun f => f.receipts.map some

theorem serves_ofChain {chain : List Full} (h : Wf chain) : Serves (ofChain chain) chain where
  wf := h
  block _ := rfl
  latest := rfl
  receipts n f hf := by simp [ofChain, hf]

namespace Sample

def h32 (n : UInt8) : H256 := ⟨List.replicate 32 n, by simp⟩
def h20 (n : UInt8) : H160 := ⟨List.replicate 20 n, by simp⟩
def u64 (n : Nat) (h : n < 2 ^ 64 := by decide) : U64 := ⟨n, h⟩

def header (n : Nat) (h : n < 2 ^ 64) : Header :=
  { prevHash := h32 0, proposer := h20 0, stateRoot := h32 (UInt8.ofNat n),
    transactionsRoot := h32 0, signedTxsHash := h32 0, receiptsRoot := h32 0,
    logBloom := ⟨List.replicate 256 0, List.length_replicate⟩, timestamp := u64 0, number := ⟨n, h⟩,
    gasUsed := u64 0, gasLimit := u64 30000000, extraData := [], baseFeePerGas := u64 1337,
    proof := ⟨u64 0, u64 0, h32 0, [], []⟩, callSystemScriptCount := ⟨0, by decide⟩,
    chainId := u64 2022 }

def rcpt (number : U64) (idx : U32) (logs : List Log) : Rcpt :=
  { txHash := h32 8, blockNumber := number, blockHash := h32 77, txIndex := idx,
    stateRoot := h32 0, usedGas := u64 21000,
    logsBloom := ⟨List.replicate 256 0, List.length_replicate⟩, logs := logs,
    logIndex := ⟨0, by decide⟩, codeAddress := none, sender := h20 1, ret := true,
    removed := false }

def logA : Log := ⟨h20 3, [h32 1, h32 2], [9]⟩
def logB : Log := ⟨h20 4, [h32 5], []⟩

def block0 : Full := ⟨⟨header 0 (by decide), []⟩, []⟩

def block1 : Full := ⟨⟨header 1 (by decide), [h32 8, h32 9]⟩,
  [rcpt (u64 1) ⟨0, by decide⟩ [logB, logA], rcpt (u64 1) ⟨1, by decide⟩ [logA]]⟩

def chain : List Full := [block0, block1]

theorem wf : Wf chain where
  number n f h := by
    match n with
    | 0 => simp [chain] at h; subst h; rfl
    | 1 => simp [chain] at h; subst h; rfl
    | n + 2 => simp [chain] at h
  receipts f h := by
    simp only [chain, List.mem_cons, List.not_mem_nil, or_false] at h
    rcases h with rfl | rfl <;> rfl
  nonempty := by simp [chain]

/-- A query with an address and a pattern with a wildcard and alternatives finds both logs. -/
example : getLogs (ofChain chain) 10
    { fromBlock := some .earliest, address := .single (h20 3),
      topics := some [.null, .multi [some (h32 7), some (h32 2)]] } =
    .ok [web3Log 0 1 (rcpt (u64 1) ⟨0, by decide⟩ [logB, logA]) logA,
      web3Log 1 0 (rcpt (u64 1) ⟨1, by decide⟩ [logA]) logA] := by decide +kernel

example : ([MultiNest.null, .multi [some (h32 7), some (h32 2)]]).length ≤ 4 := by decide

/-- A pattern of five positions returns the log of four topics that matches the first four. -/
example : topicsMatch ((List.replicate 5 MultiNest.null).take 4)
    (⟨h20 3, [h32 1, h32 2, h32 3, h32 4], []⟩ : Log).topics = true := by decide +kernel

/-- The block of `C83_truncated_false` exists. -/
def many : List Log := List.replicate 10001 logB

def bigBlock : Full := ⟨⟨header 0 (by decide), [h32 8, h32 9]⟩,
  [rcpt (u64 0) ⟨0, by decide⟩ many, rcpt (u64 0) ⟨1, by decide⟩ [logA]]⟩

theorem wfBig : Wf [bigBlock] where
  number n f h := by
    match n with
    | 0 => simp at h; subst h; rfl
    | n + 1 => simp at h
  receipts f h := by simp at h; subst h; rfl
  nonempty := by simp

example : rangeEntries .null none [bigBlock] 0 0 ≠
    entries .null none 0 (rcpt (u64 0) ⟨0, by decide⟩ many) :=
  (C83_truncated_false (ofChain [bigBlock]) bigBlock (serves_ofChain wfBig) _ _ rfl
    (by show 10000 < many.length; rw [many, List.length_replicate]; decide) (List.cons_ne_nil _ _)).2

end Sample

end Axon.Api
