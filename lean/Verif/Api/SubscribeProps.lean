import Verif.Api.Subscribe
import Verif.Api.BlockReportProps
import Verif.Api.FilterProps

/-!
# C101: a subscriber is told of every new block and of every matching log, once and in order

Specification: an execution feeds the task with subscriptions and ticks while the chain grows; what a subscriber
should receive is a function of the blocks added since.
-/

namespace Axon.Api.Sub

open Axon Axon.Block Axon.Api

variable {σ : Type}

/-! ## Specification -/

/-- The sink an event opens. -/
def Event.opens : Event σ → Option Nat
  | .newHeads s => some s
  | .logs s _ _ => some s
  | .syncing s => some s
  | .tick .. => none

/-- The event does not find the sink closed. -/
def Event.keeps (s : Nat) : Event σ → Prop
  | .tick _ closed _ => closed s = false
  | _ => True

/-- Executions: the chain is `c` before, and grows between the ticks to `c'`. -/
inductive Feed : List Full → List (Event σ) → List Full → Prop
  | nil (c) : Feed c [] c
  | opened {c es c'} (e : Event σ) (s : Nat) : e.opens = some s → Feed c es c' → Feed c (e :: es) c'
  | tick {c c1 es c'} (A : Adapter) (closed : Nat → Bool) (sync : σ) :
      Serves A c1 → c <+: c1 → Feed c1 es c' → Feed c (.tick A closed sync :: es) c'

/-- The messages made for a sink. -/
def made (s : Nat) (fs : List (Future σ)) : List (Msg σ) := (fs.filter (·.sink == s)).map (·.msg)

/-- What a subscriber to `newHeads` is due for the blocks `fs`. -/
def dueHeads (fs : List Full) : List (Msg σ) := fs.map fun f => .head (web3Header f.block.header)

/-- What a subscriber to logs is due for the blocks `fs`. -/
def dueLogs (a : MultiAddr) (t : Option (List MultiNest)) (fs : List Full) : List (Msg σ) :=
  (fs.flatMap (blockEntries a t)).map .log

/-- A message without the position of the transaction. -/
def Msg.unplaced : Msg σ → Msg σ
  | .log g => .log { g with transactionIndex := 0 }
  | m => m

/-! ## Helpers -/

theorem made_append (s : Nat) (a b : List (Future σ)) : made s (a ++ b) = made s a ++ made s b := by
  simp [made]

theorem made_flatMap {α : Type} (s : Nat) (l : List α) (f : α → List (Future σ)) :
    made s (l.flatMap f) = l.flatMap fun x => made s (f x) := by
  induction l with
  | nil => rfl
  | cons a l ih => rw [List.flatMap_cons, made_append, ih, List.flatMap_cons]

theorem made_cons (s : Nat) (f : Future σ) (fs : List (Future σ)) :
    made s (f :: fs) = if f.sink == s then f.msg :: made s fs else made s fs := by
  unfold made
  rw [List.filter_cons]
  split <;> rfl

theorem made_map (s : Nat) (l : List Nat) (m : Msg σ) :
    made s (l.map fun x => send x m) = (l.filter (· == s)).map fun _ => m := by
  induction l with
  | nil => rfl
  | cons a l ih =>
    rw [List.map_cons, made_cons, ih, List.filter_cons]
    show (if (a == s) = true then _ else _) = _
    split <;> rfl

theorem made_sends {α : Type} (s x : Nat) (l : List α) (f : α → Msg σ) :
    made s (l.map fun g => send x (f g)) = if x == s then l.map f else [] := by
  induction l with
  | nil => simp [made]
  | cons a l ih =>
    rw [List.map_cons, made_cons, ih]
    show (if (x == s) = true then _ else _) = _
    split <;> simp_all [send]

theorem made_receiptLogs (s : Nat) (hubs : List (Nat × LogFilter)) (rs : List Rcpt) (k : Nat) :
    made (σ := σ) s (receiptLogs hubs k rs) = made s (receiptLogs (hubs.filter fun p => p.1 == s) k rs) := by
  induction rs generalizing k with
  | nil => rfl
  | cons r rs ih =>
    simp only [receiptLogs, made_append, ih (k + r.logs.length)]
    congr 1
    clear ih
    induction hubs with
    | nil => rfl
    | cons p hubs ih2 =>
      obtain ⟨x, f⟩ := p
      rw [List.flatMap_cons, made_append, ih2]
      by_cases hx : (x == s) = true
      · rw [List.filter_cons_of_pos (by simpa using hx), List.flatMap_cons, made_append]
      · rw [List.filter_cons_of_neg (by simpa using hx), made_sends, if_neg hx]
        rfl

theorem blocksAt_spec {A : Adapter} {c : List Full} (hA : Serves A c) (k : Nat) : ∀ s, s + k ≤ c.length →
    blocksAt A (List.range' s k) = .ok (((c.drop s).take k).map (·.block)) := by
  induction k with
  | zero => intro s _; simp [blocksAt]
  | succ k ih =>
    intro s hs
    rw [List.range'_succ, blocksAt, hA.block s, List.getElem?_eq_getElem (by omega), ih (s + 1) (by omega),
      List.drop_eq_getElem_cons (show s < c.length by omega)]
    rfl

theorem blockLogs_spec {A : Adapter} {c : List Full} (hA : Serves A c) (hubs : List (Nat × LogFilter)) (k : Nat) :
    ∀ s, s + k ≤ c.length →
      blockLogs (σ := σ) A hubs (((c.drop s).take k).map fun f => (f.block.header.number.val, f.block.txHashes)) =
        .ok (((c.drop s).take k).flatMap fun f => receiptLogs hubs 0 f.receipts) := by
  induction k with
  | zero => intro s _; simp [blockLogs]
  | succ k ih =>
    intro s hs
    have hg : c[s]? = some c[s] := List.getElem?_eq_getElem (by omega)
    rw [List.drop_eq_getElem_cons (show s < c.length by omega), List.take_succ_cons, List.map_cons, blockLogs,
      hA.wf.number s _ hg, hA.receipts s _ hg, ih (s + 1) (by omega)]
    simp only [Reply.unwrap, Reply.bind, filterMap_map_some, List.flatMap_cons]

/-- One tick over a chain. -/
theorem notify_spec {A : Adapter} {c c1 : List Full} (hA : Serves A c1) (hp : c <+: c1) (closed : Nat → Bool) (sync : σ)
    (st : State) (hcur : st.current + 1 = c.length) :
    notify A closed sync st =
      .ok ({ retain closed st with current := c1.length - 1 },
        ((c1.drop c.length).flatMap fun f =>
          (retain closed st).headerHubs.map fun s => send s (.head (web3Header f.block.header))) ++
        (if c1.length = c.length then [] else (retain closed st).syncHubs.map fun s => send s (.sync sync)) ++
        ((c1.drop c.length).flatMap fun f => receiptLogs (retain closed st).logHubs 0 f.receipts)) := by
  obtain ⟨f, h1, h2, h3⟩ := latest_of_serves hA
  have hlen := hp.length_le
  unfold notify
  simp only [h2, Reply.unwrap, Reply.bind, h3]
  have hc : (retain closed st).current = st.current := rfl
  by_cases heq : c1.length = c.length
  · rw [if_pos (by rw [hc]; omega)]
    have : c1.drop c.length = [] := List.drop_eq_nil_iff.2 (by omega)
    rw [this, if_pos heq]
    have e : c1.length - 1 = (retain closed st).current := by rw [hc]; omega
    rw [e]
    rfl
  · rw [if_neg (by rw [hc]; omega), if_neg heq]
    have hb : blocksAt A (List.range' ((retain closed st).current + 1) (c1.length - 1 - ((retain closed st).current + 1))) =
        .ok (((c1.drop c.length).take (c1.length - 1 - c.length)).map (·.block)) := by
      rw [hc, hcur]
      exact blocksAt_spec hA _ _ (by omega)
    have hsplit : (c1.drop c.length).take (c1.length - 1 - c.length) ++ [f] = c1.drop c.length := by
      have e1 : (c1.drop c.length).length = (c1.length - 1 - c.length) + 1 := by
        rw [List.length_drop]; omega
      have e2 : (c1.drop c.length)[c1.length - 1 - c.length]? = some f := by
        rw [List.getElem?_drop, ← h1]
        congr 1
        omega
      have e3 := List.take_add_one (l := c1.drop c.length) (i := c1.length - 1 - c.length)
      rw [← e1, List.take_length, e2] at e3
      exact e3.symm
    simp only [hb]
    have hlogs : blockLogs (σ := σ) A (retain closed st).logHubs
        ((((c1.drop c.length).take (c1.length - 1 - c.length)).map (·.block)).map
          (fun b => (b.header.number.val, b.txHashes)) ++ [(c1.length - 1, f.block.txHashes)]) =
        .ok ((c1.drop c.length).flatMap fun f => receiptLogs (retain closed st).logHubs 0 f.receipts) := by
      have := blockLogs_spec (σ := σ) hA (retain closed st).logHubs (c1.length - c.length) c.length (by omega)
      have ht : (c1.drop c.length).take (c1.length - c.length) = c1.drop c.length :=
        List.take_of_length_le (by rw [List.length_drop]; omega)
      rw [ht] at this
      rw [← this]
      congr 1
      conv => rhs; rw [← hsplit]
      rw [List.map_append, List.map_map, List.map_singleton, h3]
      rfl
    have hheads : ((((c1.drop c.length).take (c1.length - 1 - c.length)).map (·.block)) ++ [f.block]).flatMap
        (fun b => (retain closed st).headerHubs.map fun s => send (σ := σ) s (.head (web3Header b.header))) =
        (c1.drop c.length).flatMap fun f =>
          (retain closed st).headerHubs.map fun s => send s (.head (web3Header f.block.header)) := by
      conv => rhs; rw [← hsplit]
      simp only [List.flatMap_append, List.flatMap_map, List.flatMap_cons, List.flatMap_nil, List.append_nil]
    have hnologs : (retain closed st).logHubs = [] →
        ((c1.drop c.length).flatMap fun f => receiptLogs (σ := σ) (retain closed st).logHubs 0 f.receipts) = [] := by
      intro e
      rw [e]
      have : ∀ (rs : List Rcpt) (k : Nat), receiptLogs (σ := σ) [] k rs = [] := by
        intro rs
        induction rs with
        | nil => intro k; rfl
        | cons r rs ih => intro k; simp [receiptLogs, ih]
      simp [this]
    have hnoheads : (retain closed st).headerHubs = [] → ((c1.drop c.length).flatMap fun f =>
          (retain closed st).headerHubs.map fun s => send (σ := σ) s (.head (web3Header f.block.header))) = [] := by
      intro e
      rw [e]
      simp
    generalize (retain closed st).syncHubs.map (fun s => send s (.sync sync)) = sy
    by_cases hh : (retain closed st).headerHubs = []
    · rw [hnoheads hh]
      by_cases hl : (retain closed st).logHubs = []
      · rw [hnologs hl]
        simp [hh, hl]
      · simp only [hh, hl, List.isEmpty_nil, if_true, List.isEmpty_iff, if_false, hlogs]
    · by_cases hl : (retain closed st).logHubs = []
      · rw [hnologs hl]
        simp only [hh, hl, List.isEmpty_iff, List.isEmpty_nil, if_true, if_false, hheads]
      · simp only [hh, hl, List.isEmpty_iff, if_false, hheads]
        by_cases hv : (((c1.drop c.length).take (c1.length - 1 - c.length)).map (·.block)).map
          (fun b => (b.header.number.val, b.txHashes)) = []
        · rw [if_pos hv]
          simp only [hlogs]
        · rw [if_neg hv]
          simp only [hlogs]

/-- The subscriptions of a sink. -/
structure Holds (st : State) (s : Nat) (hs : List Nat) (ls : List (Nat × LogFilter)) : Prop where
  heads : st.headerHubs.filter (· == s) = hs
  logs : st.logHubs.filter (fun p => p.1 == s) = ls
  sync : st.syncHubs.filter (· == s) = []

theorem filter_retain {α : Type} (p q : α → Bool) (l : List α) (h : ∀ x, p x = true → q x = true) :
    (l.filter q).filter p = l.filter p := by
  rw [List.filter_filter]
  apply List.filter_congr
  intro x _
  cases hp : p x with
  | false => simp
  | true => simp [h x hp]

theorem Holds.retain {st : State} {s : Nat} {hs ls} (h : Holds st s hs ls) {closed : Nat → Bool}
    (hc : closed s = false) (n : Nat) : Holds { Sub.retain closed st with current := n } s hs ls := by
  refine ⟨?_, ?_, ?_⟩
  · rw [← h.heads]
    exact filter_retain _ _ _ fun x hx => by simp at hx; subst hx; simp [hc]
  · rw [← h.logs]
    exact filter_retain _ _ _ fun x hx => by simp at hx; subst hx; simp [hc]
  · rw [← h.sync]
    exact filter_retain _ _ _ fun x hx => by simp at hx; subst hx; simp [hc]

theorem Holds.step {st st' : State} {s : Nat} {hs ls} (h : Holds st s hs ls) {e : Event σ} {x : Nat}
    (ho : e.opens = some x) (hne : x ≠ s) : ∃ st', step st e = .ok (st', []) ∧ st'.current = st.current ∧
      Holds st' s hs ls := by
  have hx : (x == s) = false := by simp [hne]
  cases e with
  | newHeads y =>
    cases ho
    refine ⟨_, rfl, rfl, ⟨?_, h.logs, h.sync⟩⟩
    simp [h.heads, hx]
  | logs y a t =>
    cases ho
    refine ⟨_, rfl, rfl, ⟨h.heads, ?_, h.sync⟩⟩
    simp [h.logs, hx]
  | syncing y =>
    cases ho
    refine ⟨_, rfl, rfl, ⟨h.heads, h.logs, ?_⟩⟩
    simp [h.sync, hx]
  | tick => cases ho

/-- What is made for a sink in an execution, block by block. -/
theorem run_made {c c' : List Full} {es : List (Event σ)} (hf : Feed c es c') (s : Nat) (hs : List Nat)
    (ls : List (Nat × LogFilter)) (hor : hs = [] ∨ ls = []) : ∀ (st : State), st.current + 1 = c.length →
    Holds st s hs ls → (∀ e ∈ es, e.opens ≠ some s ∧ e.keeps s) →
    c <+: c' ∧ ∃ st' fs, run st es = .ok (st', fs) ∧ st'.current + 1 = c'.length ∧ Holds st' s hs ls ∧
      made s fs = (c'.drop c.length).flatMap fun f =>
        (hs.map fun _ => .head (web3Header f.block.header)) ++ made s (receiptLogs ls 0 f.receipts) := by
  induction hf with
  | nil c =>
    intro st hcur h _
    refine ⟨List.prefix_refl _, st, [], rfl, hcur, h, ?_⟩
    rw [List.drop_length]
    rfl
  | @opened c es c' e x ho _ ih =>
    intro st hcur h hes
    have hne : x ≠ s := by
      intro he
      subst he
      exact (hes e (by simp)).1 ho
    obtain ⟨st1, h1, h2, h3⟩ := h.step (st' := st) ho hne
    obtain ⟨hp, st', fs, h4, h5, h6, h7⟩ := ih st1 (by omega) h3 fun e' he' => hes e' (by simp [he'])
    refine ⟨hp, st', fs, ?_, h5, h6, h7⟩
    simp only [run, h1, Reply.bind, h4, List.nil_append]
  | @tick c c1 es c' A closed sync hA hp _ ih =>
    intro st hcur h hes
    have hk : closed s = false := (hes (.tick A closed sync) (by simp)).2
    have hn := notify_spec (σ := σ) hA hp closed sync st hcur
    have h3 := h.retain hk (c1.length - 1)
    have hpos : 0 < c1.length := List.length_pos_iff.2 hA.wf.nonempty
    obtain ⟨hp', st', fs, h4, h5, h6, h7⟩ := ih { Sub.retain closed st with current := c1.length - 1 }
      (by show c1.length - 1 + 1 = _; omega) h3 fun e' he' => hes e' (by simp [he'])
    refine ⟨hp.trans hp', st', ?fs, ?run, h5, h6, ?made⟩
    case run =>
      simp only [run, step, hn, Reply.bind, h4]
      rfl
    case made =>
      rw [made_append, made_append, made_append, h7, made_flatMap, made_flatMap]
      have hsy : made s (if c1.length = c.length then [] else
          (Sub.retain closed st).syncHubs.map fun x => send x (Msg.sync sync)) = [] := by
        split
        · rfl
        · rw [made_map, show (Sub.retain closed st).syncHubs.filter (· == s) = [] from h3.sync]
          rfl
      rw [hsy, List.append_nil]
      have hd : c'.drop c.length = c1.drop c.length ++ c'.drop c1.length := by
        obtain ⟨t, rfl⟩ := hp'
        rw [List.drop_append_of_le_length hp.length_le, List.drop_left]
      rw [hd, List.flatMap_append]
      congr 1
      have e1 : ∀ f : Full, made s ((Sub.retain closed st).headerHubs.map fun x =>
          send (σ := σ) x (.head (web3Header f.block.header))) = hs.map fun _ => .head (web3Header f.block.header) := by
        intro f
        rw [made_map, show (Sub.retain closed st).headerHubs.filter (· == s) = hs from h3.heads]
      have e2 : ∀ f : Full, made (σ := σ) s (receiptLogs (Sub.retain closed st).logHubs 0 f.receipts) =
          made s (receiptLogs ls 0 f.receipts) := by
        intro f
        rw [made_receiptLogs, show (Sub.retain closed st).logHubs.filter (fun p => p.1 == s) = ls from h3.logs]
      simp only [e1, e2]
      rcases hor with rfl | rfl
      · simp
      · have : ∀ (rs : List Rcpt) (k : Nat), receiptLogs (σ := σ) [] k rs = [] := by
          intro rs
          induction rs with
          | nil => intro k; rfl
          | cons r rs ih => intro k; simp [receiptLogs, ih]
        have h0 : made (σ := σ) s [] = [] := rfl
        simp [this, h0]

/-- The entries of a block as they are made: the number of logs before stands for the position. -/
def counted (a : MultiAddr) (t : Option (List MultiNest)) : Nat → List Rcpt → List Web3Log
  | _, [] => []
  | k, r :: rs => entries a t k r ++ counted a t (k + r.logs.length) rs

theorem made_counted (s : Nat) (a : MultiAddr) (t : Option (List MultiNest)) (ht : (t.getD []).length ≤ 4)
    (rs : List Rcpt) (k : Nat) :
    made (σ := σ) s (receiptLogs [(s, LogFilter.ofRaw a t)] k rs) = (counted a t k rs).map .log := by
  induction rs generalizing k with
  | nil => rfl
  | cons r rs ih =>
    rw [receiptLogs, made_append, ih, counted, List.map_append]
    congr 1
    rw [List.flatMap_cons, List.flatMap_nil, List.append_nil, made_sends, if_pos (by simp)]
    congr 1
    exact C49_match_partial a t ht k r

theorem entries_unplaced (a : MultiAddr) (t : Option (List MultiNest)) (i j : Nat) (r : Rcpt) :
    (entries a t i r).map (fun g => { g with transactionIndex := 0 }) =
      (entries a t j r).map (fun g => { g with transactionIndex := 0 }) := by
  unfold entries
  rw [List.map_map, List.map_map]
  rfl

theorem counted_unplaced (a : MultiAddr) (t : Option (List MultiNest)) (rs : List Rcpt) (k j : Nat) :
    (counted a t k rs).map (fun g => { g with transactionIndex := 0 }) =
      ((rs.zipIdx j).flatMap fun (r, i) => entries a t i r).map (fun g => { g with transactionIndex := 0 }) := by
  induction rs generalizing k j with
  | nil => rfl
  | cons r rs ih =>
    rw [counted, List.map_append, ih _ (j + 1), List.zipIdx_cons, List.flatMap_cons, List.map_append,
      entries_unplaced a t k j]

theorem run_unawaited {es : List (Event σ)} : ∀ {st st' : State} {fs : List (Future σ)},
    run st es = .ok (st', fs) → ∀ f ∈ fs, f.awaited = false := by
  have hrec : ∀ (hubs : List (Nat × LogFilter)) (rs : List Rcpt) (k : Nat),
      ∀ f ∈ receiptLogs (σ := σ) hubs k rs, f.awaited = false := by
    intro hubs rs
    induction rs with
    | nil => intro k f hf; cases hf
    | cons r rs ih =>
      intro k f hf
      simp only [receiptLogs, List.mem_append, List.mem_flatMap, List.mem_map] at hf
      rcases hf with ⟨p, _, g, _, rfl⟩ | hf
      · rfl
      · exact ih _ _ hf
  have hblk : ∀ (A : Adapter) (hubs : List (Nat × LogFilter)) (v : List (Nat × List H256)) (fs : List (Future σ)),
      blockLogs A hubs v = .ok fs → ∀ f ∈ fs, f.awaited = false := by
    intro A hubs v
    induction v with
    | nil => intro fs h f hf; cases h; cases hf
    | cons p v ih =>
      intro fs h f hf
      obtain ⟨n, hashes⟩ := p
      rw [blockLogs] at h
      obtain ⟨rs, _, h⟩ := bind_ok h
      obtain ⟨gs, hg, h⟩ := bind_ok h
      cases h
      rcases List.mem_append.1 hf with hf | hf
      · exact hrec _ _ _ _ hf
      · exact ih gs hg f hf
  induction es with
  | nil => intro st st' fs h f hf; cases h; cases hf
  | cons e es ih =>
    intro st st' fs h f hf
    rw [run] at h
    obtain ⟨⟨st1, f1⟩, h1, h⟩ := bind_ok h
    obtain ⟨⟨st2, f2⟩, h2, h⟩ := bind_ok h
    cases h
    rcases List.mem_append.1 hf with hf | hf
    · cases e with
      | newHeads => cases h1; cases hf
      | logs => cases h1; cases hf
      | syncing => cases h1; cases hf
      | tick A closed sync =>
        simp only [step, notify] at h1
        obtain ⟨latest, _, h1⟩ := bind_ok h1
        split at h1
        · cases h1; cases hf
        · obtain ⟨⟨vec, heads⟩, hh, h1⟩ := bind_ok h1
          obtain ⟨logs, hl, h1⟩ := bind_ok h1
          cases h1
          rcases List.mem_append.1 hf with hf | hf
          · rcases List.mem_append.1 hf with hf | hf
            · split at hh
              · cases hh; cases hf
              · obtain ⟨bs, _, hh⟩ := bind_ok hh
                cases hh
                simp only [List.mem_flatMap, List.mem_map] at hf
                obtain ⟨b, _, x, _, rfl⟩ := hf
                rfl
            · simp only [List.mem_map] at hf
              obtain ⟨x, _, rfl⟩ := hf
              rfl
          · split at hl
            · cases hl; cases hf
            · obtain ⟨v, _, hl⟩ := bind_ok hl
              exact hblk _ _ _ _ hl _ hf
    · exact ih h2 f hf

/-! ## C101 -/

/-- C101 is false: nothing is ever delivered, in no execution and to no subscriber. -/
theorem C101_never_false {st st' : State} {es : List (Event σ)} {fs : List (Future σ)}
    (h : run st es = .ok (st', fs)) : delivered fs = [] := by
  unfold delivered
  rw [List.map_eq_nil_iff, List.filter_eq_nil_iff]
  intro f hf
  simp [run_unawaited h f hf]

/-- The messages made for a subscriber to `newHeads` are the headers of the blocks added since, each once and in
order, and no tick stops the node.  Missing: they are not sent (`C101_never_false`). -/
theorem C101_heads_partial {c c' : List Full} {es : List (Event σ)} (hf : Feed c es c') (s : Nat) (st : State)
    (hcur : st.current + 1 = c.length) (h : Holds st s [s] []) (hes : ∀ e ∈ es, e.opens ≠ some s ∧ e.keeps s) :
    ∃ st' fs, run st es = .ok (st', fs) ∧ made s fs = dueHeads (c'.drop c.length) := by
  obtain ⟨_, st', fs, h1, _, _, h2⟩ := run_made hf s [s] [] (Or.inr rfl) st hcur h hes
  refine ⟨st', fs, h1, ?_⟩
  have : ∀ (rs : List Rcpt) (k : Nat), receiptLogs (σ := σ) [] k rs = [] := by
    intro rs
    induction rs with
    | nil => intro k; rfl
    | cons r rs ih => intro k; simp [receiptLogs, ih]
  have h0 : made (σ := σ) s [] = [] := rfl
  simp only [h2, this, h0, List.append_nil, List.map_cons, List.map_nil]
  unfold dueHeads
  rw [List.map_eq_flatMap]

/-- The messages made for a subscriber to logs are, but for the position of the transaction, the matching logs of
the blocks added since, each once and in order.  Missing: the position (`C101_position_false`), patterns of more
than four topics, and that they are sent (`C101_never_false`). -/
theorem C101_logs_partial {c c' : List Full} {es : List (Event σ)} (hf : Feed c es c') (s : Nat) (a : MultiAddr)
    (t : Option (List MultiNest)) (ht : (t.getD []).length ≤ 4) (st : State) (hcur : st.current + 1 = c.length)
    (h : Holds st s [] [(s, LogFilter.ofRaw a t)]) (hes : ∀ e ∈ es, e.opens ≠ some s ∧ e.keeps s) :
    ∃ st' fs, run st es = .ok (st', fs) ∧
      made s fs = ((c'.drop c.length).flatMap fun f => counted a t 0 f.receipts).map .log ∧
      (made s fs).map Msg.unplaced = (dueLogs a t (c'.drop c.length)).map Msg.unplaced := by
  obtain ⟨_, st', fs, h1, _, _, h2⟩ := run_made hf s [] [(s, LogFilter.ofRaw a t)] (Or.inl rfl) st hcur h hes
  have h3 : made s fs = ((c'.drop c.length).flatMap fun f => counted a t 0 f.receipts).map .log := by
    rw [h2]
    simp only [List.map_nil, List.nil_append, made_counted s a t ht]
    rw [List.map_flatMap]
  refine ⟨st', fs, h1, h3, ?_⟩
  rw [h3, dueLogs, List.map_map, List.map_map]
  have key : ∀ l : List Full, (l.flatMap fun f => counted a t 0 f.receipts).map (fun g => { g with transactionIndex := 0 })
      = (l.flatMap (blockEntries a t)).map (fun g => { g with transactionIndex := 0 }) := by
    intro l
    induction l with
    | nil => rfl
    | cons f l ih =>
      rw [List.flatMap_cons, List.flatMap_cons, List.map_append, List.map_append, ih, counted_unplaced a t _ 0 0]
      rfl
  have := congrArg (List.map (Msg.log (σ := σ))) (key (c'.drop c.length))
  rw [List.map_map, List.map_map] at this
  exact this

/-- A subscriber from the beginning of its subscription: whatever was open before, it is told from the last tick
before it came. -/
theorem C101_from_start_partial {c0 c1 c2 : List Full} {es es' : List (Event σ)} (h1 : Feed c0 es c1) (h2 : Feed c1 es' c2)
    {st st' : State} (hcur : st.current + 1 = c0.length) (hempty : st = ⟨[], [], [], st.current⟩) (s : Nat)
    (hes : ∀ e ∈ es, e.opens ≠ some s) (hes' : ∀ e ∈ es', e.opens ≠ some s ∧ e.keeps s) {fs : List (Future σ)}
    (hr : run st es = .ok (st', fs)) :
    ∃ st'' gs, run st' (.newHeads s :: es') = .ok (st'', gs) ∧ made s gs = dueHeads (c2.drop c1.length) := by
  have inv : ∀ {c c' : List Full} {es : List (Event σ)} (_ : Feed c es c') (st st' : State) (fs : List (Future σ)),
      st.current + 1 = c.length → Holds st s [] [] → (∀ e ∈ es, e.opens ≠ some s) → run st es = .ok (st', fs) →
      st'.current + 1 = c'.length ∧ Holds st' s [] [] := by
    intro c c' es hf
    induction hf with
    | nil c => intro st st' fs hc h _ hr; cases hr; exact ⟨hc, h⟩
    | @opened c es c' e x ho _ ih =>
      intro st st' fs hc h hes hr
      have hne : x ≠ s := by
        intro he
        subst he
        exact hes e (by simp) ho
      obtain ⟨st1, e1, e2, e3⟩ := h.step (st' := st) ho hne
      rw [run, e1] at hr
      simp only [Reply.bind] at hr
      obtain ⟨⟨st2, f2⟩, e4, e5⟩ := bind_ok hr
      cases e5
      exact ih st1 st2 f2 (by omega) e3 (fun e' he' => hes e' (by simp [he'])) e4
    | @tick c c1 es c' A closed sync hA hp _ ih =>
      intro st st' fs hc h hes hr
      have hpos : 0 < c1.length := List.length_pos_iff.2 hA.wf.nonempty
      rw [run, step, notify_spec (σ := σ) hA hp closed sync st hc] at hr
      simp only [Reply.bind] at hr
      obtain ⟨⟨st2, f2⟩, e4, e5⟩ := bind_ok hr
      cases e5
      refine ih _ st2 f2 (by show c1.length - 1 + 1 = _; omega) ⟨?_, ?_, ?_⟩ (fun e' he' => hes e' (by simp [he'])) e4
      · show (List.filter _ st.headerHubs).filter _ = []
        have := h.heads
        rw [List.filter_eq_nil_iff] at *
        intro x hx
        exact this x (List.mem_filter.1 hx).1
      · show (List.filter _ st.logHubs).filter _ = []
        have := h.logs
        rw [List.filter_eq_nil_iff] at *
        intro x hx
        exact this x (List.mem_filter.1 hx).1
      · show (List.filter _ st.syncHubs).filter _ = []
        have := h.sync
        rw [List.filter_eq_nil_iff] at *
        intro x hx
        exact this x (List.mem_filter.1 hx).1
  obtain ⟨hc1, hh⟩ := inv h1 st st' fs hcur (by rw [hempty]; exact ⟨rfl, rfl, rfl⟩) hes hr
  obtain ⟨st'', gs, e1, e2⟩ := C101_heads_partial h2 s { st' with headerHubs := st'.headerHubs ++ [s] } hc1
    ⟨by simp [hh.heads], hh.logs, hh.sync⟩ hes'
  refine ⟨st'', gs, ?_, e2⟩
  simp only [run, step, Reply.bind, e1, List.nil_append]

/-- C101 is false of the position: a log of the transaction behind the first `i` ones is announced with the number
of logs before it, so with a wrong position unless this happens to be `i`. -/
theorem C101_position_false (a : MultiAddr) (t : Option (List MultiNest)) (pre : List Rcpt) (r : Rcpt) (post : List Rcpt)
    (hsel : entries a t pre.length r ≠ []) (hne : (pre.map (·.logs.length)).sum ≠ pre.length) :
    ∃ l l' : List Web3Log, counted a t 0 (pre ++ r :: post) = l ++ l' ∧
      (l'.head?.map (·.transactionIndex)) = some (pre.map (·.logs.length)).sum ∧
      (l'.head?.map (·.transactionIndex)) ≠ some pre.length := by
  have split : ∀ (pre : List Rcpt) (k : Nat), counted a t k (pre ++ r :: post) =
      counted a t k pre ++ (entries a t (k + (pre.map (·.logs.length)).sum) r ++
        counted a t (k + (pre.map (·.logs.length)).sum + r.logs.length) post) := by
    intro pre
    induction pre with
    | nil => intro k; rfl
    | cons p pre ih =>
      intro k
      rw [List.cons_append, counted, ih, counted, List.append_assoc, List.map_cons, List.sum_cons, Nat.add_assoc]
  have hhead : ∀ j, ((entries a t j r).head?.map (·.transactionIndex)) = some j := by
    intro j
    unfold entries at *
    cases hq : (r.logs.zipIdx.filter fun (g, _) => selects a t g) with
    | nil => rw [hq] at hsel; exact absurd rfl hsel
    | cons x l => rfl
  refine ⟨_, _, split pre 0, ?_⟩
  have h1 : ∀ j l', ((entries a t j r ++ l').head?.map (·.transactionIndex)) = some j := by
    intro j l'
    have := hhead j
    cases hq : entries a t j r with
    | nil => rw [hq] at this; cases this
    | cons x l => rw [hq] at this; exact this
  rw [h1, Nat.zero_add]
  exact ⟨rfl, fun e => hne (Option.some.inj e)⟩

/-- C101 is false of `syncing`: a change of the status is not told until there is a new block. -/
theorem C101_sync_false {A : Adapter} {c : List Full} (hA : Serves A c) (closed : Nat → Bool) (sync : σ) (st : State)
    (hcur : st.current + 1 = c.length) :
    ∃ st', step st (.tick A closed sync) = .ok (st', []) := by
  have := notify_spec (σ := σ) hA (List.prefix_refl c) closed sync st hcur
  simp only [List.drop_length, List.flatMap_nil, if_pos, List.nil_append] at this
  exact ⟨_, this⟩

/-- The identifiers of fewer than 2^64 subscriptions are different. -/
theorem C101_ids (counter : Nat) (i j : Nat) (hij : i < j) (hj : j < 2 ^ 64) :
    (nextId ((counter + i) % 2 ^ 64)).1 ≠ (nextId ((counter + j) % 2 ^ 64)).1 ∧
    (nextId ((counter + i) % 2 ^ 64)).2 = (counter + (i + 1)) % 2 ^ 64 := by
  unfold nextId
  simp only
  constructor <;> omega

/-! ## An execution -/

open Axon.Api.Sample

/-- The state after the task started on a chain of one block. -/
def start : State := ⟨[], [], [], 0⟩

/-- A subscriber to headers, one to logs of an address, and a second block. -/
def story : List (Event Nat) :=
  [.newHeads 1, .logs 2 (.single (h20 3)) (some [.null, .single (h32 2)]), .tick (ofChain chain) (fun _ => false) 0]

example : Feed [block0] story chain :=
  .opened _ 1 rfl (.opened _ 2 rfl (.tick _ _ _ (serves_ofChain wf) ⟨[block1], rfl⟩ (.nil _)))

/-- Three messages are made: the header, and two logs, the second one (of the second transaction, position 1) with
position 2; none is delivered. -/
example : (match run start story with
    | .ok (st, fs) => some (st.current, made 1 fs == dueHeads [block1],
        (made 2 fs).map (fun | .log g => g.transactionIndex | _ => 9), (delivered fs).length)
    | _ => none) = some (1, true, [0, 2], 0) := by decide +kernel

example : Holds { start with headerHubs := [1] } 1 [1] [] := ⟨rfl, rfl, rfl⟩

/-- Two logs in the first transaction, one in the second. -/
example : entries (.single (h20 3)) none 1 (rcpt (u64 1) ⟨1, by decide⟩ [logA]) ≠ [] ∧
    ([rcpt (u64 1) ⟨0, by decide⟩ [logB, logA]].map (·.logs.length)).sum ≠ 1 := by decide +kernel

end Axon.Api.Sub
