import Verif.Cells.ChainDb
import Verif.Executor.SystemAbiLemmas
import Verif.Metadata.ChainDbProps

/-!
# C130: the CKB headers and cells of every committed block can be read from its state root

The two CKB contracts open their trie from the database for every call, by a root both keep in the state.
Whatever calls, other changes of the state, commits and restarts happen, from the state root of every committed
block one reads, through either contract, exactly the headers and cells that the calls up to it left, under the
hashes and out points asked for.

Assumed: the strings hashed in the run have different hashes, none of them zero (`Fine`); nothing else writes the
slots of the root (`Harmless`); cells have room in their encodings (`Roomy`) and no value is 4 GB long
(`Trie.Sized`).
-/

namespace Axon.CkbChain
open Axon.Rlp Axon.Assoc Axon.Exec Axon.WorldDb
open Axon.Trie (Node)
open Axon.Cells (OutPoint CellInfo HeaderAbi Call Ctx Reach FitsCall cellKey view specBlock backOuts backIns
  lastHeader unpackOutput u64Zero)
open Axon.MetaChain (ofVal toVal zeroRoot)

variable {H : Bytes → H256} {abi : HeaderAbi} {c : Chain} {m : Mem abi}

/-! ## Specification -/

/-- The cells after a call, given the cells before. -/
def cellAfter (v : OutPoint → Option CellInfo) : Call abi → OutPoint → Option CellInfo
  | .update bs => bs.foldl specBlock v
  | .rollback bs => fun o =>
    if o ∈ backOuts bs then none
    else if o ∈ backIns bs then (v o).map (fun c => { c with consumed := none })
    else v o
  | _ => v

/-- The cells after a list of calls. -/
def cells (calls : List (Call abi)) : OutPoint → Option CellInfo := calls.foldl cellAfter fun _ => none

/-- The headers after a call, given the headers before. -/
def headerAfter (v : H256 → Option abi.Header) : Call abi → H256 → Option abi.Header
  | .saveHeaders hs => fun k =>
    match lastHeader abi hs k with
    | some x => some x
    | none => v k
  | .removeHeaders l => fun k => if k ∈ l then none else v k
  | _ => v

/-- The headers after a list of calls. -/
def headers (calls : List (Call abi)) : H256 → Option abi.Header := calls.foldl headerAfter fun _ => none

/-- The contracts hold what the calls left. -/
structure Told (abi : HeaderAbi) (hist : List (Call abi)) (s : Ctx) : Prop where
  reach : Reach abi s
  cell : ∀ o, view s.current o = cells hist o
  header : ∀ k, Cells.getHeader abi s.current k = .ok (headers hist k)

theorem view_getCell {A : Cells.Trie} (h : Cells.Good A) {v : OutPoint → Option CellInfo}
    (hv : ∀ o, Cells.getCell A o = .ok (v o)) (o : OutPoint) : view A o = v o := by
  have := hv o
  rw [Cells.getCell_good h] at this
  exact Outcome.ok.inj this

theorem getHeader_rest {A A' : Cells.Trie} (h : ∀ k : Bytes, k.length ≠ 36 → get A' k = get A k) (k : H256) :
    Cells.getHeader abi A' k = Cells.getHeader abi A k := by
  unfold Cells.getHeader
  rw [h k.bytes (by rw [k.len]; decide)]

/-- A call that takes effect. -/
theorem told_trie {hist : List (Call abi)} {s : Ctx} (ht : Told abi hist s) {d : Call abi}
    (hf : FitsCall abi (some d)) {A : Cells.Trie} (hm : Cells.runTrie abi s.current d = .ok A)
    (hgood : Cells.Good A) :
    (∀ o, view A o = cells (hist ++ [d]) o) ∧ ∀ k, Cells.getHeader abi A k = .ok (headers (hist ++ [d]) k) := by
  have hg := (Cells.inv_reach abi ht.reach).good
  have hview : view s.current = cells hist := funext ht.cell
  have c1 : cells (hist ++ [d]) = cellAfter (cells hist) d := by simp [cells, List.foldl_append]
  have h1 : headers (hist ++ [d]) = headerAfter (headers hist) d := by simp [headers, List.foldl_append]
  rw [c1, h1]
  have same : ∀ {A : Cells.Trie}, Cells.Good A → (∀ o, Cells.getCell A o = Cells.getCell s.current o) →
      ∀ o, view A o = cells hist o := by
    intro A hA h o
    rw [← ht.cell o]
    exact view_getCell hA (v := view s.current) (fun o => by rw [h, Cells.getCell_good hg]) o
  cases d with
  | update bs =>
    obtain ⟨t', e1, e2, e3, e4⟩ := Cells.C40_update hg bs hf
    have : t' = A := Outcome.ok.inj (e1.symm.trans hm)
    subst this
    refine ⟨fun o => ?_, fun k => ?_⟩
    · rw [view_getCell e2 e3 o, hview]; rfl
    · rw [getHeader_rest e4, ht.header]; rfl
  | rollback bs =>
    obtain ⟨e1, e2, e3⟩ := (Cells.C40_rollback hg bs).2 A hm
    refine ⟨fun o => ?_, fun k => ?_⟩
    · rw [view_getCell e1 e2 o, hview]; rfl
    · rw [getHeader_rest e3, ht.header]; rfl
  | saveHeaders hs =>
    have : Cells.saveHeaders abi s.current hs = A := Outcome.ok.inj hm
    subst this
    obtain ⟨e1, e2⟩ := Cells.C73_update abi s.current hs
    refine ⟨same hgood e2, fun k => ?_⟩
    rw [e1, ht.header]
    show _ = Outcome.ok (match lastHeader abi hs k with
      | some x => some x
      | none => headers hist k)
    cases lastHeader abi hs k <;> rfl
  | removeHeaders l =>
    obtain ⟨e1, e2⟩ := (Cells.C73_rollback abi s.current l).2 A hm
    refine ⟨same hgood e2, fun k => ?_⟩
    rw [e1, ht.header]
    show _ = Outcome.ok (if k ∈ l then none else headers hist k)
    by_cases hk : k ∈ l <;> simp [hk]
  | setCellState b =>
    have : s.current = A := Outcome.ok.inj hm
    subst this
    exact ⟨ht.cell, ht.header⟩
  | setHeaderState b =>
    have : s.current = A := Outcome.ok.inj hm
    subst this
    exact ⟨ht.cell, ht.header⟩

theorem told_exec {hist : List (Call abi)} {s : Ctx} (ht : Told abi hist s) {d : Option (Call abi)}
    (hf : FitsCall abi d) {r : Ctx × Bool} (h : Cells.exec abi s d = .ok r) :
    Told abi (if r.2 then hist ++ d.toList else hist) r.1 := by
  obtain ⟨s', b⟩ := r
  have hr : Reach abi s' := .call ht.reach hf h
  cases b with
  | false =>
    have : s' = s := Cells.C40_atomic abi h
    subst this
    exact ht
  | true =>
    obtain ⟨d, t, rfl, hm, e1, -⟩ := Cells.exec_true abi h
    have hg := (Cells.inv_reach abi hr).good
    rw [e1] at hg
    have := told_trie ht hf hm hg
    refine ⟨hr, ?_, ?_⟩
    · rw [e1]; exact this.1
    · rw [e1]; exact this.2

theorem told_init : Told abi [] (Mem.init abi).s := by
  refine ⟨.init _ _, fun o => ?_, fun k => ?_⟩
  · exact view_getCell Cells.good_nil (v := fun _ => none) (fun o => rfl) o
  · rfl

theorem load_eq {s : Ctx} (h : s.lightRoot = s.current) : Cells.load s = s := by
  cases s
  simp_all [Cells.load]

theorem told_run : ∀ (ops : List (Op abi)) {m m' : Mem abi}, (∀ o ∈ ops, Roomy abi o) →
    memRun abi ops m = .ok m' → Told abi m.hist m.s → (∀ p ∈ m.saved, Told abi p.1 p.2) →
    Told abi m'.hist m'.s ∧ ∀ p ∈ m'.saved, Told abi p.1 p.2 := by
  intro ops
  induction ops with
  | nil => intro m m' _ h h1 h2; cases h; exact ⟨h1, h2⟩
  | cons o ops ih =>
    intro m m' hf h h1 h2
    simp only [memRun] at h
    have hfo := hf o (by simp)
    cases hm : memStep abi m o with
    | err => rw [hm] at h; cases h
    | panic => rw [hm] at h; cases h
    | ok m1 =>
      rw [hm] at h
      refine ih (fun o ho => hf o (by simp [ho])) h ?_ ?_
      · cases o with
        | boot => cases hm; exact h1
        | other => cases hm; exact h1
        | finish => cases hm; exact h1
        | block =>
          cases hm
          have e : Cells.load m.s = m.s := load_eq (Cells.inv_reach abi h1.reach).light
          show Told abi m.hist (Cells.load m.s)
          rw [e]; exact h1
        | call a d =>
          simp only [memStep] at hm
          cases hx : Cells.exec abi m.s d with
          | err => rw [hx] at hm; cases hm
          | panic => rw [hx] at hm; cases hm
          | ok r =>
            rw [hx] at hm
            cases hm
            exact told_exec h1 hfo hx
        | restart i =>
          simp only [memStep] at hm
          cases hp : m.saved[i]? with
          | none => rw [hp] at hm; cases hm; exact h1
          | some p => rw [hp] at hm; cases hm; exact h2 p (List.mem_of_getElem? hp)
      · cases o with
        | boot => cases hm; exact h2
        | other => cases hm; exact h2
        | block => cases hm; exact h2
        | finish =>
          cases hm
          intro p hp
          rcases List.mem_append.1 hp with hp | hp
          · exact h2 p hp
          · simp only [List.mem_singleton] at hp
            subst hp
            exact h1
        | call a d =>
          simp only [memStep] at hm
          cases hx : Cells.exec abi m.s d with
          | err => rw [hx] at hm; cases hm
          | panic => rw [hx] at hm; cases hm
          | ok r => rw [hx] at hm; cases hm; exact h2
        | restart i =>
          simp only [memStep] at hm
          cases hp : m.saved[i]? with
          | none => rw [hp] at hm; cases hm; exact h2
          | some p => rw [hp] at hm; cases hm; exact h2

/-! ## Runs -/

/-- The strings hashed in a run and for reading `asks`, with the constants. -/
def seen (H : Bytes → H256) (abi : HeaderAbi) (asks : List Bytes) (ops : List (Op abi)) : List Bytes :=
  [] :: [0x80] :: light.bytes :: image.bytes :: (slotKey H).bytes :: (asks ++ hashedRun H abi ops .init)

/-- What is assumed of a run. -/
structure Smooth (H : Bytes → H256) (abi : HeaderAbi) (asks : List Bytes) (ops : List (Op abi)) : Prop where
  fine : Fine H (seen H abi asks ops)
  harmless : ∀ o ∈ ops, Harmless H abi o
  roomy : ∀ o ∈ ops, Roomy abi o
  sized : ∀ t ∈ committed H abi ops .init, Trie.Sized t

variable {asks : List Bytes} {ops : List (Op abi)}

theorem consts_seen : Consts H (seen H abi asks ops) :=
  ⟨by simp [seen], by simp [seen], by simp [seen]⟩

theorem Smooth.inv (sm : Smooth H abi asks ops) (h : run H abi ops .init = .ok c) :
    ∃ m, memRun abi ops (.init abi) = .ok m ∧ Inv H abi (seen H abi asks ops) c m :=
  run_inv sm.fine consts_seen ops .init (.init abi) inv_init sm.harmless sm.roomy
    (fun b hb' => by simp [seen, hb']) sm.sized h

theorem ask_seen {k : Bytes} (h : k ∈ asks) : k ∈ seen H abi asks ops := by simp [seen, h]

/-- What is read from a trie: the cells and headers that the calls left, by every reader. -/
structure Reads (H : Bytes → H256) (abi : HeaderAbi) (asks : List Bytes) (t : Node) (calls : List (Call abi)) :
    Prop where
  cell : ∀ o, cellKey o ∈ asks → getCell H t o = .ok (cells calls o)
  provide : ∀ o, cellKey o ∈ asks → provideCell H t o = match cells calls o with
    | some c => .live c.output c.data
    | none => .unknown
  precompile : ∀ o, cellKey o ∈ asks → match cells calls o with
    | some c => ∃ out, unpackOutput c.output = .ok out ∧
        precompileCell H t o = .ok ⟨out, c.data, c.consumed.isSome, c.created, c.consumed.getD u64Zero⟩
    | none => precompileCell H t o = .err
  header : ∀ k : H256, k.bytes ∈ asks → getHeader H abi t k = .ok (headers calls k)
  headerPrecompile : ∀ k : H256, k.bytes ∈ asks → precompileHeader H abi t k = Outcome.ofOption (headers calls k)

theorem reads_of {U : List Bytes} (hU : ∀ k ∈ asks, k ∈ U) {t : Node} {s : Ctx} {calls : List (Call abi)}
    (h : Same H U t s.current) (ht : Told abi calls s) : Reads H abi asks t calls := by
  have hg := (Cells.inv_reach abi ht.reach).good
  have hcell : ∀ o, Cells.getCell s.current o = .ok (cells calls o) := fun o => by
    rw [Cells.getCell_good hg, ht.cell]
  refine ⟨fun o ho => ?_, fun o ho => ?_, fun o ho => ?_, fun k hk => ?_, fun k hk => ?_⟩
  · rw [getCell_same h (hU _ ho), hcell]
  · rw [provideCell_same h (hU _ ho), (Cells.C72_read_partial abi ht.reach o).1, ht.cell]
    rfl
  · rw [precompileCell_same h (hU _ ho)]
    unfold Cells.precompileCell
    rw [hcell]
    cases hc : cells calls o with
    | none => rfl
    | some x =>
      obtain ⟨⟨out, ho⟩, h1, -⟩ := Cells.view_fits hg (o := o) (c := x) (by rw [ht.cell, hc])
      rw [ho] at h1
      have hu := Cells.C75_output_partial out h1
      rw [← ho] at hu
      refine ⟨_, hu, ?_⟩
      simp only [hu]
  · rw [getHeader_same h (hU _ hk), ht.header]
  · rw [precompileHeader_same h (hU _ hk)]
    obtain ⟨e1, -, e3⟩ := Cells.C73_precompile abi ht.reach k
    have hh := ht.header k
    cases hx : headers calls k with
    | some x =>
      rw [hx] at hh
      exact (e3 x).2 hh
    | none =>
      rw [hx] at hh
      unfold Cells.getHeader at hh
      unfold Cells.precompileHeader
      cases hv : get s.current k.bytes with
      | none => rfl
      | some b =>
        rw [hv] at hh
        simp only at hh
        cases hd : abi.dec b with
        | none => rw [hd] at hh; cases hh
        | some x => rw [hd] at hh; cases hh

/-- C130: for every run, what is read now through the current root, and what is read from every committed state
root through either contract, are the cells and headers that the calls up to then left; and the slots of both
contracts hold the current root. -/
theorem C130_past (sm : Smooth H abi asks ops) (h : run H abi ops .init = .ok c) :
    ∃ m, memRun abi ops (.init abi) = .ok m ∧
      (∀ a, Ours a → ∃ v, storage H c.world a (slotKey H) = .ok v ∧ ofVal v = c.root) ∧
      (∃ t, openStore H c.db c.root = .ok t ∧ Reads H abi asks t m.hist) ∧
      c.world.roots.length = m.saved.length ∧
      ∀ (i : Nat) r, c.world.roots[i]? = some r → ∃ p t, m.saved[i]? = some p ∧
        (∀ a, Ours a → storeAt H c a r = .ok t) ∧ Reads H abi asks t p.1 := by
  obtain ⟨m, h1, h2⟩ := sm.inv h
  have ht := told_run ops sm.roomy h1 told_init (fun p hp => by simp [Mem.init] at hp)
  obtain ⟨s, w1, w2, w3, w4⟩ := h2.world
  refine ⟨m, h1, fun a ha => ?_, ?_, by rw [w1.len, w3], fun i r hr => ?_⟩
  · exact ⟨_, (reads_rep sm.fine w1.nodes w1.cur (consts_seen.ours ha) consts_seen.slot).storage, w2 a ha⟩
  · obtain ⟨t, l1, l2⟩ := h2.holds
    exact ⟨t, l1.load sm.fine h2.db, reads_of (fun k hk => ask_seen hk) l2 ht.1⟩
  · obtain ⟨p, t0, q, e1, e2, ⟨t, l1, l2⟩, e4⟩ := h2.at sm.fine consts_seen hr
    refine ⟨p, t, e1, fun a ha => ?_, reads_of (fun k hk => ask_seen hk) l2 (ht.2 p (List.mem_of_getElem? e1))⟩
    obtain ⟨v, v1, v2⟩ := e4 a ha
    unfold storeAt
    simp only [e2, v1, v2, Outcome.bind]
    exact l1.load sm.fine h2.db

/-! ## Restarts and total calls -/

theorem run_append (xs ys : List (Op abi)) : ∀ c, run H abi (xs ++ ys) c = (run H abi xs c).bind (run H abi ys) := by
  induction xs with
  | nil => intro c; rfl
  | cons o xs ih =>
    intro c
    simp only [List.cons_append, run]
    cases step H abi c o with
    | ok v => simp only [Outcome.bind]; exact ih v
    | err => rfl
    | panic => rfl

theorem hashedRun_append {c' : Chain} (ys : List (Op abi)) : ∀ (xs : List (Op abi)) (c : Chain),
    run H abi xs c = .ok c' → hashedRun H abi (xs ++ ys) c = hashedRun H abi xs c ++ hashedRun H abi ys c'
  | [], c, h => by cases h; rfl
  | o :: xs, c, h => by
    simp only [run] at h
    simp only [List.cons_append, hashedRun]
    cases e : step H abi c o with
    | ok v => rw [e] at h; simp only; rw [hashedRun_append ys xs v h, List.append_assoc]
    | err => rw [e] at h; cases h
    | panic => rw [e] at h; cases h

theorem committed_append {c' : Chain} (ys : List (Op abi)) : ∀ (xs : List (Op abi)) (c : Chain),
    run H abi xs c = .ok c' → committed H abi (xs ++ ys) c = committed H abi xs c ++ committed H abi ys c'
  | [], c, h => by cases h; rfl
  | o :: xs, c, h => by
    simp only [run] at h
    simp only [List.cons_append, committed]
    cases e : step H abi c o with
    | ok v => rw [e] at h; simp only; rw [committed_append ys xs v h, List.append_assoc]
    | err => rw [e] at h; cases h
    | panic => rw [e] at h; cases h

/-- The invariant after a part of a run, for the strings of the whole run. -/
theorem Smooth.part {more : List (Op abi)} (sm : Smooth H abi asks (ops ++ more)) (h : run H abi ops .init = .ok c) :
    ∃ m, memRun abi ops (.init abi) = .ok m ∧ Inv H abi (seen H abi asks (ops ++ more)) c m ∧
      ∀ b ∈ hashedRun H abi more c, b ∈ seen H abi asks (ops ++ more) := by
  have e := hashedRun_append more ops .init h
  obtain ⟨m, h1, h2⟩ := run_inv sm.fine consts_seen ops .init (.init abi) inv_init
    (fun o ho => sm.harmless o (by simp [ho])) (fun o ho => sm.roomy o (by simp [ho]))
    (fun b hb' => by simp [seen, e, hb'])
    (fun t ht => sm.sized t (by rw [committed_append more ops .init h]; exact List.mem_append_left _ ht)) h
  exact ⟨m, h1, h2, fun b hb' => by simp [seen, e, hb']⟩

/-- C130: no call of the contracts makes the node stop, whatever its data, as long as the nonce of the sender can
be increased. -/
theorem C130_total {a : H160} {d : Option (Call abi)} (sm : Smooth H abi asks (ops ++ [.call a d]))
    (h : run H abi ops .init = .ok c) (hn : (basic H c.world a).nonce.val + 1 < 2 ^ 256) :
    ∃ c', step H abi c (.call a d) = .ok c' := by
  obtain ⟨m, h1, h2, h3⟩ := sm.part h
  obtain ⟨s, w1, -⟩ := h2.world
  obtain ⟨t, l1, l2⟩ := h2.holds
  have hload := l1.load sm.fine h2.db
  have hfit : FitsCall abi d := sm.roomy (.call a d) (by simp)
  have hh : ∀ b ∈ hashed H abi c (.call a d), b ∈ seen H abi asks (ops ++ [.call a d]) :=
    fun b hb' => h3 b (by simp only [hashedRun, List.mem_append]; exact .inl hb')
  have heff : ∃ e, effect H abi c (.call a d) = .ok e := by
    simp only [effect, callEffect, hload]
    cases d with
    | none => exact ⟨_, rfl⟩
    | some d =>
      have hag := runTrie_agree sm.fine.free l2 d fun k hk => hh k (List.mem_append_left _ hk)
      have hnp := (Cells.C40_total abi h2.reach (some d) hfit).1
      simp only [Cells.exec] at hnp
      generalize hx : runTrie H abi t d = x at hag
      generalize hy : Cells.runTrie abi m.s.current d = y at hag
      simp only [hx]
      cases hag with
      | err => exact ⟨_, rfl⟩
      | panic => rw [hy] at hnp; exact absurd rfl hnp
      | @ok t' A' _ =>
        simp only [stateChanges, senderChange]
        have : UIntN.ofNat? 256 ((basic H c.world a).nonce.val + 1) = some ⟨_, hn⟩ := by
          unfold UIntN.ofNat?
          rw [dif_pos hn]
        rw [this]
        exact ⟨_, rfl⟩
  obtain ⟨e, he⟩ := heff
  have hhe : ∀ b ∈ WorldDb.hashedRun H e.ops c.world, b ∈ seen H abi asks (ops ++ [.call a d]) := by
    intro b hb'
    refine hh b ?_
    unfold hashed
    rw [he]
    exact List.mem_append_right _ (List.mem_append_left _ hb')
  obtain ⟨w, hw, -⟩ := WorldDb.run_inv sm.fine e.ops c.world s w1 hhe
  unfold step
  simp only [he, hw, Outcome.bind]
  exact ⟨_, rfl⟩

/-- C130: stopping after a commit and starting again at the state committed is as if nothing had happened. -/
theorem C130_restart (sm : Smooth H abi asks (ops ++ [.finish])) (h : run H abi (ops ++ [.finish]) .init = .ok c) :
    step H abi c (.restart (c.world.roots.length - 1)) = .ok c := by
  obtain ⟨m, -, h2⟩ := sm.inv h
  rw [run_append] at h
  cases e0 : run H abi ops Chain.init with
  | err => rw [e0] at h; cases h
  | panic => rw [e0] at h; cases h
  | ok c0 =>
  rw [e0] at h
  have hc' : Outcome.ok (⟨flushed H c0.world, c0.db, c0.root⟩ : Chain) = .ok c := h
  cases hc'
  have hlen : (flushed H c0.world).roots.length - 1 = c0.world.roots.length := by simp [flushed]
  have hroot : (flushed H c0.world).roots[c0.world.roots.length]? = some (rootOf H c0.world.trie) := by
    simp [flushed]
  obtain ⟨s, w1, w2, w3, w4⟩ := h2.world
  obtain ⟨-, -, -, h3⟩ := sm.part e0
  have hopen : openTrie H (flushed H c0.world).nodes (rootOf H c0.world.trie) = .ok c0.world.trie :=
    openTrie_root sm.fine.free w1.cur.keyed w1.nodes
      (fun b hb' => h3 b (by
        simp only [hashedRun, hashed, effect, WorldDb.hashedRun, WorldDb.hashed, List.mem_append]
        exact .inl (.inr (.inl (.inl hb')))))
      (fun b hb' => List.mem_append_left _ hb')
  have hslot := (reads_rep sm.fine w1.nodes w1.cur consts_seen.light consts_seen.slot).storage
  have hval : ofVal (((s.cur light).getD emptyView).slot (slotKey H)) = c0.root := w2 light (.inl rfl)
  have heff : restartEffect H ⟨flushed H c0.world, c0.db, c0.root⟩ c0.world.roots.length =
      .ok ⟨c0.root, [], [.reopen c0.world.roots.length]⟩ := by
    unfold restartEffect
    simp only [hroot, hopen, Outcome.bind]
    have hw : ({ flushed H c0.world with trie := c0.world.trie } : World) = flushed H c0.world := rfl
    simp only [hw, hslot, hval]
  show (effect H abi _ (.restart ((flushed H c0.world).roots.length - 1))).bind _ = _
  rw [hlen]
  simp only [effect]
  rw [heff]
  simp only [Outcome.bind, WorldDb.run, WorldDb.step, hroot, hopen]
  rfl

/-! ## A case -/

/-- The header of the light client contract with this number and hash. -/
def head (n : UInt8) : SysAbi.headerAbi.Header :=
  ⟨⟨⟨0, by decide⟩, ⟨1, by decide⟩, ⟨2, by decide⟩, ⟨3, by decide⟩, ⟨4, by decide⟩, Cells.hashOf 1, Cells.hashOf 2,
    Cells.hashOf 3, Cells.hashOf 4, Cells.hashOf 5, ⟨6, by decide⟩, [7, 8, n], Cells.hashOf n⟩, by show 3 + 512 < 2 ^ 32; decide⟩

/-- The databases are set up; a block saves two headers and the cells of two CKB blocks, with a payment in
between; a restart; a block takes back a header and, in vain, one that is not there, and the second CKB block; a
switch is set. -/
def life : List (Op SysAbi.headerAbi) :=
  [.boot, .finish,
   .block, .call alice (some (.saveHeaders [head 11, head 12])),
   .other (.change (.modify bob ⟨WorldDb.u 1000, WorldDb.u 1⟩ none [(slot7, WorldDb.u 70)] false) true),
   .call alice (some (.update Cells.blocks12)), .finish,
   .restart 1,
   .block, .call bob (some (.removeHeaders [Cells.hashOf 12])), .call bob (some (.removeHeaders [Cells.hashOf 12])),
   .call bob none, .call alice (some (.rollback [⟨[Cells.op 1], [Cells.op 3]⟩])),
   .call alice (some (.setCellState true)), .finish]

def asks0 : List Bytes :=
  [cellKey (Cells.op 1), cellKey (Cells.op 2), cellKey (Cells.op 3), (Cells.hashOf 11).bytes, (Cells.hashOf 12).bytes]

theorem life_smooth : Smooth toy SysAbi.headerAbi asks0 life where
  fine := fine_of (by decide +kernel)
  harmless := by
    intro o ho
    simp only [life, List.mem_cons, List.not_mem_nil, or_false] at ho
    rcases ho with rfl | rfl | rfl | rfl | rfl | rfl | rfl | rfl | rfl | rfl | rfl | rfl | rfl | rfl | rfl <;>
      first
      | trivial
      | (intro e
         exact absurd e (by decide +kernel))
  roomy := by
    intro o ho
    simp only [life, List.mem_cons, List.not_mem_nil, or_false] at ho
    rcases ho with rfl | rfl | rfl | rfl | rfl | rfl | rfl | rfl | rfl | rfl | rfl | rfl | rfl | rfl | rfl <;>
      first
      | trivial
      | (show Cells.FitsBlocks Cells.blocks12
         unfold Cells.FitsBlocks
         decide +kernel)
  sized := by
    have h : ((committed toy SysAbi.headerAbi life .init).all fun t => MetaTrie.sizedB t) = true := by
      decide +kernel
    rw [List.all_eq_true] at h
    exact fun t ht => MetaTrie.sized_of t (h t ht)

/-- Of the commits: whether cells 1, 2, 3 are there and when they were consumed, and whether headers 11 and 12
are there. -/
def facts : Outcome (Mem SysAbi.headerAbi) → List (List (Option (Option U64)) × List Bool)
  | .ok m => m.saved.map fun p => ([Cells.op 1, Cells.op 2, Cells.op 3].map fun o => (cells p.1 o).map (·.consumed),
      [Cells.hashOf 11, Cells.hashOf 12].map fun k => (headers p.1 k).isSome)
  | _ => []

theorem life_facts : facts (memRun SysAbi.headerAbi life (.init _)) =
    [([none, none, none], [false, false]),
     ([some (some (Cells.num 2)), some none, some none], [true, true]),
     ([some none, some none, none], [true, false])] := by decide +kernel

theorem life_ok : MetaChain.isOk (run toy SysAbi.headerAbi life .init) = true := by decide +kernel

/-- The hypotheses hold of this life.  From the state root of the first block cell 1 is read as consumed by CKB
block 2 and header 12 is there; from the root of the second block cell 1 is live, cell 3 unknown and header 12
gone. -/
example : ∃ (c : Chain) (r₁ r₂ : H256) (t₁ t₂ : Node) (x : CellInfo), run toy SysAbi.headerAbi life .init = .ok c ∧
    c.world.roots[1]? = some r₁ ∧ c.world.roots[2]? = some r₂ ∧ storeAt toy c image r₁ = .ok t₁ ∧
    storeAt toy c image r₂ = .ok t₂ ∧ getCell toy t₁ (Cells.op 1) = .ok (some x) ∧
    x.consumed = some (Cells.num 2) ∧ getCell toy t₂ (Cells.op 3) = .ok none ∧
    getHeader toy SysAbi.headerAbi t₂ (Cells.hashOf 12) = .ok none := by
  obtain ⟨c, hc⟩ := MetaChain.some_of_isOk life_ok
  obtain ⟨m, h1, -, -, h4, h5⟩ := C130_past life_smooth hc
  have hf := life_facts
  rw [h1] at hf
  have hlen : m.saved.length = 3 := by
    have := congrArg List.length hf
    simpa [facts] using this
  have g1 : c.world.roots[1]? = some (c.world.roots[1]'(by omega)) := by simp [show 1 < c.world.roots.length by omega]
  have g2 : c.world.roots[2]? = some (c.world.roots[2]'(by omega)) := by simp [show 2 < c.world.roots.length by omega]
  obtain ⟨p, t₁, a1, a2, a3⟩ := h5 _ _ g1
  obtain ⟨q, t₂, b1, b2, b3⟩ := h5 _ _ g2
  have f1 := congrArg (fun l => l[1]?) hf
  have f2 := congrArg (fun l => l[2]?) hf
  simp only [facts, List.getElem?_map, a1, b1, Option.map_some, List.getElem?_cons_succ, List.getElem?_cons_zero,
    Option.some.injEq, Prod.mk.injEq, List.map_cons, List.map_nil, List.cons.injEq] at f1 f2
  obtain ⟨x, x1, x2⟩ := Option.map_eq_some_iff.1 f1.1.1
  refine ⟨c, _, _, t₁, t₂, x, hc, g1, g2, a2 _ (.inr rfl), b2 _ (.inr rfl), ?_, x2, ?_, ?_⟩
  · rw [a3.cell _ (by simp [asks0]), x1]
  · rw [b3.cell _ (by simp [asks0])]
    have := f2.1.2.2.1
    rw [Option.map_eq_none_iff.1 this]
  · rw [b3.header _ (by simp [asks0])]
    have := f2.2.2.1
    rw [Option.isSome_eq_false_iff, Option.isNone_iff_eq_none] at this
    rw [this]

/-- The hypotheses of `C130_restart` and `C130_total` hold in this life. -/
example : life.take 7 = life.take 6 ++ [.finish] ∧ MetaChain.isOk (run toy SysAbi.headerAbi (life.take 7) .init) = true ∧
    Fine toy (seen toy SysAbi.headerAbi asks0 (life.take 7)) := ⟨rfl, by decide +kernel, fine_of (by decide +kernel)⟩

example : ∃ c, run toy SysAbi.headerAbi (life.take 5) .init = .ok c ∧ (basic toy c.world alice).nonce.val = 1 := by
  have h : (match run toy SysAbi.headerAbi (life.take 5) .init with
    | .ok c => decide ((basic toy c.world alice).nonce.val = 1)
    | _ => false) = true := by decide +kernel
  cases e : run toy SysAbi.headerAbi (life.take 5) .init with
  | ok c => rw [e] at h; exact ⟨c, rfl, of_decide_eq_true h⟩
  | err => rw [e] at h; cases h
  | panic => rw [e] at h; cases h

end Axon.CkbChain
