import Verif.Metadata.ChainDb

/-!
# C129: the metadata of every committed block can be read from its state root

The metadata contract opens its trie from the database for every call, by a root it keeps in the state.  Whatever
transactions, block ends, other changes of the state, commits and restarts happen, that is the same as one store
held in memory all the time, and the state root of every committed block leads to the metadata as it was then.

Assumed: the strings hashed in the run have different hashes, none of them zero (`Fine`); nothing else writes the
slot of the root (`Harmless`); no value is 4 GB long (`Trie.Sized`).
-/

namespace Axon.MetaChain
open Axon.Rlp Axon.Assoc Axon.Exec Axon.WorldDb
open Axon.Trie (Node)
open Axon.MetaTrie (TStore Keys Reach Held Apart accepted epochOfBlock Says)

variable {X : Env} {n : Nat} {c : Chain} {m : Mem}

/-- The strings hashed in a run, with the constants. -/
def seen (X : Env) (ops : List Op) : List Bytes :=
  [] :: [0x80] :: contract.bytes :: (slotKey X).bytes :: hashedRun X ops .init

/-- What is assumed of a run. -/
structure Smooth (X : Env) (ops : List Op) : Prop where
  fine : Fine X.H (seen X ops)
  harmless : ∀ o ∈ ops, Harmless X o
  sized : ∀ t ∈ committed X ops .init, Trie.Sized t

theorem Smooth.inv {ops : List Op} (sm : Smooth X ops) (h : run X ops .init = .ok c) :
    ∃ m, memRun X ops (.init X) = .ok m ∧ Inv X (seen X ops) c m :=
  run_inv sm.fine (by simp [seen]) (by simp [seen]) ops .init (.init X) inv_init sm.harmless
    (fun b hb' => by simp [seen, hb']) sm.sized h

/-- C129: what the chain opens from its databases is the store in memory: now, by the root in use, which is the
one in the state; and for every commit, by the state root the commit gave. -/
theorem C129_opens (ops : List Op) (sm : Smooth X ops) (h : run X ops .init = .ok c) :
    ∃ m, memRun X ops (.init X) = .ok m ∧ loadStore X c = .ok m.t ∧
      (∃ v, storage X.H c.world contract (slotKey X) = .ok v ∧ ofVal v = c.root) ∧
      c.world.roots.length = m.saved.length ∧
      ∀ (i : Nat) r, c.world.roots[i]? = some r → ∃ p, m.saved[i]? = some p ∧
        storeAt X c r = .ok { p.2 with current := c.flags } := by
  obtain ⟨m, h1, h2⟩ := sm.inv h
  refine ⟨m, h1, ?_, ?_, ?_, ?_⟩
  · rw [h2.link.load sm.fine h2.mdb, h2.flags]
  · obtain ⟨s, w1, w2, -⟩ := h2.world
    exact ⟨_, (reads_rep sm.fine w1.nodes w1.cur (by simp [seen]) (by simp [seen])).storage, w2⟩
  · obtain ⟨s, w1, -, w3, -⟩ := h2.world
    rw [w1.len, w3]
  · intro i r hr
    obtain ⟨p, t, e1, e2, v, e3, e4⟩ := h2.at sm.fine (by simp [seen]) (by simp [seen]) hr
    refine ⟨p, e1, ?_⟩
    unfold storeAt
    simp only [e2, e3, Outcome.bind]
    exact Link.load (c := { c with root := ofVal v }) sm.fine h2.mdb e4

/-! ## Histories -/

/-- Every restart is told the number of the block its state was run last. -/
def Restarts (X : Env) : List Op → Mem → Prop
  | [], _ => True
  | o :: ops, m =>
    (match o with
      | .restart i k => ∀ p, m.saved[i]? = some p → Meta.lastRun (p.1.map MetaTrie.Op.forget) = k
      | _ => True) ∧
    ∀ m', memStep X m o = .ok m' → Restarts X ops m'

theorem registered_none : ∀ ops : List Meta.Op, Meta.lastRun ops = 0 → Meta.registered ops = []
  | [], _ => rfl
  | .tx .. :: l, h => registered_none l h
  | .endBlock k x p q :: l, h => by
    simp only [Meta.lastRun] at h
    by_cases e : Meta.lastRun l = 0
    · rw [if_pos e] at h
      subst h
      exact registered_none l e
    · rw [if_neg e] at h
      exact absurd h e

/-- The flags of the block run last are the flags in force. -/
theorem forkAt_current (ap : Apart X.store n) {hist : List MetaTrie.Op} {t : TStore} (h : Reach X.store n hist t)
    (hn : (accepted hist).length < n) (hd : Held X.store n t) :
    MetaTrie.forkAt X.store t (Meta.lastRun (hist.map MetaTrie.Op.forget)) = .ok t.current := by
  obtain ⟨-, h2, h3⟩ := MetaTrie.C127_forks ap h hn hd
  rw [h2, h3]
  unfold Meta.flagsIn
  split
  · rename_i e
    rw [e, registered_none _ e]
    rfl
  · rfl

theorem Link.held {U mdb : List Bytes} {r : H256} {t : TStore} (h : Link X U mdb r t.trie) :
    Held X.store n t := by
  intro k v hk hv
  have hv : Trie.get t.trie (Trie.keyPath (X.store.H k)) = some v := hv
  rcases h with ⟨-, e⟩ | ⟨-, -, -, h4, -⟩
  · rw [e] at hv
    have e2 : (TStore.init X.store).trie =
        Trie.put .empty (Trie.keyPath (X.store.H X.store.keys.seg.bytes)) (Meta.asBytes Meta.segNew) := rfl
    rw [e2, Trie.get_put] at hv
    split at hv
    · cases hv
      decide
    · simp [Trie.get] at hv
  · have := get_sized _ _ _ h4 hv
    exact Nat.lt_trans this (by decide)

theorem memStep_saved {m m' : Mem} {o : Op} (h : memStep X m o = .ok m') : ∀ p ∈ m.saved, p ∈ m'.saved := by
  intro p hp
  cases o with
  | block => cases h; exact hp
  | other => cases h; exact hp
  | finish => cases h; exact List.mem_append_left _ hp
  | store o =>
    simp only [memStep] at h
    cases e : MetaTrie.step X.store m.t o <;> rw [e] at h <;> cases h
    exact hp
  | restart i k =>
    simp only [memStep] at h
    split at h
    · cases h; exact hp
    · rename_i q _
      cases e : MetaTrie.unwrap (MetaTrie.forkAt X.store q.2 k) <;> rw [e] at h <;> cases h
      exact hp

theorem memRun_saved : ∀ {ops : List Op} {m m' : Mem}, memRun X ops m = .ok m' → ∀ p ∈ m.saved, p ∈ m'.saved
  | [], m, m', h, p, hp => by cases h; exact hp
  | o :: ops, m, m', h, p, hp => by
    simp only [memRun] at h
    cases e : memStep X m o <;> rw [e] at h
    · exact memRun_saved h p (memStep_saved e p hp)
    · cases h
    · cases h

/-- The stores are reached by their histories. -/
structure Told (X : Env) (n : Nat) (m : Mem) : Prop where
  now : Reach X.store n m.hist m.t
  past : ∀ p ∈ m.saved, Reach X.store n p.1 p.2

theorem Inv.held {U : List Bytes} (h : Inv X U c m) : Held X.store n m.t ∧ ∀ p ∈ m.saved, Held X.store n p.2 := by
  refine ⟨h.link.held, fun p hp => ?_⟩
  obtain ⟨s, -, -, w3, w4⟩ := h.world
  obtain ⟨i, hi, e⟩ := List.getElem_of_mem hp
  have hi1 : i < s.saved.length := by omega
  exact (w4 i s.saved[i] p (by simp [hi1]) (by simp [hi, e])).held

theorem told_run {U : List Bytes} (ap : Apart X.store n) (fn : Fine X.H U) (hc : contract.bytes ∈ U)
    (hk : (slotKey X).bytes ∈ U) : ∀ (ops : List Op) (c : Chain) (m : Mem), Inv X U c m →
    (∀ o ∈ ops, Harmless X o) → (∀ b ∈ hashedRun X ops c, b ∈ U) → (∀ t ∈ committed X ops c, Trie.Sized t) →
    ∀ {c' : Chain} {m' : Mem}, run X ops c = .ok c' → memRun X ops m = .ok m' → Restarts X ops m →
    (∀ p ∈ m'.saved, (accepted p.1).length < n) → Told X n m → Told X n m' := by
  intro ops
  induction ops with
  | nil =>
    intro c m _ _ _ _ c' m' _ hm _ _ ht
    cases hm
    exact ht
  | cons o ops ih =>
    intro c m h hl hh hs c' m' hr hm hre hn ht
    simp only [run] at hr
    cases h1 : step X c o with
    | err => rw [h1] at hr; cases hr
    | panic => rw [h1] at hr; cases hr
    | ok c1 =>
      rw [h1] at hr
      simp only [hashedRun, committed, h1, List.mem_append] at hh hs
      obtain ⟨m1, e1, e2⟩ := step_inv fn hc hk h o (hl o (by simp)) (fun b hb' => hh b (.inl hb'))
        (fun e he t ht => hs t (.inl (by rw [he]; exact ht))) h1
      simp only [memRun, e1, Outcome.bind] at hm
      refine ih c1 m1 e2 (fun o ho => hl o (by simp [ho])) (fun b hb' => hh b (.inr hb'))
        (fun t ht => hs t (.inr ht)) hr hm (hre.2 m1 e1) hn ?_
      have hd : Held X.store n m.t ∧ ∀ p ∈ m.saved, Held X.store n p.2 := h.held
      cases o with
      | block => cases e1; exact ht
      | other => cases e1; exact ht
      | finish =>
        cases e1
        refine ⟨ht.now, fun p hp => ?_⟩
        rcases List.mem_append.1 hp with hp | hp
        · exact ht.past p hp
        · simp only [List.mem_singleton] at hp
          subst hp
          exact ht.now
      | store o =>
        simp only [memStep] at e1
        cases e : MetaTrie.step X.store m.t o with
        | err => rw [e] at e1; cases e1
        | panic => rw [e] at e1; cases e1
        | ok r =>
          rw [e] at e1
          simp only [Outcome.bind, Outcome.ok.injEq] at e1
          subst e1
          refine ⟨?_, ht.past⟩
          obtain ⟨t', b⟩ := r
          cases b with
          | true => exact ht.now.done hd.1 e
          | false => exact ht.now.failed hd.1 e
      | restart i k =>
        simp only [memStep] at e1
        cases hp : m.saved[i]? with
        | none => rw [hp] at e1; cases e1; exact ht
        | some p =>
          have hmem := List.mem_of_getElem? hp
          have hrp := ht.past p hmem
          have hlast := hre.1 p hp
          have hbound := hn p (memRun_saved hm p (memStep_saved (o := .restart i k) (m' := m1)
            (by simp only [memStep]; exact e1) p hmem))
          have hf := forkAt_current ap hrp hbound (hd.2 p hmem)
          rw [hlast] at hf
          rw [hp] at e1
          simp only [hf, MetaTrie.unwrap, Outcome.bind, Outcome.ok.injEq] at e1
          subst e1
          exact ⟨hrp, ht.past⟩

/-- C129: the store in memory, now and at every commit, is one that the operations recorded for it lead to, so
that everything C127 says applies to it. -/
theorem C129_history (ops : List Op) (sm : Smooth X ops) (h : run X ops .init = .ok c) (ap : Apart X.store n)
    (hm : memRun X ops (.init X) = .ok m) (hre : Restarts X ops (.init X))
    (hn : ∀ p ∈ m.saved, (accepted p.1).length < n) :
    (Reach X.store n m.hist m.t ∧ Held X.store n m.t) ∧
      ∀ p ∈ m.saved, Reach X.store n p.1 p.2 ∧ Held X.store n p.2 := by
  obtain ⟨m1, h1, h2⟩ := sm.inv h
  rw [hm] at h1
  cases h1
  have ht := told_run ap sm.fine (by simp [seen]) (by simp [seen]) ops .init (.init X) inv_init sm.harmless
    (fun b hb' => by simp [seen, hb']) sm.sized h hm hre hn ⟨.init, fun p hp => by simp [Mem.init] at hp⟩
  exact ⟨⟨ht.now, h2.held.1⟩, fun p hp => ⟨ht.past p hp, h2.held.2 p hp⟩⟩

/-- C129: from the state root of a committed block one reads the validators, the configuration, the CKB
information and the hardforks that had been submitted by then, whatever was submitted later. -/
theorem C129_past (ops : List Op) (sm : Smooth X ops) (h : run X ops .init = .ok c) (ap : Apart X.store n)
    (hm : memRun X ops (.init X) = .ok m) (hre : Restarts X ops (.init X))
    (hn : ∀ p ∈ m.saved, (accepted p.1).length < n) {i : Nat} {r : H256} (hr : c.world.roots[i]? = some r) :
    ∃ p st, m.saved[i]? = some p ∧ storeAt X c r = .ok st ∧
      (∀ k, k ≠ 0 → match epochOfBlock (accepted p.1) k with
        | some e => ∃ s rec conf, (accepted p.1)[e]? = some s ∧
            MetaTrie.metadataAt X.store st k = .ok (rec, conf) ∧ MetaTrie.getConfig X.store st = .ok conf ∧
            Says rec s
        | none => MetaTrie.metadataAt X.store st k = .err) ∧
      MetaTrie.getCkb X.store st = Outcome.ofOption (p.1.filterMap MetaTrie.ckbOf).getLast? ∧
      (∀ k, MetaTrie.forkAt X.store st k =
        .ok (Meta.forkAt (Meta.registerAll (Meta.registered (p.1.map MetaTrie.Op.forget))) k)) ∧
      ∀ pre post o conf, p.1 = pre ++ o :: post → MetaTrie.configOf o = some conf →
        (∀ o ∈ post, MetaTrie.configOf o = none) →
        MetaTrie.getConfig X.store st = .ok (Meta.visible (Meta.flagsIn (pre.map MetaTrie.Op.forget)) conf) := by
  obtain ⟨m1, h1, -, -, -, h5⟩ := C129_opens ops sm h
  rw [hm] at h1
  cases h1
  obtain ⟨p, hp, hst⟩ := h5 i r hr
  have hmem := List.mem_of_getElem? hp
  obtain ⟨hr1, hd⟩ := (C129_history ops sm h ap hm hre hn).2 p hmem
  have hb := hn p hmem
  refine ⟨p, _, hp, hst, fun k hk => ?_, ?_, ?_, ?_⟩
  · exact MetaTrie.C127_block ap hr1 hb hd k hk
  · have := MetaTrie.C127_ckb ap hr1 hb hd
    exact this
  · exact (MetaTrie.C127_forks ap hr1 hb hd).2.1
  · intro pre post o conf h1 h2 h3
    exact MetaTrie.C127_config ap hr1 hb h1 h2 h3

/-! ## Restarts -/

theorem run_append (xs ys : List Op) : ∀ c, run X (xs ++ ys) c = (run X xs c).bind (run X ys) := by
  induction xs with
  | nil => intro c; rfl
  | cons o xs ih =>
    intro c
    simp only [List.cons_append, run]
    cases step X c o with
    | ok v => simp only [Outcome.bind]; exact ih v
    | err => rfl
    | panic => rfl

theorem memRun_append (xs ys : List Op) : ∀ m, memRun X (xs ++ ys) m = (memRun X xs m).bind (memRun X ys) := by
  induction xs with
  | nil => intro c; rfl
  | cons o xs ih =>
    intro c
    simp only [List.cons_append, memRun]
    cases memStep X c o with
    | ok v => simp only [Outcome.bind]; exact ih v
    | err => rfl
    | panic => rfl

/-- C129: stopping after a commit and starting again at the state committed, with the number of the block run
last, is as if nothing had happened. -/
theorem C129_restart (ops : List Op) (sm : Smooth X (ops ++ [.finish])) (h : run X (ops ++ [.finish]) .init = .ok c)
    (ap : Apart X.store n) (hm : memRun X (ops ++ [.finish]) (.init X) = .ok m)
    (hre : Restarts X (ops ++ [.finish]) (.init X)) (hn : ∀ p ∈ m.saved, (accepted p.1).length < n) :
    step X c (.restart (c.world.roots.length - 1) (Meta.lastRun (m.hist.map MetaTrie.Op.forget))) = .ok c := by
  obtain ⟨m1, h1, h2⟩ := sm.inv h
  rw [hm] at h1
  cases h1
  -- the last commit
  rw [run_append] at h
  rw [memRun_append] at hm
  cases e0 : run X ops Chain.init with
  | err => rw [e0] at h; cases h
  | panic => rw [e0] at h; cases h
  | ok c0 =>
  cases f0 : memRun X ops (Mem.init X) with
  | err => rw [f0] at hm; cases hm
  | panic => rw [f0] at hm; cases hm
  | ok m0 =>
  rw [e0] at h
  rw [f0] at hm
  have hc' : Outcome.ok (⟨flushed X.H c0.world, c0.mdb, c0.root, c0.flags⟩ : Chain) = .ok c := h
  have hm' : Outcome.ok (⟨m0.t, m0.hist, m0.saved ++ [(m0.hist, m0.t)]⟩ : Mem) = .ok m := hm
  have hh := C129_history (ops ++ [.finish]) sm (by rw [run_append, e0]; exact h) ap
    (by rw [memRun_append, f0]; exact hm) hre hn
  cases hm'
  cases hc'
  have hf := forkAt_current ap hh.1.1 (hn (m0.hist, m0.t) (by simp)) hh.1.2
  have hlen : (flushed X.H c0.world).roots.length - 1 = c0.world.roots.length := by simp [flushed]
  have hroot : (flushed X.H c0.world).roots[c0.world.roots.length]? = some (rootOf X.H c0.world.trie) := by
    simp [flushed]
  obtain ⟨s, w1, w2, w3, w4⟩ := h2.world
  -- the state committed is the one at hand
  have hopen : openTrie X.H (flushed X.H c0.world).nodes (rootOf X.H c0.world.trie) = .ok c0.world.trie := by
    have hi : c0.world.roots.length < s.saved.length := by
      rw [← w1.len]
      show _ < (flushed X.H c0.world).roots.length
      simp [flushed]
    obtain ⟨t, x1, x2, x3, x4⟩ := w1.saved c0.world.roots.length _ s.saved[c0.world.roots.length] hroot (by simp [hi])
    exact openTrie_root sm.fine.free w1.cur.keyed w1.nodes
      (by
        intro b hb'
        have : ∀ (xs : List Op) (c : Chain), run X xs c = .ok c0 → b ∈ hashedRun X (xs ++ [.finish]) c := by
          intro xs
          induction xs with
          | nil =>
            intro c h
            cases h
            simp only [List.nil_append, hashedRun, hashed, effect, WorldDb.hashedRun, WorldDb.hashed,
              List.mem_append]
            exact .inl (.inl (.inl hb'))
          | cons o xs ih =>
            intro c h
            simp only [run] at h
            simp only [List.cons_append, hashedRun, List.mem_append]
            cases e : step X c o with
            | ok v => rw [e] at h; exact .inr (ih v h)
            | err => rw [e] at h; cases h
            | panic => rw [e] at h; cases h
        simp [seen, this ops .init e0])
      (by
        intro b hb'
        exact List.mem_append_left _ hb')
  have hslot := (reads_rep sm.fine w1.nodes w1.cur (a := contract) (k := slotKey X) (by simp [seen])
    (by simp [seen])).storage
  have hval : ofVal (((s.cur contract).getD emptyView).slot (slotKey X)) = c0.root := w2
  have hload := h2.link.load sm.fine h2.mdb
  have heff : restartEffect X ⟨flushed X.H c0.world, c0.mdb, c0.root, c0.flags⟩ c0.world.roots.length
      (Meta.lastRun (m0.hist.map MetaTrie.Op.forget)) =
      .ok ⟨c0.root, c0.flags, [], [.reopen c0.world.roots.length]⟩ := by
    unfold restartEffect
    simp only [hroot, hopen, Outcome.bind]
    have hw : ({ flushed X.H c0.world with trie := c0.world.trie } : World) = flushed X.H c0.world := rfl
    simp only [hw, hslot, hval, hload]
    have hfl : c0.flags = m0.t.current := h2.flags
    rw [show (⟨m0.t.trie, c0.flags⟩ : TStore) = m0.t by rw [hfl], hf]
    simp only [MetaTrie.unwrap, hfl]
  show (effect X _ (.restart ((flushed X.H c0.world).roots.length - 1) _)).bind _ = _
  rw [hlen]
  simp only [effect]
  rw [heff]
  simp only [Outcome.bind, WorldDb.run, WorldDb.step, hroot, hopen]
  rfl

/-! ## A case -/

def X0 : Env := ⟨toy, ⟨MetaTrie.key 1, MetaTrie.key 2, MetaTrie.key 3, MetaTrie.key 4⟩⟩

/-- The keys of the store. -/
def keys0 : List Bytes :=
  [X0.keys.seg.bytes, X0.keys.ckb.bytes, X0.keys.config.bytes, X0.keys.forks.bytes] ++
    (List.range 10).map MetaTrie.epochKey

theorem keys0_inj : (keys0.all fun a => keys0.all fun b => decide (hb toy a = hb toy b → a = b)) = true := by
  decide +kernel

theorem apart1 : Apart X0.store 10 where
  pos := by decide
  le := by decide
  nodup := by decide +kernel
  inj := by
    have hm : ∀ {k : Bytes}, MetaTrie.IsKey X0.store 10 k → k ∈ keys0 := by
      intro k hk
      cases hk with
      | seg => simp [keys0, Env.store]
      | ckb => simp [keys0, Env.store]
      | config => simp [keys0, Env.store]
      | forks => simp [keys0, Env.store]
      | epoch he => exact List.mem_append_right _ (List.mem_map.2 ⟨_, List.mem_range.2 he, rfl⟩)
    intro a b ha hb' h
    have := keys0_inj
    simp only [List.all_eq_true, decide_eq_true_eq] at this
    exact this a (hm ha) b (hm hb') h

/-- Genesis with the first epoch; a block that announces a hardfork, with a payment; a restart; a block with the
second epoch and CKB information. -/
def life : List Op :=
  [.block, .store (.tx 0 (MetaTrie.who 9) (some (.append MetaTrie.sub0))), .store (.endBlock 0 [] (MetaTrie.who 9) []),
   .finish,
   .block, .other (.change (.modify alice ⟨WorldDb.u 1000, WorldDb.u 1⟩ none [(slot7, WorldDb.u 70)] false) true),
   .store (.endBlock 1 [encode (MetaTrie.forkItem ⟨Meta.u 2, Meta.andromeda⟩)] (MetaTrie.who 2) []), .finish,
   .restart 1 1,
   .block, .store (.tx 2 (MetaTrie.who 1) (some (.append MetaTrie.sub1))),
   .store (.tx 2 (MetaTrie.who 7) (some (.ckb MetaTrie.info))),
   .store (.tx 2 (MetaTrie.who 1) (some (.ckb MetaTrie.info))),
   .store (.endBlock 2 [] (MetaTrie.who 2) [MetaTrie.who 1]), .finish]

theorem life_smooth : Smooth X0 life where
  fine := fine_of (by decide +kernel)
  harmless := by
    intro o ho
    simp only [life, List.mem_cons, List.not_mem_nil, or_false] at ho
    rcases ho with rfl | rfl | rfl | rfl | rfl | rfl | rfl | rfl | rfl | rfl | rfl | rfl | rfl | rfl | rfl <;>
      first
      | trivial
      | (intro e
         exact absurd e (by decide +kernel))
  sized := by
    have h : ((committed X0 life .init).all fun t => MetaTrie.sizedB t) = true := by decide +kernel
    rw [List.all_eq_true] at h
    exact fun t ht => MetaTrie.sized_of t (h t ht)

/-- Of the commits: the number of epochs submitted, the epoch of block 15, the addresses of its validators, the
block run last. -/
def facts : Outcome Mem → List (Nat × Option Nat × List H160 × Nat)
  | .ok m => m.saved.map fun p => ((accepted p.1).length, epochOfBlock (accepted p.1) 15,
      (((accepted p.1)[1]?.map (·.verifiers)).getD []).map (·.address),
      Meta.lastRun (p.1.map MetaTrie.Op.forget))
  | _ => []

theorem life_facts : facts (memRun X0 life (.init X0)) =
    [(1, none, [], 0), (1, none, [], 1), (2, some 1, [MetaTrie.who 3], 2)] := by decide +kernel

/-- The commits at the restart. -/
theorem life_facts' : facts (memRun X0 (life.take 8) (.init X0)) = [(1, none, [], 0), (1, none, [], 1)] := by
  decide +kernel

def isOk {α : Type} : Outcome α → Bool
  | .ok _ => true
  | _ => false

theorem life_ok : isOk (run X0 life .init) = true ∧ isOk (memRun X0 life (.init X0)) = true := by decide +kernel

theorem restarts_of : ∀ (pre : List Op) (ops : List Op) {m : Mem}, (∀ o ∈ pre, ∀ i k, o ≠ .restart i k) →
    (∀ m', memRun X pre m = .ok m' → Restarts X ops m') → Restarts X (pre ++ ops) m
  | [], ops, m, _, h => h m rfl
  | o :: pre, ops, m, hp, h => by
    refine ⟨?_, fun m' hm => restarts_of pre ops (fun o ho => hp o (by simp [ho])) fun m2 h2 => h m2 ?_⟩
    · cases o with
      | restart i k => exact absurd rfl (hp _ (by simp) i k)
      | _ => trivial
    · simp only [memRun, hm, Outcome.bind]; exact h2

def isRestart : Op → Bool
  | .restart .. => true
  | _ => false

theorem no_restart {l : List Op} (h : (l.all fun o => !isRestart o) = true) : ∀ o ∈ l, ∀ i k, o ≠ .restart i k := by
  rintro o ho i k rfl
  have := (List.all_eq_true.1 h) _ ho
  simp [isRestart] at this

theorem life_restarts : Restarts X0 life (.init X0) := by
  have e : life = life.take 8 ++ .restart 1 1 :: (life.drop 9 ++ []) := rfl
  rw [e]
  refine restarts_of _ _ (no_restart rfl) fun m' hm => ⟨?_, fun m2 _ => restarts_of _ _ (no_restart rfl) fun _ _ => trivial⟩
  intro p hp
  have hf := life_facts'
  rw [hm] at hf
  have h1 := congrArg (fun l => l[1]?) hf
  simp only [facts, List.getElem?_map, hp, Option.map_some, List.getElem?_cons_succ, List.getElem?_cons_zero,
    Option.some.injEq, Prod.mk.injEq] at h1
  exact h1.2.2.2

theorem some_of_isOk {α : Type} : ∀ {x : Outcome α}, isOk x = true → ∃ a, x = .ok a
  | .ok a, _ => ⟨a, rfl⟩

/-- The hypotheses hold of this life.  From the state root of block 2 the validators of block 15 are read; from
that of block 1 they are not known yet, and Andromeda is in force from block 2 on. -/
example : ∃ (c : Chain) (r₁ r₂ : H256) (st₁ st₂ : TStore), run X0 life .init = .ok c ∧
    c.world.roots[1]? = some r₁ ∧ c.world.roots[2]? = some r₂ ∧ storeAt X0 c r₁ = .ok st₁ ∧
    storeAt X0 c r₂ = .ok st₂ ∧ MetaTrie.metadataAt X0.store st₁ 15 = .err ∧
    ∃ rec conf, MetaTrie.metadataAt X0.store st₂ 15 = .ok (rec, conf) ∧
      rec.verifiers.map (·.address) = [MetaTrie.who 3] := by
  obtain ⟨c, hc⟩ := some_of_isOk life_ok.1
  obtain ⟨m, hm⟩ := some_of_isOk life_ok.2
  have hf := life_facts
  rw [hm] at hf
  have hlen : m.saved.length = 3 := by
    have := congrArg List.length hf
    simpa [facts] using this
  have hn : ∀ p ∈ m.saved, (accepted p.1).length < 10 := by
    intro p hp
    have : ((accepted p.1).length, epochOfBlock (accepted p.1) 15,
      (((accepted p.1)[1]?.map (·.verifiers)).getD []).map (·.address),
      Meta.lastRun (p.1.map MetaTrie.Op.forget)) ∈ facts (.ok m) := List.mem_map.2 ⟨p, hp, rfl⟩
    rw [hf] at this
    simp only [List.mem_cons, List.not_mem_nil, or_false, Prod.mk.injEq] at this
    rcases this with ⟨h, -⟩ | ⟨h, -⟩ | ⟨h, -⟩ <;> rw [h] <;> decide
  obtain ⟨m', e1, -, -, e4, -⟩ := C129_opens life life_smooth hc
  rw [hm] at e1
  cases e1
  have g1 : c.world.roots[1]? = some (c.world.roots[1]'(by omega)) := by simp [show 1 < c.world.roots.length by omega]
  have g2 : c.world.roots[2]? = some (c.world.roots[2]'(by omega)) := by simp [show 2 < c.world.roots.length by omega]
  obtain ⟨p, st₁, a1, a2, a3, -⟩ := C129_past life life_smooth hc apart1 hm life_restarts hn g1
  obtain ⟨q, st₂, b1, b2, b3, -⟩ := C129_past life life_smooth hc apart1 hm life_restarts hn g2
  have f1 := congrArg (fun l => l[1]?) hf
  have f2 := congrArg (fun l => l[2]?) hf
  simp only [facts, List.getElem?_map, a1, b1, Option.map_some, List.getElem?_cons_succ, List.getElem?_cons_zero,
    Option.some.injEq, Prod.mk.injEq] at f1 f2
  refine ⟨c, _, _, st₁, st₂, hc, g1, g2, a2, b2, ?_, ?_⟩
  · have := a3 15 (by decide)
    rw [f1.2.1] at this
    exact this
  · have := b3 15 (by decide)
    rw [f2.2.1] at this
    obtain ⟨s, rec, conf, h1, h2, -, h3⟩ := this
    refine ⟨rec, conf, h2, ?_⟩
    rw [h3.verifiers]
    have := f2.2.2.1
    rw [h1] at this
    exact this

/-- The hypotheses of `C129_restart` hold before the restart in this life. -/
example : life.take 8 = life.take 7 ++ [.finish] ∧ isOk (run X0 (life.take 8) .init) = true ∧
    Fine toy (seen X0 (life.take 8)) := ⟨rfl, by decide +kernel, fine_of (by decide +kernel)⟩

end Axon.MetaChain
