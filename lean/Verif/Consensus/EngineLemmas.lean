import Verif.Consensus.Engine

/-!
# Invariant of the engine/synchroniser system

`Inv` holds in every state reached by steps that keep Overlord's side of the contract
(`Disciplined`).
-/

namespace Axon.Chain

open Axon Axon.Assoc

/-- Newest block first: every block follows the next one in number and by hash. -/
def Linked (env : Env) : List Block → Prop
  | [] => True
  | [_] => True
  | b :: a :: l => b.number = a.number + 1 ∧ b.prevHash = env.blockHash a.header ∧ Linked env (a :: l)

/-- The genesis block and all blocks stored since, newest first. -/
def hist (g : Block) (s : Node) : List Block := s.saved ++ [g]

/-- The status describes block `b`. -/
def At (env : Env) (st : Status) (b : Block) : Prop :=
  st.lastNumber = b.number ∧ st.prevHash = env.blockHash b.header ∧
    st.lastStateRoot = b.header.stateRoot

def phase (env : Env) (s : Node) : Prop :=
  match s.commit, s.sync with
  | some ⟨_, p, _, .checked⟩, _ => At env s.status s.latest ∧
      p.common.number = s.latest.number + 1 ∧ p.common.prevHash = env.blockHash s.latest.header
  | some ⟨_, _, _, .proofSaved b⟩, _ => At env s.status s.latest ∧
      b.number = s.latest.number + 1 ∧ b.prevHash = env.blockHash s.latest.header
  | some ⟨_, _, _, .blockSaved b⟩, _ => s.latest = b
  | some ⟨_, _, _, .swapped⟩, _ => At env s.status s.latest
  | none, some (.syncing agent _ cur _ none) => At env agent s.latest ∧ cur = s.latest.number
  | none, some (.syncing agent _ cur _ (some (b, _, _))) => At env agent s.latest ∧
      cur = s.latest.number ∧ b.number = s.latest.number + 1 ∧
      b.prevHash = env.blockHash s.latest.header
  | none, some (.waiting _) => At env s.status s.latest
  | none, none => At env s.status s.latest

/-- Is the synchroniser inside its batch? -/
def inBatch (s : Node) : Bool :=
  match s.sync with
  | some (.syncing ..) => true
  | _ => false

/-- The lock is held exactly by the writer that is active, and only one is. -/
def Excl (s : Node) : Prop :=
  s.locked = (s.commit.isSome || inBatch s) ∧ (s.commit.isSome = true → inBatch s = false)

structure Inv (env : Env) (g : Block) (s : Node) : Prop where
  linked : Linked env (hist g s)
  stored : ∀ b ∈ hist g s, get s.chain b.number = some b
  only : ∀ n b, get s.chain n = some b → b ∈ hist g s ∧ b.number = n
  head : (hist g s).head? = some s.latest
  status : ∃ b ∈ hist g s, At env s.status b
  accepted : ∀ p ∈ s.accepted, ∃ b ∈ hist g s,
    p.common.number = b.number + 1 ∧ p.common.prevHash = env.blockHash b.header
  own : ∀ q ∈ s.own, q ∈ s.accepted
  exempt : ∀ h ∈ s.exempt, ∃ q ∈ s.own, env.proposalHash q = h
  excl : Excl s
  phase : phase env s

/-- What Overlord and the storage promise: a proposal is requested for the height after the last
one, the hash handed to `check_block` is the hash of the proposal, only accepted proposals are
committed and their number is the height of the commit, and nothing fails between saving the block
and updating the status. -/
def Disciplined (env : Env) (s : Node) : Op → Prop
  | .getBlock next _ _ _ => next = s.status.lastNumber + 1
  | .check hash _ _ p _ _ _ => hash = env.proposalHash p
  | .commitBegin cur p _ _ => p ∈ s.accepted ∧ p.common.number = cur
  | .commitSwap ok => ok = true
  | _ => True

theorem head_mem {g : Block} {s : Node} (h : (hist g s).head? = some s.latest) :
    s.latest ∈ hist g s := List.mem_of_head? h

theorem linked_lt (env : Env) : ∀ (l : List Block) (b : Block), Linked env (b :: l) →
    ∀ a ∈ l, a.number < b.number := by
  intro l
  induction l with
  | nil => intro b _ a ha; simp at ha
  | cons c l ih =>
    intro b h a ha
    obtain ⟨h1, _, h3⟩ := h
    rcases List.mem_cons.1 ha with rfl | ha
    · omega
    · have := ih c h3 a ha; omega

theorem linked_le_head {env : Env} {l : List Block} {b a : Block} (h : Linked env l)
    (hb : l.head? = some b) (ha : a ∈ l) : a.number ≤ b.number := by
  cases l with
  | nil => simp at ha
  | cons c l =>
    simp at hb; subst hb
    rcases List.mem_cons.1 ha with rfl | ha
    · omega
    · exact Nat.le_of_lt (linked_lt env l _ h a ha)

theorem linked_nodup (env : Env) : ∀ l : List Block, Linked env l → (l.map Block.number).Nodup := by
  intro l
  induction l with
  | nil => intro _; simp
  | cons b l ih =>
    intro h
    have hl : Linked env l := by
      cases l with
      | nil => trivial
      | cons c l => exact h.2.2
    rw [List.map_cons, List.nodup_cons]
    refine ⟨?_, ih hl⟩
    intro hm
    obtain ⟨a, ha, hn⟩ := List.mem_map.1 hm
    have := linked_lt env l b h a ha
    omega

/-- Storing a block that follows the latest one keeps the storage part of the invariant. -/
theorem save_facts {env : Env} {g : Block} {s : Node} {b : Block} (I : Inv env g s)
    (hn : b.number = s.latest.number + 1) (hp : b.prevHash = env.blockHash s.latest.header) :
    Linked env (hist g (saveBlock s b)) ∧
    (∀ c ∈ hist g (saveBlock s b), get (saveBlock s b).chain c.number = some c) ∧
    (∀ n c, get (saveBlock s b).chain n = some c → c ∈ hist g (saveBlock s b) ∧ c.number = n) ∧
    (hist g (saveBlock s b)).head? = some b ∧
    (∀ c ∈ hist g s, c ∈ hist g (saveBlock s b)) := by
  have hh : hist g (saveBlock s b) = b :: hist g s := rfl
  have hle : ∀ c ∈ hist g s, c.number ≤ s.latest.number := fun c hc =>
    linked_le_head I.linked I.head hc
  refine ⟨?_, ?_, ?_, ?_, ?_⟩
  · rw [hh]
    have hhead := I.head
    have hl := I.linked
    cases hq : hist g s with
    | nil => rw [hq] at hhead; simp at hhead
    | cons a l =>
      rw [hq] at hhead hl
      simp at hhead
      subst hhead
      exact ⟨hn, hp, hl⟩
  · intro c hc
    rw [hh] at hc
    show get (put s.chain b.number b) c.number = some c
    rw [get_put]
    rcases List.mem_cons.1 hc with rfl | hc
    · simp
    · have := hle c hc
      rw [if_neg (by omega)]
      exact I.stored c hc
  · intro n c hc
    have hc : get (put s.chain b.number b) n = some c := hc
    rw [get_put] at hc
    rw [hh]
    by_cases h : n = b.number
    · rw [if_pos h] at hc
      injection hc with hc
      subst hc
      exact ⟨List.mem_cons_self, h.symm⟩
    · rw [if_neg h] at hc
      obtain ⟨h1, h2⟩ := I.only n c hc
      exact ⟨List.mem_cons_of_mem _ h1, h2⟩
  · rw [hh]; rfl
  · intro c hc; rw [hh]; exact List.mem_cons_of_mem _ hc

/-- States that agree on storage and history. -/
theorem Inv.frame {env : Env} {g : Block} {s t : Node} (I : Inv env g s)
    (hs : t.saved = s.saved) (hc : t.chain = s.chain) (hl : t.latest = s.latest)
    (ha : t.accepted = s.accepted) (ho : ∀ q ∈ t.own, q ∈ s.own)
    (he : ∀ h ∈ t.exempt, ∃ q ∈ t.own, env.proposalHash q = h)
    (hst : ∃ b ∈ hist g s, At env t.status b) (hx : Excl t) (hp : Chain.phase env t) :
    Inv env g t := by
  have hh : hist g t = hist g s := by unfold hist; rw [hs]
  exact {
    linked := by rw [hh]; exact I.linked
    stored := by rw [hh, hc]; exact I.stored
    only := by rw [hh, hc]; exact I.only
    head := by rw [hh, hl]; exact I.head
    status := by rw [hh]; exact hst
    accepted := by rw [hh, ha]; exact I.accepted
    own := fun q hq => by rw [ha]; exact I.own q (ho q hq)
    exempt := he
    excl := hx
    phase := hp }

theorem restart_inv {env : Env} {g : Block} {s : Node} (I : Inv env g s) :
    Inv env g (restart env s) := by
  refine I.frame rfl rfl rfl rfl (by intro q hq; simp [restart] at hq)
    (by intro h hh; simp [restart] at hh) ⟨s.latest, head_mem I.head, ?_⟩ ?_ ?_
  · exact ⟨rfl, rfl, rfl⟩
  · exact ⟨rfl, by intro h; simp [restart] at h⟩
  · exact ⟨rfl, rfl, rfl⟩

theorem verifyHeader_ok {env : Env} {chain : List (Nat × Block)} {p : Proposal} {u : Unit}
    (h : verifyHeader env chain p = .ok u) :
    p.common.number ≠ 0 ∧ ∃ prev, get chain (p.common.number - 1) = some prev ∧
      p.common.prevHash = env.blockHash prev.header ∧
      prev.header.common.version = p.common.version := by
  unfold verifyHeader at h
  split at h
  · cases h
  next h0 =>
    split at h
    · cases h
    next prev hg =>
      split at h
      · cases h
      next hv =>
        split at h
        · cases h
        next hp => exact ⟨h0, prev, hg, (Classical.not_not.1 hp).symm, Classical.not_not.1 hv⟩

theorem bind_ok {α β : Type} {x : Outcome α} {f : α → Outcome β} {b : β}
    (h : x.bind f = .ok b) : ∃ a, x = .ok a ∧ f a = .ok b := by
  cases x with
  | ok a => exact ⟨a, rfl, h⟩
  | err => cases h
  | panic => cases h

theorem innerCheck_ok {env : Env} {chain : List (Nat × Block)} {now : Nat} {p : Proposal}
    {vt : Bool} {full : Option (List Tx)} {u : Unit}
    (h : innerCheck env chain now p vt full = .ok u) :
    ∃ prev txs, p.common.number ≠ 0 ∧ get chain (p.common.number - 1) = some prev ∧
      p.common.prevHash = env.blockHash prev.header ∧
      prev.header.common.version = p.common.version ∧
      validateTimestamp now p.common.timestamp prev.timestamp = true ∧
      verifyProof env chain prev p.common.proof = .ok () ∧
      vt = true ∧ full = some txs ∧ env.digest txs = p.common.signedTxsHash ∧
      env.txsRoot p.txHashes = p.common.txRoot := by
  unfold innerCheck at h
  obtain ⟨_, h1, h2⟩ := bind_ok h
  obtain ⟨h0, prev, hg, hp, hv⟩ := verifyHeader_ok h1
  rw [hg] at h2
  simp only at h2
  split at h2
  · cases h2
  next ht =>
    obtain ⟨_, h3, h4⟩ := bind_ok h2
    split at h4
    · cases h4
    next hvt =>
      split at h4
      · cases h4
      next txs =>
        split at h4
        · cases h4
        next hd =>
          split at h4
          · cases h4
          next hr =>
            exact ⟨prev, txs, h0, hg, hp, hv, by simpa using ht, h3, by simpa using hvt, rfl,
              Classical.not_not.1 hd, Classical.not_not.1 hr⟩

theorem numberFollows_ok {p : Proposal} {u : Unit} (h : numberFollowsProof p = .ok u) :
    p.common.number = p.common.proof.number + 1 := by
  unfold numberFollowsProof at h
  split at h
  · cases h
  · split at h
    · split at h <;> cases h
    next hn => exact Classical.not_not.1 hn

theorem checkBlock_ok {env : Env} {s : Node} {hash len : Nat} {hf : Option Nat} {p : Proposal}
    {vt : Bool} {full full2 : Option (List Tx)} {u : Unit}
    (h : checkBlock env s hash len hf p vt full full2 = .ok u) :
    p.common.number = p.common.proof.number + 1 ∧ hardforkMatches env hf p = .ok () ∧
    (hash ∈ s.exempt ∨ innerCheck env s.chain s.clock p vt full = .ok ()) := by
  unfold checkBlock at h
  obtain ⟨_, h1, h2⟩ := bind_ok h
  obtain ⟨_, h3, h4⟩ := bind_ok h2
  refine ⟨numberFollows_ok h1, h3, ?_⟩
  split at h4
  · cases h4
  · split at h4
    next he => exact Or.inl (by simpa using he)
    · obtain ⟨_, h5, _⟩ := bind_ok h4
      exact Or.inr h5

/-- The parent recorded in storage of a checked proposal. -/
theorem inner_parent {env : Env} {g : Block} {s : Node} (I : Inv env g s) {now : Nat} {p : Proposal}
    {vt : Bool} {full : Option (List Tx)} {u : Unit}
    (h : innerCheck env s.chain now p vt full = .ok u) :
    ∃ b ∈ hist g s, p.common.number = b.number + 1 ∧ p.common.prevHash = env.blockHash b.header := by
  obtain ⟨prev, _, h0, hg, hp, _⟩ := innerCheck_ok h
  obtain ⟨hm, hn⟩ := I.only _ _ hg
  exact ⟨prev, hm, by omega, hp⟩

theorem verifySynced_ok {env : Env} {chain : List (Nat × Block)} {root : Nat} {b : Block}
    {txs : List Tx} {pf : Proof} {u : Unit} (h : verifySynced env chain root b txs pf = .ok u) :
    ∃ prev, b.number ≠ 0 ∧ get chain (b.number - 1) = some prev ∧
      b.prevHash = env.blockHash prev.header ∧ verifyProof env chain b pf = .ok () ∧
      verifyProof env chain prev b.header.common.proof = .ok () ∧
      env.digest txs = b.header.common.signedTxsHash := by
  unfold verifySynced at h
  obtain ⟨_, h1, h2⟩ := bind_ok h
  obtain ⟨_, h3, h4⟩ := bind_ok h2
  obtain ⟨h0, prev, hg, hp, _⟩ := verifyHeader_ok h3
  simp only [Proposal.ofHeader] at h0 hg hp
  simp only [Block.number] at h4
  rw [hg] at h4
  obtain ⟨_, h5, h6⟩ := bind_ok h4
  split at h6
  · cases h6
  next hd => exact ⟨prev, h0, hg, hp, h1, h5, Classical.not_not.1 hd⟩

theorem excl_return {s : Node} (h : Excl s) (hc : s.commit.isSome = true) : Excl (commitReturn s) := by
  have := h.2 hc
  refine ⟨?_, by intro h; simp [commitReturn] at h⟩
  have h2 : inBatch (commitReturn s) = inBatch s := rfl
  rw [h2, this]; rfl

theorem excl_stage {s : Node} {c : CommitRun} (h : Excl s) (hc : s.commit.isSome = true)
    (t : Node) (ht : t.commit = some c) (hl : t.locked = s.locked) (hs : t.sync = s.sync) :
    Excl t := by
  have hb : inBatch t = inBatch s := by unfold inBatch; rw [hs]
  refine ⟨?_, fun _ => by rw [hb]; exact h.2 hc⟩
  rw [hl, h.1, hc, ht]; rfl

theorem phase_commit_sync {env : Env} {s : Node} {c : CommitRun} (hc : s.commit = some c) :
    (phase env s ↔ match c.stage with
      | .checked => At env s.status s.latest ∧
          c.proposal.common.number = s.latest.number + 1 ∧
          c.proposal.common.prevHash = env.blockHash s.latest.header
      | .proofSaved b => At env s.status s.latest ∧ b.number = s.latest.number + 1 ∧
          b.prevHash = env.blockHash s.latest.header
      | .blockSaved b => s.latest = b
      | .swapped => At env s.status s.latest) := by
  obtain ⟨cur, p, pf, stage⟩ := c
  unfold phase
  rw [hc]
  cases stage <;> exact Iff.rfl

/-- Returning from a commit while the status describes the latest block. -/
theorem commitReturn_inv {env : Env} {g : Block} {s : Node} (I : Inv env g s)
    (hc : s.commit.isSome = true) (ha : At env s.status s.latest) :
    Inv env g (commitReturn s) := by
  refine I.frame rfl rfl rfl rfl (fun q h => h) I.exempt I.status (excl_return I.excl hc) ?_
  have hb : inBatch s = false := I.excl.2 hc
  unfold inBatch at hb
  unfold phase
  show match (none : Option CommitRun), s.sync with
    | some ⟨_, _, _, .checked⟩, _ => _ | some ⟨_, _, _, .proofSaved b⟩, _ => _
    | some ⟨_, _, _, .blockSaved b⟩, _ => _ | some ⟨_, _, _, .swapped⟩, _ => _
    | none, some (.syncing agent _ cur _ none) => _
    | none, some (.syncing agent _ cur _ (some (b, _, _))) => _
    | none, some (.waiting _) => _ | none, none => _
  cases hs : s.sync with
  | none => exact ha
  | some r =>
    cases r with
    | waiting n => exact ha
    | syncing => rw [hs] at hb; simp at hb

/-- The batch ends: the private status, which describes the latest block, is published. -/
theorem syncReturn_inv {env : Env} {g : Block} {s : Node} (I : Inv env g s) {agent : Status}
    (hc : s.commit = none) (ha : At env agent s.latest) : Inv env g (syncReturn s agent) := by
  refine I.frame rfl rfl rfl rfl (fun q h => h) I.exempt ⟨s.latest, head_mem I.head, ha⟩ ?_ ?_
  · refine ⟨?_, by intro _; rfl⟩
    show false = (s.commit.isSome || _)
    rw [hc]; rfl
  · unfold phase
    show match s.commit, (none : Option SyncRun) with
      | some ⟨_, _, _, .checked⟩, _ => _ | some ⟨_, _, _, .proofSaved b⟩, _ => _
      | some ⟨_, _, _, .blockSaved b⟩, _ => _ | some ⟨_, _, _, .swapped⟩, _ => _
      | none, some (.syncing agent _ cur _ none) => _
      | none, some (.syncing agent _ cur _ (some (b, _, _))) => _
      | none, some (.waiting _) => _ | none, none => _
    rw [hc]
    exact ha

theorem commit_none_of_batch {s : Node} (h : Excl s) (hb : inBatch s = true) : s.commit = none := by
  cases hc : s.commit with
  | none => rfl
  | some c =>
    have := h.2 (by rw [hc]; rfl)
    rw [hb] at this; cases this

theorem At.of_save {env : Env} (b : Block) (pf : Proof) : At env (statusOf env b pf) b :=
  ⟨rfl, rfl, rfl⟩

theorem step_inv {env : Env} (hinj : ∀ p q, env.proposalHash p = env.proposalHash q → p = q)
    {g : Block} {s : Node} (I : Inv env g s) {op : Op} (hd : Disciplined env s op) :
    Inv env g (step env s op) := by
  cases op with
  | tick now =>
    exact I.frame rfl rfl rfl rfl (fun q h => h) I.exempt I.status I.excl I.phase
  | getBlock next c hs ok =>
    simp only [step]
    split
    · exact I
    · split
      · exact restart_inv I
      · exact I
      next hnf =>
        obtain ⟨b, hb, h1, h2, _⟩ := I.status
        have hnum : (ownProposal s next c hs).common.number = next := rfl
        have hprev : (ownProposal s next c hs).common.prevHash = s.status.prevHash := rfl
        have hd : next = s.status.lastNumber + 1 := hd
        exact {
          linked := I.linked, stored := I.stored, only := I.only, head := I.head,
          status := I.status
          accepted := by
            intro p hp
            rcases List.mem_cons.1 hp with rfl | hp
            · exact ⟨b, hb, by rw [hnum, hd, h1], by rw [hprev, h2]⟩
            · exact I.accepted p hp
          own := by
            intro q hq
            rcases List.mem_cons.1 hq with rfl | hq
            · exact List.mem_cons_self
            · exact List.mem_cons_of_mem _ (I.own q hq)
          exempt := by
            intro h hh
            rcases List.mem_cons.1 hh with rfl | hh
            · exact ⟨_, List.mem_cons_self, rfl⟩
            · obtain ⟨q, hq, e⟩ := I.exempt h hh
              exact ⟨q, List.mem_cons_of_mem _ hq, e⟩
          excl := I.excl
          phase := I.phase }
  | check hash len hf p vt full full2 =>
    simp only [step]
    split
    · exact restart_inv I
    · exact I
    next hok =>
      obtain ⟨_, _, h⟩ := checkBlock_ok hok
      have hpar : ∃ b ∈ hist g s,
          p.common.number = b.number + 1 ∧ p.common.prevHash = env.blockHash b.header := by
        rcases h with h | h
        · obtain ⟨q, hq, e⟩ := I.exempt _ h
          have hd : hash = env.proposalHash p := hd
          have : q = p := hinj _ _ (by rw [e, hd])
          subst this
          exact I.accepted _ (I.own _ hq)
        · exact inner_parent I h
      exact {
        linked := I.linked, stored := I.stored, only := I.only, head := I.head, status := I.status
        accepted := by
          intro q hq
          rcases List.mem_cons.1 hq with rfl | hq
          · exact hpar
          · exact I.accepted q hq
        own := fun q hq => List.mem_cons_of_mem _ (I.own q hq)
        exempt := I.exempt, excl := I.excl, phase := I.phase }
  | commitBegin cur p pf ok =>
    simp only [step]
    generalize ht : stopMark s cur = t
    have It : Inv env g t ∧ t.status = s.status ∧ t.latest = s.latest ∧ t.accepted = s.accepted := by
      subst ht
      unfold stopMark
      split
      · exact ⟨I.frame rfl rfl rfl rfl (fun q h => h) I.exempt I.status I.excl I.phase, rfl, rfl, rfl⟩
      · exact ⟨I, rfl, rfl, rfl⟩
    obtain ⟨It, hst, hlt, hacc⟩ := It
    split
    · exact It
    split
    · exact It
    next hlock =>
      split
      · exact restart_inv It
      split
      · exact It
      split
      · exact It
      split
      · exact It
      next hcur =>
        have hcur := Classical.not_not.1 hcur
        obtain ⟨hp, hpn⟩ := hd
        have hx := It.excl
        have hl0 : t.locked = false := by simpa using hlock
        have hcn : t.commit.isSome = false ∧ inBatch t = false := by
          have := hx.1; rw [hl0] at this
          have := this.symm
          rw [Bool.or_eq_false_iff] at this
          exact this
        have hat : At env t.status t.latest := by
          have hph := It.phase
          unfold phase at hph
          have hc1 := hcn.1
          have hc2 := hcn.2
          unfold inBatch at hc2
          cases hc : t.commit with
          | some c => rw [hc] at hc1; simp at hc1
          | none =>
            rw [hc] at hph
            cases hs : t.sync with
            | none => rw [hs] at hph; exact hph
            | some r =>
              cases r with
              | waiting n => rw [hs] at hph; exact hph
              | syncing => rw [hs] at hc2; simp at hc2
        refine It.frame rfl rfl rfl rfl (fun q h => h) It.exempt It.status ?_ ?_
        · refine ⟨rfl, fun _ => ?_⟩
          exact hcn.2
        · rw [phase_commit_sync (c := ⟨cur, p, pf, .checked⟩) rfl]
          have hp' : p ∈ t.accepted := by rw [hacc]; exact hp
          obtain ⟨b, hb, hn, hh⟩ := It.accepted p hp'
          have hbl : b.number = t.latest.number := by
            have := hat.1
            omega
          have : b = t.latest := by
            have h1 := It.stored b hb
            have h2 := It.stored _ (head_mem It.head)
            rw [hbl, h2] at h1
            injection h1 with h1
            exact h1.symm
          subst this
          exact ⟨hat, hn, hh⟩
  | commitExec txs ok =>
    simp only [step]
    split
    next cur p pf hc =>
      have hsome : s.commit.isSome = true := by rw [hc]; rfl
      have hph := (phase_commit_sync hc).1 I.phase
      simp only at hph
      split
      · exact commitReturn_inv I hsome hph.1
      · split
        · exact commitReturn_inv I hsome hph.1
        · split
          · exact commitReturn_inv I hsome hph.1
          next r _ _ =>
            refine I.frame rfl rfl rfl rfl (fun q h => h) I.exempt I.status
              (excl_stage I.excl hsome _ rfl rfl rfl) ?_
            rw [phase_commit_sync rfl]
            exact hph
    · exact I
  | commitSave ok =>
    simp only [step]
    split
    next cur p pf b hc =>
      have hsome : s.commit.isSome = true := by rw [hc]; rfl
      have hph := (phase_commit_sync hc).1 I.phase
      simp only at hph
      split
      · exact commitReturn_inv I hsome hph.1
      · obtain ⟨f1, f2, f3, f4, f5⟩ := save_facts I hph.2.1 hph.2.2
        exact {
          linked := f1, stored := f2, only := f3, head := f4
          status := by obtain ⟨c, hc, h⟩ := I.status; exact ⟨c, f5 c hc, h⟩
          accepted := by
            intro q hq
            obtain ⟨c, hc, h⟩ := I.accepted q hq
            exact ⟨c, f5 c hc, h⟩
          own := I.own, exempt := I.exempt
          excl := excl_stage I.excl hsome _ rfl rfl rfl
          phase := by rw [phase_commit_sync rfl]; rfl }
    · exact I
  | commitSwap ok =>
    simp only [step]
    split
    next cur p pf b hc =>
      have hsome : s.commit.isSome = true := by rw [hc]; rfl
      have hph := (phase_commit_sync hc).1 I.phase
      simp only at hph
      split
      next h => have hd : ok = true := hd; rw [hd] at h; cases h
      · refine I.frame rfl rfl rfl rfl (fun q h => h) I.exempt
          ⟨s.latest, head_mem I.head, ?_⟩ (excl_stage I.excl hsome _ rfl rfl rfl) ?_
        · rw [← hph]; exact At.of_save _ _
        · rw [phase_commit_sync rfl]
          show At env (statusOf env b pf) s.latest
          rw [hph]; exact At.of_save _ _
    · exact I
  | commitEnd cl =>
    simp only [step]
    split
    next cur p pf hc =>
      have hsome : s.commit.isSome = true := by rw [hc]; rfl
      have hph := (phase_commit_sync hc).1 I.phase
      simp only at hph
      have hr := commitReturn_inv I hsome hph
      split
      · exact hr.frame rfl rfl rfl rfl (by intro q hq; simp at hq) (by intro h hh; simp at hh)
          hr.status hr.excl hr.phase
      · exact hr
    · exact I
  | syncBegin remote =>
    simp only [step]
    split
    · exact I
    next hs =>
      split
      · exact I
      split
      · exact I
      · refine I.frame rfl rfl rfl rfl (fun q h => h) I.exempt I.status ?_ ?_
        · have := I.excl
          unfold Excl inBatch at this ⊢
          simp only [hs] at this ⊢
          exact this
        · have := I.phase
          unfold phase at this ⊢
          simp only [hs] at this ⊢
          split at this <;> simp_all
  | syncLock ok =>
    simp only [step]
    split
    next remote hs =>
      have hnone : Inv env g { s with sync := none } := by
        refine I.frame rfl rfl rfl rfl (fun q h => h) I.exempt I.status ?_ ?_
        · have := I.excl
          unfold Excl inBatch at this ⊢
          simp only [hs] at this ⊢
          exact this
        · have := I.phase
          unfold phase at this ⊢
          simp only [hs] at this ⊢
          split at this <;> simp_all
      split
      · exact hnone
      split
      · exact hnone
      next hlock =>
        split
        · exact hnone
        split
        · exact restart_inv I
        · have hl0 : s.locked = false := by simpa using hlock
          have hcn : s.commit = none := by
            have := I.excl.1
            rw [hl0] at this
            have := this.symm
            rw [Bool.or_eq_false_iff] at this
            simpa using this.1
          have hat : At env s.status s.latest := by
            have hph := I.phase
            unfold phase at hph
            rw [hcn, hs] at hph
            exact hph
          refine I.frame rfl rfl rfl rfl (fun q h => h) I.exempt I.status ?_ ?_
          · refine ⟨?_, ?_⟩
            · show true = _
              simp [inBatch]
            · intro h
              have h : s.commit.isSome = true := h
              rw [hcn] at h; cases h
          · unfold phase
            simp only [hcn]
            exact ⟨hat, hat.1⟩
    · exact I
  | syncVerify ans =>
    simp only [step]
    split
    next agent start cur target hs =>
      have hb : inBatch s = true := by unfold inBatch; rw [hs]
      have hcn := commit_none_of_batch I.excl hb
      have hph := I.phase
      unfold phase at hph
      simp only [hcn, hs] at hph
      have hr := syncReturn_inv I hcn hph.1
      split
      · split
        · exact hr
        · split
          · exact hr
          next b txs pf hbn =>
            have hbn := Classical.not_not.1 hbn
            split
            · exact restart_inv I
            · exact hr
            next hv =>
              split
              · exact hr
              · obtain ⟨prev, _, hg, hp, _⟩ := verifySynced_ok hv
                have hprev : prev = s.latest := by
                  have h2 := I.stored _ (head_mem I.head)
                  have : b.number - 1 = s.latest.number := by rw [hbn, hph.2]; omega
                  rw [this, h2] at hg
                  injection hg with hg
                  exact hg.symm
                refine I.frame rfl rfl rfl rfl (fun q h => h) I.exempt I.status ?_ ?_
                · refine ⟨?_, ?_⟩
                  · have := I.excl.1
                    rw [hcn, hb] at this
                    show s.locked = (s.commit.isSome || _)
                    rw [this, hcn]; rfl
                  · intro h
                    have h : s.commit.isSome = true := h
                    rw [hcn] at h; cases h
                · unfold phase
                  simp only [hcn]
                  exact ⟨hph.1, hph.2, by rw [hbn, hph.2], by rw [hp, hprev]⟩
      · exact I
    · exact I
  | syncSaveProof ok =>
    simp only [step]
    split
    next agent start cur target b pf hs =>
      have hb : inBatch s = true := by unfold inBatch; rw [hs]
      have hcn := commit_none_of_batch I.excl hb
      have hph := I.phase
      unfold phase at hph
      simp only [hcn, hs] at hph
      split
      · exact syncReturn_inv I hcn hph.1
      · refine I.frame rfl rfl rfl rfl (fun q h => h) I.exempt I.status ?_ ?_
        · refine ⟨?_, ?_⟩
          · have := I.excl.1
            rw [hcn, hb] at this
            show s.locked = (s.commit.isSome || _)
            rw [this, hcn]; rfl
          · intro h
            have h : s.commit.isSome = true := h
            rw [hcn] at h; cases h
        · unfold phase
          simp only [hcn]
          exact hph
    · exact I
  | syncSaveBlock ok fl =>
    simp only [step]
    split
    next agent start cur target b pf hs =>
      have hb : inBatch s = true := by unfold inBatch; rw [hs]
      have hcn := commit_none_of_batch I.excl hb
      have hph := I.phase
      unfold phase at hph
      simp only [hcn, hs] at hph
      have hx := I.excl.1
      rw [hcn, hb] at hx
      split
      · exact syncReturn_inv I hcn hph.1
      · obtain ⟨f1, f2, f3, f4, f5⟩ := save_facts I hph.2.2.1 hph.2.2.2
        have hb2 : b ∈ hist g (saveBlock s b) := List.mem_of_head? f4
        have hacc : ∀ q ∈ s.accepted, ∃ c ∈ hist g (saveBlock s b),
            q.common.number = c.number + 1 ∧ q.common.prevHash = env.blockHash c.header := by
          intro q hq
          obtain ⟨c, hc, h⟩ := I.accepted q hq
          exact ⟨c, f5 c hc, h⟩
        split
        · exact {
            linked := f1, stored := f2, only := f3, head := f4
            status := ⟨b, hb2, At.of_save _ _⟩
            accepted := hacc
            own := I.own, exempt := I.exempt
            excl := by
              refine ⟨?_, fun _ => rfl⟩
              show false = (s.commit.isSome || _)
              rw [hcn]; rfl
            phase := by
              unfold phase
              have e : (syncReturn (saveBlock s b) (statusOf env b pf)).commit = none := hcn
              have e2 : (syncReturn (saveBlock s b) (statusOf env b pf)).sync = none := rfl
              simp only [e, e2]
              exact At.of_save _ _ }
        · exact {
            linked := f1, stored := f2, only := f3, head := f4
            status := by obtain ⟨c, hc, h⟩ := I.status; exact ⟨c, f5 c hc, h⟩
            accepted := hacc
            own := I.own, exempt := I.exempt
            excl := by
              refine ⟨?_, ?_⟩
              · show s.locked = (s.commit.isSome || _)
                rw [hx, hcn]; rfl
              · intro h
                have h : s.commit.isSome = true := h
                rw [hcn] at h; cases h
            phase := by
              unfold phase
              have e : (saveBlock s b).commit = none := hcn
              simp only [e]
              refine ⟨At.of_save _ _, ?_⟩
              show cur + 1 = b.number
              rw [hph.2.2.1, hph.2.1] }
    · exact I
  | syncEnd =>
    simp only [step]
    split
    next agent start cur target hs =>
      have hb : inBatch s = true := by unfold inBatch; rw [hs]
      have hcn := commit_none_of_batch I.excl hb
      have hph := I.phase
      unfold phase at hph
      simp only [hcn, hs] at hph
      split
      · exact I
      · exact syncReturn_inv I hcn hph.1
    · exact I
  | crash => exact restart_inv I

theorem boot_inv (env : Env) (g : Block) (stopAt : Option Nat) (clock : Nat) :
    Inv env g (boot env g stopAt clock) where
  linked := trivial
  stored := by
    intro b hb
    simp [hist, boot] at hb
    subst hb
    simp [boot, get_cons]
  only := by
    intro n b h
    simp only [boot, get_cons, get_nil] at h
    split at h
    next hn => injection h with h; subst h; exact ⟨by simp [hist, boot], hn⟩
    · cases h
  head := rfl
  status := ⟨g, by simp [hist, boot], rfl, rfl, rfl⟩
  accepted := by intro p hp; simp [boot] at hp
  own := by intro p hp; simp [boot] at hp
  exempt := by intro p hp; simp [boot] at hp
  excl := ⟨rfl, fun h => by simp [boot] at h⟩
  phase := ⟨rfl, rfl, rfl⟩

theorem reach_inv {env : Env} (hinj : ∀ p q, env.proposalHash p = env.proposalHash q → p = q)
    {g : Block} {stopAt : Option Nat} {clock : Nat} {s : Node}
    (h : Reach env (Disciplined env) (boot env g stopAt clock) s) : Inv env g s := by
  induction h with
  | init => exact boot_inv env g stopAt clock
  | step _ hd ih => exact step_inv hinj ih hd

end Axon.Chain
