import Verif.Consensus.SyncProps
import Verif.Storage.BatchProps

/-!
# Serving peers that synchronise

A node that lags behind asks a peer for blocks, for the proofs of those blocks and for their
transactions (`core/consensus/src/adapter.rs:188-246`).  This file is the answering side
(`core/consensus/src/message.rs`), over the transition system of `Consensus/Engine.lean`, and the
invariant that the answers rest on.
-/

namespace Axon.Chain

open Axon Axon.Assoc

/-- core/consensus/src/message.rs:241-257 `PullBlockRpcHandler::process`: the block with that number,
or an error as the answer.  A failing database is not modelled. -/
def pullBlock (s : Node) (n : Nat) : Option Block := get s.chain n

/-- core/consensus/src/message.rs:278-307 `PullProofRpcHandler::process`.  The proof of a block is
looked for in the header of the next one, up to the number of the stored latest proof.
`number + 1` cannot overflow below another number. -/
def pullProof (s : Node) (n : Nat) : Option Proof :=
  if n < s.latestProof.number then
    match get s.chain (n + 1) with
    | some next => some next.header.common.proof
    | none => none
  else if n = s.latestProof.number then some s.latestProof
  else none

/-- core/consensus/src/message.rs:329-341 `PullTxsRpcHandler::process`: the transactions of that
height; the ones that were not found are left out of the answer (`flatten`). -/
def pullTxs {V : Type} (height : Nat) (hashes : List H256) (rows : List (Storage.Row V)) : List V :=
  (Storage.getBatch height hashes rows).filterMap id

/-- core/consensus/src/synchronization.rs:114-131 `polling_broadcast` (and engine.rs:362 after a
commit): the height that a node tells its peers, `none` while it is zero. -/
def announced (s : Node) : Option Nat :=
  if s.status.proof.number = 0 then none else some s.status.proof.number

/-- Steps of a node that asks `server` for block `n` (synchronization.rs:155-203): the answers of
`server` are verified, executed and stored; without an answer the batch ends.  `txs` are the
transactions that were put together for it (C63). -/
def fetchFrom (server : Node) (txs : Nat → List Tx) (n : Nat) : List Op :=
  match pullBlock server n, pullProof server n with
  | some b, some pf => [.syncVerify (some (b, txs n, pf)), .syncSaveProof true,
      .syncSaveBlock true true]
  | _, _ => [.syncVerify none]

/-- A batch of `k` blocks after block `cur`. -/
def catchUp (server : Node) (txs : Nat → List Tx) : Nat → Nat → List Op
  | 0, _ => [.syncEnd]
  | k + 1, cur => fetchFrom server txs (cur + 1) ++ catchUp server txs k (cur + 1)

/-! ## Invariant -/

/-- The proof vouches for the block with its number, if that block is stored. -/
def Good (env : Env) (chain : List (Nat × Block)) (pf : Proof) : Prop :=
  ∀ b, get chain pf.number = some b → verifyProof env chain b pf = .ok ()

/-- The proof is one for this proposal. -/
def Vouches (env : Env) (p : Proposal) (pf : Proof) : Prop :=
  pf.number = p.common.number ∧ pf.blockHash = env.proposalHash p ∧
    env.quorum p.common.number pf = true

/-- Executing some transactions with the digest in the header on top of `prev` gives the roots in the
header. -/
def Ran (env : Env) (prev b : Block) : Prop :=
  ∃ txs r, env.digest txs = b.header.common.signedTxsHash ∧
    env.exec prev.header.stateRoot
      (Proposal.ofHeader b.header prev.header.stateRoot b.txHashes) txs = some r ∧
    r.stateRoot = b.header.stateRoot ∧ r.receiptRoot = b.header.receiptsRoot

/-- What Overlord, the pool and the peers promise: a commit comes with a proof for the committed
proposal, which was made on top of the local state; the transactions executed for it are those that
the proposal fixes; a block of a peer carries the proof of its predecessor. -/
def Honest (env : Env) (s : Node) : Op → Prop
  | .commitBegin _ p pf _ => Vouches env p pf ∧ p.prevStateRoot = s.status.lastStateRoot
  | .commitExec (some txs) _ => ∀ cur p pf, s.commit = some ⟨cur, p, pf, .checked⟩ →
      env.digest txs = p.common.signedTxsHash
  | .syncVerify (some (b, _, _)) => b.number = b.header.common.proof.number + 1
  | _ => True

def commitServes (env : Env) (s : Node) : Prop :=
  match s.commit with
  | some ⟨_, p, pf, .checked⟩ => p ∈ s.accepted ∧ Vouches env p pf ∧
      p.prevStateRoot = s.latest.header.stateRoot
  | some ⟨_, p, pf, .proofSaved b⟩ => p ∈ s.accepted ∧ Vouches env p pf ∧
      p.prevStateRoot = s.latest.header.stateRoot ∧ b.header.common = p.common ∧
      b.txHashes = p.txHashes ∧ s.latestProof = pf ∧ Ran env s.latest b
  | some ⟨_, _, pf, .blockSaved _⟩ => Good env s.chain pf
  | _ => True

def syncServes (env : Env) (s : Node) : Prop :=
  match s.sync with
  | some (.syncing agent _ _ _ none) =>
      agent.proof.number = agent.lastNumber → Good env s.chain agent.proof
  | some (.syncing agent _ _ _ (some (b, pf, saved))) =>
      (agent.proof.number = agent.lastNumber → Good env s.chain agent.proof) ∧
      b.number = b.header.common.proof.number + 1 ∧ Good env s.chain b.header.common.proof ∧
      verifyProof env s.chain b pf = .ok () ∧
      (saved = true → s.latestProof = b.header.common.proof) ∧ Ran env s.latest b
  | _ => True

structure ServeInv (env : Env) (s : Node) : Prop where
  headers : ∀ n b, get s.chain (n + 1) = some b →
    b.header.common.proof.number = n ∧ Good env s.chain b.header.common.proof ∧
    ∀ prev, get s.chain n = some prev → Ran env prev b
  latest : Good env s.chain s.latestProof
  status : s.status.proof.number = s.status.lastNumber → Good env s.chain s.status.proof
  accepted : ∀ p ∈ s.accepted,
    p.common.number = p.common.proof.number + 1 ∧ Good env s.chain p.common.proof
  commit : commitServes env s
  sync : syncServes env s

theorem verifyProof_congr {env : Env} {c c' : List (Nat × Block)} {b : Block} {pf : Proof}
    (h : get c' (b.number - 1) = get c (b.number - 1)) :
    verifyProof env c' b pf = verifyProof env c b pf := by
  unfold verifyProof
  rw [h]

/-- Storing a later block does not change what a proof vouches for. -/
theorem good_save {env : Env} {g : Block} {s : Node} (I : Inv env g s) {b : Block}
    (hn : b.number = s.latest.number + 1) {pf : Proof} (hpf : pf.number ≤ s.latest.number)
    (h : Good env s.chain pf) : Good env (saveBlock s b).chain pf := by
  intro a ha
  have ha : get (put s.chain b.number b) pf.number = some a := ha
  rw [get_put, if_neg (by omega)] at ha
  have hnum := (I.only _ _ ha).2
  rw [verifyProof_congr (c := s.chain)]
  · exact h a ha
  · show get (put s.chain b.number b) (a.number - 1) = _
    rw [get_put, if_neg (by omega)]

/-- A verified proof of the block that is being stored vouches for it afterwards. -/
theorem good_new {env : Env} {s : Node} {b : Block} (hn : b.number ≠ 0) {pf : Proof}
    (h : verifyProof env s.chain b pf = .ok ()) : Good env (saveBlock s b).chain pf := by
  intro a ha
  have hpf : b.number = pf.number := by
    unfold verifyProof at h
    rw [if_neg hn] at h
    split at h
    · cases h
    · omega
  have ha : get (put s.chain b.number b) pf.number = some a := ha
  rw [← hpf, get_put, if_pos rfl] at ha
  injection ha with ha
  subst ha
  rw [verifyProof_congr (c := s.chain)]
  · exact h
  · show get (put s.chain b.number b) (b.number - 1) = _
    rw [get_put, if_neg (by omega)]

/-- A proof of the proposal that a block was made from is a proof of the block. -/
theorem verify_of_vouches {env : Env} {g : Block} {s : Node} (I : Inv env g s) {p : Proposal}
    {b : Block} {pf : Proof} (hv : Vouches env p pf)
    (hr : p.prevStateRoot = s.latest.header.stateRoot) (hc : b.header.common = p.common)
    (ht : b.txHashes = p.txHashes) (hn : b.number = s.latest.number + 1) :
    verifyProof env s.chain b pf = .ok () := by
  have e : Proposal.ofHeader b.header s.latest.header.stateRoot b.txHashes = p := by
    unfold Proposal.ofHeader
    rw [hc, ht, ← hr]
  have hnum : b.number = p.common.number := by show b.header.common.number = _; rw [hc]
  obtain ⟨h1, h2, h3⟩ := hv
  have hl := I.stored _ (head_mem I.head)
  unfold verifyProof
  rw [if_neg (by omega), if_neg (by omega), show b.number - 1 = s.latest.number by omega, hl]
  simp only [e, h2, hnum, h3]
  simp

/-- States that agree on the storage. -/
theorem ServeInv.frame {env : Env} {s t : Node} (S : ServeInv env s) (hc : t.chain = s.chain)
    (hl : Good env s.chain t.latestProof) (ha : t.accepted = s.accepted)
    (hs : t.status.proof.number = t.status.lastNumber → Good env s.chain t.status.proof)
    (hcm : commitServes env t) (hsy : syncServes env t) : ServeInv env t where
  headers := by rw [hc]; exact S.headers
  latest := by rw [hc]; exact hl
  status := by rw [hc]; exact hs
  accepted := by rw [hc, ha]; exact S.accepted
  commit := hcm
  sync := hsy

theorem restart_serve {env : Env} {s : Node} (S : ServeInv env s) : ServeInv env (restart env s) :=
  S.frame rfl S.latest rfl (fun _ => S.latest) trivial trivial

theorem commitReturn_serve {env : Env} {s : Node} (S : ServeInv env s) :
    ServeInv env (commitReturn s) :=
  S.frame rfl S.latest rfl S.status trivial S.sync

theorem syncReturn_serve {env : Env} {s : Node} (S : ServeInv env s) {agent : Status}
    (hn : agent.proof.number = agent.lastNumber → Good env s.chain agent.proof) :
    ServeInv env (syncReturn s agent) :=
  S.frame rfl S.latest rfl hn S.commit trivial

/-- Nothing above the latest block is stored. -/
theorem chain_le {env : Env} {g : Block} {s : Node} (I : Inv env g s) {n : Nat} {b : Block}
    (h : get s.chain n = some b) : n ≤ s.latest.number := by
  obtain ⟨h1, h2⟩ := I.only _ _ h
  have := linked_le_head I.linked I.head h1
  omega

/-- A proof for a number above the latest block vouches for nothing yet. -/
theorem good_future {env : Env} {g : Block} {s : Node} (I : Inv env g s) {pf : Proof}
    (h : s.latest.number < pf.number) : Good env s.chain pf := by
  intro b hb
  have := chain_le I hb
  omega

/-- The parts of the invariant that survive storing the next block. -/
theorem save_serve {env : Env} {g : Block} {s : Node} (I : Inv env g s) (S : ServeInv env s)
    {b : Block} (hn : b.number = s.latest.number + 1)
    (hbp : b.number = b.header.common.proof.number + 1)
    (hbg : Good env s.chain b.header.common.proof) (hbr : Ran env s.latest b) :
    (∀ n c, get (saveBlock s b).chain (n + 1) = some c →
      c.header.common.proof.number = n ∧ Good env (saveBlock s b).chain c.header.common.proof ∧
      ∀ prev, get (saveBlock s b).chain n = some prev → Ran env prev c) ∧
    (s.status.proof.number = s.status.lastNumber →
      Good env (saveBlock s b).chain s.status.proof) ∧
    (∀ p ∈ s.accepted, p.common.number = p.common.proof.number + 1 ∧
      Good env (saveBlock s b).chain p.common.proof) := by
  refine ⟨?_, ?_, ?_⟩
  · intro n c hc
    have hc : get (put s.chain b.number b) (n + 1) = some c := hc
    rw [get_put] at hc
    by_cases h : n + 1 = b.number
    · rw [if_pos h] at hc
      injection hc with hc
      subst hc
      refine ⟨by omega, good_save I hn (by omega) hbg, ?_⟩
      intro prev hp
      have hp : get (put s.chain b.number b) n = some prev := hp
      have hl := I.stored _ (head_mem I.head)
      rw [get_put, if_neg (by omega), show n = s.latest.number by omega, hl] at hp
      injection hp with hp
      subst hp
      exact hbr
    · rw [if_neg h] at hc
      have hle := chain_le I hc
      obtain ⟨h1, h2, h3⟩ := S.headers n c hc
      refine ⟨h1, good_save I hn (by omega) h2, ?_⟩
      intro prev hp
      have hp : get (put s.chain b.number b) n = some prev := hp
      rw [get_put, if_neg (by omega)] at hp
      exact h3 prev hp
  · intro h
    obtain ⟨c, hc, hat⟩ := I.status
    have := linked_le_head I.linked I.head hc
    have := hat.1
    exact good_save I hn (by omega) (S.status h)
  · intro p hp
    obtain ⟨h1, h2⟩ := S.accepted p hp
    obtain ⟨c, hc, h3, _⟩ := I.accepted p hp
    have := linked_le_head I.linked I.head hc
    exact ⟨h1, good_save I hn (by omega) h2⟩

theorem commitServes_mono {env : Env} {s t : Node} (h : commitServes env s)
    (hc : t.commit = s.commit) (hl : t.latest = s.latest) (hp : t.latestProof = s.latestProof)
    (hch : t.chain = s.chain) (ha : ∀ q ∈ s.accepted, q ∈ t.accepted) : commitServes env t := by
  unfold commitServes at h ⊢
  rw [hc, hl, hp, hch]
  cases hs : s.commit with
  | none => trivial
  | some r =>
    obtain ⟨cur, p, pf, st⟩ := r
    rw [hs] at h
    cases st with
    | checked => exact ⟨ha _ h.1, h.2⟩
    | proofSaved b => exact ⟨ha _ h.1, h.2⟩
    | blockSaved b => exact h
    | swapped => trivial

theorem step_serve {env : Env} (hinj : ∀ p q, env.proposalHash p = env.proposalHash q → p = q)
    (hexec : ∀ root p q txs, p.common = q.common → p.txHashes = q.txHashes →
      env.exec root p txs = env.exec root q txs)
    {g : Block} {s : Node} (I : Inv env g s) (S : ServeInv env s) {op : Op}
    (hd : Disciplined env s op) (hh : Honest env s op) : ServeInv env (step env s op) := by
  cases op with
  | tick now => exact S.frame rfl S.latest rfl S.status S.commit S.sync
  | getBlock next c hs ok =>
    simp only [step]
    split
    · exact S
    · split
      · exact restart_serve S
      · exact S
      next hnf =>
        have hf := numberFollows_ok hnf
        have hd : next = s.status.lastNumber + 1 := hd
        have hf : next = s.status.proof.number + 1 := hf
        have hacc : ∀ p ∈ ownProposal s next c hs :: s.accepted,
            p.common.number = p.common.proof.number + 1 ∧ Good env s.chain p.common.proof := by
          intro p hp
          rcases List.mem_cons.1 hp with rfl | hp
          · exact ⟨hf, S.status (by omega)⟩
          · exact S.accepted p hp
        have hcm := S.commit
        refine ⟨S.headers, S.latest, S.status, hacc, ?_, S.sync⟩
        exact commitServes_mono hcm rfl rfl rfl rfl (fun q hq => List.mem_cons_of_mem _ hq)
  | check hash len hf p vt full full2 =>
    simp only [step]
    split
    · exact restart_serve S
    · exact S
    next hok =>
      obtain ⟨hnf, _, h⟩ := checkBlock_ok hok
      have hp : p.common.number = p.common.proof.number + 1 ∧ Good env s.chain p.common.proof := by
        rcases h with h | h
        · obtain ⟨q, hq, e⟩ := I.exempt _ h
          have hd : hash = env.proposalHash p := hd
          have : q = p := hinj _ _ (by rw [e, hd])
          subst this
          exact S.accepted _ (I.own _ hq)
        · obtain ⟨prev, _, h0, hg, _, _, _, hv, _⟩ := innerCheck_ok h
          refine ⟨hnf, ?_⟩
          intro b hb
          rw [show p.common.number - 1 = p.common.proof.number by omega, hb] at hg
          injection hg with hg
          subst hg
          exact hv
      have hcm := S.commit
      refine ⟨S.headers, S.latest, S.status, ?_, ?_, S.sync⟩
      · intro q hq
        rcases List.mem_cons.1 hq with rfl | hq
        · exact hp
        · exact S.accepted q hq
      · exact commitServes_mono hcm rfl rfl rfl rfl (fun q hq => List.mem_cons_of_mem _ hq)
  | commitBegin cur p pf ok =>
    simp only [step]
    generalize ht : stopMark s cur = t
    have It : ServeInv env t ∧ t.status = s.status ∧ t.latest = s.latest ∧
        t.accepted = s.accepted ∧ Inv env g t := by
      subst ht
      unfold stopMark
      split
      · exact ⟨S.frame rfl S.latest rfl S.status S.commit S.sync, rfl, rfl, rfl,
          I.frame rfl rfl rfl rfl (fun q h => h) I.exempt I.status I.excl I.phase⟩
      · exact ⟨S, rfl, rfl, rfl, I⟩
    obtain ⟨St, hst, hlt, hacc, It⟩ := It
    split
    · exact St
    split
    · exact St
    next hlock =>
      split
      · exact restart_serve St
      split
      · exact St
      split
      · exact St
      split
      · exact St
      next hcur =>
        obtain ⟨hp, hpn⟩ := hd
        obtain ⟨hv, hr⟩ := hh
        have hx := It.excl
        have hl0 : t.locked = false := by simpa using hlock
        have hcn : t.commit.isSome = false ∧ inBatch t = false := by
          have := hx.1; rw [hl0] at this
          have := this.symm
          rw [Bool.or_eq_false_iff] at this
          exact this
        have hat : At env t.status t.latest := by
          have hph := It.phase
          unfold phase at hph
          have hc1 := hcn.1
          have hc2 := hcn.2
          unfold inBatch at hc2
          cases hc : t.commit with
          | some c => rw [hc] at hc1; simp at hc1
          | none =>
            rw [hc] at hph
            cases hs : t.sync with
            | none => rw [hs] at hph; exact hph
            | some r =>
              cases r with
              | waiting n => rw [hs] at hph; exact hph
              | syncing => rw [hs] at hc2; simp at hc2
        refine St.frame rfl St.latest rfl St.status ?_ St.sync
        refine ⟨by rw [hacc]; exact hp, hv, ?_⟩
        rw [hr, ← hst, hat.2.2]
  | commitExec txs ok =>
    simp only [step]
    split
    next cur p pf hc =>
      have hph := (phase_commit_sync hc).1 I.phase
      simp only at hph
      have hcm := S.commit
      unfold commitServes at hcm
      rw [hc] at hcm
      split
      · exact commitReturn_serve S
      next txs =>
        split
        · exact commitReturn_serve S
        next r hex =>
          split
          · exact commitReturn_serve S
          · refine S.frame rfl (good_future I ?_) rfl S.status ?_ ?_
            · have := hcm.2.1.1
              show s.latest.number < pf.number
              omega
            · refine ⟨hcm.1, hcm.2.1, hcm.2.2, rfl, rfl, rfl, txs, r, ?_, ?_, rfl, rfl⟩
              · exact hh _ _ _ hc
              · rw [← hph.1.2.2]
                rw [← hex]
                exact hexec _ _ _ _ rfl rfl
            · have hbt : inBatch s = false := I.excl.2 (by rw [hc]; rfl)
              unfold inBatch at hbt
              unfold syncServes
              simp only
              split <;> simp_all
    · exact S
  | commitSave ok =>
    simp only [step]
    split
    next cur p pf b hc =>
      have hph := (phase_commit_sync hc).1 I.phase
      simp only at hph
      have hcm := S.commit
      unfold commitServes at hcm
      rw [hc] at hcm
      obtain ⟨hpa, hv, hr, hbc, hbt, hlp, hran⟩ := hcm
      obtain ⟨hp1, hp2⟩ := S.accepted p hpa
      split
      · exact commitReturn_serve S
      · have hbn : b.number = p.common.number := by show b.header.common.number = _; rw [hbc]
        obtain ⟨f1, f2, f3⟩ := save_serve I S hph.2.1 (by rw [hbc, hbn]; exact hp1)
          (by rw [hbc]; exact hp2) hran
        have hver := verify_of_vouches I hv hr hbc hbt hph.2.1
        have hgood := good_new (by omega) hver
        refine ⟨f1, ?_, f2, f3, hgood, ?_⟩
        · show Good env (saveBlock s b).chain s.latestProof
          rw [hlp]; exact hgood
        · have hbt : inBatch s = false := I.excl.2 (by rw [hc]; rfl)
          unfold inBatch at hbt
          unfold syncServes
          simp only [saveBlock]
          split <;> simp_all
    · exact S
  | commitSwap ok =>
    simp only [step]
    split
    next cur p pf b hc =>
      have hcm := S.commit
      unfold commitServes at hcm
      rw [hc] at hcm
      split
      · exact commitReturn_serve S
      · exact S.frame rfl S.latest rfl (fun _ => hcm) trivial S.sync
    · exact S
  | commitEnd cl =>
    simp only [step]
    split
    · split
      · exact S.frame rfl S.latest rfl S.status trivial S.sync
      · exact commitReturn_serve S
    · exact S
  | syncBegin remote =>
    simp only [step]
    split
    · exact S
    · split
      · exact S
      split
      · exact S
      · exact S.frame rfl S.latest rfl S.status S.commit trivial
  | syncLock ok =>
    simp only [step]
    split
    next remote hs =>
      have hnone : ServeInv env { s with sync := none } :=
        S.frame rfl S.latest rfl S.status S.commit trivial
      split
      · exact hnone
      split
      · exact hnone
      split
      · exact hnone
      split
      · exact restart_serve S
      · exact S.frame rfl S.latest rfl S.status S.commit S.status
    · exact S
  | syncVerify ans =>
    simp only [step]
    split
    next agent start cur target hs =>
      have hsy := S.sync
      unfold syncServes at hsy
      rw [hs] at hsy
      have hr := syncReturn_serve S hsy
      split
      · split
        · exact hr
        · split
          · exact hr
          next b txs pf hbn =>
            split
            · exact restart_serve S
            · exact hr
            next hv =>
              split
              · exact hr
              next r hex =>
                obtain ⟨prev, h0, hg, _, hv1, hv2, hdg⟩ := verifySynced_ok hv
                have hcn := commit_none_of_batch I.excl (by unfold inBatch; rw [hs])
                have hph := I.phase
                unfold phase at hph
                simp only [hcn, hs] at hph
                have hh : b.number = b.header.common.proof.number + 1 := hh
                refine S.frame rfl S.latest rfl S.status S.commit ⟨hsy, hh, ?_, hv1, ?_, ?_⟩
                · intro a ha
                  rw [show b.number - 1 = b.header.common.proof.number by omega] at hg
                  have ha : get s.chain _ = some a := ha
                  rw [hg] at ha
                  injection ha with ha
                  subst ha
                  exact hv2
                · intro h; cases h
                · unfold execSynced at hex
                  split at hex
                  · cases hex
                  next r' he =>
                    split at hex
                    · cases hex
                    next e1 =>
                      split at hex
                      · cases hex
                      next e2 =>
                        refine ⟨txs, r', hdg, ?_, Classical.not_not.1 e1, Classical.not_not.1 e2⟩
                        rw [hph.1.2.2] at he
                        rw [← he]
                        exact hexec _ _ _ _ rfl rfl
      · exact S
    · exact S
  | syncSaveProof ok =>
    simp only [step]
    split
    next agent start cur target b pf hs =>
      have hsy := S.sync
      unfold syncServes at hsy
      rw [hs] at hsy
      obtain ⟨h1, h2, h3, h4, _, h6⟩ := hsy
      have hcn := commit_none_of_batch I.excl (by unfold inBatch; rw [hs])
      split
      · exact syncReturn_serve S h1
      · refine S.frame rfl h3 rfl S.status ?_ ⟨h1, h2, h3, h4, fun _ => rfl, h6⟩
        unfold commitServes
        simp only [hcn]
    · exact S
  | syncSaveBlock ok fl =>
    simp only [step]
    split
    next agent start cur target b pf hs =>
      have hsy := S.sync
      unfold syncServes at hsy
      rw [hs] at hsy
      obtain ⟨h1, h2, h3, h4, h5, h6⟩ := hsy
      have hb : inBatch s = true := by unfold inBatch; rw [hs]
      have hcn := commit_none_of_batch I.excl hb
      have hph := I.phase
      unfold phase at hph
      simp only [hcn, hs] at hph
      have hn := hph.2.2.1
      split
      · exact syncReturn_serve S h1
      · obtain ⟨f1, f2, f3⟩ := save_serve I S hn h2 h3 h6
        have hgood := good_new (by omega) h4
        have hlat : Good env (saveBlock s b).chain s.latestProof := by
          rw [h5 rfl]
          exact good_save I hn (by omega) h3
        have hcm : ∀ t : Node, t.commit = s.commit → commitServes env t := by
          intro t ht
          unfold commitServes
          rw [ht, hcn]
          trivial
        split
        · exact ⟨f1, hlat, fun _ => hgood, f3, hcm _ rfl, trivial⟩
        · exact ⟨f1, hlat, f2, f3, hcm _ rfl, fun _ => hgood⟩
    · exact S
  | syncEnd =>
    simp only [step]
    split
    next agent start cur target hs =>
      have hsy := S.sync
      unfold syncServes at hsy
      rw [hs] at hsy
      split
      · exact S
      · exact syncReturn_serve S hsy
    · exact S
  | crash => exact restart_serve S

theorem boot_serve (env : Env) (g : Block) (hg : g.number = 0) (stopAt : Option Nat) (clock : Nat) :
    ServeInv env (boot env g stopAt clock) := by
  have hget : ∀ n b, get (boot env g stopAt clock).chain n = some b → n = 0 ∧ b = g := by
    intro n b h
    simp only [boot, get_cons, hg] at h
    by_cases h0 : 0 = n
    · rw [if_pos h0] at h
      injection h with h
      exact ⟨h0.symm, h.symm⟩
    · rw [if_neg h0] at h; cases h
  have hgood : ∀ pf, Good env (boot env g stopAt clock).chain pf := by
    intro pf b hb
    obtain ⟨_, rfl⟩ := hget _ _ hb
    unfold verifyProof
    rw [if_pos hg]
  refine ⟨?_, hgood _, fun _ => hgood _, ?_, trivial, trivial⟩
  · intro n b h
    have := (hget _ _ h).1
    omega
  · intro p hp
    simp [boot] at hp

theorem reach_serve {env : Env} (hinj : ∀ p q, env.proposalHash p = env.proposalHash q → p = q)
    (hexec : ∀ root p q txs, p.common = q.common → p.txHashes = q.txHashes →
      env.exec root p txs = env.exec root q txs)
    {g : Block} (hg : g.number = 0) {stopAt : Option Nat} {clock : Nat} {s : Node}
    (h : Reach env (fun s op => Disciplined env s op ∧ Honest env s op) (boot env g stopAt clock) s) :
    Inv env g s ∧ ServeInv env s := by
  induction h with
  | init => exact ⟨boot_inv env g stopAt clock, boot_serve env g hg stopAt clock⟩
  | step _ hd ih => exact ⟨step_inv hinj ih.1 hd.1, step_serve hinj hexec ih.1 ih.2 hd.1 hd.2⟩

/-- Every number up to the latest block is stored. -/
theorem stored_below {env : Env} : ∀ (l : List Block) (b : Block) (n : Nat), Linked env (b :: l) →
    (∀ g, (b :: l).getLast? = some g → g.number = 0) → n ≤ b.number →
    ∃ c ∈ b :: l, c.number = n := by
  intro l
  induction l with
  | nil =>
    intro b n _ hg hn
    have := hg b rfl
    exact ⟨b, List.mem_cons_self, by omega⟩
  | cons a l ih =>
    intro b n h hg hn
    by_cases he : n = b.number
    · exact ⟨b, List.mem_cons_self, he.symm⟩
    · have := h.1
      obtain ⟨c, hc, e⟩ := ih a n h.2.2 (fun g h => hg g (by rw [List.getLast?_cons_cons]; exact h))
        (by omega)
      exact ⟨c, List.mem_cons_of_mem _ hc, e⟩

theorem pullBlock_le {env : Env} {g : Block} (hg : g.number = 0) {s : Node} (I : Inv env g s)
    {n : Nat} (hn : n ≤ s.latest.number) : ∃ b, get s.chain n = some b ∧ b.number = n := by
  have hhead := I.head
  have hl := I.linked
  cases hq : hist g s with
  | nil => rw [hq] at hhead; simp at hhead
  | cons a l =>
    rw [hq] at hhead hl
    simp at hhead
    subst hhead
    have hlast : ∀ x, (s.latest :: l).getLast? = some x → x.number = 0 := by
      intro x hx
      rw [← hq] at hx
      unfold hist at hx
      rw [List.getLast?_concat] at hx
      injection hx with hx
      rw [← hx]; exact hg
    obtain ⟨c, hc, e⟩ := stored_below l s.latest n hl hlast hn
    rw [← hq] at hc
    exact ⟨c, by rw [← e]; exact I.stored c hc, e⟩

end Axon.Chain
