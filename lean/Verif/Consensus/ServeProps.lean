import Verif.Consensus.Serve

/-!
# C103: a node serves what a peer needs to catch up
-/

namespace Axon.Chain

open Axon Axon.Assoc

/-- A node whose storage is `s` can be built upon by peers: what it answers for number `n` is block
`n`, a proof of it, and both pass the verification of any peer that has the blocks below `n`. -/
def Serves (env : Env) (s : Node) (n : Nat) : Prop :=
  ∃ b pf, pullBlock s n = some b ∧ pullProof s n = some pf ∧ b.number = n ∧ pf.number = n ∧
    ∀ chain root txs, (∀ m, m < n → get chain m = get s.chain m) →
      env.digest txs = b.header.common.signedTxsHash →
      verifySynced env chain root b txs pf = .ok ()

/-- All blocks have the same version (`BlockVersion` has one value). -/
def OneVersion (s : Node) : Prop :=
  ∀ m n b c, get s.chain m = some b → get s.chain n = some c →
    b.header.common.version = c.header.common.version

theorem pullProof_good {env : Env} {g : Block} {s : Node} (I : Inv env g s) (S : ServeInv env s)
    {n : Nat} {b : Block} {pf : Proof} (hb : pullBlock s n = some b)
    (hp : pullProof s n = some pf) : b.number = n ∧ pf.number = n ∧
      verifyProof env s.chain b pf = .ok () := by
  have hn := (I.only _ _ hb).2
  unfold pullProof at hp
  split at hp
  · split at hp
    next next hg =>
      injection hp with hp
      subst hp
      obtain ⟨h1, h2, _⟩ := S.headers _ _ hg
      exact ⟨hn, h1, h2 b (by rw [h1]; exact hb)⟩
    · cases hp
  · split at hp
    next he =>
      injection hp with hp
      subst hp
      exact ⟨hn, he.symm, S.latest b (by rw [← he]; exact hb)⟩
    · cases hp

theorem verifySynced_of {env : Env} {g : Block} {s : Node} (I : Inv env g s) (S : ServeInv env s)
    (hver : OneVersion s) {n : Nat} (h0 : n ≠ 0) {b : Block} {pf : Proof} {prev : Block}
    (hb : get s.chain n = some b) (hprev : get s.chain (n - 1) = some prev)
    (hlink : b.prevHash = env.blockHash prev.header)
    (hv : verifyProof env s.chain b pf = .ok ()) {chain : List (Nat × Block)} (root : Nat)
    {txs : List Tx} (hc : ∀ m, m < n → get chain m = get s.chain m)
    (hd : env.digest txs = b.header.common.signedTxsHash) :
    verifySynced env chain root b txs pf = .ok () := by
  have hn := (I.only _ _ hb).2
  have hpn := (I.only _ _ hprev).2
  have hgp : get chain (b.number - 1) = some prev := by rw [hn, hc _ (by omega)]; exact hprev
  have hv1 : verifyProof env chain b pf = .ok () := by
    rw [verifyProof_congr (c := s.chain), hv]
    rw [hn]; exact hc _ (by omega)
  obtain ⟨hh1, hh2, _⟩ := S.headers (n - 1) b (by rw [show n - 1 + 1 = n by omega]; exact hb)
  have hv2 : verifyProof env chain prev b.header.common.proof = .ok () := by
    rw [verifyProof_congr (c := s.chain)]
    · exact hh2 prev (by rw [hh1]; exact hprev)
    · rw [hpn]; exact hc _ (by omega)
  have hh : verifyHeader env chain (Proposal.ofHeader b.header root b.txHashes) = .ok () := by
    unfold verifyHeader
    have e : (Proposal.ofHeader b.header root b.txHashes).common = b.header.common := rfl
    have hver := hver _ _ _ _ hprev hb
    have hn' : b.header.common.number = b.number := rfl
    rw [e, hn', if_neg (by omega), hgp]
    simp only [hver, hlink.symm]
    simp
  unfold verifySynced
  rw [hv1, hh]
  simp only [Outcome.bind, hgp, hv2, hd]
  simp

theorem linked_prev {env : Env} : ∀ (l : List Block), Linked env l → ∀ a b, a ∈ l → b ∈ l →
    b.number = a.number + 1 → b.prevHash = env.blockHash a.header := by
  intro l
  induction l with
  | nil => intro _ a b ha; simp at ha
  | cons c l ih =>
    intro h a b ha hb hn
    cases l with
    | nil =>
      simp at ha hb
      subst ha; subst hb
      omega
    | cons d l =>
      have hlt := linked_lt env (d :: l) c h
      rcases List.mem_cons.1 hb with rfl | hb'
      · rcases List.mem_cons.1 ha with rfl | ha
        · omega
        · rcases List.mem_cons.1 ha with rfl | ha
          · exact h.2.1
          · have h1 := linked_lt env l d h.2.2 a ha
            have h2 := h.1
            omega
      · rcases List.mem_cons.1 ha with rfl | ha
        · have := hlt b hb'
          omega
        · exact ih h.2.2 a b ha hb' hn

/-- **C103, soundness.**  In every state of a node that lives through commits, synchronisation and
crashes at any point: if it answers the requests for block `n` and for its proof, the answers are
block `n` and a proof of it which every peer that has the same blocks below `n` accepts. -/
theorem C103_accepted_partial (env : Env)
    (hinj : ∀ p q, env.proposalHash p = env.proposalHash q → p = q)
    (hexec : ∀ root p q txs, p.common = q.common → p.txHashes = q.txHashes →
      env.exec root p txs = env.exec root q txs)
    (g : Block) (hg : g.number = 0) (stopAt : Option Nat) (clock : Nat) (s : Node)
    (h : Reach env (fun s op => Disciplined env s op ∧ Honest env s op) (boot env g stopAt clock) s)
    (hver : OneVersion s) (n : Nat) (hn : n ≠ 0) (b : Block) (pf : Proof)
    (hb : pullBlock s n = some b) (hp : pullProof s n = some pf) : Serves env s n := by
  obtain ⟨I, S⟩ := reach_serve hinj hexec hg h
  obtain ⟨h1, h2, h3⟩ := pullProof_good I S hb hp
  refine ⟨b, pf, hb, hp, h1, h2, ?_⟩
  intro chain root txs hc hd
  have hle := chain_le I hb
  obtain ⟨prev, hprev, hpn⟩ := pullBlock_le hg I (n := n - 1) (by omega)
  have hm := (I.only _ _ hb).1
  have hmp := (I.only _ _ hprev).1
  exact verifySynced_of I S hver hn hb hprev
    (linked_prev _ I.linked prev b hmp hm (by omega)) h3 root hc hd

/-- **C103, which numbers are answered.**  The block request is answered exactly up to the latest
block.  The proof request is answered for the number of the stored latest proof and below it as far
as the next block is stored. -/
theorem C103_answers_partial (env : Env)
    (hinj : ∀ p q, env.proposalHash p = env.proposalHash q → p = q)
    (g : Block) (hg : g.number = 0) (stopAt : Option Nat) (clock : Nat) (s : Node)
    (h : Reach env (Disciplined env) (boot env g stopAt clock) s) (n : Nat) :
    ((∃ b, pullBlock s n = some b) ↔ n ≤ s.latest.number) ∧
    ((∃ pf, pullProof s n = some pf) ↔
      n = s.latestProof.number ∨ (n < s.latestProof.number ∧ n < s.latest.number)) := by
  have I := reach_inv hinj h
  refine ⟨⟨fun ⟨b, hb⟩ => chain_le I hb, fun hn => ?_⟩, ?_⟩
  · obtain ⟨b, hb, _⟩ := pullBlock_le hg I hn
    exact ⟨b, hb⟩
  · unfold pullProof
    by_cases h1 : n < s.latestProof.number
    · rw [if_pos h1]
      by_cases h2 : n < s.latest.number
      · obtain ⟨b, hb, _⟩ := pullBlock_le hg I (n := n + 1) (by omega)
        rw [hb]
        exact iff_of_true ⟨_, rfl⟩ (Or.inr ⟨h1, h2⟩)
      · cases hb : get s.chain (n + 1) with
        | some b => exact absurd (chain_le I hb) (by omega)
        | none =>
          refine iff_of_false ?_ (by omega)
          rintro ⟨pf, hpf⟩
          cases hpf
    · rw [if_neg h1]
      by_cases h2 : n = s.latestProof.number
      · rw [if_pos h2]
        exact iff_of_true ⟨_, rfl⟩ (Or.inl h2)
      · rw [if_neg h2]
        refine iff_of_false ?_ (by omega)
        rintro ⟨pf, hpf⟩
        cases hpf

/-- **C103, availability.**  A node that got all its blocks through consensus, and is not between
storing a proof and storing its block, serves every number from 1 to the height it announces. -/
theorem C103_serves_partial (env : Env)
    (hinj : ∀ p q, env.proposalHash p = env.proposalHash q → p = q)
    (hexec : ∀ root p q txs, p.common = q.common → p.txHashes = q.txHashes →
      env.exec root p txs = env.exec root q txs)
    (g : Block) (hg : g.number = 0) (hgp : g.header.common.proof.number = 0)
    (stopAt : Option Nat) (clock : Nat) (s : Node)
    (h : Reach env (fun s op => (Disciplined env s op ∧ Honest env s op) ∧ Clean env s op)
      (boot env g stopAt clock) s)
    (hver : OneVersion s) (hb : ¬ betweenWrites s) :
    (∀ n, n ≠ 0 → n ≤ s.latest.number → Serves env s n) ∧
    (∀ n, announced s = some n → n ≠ 0 ∧ n ≤ s.latest.number) := by
  have h1 : Reach env (fun s op => Disciplined env s op ∧ Honest env s op)
      (boot env g stopAt clock) s := by
    clear hver hb
    induction h with
    | init => exact .init
    | step _ hd ih => exact .step ih hd.1
  have h2 : Reach env (fun s op => Disciplined env s op ∧ Clean env s op)
      (boot env g stopAt clock) s := by
    clear hver hb h1
    induction h with
    | init => exact .init
    | step _ hd ih => exact .step ih ⟨hd.1.1, hd.2⟩
  have h3 : Reach env (Disciplined env) (boot env g stopAt clock) s := by
    clear hver hb h1 h2
    induction h with
    | init => exact .init
    | step _ hd ih => exact .step ih hd.1.1
  obtain ⟨I, P⟩ := reach_pinv hinj (by rw [hgp, hg]) h2
  have hl := latest_of_stage P.stage hb
  constructor
  · intro n hn hle
    obtain ⟨a1, a2⟩ := C103_answers_partial env hinj g hg stopAt clock s h3 n
    obtain ⟨b, hb⟩ := a1.2 hle
    obtain ⟨pf, hpf⟩ := a2.2 (by omega)
    exact C103_accepted_partial env hinj hexec g hg stopAt clock s h1 hver n hn b pf hb hpf
  · intro n hn
    unfold announced at hn
    split at hn
    · cases hn
    next h0 =>
      injection hn with hn
      subst hn
      refine ⟨h0, ?_⟩
      obtain ⟨b, hbm, hat⟩ := I.status
      have := linked_le_head I.linked I.head hbm
      have := hat.1
      have := P.status
      omega

/-- One block of a batch: the requester stores the server's block. -/
theorem fetch_one {env : Env} {g : Block} {s : Node} (hg : g.number = 0) (I : Inv env g s)
    (S : ServeInv env s) (hver : OneVersion s)
    (hexec : ∀ root p q txs, p.common = q.common → p.txHashes = q.txHashes →
      env.exec root p txs = env.exec root q txs)
    (hdig : ∀ a b, env.digest a = env.digest b → a = b)
    {txs : Nat → List Tx} {r : Node} {agent : Status} {start cur target : Nat}
    (hs : r.sync = some (.syncing agent start cur target none)) (hct : cur < target)
    (hagree : ∀ m, m ≤ cur → get r.chain m = get s.chain m)
    (hroot : ∀ b, get s.chain cur = some b → agent.lastStateRoot = b.header.stateRoot)
    {b : Block} {pf : Proof} (hb : pullBlock s (cur + 1) = some b)
    (hp : pullProof s (cur + 1) = some pf)
    (htx : env.digest (txs (cur + 1)) = b.header.common.signedTxsHash) :
    ∃ r', run env r (fetchFrom s txs (cur + 1)) = r' ∧
      r'.sync = some (.syncing (statusOf env b pf) start (cur + 1) target none) ∧
      r'.chain = put r.chain (cur + 1) b ∧ r'.latest = b ∧ r'.saved = b :: r.saved ∧
      r'.commit = r.commit := by
  obtain ⟨hn, hpn, hv⟩ := pullProof_good I S hb hp
  have hle := chain_le I hb
  obtain ⟨prev, hprev, hprevn⟩ := pullBlock_le hg I (n := cur) (by omega)
  have hlink := linked_prev _ I.linked prev b (I.only _ _ hprev).1 (I.only _ _ hb).1 (by omega)
  have hvs : verifySynced env r.chain r.status.lastStateRoot b (txs (cur + 1)) pf = .ok () :=
    verifySynced_of I S hver (Nat.succ_ne_zero cur) hb hprev hlink hv _
      (fun m hm => hagree m (by omega)) htx
  obtain ⟨_, _, hran⟩ := S.headers cur b hb
  obtain ⟨txs', res, hd', hex, e1, e2⟩ := hran prev hprev
  have htx' : txs' = txs (cur + 1) := hdig _ _ (by rw [hd', htx])
  subst htx'
  have hes : execSynced env agent.lastStateRoot r.status.lastStateRoot b (txs (cur + 1)) = some res := by
    have e := hexec prev.header.stateRoot
      (Proposal.ofHeader b.header r.status.lastStateRoot b.txHashes)
      (Proposal.ofHeader b.header prev.header.stateRoot b.txHashes) (txs (cur + 1)) rfl rfl
    unfold execSynced
    rw [hroot prev hprev, e, hex]
    simp [e1, e2]
  refine ⟨_, rfl, ?_⟩
  unfold fetchFrom
  rw [hb, hp]
  simp only [run, List.foldl_cons, List.foldl_nil]
  have st1 : step env r (.syncVerify (some (b, txs (cur + 1), pf))) =
      { r with sync := some (.syncing agent start cur target (some (b, pf, false))) } := by
    simp only [step, hs, if_pos hct, hn, ne_eq, not_true, if_false, hvs, hes]
  rw [st1]
  simp only [step, saveBlock]
  simp [hn]

/-- The whole batch. -/
theorem catchUp_spec {env : Env} {g : Block} {s : Node} (hg : g.number = 0) (I : Inv env g s)
    (S : ServeInv env s) (hver : OneVersion s)
    (hexec : ∀ root p q txs, p.common = q.common → p.txHashes = q.txHashes →
      env.exec root p txs = env.exec root q txs)
    (hdig : ∀ a b, env.digest a = env.digest b → a = b) {txs : Nat → List Tx} {target : Nat}
    (hserve : ∀ n, n ≠ 0 → n ≤ target → ∃ b pf, pullBlock s n = some b ∧ pullProof s n = some pf ∧
      env.digest (txs n) = b.header.common.signedTxsHash) :
    ∀ (k : Nat) (r : Node) (agent : Status) (start cur : Nat), cur + k = target →
      r.sync = some (.syncing agent start cur target none) →
      (∀ m, m ≤ cur → get r.chain m = get s.chain m) →
      (∀ b, get s.chain cur = some b → agent.lastStateRoot = b.header.stateRoot) →
      agent.lastNumber = cur → get s.chain cur = some r.latest →
      ∃ r', run env r (catchUp s txs k cur) = r' ∧ r'.sync = none ∧ r'.locked = false ∧
        r'.status.lastNumber = target ∧ get s.chain target = some r'.latest ∧
        ∀ m, m ≤ target → get r'.chain m = get s.chain m := by
  intro k
  induction k with
  | zero =>
    intro r agent start cur hk hs hagree hroot hlast hlat
    refine ⟨_, rfl, ?_⟩
    have hct : cur = target := by omega
    subst hct
    simp only [catchUp, run, List.foldl_cons, List.foldl_nil, step, hs, Nat.lt_irrefl, if_false,
      syncReturn]
    exact ⟨trivial, trivial, hlast, hlat, hagree⟩
  | succ k ih =>
    intro r agent start cur hk hs hagree hroot hlast hlat
    obtain ⟨b, pf, hb, hp, htx⟩ := hserve (cur + 1) (by omega) (by omega)
    obtain ⟨r1, hr1, h1, h2, h3, _, _⟩ := fetch_one hg I S hver hexec hdig hs (by omega) hagree
      hroot hb hp htx
    have hbn := (I.only _ _ hb).2
    have hb' : get s.chain (cur + 1) = some b := hb
    obtain ⟨r2, hr2, h⟩ := ih r1 (statusOf env b pf) start (cur + 1) (by omega) h1
      (by
        intro m hm
        rw [h2, get_put]
        by_cases he : m = cur + 1
        · rw [if_pos he, he, hb']
        · rw [if_neg he]
          exact hagree m (by omega))
      (by
        intro c hc
        rw [hb'] at hc
        injection hc with hc
        subst hc
        rfl)
      hbn (by rw [hb', h3])
    refine ⟨r2, ?_, h⟩
    rw [← hr2, ← hr1]
    simp only [catchUp, run, List.foldl_append]

/-- **C103, catching up.**  A node that lags behind and talks to a node that lived through consensus
only obtains that node's chain: after announcement of `remote`, with every answer delivered and the
transactions put together, it has advanced to `remote` or by 50 blocks, holds the same blocks as
the server up to there and is idle again. -/
theorem C103_catch_up_partial (env : Env)
    (hinj : ∀ p q, env.proposalHash p = env.proposalHash q → p = q)
    (hexec : ∀ root p q txs, p.common = q.common → p.txHashes = q.txHashes →
      env.exec root p txs = env.exec root q txs)
    (hdig : ∀ a b, env.digest a = env.digest b → a = b)
    (g : Block) (hg : g.number = 0) (hgp : g.header.common.proof.number = 0)
    (stopAt : Option Nat) (clock : Nat) (s : Node)
    (h : Reach env (fun s op => (Disciplined env s op ∧ Honest env s op) ∧ Clean env s op)
      (boot env g stopAt clock) s)
    (hver : OneVersion s) (hb : ¬ betweenWrites s) (txs : Nat → List Tx)
    (htxs : ∀ n b, pullBlock s n = some b → env.digest (txs n) = b.header.common.signedTxsHash)
    (r : Node) (hidle : r.sync = none) (hfree : r.locked = false)
    (hat : At env r.status r.latest) (hsame : get s.chain r.status.lastNumber = some r.latest)
    (hagree : ∀ m, m ≤ r.status.lastNumber → get r.chain m = get s.chain m)
    (remote : Nat) (hr : r.status.lastNumber < remote) (hle : remote ≤ s.latest.number)
    (hmax : r.status.lastNumber + 50 < u64Size) :
    ∃ target r', target = min remote (r.status.lastNumber + 50) ∧
      run env r ([.syncBegin remote, .syncLock true] ++
        catchUp s txs (target - r.status.lastNumber) r.status.lastNumber) = r' ∧
      r'.sync = none ∧ r'.locked = false ∧ r'.status.lastNumber = target ∧
      get s.chain target = some r'.latest ∧
      ∀ m, m ≤ target → get r'.chain m = get s.chain m := by
  have hS := (C103_serves_partial env hinj hexec g hg hgp stopAt clock s h hver hb).1
  have h1 : Reach env (fun s op => Disciplined env s op ∧ Honest env s op)
      (boot env g stopAt clock) s := by
    clear hver hb hS htxs hsame hagree hle
    induction h with
    | init => exact .init
    | step _ hd ih => exact .step ih hd.1
  obtain ⟨I, S⟩ := reach_serve hinj hexec hg h1
  have htgt := Sync.C29_target r.status.lastNumber remote
  have hst : run env r [.syncBegin remote, .syncLock true] =
      { r with locked := true, sync := some (.syncing r.status r.status.lastNumber
          r.status.lastNumber (syncTarget r.status.lastNumber remote) none) } := by
    simp only [run, List.foldl_cons, List.foldl_nil, step, hidle]
    rw [if_neg (by omega), if_neg (by omega)]
    simp only [hfree]
    rw [if_neg (by simp), if_neg (by simp), if_neg (by omega),
      if_neg (by unfold onceSyncBlockLimit; omega)]
  obtain ⟨r', hr', hres⟩ := catchUp_spec hg I S hver hexec hdig (txs := txs)
    (target := syncTarget r.status.lastNumber remote)
    (by
      intro n hn hle'
      obtain ⟨b, pf, h1, h2, _⟩ := hS n hn (by omega)
      exact ⟨b, pf, h1, h2, htxs n b h1⟩)
    (syncTarget r.status.lastNumber remote - r.status.lastNumber)
    { r with locked := true, sync := some (.syncing r.status r.status.lastNumber
          r.status.lastNumber (syncTarget r.status.lastNumber remote) none) }
    r.status r.status.lastNumber r.status.lastNumber (by omega) rfl hagree
    (by
      intro b hb'
      rw [hsame] at hb'
      injection hb' with hb'
      rw [← hb']; exact hat.2.2)
    rfl hsame
  refine ⟨syncTarget r.status.lastNumber remote, r', htgt, ?_, hres⟩
  rw [← hr', ← hst]
  simp only [run, List.foldl_append]

/-- A node with two blocks serves a node that has only the genesis block. -/
def server : Node := run env0 (boot env0 g0 none 10) (commitOps 1 p1 ++ commitOps 2 p2)

example : announced server = some 2 ∧ (pullProof server 1).map Proof.number = some 1 ∧
    (pullProof server 2).map Proof.number = some 2 ∧ pullProof server 3 = none := by decide +kernel

example : (run env0 (boot env0 g0 none 10) ([.syncBegin 2, .syncLock true] ++
    catchUp server (fun _ => []) 2 0)).saved = [b2, b1] := by decide +kernel

/-- **C103 is false after synchronisation.**  When a node has stored a block through
synchronisation, the stored latest proof is the one in the header of that block.  Until its next
commit it answers the request for the proof of its latest block with an error. -/
theorem C103_synced_false (env : Env) (s : Node) (agent : Status) (start cur target : Nat)
    (b : Block) (pf : Proof)
    (hs : s.sync = some (.syncing agent start cur target (some (b, pf, false))))
    (hb : b.number = b.header.common.proof.number + 1) :
    let t := run env s [.syncSaveProof true, .syncSaveBlock true true]
    t.latest = b ∧ pullBlock t b.number = some b ∧ pullProof t b.number = none := by
  have e : run env s [.syncSaveProof true, .syncSaveBlock true true] =
      { saveBlock { s with latestProof := b.header.common.proof } b with
        sync := some (.syncing (statusOf env b pf) start (cur + 1) target none) } := by
    simp [run, step, hs, saveBlock]
  intro t
  have ht : t = _ := e
  rw [ht]
  refine ⟨rfl, ?_, ?_⟩
  · show get (put s.chain b.number b) b.number = some b
    rw [get_put, if_pos rfl]
  · have h1 : ¬ b.number < b.header.common.proof.number := by omega
    have h2 : ¬ b.number = b.header.common.proof.number := by omega
    simp only [pullProof, saveBlock, h1, h2, if_false]

/-- The node announces that height all the same: a peer that follows the announcement fetches
nothing (`server2` has block 2 through synchronisation, the peer has block 1). -/
def server2 : Node := run env0 (boot env0 g0 none 10) (commitOps 1 p1 ++
  [.syncBegin 2, .syncLock true] ++ catchUp server (fun _ => []) 1 1)

theorem C103_announced_false :
    let peer := run env0 (boot env0 g0 none 10) (commitOps 1 p1)
    let peer' := run env0 peer ([.syncBegin 2, .syncLock true] ++ catchUp server2 (fun _ => []) 1 1)
    announced server2 = some 2 ∧ pullBlock server2 2 = some b2 ∧ pullProof server2 2 = none ∧
    peer'.status.lastNumber = 1 ∧ peer'.saved = peer.saved := by
  decide +kernel

/-- Between storing the proof and storing the block a request for the proof before it fails, although
it was answered just before and is answered right after. -/
theorem C103_between_false :
    let at_ := fun k => run env0 (boot env0 g0 none 10) (commitOps 1 p1 ++ (commitOps 2 p2).take k)
    (pullProof (at_ 2) 1).isSome = true ∧ pullProof (at_ 3) 1 = none ∧
    (pullProof (at_ 4) 1).isSome = true := by
  decide +kernel

/-- The transactions of a block: when all requested ones are stored at that height and no hash is
repeated, the answer (on RocksDB) is those transactions in the order of the request.  Otherwise the
missing ones are left out without an error. -/
theorem C103_txs_partial {V : Type} (col : Nat → H256 → Option V) (height : Nat)
    (hh : height < 2 ^ 64) (hashes : List H256) (hd : hashes.Nodup) (rows : List (Storage.Row V))
    (hr : Storage.RocksRows col height rows) :
    pullTxs height hashes rows = hashes.filterMap (col height) ∧
    (∀ vs : List V, hashes.map (col height) = vs.map some → pullTxs height hashes rows = vs) ∧
    (∀ v ∈ pullTxs height hashes rows, ∃ h ∈ hashes, col height h = some v) := by
  have e : pullTxs height hashes rows = hashes.filterMap (col height) := by
    unfold pullTxs
    rw [Storage.C54_rocks_partial col height hh hashes hd rows hr, List.filterMap_map]
    rfl
  refine ⟨e, ?_, ?_⟩
  · intro vs hvs
    have : (hashes.map (col height)).filterMap id = (vs.map some).filterMap id := by rw [hvs]
    rw [List.filterMap_map, List.filterMap_map] at this
    rw [e]
    have h2 : vs.filterMap (id ∘ some) = vs := by simp
    rw [h2] at this
    exact this
  · intro v hv
    rw [e] at hv
    obtain ⟨h, h1, h2⟩ := List.mem_filterMap.1 hv
    exact ⟨h, h1, h2⟩

example : pullTxs 1 [Storage.rowA.hash, Storage.rowB.hash] [Storage.rowA, Storage.rowB] = [10] := by
  decide +kernel

end Axon.Chain
