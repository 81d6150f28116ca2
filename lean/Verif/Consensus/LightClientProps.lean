import Verif.Consensus.LightClient

/-!
# C105: what the light client's `verify_proof` establishes
-/

namespace Axon.Light

open Axon Axon.Rlp Axon.Block Axon.Proof

/-! ## Specification -/

/-- Summing keys does not depend on their order. -/
def OrderFree (E : Env) : Prop := ∀ a b h s, a.Perm b → E.bls a h s = E.bls b h s

/-- More than two thirds of the validators signed the vote of the proof. -/
def Quorum (E : Env) (vs : List Validator) (p : Block.Proof) : Prop :=
  2 * vs.length < 3 * (signers vs p.bitmap).length ∧
  E.bls ((signers vs p.bitmap).map (·.bls)) (voteHash E p) p.signature = true

/-- Two different byte strings with the same digest. -/
def Clash (E : Env) (a b : Bytes) : Prop := a ≠ b ∧ E.keccak a = E.keccak b

/-- The fields that a vote speaks about. -/
def Voted (b c : Block) : Prop :=
  b.header.prevHash = c.header.prevHash ∧ b.header.proposer = c.header.proposer ∧
  b.header.transactionsRoot = c.header.transactionsRoot ∧
  b.header.signedTxsHash = c.header.signedTxsHash ∧ b.header.timestamp = c.header.timestamp ∧
  b.header.number = c.header.number ∧ b.header.gasLimit = c.header.gasLimit ∧
  b.header.extraData = c.header.extraData ∧ b.header.proof = c.header.proof ∧
  b.header.callSystemScriptCount = c.header.callSystemScriptCount ∧ b.txHashes = c.txHashes

/-! ## Theorems -/

theorem bls_signers {E : Env} (hE : OrderFree E) {vs : List Validator} (hd : Distinct vs) (bm : Bytes)
    (h : H256) (s : Bytes) : E.bls ((pick (sortV vs) (bits bm)).map (·.bls)) h s =
      E.bls ((signers vs bm).map (·.bls)) h s := by
  apply hE
  apply List.Perm.map
  have hn : vs.Nodup := by
    have : (vs.map (·.key)).Nodup := hd
    exact List.Pairwise.imp (fun h e => h (congrArg _ e)) (List.pairwise_map.1 this)
  have hn2 : (pick (sortV vs) (bits bm)).Nodup :=
    List.Pairwise.imp (fun h e => h (congrArg _ e)) (List.pairwise_map.1 (pick_nodup hd bm))
  rw [List.perm_ext_iff_of_nodup hn2 (by unfold signers; exact List.Pairwise.filter _ hn)]
  intro v
  exact mem_picked hd bm v

/-- **C105, acceptance.**  The light client accepts a block exactly when the proof names the digest of
the proposal made of the block and the given state root, and more than two thirds of the validators
signed the precommit vote that the proof describes. -/
theorem C105_accept_iff {E : Env} (hE : OrderFree E) {vs : List Validator} (hd : Distinct vs)
    (r : H256) (b : Block) (p : Block.Proof) :
    toolsVerify E r vs b p = .ok () ↔
      E.keccak (encodeProposal (proposalOf r b)) = p.blockHash ∧ Quorum E vs p := by
  unfold toolsVerify Quorum
  rw [toolsProposal_eq, toolsVote_eq]
  by_cases h : E.keccak (encodeProposal (proposalOf r b)) = p.blockHash
  · simp only [h, ne_eq, not_true_eq_false, if_false, true_and]
    unfold extractPks
    dsimp only
    rw [(picked_weight hd p.bitmap).2, (sortV_perm vs).length_eq]
    by_cases hq : (signers vs p.bitmap).length * 3 ≤ vs.length * 2
    · rw [if_pos hq]
      constructor
      · intro h; cases h
      · intro h; omega
    · rw [if_neg hq]
      dsimp only
      rw [bls_signers hE hd]
      constructor
      · intro h
        split at h
        next hb => exact ⟨by omega, hb⟩
        · cases h
      · intro h
        rw [if_pos h.2]
  · simp only [h, ne_eq, not_false_eq_true, if_true, false_and]
    simp

/-- **C105, agreement.**  With equal weights, the light client accepts the proof of a block other than
genesis exactly when the node does, provided that the proof is for the block's number. -/
theorem C105_agree_partial {E : Env} (hE : OrderFree E) {vs : List Validator} (hd : Distinct vs)
    {w : Nat} (hw0 : 0 < w) (heq : ∀ v ∈ vs, v.vote = w) (hw : 3 * weight vs < 2 ^ 64)
    (r : H256) (b : Block) (p : Block.Proof) (h0 : b.header.number.val ≠ 0)
    (hn : b.header.number.val = p.number.val) :
    toolsVerify E r vs b p = .ok () ↔ nodeVerify E (some r) (some vs) b p = .ok () := by
  unfold nodeVerify
  rw [if_neg h0, if_neg (fun h => h hn)]
  dsimp only
  unfold toolsVerify
  rw [toolsProposal_eq, toolsVote_eq]
  by_cases h : E.keccak (encodeProposal (proposalOf r b)) = p.blockHash
  · simp only [h, ne_eq, not_true_eq_false, if_false]
    have hq := C26_equal_weights_partial hd hw0 heq hw p.bitmap
    cases hx : extractPks vs p.bitmap with
    | none =>
      rw [hx] at hq
      simp only [Option.isSome_none, Bool.false_eq_true, false_iff] at hq
      constructor
      · intro h; cases h
      · intro h
        split at h
        · cases h
        · cases h
        next hy => exact absurd hy hq
    | some pks =>
      rw [hx] at hq
      have hy := hq.1 rfl
      rw [hy]
      dsimp only
      have hpks : pks = (pick (sortV vs) (bits p.bitmap)).map (·.bls) := by
        unfold extractPks at hx
        dsimp only at hx
        split at hx
        · cases hx
        · injection hx with hx
          exact hx.symm
      rw [hE _ _ _ _ (keys_perm hd p.bitmap), ← hpks]
      split <;> simp
  · simp only [h, ne_eq, not_false_eq_true, if_true]
    simp

/-- Where the node accepts, it is never more lenient: a block that it accepts with equal weights is
accepted by the light client. -/
theorem C105_node_partial {E : Env} (hE : OrderFree E) {vs : List Validator} (hd : Distinct vs)
    {w : Nat} (hw0 : 0 < w) (heq : ∀ v ∈ vs, v.vote = w) (hw : 3 * weight vs < 2 ^ 64)
    (r : H256) (b : Block) (p : Block.Proof) (h0 : b.header.number.val ≠ 0)
    (h : nodeVerify E (some r) (some vs) b p = .ok ()) : toolsVerify E r vs b p = .ok () := by
  rw [C105_agree_partial hE hd hw0 heq hw r b p h0]
  · exact h
  · unfold nodeVerify at h
    rw [if_neg h0] at h
    split at h
    · cases h
    next hn => exact Classical.byContradiction fun hh => hn hh

/-- **C105, binding.**  Two blocks accepted with the same proof have the same parent state root, the
same transactions and the same voted fields, unless the digest collides. -/
theorem C105_binding {E : Env} {vs vs' : List Validator} {r r' : H256} {b b' : Block}
    {p : Block.Proof} (hl : (encodeProposal (proposalOf r b)).length < 2 ^ 64)
    (h : toolsVerify E r vs b p = .ok ()) (h' : toolsVerify E r' vs' b' p = .ok ()) :
    (r = r' ∧ Voted b b') ∨
      Clash E (encodeProposal (proposalOf r b)) (encodeProposal (proposalOf r' b')) := by
  have key : ∀ {vs r b}, toolsVerify E r vs b p = .ok () →
      E.keccak (encodeProposal (proposalOf r b)) = p.blockHash := by
    intro vs r b h
    unfold toolsVerify at h
    rw [toolsProposal_eq] at h
    split at h
    · cases h
    next hh => exact Classical.byContradiction fun hc => hh hc
  have e := (key h).trans (key h').symm
  by_cases he : encodeProposal (proposalOf r b) = encodeProposal (proposalOf r' b')
  · left
    rw [C06_same_bytes_iff _ _ hl] at he
    simp only [proposalOf, Block.Proposal.mk.injEq] at he
    obtain ⟨h1, h2, h3, h4, h5, h6, h7, h8, h9, -, h10, -, h11, h12⟩ := he
    exact ⟨h3, h1, h2, h4, h5, h6, h7, h8, h9, h10, h11, h12⟩
  · exact .inr ⟨he, e⟩

/-- The block with other results of its execution, another base fee and another chain id. -/
def forge (b : Block) (state receipts : H256) (bloom : Bloom) (gas fee chain : U64) : Block :=
  ⟨⟨b.header.prevHash, b.header.proposer, state, b.header.transactionsRoot, b.header.signedTxsHash,
    receipts, bloom, b.header.timestamp, b.header.number, gas, b.header.gasLimit, b.header.extraData,
    fee, b.header.proof, b.header.callSystemScriptCount, chain⟩, b.txHashes⟩

/-- **The results of a block are not covered by its proof.**  With the proof of a block the light client
accepts it with any state root, receipts root, logs bloom, gas used, base fee and chain id. -/
theorem C105_unbound_false {E : Env} {vs : List Validator} {r : H256} {b : Block} {p : Block.Proof}
    (h : toolsVerify E r vs b p = .ok ()) (state receipts : H256) (bloom : Bloom)
    (gas fee chain : U64) : toolsVerify E r vs (forge b state receipts bloom gas fee chain) p = .ok () :=
  h

/-- Genesis is accepted by a node whatever the proof; a light client wants a quorum for it too. -/
theorem C105_genesis {E : Env} (r : Option H256) (vs : Option (List Validator)) (b : Block)
    (p : Block.Proof) (h : b.header.number.val = 0) : nodeVerify E r vs b p = .ok () := by
  unfold nodeVerify
  rw [if_pos h]

/-! ## Concrete instances -/

/-- A small digest: the bytes as a number in base 257. -/
def toyDigest (bs : Bytes) : H256 :=
  ⟨beFixed 32 ((bs.foldl (fun a b => (a * 257 + b.toNat + 1) % 2 ^ 256) 0)), by simp⟩

/-- Signatures are the message followed by the sum of the keys. -/
def toyEnv : Env where
  keccak := toyDigest
  bls keys h s := decide (s = h.bytes ++ beFixed 8 keys.sum)

theorem toyEnv_orderFree : OrderFree toyEnv := by
  intro a b h s hp
  unfold toyEnv
  dsimp only
  rw [hp.sum_nat]

def sampleVs : List Validator := [⟨7, 1, 1⟩, ⟨3, 2, 1⟩, ⟨5, 4, 1⟩, ⟨1, 8, 1⟩]

/-- Block 10 with its execution results. -/
def sampleBlock : Block :=
  ⟨⟨⟨List.replicate 32 1, rfl⟩, ⟨List.replicate 20 2, rfl⟩, ⟨List.replicate 32 33, rfl⟩,
    ⟨List.replicate 32 4, rfl⟩, ⟨List.replicate 32 5, rfl⟩, ⟨List.replicate 32 34, rfl⟩,
    ⟨List.replicate 256 0, List.length_replicate⟩, ⟨1700000000, by decide⟩, ⟨10, by decide⟩, ⟨21000, by decide⟩,
    ⟨30000000, by decide⟩, [[1, 2]], ⟨1337, by decide⟩,
    ⟨⟨9, by decide⟩, ⟨0, by decide⟩, ⟨List.replicate 32 6, rfl⟩, [7, 8], [0xf0]⟩,
    ⟨1, by decide⟩, ⟨1, by decide⟩⟩, [⟨List.replicate 32 9, rfl⟩]⟩

def sampleRoot : H256 := ⟨List.replicate 32 3, rfl⟩

/-- Its proof, for a vote at height `n`: the validators with keys 1, 5 and 7 signed. -/
def sampleProof (n : U64) : Block.Proof :=
  let h := toyDigest (encodeProposal (proposalOf sampleRoot sampleBlock))
  ⟨n, ⟨0, by decide⟩, h, (voteHash toyEnv ⟨n, ⟨0, by decide⟩, h, [], []⟩).bytes ++ beFixed 8 13, [0xb0]⟩

example : Distinct sampleVs ∧ (∀ v ∈ sampleVs, v.vote = 1) ∧ 3 * weight sampleVs < 2 ^ 64 ∧
    OrderFree toyEnv ∧ (encodeProposal (proposalOf sampleRoot sampleBlock)).length < 2 ^ 64 :=
  ⟨by unfold Distinct; decide +kernel, by decide +kernel, by decide +kernel, toyEnv_orderFree,
    Nat.lt_trans (by decide +kernel : _ < 1000) (by decide)⟩

theorem sample_accepted : toolsVerify toyEnv sampleRoot sampleVs sampleBlock
    (sampleProof ⟨10, by decide⟩) = .ok () ∧
    nodeVerify toyEnv (some sampleRoot) (some sampleVs) sampleBlock (sampleProof ⟨10, by decide⟩) =
      .ok () ∧
    toolsVerify toyEnv sampleRoot (⟨9, 16, 1⟩ :: sampleVs) sampleBlock
      (sampleProof ⟨10, by decide⟩) = .error .notEnough ∧
    toolsVerify toyEnv (toyDigest []) sampleVs sampleBlock (sampleProof ⟨10, by decide⟩) =
      .error .blockHash := by
  decide +kernel

/-- A proof would determine the header of the block it proves. -/
def ProofDeterminesHeader (E : Env) : Prop :=
  ∀ vs r b b' p, toolsVerify E r vs b p = .ok () → toolsVerify E r vs b' p = .ok () →
    ¬ Clash E (encodeProposal (proposalOf r b)) (encodeProposal (proposalOf r b')) → b.header = b'.header

theorem C105_header_false : ¬ ProofDeterminesHeader toyEnv := by
  intro h
  have hx := h sampleVs sampleRoot sampleBlock
    (forge sampleBlock sampleRoot sampleRoot sampleBlock.header.logBloom ⟨0, by decide⟩
      ⟨0, by decide⟩ ⟨0, by decide⟩) _ sample_accepted.1 (C105_unbound_false sample_accepted.1 ..)
    (fun hc => hc.1 rfl)
  exact absurd (congrArg (fun x : Header => x.gasUsed.val) hx) (by decide)

/-- **The light client does not compare numbers.**  Votes for height 12 on the proposal of block 10 prove
that block to a light client; a node refuses them. -/
theorem C105_height_false :
    toolsVerify toyEnv sampleRoot sampleVs sampleBlock (sampleProof ⟨12, by decide⟩) = .ok () ∧
    nodeVerify toyEnv (some sampleRoot) (some sampleVs) sampleBlock (sampleProof ⟨12, by decide⟩) =
      .err := by
  decide +kernel

end Axon.Light
