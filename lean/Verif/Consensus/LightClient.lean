import Verif.Consensus.ProofProps
import Verif.Codec.BlockProps
import Verif.Util.Outcome

/-!
# Verification of a block by its proof: node and light client

`verify_proof` of the node (`core/consensus/src/adapter.rs:472-571`) and `verify_proof` of the crate
for light clients (`devtools/axon-tools/src/proof.rs:28-76`), including the hashes that the voter part
(`Verif.Consensus.Proof`) leaves out.  Keccak and the BLS check of an aggregated signature are
parameters.
-/

namespace Axon.Light

open Axon Axon.Rlp Axon.Block Axon.Proof

/-- The two cryptographic functions.  `bls keys hash signature`: every key and the signature are well
formed and the signature verifies for the sum of the keys. -/
structure Env where
  keccak : Bytes → H256
  bls : List Nat → H256 → Bytes → Bool

/-- protocol/src/types/block.rs:91-109 `Proposal::new_with_state_root`. -/
def proposalOf (prevStateRoot : H256) (b : Block) : Block.Proposal :=
  ⟨b.header.prevHash, b.header.proposer, prevStateRoot, b.header.transactionsRoot,
    b.header.signedTxsHash, b.header.timestamp, b.header.number, b.header.gasLimit, b.header.extraData,
    b.header.baseFeePerGas, b.header.proof, b.header.chainId, b.header.callSystemScriptCount,
    b.txHashes⟩

/-- The vote type of a precommit, the only one a proof is made of (crate overlord; the light client
writes 2, axon-tools/src/proof.rs:61). -/
def precommit : U8 := ⟨2, by decide⟩

/-- Overlord's `Vote` as the node fills it in (adapter.rs:524-529) and encodes it; crate overlord, whose
codec axon-tools/src/types.rs:728-738 compares with its own. -/
def voteItem (p : Block.Proof) : Item :=
  .list [ofUint p.number, ofUint p.round, ofUint precommit, .str p.blockHash.bytes]

/-- core/consensus/src/adapter.rs:540. -/
def voteHash (E : Env) (p : Block.Proof) : H256 := E.keccak (encode (voteItem p))

/-- core/consensus/src/adapter.rs:541-551: the BLS keys of the voters, in the order of the verifier
list. -/
def voterKeys (vs : List Validator) (voters : List Nat) : List Nat :=
  (vs.filter fun v => voters.contains v.key).map (·.bls)

/-- core/consensus/src/adapter.rs:472-571 `verify_proof`.  `prev`: state root of the previous block if
it is stored; `vs`: the verifier list of the metadata for the block's number, if there is one whose
range contains it. -/
def nodeVerify (E : Env) (prev : Option H256) (vs : Option (List Validator)) (b : Block)
    (p : Block.Proof) : Outcome Unit :=
  if b.header.number.val = 0 then .ok ()
  else if b.header.number.val ≠ p.number.val then .err
  else
    match prev with
    | none => .err
    | some r =>
      if E.keccak (encodeProposal (proposalOf r b)) ≠ p.blockHash then .err
      else
        match vs with
        | none => .err
        | some vs =>
          match nodeAccepts vs p.bitmap with
          | none => .panic
          | some (.error _) => .err
          | some (.ok ()) =>
            if E.bls (voterKeys vs (extractVoters vs p.bitmap)) (voteHash E p) p.signature then .ok ()
            else .err

/-- devtools/axon-tools/src/rlp_codec.rs:35-53: the light client's own encoding of a proposal, of the
fields that it copies from the block (proof.rs:34-50). -/
def toolsProposal (prevStateRoot : H256) (b : Block) : Item :=
  .list [versionItem, ofFixed b.header.prevHash, ofFixed b.header.proposer, ofFixed prevStateRoot,
    ofFixed b.header.transactionsRoot, ofFixed b.header.signedTxsHash, ofUint b.header.timestamp,
    ofUint b.header.number, ofUint b.header.gasLimit, .list (b.header.extraData.map extraItem),
    proofItem b.header.proof, ofUint b.header.callSystemScriptCount,
    .list (b.txHashes.map ofFixed)]

/-- devtools/axon-tools/src/rlp_codec.rs:22-31 with the values of proof.rs:57-62. -/
def toolsVote (p : Block.Proof) : Item :=
  .list [ofUint p.number, ofUint p.round, ofUint (⟨2, by decide⟩ : U8), .str p.blockHash.bytes]

/-- devtools/axon-tools/src/error.rs, the errors of `verify_proof`. -/
inductive LightErr where
  | blockHash
  | notEnough
  | signature
deriving DecidableEq, Repr

instance : DecidableEq (Except LightErr Unit) := fun a b =>
  match a, b with
  | .ok (), .ok () => isTrue rfl
  | .error x, .error y => if h : x = y then isTrue (h ▸ rfl) else isFalse (fun e => h (by cases e; rfl))
  | .ok _, .error _ => isFalse (by intro h; cases h)
  | .error _, .ok _ => isFalse (by intro h; cases h)

/-- devtools/axon-tools/src/proof.rs:28-76 `verify_proof`. -/
def toolsVerify (E : Env) (prevStateRoot : H256) (vs : List Validator) (b : Block)
    (p : Block.Proof) : Except LightErr Unit :=
  if E.keccak (encode (toolsProposal prevStateRoot b)) ≠ p.blockHash then .error .blockHash
  else
    match extractPks vs p.bitmap with
    | none => .error .notEnough
    | some pks =>
      if E.bls pks (E.keccak (encode (toolsVote p))) p.signature then .ok () else .error .signature

/-! ## Lemmas -/

theorem toolsProposal_eq (r : H256) (b : Block) :
    encode (toolsProposal r b) = encodeProposal (proposalOf r b) := rfl

theorem toolsVote_eq (E : Env) (p : Block.Proof) : E.keccak (encode (toolsVote p)) = voteHash E p := rfl

theorem pick_nodup {vs : List Validator} (hd : Distinct vs) (bm : Bytes) :
    ((pick (sortV vs) (bits bm)).map (·.key)).Nodup := by
  have h : ((sortV vs).map (·.key)).Nodup := ((sortV_perm vs).map _).nodup_iff.2 hd
  exact List.Sublist.nodup ((pick_sublist _ _).map _) h

theorem validator_eq {vs : List Validator} (hd : Distinct vs) {x y : Validator} (hx : x ∈ vs)
    (hy : y ∈ vs) (h : x.key = y.key) : x = y := mem_unique hd hx hy h

/-- Both sides hand the same keys to the signature check. -/
theorem keys_perm {vs : List Validator} (hd : Distinct vs) (bm : Bytes) :
    (voterKeys vs (extractVoters vs bm)).Perm ((pick (sortV vs) (bits bm)).map (·.bls)) := by
  unfold voterKeys
  apply List.Perm.map
  have hn : vs.Nodup := by
    have : (vs.map (·.key)).Nodup := hd
    exact List.Pairwise.imp (fun h e => h (congrArg _ e)) (List.pairwise_map.1 this)
  have hn2 : (pick (sortV vs) (bits bm)).Nodup :=
    List.Pairwise.imp (fun h e => h (congrArg _ e)) (List.pairwise_map.1 (pick_nodup hd bm))
  rw [List.perm_ext_iff_of_nodup (List.Pairwise.filter _ hn) hn2]
  intro v
  rw [List.mem_filter, List.contains_iff_mem]
  unfold extractVoters
  constructor
  · rintro ⟨hv, hk⟩
    obtain ⟨x, hx, e⟩ := List.mem_map.1 hk
    have := mem_unique hd ((sortV_perm vs).mem_iff.1 ((pick_sublist _ _).subset hx)) hv e
    exact this ▸ hx
  · intro hv
    exact ⟨(sortV_perm vs).mem_iff.1 ((pick_sublist _ _).subset hv), List.mem_map_of_mem hv⟩

end Axon.Light
