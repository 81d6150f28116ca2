import Verif.Api.StateProof
import Verif.Executor.WorldDbProps

/-!
# State proofs on the bytes of the trie database

`get_proof` and `get_storage_at` of the API adapter (`core/api/src/adapter.rs:232-331`) on the nodes of the tries,
for the state behind any root.  `Api/StateProof.lean` has them on finite maps with the proofs as a parameter.
-/

namespace Axon.ProofDb
open Axon.Rlp Axon.Assoc Axon.Exec Axon.WorldDb
open Axon.Trie (Node)
open Axon.StateProof (AccountProof SlotProof keyOf)

variable (H : Bytes → H256)

/-- `MPTTrie::get_proof`, `trie/wrapped.rs:32-34`: keys are hashed. -/
def prove (t : Node) (k : Bytes) : List Bytes := Trie.prove (hb H) t (Trie.keyPath (hb H k))

/-- The entry for one position, `adapter.rs:276-294`; `U256::decode` is unwrapped. -/
def slotProof (s : Node) (p : U256) : Outcome SlotProof :=
  match Trie.mptGet (hb H) s (keyOf p).bytes with
  | some b => (Outcome.orPanic (decVal b)).bind fun v => .ok ⟨p, v, prove H s (keyOf p).bytes⟩
  | none => .ok ⟨p, U256.zero, prove H s (keyOf p).bytes⟩

/-- The loop over positions, `adapter.rs:275-295`. -/
def slotProofs (s : Node) : List U256 → Outcome (List SlotProof)
  | [] => .ok []
  | p :: ps => (slotProof H s p).bind fun x => (slotProofs s ps).bind fun l => .ok (x :: l)

/-- `H256::zero()` -/
def zeroHash : H256 := ⟨List.replicate 32 0, by simp⟩

/-- `get_proof`, `adapter.rs:257-331`; `Account::decode` is unwrapped. -/
def getProof (nodes : List Bytes) (r : H256) (a : H160) (ps : List U256) : Outcome (AccountProof H256) :=
  (openTrie H nodes r).bind fun t =>
  match Trie.mptGet (hb H) t a.bytes with
  | some raw =>
    (Outcome.orPanic (decAcc raw)).bind fun acc =>
    (openTrie H nodes acc.storageRoot).bind fun s =>
    (slotProofs H s ps).bind fun l =>
      .ok ⟨a, acc.balance, acc.codeHash, acc.nonce, acc.storageRoot, prove H t a.bytes, l⟩
  | none =>
    .ok ⟨a, U256.zero, zeroHash, U256.zero, zeroHash, prove H t a.bytes, ps.map fun p => ⟨p, U256.zero, []⟩⟩

/-- `get_storage_at`, `adapter.rs:232-255`; the bytes are identified with the number they encode. -/
def getStorageAt (nodes : List Bytes) (r : H256) (a : H160) (p : U256) : Outcome U256 :=
  (openTrie H nodes r).bind fun t =>
  match Trie.mptGet (hb H) t a.bytes with
  | none => .err
  | some raw =>
    (Outcome.orPanic (decAcc raw)).bind fun acc =>
    (openTrie H nodes acc.storageRoot).bind fun s =>
      match Trie.mptGet (hb H) s (keyOf p).bytes with
      | some b => .orPanic (decVal b)
      | none => .ok U256.zero

/-- `eth_getStorageAt`, `core/api/src/jsonrpc/impl/web3.rs:969-995`: errors are answered with zero. -/
def ethGetStorageAt (nodes : List Bytes) (r : H256) (a : H160) (p : U256) : Outcome U256 :=
  match getStorageAt H nodes r a p with
  | .err => .ok U256.zero
  | x => x

/-! ## Lemmas -/

variable {H} {U : List Bytes} {nodes : List Bytes} {codes : List (H256 × Bytes)} {t s : Node}

/-- Every slot written is in `U`, in the committed states too. -/
theorem supp_saved (fn : Fine H U) : ∀ (ops : List Op) (w : World) (s : SState), Inv H U w s →
    (∀ b ∈ hashedRun H ops w, b ∈ U) → Supp U s.cur → (∀ σ ∈ s.saved, Supp U σ) →
    ∀ σ ∈ (specRun ops s).saved, Supp U σ := by
  intro ops
  induction ops with
  | nil => intro w s _ _ _ h; exact h
  | cons o ops ih =>
    intro w s hi hh hc hs
    have h0 : ∀ b ∈ hashed H w o, b ∈ U := fun b hb' => hh b (by simp [hashedRun, hb'])
    obtain ⟨w1, h1, h2⟩ := step_inv fn hi o h0
    have h3 := supp_step o h0 hc hs
    exact ih w1 _ h2 (fun b hb' => hh b (by simp only [hashedRun, h1, List.mem_append]; exact .inr hb'))
      h3.1 h3.2

theorem apart {proof : List Bytes} (fr : Free H U) (hp : ∀ b ∈ proof, b ∈ U)
    (ht : ∀ b ∈ Trie.pieces (hb H) t, b ∈ U) : Trie.Apart (hb H) proof t :=
  fun b hb' a ha e => fr b (hp b hb') a (ht a ha) (hb_inj e)

theorem prove_pieces (k : Bytes) : ∀ b ∈ prove H t k, b ∈ Trie.pieces (hb H) t := by
  intro b hb'
  unfold prove at hb'
  by_cases e : t = .empty
  · subst e; simp [Trie.prove] at hb'
  · rw [Trie.prove_eq _ e] at hb'
    rcases List.mem_cons.1 hb' with rfl | h
    · exact Trie.raw_mem _ _
    · exact Trie.path_pieces _ _ _ b h

/-- A proof made is accepted. -/
theorem prove_verifies {n : Nat} (fr : Free H U) (hk : Keyed H U n t) (hp : ∀ b ∈ Trie.pieces (hb H) t, b ∈ U)
    (hne : t ≠ .empty) (strict : Bool) (k : Bytes) :
    Trie.verify (hb H) strict (rootOf H t).bytes (Trie.keyPath (hb H k)) (prove H t k) =
      .ok (Trie.mptGet (hb H) t k) :=
  Trie.verify_complete hb_length hne hk.canon hk.sized (fun _ h => h)
    (apart fr (fun b hb' => hp b (prove_pieces k b hb')) hp)

/-- A proof that is accepted tells the truth. -/
theorem verifies_true {n : Nat} (fr : Free H U) (hk : Keyed H U n t) (hp : ∀ b ∈ Trie.pieces (hb H) t, b ∈ U)
    {strict : Bool} {k : Bytes} {proof : List Bytes} (hq : ∀ b ∈ proof, b ∈ U) {x : Option Bytes}
    (h : Trie.verify (hb H) strict (rootOf H t).bytes (Trie.keyPath (hb H k)) proof = .ok x) :
    x = Trie.mptGet (hb H) t k ∨ strict = false ∧ x = none :=
  Trie.verify_sound hb_length hk.canon hk.sized (apart fr hq hp) h

theorem slotProof_eq {f : H256 → U256} (hs : Slots H U s f) {p : U256} (hp : (keyOf p).bytes ∈ U) :
    slotProof H s p = .ok ⟨p, f (keyOf p), prove H s (keyOf p).bytes⟩ := by
  unfold slotProof
  rw [hs.vals _ hp]
  by_cases hz : f (keyOf p) = U256.zero
  · simp [hz]
  · simp [hz, decVal_encVal, Outcome.orPanic, Outcome.bind]

theorem slotProofs_eq {f : H256 → U256} (hs : Slots H U s f) : ∀ ps : List U256, (∀ p ∈ ps, (keyOf p).bytes ∈ U) →
    slotProofs H s ps = .ok (ps.map fun p => ⟨p, f (keyOf p), prove H s (keyOf p).bytes⟩)
  | [], _ => rfl
  | p :: ps, h => by
    simp only [slotProofs, slotProof_eq hs (h p (by simp)), slotProofs_eq hs ps (fun q hq => h q (by simp [hq])),
      Outcome.bind, List.map_cons]

/-- The storage trie has a node when a slot is set. -/
theorem slots_ne {f : H256 → U256} (hs : Slots H U s f) {k : H256} (hk : k.bytes ∈ U) (hz : f k ≠ U256.zero) :
    s ≠ .empty := by
  rintro rfl
  have := hs.vals k hk
  rw [if_neg hz] at this
  simp [Trie.mptGet, Trie.get] at this

/-- A storage trie without slots is empty. -/
theorem slots_nil {f : H256 → U256} (hs : Slots H U s f) (hz : ∀ k, f k = U256.zero) : s = .empty := by
  refine Trie.canon_unique hs.keyed.canon Trie.canon_empty fun p => ?_
  cases e : Trie.get s p with
  | none => simp [Trie.get]
  | some v =>
    obtain ⟨⟨k, hk, rfl⟩, -⟩ := hs.keyed.keys p v e
    have := hs.vals k hk
    rw [if_pos (hz k)] at this
    unfold Trie.mptGet at this
    rw [this] at e
    cases e

/-- The storage trie of an account opens when it is stored. -/
theorem open_slots (fn : Fine H U) (hn : ∀ b ∈ nodes, b ∈ U) {f : H256 → U256} (hs : Slots H U s f)
    (hc : Committed H U nodes s) (h : s ≠ .empty ∨ [0x80] ∈ nodes) : openTrie H nodes (rootOf H s) = .ok s := by
  refine openTrie_root fn.free hs.keyed hn hc.pieces ?_
  rcases hc.stored with rfl | hst
  · rcases h with h | h
    · exact absurd rfl h
    · intro b hb'
      simp only [Trie.stored, raw_empty, Trie.pieces, List.mem_cons, List.mem_filter, List.not_mem_nil,
        or_false] at hb'
      rcases hb' with rfl | ⟨rfl, -⟩ <;> exact h
  · exact hst

end Axon.ProofDb
