import Verif.Api.ProofDb

/-!
# C131: proofs of the accounts and slots of every past block check out against its state root

Over all histories of the state database of C128: what `eth_getProof` answers for an account in the state of any
committed block, however much has happened since, passes the checks of a client who knows the state root only, and
reports what the state held; whatever passes the checks reports nothing else.

Assumed: the strings hashed, those in the proofs included, have different hashes (`Fine`).  An account without
storage has no proofs for its slots, and an address without an account none at all (C109, C116): positions are asked
for of accounts with storage.
-/

namespace Axon.ProofDb
open Axon.Rlp Axon.Assoc Axon.Exec Axon.WorldDb
open Axon.Trie (Node)
open Axon.StateProof (AccountProof SlotProof keyOf)

variable {H : Bytes → H256}

/-! ## Specification -/

/-- The checks of a client for one position: the proof verifies against the storage hash to the value, or to nothing
when the value is zero. -/
def SlotChecks (H : Bytes → H256) (strict : Bool) (root : H256) (x : SlotProof) : Prop :=
  ∃ o, Trie.verify (hb H) strict root.bytes (Trie.keyPath (hb H (keyOf x.key).bytes)) x.proof = .ok o ∧
    match o with
    | some b => decVal b = some x.value
    | none => x.value = U256.zero

/-- The checks of a client who knows a state root: the account proof verifies to the fields of the answer, the
storage proofs against its storage hash. -/
structure Checks (H : Bytes → H256) (strict : Bool) (r : H256) (x : AccountProof H256) : Prop where
  account : ∃ raw, Trie.verify (hb H) strict r.bytes (Trie.keyPath (hb H x.address.bytes)) x.accountProof =
    .ok (some raw) ∧ decAcc raw = some ⟨x.nonce, x.balance, x.storageHash, x.codeHash⟩
  slots : ∀ p ∈ x.storageProof, SlotChecks H strict x.storageHash p

/-- The answer reports this account. -/
structure Reports (H : Bytes → H256) (x : AccountProof H256) (v : View) : Prop where
  nonce : x.nonce = v.nonce
  balance : x.balance = v.balance
  code : x.codeHash = H v.code
  slots : ∀ p ∈ x.storageProof, p.value = v.slot (keyOf p.key)

/-- The strings hashed in a history, with the constants and what is asked. -/
def seen (H : Bytes → H256) (ops : List Op) (a : H160) (ps : List U256) (more : List Bytes) : List Bytes :=
  [] :: [0x80] :: a.bytes :: (ps.map (fun p => (keyOf p).bytes) ++ more) ++ hashedRun H ops .init

section
variable {ops : List Op} {a : H160} {ps : List U256} {more : List Bytes}

theorem seen_addr : a.bytes ∈ seen H ops a ps more := by simp [seen]

theorem seen_pos {p : U256} (h : p ∈ ps) : (keyOf p).bytes ∈ seen H ops a ps more := by
  simp only [seen, List.mem_append, List.cons_append, List.mem_cons, List.mem_map]
  exact .inr (.inr (.inr (.inl (.inl ⟨p, h, rfl⟩))))

theorem seen_more {b : Bytes} (h : b ∈ more) : b ∈ seen H ops a ps more := by
  simp [seen, h]

theorem seen_run {b : Bytes} (h : b ∈ hashedRun H ops .init) : b ∈ seen H ops a ps more := by
  simp [seen, h]

theorem supp_init {U : List Bytes} : Supp U SState.init.cur := fun _ _ h => by cases h
end

/-- Answers for accounts with storage: every position, every committed root. -/
theorem C131_answers (strict : Bool) (ops : List Op) (a : H160) (ps : List U256)
    (fn : Fine H (seen H ops a ps [])) : ∃ w, run H ops .init = .ok w ∧
      w.roots.length = (specRun ops .init).saved.length ∧
      ∀ (i : Nat) r σ v, w.roots[i]? = some r → (specRun ops .init).saved[i]? = some σ → σ a = some v →
        (∃ k, v.slot k ≠ U256.zero) → ∃ x, getProof H w.nodes r a ps = .ok x ∧ x.address = a ∧
          x.storageProof.map (·.key) = ps ∧ Reports H x v ∧ Checks H strict r x := by
  obtain ⟨w, h1, h2⟩ := run_inv fn ops .init .init inv_init fun b hb' => seen_run hb'
  refine ⟨w, h1, h2.len, fun i r σ v hr hσ hv ⟨k, hk⟩ => ?_⟩
  obtain ⟨t, rfl, x2, x3, x4⟩ := h2.saved i r σ hr hσ
  have hsupp := supp_saved fn ops .init .init inv_init (fun b hb' => seen_run hb') supp_init
    (fun σ hσ => by cases hσ) σ (List.mem_of_getElem? hσ)
  obtain ⟨raw, hf, s, rfl, s2, s3, -⟩ := x2.present a v seen_addr hv
  have hne : s ≠ .empty := slots_ne s2 ((hsupp a v hv).2 k hk) hk
  have hte : t ≠ .empty := by
    rintro rfl
    simp [Trie.mptGet, Trie.get] at hf
  refine ⟨⟨a, v.balance, H v.code, v.nonce, rootOf H s, prove H t a.bytes,
    ps.map fun p => ⟨p, v.slot (keyOf p), prove H s (keyOf p).bytes⟩⟩, ?_, rfl, ?_, ⟨rfl, rfl, rfl, ?_⟩, ?_, ?_⟩
  · simp only [getProof, openTrie_root fn.free x2.keyed h2.nodes x3 x4, Outcome.bind, hf, decAcc_encAcc,
      Outcome.orPanic, open_slots fn h2.nodes s2 s3 (.inl hne), slotProofs_eq s2 ps fun p hp => seen_pos hp]
  · simp [Function.comp_def]
  · intro p hp
    obtain ⟨q, -, rfl⟩ := List.mem_map.1 hp
    rfl
  · exact ⟨_, by rw [prove_verifies fn.free x2.keyed x3 hte]; simp only [hf], decAcc_encAcc _⟩
  · intro p hp
    obtain ⟨q, hq, rfl⟩ := List.mem_map.1 hp
    refine ⟨_, prove_verifies fn.free s2.keyed s3.pieces hne strict _, ?_⟩
    rw [s2.vals _ (seen_pos hq)]
    by_cases hz : v.slot (keyOf q) = U256.zero
    · simp [hz]
    · simp [hz, decVal_encVal]

/-- Answers for accounts without storage: the account alone, once an empty storage trie has been stored. -/
theorem C131_plain (strict : Bool) (ops : List Op) (a : H160) (fn : Fine H (seen H ops a [] [])) :
    ∃ w, run H ops .init = .ok w ∧
      ∀ (i : Nat) r σ v, w.roots[i]? = some r → (specRun ops .init).saved[i]? = some σ → σ a = some v →
        (∀ k, v.slot k = U256.zero) → [0x80] ∈ w.nodes → ∃ x, getProof H w.nodes r a [] = .ok x ∧ x.address = a ∧
          Reports H x v ∧ x.storageHash = rlpNull H ∧ Checks H strict r x := by
  obtain ⟨w, h1, h2⟩ := run_inv fn ops .init .init inv_init fun b hb' => seen_run hb'
  refine ⟨w, h1, fun i r σ v hr hσ hv hz h80 => ?_⟩
  obtain ⟨t, rfl, x2, x3, x4⟩ := h2.saved i r σ hr hσ
  obtain ⟨raw, hf, s, rfl, s2, s3, -⟩ := x2.present a v seen_addr hv
  have he : s = .empty := slots_nil s2 hz
  have hte : t ≠ .empty := by
    rintro rfl
    simp [Trie.mptGet, Trie.get] at hf
  refine ⟨⟨a, v.balance, H v.code, v.nonce, rootOf H s, prove H t a.bytes, []⟩, ?_, rfl, ⟨rfl, rfl, rfl, ?_⟩, ?_,
    ?_, ?_⟩
  · simp only [getProof, openTrie_root fn.free x2.keyed h2.nodes x3 x4, Outcome.bind, hf, decAcc_encAcc,
      Outcome.orPanic, open_slots fn h2.nodes s2 s3 (.inr h80), slotProofs]
  · intro p hp; cases hp
  · exact (rootOf_null fn.free s2.keyed s3.pieces fn.null).2 he
  · exact ⟨_, by rw [prove_verifies fn.free x2.keyed x3 hte]; simp only [hf], decAcc_encAcc _⟩
  · intro p hp; cases hp

/-- Every position asked for in an answer. -/
def positions (x : AccountProof H256) : List U256 := x.storageProof.map (·.key)

/-- Every node in an answer. -/
def nodesOf (x : AccountProof H256) : List Bytes := x.accountProof ++ x.storageProof.flatMap (·.proof)

/-- Whatever passes the checks against the root of a committed state reports what this state held, whoever made the
answer. -/
theorem C131_truth (ops : List Op) (x : AccountProof H256)
    (fn : Fine H (seen H ops x.address (positions x) (nodesOf x))) : ∃ w, run H ops .init = .ok w ∧
      ∀ (i : Nat) r σ, w.roots[i]? = some r → (specRun ops .init).saved[i]? = some σ → Checks H true r x →
        ∃ v, σ x.address = some v ∧ Reports H x v := by
  obtain ⟨w, h1, h2⟩ := run_inv fn ops .init .init inv_init fun b hb' => seen_run hb'
  refine ⟨w, h1, fun i r σ hr hσ hc => ?_⟩
  obtain ⟨t, rfl, x2, x3, x4⟩ := h2.saved i r σ hr hσ
  obtain ⟨raw, c1, c2⟩ := hc.account
  have hm : ∀ b ∈ x.accountProof, b ∈ seen H ops x.address (positions x) (nodesOf x) :=
    fun b hb' => seen_more (List.mem_append_left _ hb')
  rcases verifies_true fn.free x2.keyed x3 hm c1 with e | ⟨e, -⟩
  · cases hs : σ x.address with
    | none => rw [x2.absent _ seen_addr hs] at e; cases e
    | some v =>
      obtain ⟨raw', hf, s, rfl, s2, s3, -⟩ := x2.present _ v seen_addr hs
      rw [hf] at e
      cases e
      rw [decAcc_encAcc] at c2
      have c3 := Option.some.inj c2
      injection c3 with e1 e2 e3 e4
      refine ⟨v, rfl, e1.symm, e2.symm, e4.symm, fun p hp => ?_⟩
      obtain ⟨o, d1, d2⟩ := hc.slots p hp
      rw [← e3] at d1
      have hmp : ∀ b ∈ p.proof, b ∈ seen H ops x.address (positions x) (nodesOf x) :=
        fun b hb' => seen_more (List.mem_append_right _ (List.mem_flatMap.2 ⟨p, hp, hb'⟩))
      rcases verifies_true fn.free s2.keyed s3.pieces hmp d1 with e | ⟨e, -⟩
      · rw [s2.vals _ (seen_pos (List.mem_map.2 ⟨p, hp, rfl⟩))] at e
        subst e
        by_cases hz : v.slot (keyOf p.key) = U256.zero
        · rw [if_pos hz] at d2
          rw [hz]; exact d2
        · rw [if_neg hz] at d2
          simp only [decVal_encVal] at d2
          exact (Option.some.inj d2).symm
      · cases e
  · cases e

/-- A proof that an address has no account is right. -/
theorem C131_absent (ops : List Op) (a : H160) (proof : List Bytes) (fn : Fine H (seen H ops a [] proof)) :
    ∃ w, run H ops .init = .ok w ∧
      ∀ (i : Nat) r σ, w.roots[i]? = some r → (specRun ops .init).saved[i]? = some σ →
        Trie.verify (hb H) true r.bytes (Trie.keyPath (hb H a.bytes)) proof = .ok none → σ a = none := by
  obtain ⟨w, h1, h2⟩ := run_inv fn ops .init .init inv_init fun b hb' => seen_run hb'
  refine ⟨w, h1, fun i r σ hr hσ hc => ?_⟩
  obtain ⟨t, rfl, x2, x3, x4⟩ := h2.saved i r σ hr hσ
  rcases verifies_true fn.free x2.keyed x3 (fun b hb' => seen_more hb') hc with e | ⟨e, -⟩
  · cases hs : σ a with
    | none => rfl
    | some v =>
      obtain ⟨raw', hf, -⟩ := x2.present _ v seen_addr hs
      rw [hf] at e
      cases e
  · cases e

/-- Answers for addresses without an account in a state with some account `b`: a proof of absence that is accepted.
The hashes reported are zero instead of those of nothing (C109). -/
theorem C131_nobody (strict : Bool) (ops : List Op) (a b : H160) (ps : List U256)
    (fn : Fine H (seen H ops a ps [b.bytes])) : ∃ w, run H ops .init = .ok w ∧
      ∀ (i : Nat) r σ, w.roots[i]? = some r → (specRun ops .init).saved[i]? = some σ → σ a = none → σ b ≠ none →
        ∃ x, getProof H w.nodes r a ps = .ok x ∧ x.address = a ∧ x.nonce = U256.zero ∧ x.balance = U256.zero ∧
          x.storageProof.map (fun p => (p.key, p.value)) = ps.map (fun p => (p, U256.zero)) ∧
          Trie.verify (hb H) strict r.bytes (Trie.keyPath (hb H a.bytes)) x.accountProof = .ok none := by
  obtain ⟨w, h1, h2⟩ := run_inv fn ops .init .init inv_init fun b hb' => seen_run hb'
  refine ⟨w, h1, fun i r σ hr hσ ha hb' => ?_⟩
  obtain ⟨t, rfl, x2, x3, x4⟩ := h2.saved i r σ hr hσ
  have hf := x2.absent a seen_addr ha
  have hte : t ≠ .empty := by
    rintro rfl
    cases hs : σ b with
    | none => exact hb' hs
    | some v =>
      obtain ⟨raw, hf, -⟩ := x2.present b v (seen_more (by simp)) hs
      simp [Trie.mptGet, Trie.get] at hf
  refine ⟨⟨a, U256.zero, zeroHash, U256.zero, zeroHash, prove H t a.bytes, ps.map fun p => ⟨p, U256.zero, []⟩⟩, ?_,
    rfl, rfl, rfl, ?_, ?_⟩
  · simp only [getProof, openTrie_root fn.free x2.keyed h2.nodes x3 x4, Outcome.bind, hf]
  · simp [Function.comp_def]
  · rw [prove_verifies fn.free x2.keyed x3 hte]; simp only [hf]

/-- `eth_getStorageAt` for any committed root, address and position. -/
theorem C131_storage (ops : List Op) (a : H160) (p : U256) (fn : Fine H (seen H ops a [p] [])) :
    ∃ w, run H ops .init = .ok w ∧
      ∀ (i : Nat) r σ, w.roots[i]? = some r → (specRun ops .init).saved[i]? = some σ →
        ethGetStorageAt H w.nodes r a p = .ok (((σ a).getD emptyView).slot (keyOf p)) := by
  obtain ⟨w, h1, h2⟩ := run_inv fn ops .init .init inv_init fun b hb' => seen_run hb'
  refine ⟨w, h1, fun i r σ hr hσ => ?_⟩
  obtain ⟨t, rfl, x2, x3, x4⟩ := h2.saved i r σ hr hσ
  have ho := openTrie_root fn.free x2.keyed h2.nodes x3 x4
  cases hs : σ a with
  | none =>
    simp only [ethGetStorageAt, getStorageAt, ho, Outcome.bind, x2.absent a seen_addr hs]
    rfl
  | some v =>
    obtain ⟨raw, hf, s, rfl, s2, s3, -⟩ := x2.present a v seen_addr hs
    simp only [ethGetStorageAt, getStorageAt, ho, Outcome.bind, hf, decAcc_encAcc, Outcome.orPanic, Option.getD_some]
    have hv := s2.vals (keyOf p) (seen_pos (ps := [p]) (by simp))
    by_cases h : s ≠ .empty ∨ [0x80] ∈ w.nodes
    · rw [open_slots fn h2.nodes s2 s3 h]
      simp only [hv]
      by_cases hz : v.slot (keyOf p) = U256.zero
      · simp [hz]
      · simp [hz, decVal_encVal]
    · have he : s = .empty := Classical.byContradiction fun hne => h (.inl hne)
      have hn : [0x80] ∉ w.nodes := fun hm => h (.inr hm)
      have hnone : Trie.fetch (hb H) w.nodes (rootOf H s).bytes = none := by
        unfold Trie.fetch
        rw [List.find?_eq_none]
        intro b hb' e
        rw [he] at e
        have e : hb H b = hb H [0x80] := by
          have := beq_iff_eq.1 e
          rw [this, ← raw_empty (H := H)]; rfl
        have := fn.free b (h2.nodes b hb') _ fn.null (hb_inj e)
        exact hn (this ▸ hb')
      have herr : openTrie H w.nodes (rootOf H s) = .err := by
        unfold openTrie Trie.openAt
        have hlen : (rootOf H s).bytes.length = 32 := (rootOf H s).len
        cases e : (rootOf H s).bytes with
        | nil => rw [e] at hlen; cases hlen
        | cons c l =>
          rw [e] at hlen hnone
          simp only [Trie.load, hlen, if_true, hnone]
      rw [herr]
      have hz : v.slot (keyOf p) = U256.zero := by
        rw [he] at hv
        by_cases hz : v.slot (keyOf p) = U256.zero
        · exact hz
        · rw [if_neg hz] at hv
          simp [Trie.mptGet, Trie.get] at hv
      rw [hz]

/-! ## A case -/

/-- The life of `C128`: a contract with slots 7 and 9 and an account, committed, then changed. -/
def life : List Op := before ++ .commit :: after.take 3

theorem life_fine : Fine toy (seen toy life alice [u 7, u 8] []) := fine_of (by decide +kernel)

theorem values {x : AccountProof H256} {v : View} (h : Reports H x v) :
    x.storageProof.map (·.value) = (positions x).map fun p => v.slot (keyOf p) := by
  unfold positions
  rw [List.map_map]
  exact List.map_congr_left h.slots

/-- From the first root, slot 7 is proved to be 70 and slot 8 to be empty, although both have been changed since or
never been written; from the second root slot 7 is proved to be empty. -/
example : ∃ (w : World) (r₁ r₂ : H256) (x y : AccountProof H256), run toy life .init = .ok w ∧
    w.roots = [r₁, r₂] ∧ getProof toy w.nodes r₁ alice [u 7, u 8] = .ok x ∧
    getProof toy w.nodes r₂ alice [u 7, u 8] = .ok y ∧ Checks toy true r₁ x ∧ Checks toy true r₂ y ∧
    x.storageProof.map (·.value) = [u 70, u 0] ∧ y.storageProof.map (·.value) = [u 0, u 0] ∧
    x.balance = u 1000 ∧ y.balance = u 900 := by
  obtain ⟨w, h1, h2, h3⟩ := C131_answers (H := toy) true life alice [u 7, u 8] life_fine
  have hk : keyOf (u 7) = slot7 := by decide +kernel
  have hk8 : keyOf (u 8) ≠ slot7 ∧ keyOf (u 8) ≠ slot9 := by decide +kernel
  have h79 : slot7 ≠ slot9 := by decide +kernel
  have hab : alice ≠ bob := by decide +kernel
  match hw : w.roots, h2 with
  | [r₁, r₂], _ =>
    obtain ⟨x, a1, a2, a3, a4, a5⟩ := h3 0 r₁ _ _ (by rw [hw]; rfl) rfl (by
      simp [specRun, specStep, Spec.set, before, SState.init, hab]; rfl) ⟨slot7, by
        simp [specSlots, h79.symm]
        decide +kernel⟩
    obtain ⟨y, b1, b2, b3, b4, b5⟩ := h3 1 r₂ _ _ (by rw [hw]; rfl) rfl (by
      simp [life, specRun, specStep, Spec.set, before, after, SState.init, hab]; rfl) ⟨slot9, by
        simp [specSlots]
        decide +kernel⟩
    refine ⟨w, r₁, r₂, x, y, h1, hw, a1, b1, a5, b5, ?_, ?_, a4.balance, b4.balance⟩
    · rw [values a4, show positions x = [u 7, u 8] from a3]
      simp [specSlots, hk, h79.symm, hk8.1.symm, hk8.2.symm, emptyView]
      decide +kernel
    · rw [values b4, show positions y = [u 7, u 8] from b3]
      simp [specSlots, hk, h79.symm, hk8.1.symm, hk8.2.symm, emptyView]
      decide +kernel

/-- An answer as some server might make it: the proofs of `C131_answers`, with one node more. -/
def answer : AccountProof H256 :=
  match (run toy life .init).bind fun w => (Outcome.ofOption w.roots[0]?).bind fun r =>
    getProof toy w.nodes r alice [u 7, u 8] with
  | .ok x => { x with accountProof := [1, 2, 3] :: x.accountProof }
  | _ => ⟨alice, u 0, zeroHash, u 0, zeroHash, [], []⟩

/-- The hypotheses of `C131_truth`. -/
example : Fine toy (seen toy life answer.address (positions answer) (nodesOf answer)) ∧
    answer.storageProof.map (·.value) = [u 70, u 0] := ⟨fine_of (by decide +kernel), by decide +kernel⟩

/-- An account without storage after a change without writes: the empty storage trie is stored. -/
def quiet : List Op :=
  [.change (.modify bob ⟨u 5, u 1⟩ none [] false) true, .save alice (u 1) (u 7), .commit]

/-- The hypotheses of `C131_plain` and what it gives; a proof that there is no account at the address 9. -/
example : ∃ (w : World) (r : H256) (x : AccountProof H256), run toy quiet .init = .ok w ∧ w.roots = [r] ∧
    getProof toy w.nodes r alice [] = .ok x ∧ Checks toy true r x ∧ x.balance = u 7 := by
  obtain ⟨w, h1, h2⟩ := C131_plain (H := toy) true quiet alice (fine_of (by decide +kernel))
  have h : (match run toy quiet .init with
    | .ok w => w.nodes.contains [0x80] && w.roots.length == 1
    | _ => false) = true := by decide +kernel
  rw [h1] at h
  simp only [Bool.and_eq_true, List.contains_iff_mem, beq_iff_eq] at h
  match hw : w.roots, h.2 with
  | [r], _ =>
    obtain ⟨x, a1, -, a3, -, a5⟩ := h2 0 r _ _ (by rw [hw]; rfl) rfl (by
      simp [quiet, specRun, specStep, Spec.set, SState.init]; rfl) (fun k => by
        have hab : alice ≠ bob := by decide +kernel
        simp [hab, emptyView]) h.1
    exact ⟨w, r, x, h1, hw, a1, a5, a3.balance⟩

def nobody : H160 := ⟨beFixed 20 9, by simp⟩

/-- The proof of absence `eth_getProof` makes. -/
def noProof : List Bytes :=
  match (run toy quiet .init).bind fun w => (Outcome.ofOption w.roots[0]?).bind fun r =>
    getProof toy w.nodes r nobody [] with
  | .ok x => x.accountProof
  | _ => []

/-- The hypotheses of `C131_nobody`. -/
example : Fine toy (seen toy quiet nobody [u 7] [alice.bytes]) ∧ (specRun quiet .init).saved.length = 1 ∧
    ∀ σ ∈ (specRun quiet .init).saved, σ nobody = none ∧ σ alice ≠ none := by
  have h1 : nobody ≠ alice := by decide +kernel
  have h2 : nobody ≠ bob := by decide +kernel
  refine ⟨fine_of (by decide +kernel), rfl, fun σ h => ?_⟩
  simp [quiet, specRun, specStep, Spec.set, SState.init] at h
  subst h
  exact ⟨by simp [h1, h2, Spec.set], by simp [Spec.set]⟩

example : Fine toy (seen toy quiet nobody [] noProof) ∧ (match run toy quiet .init with
    | .ok w => w.roots.map fun r => decide (Trie.verify (hb toy) true r.bytes (Trie.keyPath (hb toy nobody.bytes))
      noProof = .ok none)
    | _ => []) = [true] := ⟨fine_of (by decide +kernel), by decide +kernel⟩

end Axon.ProofDb
