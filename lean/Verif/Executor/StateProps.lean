import Verif.Executor.StateLemmas

/-!
# Properties C33 (state writes are read back), C34 (`BLOCKHASH` window), C66 (empty accounts)

`view` is what `basic`, `code` and `storage` return for an account; `specChange` (in `StateLemmas.lean`)
says on that level what a change should do: it knows nothing of tries, roots, hashes or encodings.
-/

namespace Axon.Exec
open Axon.Assoc

variable {H : Type} [DecidableEq H]

/-- **C33.**  Applying any list of changes to any well-formed state succeeds, and afterwards every account
reads as the changes say, in order: written values for written fields and slots (zero for slots written
with zero), the old values everywhere else.  Nothing but the state and the logs changes. -/
theorem C33_read_back {env : Env H} (hg : env.Good) {w : World H} (hw : WF env w)
    (cs : List Change) (logs : List Log) (deleteEmpty : Bool) :
    ∃ w', apply env w cs logs deleteEmpty = .ok w' ∧ WF env w' ∧
      view env w' = cs.foldl specChange (view env w) ∧ w'.logs = logs ∧
      w'.blocks = w.blocks ∧ w'.blockNumber = w.blockNumber ∧ w'.origin = w.origin ∧
      w'.gasPrice = w.gasPrice := by
  obtain ⟨w', h, hwf, hv, hr⟩ := apply_spec hg deleteEmpty cs logs hw
  exact ⟨w', h, hwf, hv, by rw [hr], by rw [hr], by rw [hr], by rw [hr], by rw [hr]⟩

/-- The account a change is about. -/
def Change.address : Change → H160
  | .modify a _ _ _ _ => a
  | .delete a => a

theorem specChange_other (σ : H160 → View) (ch : Change) (x : H160) (h : ch.address ≠ x) :
    specChange σ ch x = σ x := by
  cases ch <;> simp [specChange, Change.address] at h ⊢ <;> intro hx <;> exact absurd hx.symm h

theorem foldl_specChange_other (cs : List Change) (x : H160) (hx : ∀ ch ∈ cs, ch.address ≠ x) :
    ∀ σ : H160 → View, cs.foldl specChange σ x = σ x := by
  induction cs with
  | nil => intro σ; rfl
  | cons ch cs ih =>
    intro σ
    rw [List.foldl_cons, ih (fun c hc => hx c (List.mem_cons_of_mem _ hc)),
      specChange_other _ _ _ (hx ch (List.mem_cons_self ..))]

/-- **C33, frame.**  An account no change mentions reads exactly as before. -/
theorem C33_untouched {env : Env H} (hg : env.Good) {w w' : World H} (hw : WF env w)
    {cs : List Change} {logs : List Log} {deleteEmpty : Bool}
    (h : apply env w cs logs deleteEmpty = .ok w') (x : H160)
    (hx : ∀ ch ∈ cs, ch.address ≠ x) : view env w' x = view env w x := by
  obtain ⟨w1, h1, _, hv, _⟩ := apply_spec hg deleteEmpty cs logs hw
  rw [h] at h1
  cases h1
  rw [hv]
  exact foldl_specChange_other cs x hx _

/-- **C33, slots.**  Reading back one slot through the trie after a single change: the last value written
to it, otherwise the old value (zero after a reset). -/
theorem C33_slot {env : Env H} (hg : env.Good) {w w' : World H} (hw : WF env w) (a : H160)
    (b : Basic) (c : Option Bytes) (ws : List (H256 × U256)) (reset : Bool) (logs : List Log)
    (de : Bool) (h : apply env w [.modify a b c ws reset] logs de = .ok w') (k : H256) :
    (∀ pre v post, ws = pre ++ (k, v) :: post → (∀ kv ∈ post, kv.1 ≠ k) →
      storage env w' a k = .ok v) ∧
    ((∀ kv ∈ ws, kv.1 ≠ k) → reset = false → storage env w' a k = storage env w a k) ∧
    ((∀ kv ∈ ws, kv.1 ≠ k) → reset = true → storage env w' a k = .ok U256.zero) := by
  obtain ⟨w1, h1, hwf, hv, _⟩ := apply_spec hg de [.modify a b c ws reset] logs hw
  rw [h] at h1
  cases h1
  have hslot : slot env w' a k = specSlots (slot env w a) ws reset k := by
    have := congrFun hv a
    simp only [List.foldl_cons, List.foldl_nil, specChange, if_true] at this
    have := congrArg (fun v => v.slot k) this
    exact this
  have hnone : (∀ kv ∈ ws, kv.1 ≠ k) → ws.reverse.find? (fun kv => kv.1 = k) = none := by
    intro hn
    rw [List.find?_eq_none]
    intro kv hkv
    simpa using hn kv (by simpa using hkv)
  rw [storage_slot hwf, hslot]
  refine ⟨?_, ?_, ?_⟩
  · intro pre v post hws hpost
    have : ws.reverse.find? (fun kv => kv.1 = k) = some (k, v) := by
      rw [hws, List.reverse_append, List.reverse_cons, List.append_assoc, List.find?_append]
      have : post.reverse.find? (fun kv => kv.1 = k) = none := by
        rw [List.find?_eq_none]
        intro kv hkv
        simpa using hpost kv (by simpa using hkv)
      rw [this]
      simp
    simp [specSlots, this]
  · intro hn hr
    rw [storage_slot hw]
    simp [specSlots, hnone hn, hr]
  · intro hn hr
    simp [specSlots, hnone hn, hr]

/-! ### A concrete hash function and state -/

/-- Hashes that are their own preimage. -/
abbrev ToyHash := Option (Bytes ⊕ List (H256 × Bytes))

def toyEnv : Env ToyHash :=
  { digest := fun b => some (.inl b), rootOf := fun m => some (.inr m), zero := none }

theorem toyEnv_good : toyEnv.Good := by
  constructor
  · intro m m' h k
    simp only [toyEnv, Option.some.injEq, Sum.inr.injEq] at h
    rw [h]
  · intro a b h
    simpa [toyEnv] using h
  · intro b h
    simp [toyEnv] at h

def toyAddr (n : Nat) : H160 := ⟨beFixed 20 n, by simp⟩
def toyKey (n : Nat) : H256 := ⟨beFixed 32 n, by simp⟩
def u256 (n : Nat) (h : n < 2 ^ 256 := by decide) : U256 := ⟨n, h⟩

def toyWorld : World ToyHash :=
  { accounts := [], db := [], codes := [], blocks := [], logs := [], blockNumber := u256 1,
    origin := toyAddr 0, gasPrice := u256 1, headerRoot := u256 0, metadataRoot := u256 0 }

theorem wf_of_no_accounts (env : Env H) (w : World H) (h1 : w.accounts = []) (h2 : w.db = [])
    (h3 : w.codes = []) : WF env w := by
  constructor <;> simp [h1, h2, h3, get_nil]

/-- The hypotheses are met by a state with a contract holding one slot, and the theorem predicts the result
of a second change that overwrites the slot twice, clears another one and leaves a third account alone. -/
example : ∃ w1 w2 : World ToyHash,
    apply toyEnv toyWorld
      [.modify (toyAddr 7) ⟨u256 5, u256 1⟩ (some [1, 2]) [(toyKey 1, u256 300), (toyKey 2, u256 9)] false,
       .modify (toyAddr 8) ⟨u256 6, u256 0⟩ none [] false] [] true = .ok w1 ∧
    apply toyEnv w1
      [.modify (toyAddr 7) ⟨u256 4, u256 2⟩ none
        [(toyKey 1, u256 0), (toyKey 1, u256 400), (toyKey 2, u256 0)] false] [] true = .ok w2 ∧
    storage toyEnv w2 (toyAddr 7) (toyKey 1) = .ok (u256 400) ∧
    storage toyEnv w2 (toyAddr 7) (toyKey 2) = .ok (u256 0) ∧
    code toyEnv w2 (toyAddr 7) = [1, 2] ∧
    (basic w2 (toyAddr 8)).balance = u256 6 := by
  obtain ⟨w1, h1, hw1, hv1, _⟩ := C33_read_back toyEnv_good (wf_of_no_accounts toyEnv toyWorld rfl rfl rfl)
    [.modify (toyAddr 7) ⟨u256 5, u256 1⟩ (some [1, 2]) [(toyKey 1, u256 300), (toyKey 2, u256 9)] false,
       .modify (toyAddr 8) ⟨u256 6, u256 0⟩ none [] false] [] true
  obtain ⟨w2, h2, hw2, hv2, _⟩ := C33_read_back toyEnv_good hw1
    [.modify (toyAddr 7) ⟨u256 4, u256 2⟩ none
        [(toyKey 1, u256 0), (toyKey 1, u256 400), (toyKey 2, u256 0)] false] [] true
  refine ⟨w1, w2, h1, h2, ?_, ?_, ?_, ?_⟩
  · rw [storage_slot hw2]
    have := congrArg (fun v => v.slot (toyKey 1)) (congrFun hv2 (toyAddr 7))
    rw [hv1] at this
    exact congrArg Outcome.ok (this.trans (by decide +kernel))
  · rw [storage_slot hw2]
    have := congrArg (fun v => v.slot (toyKey 2)) (congrFun hv2 (toyAddr 7))
    rw [hv1] at this
    exact congrArg Outcome.ok (this.trans (by decide +kernel))
  · have := congrArg View.code (congrFun hv2 (toyAddr 7))
    rw [hv1] at this
    exact this.trans (by decide +kernel)
  · have := congrArg View.balance (congrFun hv2 (toyAddr 8))
    rw [hv1] at this
    exact this.trans (by decide +kernel)

/-! ## C34 -/

omit [DecidableEq H] in
/-- **C34.**  Inside block `n` the hash of number `m` is the stored hash of block `m` if
`n - 256 ≤ m < n`, and zero otherwise (also when nothing is stored). -/
theorem C34_window (env : Env H) (w : World H) (m : U256) (hn : w.blockNumber.val < 2 ^ 64) :
    (w.blockNumber.val ≤ m.val + 256 ∧ m.val < w.blockNumber.val →
      blockHash env w m = (get w.blocks m.val).getD env.zero) ∧
    (¬ (w.blockNumber.val ≤ m.val + 256 ∧ m.val < w.blockNumber.val) →
      blockHash env w m = env.zero) := by
  unfold blockHash hashRange
  constructor
  · rintro ⟨h1, h2⟩
    have e : m.val % 2 ^ 64 = m.val := Nat.mod_eq_of_lt (by omega)
    rw [if_neg (by omega), if_neg (by omega), e]
  · intro h
    by_cases h1 : w.blockNumber.val ≤ m.val
    · rw [if_pos h1]
    · rw [if_neg h1, if_pos (by omega)]

omit [DecidableEq H] in
/-- **C34, the lookup does not leave the chain**: in a state that stores the hash of every block below the
current one, the result is non-zero exactly inside the window. -/
theorem C34_nonzero (env : Env H) (w : World H) (m : U256) (hn : w.blockNumber.val < 2 ^ 64)
    (hall : ∀ i, i < w.blockNumber.val → ∃ h, get w.blocks i = some h ∧ h ≠ env.zero) :
    blockHash env w m ≠ env.zero ↔
      (w.blockNumber.val ≤ m.val + 256 ∧ m.val < w.blockNumber.val) := by
  have := C34_window env w m hn
  constructor
  · intro h
    exact Classical.byContradiction fun hc => h (this.2 hc)
  · intro h
    rw [this.1 h]
    obtain ⟨x, hx, hne⟩ := hall m.val h.2
    simpa [hx] using hne

/-- Block 300: 44 is the oldest visible block, 299 the newest. -/
example :
    let w : World ToyHash := { toyWorld with
      blockNumber := u256 300
      blocks := (List.range 300).map (fun i => (i, some (.inl (beFixed 2 i)))) }
    blockHash toyEnv w (u256 43) = none ∧
    blockHash toyEnv w (u256 44) = some (.inl [0, 44]) ∧
    blockHash toyEnv w (u256 299) = some (.inl [1, 43]) ∧
    blockHash toyEnv w (u256 300) = none := by decide +kernel

/-! ## C66 -/

/-- **C66, what does hold.**  An account removed by the virtual machine (`SELFDESTRUCT`) no longer exists
and reads as empty. -/
theorem C66_delete_partial {env : Env H} (hg : env.Good) {w : World H} (hw : WF env w) (a : H160)
    (logs : List Log) (de : Bool) :
    ∃ w', apply env w [.delete a] logs de = .ok w' ∧ existsAccount w' a = false ∧
      view env w' a = emptyView := by
  obtain ⟨w', h, _, hv, _⟩ := apply_spec hg de [.delete a] logs hw
  refine ⟨w', h, ?_, by rw [hv]; simp [specChange]⟩
  simp only [apply, applyChanges, applyChange, Outcome.bind, Outcome.ok.injEq] at h
  subst h
  simp [existsAccount, get_del]

/-- **C66 is false of the code.**  `delete_empty` never removes anything: the test for an empty account
compares its code hash with zero, but an account without code has the hash of the empty string.  An account
touched with zero balance and nonce exists afterwards, whatever the state was before. -/
theorem C66_kept_false {env : Env H} (hg : env.Good) {w : World H} (hw : WF env w) (a : H160)
    (logs : List Log) :
    ∃ w', apply env w [.modify a ⟨U256.zero, U256.zero⟩ none [] false] logs true = .ok w' ∧
      (basic w' a) = ⟨U256.zero, U256.zero⟩ ∧ existsAccount w' a = true := by
  obtain ⟨w', h, _, hv, he, _, _⟩ := applyOne_spec hg hw a ⟨U256.zero, U256.zero⟩ none [] false
  refine ⟨{ w' with logs := logs }, ?_, ?_, he⟩
  · simp [apply, applyChanges, applyChange, h, Outcome.bind]
  · have h1 := congrArg View.nonce (hv a)
    have h2 := congrArg View.balance (hv a)
    simp only [specChange, if_true] at h1 h2
    have e1 : (basic w' a).nonce = U256.zero := h1
    have e2 : (basic w' a).balance = U256.zero := h2
    show basic w' a = _
    revert e1 e2
    generalize basic w' a = b
    intro e1 e2
    cases b
    exact congr (congrArg Basic.mk e2) e1

example : existsAccount toyWorld (toyAddr 3) = false ∧
    ∃ w', apply toyEnv toyWorld [.modify (toyAddr 3) ⟨U256.zero, U256.zero⟩ none [] false] [] true = .ok w' ∧
      existsAccount w' (toyAddr 3) = true := by
  refine ⟨rfl, ?_⟩
  obtain ⟨w', h, _, he⟩ := C66_kept_false toyEnv_good (wf_of_no_accounts toyEnv toyWorld rfl rfl rfl)
    (toyAddr 3) []
  exact ⟨w', h, he⟩

end Axon.Exec
