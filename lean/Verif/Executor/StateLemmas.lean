import Verif.Executor.State

/-!
# Effect of state changes on what can be read
-/

namespace Axon.Exec
open Axon.Assoc

variable {H : Type} [DecidableEq H]

/-- Everything the virtual machine can read about an account. -/
structure View where
  nonce : U256
  balance : U256
  code : Bytes
  slot : H256 → U256

/-- The observation of an account through `basic`, `code` and `storage`. -/
def view (env : Env H) (w : World H) (a : H160) : View :=
  { nonce := (basic w a).nonce
    balance := (basic w a).balance
    code := code env w a
    slot := slot env w a }

/-- An account nobody wrote. -/
def emptyView : View :=
  { nonce := U256.zero, balance := U256.zero, code := [], slot := fun _ => U256.zero }

/-- Storage after a list of writes: the last write to a slot counts; other slots keep the old value, or
zero after a reset. -/
def specSlots (old : H256 → U256) (ws : List (H256 × U256)) (reset : Bool) (k : H256) : U256 :=
  match ws.reverse.find? (fun kv => kv.1 = k) with
  | some kv => kv.2
  | none => if reset then U256.zero else old k

/-- What a change should do. -/
def specChange (σ : H160 → View) : Change → H160 → View
  | .modify a b c ws reset => fun x =>
    if x = a then
      { nonce := b.nonce, balance := b.balance, code := c.getD (σ a).code,
        slot := specSlots (σ a).slot ws reset }
    else σ x
  | .delete a => fun x => if x = a then emptyView else σ x

theorem View.ext' {u v : View} (h1 : u.nonce = v.nonce) (h2 : u.balance = v.balance)
    (h3 : u.code = v.code) (h4 : ∀ k, u.slot k = v.slot k) : u = v := by
  cases u; cases v
  simp only at h1 h2 h3 h4
  simp [h1, h2, h3, funext h4]

theorem slotOf_foldl (m : List (H256 × Bytes)) (ws : List (H256 × U256)) (k : H256) :
    slotOf (ws.foldl writeSlot m) k = specSlots (slotOf m) ws false k := by
  induction ws using snoc_induction generalizing m with
  | nil => simp [specSlots]
  | snoc ws kv ih =>
    rw [List.foldl_append, List.foldl_cons, List.foldl_nil, slotOf_writeSlot, ih]
    unfold specSlots
    rw [List.reverse_append]
    simp only [List.reverse_cons, List.reverse_nil, List.nil_append, List.singleton_append,
      List.find?_cons]
    by_cases hk : k = kv.1
    · simp [hk]
    · have : kv.1 ≠ k := fun h => hk h.symm
      simp [hk, this]

/-- The result of `applyOne`, for given intermediate values. -/
theorem applyOne_eq {env : Env H} {w : World H} {a : H160} {b : Basic} {c : Option Bytes}
    {ws : List (H256 × U256)} {reset : Bool} {m0 : List (H256 × Bytes)}
    (h : openStorage env w (getAccount env w a) reset = .ok m0) :
    applyOne env w a b c ws reset = .ok
      ({ w with
          accounts := put w.accounts a
            { nonce := b.nonce, balance := b.balance,
              storageRoot := env.rootOf (ws.foldl writeSlot m0),
              codeHash := (c.map env.digest).getD (getAccount env w a).codeHash }
          db := put w.db (env.rootOf (ws.foldl writeSlot m0)) (ws.foldl writeSlot m0)
          codes := match c with
            | some code => if env.digest code ≠ (getAccount env w a).codeHash then
                put w.codes (env.digest code) code else w.codes
            | none => w.codes },
        decide (b.balance = U256.zero ∧ b.nonce = U256.zero ∧
          (c.map env.digest).getD (getAccount env w a).codeHash = env.zero)) := by
  unfold applyOne
  simp only [h]
  cases c with
  | none => simp [saveAccount]
  | some code =>
    by_cases hd : env.digest code = (getAccount env w a).codeHash
    · simp [hd, saveAccount]
    · simp [hd, saveAccount]

/-- Two well-formed stores agree on the roots both know. -/
theorem view_congr {env : Env H} (hg : env.Good) {w w' : World H} (hw : WF env w) (hw' : WF env w')
    {a : H160} (ha : get w'.accounts a = get w.accounts a)
    (hdb : ∀ h, (∃ m, get w.db h = some m) → ∃ m, get w'.db h = some m)
    (hcodes : ∀ h, (∃ c, get w.codes h = some c) → ∃ c, get w'.codes h = some c) :
    view env w' a = view env w a := by
  cases hacc : get w.accounts a with
  | none =>
    rw [hacc] at ha
    refine View.ext' ?_ ?_ ?_ (fun k => ?_) <;>
      simp [view, basic, code, slot, storage, ha, hacc]
  | some acc =>
    rw [hacc] at ha
    refine View.ext' ?_ ?_ ?_ (fun k => ?_)
    · simp [view, basic, ha, hacc]
    · simp [view, basic, ha, hacc]
    · simp only [view, code, ha, hacc]
      split
      · rfl
      · rename_i hn
        obtain ⟨c, hc⟩ := hw.hash a acc hacc hn
        obtain ⟨c', hc'⟩ := hcodes _ ⟨c, hc⟩
        have h1 := hw.codes _ _ hc
        have h2 := hw'.codes _ _ hc'
        rw [hc, hc', hg.digest_inj c' c (h2.trans h1.symm)]
    · simp only [view]
      by_cases hn : acc.storageRoot = env.rlpNull
      · simp [slot, storage, ha, hacc, hn]
      · obtain ⟨m, hm⟩ := hw.root a acc hacc hn
        obtain ⟨m', hm'⟩ := hdb _ ⟨m, hm⟩
        rw [slot_of_db hg hw hacc hm k, slot_of_db hg hw' ha hm' k]
        have h1 := hw.db _ _ hm
        have h2 := hw'.db _ _ hm'
        have := hg.root_inj m' m (h2.trans h1.symm) k
        simp [slotOf, this]

/-- The code hash of an account in a well-formed state is the hash of its code. -/
theorem codeHash_digest {env : Env H} {w : World H} (hw : WF env w) (a : H160) :
    (getAccount env w a).codeHash = env.digest (code env w a) := by
  cases ha : get w.accounts a with
  | none => simp [getAccount, ha, emptyAccount, code, Env.nilData]
  | some acc =>
    simp only [getAccount, ha, Option.getD_some, code]
    split
    · rename_i hn; rw [hn]; rfl
    · rename_i hn
      obtain ⟨c, hc⟩ := hw.hash a acc ha hn
      rw [hc]
      exact (hw.codes _ _ hc).symm

theorem applyOne_spec {env : Env H} (hg : env.Good) {w : World H} (hw : WF env w) (a : H160)
    (b : Basic) (c : Option Bytes) (ws : List (H256 × U256)) (reset : Bool) :
    ∃ w', applyOne env w a b c ws reset = .ok (w', false) ∧ WF env w' ∧
      (∀ x, view env w' x = specChange (view env w) (.modify a b c ws reset) x) ∧
      existsAccount w' a = true ∧
      (∀ x, x ≠ a → get w'.accounts x = get w.accounts x) ∧
      w' = { w with accounts := w'.accounts, db := w'.db, codes := w'.codes } := by
  obtain ⟨m0, hm0, hv0, hs0⟩ := openStorage_ok hg hw a reset
  have heq := applyOne_eq (b := b) (c := c) (ws := ws) hm0
  have hcode : (c.map env.digest).getD (getAccount env w a).codeHash
      = env.digest (c.getD (code env w a)) := by
    cases c with
    | none => simpa using codeHash_digest hw a
    | some code => rfl
  have hne : ¬ (b.balance = U256.zero ∧ b.nonce = U256.zero ∧
      (c.map env.digest).getD (getAccount env w a).codeHash = env.zero) := by
    rw [hcode]; exact fun h => hg.digest_ne_zero _ h.2.2
  rw [decide_eq_false hne] at heq
  have hvm : Vals (ws.foldl writeSlot m0) := vals_foldl hv0 ws
  generalize hW : (_, false) = r at heq
  obtain ⟨w', hb⟩ := r
  simp only [Prod.mk.injEq] at hW
  obtain ⟨hW, rfl⟩ := hW
  have hwf : WF env w' := by
    subst hW
    constructor
    · intro x acc hx hr
      simp only [get_put] at hx ⊢
      by_cases hxa : x = a
      · simp only [hxa, if_true, Option.some.injEq] at hx
        subst hx
        exact ⟨ws.foldl writeSlot m0, by simp⟩
      · simp only [hxa, if_false] at hx
        obtain ⟨m, hm⟩ := hw.root x acc hx hr
        by_cases he : acc.storageRoot = env.rootOf (ws.foldl writeSlot m0)
        · exact ⟨ws.foldl writeSlot m0, by simp [he]⟩
        · exact ⟨m, by simp [he, hm]⟩
    · intro x acc hx hn
      have hold : ∀ h, (∃ c, get w.codes h = some c) → ∃ c', get (match c with
            | some code => if env.digest code ≠ (getAccount env w a).codeHash then
                put w.codes (env.digest code) code else w.codes
            | none => w.codes) h = some c' := by
        intro h hc
        cases c with
        | none => exact hc
        | some code =>
          simp only
          split
          · rw [get_put]; split
            · exact ⟨_, rfl⟩
            · exact hc
          · exact hc
      simp only [get_put] at hx
      by_cases hxa : x = a
      · simp only [hxa, if_true, Option.some.injEq] at hx
        subst hx
        simp only at hn ⊢
        cases c with
        | none =>
          simp only [Option.map_none, Option.getD_none] at hn ⊢
          cases ha : get w.accounts a with
          | none => rw [show getAccount env w a = emptyAccount env by simp [getAccount, ha]] at hn
                    exact absurd rfl hn
          | some acc' =>
            have : getAccount env w a = acc' := by simp [getAccount, ha]
            rw [this] at hn ⊢
            exact hw.hash a acc' ha hn
        | some code =>
          simp only [Option.map_some, Option.getD_some] at hn ⊢
          split
          · exact ⟨code, by simp [get_put]⟩
          · rename_i hd
            have hd := Classical.not_not.1 hd
            rw [hd] at hn ⊢
            cases ha : get w.accounts a with
            | none => rw [show getAccount env w a = emptyAccount env by simp [getAccount, ha]] at hn
                      exact absurd rfl hn
            | some acc' =>
              have : getAccount env w a = acc' := by simp [getAccount, ha]
              rw [this] at hn ⊢
              exact hw.hash a acc' ha hn
      · simp only [hxa, if_false] at hx
        exact hold _ (hw.hash x acc hx hn)
    · intro h m hm
      simp only [get_put] at hm
      split at hm
      · rename_i he; rw [← Option.some.inj hm, he]
      · exact hw.db h m hm
    · intro h m k v hm
      simp only [get_put] at hm
      split at hm
      · rw [← Option.some.inj hm]; exact hvm k v
      · exact hw.vals h m k v hm
    · intro h c' hc'
      cases c with
      | none => exact hw.codes h c' hc'
      | some code =>
        simp only at hc'
        split at hc'
        · rw [get_put] at hc'
          split at hc'
          · rename_i he; rw [← Option.some.inj hc', he]
          · exact hw.codes h c' hc'
        · exact hw.codes h c' hc'
  refine ⟨w', heq, hwf, ?_, ?_, ?_, ?_⟩
  · intro x
    by_cases hx : x = a
    · subst hx
      have hacc : get w'.accounts x = some
          { nonce := b.nonce, balance := b.balance,
            storageRoot := env.rootOf (ws.foldl writeSlot m0),
            codeHash := (c.map env.digest).getD (getAccount env w x).codeHash } := by
        subst hW; simp [get_put]
      have hdb : get w'.db (env.rootOf (ws.foldl writeSlot m0)) = some (ws.foldl writeSlot m0) := by
        subst hW; simp [get_put]
      simp only [specChange, if_true]
      refine View.ext' ?_ ?_ ?_ (fun k => ?_)
      · simp [view, basic, hacc]
      · simp [view, basic, hacc]
      · have h1 := codeHash_digest hwf x
        have h2 : (getAccount env w' x).codeHash
            = (c.map env.digest).getD (getAccount env w x).codeHash := by
          simp [getAccount, hacc]
        rw [h2, hcode] at h1
        exact (hg.digest_inj _ _ h1).symm
      · have h1 := slot_of_db hg hwf hacc hdb k
        show slot env w' x k = specSlots (slot env w x) ws reset k
        rw [h1, slotOf_foldl]
        unfold specSlots
        split
        · rfl
        · simpa using hs0 k
    · simp only [specChange, hx, if_false]
      refine view_congr hg hw hwf ?_ ?_ ?_
      · subst hW; simp [get_put, hx]
      · rintro h ⟨m, hm⟩
        subst hW
        simp only [get_put]
        split
        · exact ⟨_, rfl⟩
        · exact ⟨m, hm⟩
      · rintro h ⟨c', hc'⟩
        subst hW
        cases c with
        | none => exact ⟨c', hc'⟩
        | some code =>
          simp only
          split
          · rw [get_put]; split
            · exact ⟨_, rfl⟩
            · exact ⟨c', hc'⟩
          · exact ⟨c', hc'⟩
  · subst hW; simp [existsAccount, get_put]
  · intro x hx
    subst hW; simp [get_put, hx]
  · subst hW; rfl

theorem applyChange_spec {env : Env H} (hg : env.Good) (de : Bool) {w : World H} (hw : WF env w)
    (ch : Change) :
    ∃ w', applyChange env de w ch = .ok w' ∧ WF env w' ∧
      view env w' = specChange (view env w) ch ∧
      w' = { w with accounts := w'.accounts, db := w'.db, codes := w'.codes } := by
  cases ch with
  | modify a b c ws reset =>
    obtain ⟨w', h, hwf, hv, _, _, hrest⟩ := applyOne_spec hg hw a b c ws reset
    exact ⟨w', by simp [applyChange, h, Outcome.bind], hwf, funext hv, hrest⟩
  | delete a =>
    have hwf : WF env { w with accounts := del w.accounts a } := by
      constructor
      · intro x acc hx hr
        simp only [get_del] at hx
        split at hx
        · cases hx
        · exact hw.root x acc hx hr
      · intro x acc hx hr
        simp only [get_del] at hx
        split at hx
        · cases hx
        · exact hw.hash x acc hx hr
      · exact hw.db
      · exact hw.vals
      · exact hw.codes
    refine ⟨_, rfl, hwf, ?_, rfl⟩
    funext x
    by_cases hx : x = a
    · simp only [specChange, hx, if_true]
      refine View.ext' ?_ ?_ ?_ (fun k => ?_) <;>
        simp [view, basic, code, slot, storage, get_del, emptyView]
    · simp only [specChange, hx, if_false]
      exact view_congr hg hw hwf (by simp [get_del, hx]) (fun _ h => h) (fun _ h => h)

theorem applyChanges_spec {env : Env H} (hg : env.Good) (de : Bool) (cs : List Change)
    {w : World H} (hw : WF env w) :
    ∃ w', applyChanges env de cs w = .ok w' ∧ WF env w' ∧
      view env w' = cs.foldl specChange (view env w) ∧
      w' = { w with accounts := w'.accounts, db := w'.db, codes := w'.codes } := by
  induction cs generalizing w with
  | nil => exact ⟨w, rfl, hw, rfl, rfl⟩
  | cons ch cs ih =>
    obtain ⟨w1, h1, hw1, hv1, hr1⟩ := applyChange_spec hg de hw ch
    obtain ⟨w2, h2, hw2, hv2, hr2⟩ := ih hw1
    refine ⟨w2, by simp [applyChanges, h1, Outcome.bind, h2], hw2, ?_, ?_⟩
    · rw [hv2, hv1]; rfl
    · rw [hr2, hr1]

theorem wf_logs {env : Env H} {w : World H} (hw : WF env w) (l : List Log) :
    WF env { w with logs := l } :=
  ⟨hw.root, hw.hash, hw.db, hw.vals, hw.codes⟩

theorem apply_spec {env : Env H} (hg : env.Good) (de : Bool) (cs : List Change) (logs : List Log)
    {w : World H} (hw : WF env w) :
    ∃ w', apply env w cs logs de = .ok w' ∧ WF env w' ∧
      view env w' = cs.foldl specChange (view env w) ∧
      w' = { w with accounts := w'.accounts, db := w'.db, codes := w'.codes, logs := logs } := by
  obtain ⟨w1, h1, hw1, hv1, hr1⟩ := applyChanges_spec hg de cs hw
  refine ⟨{ w1 with logs := logs }, by simp [apply, h1, Outcome.bind], wf_logs hw1 logs, ?_, ?_⟩
  · rw [← hv1]; rfl
  · rw [hr1]

end Axon.Exec
