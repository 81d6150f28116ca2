import Verif.Executor.WorldDb

/-!
# C128: every committed state can be opened again by its root and reads as it was
-/

namespace Axon.WorldDb
open Axon.Rlp Axon.Assoc Axon.Exec
open Axon.Trie (Node)

variable {H : Bytes → H256}

/-- Everything the adapter answers about an address and a slot is what the specification says. -/
structure Reads (H : Bytes → H256) (w : World) (σ : Spec) (a : H160) (k : H256) : Prop where
  exist : existsAccount H w a = (σ a).isSome
  basic : basic H w a = ⟨((σ a).getD emptyView).balance, ((σ a).getD emptyView).nonce⟩
  code : code H w a = .ok ((σ a).getD emptyView).code
  storage : storage H w a k = .ok (((σ a).getD emptyView).slot k)
  account : ∃ root, getAccount H w a =
    .ok ⟨((σ a).getD emptyView).nonce, ((σ a).getD emptyView).balance, root, H ((σ a).getD emptyView).code⟩

theorem reads_rep {U : List Bytes} (fn : Fine H U) {w : World} {σ : Spec} (hn : ∀ b ∈ w.nodes, b ∈ U)
    (h : Rep H U w.nodes w.codes w.trie σ) {a : H160} {k : H256} (ha : a.bytes ∈ U) (hk : k.bytes ∈ U) :
    Reads H w σ a k := by
  cases hs : σ a with
  | none =>
    have hf : find H w a = none := h.absent a ha hs
    refine ⟨?_, ?_, ?_, ?_, ?_⟩
    · simp [existsAccount, hf, hs]
    · simp [basic, hf, hs, emptyView]
    · simp [code, hf, hs, emptyView]
    · simp [storage, hf, hs, emptyView]
    · exact ⟨rlpNull H, by simp [getAccount, hf, hs, emptyAcc, emptyView, nilData]⟩
  | some v =>
    obtain ⟨raw, hf, s, rfl, h2, h3, h4, h5⟩ := h.present a v ha hs
    have hf : find H w a = some (encAcc ⟨v.nonce, v.balance, rootOf H s, H v.code⟩) := hf
    refine ⟨?_, ?_, ?_, ?_, ?_⟩
    · simp [existsAccount, hf, hs]
    · simp [basic, hf, hs, decAcc_encAcc]
    · unfold code
      rw [hf]
      simp only [decAcc_encAcc, hs, Option.getD_some]
      show Outcome.ok (if H v.code = H [] then [] else (get w.codes (H v.code)).getD []) = .ok v.code
      congr 1
      by_cases e : H v.code = H []
      · rw [if_pos e]
        exact (fn.free _ h4 _ fn.nil e).symm
      · rw [if_neg e]
        rcases h5 with h5 | h5
        · rw [h5] at e; exact absurd rfl e
        · rw [h5]; rfl
    · unfold storage
      rw [hf]
      simp only [decAcc_encAcc, hs, Option.getD_some]
      have hv := h2.vals k hk
      split
      · rename_i e
        rw [(rootOf_null fn.free h2.keyed h3.pieces fn.null).1 e] at hv
        have hz : v.slot k = U256.zero := by
          by_cases hz : v.slot k = U256.zero
          · exact hz
          · rw [if_neg hz] at hv
            simp [Trie.mptGet, Trie.get] at hv
        rw [hz]
      · rename_i e
        rcases h3.stored with he | hst
        · exact absurd ((rootOf_null fn.free h2.keyed h3.pieces fn.null).2 he) e
        · rw [openTrie_root fn.free h2.keyed hn h3.pieces hst]
          simp only [hv]
          by_cases hz : v.slot k = U256.zero
          · simp [hz]
          · simp [hz, decVal_encVal, Outcome.orPanic]
    · exact ⟨rootOf H s, by simp [getAccount, hf, hs, decAcc_encAcc, Outcome.orPanic]⟩

/-- The strings hashed in a run, with the two constants and what is asked afterwards. -/
def touched (H : Bytes → H256) (ops : List Op) (a : H160) (k : H256) : List Bytes :=
  [] :: [0x80] :: a.bytes :: k.bytes :: hashedRun H ops .init

/-- Whatever is written, committed and reopened: no operation fails, and every read gives what the plain
specification gives. -/
theorem C128_reads (ops : List Op) (a : H160) (k : H256) (fn : Fine H (touched H ops a k)) :
    ∃ w, run H ops .init = .ok w ∧ Reads H w (specRun ops .init).cur a k := by
  obtain ⟨w, h1, h2⟩ := run_inv fn ops .init .init inv_init fun b hb' => by simp [touched, hb']
  exact ⟨w, h1, reads_rep fn h2.nodes h2.cur (by simp [touched]) (by simp [touched])⟩

theorem run_append (xs ys : List Op) : ∀ w, run H (xs ++ ys) w = (run H xs w).bind (run H ys) := by
  induction xs with
  | nil => intro w; rfl
  | cons o xs ih =>
    intro w
    simp only [List.cons_append, run]
    cases step H w o with
    | ok v => simp only [Outcome.bind]; exact ih v
    | err => rfl
    | panic => rfl

/-- The world after a commit. -/
def flushed (H : Bytes → H256) (w : World) : World :=
  ⟨w.trie, Trie.stored (hb H) w.trie ++ w.nodes, w.codes, w.roots ++ [rootOf H w.trie]⟩

theorem step_roots {w w' : World} (o : Op) (h : step H w o = .ok w') : ∃ l, w'.roots = w.roots ++ l := by
  cases o with
  | change ch de =>
    cases ch with
    | modify a b c ws reset =>
      refine ⟨[], ?_⟩
      simp only [step, applyOne] at h
      cases h1 : getAccount H w a <;> simp only [h1, Outcome.bind] at h
      · cases h2 : storageAfter H w a ws reset <;> simp only [h2] at h
        · cases h
          split <;> simp
        · cases h
        · cases h
      · cases h
      · cases h
    | delete a => cases h; exact ⟨[], by simp⟩
  | save a n b =>
    simp only [step] at h
    cases h1 : getAccount H w a <;> simp only [h1, Outcome.bind] at h
    · cases h; exact ⟨[], by simp⟩
    · cases h
    · cases h
  | commit => cases h; exact ⟨_, rfl⟩
  | reopen i =>
    simp only [step] at h
    split at h
    · cases h; exact ⟨[], by simp⟩
    · rename_i r _
      cases h1 : openTrie H w.nodes r <;> simp only [h1, Outcome.bind] at h
      · cases h; exact ⟨[], by simp⟩
      · cases h
      · cases h

theorem run_roots : ∀ (ops : List Op) {w w' : World}, run H ops w = .ok w' → ∃ l, w'.roots = w.roots ++ l
  | [], w, w', h => by cases h; exact ⟨[], by simp⟩
  | o :: ops, w, w', h => by
    simp only [run] at h
    cases h1 : step H w o with
    | ok v =>
      simp only [h1, Outcome.bind] at h
      obtain ⟨l, e1⟩ := step_roots o h1
      obtain ⟨m, e2⟩ := run_roots ops h
      exact ⟨l ++ m, by rw [e2, e1, List.append_assoc]⟩
    | err => simp only [h1, Outcome.bind] at h; cases h
    | panic => simp only [h1, Outcome.bind] at h; cases h

theorem specRun_saved : ∀ (ops : List Op) (s : SState), ∃ l, (specRun ops s).saved = s.saved ++ l
  | [], s => ⟨[], by simp [specRun]⟩
  | o :: ops, s => by
    obtain ⟨m, e⟩ := specRun_saved ops (specStep s o)
    have : ∃ l, (specStep s o).saved = s.saved ++ l := by
      cases o with
      | change ch de => cases ch <;> exact ⟨[], by simp [specStep]⟩
      | save => exact ⟨[], by simp [specStep]⟩
      | commit => exact ⟨_, rfl⟩
      | reopen => exact ⟨[], by simp [specStep]⟩
    obtain ⟨l, e'⟩ := this
    exact ⟨l ++ m, by
      show (specRun ops (specStep s o)).saved = _
      rw [e, e', List.append_assoc]⟩

theorem specRun_append (xs ys : List Op) (s : SState) : specRun (xs ++ ys) s = specRun ys (specRun xs s) :=
  List.foldl_append

/-- The root a commit returns opens, whatever happens afterwards, the state that was committed. -/
theorem C128_reopen (pre post : List Op) (a : H160) (k : H256)
    (fn : Fine H (touched H (pre ++ .commit :: post) a k)) :
    ∃ w₁ w₂ r t, run H (pre ++ [.commit]) .init = .ok w₁ ∧ w₁.roots.getLast? = some r ∧
      run H post w₁ = .ok w₂ ∧ openTrie H w₂.nodes r = .ok t ∧
      Reads H { w₂ with trie := t } (specRun pre .init).cur a k := by
  obtain ⟨w, h1, h2⟩ := run_inv fn (pre ++ .commit :: post) .init .init inv_init
    fun b hb' => by simp [touched, hb']
  rw [run_append] at h1
  cases e0 : run H pre World.init with
  | err => rw [e0] at h1; cases h1
  | panic => rw [e0] at h1; cases h1
  | ok w₀ =>
    rw [e0] at h1
    have h1' : run H post (flushed H w₀) = .ok w := h1
    obtain ⟨l, hl⟩ := run_roots post h1'
    have hl : w.roots = w₀.roots ++ [rootOf H w₀.trie] ++ l := hl
    obtain ⟨m, hm⟩ := specRun_saved post (specStep (specRun pre .init) .commit)
    have hs : (specRun (pre ++ .commit :: post) .init).saved =
        (specRun pre .init).saved ++ [(specRun pre .init).cur] ++ m := by
      rw [specRun_append]; exact hm
    -- the number of commits before is the same on both sides
    have hlen : w₀.roots.length = (specRun pre .init).saved.length := by
      have hfn : ∀ b ∈ hashedRun H pre World.init, b ∈ touched H (pre ++ .commit :: post) a k := by
        intro b hb'
        have : ∀ (xs ys : List Op) (w : World) (b : Bytes), b ∈ hashedRun H xs w → b ∈ hashedRun H (xs ++ ys) w := by
          intro xs ys
          induction xs with
          | nil => intro w b h; cases h
          | cons o xs ih =>
            intro w b h
            simp only [List.cons_append, hashedRun, List.mem_append] at h ⊢
            rcases h with h | h
            · exact .inl h
            · refine .inr ?_
              cases e : step H w o with
              | ok v => rw [e] at h; exact ih v b h
              | err => rw [e] at h; cases h
              | panic => rw [e] at h; cases h
        simp [touched, this pre (.commit :: post) .init b hb']
      obtain ⟨w', e1, e2⟩ := run_inv fn pre .init .init inv_init hfn
      rw [e0] at e1
      cases e1
      exact e2.len
    obtain ⟨t, x1, x2, x3, x4⟩ := h2.saved w₀.roots.length (rootOf H w₀.trie) (specRun pre .init).cur
      (by rw [hl]; simp) (by rw [hs, hlen]; simp)
    refine ⟨flushed H w₀, w, rootOf H w₀.trie, t, by rw [run_append, e0]; rfl, by simp [flushed], h1', ?_, ?_⟩
    · rw [x1]
      exact openTrie_root fn.free x2.keyed h2.nodes x3 x4
    · exact reads_rep fn (w := { w with trie := t }) h2.nodes x2 (by simp [touched]) (by simp [touched])

/-! ## Roots tell states apart -/

/-- Only addresses and slots in `U` differ from the empty state. -/
def Supp (U : List Bytes) (σ : Spec) : Prop :=
  ∀ a v, σ a = some v → a.bytes ∈ U ∧ ∀ k, v.slot k ≠ U256.zero → k.bytes ∈ U

theorem Supp.set {U : List Bytes} {σ : Spec} (h : Supp U σ) {a : H160} {v : View} (ha : a.bytes ∈ U)
    (hv : ∀ k, v.slot k ≠ U256.zero → k.bytes ∈ U) : Supp U (σ.set a (some v)) := by
  intro x w hx
  unfold Spec.set at hx
  split at hx
  · rename_i e
    cases hx
    rw [e]
    exact ⟨ha, hv⟩
  · exact h x w hx

theorem Supp.old {U : List Bytes} {σ : Spec} (h : Supp U σ) (a : H160) :
    ∀ k, ((σ a).getD emptyView).slot k ≠ U256.zero → k.bytes ∈ U := by
  intro k hk
  cases hs : σ a with
  | none => rw [hs] at hk; exact absurd rfl hk
  | some v => rw [hs] at hk; exact (h a v hs).2 k hk

theorem supp_step {U : List Bytes} {w : World} {s : SState} (o : Op) (hh : ∀ b ∈ hashed H w o, b ∈ U)
    (hc : Supp U s.cur) (hs : ∀ σ ∈ s.saved, Supp U σ) :
    Supp U (specStep s o).cur ∧ ∀ σ ∈ (specStep s o).saved, Supp U σ := by
  cases o with
  | change ch de =>
    cases ch with
    | modify a b c ws reset =>
      refine ⟨hc.set (hh _ (by simp [hashed])) ?_, hs⟩
      intro k hk
      simp only [specSlots] at hk
      split at hk
      · rename_i kv hf
        have hm := List.mem_of_find?_eq_some hf
        have he := List.find?_some hf
        simp only [decide_eq_true_eq] at he
        refine hh _ ?_
        simp only [hashed, List.cons_append, List.mem_cons, List.mem_append, List.mem_map]
        exact .inr (.inl (.inr ⟨kv, by simpa using hm, by rw [he]⟩))
      · cases reset with
        | true => exact absurd rfl hk
        | false => exact hc.old a k hk
    | delete a =>
      refine ⟨fun x v hx => ?_, hs⟩
      simp only [specStep, Spec.set] at hx
      split at hx
      · cases hx
      · exact hc x v hx
  | save a n b => exact ⟨hc.set (hh _ (by simp [hashed])) (hc.old a), hs⟩
  | commit =>
    refine ⟨hc, fun σ hσ => ?_⟩
    simp only [specStep, List.mem_append, List.mem_singleton] at hσ
    rcases hσ with hσ | rfl
    · exact hs σ hσ
    · exact hc
  | reopen i =>
    refine ⟨?_, hs⟩
    simp only [specStep]
    cases e : s.saved[i]? with
    | none => exact hc
    | some σ => exact hs σ (List.mem_of_getElem? e)

theorem supp_run {U : List Bytes} (fn : Fine H U) : ∀ (ops : List Op) (w : World) (s : SState), Inv H U w s →
    (∀ b ∈ hashedRun H ops w, b ∈ U) → Supp U s.cur → (∀ σ ∈ s.saved, Supp U σ) →
    Supp U (specRun ops s).cur := by
  intro ops
  induction ops with
  | nil => intro w s _ _ h _; exact h
  | cons o ops ih =>
    intro w s hi hh hc hs
    have h0 : ∀ b ∈ hashed H w o, b ∈ U := fun b hb' => hh b (by simp [hashedRun, hb'])
    obtain ⟨w1, h1, h2⟩ := step_inv fn hi o h0
    have h3 := supp_step o h0 hc hs
    exact ih w1 _ h2 (fun b hb' => hh b (by simp only [hashedRun, h1, List.mem_append]; exact .inr hb'))
      h3.1 h3.2

/-- The same accounts are the same bytes. -/
theorem trie_eq_of_spec {U : List Bytes} {n₁ n₂ : List Bytes} {c₁ c₂ : List (H256 × Bytes)}
    {t₁ t₂ : Node} {σ : Spec} (h₁ : Rep H U n₁ c₁ t₁ σ) (h₂ : Rep H U n₂ c₂ t₂ σ) : t₁ = t₂ := by
  have slots : ∀ {s₁ s₂ : Node} {f : H256 → U256}, Slots H U s₁ f → Slots H U s₂ f → s₁ = s₂ := by
    intro s₁ s₂ f a b
    refine Trie.canon_unique a.keyed.canon b.keyed.canon fun p => ?_
    have hit : ∀ k : H256, k.bytes ∈ U → Trie.get s₁ (Trie.keyPath (hb H k.bytes)) =
        Trie.get s₂ (Trie.keyPath (hb H k.bytes)) := fun k hk => (a.vals k hk).trans (b.vals k hk).symm
    cases e₁ : Trie.get s₁ p with
    | some v =>
      obtain ⟨⟨k, hk, rfl⟩, -⟩ := a.keyed.keys p v e₁
      rw [← e₁, hit k hk]
    | none =>
      cases e₂ : Trie.get s₂ p with
      | none => rfl
      | some v =>
        obtain ⟨⟨k, hk, rfl⟩, -⟩ := b.keyed.keys p v e₂
        rw [← e₁, hit k hk, e₂]
  have hit : ∀ a : H160, a.bytes ∈ U → Trie.get t₁ (Trie.keyPath (hb H a.bytes)) =
      Trie.get t₂ (Trie.keyPath (hb H a.bytes)) := by
    intro a ha
    cases hs : σ a with
    | none => exact (h₁.absent a ha hs).trans (h₂.absent a ha hs).symm
    | some v =>
      obtain ⟨_, a1, s₁, rfl, a2, -⟩ := h₁.present a v ha hs
      obtain ⟨_, b1, s₂, rfl, b2, -⟩ := h₂.present a v ha hs
      have a1 : Trie.get t₁ (Trie.keyPath (hb H a.bytes)) = _ := a1
      have b1 : Trie.get t₂ (Trie.keyPath (hb H a.bytes)) = _ := b1
      rw [a1, b1, slots a2 b2]
  refine Trie.canon_unique h₁.keyed.canon h₂.keyed.canon fun p => ?_
  cases e₁ : Trie.get t₁ p with
  | some v =>
    obtain ⟨⟨k, hk, rfl⟩, -⟩ := h₁.keyed.keys p v e₁
    rw [← e₁, hit k hk]
  | none =>
    cases e₂ : Trie.get t₂ p with
    | none => rfl
    | some v =>
      obtain ⟨⟨k, hk, rfl⟩, -⟩ := h₂.keyed.keys p v e₂
      rw [← e₁, hit k hk, e₂]

/-- The same bytes are the same accounts. -/
theorem spec_eq_of_trie {U : List Bytes} (fn : Fine H U) {n₁ n₂ : List Bytes} {c₁ c₂ : List (H256 × Bytes)}
    {t : Node} {σ τ : Spec} (h₁ : Rep H U n₁ c₁ t σ) (h₂ : Rep H U n₂ c₂ t τ) (s₁ : Supp U σ) (s₂ : Supp U τ) :
    σ = τ := by
  funext a
  by_cases ha : a.bytes ∈ U
  · cases hs : σ a with
    | none =>
      cases ht : τ a with
      | none => rfl
      | some v =>
        obtain ⟨_, b1, -⟩ := h₂.present a v ha ht
        rw [h₁.absent a ha hs] at b1
        cases b1
    | some u =>
      obtain ⟨_, a1, x, rfl, a2, a3, a4, -⟩ := h₁.present a u ha hs
      cases ht : τ a with
      | none => rw [h₂.absent a ha ht] at a1; cases a1
      | some v =>
        obtain ⟨_, b1, y, rfl, b2, b3, b4, -⟩ := h₂.present a v ha ht
        rw [a1] at b1
        have e := encAcc_inj (Option.some.inj b1)
        simp only [Account.mk.injEq] at e
        obtain ⟨e1, e2, e3, e4⟩ := e
        have exy := rootOf_inj fn.free a2.keyed b2.keyed a3.pieces b3.pieces e3
        subst exy
        congr 1
        refine View.ext' e1 e2 (fn.free _ a4 _ b4 e4) fun k => ?_
        by_cases hk : k.bytes ∈ U
        · have := (a2.vals k hk).symm.trans (b2.vals k hk)
          by_cases z1 : u.slot k = U256.zero <;> by_cases z2 : v.slot k = U256.zero
          · rw [z1, z2]
          · simp [z1, z2] at this
          · simp [z1, z2] at this
          · simp only [z1, z2, if_false, Option.some.injEq] at this
            have := congrArg decVal this
            rw [decVal_encVal, decVal_encVal] at this
            exact Option.some.inj this
        · have z1 : u.slot k = U256.zero := Classical.byContradiction fun h => hk ((s₁ a u hs).2 k h)
          have z2 : v.slot k = U256.zero := Classical.byContradiction fun h => hk ((s₂ a v ht).2 k h)
          rw [z1, z2]
  · have z1 : σ a = none := by
      cases e : σ a with
      | none => rfl
      | some v => exact absurd (s₁ a v e).1 ha
    have z2 : τ a = none := by
      cases e : τ a with
      | none => rfl
      | some v => exact absurd (s₂ a v e).1 ha
    rw [z1, z2]

/-- Two nodes that commit get the same root exactly if the accounts, balances, nonces, codes and slots they have
are the same, however differently they came about. -/
theorem C128_same (ops₁ ops₂ : List Op) (fn : Fine H ([] :: [0x80] ::
      (hashedRun H (ops₁ ++ [.commit]) .init ++ hashedRun H (ops₂ ++ [.commit]) .init))) :
    ∃ w₁ w₂ r₁ r₂, run H (ops₁ ++ [.commit]) .init = .ok w₁ ∧ run H (ops₂ ++ [.commit]) .init = .ok w₂ ∧
      w₁.roots.getLast? = some r₁ ∧ w₂.roots.getLast? = some r₂ ∧
      (r₁ = r₂ ↔ (specRun ops₁ .init).cur = (specRun ops₂ .init).cur) := by
  generalize hU : ([] :: [0x80] :: (hashedRun H (ops₁ ++ [.commit]) .init ++
    hashedRun H (ops₂ ++ [.commit]) .init)) = U at fn
  have side : ∀ ops : List Op, (∀ b ∈ hashedRun H (ops ++ [.commit]) World.init, b ∈ U) →
      ∃ w, run H (ops ++ [.commit]) .init = .ok w ∧ w.roots.getLast? = some (rootOf H w.trie) ∧
        Rep H U w.nodes w.codes w.trie (specRun ops .init).cur ∧ (∀ b ∈ Trie.pieces (hb H) w.trie, b ∈ U) ∧
        Supp U (specRun ops .init).cur := by
    intro ops hh
    obtain ⟨w, h1, h2⟩ := run_inv fn _ .init .init inv_init hh
    have h3 := supp_run fn _ .init .init inv_init hh (fun a v h => by cases h) (fun σ h => by cases h)
    have hcur : (specRun (ops ++ [.commit]) .init).cur = (specRun ops .init).cur := by
      rw [specRun_append]; rfl
    rw [hcur] at h3
    have h4 := h2.cur
    rw [hcur] at h4
    rw [run_append] at h1
    cases e0 : run H ops World.init with
    | err => rw [e0] at h1; cases h1
    | panic => rw [e0] at h1; cases h1
    | ok w₀ =>
      rw [e0] at h1
      have h1' : Outcome.ok (flushed H w₀) = .ok w := h1
      cases h1'
      refine ⟨_, by rw [run_append, e0]; rfl, by simp [flushed], h4, ?_, h3⟩
      intro b hb'
      refine hh b ?_
      have : ∀ (xs : List Op) (w : World), run H xs w = .ok w₀ →
          b ∈ hashedRun H (xs ++ [.commit]) w := by
        intro xs
        induction xs with
        | nil =>
          intro w h
          cases h
          simp only [List.nil_append, hashedRun, hashed, List.mem_append]
          exact .inl hb'
        | cons o xs ih =>
          intro w h
          simp only [run] at h
          simp only [List.cons_append, hashedRun, List.mem_append]
          cases e : step H w o with
          | ok v => rw [e] at h; exact .inr (ih v h)
          | err => rw [e] at h; cases h
          | panic => rw [e] at h; cases h
      exact this ops .init e0
  obtain ⟨w₁, a1, a2, a3, a4, a5⟩ := side ops₁ fun b hb' => by rw [← hU]; simp [hb']
  obtain ⟨w₂, b1, b2, b3, b4, b5⟩ := side ops₂ fun b hb' => by rw [← hU]; simp [hb']
  refine ⟨w₁, w₂, _, _, a1, b1, a2, b2, ?_, ?_⟩
  · intro e
    have ht := rootOf_inj fn.free a3.keyed b3.keyed a4 b4 e
    rw [← ht] at b3
    exact spec_eq_of_trie fn a3 b3 a5 b5
  · intro e
    rw [← e] at b3
    rw [trie_eq_of_spec a3 b3]

/-! ## A case -/

/-- A hash for the examples: the number the bytes make, with a one in front, modulo a prime. -/
def toy (b : Bytes) : H256 := ⟨beFixed 32 (beNat (1 :: b) % (2 ^ 256 - 189)), by simp⟩

def alice : H160 := ⟨beFixed 20 0xA11CE, by simp⟩
def bob : H160 := ⟨beFixed 20 0xB0B, by simp⟩
def slot7 : H256 := ⟨beFixed 32 7, by simp⟩
def slot9 : H256 := ⟨beFixed 32 9, by simp⟩
def u (n : Nat) (h : n < 2 ^ 256 := by decide) : U256 := ⟨n, h⟩

/-- A contract with two slots is committed, changed, and its old state opened again. -/
def before : List Op :=
  [.change (.modify alice ⟨u 1000, u 1⟩ (some [0x60, 0x01, 0x60, 0x02]) [(slot7, u 70), (slot9, u 90)] false) true,
   .save bob (u 3) (u 500)]
def after : List Op :=
  [.change (.modify alice ⟨u 900, u 2⟩ none [(slot7, u 0), (slot9, u 91)] false) true,
   .change (.delete bob) true, .commit, .reopen 0]

/-- The same state in another way. -/
def other : List Op :=
  [.save bob (u 3) (u 1), .change (.modify bob ⟨u 500, u 3⟩ none [(slot7, u 1)] false) false, .commit,
   .change (.modify bob ⟨u 500, u 3⟩ none [(slot7, u 0)] false) false,
   .change (.modify alice ⟨u 1, u 1⟩ (some [0x60]) [(slot9, u 1)] false) true,
   .change (.modify alice ⟨u 1000, u 1⟩ (some [0x60, 0x01, 0x60, 0x02]) [(slot9, u 90), (slot7, u 70)] true) true]

instance (H : Bytes → H256) (U : List Bytes) : Decidable (Free H U) := by unfold Free; infer_instance

theorem fine_of {H : Bytes → H256} {U : List Bytes} (h : decide (Free H U) && U.contains [] && U.contains [0x80] &&
    U.all fun b => decide ((H b).bytes ≠ List.replicate 32 0)) : Fine H U := by
  simp only [Bool.and_eq_true, decide_eq_true_eq, List.contains_iff_mem, List.all_eq_true] at h
  exact ⟨h.1.1.1, h.1.1.2, h.1.2, h.2⟩

example : Fine toy (touched toy (before ++ .commit :: after) alice slot7) := fine_of (by decide +kernel)

/-- The hypotheses of `C128_reopen`, and what it gives: 70 in slot 7 of the state opened again. -/
example : ∃ (w₂ : World) (r : H256) (t : Node), openTrie toy w₂.nodes r = .ok t ∧
    storage toy { w₂ with trie := t } alice slot7 = .ok (u 70) := by
  obtain ⟨_, w₂, r, t, -, -, -, h4, h5⟩ := C128_reopen (H := toy) before after alice slot7
    (fine_of (by decide +kernel))
  exact ⟨w₂, r, t, h4, h5.storage⟩

/-- After the change slot 7 reads zero. -/
example : ∃ w, run toy (before ++ .commit :: after.take 3) .init = .ok w ∧ storage toy w alice slot7 = .ok (u 0) ∧
    existsAccount toy w bob = false := by
  obtain ⟨w, h1, h2⟩ := C128_reads (H := toy) (before ++ .commit :: after.take 3) alice slot7
    (fine_of (by decide +kernel))
  obtain ⟨w', h1', h2'⟩ := C128_reads (H := toy) (before ++ .commit :: after.take 3) bob slot7
    (fine_of (by decide +kernel))
  rw [h1] at h1'
  cases h1'
  exact ⟨w, h1, h2.storage, h2'.exist⟩

/-- Two ways to the same state, one root. -/
example : ∃ w₁ w₂ r, run toy (before ++ [.commit]) .init = .ok w₁ ∧ run toy (other ++ [.commit]) .init = .ok w₂ ∧
    w₁.roots.getLast? = some r ∧ w₂.roots.getLast? = some r := by
  obtain ⟨w₁, w₂, r₁, r₂, h1, h2, h3, h4, h5⟩ := C128_same (H := toy) before other (fine_of (by decide +kernel))
  have : r₁ = r₂ := h5.2 (by
    funext x
    have hab : alice ≠ bob := by decide +kernel
    have hk : slot7 ≠ slot9 := by decide +kernel
    simp only [specRun, before, other, List.foldl, specStep, SState.init, Spec.set]
    by_cases e1 : x = bob
    · simp only [e1, hab.symm, if_true, if_false, Option.some.injEq, Option.getD_some]
      refine View.ext' rfl rfl rfl fun k => ?_
      simp only [specSlots, List.reverse_cons, List.reverse_nil, List.nil_append, List.find?_cons, List.find?_nil]
      by_cases e2 : slot7 = k <;> simp [e2, emptyView, u, hab, hab.symm, U256.zero]
    · by_cases e2 : x = alice
      · simp only [e2, hab, hab.symm, if_true, if_false, Option.some.injEq, Option.getD_some]
        refine View.ext' rfl rfl rfl fun k => ?_
        simp only [specSlots, List.reverse_cons, List.reverse_nil, List.nil_append, List.cons_append,
          List.find?_cons, List.find?_nil]
        by_cases e3 : slot7 = k
        · subst e3; simp [hk, hk.symm]
        · by_cases e4 : slot9 = k <;> simp [e3, e4, emptyView]
      · simp [e1, e2])
  exact ⟨w₁, w₂, r₁, h1, h2, h3, by rw [h4, this]⟩

end Axon.WorldDb
