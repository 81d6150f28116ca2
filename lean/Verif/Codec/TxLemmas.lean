import Verif.Codec.Tx

/-! Helper lemmas for the transaction codec theorems. -/

namespace Axon.Tx
open Axon.Rlp

@[simp] theorem itemAction_actionItem (a : Action) : itemAction (actionItem a) = some a := by
  cases a with
  | create => rfl
  | call x =>
    have h := x.len
    unfold actionItem ofFixed itemAction
    split
    · rename_i heq; simp at heq; rw [heq] at h; simp at h
    · rename_i heq; simp at heq; subst heq; simp
    · simp_all

@[simp] theorem itemAccess_accessItem (a : AccessItem) : itemAccess (accessItem a) = some a := by
  simp [itemAccess, accessItem, toList_map]

theorem beNat_take32 {b : Bytes} (h : b.length = 32) : (u256OfSlice b).val = beNat b := by
  simp only [u256OfSlice]
  rw [List.take_of_length_le (by omega)]

theorem u256Bytes_ofSlice {b : Bytes} (h : b.length = 32) : u256Bytes (u256OfSlice b) = b := by
  unfold u256Bytes
  rw [beNat_take32 h, ← h, beFixed_beNat]

theorem itemSize_ofUint256 (x : U256) : itemSize (ofUint x) ≤ 32 := by
  simp only [itemSize, ofUint]
  apply beBytes_length_le
  have := x.lt
  have h3 : (256 : Nat) ^ 32 = 2 ^ 256 := by decide
  omega

/-- Signatures the codec can represent: Ethereum signatures with 32-byte halves and
interoperation signatures of more than 64 bytes. -/
def Sig.Wf (sg : Sig) : Prop :=
  (sg.r.length = 32 ∧ sg.s.length = 32) ∨ 64 < sg.r.length + sg.s.length

theorem decodeSig_sigRS (sg : Sig) (h : sg.Wf) :
    ∃ ri si, sigRS sg = [ri, si] ∧ decodeSig sg.standardV ri si = some sg := by
  unfold sigRS
  rcases h with ⟨hr, hs⟩ | h
  · have : sg.isEth = true := by simp [Sig.isEth, hr, hs]
    rw [if_pos this]
    refine ⟨_, _, rfl, ?_⟩
    have h1 := itemSize_ofUint256 (u256OfSlice sg.r)
    have h2 := itemSize_ofUint256 (u256OfSlice sg.s)
    unfold decodeSig
    rw [if_pos (by omega)]
    simp [u256Bytes_ofSlice hr, u256Bytes_ofSlice hs]
  · have : sg.isEth = false := by simp [Sig.isEth]; omega
    rw [this, if_neg (by simp)]
    refine ⟨_, _, rfl, ?_⟩
    unfold decodeSig
    rw [if_neg (by simp only [itemSize]; omega)]
    simp

theorem addReplay_extract {v : U8} {c : Option U64} {x : U64} (hv : v.val ≤ 1)
    (h : addReplay v c = some x) : extractStandardV x = some v ∧ extractChainId x = c := by
  cases c with
  | none =>
    simp only [addReplay, UIntN.ofNat?] at h
    split at h <;> simp at h
    subst h
    have : v.val = 0 ∨ v.val = 1 := by omega
    rcases this with h0 | h0
    · refine ⟨?_, ?_⟩
      · simp [extractStandardV, h0]; exact UIntN.ext' h0.symm
      · simp [extractChainId, h0]
    · refine ⟨?_, ?_⟩
      · simp [extractStandardV, h0]; exact UIntN.ext' h0.symm
      · simp [extractChainId, h0]
  | some i =>
    simp only [addReplay, UIntN.ofNat?] at h
    split at h <;> simp at h
    subst h
    refine ⟨?_, ?_⟩
    · unfold extractStandardV
      rw [if_neg (by simp only []; omega), if_neg (by simp only []; omega),
        if_pos (by simp only []; omega)]
      congr 1
      apply UIntN.ext'
      show (v.val + (i.val * 2 + 35) - 1) % 2 = v.val
      omega
    · unfold extractChainId
      rw [if_pos (by simp only []; omega)]
      congr 1
      apply UIntN.ext'
      show (v.val + (i.val * 2 + 35) - 35) / 2 = i.val
      omega

theorem extract_addReplay {x : U64} {v : U8} (h : extractStandardV x = some v) :
    v.val ≤ 1 ∧ addReplay v (extractChainId x) = some x := by
  have hx := x.lt
  unfold extractStandardV at h
  split at h
  · rename_i h27
    simp at h; subst h
    refine ⟨by simp, ?_⟩
    simp [extractChainId, h27, addReplay, UIntN.ofNat?]
    exact UIntN.ext' h27.symm
  · split at h
    · rename_i h28
      simp at h; subst h
      refine ⟨by simp, ?_⟩
      simp [extractChainId, h28, addReplay, UIntN.ofNat?]
      exact UIntN.ext' h28.symm
    · split at h
      · rename_i h35
        simp at h; subst h
        refine ⟨by simp only []; omega, ?_⟩
        simp only [extractChainId, if_pos h35, addReplay, UIntN.ofNat?]
        have : (x.val - 1) % 2 + ((x.val - 35) / 2 * 2 + 35) = x.val := by omega
        rw [dif_pos (by omega)]
        congr 1
        exact UIntN.ext' this
      · simp at h

/-! ### Canonical decoding of fields -/

theorem ofUint_of_toUint {n : Nat} {i : Item} {x : UIntN n} (h : toUint n i = some x) :
    ofUint x = i := by
  cases i with
  | list l => simp [toUint] at h
  | str b =>
    simp only [toUint] at h
    split at h
    · simp at h
    · rename_i hz
      unfold UIntN.ofNat? at h
      split at h
      · simp at h; subst h; simp [ofUint, beBytes_beNat b hz]
      · simp at h

theorem ofFixed_of_toFixed {n : Nat} {i : Item} {x : FixedBytes n} (h : toFixed n i = some x) :
    ofFixed x = i := by
  cases i with
  | list l => simp [toFixed] at h
  | str b =>
    simp only [toFixed, FixedBytes.ofBytes] at h
    split at h
    · simp at h; subst h; rfl
    · simp at h

theorem str_of_toBytes {i : Item} {b : Bytes} (h : toBytes i = some b) : .str b = i := by
  cases i <;> simp [toBytes] at h; simp [h]

theorem actionItem_of_itemAction {i : Item} {a : Action} (h : itemAction i = some a) :
    actionItem a = i := by
  unfold itemAction at h
  split at h
  · simp at h; subst h; rfl
  · rename_i b hb
    unfold FixedBytes.ofBytes at h
    split at h
    · simp at h; subst h; rfl
    · simp at h
  · simp at h

theorem mapM_sound {α : Type} {f : Item → Option α} {g : α → Item}
    (hfg : ∀ i x, f i = some x → g x = i) :
    ∀ (l : List Item) (r : List α), l.mapM f = some r → r.map g = l
  | [], r, h => by simp at h; subst h; rfl
  | i :: l, r, h => by
    simp only [List.mapM_cons] at h
    cases hi : f i with
    | none => simp [hi] at h
    | some x =>
      cases hl : l.mapM f with
      | none => simp [hi, hl] at h
      | some xs =>
        simp [hi, hl] at h
        subst h
        simp [hfg i x hi, mapM_sound hfg l xs hl]

theorem toList_sound {α : Type} {f : Item → Option α} {g : α → Item}
    (hfg : ∀ i x, f i = some x → g x = i) {i : Item} {r : List α} (h : toList f i = some r) :
    .list (r.map g) = i := by
  cases i with
  | str b => simp [toList] at h
  | list l => simp only [toList] at h; rw [mapM_sound hfg l r h]

theorem accessItem_of_itemAccess {i : Item} {a : AccessItem} (h : itemAccess i = some a) :
    accessItem a = i := by
  unfold itemAccess at h
  split at h
  · rename_i x ks
    cases h1 : toFixed 20 x with
    | none => simp [h1] at h
    | some ad =>
      cases h2 : toList (toFixed 32) ks with
      | none => simp [h1, h2] at h
      | some sk =>
        simp [h1, h2] at h
        subst h
        simp [accessItem, ofFixed_of_toFixed h1,
          toList_sound (fun i x hx => ofFixed_of_toFixed hx) h2]
  · simp at h

theorem u256OfSlice_u256Bytes (x : U256) : u256OfSlice (u256Bytes x) = x := by
  apply UIntN.ext'
  rw [beNat_take32 (by simp [u256Bytes])]
  unfold u256Bytes
  rw [beNat_beFixed_of_lt]
  have := x.lt
  have h3 : (256 : Nat) ^ 32 = 2 ^ 256 := by decide
  omega

theorem decodeSig_sound {v : U8} {ri si : Item} {sg : Sig} (h : decodeSig v ri si = some sg) :
    sg.standardV = v ∧ sg.Wf ∧ sigRS sg = [ri, si] := by
  unfold decodeSig at h
  split at h
  · cases h1 : toUint 256 ri with
    | none => simp [h1] at h
    | some r =>
      cases h2 : toUint 256 si with
      | none => simp [h1, h2] at h
      | some s =>
        simp [h1, h2] at h
        subst h
        refine ⟨rfl, Or.inl ⟨by simp [u256Bytes], by simp [u256Bytes]⟩, ?_⟩
        have : (Sig.mk (u256Bytes r) (u256Bytes s) v).isEth = true := by
          simp [Sig.isEth, u256Bytes]
        simp only [sigRS, this, if_true, u256OfSlice_u256Bytes, ofUint_of_toUint h1,
          ofUint_of_toUint h2]
  · rename_i hsz
    cases h1 : toBytes ri with
    | none => simp [h1] at h
    | some r =>
      cases h2 : toBytes si with
      | none => simp [h1, h2] at h
      | some s =>
        simp [h1, h2] at h
        subst h
        have e1 := str_of_toBytes h1
        have e2 := str_of_toBytes h2
        subst e1 e2
        simp only [itemSize] at hsz
        refine ⟨rfl, Or.inr (by simp only []; omega), ?_⟩
        have : (Sig.mk r s v).isEth = false := by simp [Sig.isEth]; omega
        simp [sigRS, this]

end Axon.Tx
