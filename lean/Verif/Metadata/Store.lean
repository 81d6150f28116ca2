import Verif.Metadata.Segment
import Verif.Metadata.Config
import Verif.Util.Assoc

/-!
# Metadata store and metadata system contract

Model of `core/executor/src/system_contract/metadata/{store,handle,mod}.rs`.  The trie is a record with
one field per kind of key: the keys `EPOCH_SEGMENT_KEY`, `CONSENSUS_CONFIG`, `CKB_RELATED_INFO_KEY` and
`HARDFORK_KEY` (32 bytes, digests of different strings) and the 8-byte epoch numbers; that different keys
do not disturb each other, and that the records survive their RLP, is shown in `Metadata/TrieStore.lean`
(C127), where the same code works on the bytes in the trie.  Here epoch segment and configuration are stored
as bytes, the metadata of an epoch as a record.  Addresses are `Nat`; of a validator only its address is kept.  Failures of the trie database are not
modelled.
-/

namespace Axon.Meta
open Axon.Assoc

/-- `Metadata`, `primitive.rs:324-332`, as submitted: the propose counter of the argument is replaced. -/
structure Metadata where
  start : U64
  last : U64
  epoch : U64
  verifiers : List Nat
  config : Config

/-- `MetadataInner`, `primitive.rs:371-377` -/
structure Inner where
  start : U64
  last : U64
  epoch : U64
  verifiers : List Nat
  counter : List (Nat × Nat)
deriving DecidableEq

/-- The metadata trie and the process-wide `HARDFORK_INFO` (`mod.rs:37`). -/
structure Store where
  seg : Bytes
  inner : List (Nat × Inner)
  config : Option Bytes
  ckb : Option Nat
  forks : Option Forks
  current : H256
deriving DecidableEq

/-- `MetadataStore::new` for the zero root, `store.rs:57-63`; `HARDFORK_INFO` starts as zero. -/
def Store.init : Store := ⟨asBytes segNew, [], none, none, none, zeroH⟩

/-- The propose counter of new metadata, `store.rs:106-113`: one zero per address, in address order
(`BTreeMap`). -/
def zeroCounter (verifiers : List Nat) : List (Nat × Nat) :=
  verifiers.foldl (fun m v => sput v 0 m) []

/-- `append_metadata`, `store.rs:84-133`.  `last_block_number() + 1` is computed before the epoch is
compared with 0 and overflows (a panic) if the last end is `u64::MAX`. -/
def appendMetadata (s : Store) (m : Metadata) : Outcome Store :=
  match fromRaw s.seg with
  | none => .err
  | some seg =>
    if (isEmpty seg = true ∧ m.epoch.val ≠ 0) ∨
        (isEmpty seg = false ∧ m.epoch.val ≠ latestEpoch seg + 1) then .err
    else
      match seg.getLast? with
      | none => .panic
      | some l =>
        if l + 1 ≥ 2 ^ 64 then .panic
        else if m.start.val ≠ l + 1 ∧ m.epoch.val ≠ 0 then .err
        else
          match appendEndpoint seg m.last.val with
          | .err => .err
          | .panic => .panic
          | .ok seg' => .ok { s with
              seg := asBytes seg'
              inner := put s.inner m.epoch.val
                ⟨m.start, m.last, m.epoch, m.verifiers, zeroCounter m.verifiers⟩
              config := some (encodeConfig s.current m.config) }

/-- `get_metadata_inner`, `store.rs:171-177` -/
def getInner (s : Store) (e : Nat) : Outcome Inner := .ofOption (get s.inner e)

/-- `get_consensus_config`, `store.rs:179-186` -/
def getConfig (s : Store) : Outcome Config :=
  match s.config with
  | none => .panic
  | some b => decodeConfig b

/-- `get_metadata`, `store.rs:165-169` -/
def getMetadata (s : Store) (e : Nat) : Outcome (Inner × Config) :=
  match getInner s e with
  | .ok i =>
    match getConfig s with
    | .ok c => .ok (i, c)
    | .err => .err
    | .panic => .panic
  | .err => .err
  | .panic => .panic

/-- `get_epoch_by_block_number`, `store.rs:212-214` -/
def epochByBlock (s : Store) (n : Nat) : Outcome Nat :=
  match fromRaw s.seg with
  | none => .err
  | some seg => .ofOption (epochOf seg n)

/-- `MetadataHandle::get_metadata_by_block_number`, `handle.rs:20-31`: genesis gets the metadata of
epoch 0. -/
def metadataAt (s : Store) (n : Nat) : Outcome (Inner × Config) :=
  if n = 0 then getMetadata s 0
  else
    match epochByBlock s n with
    | .ok e => getMetadata s e
    | .err => .err
    | .panic => .panic

/-- `is_validator`, `handle.rs:44-47` -/
def isValidator (s : Store) (n a : Nat) : Outcome Bool :=
  match metadataAt s n with
  | .ok (i, _) => .ok (i.verifiers.any (fun v => v = a))
  | .err => .err
  | .panic => .panic

/-- The counter of the first matching address goes up, `store.rs:142-148` with `primitive.rs:480-484`;
`none` is the overflow of `u64`. -/
def bump (a : Nat) : List (Nat × Nat) → Option (List (Nat × Nat))
  | [] => some []
  | (x, c) :: l =>
    if x = a then (if c + 1 < 2 ^ 64 then some ((x, c + 1) :: l) else none)
    else (bump a l).map ((x, c) :: ·)

/-- `update_propose_count`, `store.rs:135-158` -/
def updateCount (s : Store) (n a : Nat) : Outcome Store :=
  match epochByBlock s n with
  | .ok e =>
    match getInner s e with
    | .ok i =>
      match bump a i.counter with
      | some c => .ok { s with inner := put s.inner i.epoch.val { i with counter := c } }
      | none => .panic
    | .err => .err
    | .panic => .panic
  | .err => .err
  | .panic => .panic

/-- The hardforks after a block with the given entry in its extra data, `mod.rs:119-125`. -/
def forksAfter (l : Option Forks) : Option (Nat × H256) → Option Forks
  | some (b, f) => some (setFork l b f)
  | none => l

/-- `after_block_hook`, `mod.rs:109-137`: the hardfork entry of the block's extra data (if it decodes)
is registered, the flags in force at this block become current, the propose counter is updated for
`adapter.origin()`; a failing update is a panic. -/
def hook (s : Store) (n : Nat) (extra : Option (Nat × H256)) (origin : Nat) : Outcome Store :=
  if n = 0 then .ok s
  else
    match updateCount { s with
        forks := forksAfter s.forks extra
        current := forkAt ((forksAfter s.forks extra).getD []) n } n origin with
    | .ok s => .ok s
    | .err => .panic
    | .panic => .panic

/-- `adapter.origin()` at the end of a block: the proposer (`protocol/src/types/executor.rs:64-80`)
unless a transaction has been executed, then the sender of the last one
(`core/executor/src/lib.rs:150`). -/
def originAtEnd (proposer : Nat) (senders : List Nat) : Nat := senders.getLast?.getD proposer

/-- The calls of the metadata contract, `mod.rs:80-102` -/
inductive Call where
  | append (m : Metadata)
  | ckb (info : Nat)
  | config (c : Config)

/-- `append_metadata`, `set_ckb_related_info` (`store.rs:74-82`), `update_consensus_config`
(`store.rs:201-210`) -/
def runCall (s : Store) : Call → Outcome Store
  | .append m => appendMetadata s m
  | .ckb i => .ok { s with ckb := some i }
  | .config c => .ok { s with config := some (encodeConfig s.current c) }

/-- `exec_`, `mod.rs:48-107`, without gas and nonce: the new store and whether the call succeeded;
`call = none`: the call data does not decode. -/
def exec (s : Store) (block sender : Nat) (call : Option Call) : Outcome (Store × Bool) :=
  match (if block = 0 then .ok true else isValidator s block sender) with
  | .panic => .panic
  | .err => .ok (s, false)
  | .ok false => .ok (s, false)
  | .ok true =>
    match call with
    | none => .ok (s, false)
    | some c =>
      match runCall s c with
      | .ok s' => .ok (s', true)
      | .err => .ok (s, false)
      | .panic => .panic

/-! ## Histories -/

/-- What happens to the store: a metadata transaction or the end of a block (with its proposer and the
senders of its transactions). -/
inductive Op where
  | tx (block sender : Nat) (call : Option Call)
  | endBlock (n : Nat) (extra : Option (Nat × H256)) (proposer : Nat) (senders : List Nat)

/-- Effect of an operation and, for a transaction, whether it succeeded. -/
def step (s : Store) : Op → Outcome (Store × Bool)
  | .tx b a c => exec s b a c
  | .endBlock n x p l =>
    match hook s n x (originAtEnd p l) with
    | .ok s' => .ok (s', true)
    | .err => .err
    | .panic => .panic

/-- `Reach ops s`: `s` is reached from the empty store by operations of which `ops` took effect (failed
transactions are left out; a panic ends the history). -/
inductive Reach : List Op → Store → Prop
  | init : Reach [] Store.init
  | done {ops s op s'} : Reach ops s → step s op = .ok (s', true) → Reach (ops ++ [op]) s'
  | failed {ops s op s'} : Reach ops s → step s op = .ok (s', false) → Reach ops s'

/-- The metadata accepted so far, oldest first. -/
def appended : List Op → List Metadata
  | [] => []
  | .tx _ _ (some (.append m)) :: l => m :: appended l
  | _ :: l => appended l

/-! ## Invariant -/

/-- Block `n` is in epoch `e` of the accepted metadata: above the previous end, not above its own. -/
def InRange (A : List Metadata) (e n : Nat) : Prop :=
  ∃ m, A[e]? = some m ∧ n ≤ m.last.val ∧
    (if e = 0 then 0 < n else ∃ p, A[e - 1]? = some p ∧ p.last.val < n)

def segOf (A : List Metadata) : Segment := 0 :: A.map (fun m => m.last.val)

/-- What the stored record of an epoch has in common with the accepted metadata. -/
def Matches (i : Inner) (m : Metadata) : Prop :=
  i.start = m.start ∧ i.last = m.last ∧ i.epoch = m.epoch ∧ i.verifiers = m.verifiers

structure Inv (A : List Metadata) (s : Store) : Prop where
  seg : s.seg = asBytes (segOf A)
  ok : SegOk (segOf A)
  epoch : ∀ (e : Nat) (m : Metadata), A[e]? = some m → m.epoch.val = e
  start : ∀ (e : Nat) (m p : Metadata), A[e + 1]? = some m → A[e]? = some p → m.start.val = p.last.val + 1
  inner : ∀ e, match A[e]? with
    | none => get s.inner e = none
    | some m => ∃ i, get s.inner e = some i ∧ Matches i m
  config : s.config = none → A = []
  readable : ∀ b, s.config = some b → ∃ f c, b = encodeConfig f c

theorem segOf_lt (A : List Metadata) : ∀ x ∈ segOf A, x < 2 ^ 64 := by
  intro x hx
  unfold segOf at hx
  rcases List.mem_cons.1 hx with rfl | hx
  · decide
  · obtain ⟨m, _, rfl⟩ := List.mem_map.1 hx; exact m.last.lt

theorem fromRaw_seg (A : List Metadata) : fromRaw (asBytes (segOf A)) = some (segOf A) := by
  have hlen := asBytes_length (segOf A)
  have hc := chunk8_asBytes _ (segOf_lt A)
  unfold fromRaw
  rw [if_neg, if_neg (by omega)]
  · rw [show (asBytes (segOf A)).length / 8 = (segOf A).length by omega, hc]
  · have : asBytes (segOf A) = 0 :: ([0, 0, 0, 0, 0, 0, 0] ++ asBytes (A.map (fun m => m.last.val))) := by
      simp only [segOf, asBytes, List.flatMap_cons]
      rfl
    rw [this]
    simp

theorem inv_init : Inv [] Store.init where
  seg := rfl
  ok := segOk_new
  epoch := by simp
  start := by simp
  inner := by intro e; simp [Store.init, get_nil]
  config := by simp
  readable := by simp [Store.init]

theorem appendMetadata_inv {A : List Metadata} {s s' : Store} {m : Metadata} (h : Inv A s)
    (ha : appendMetadata s m = .ok s') : Inv (A ++ [m]) s' := by
  unfold appendMetadata at ha
  rw [h.seg, fromRaw_seg] at ha
  simp only at ha
  split at ha
  · cases ha
  rename_i hep
  split at ha
  · cases ha
  rename_i l hl
  split at ha
  · cases ha
  split at ha
  · cases ha
  rename_i hst
  split at ha
  · cases ha
  · cases ha
  rename_i seg' hseg
  simp only [Outcome.ok.injEq] at ha
  subst ha
  obtain ⟨hok, hseg'⟩ := segOk_append h.ok hseg
  have hsegA : segOf A ++ [m.last.val] = segOf (A ++ [m]) := by simp [segOf]
  rw [hsegA] at hseg'
  have hme : m.epoch.val = A.length := by
    rw [not_or] at hep
    unfold isEmpty latestEpoch segOf at hep
    simp only [List.length_cons, List.length_map] at hep
    cases A with
    | nil => simpa using hep
    | cons a A => simpa using hep
  have hmem : ∀ e x, (A ++ [m])[e]? = some x → (A[e]? = some x) ∨ (e = A.length ∧ x = m) := by
    intro e x hx
    rcases Nat.lt_or_ge e A.length with he | he
    · rw [List.getElem?_append_left he] at hx; exact Or.inl hx
    · rw [List.getElem?_append_right he] at hx
      have : e - A.length = 0 := by
        cases hd : e - A.length with
        | zero => rfl
        | succ k => rw [hd] at hx; simp at hx
      rw [this] at hx
      right
      exact ⟨by omega, by simpa using hx.symm⟩
  constructor
  · simp only; rw [hseg']
  · rw [← hseg']; exact hok
  · intro e x hx
    rcases hmem e x hx with hx | ⟨rfl, rfl⟩
    · exact h.epoch e x hx
    · exact hme
  · intro e x p hx hp
    rcases hmem _ x hx with hx | ⟨he, rfl⟩
    · have hlt : e + 1 < A.length := (List.getElem?_eq_some_iff.1 hx).1
      rw [List.getElem?_append_left (by omega)] at hp
      exact h.start e x p hx hp
    · rw [List.getElem?_append_left (by omega)] at hp
      have hne : x.epoch.val ≠ 0 := by omega
      have hs : x.start.val = l + 1 := Classical.byContradiction fun hc => hst ⟨hc, hne⟩
      -- the last end is the one of p
      have : l = p.last.val := by
        have h1 : (segOf A).getLast? = A.getLast?.map (fun m => m.last.val) := by
          unfold segOf
          cases A with
          | nil => simp at he
          | cons a A => 
            rw [List.map_cons, List.getLast?_cons_cons, ← List.getLast?_map]
            rfl
        rw [h1, List.getLast?_eq_getElem?, ← he, Nat.add_sub_cancel, hp] at hl
        simpa using hl.symm
      omega
  · intro e
    simp only
    have hi := h.inner e
    by_cases he : e = A.length
    · subst he
      rw [List.getElem?_append_right (Nat.le_refl _), Nat.sub_self]
      simp only [List.getElem?_cons_zero]
      refine ⟨⟨m.start, m.last, m.epoch, m.verifiers, zeroCounter m.verifiers⟩, ?_, ?_⟩
      · rw [get_put, if_pos hme.symm]
      · exact ⟨rfl, rfl, rfl, rfl⟩
    · have hput : ∀ v, get (put s.inner m.epoch.val v) e = get s.inner e := by
        intro v; rw [get_put, if_neg (by omega)]
      rw [hput]
      rcases Nat.lt_or_ge e A.length with hlt | hge
      · rw [List.getElem?_append_left hlt]; exact hi
      · have h1 : (A ++ [m])[e]? = none := by
          rw [List.getElem?_eq_none_iff]; simp; omega
        have h2 : A[e]? = none := by rw [List.getElem?_eq_none_iff]; omega
        rw [h1]
        rw [h2] at hi
        exact hi
  · intro hc; simp at hc
  · intro b hb
    simp only [Option.some.injEq] at hb
    exact ⟨_, _, hb.symm⟩

theorem epochByBlock_spec {A : List Metadata} {s : Store} (h : Inv A s) (n e : Nat) :
    epochByBlock s n = .ok e ↔ InRange A e n := by
  unfold epochByBlock
  rw [h.seg, fromRaw_seg]
  simp only
  have hs := epochFrom_spec (segOf A) 0 n e h.ok.incr
  have : Outcome.ofOption (epochOf (segOf A) n) = .ok e ↔ epochFrom 0 (segOf A) n = some e := by
    unfold epochOf
    cases epochFrom 0 (segOf A) n <;> simp [Outcome.ofOption]
  rw [this, hs]
  unfold InRange segOf
  constructor
  · rintro ⟨k, a, b, he, h1, h2, h3, h4⟩
    rw [Nat.zero_add] at he
    subst he
    simp only [List.getElem?_cons_succ, List.getElem?_map, Option.map_eq_some_iff] at h2
    obtain ⟨m, hm, rfl⟩ := h2
    refine ⟨m, hm, h4, ?_⟩
    cases e with
    | zero => simp at h1; simp; omega
    | succ k =>
      simp only [List.getElem?_cons_succ, List.getElem?_map, Option.map_eq_some_iff] at h1
      obtain ⟨p, hp, rfl⟩ := h1
      simp only [Nat.succ_ne_zero, if_false, Nat.add_sub_cancel]
      exact ⟨p, hp, h3⟩
  · rintro ⟨m, hm, hle, hif⟩
    cases e with
    | zero =>
      exact ⟨0, 0, m.last.val, by omega, rfl, by simp [hm], by simpa using hif, hle⟩
    | succ k =>
      simp only [Nat.succ_ne_zero, if_false, Nat.add_sub_cancel] at hif
      obtain ⟨p, hp, hlt⟩ := hif
      exact ⟨k + 1, p.last.val, m.last.val, by omega, by simp [hp], by simp [hm], hlt, hle⟩

theorem epochByBlock_no_panic {A : List Metadata} {s : Store} (h : Inv A s) (n : Nat) :
    epochByBlock s n ≠ .panic := by
  unfold epochByBlock
  rw [h.seg, fromRaw_seg]
  simp only
  cases epochOf (segOf A) n <;> simp [Outcome.ofOption]

theorem getInner_spec {A : List Metadata} {s : Store} (h : Inv A s) (e : Nat) :
    match A[e]? with
    | none => getInner s e = .err
    | some m => ∃ i, getInner s e = .ok i ∧ Matches i m := by
  have := h.inner e
  unfold getInner
  cases he : A[e]? with
  | none => rw [he] at this; simp only at this ⊢; rw [this]; rfl
  | some m =>
    rw [he] at this
    obtain ⟨i, hi, hm⟩ := this
    simp only
    exact ⟨i, by rw [hi]; rfl, hm⟩

/-- Changing the counter of an epoch's record keeps the invariant. -/
theorem inv_setInner {A : List Metadata} {s : Store} (h : Inv A s) (e : Nat) (i : Inner)
    (hi : getInner s e = .ok i) (c : List (Nat × Nat)) :
    Inv A { s with inner := put s.inner i.epoch.val { i with counter := c } } := by
  have hg := getInner_spec h e
  cases he : A[e]? with
  | none => rw [he] at hg; simp only at hg; rw [hg] at hi; cases hi
  | some m =>
    rw [he] at hg
    obtain ⟨j, hj, hm⟩ := hg
    rw [hj] at hi
    simp only [Outcome.ok.injEq] at hi
    subst hi
    have hie : j.epoch.val = e := by rw [hm.2.2.1]; exact h.epoch e m he
    refine ⟨h.seg, h.ok, h.epoch, h.start, ?_, h.config, h.readable⟩
    intro e'
    simp only
    by_cases hee : e' = e
    · subst hee
      rw [he]
      simp only
      exact ⟨{ j with counter := c }, by rw [get_put, if_pos hie.symm], hm⟩
    · have hput : ∀ v, get (put s.inner j.epoch.val v) e' = get s.inner e' := by
        intro v; rw [get_put, if_neg (by omega)]
      rw [hput]
      exact h.inner e'

theorem updateCount_inv {A : List Metadata} {s s' : Store} {n a : Nat} (h : Inv A s)
    (hu : updateCount s n a = .ok s') : Inv A s' := by
  unfold updateCount at hu
  split at hu
  · rename_i e he
    split at hu
    · rename_i i hi
      split at hu
      · rename_i c hc
        simp only [Outcome.ok.injEq] at hu
        subst hu
        exact inv_setInner h e i hi c
      · cases hu
    · cases hu
    · cases hu
  · cases hu
  · cases hu

theorem hook_inv {A : List Metadata} {s s' : Store} {n : Nat} {x : Option (Nat × H256)} {a : Nat}
    (h : Inv A s) (hh : hook s n x a = .ok s') : Inv A s' := by
  unfold hook at hh
  split at hh
  · simp only [Outcome.ok.injEq] at hh; subst hh; exact h
  · split at hh
    · rename_i t ht
      simp only [Outcome.ok.injEq] at hh
      subst hh
      refine updateCount_inv ?_ ht
      exact ⟨h.seg, h.ok, h.epoch, h.start, h.inner, h.config, h.readable⟩
    · cases hh
    · cases hh

theorem runCall_inv {A : List Metadata} {s s' : Store} {c : Call} (h : Inv A s)
    (hr : runCall s c = .ok s') :
    Inv (match c with | .append m => A ++ [m] | _ => A) s' := by
  cases c with
  | append m => exact appendMetadata_inv h hr
  | ckb i =>
    simp only [runCall, Outcome.ok.injEq] at hr
    subst hr
    exact ⟨h.seg, h.ok, h.epoch, h.start, h.inner, h.config, h.readable⟩
  | config c =>
    simp only [runCall, Outcome.ok.injEq] at hr
    subst hr
    refine ⟨h.seg, h.ok, h.epoch, h.start, h.inner, by simp, ?_⟩
    intro b hb
    simp only [Option.some.injEq] at hb
    exact ⟨_, _, hb.symm⟩

theorem appended_snoc (ops : List Op) (op : Op) :
    appended (ops ++ [op]) = appended ops ++ appended [op] := by
  induction ops with
  | nil => rfl
  | cons o ops ih =>
    cases o with
    | endBlock => simpa [appended] using ih
    | tx b a c =>
      cases c with
      | none => simpa [appended] using ih
      | some c => cases c <;> simpa [appended] using ih

theorem exec_false {s s' : Store} {b a : Nat} {c : Option Call} (h : exec s b a c = .ok (s', false)) :
    s' = s := by
  unfold exec at h
  split at h
  · cases h
  · simp only [Outcome.ok.injEq, Prod.mk.injEq] at h; exact h.1.symm
  · simp only [Outcome.ok.injEq, Prod.mk.injEq] at h; exact h.1.symm
  · split at h
    · simp only [Outcome.ok.injEq, Prod.mk.injEq] at h; exact h.1.symm
    · split at h
      · simp at h
      · simp only [Outcome.ok.injEq, Prod.mk.injEq] at h; exact h.1.symm
      · cases h

theorem exec_true {s s' : Store} {b a : Nat} {c : Option Call} (h : exec s b a c = .ok (s', true)) :
    ∃ d, c = some d ∧ runCall s d = .ok s' ∧ (b = 0 ∨ isValidator s b a = .ok true) := by
  unfold exec at h
  split at h
  · cases h
  · simp at h
  · simp at h
  · rename_i hv
    split at h
    · simp at h
    · rename_i d
      split at h
      · rename_i t ht
        simp only [Outcome.ok.injEq, Prod.mk.injEq, and_true] at h
        subst h
        refine ⟨d, rfl, ht, ?_⟩
        by_cases hb : b = 0
        · exact Or.inl hb
        · rw [if_neg hb] at hv; exact Or.inr hv
      · simp at h
      · cases h

theorem reach_inv {ops : List Op} {s : Store} (h : Reach ops s) : Inv (appended ops) s := by
  induction h with
  | init => exact inv_init
  | done hr hs ih =>
    rename_i ops s op s'
    rw [appended_snoc]
    cases op with
    | endBlock n x p l =>
      simp only [step] at hs
      split at hs
      · rename_i t ht
        simp only [Outcome.ok.injEq, Prod.mk.injEq, and_true] at hs
        subst hs
        simpa [appended] using hook_inv ih ht
      · cases hs
      · cases hs
    | tx b a c =>
      obtain ⟨d, rfl, hd, -⟩ := exec_true hs
      have := runCall_inv ih hd
      cases d <;> simpa [appended] using this
  | failed hr hs ih =>
    rename_i ops s op s'
    cases op with
    | endBlock n x p l =>
      simp only [step] at hs
      split at hs <;> simp at hs
    | tx b a c => rw [exec_false hs]; exact ih

end Axon.Meta
