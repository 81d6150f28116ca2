import Verif.Metadata.Records
import Verif.Metadata.CountProps
import Verif.Metadata.HistoryProps

/-!
# The metadata trie against the record-level store

Every operation of the store of bytes agrees with the operation of `Axon.Meta.Store` that keeps records.
-/

namespace Axon.MetaTrie
open Axon.Rlp Axon.Block Axon.Meta Axon.Assoc

/-! ## What the record-level store keeps -/

/-- The record-level store keeps addresses, as numbers. -/
def Record.forget (r : Record) : Inner :=
  ⟨r.start, r.last, r.epoch, r.verifiers.map (fun v => addr v.address),
    r.counter.map (fun c => (addr c.address, c.count.val))⟩

def Submitted.forget (m : Submitted) : Metadata :=
  ⟨m.start, m.last, m.epoch, m.verifiers.map (fun v => addr v.address), m.config⟩

def Fork.pair (f : Fork) : Nat × H256 := (f.number.val, f.flags)

/-- The six type ids as one number. -/
def CkbInfo.num (c : CkbInfo) : Nat :=
  beNat (c.metadataTypeId.bytes ++ c.checkpointTypeId.bytes ++ c.xudtArgs.bytes ++ c.stakeSmtTypeId.bytes ++
    c.delegateSmtTypeId.bytes ++ c.rewardSmtTypeId.bytes)

def Call.forget : Call → Meta.Call
  | .append m => .append m.forget
  | .ckb i => .ckb i.num
  | .config c => .config c

def Op.forget : Op → Meta.Op
  | .tx b a c => .tx b (addr a) (c.map Call.forget)
  | .endBlock n x p l => .endBlock n ((extraFork x).map Fork.pair) (addr p) (l.map addr)

/-! ## Keys -/

/-- The keys of the store while there are fewer than `n` epochs. -/
inductive IsKey (E : Env) (n : Nat) : Bytes → Prop
  | seg : IsKey E n E.keys.seg.bytes
  | ckb : IsKey E n E.keys.ckb.bytes
  | config : IsKey E n E.keys.config.bytes
  | forks : IsKey E n E.keys.forks.bytes
  | epoch {e : Nat} (h : e < n) : IsKey E n (epochKey e)

/-- The four digests differ, and no two of the keys of the first `n` epochs have the same place in the trie. -/
structure Apart (E : Env) (n : Nat) : Prop where
  pos : 0 < n
  le : n ≤ 2 ^ 64
  nodup : [E.keys.seg, E.keys.ckb, E.keys.config, E.keys.forks].Nodup
  inj : ∀ a b, IsKey E n a → IsKey E n b → E.H a = E.H b → a = b

/-- No value is 2^64 bytes long or longer. -/
def Sized (E : Env) (n : Nat) (t : TStore) : Prop :=
  ∀ k v, IsKey E n k → t.look E k = some v → v.length < 2 ^ 64

theorem fixed_ne {n : Nat} {a b : FixedBytes n} (h : a ≠ b) : a.bytes ≠ b.bytes :=
  fun e => h (FixedBytes.ext' e)

theorem key_ne_epoch (k : H256) (e : Nat) : k.bytes ≠ epochKey e := by
  intro h
  have := congrArg List.length h
  rw [k.len] at this
  simp [epochKey] at this

theorem epochKey_inj {n a b : Nat} (hn : n ≤ 2 ^ 64) (ha : a < n) (hb : b < n) :
    epochKey a = epochKey b ↔ a = b := by
  constructor
  · intro h
    exact beFixed_inj (w := 8) (by omega) (by omega) h
  · rintro rfl; rfl

theorem look_write {E : Env} {n : Nat} (ap : Apart E n) (t : TStore) {j k v : Bytes} (hj : IsKey E n j)
    (hk : IsKey E n k) (hv : v ≠ []) : (t.write E k v).look E j = if j = k then some v else t.look E j := by
  unfold TStore.look TStore.write Trie.mptGet Trie.mptInsert
  simp only
  rw [Trie.get_put]
  by_cases e : j = k
  · subst e; simp [hv]
  · have : Trie.keyPath (E.H j) ≠ Trie.keyPath (E.H k) := fun h =>
      e (ap.inj j k hj hk (Trie.keyPath_inj _ _ h))
    simp [e, this]

/-! ## Agreement of outcomes -/

/-- Both return related values, both fail or both panic. -/
inductive Agree {α β : Type} (R : α → β → Prop) : Outcome α → Outcome β → Prop
  | ok {a : α} {b : β} (h : R a b) : Agree R (.ok a) (.ok b)
  | err : Agree R .err .err
  | panic : Agree R .panic .panic

theorem Agree.bind {α β γ δ : Type} {R : α → β → Prop} {S : γ → δ → Prop} {x : Outcome α} {y : Outcome β}
    {f : α → Outcome γ} {g : β → Outcome δ} (h : Agree R x y)
    (hf : ∀ a b, R a b → y = .ok b → Agree S (f a) (g b)) : Agree S (x.bind f) (y.bind g) := by
  cases h with
  | ok h => exact hf _ _ h rfl
  | err => exact .err
  | panic => exact .panic

theorem Agree.mono {α β : Type} {R S : α → β → Prop} {x : Outcome α} {y : Outcome β} (h : Agree R x y)
    (hf : ∀ a b, R a b → S a b) : Agree S x y := by
  cases h with
  | ok h => exact .ok (hf _ _ h)
  | err => exact .err
  | panic => exact .panic

theorem Agree.refl {α : Type} (x : Outcome α) : Agree Eq x x := by
  cases x with
  | ok a => exact .ok rfl
  | err => exact .err
  | panic => exact .panic

theorem Agree.unwrap {α β : Type} {R : α → β → Prop} {x : Outcome α} {y : Outcome β} (h : Agree R x y) :
    Agree R (unwrap x) (unwrap y) := by
  cases h with
  | ok h => exact .ok h
  | err => exact .panic
  | panic => exact .panic

theorem Agree.eq {α : Type} {x y : Outcome α} (h : Agree Eq x y) : x = y := by
  cases h with
  | ok h => rw [h]
  | err => rfl
  | panic => rfl

/-! ## The relation -/

/-- The bytes of the trie are the encodings of the records. -/
structure Rel (E : Env) (n : Nat) (t : TStore) (s : Store) : Prop where
  seg : t.look E E.keys.seg.bytes = some s.seg
  config : t.look E E.keys.config.bytes = s.config
  forks : ∃ l : Option (List Fork), t.look E E.keys.forks.bytes = l.map (fun l => encode (forksItem l)) ∧
    s.forks = l.map (fun l => l.map Fork.pair)
  ckb : ∃ c : Option CkbInfo, t.look E E.keys.ckb.bytes = c.map (fun c => encode (ckbItem c)) ∧
    s.ckb = c.map CkbInfo.num
  inner : ∀ e, e < n → ∃ r : Option Record, t.look E (epochKey e) = r.map (fun r => encode (recordItem r)) ∧
    get s.inner e = r.map Record.forget
  current : t.current = s.current

section
variable {E : Env} {n : Nat} {t : TStore} {s : Store}

/-! ## Reading -/

theorem getSeg_eq (r : Rel E n t s) : getSeg E t = .ofOption (fromRaw s.seg) := by
  unfold getSeg
  rw [r.seg]
  rfl

theorem getRecord_rel (r : Rel E n t s) (sz : Sized E n t) {e : Nat} (he : e < n) :
    Agree (fun a b => b = a.forget) (getRecord E t e) (getInner s e) := by
  obtain ⟨o, h1, h2⟩ := r.inner e he
  unfold getRecord getInner
  rw [h1, h2]
  cases o with
  | none => exact .err
  | some x =>
    have hl := sz _ _ (.epoch he) h1
    show Agree _ (decodeWith itemRecord (encode (recordItem x))) _
    rw [decodeWith_encode (itemRecord_item x) hl]
    exact .ok rfl

theorem getConfig_rel (r : Rel E n t s) : getConfig E t = Meta.getConfig s := by
  unfold getConfig Meta.getConfig
  rw [r.config]
  cases s.config <;> rfl

theorem meta_getMetadata_eq (s : Store) (e : Nat) :
    Meta.getMetadata s e = (getInner s e).bind fun i => (Meta.getConfig s).bind fun c => .ok (i, c) := by
  unfold Meta.getMetadata
  cases getInner s e with
  | ok i => cases Meta.getConfig s <;> rfl
  | err => rfl
  | panic => rfl

theorem getMetadata_rel (r : Rel E n t s) (sz : Sized E n t) {e : Nat} (he : e < n) :
    Agree (fun a b => b = (a.1.forget, a.2)) (getMetadata E t e) (Meta.getMetadata s e) := by
  rw [meta_getMetadata_eq]
  unfold getMetadata
  refine (getRecord_rel r sz he).bind fun a b h _ => ?_
  rw [getConfig_rel r]
  refine (Agree.refl (Meta.getConfig s)).bind fun c c' hc _ => ?_
  subst hc h
  exact .ok rfl

theorem epochByBlock_eq (r : Rel E n t s) (k : Nat) : epochByBlock E t k = Meta.epochByBlock s k := by
  unfold epochByBlock Meta.epochByBlock
  rw [getSeg_eq r]
  cases fromRaw s.seg <;> rfl

theorem epoch_lt {A : List Metadata} (inv : Inv A s) (hA : A.length ≤ n) {k e : Nat}
    (h : Meta.epochByBlock s k = .ok e) : e < n := by
  obtain ⟨m, hm, -⟩ := (epochByBlock_spec inv k e).1 h
  have := (List.getElem?_eq_some_iff.1 hm).1
  omega

theorem metadataAt_rel (r : Rel E n t s) (sz : Sized E n t) (ap : Apart E n) {A : List Metadata}
    (inv : Inv A s) (hA : A.length ≤ n) (k : Nat) :
    Agree (fun a b => b = (a.1.forget, a.2)) (metadataAt E t k) (Meta.metadataAt s k) := by
  unfold metadataAt Meta.metadataAt
  split
  · exact getMetadata_rel r sz ap.pos
  · rw [epochByBlock_eq r]
    cases hb : Meta.epochByBlock s k with
    | ok e => exact getMetadata_rel r sz (epoch_lt inv hA hb)
    | err => exact .err
    | panic => exact .panic

theorem addr_inj {a b : H160} : addr a = addr b ↔ a = b := by
  constructor
  · intro h
    apply FixedBytes.ext'
    have h1 := beFixed_beNat a.bytes
    have h2 := beFixed_beNat b.bytes
    rw [a.len] at h1
    rw [b.len] at h2
    unfold addr at h
    rw [← h1, ← h2, h]
  · rintro rfl; rfl

theorem any_addr (l : List Validator) (a : H160) :
    (l.map fun v => addr v.address).any (fun v => v = addr a) = l.any (fun v => v.address = a) := by
  induction l with
  | nil => rfl
  | cons v l ih => simp only [List.map_cons, List.any_cons, ih, addr_inj]

theorem isValidator_eq (r : Rel E n t s) (sz : Sized E n t) (ap : Apart E n) {A : List Metadata}
    (inv : Inv A s) (hA : A.length ≤ n) (k : Nat) (a : H160) :
    isValidator E t k a = Meta.isValidator s k (addr a) := by
  unfold isValidator Meta.isValidator
  have h := metadataAt_rel r sz ap inv hA k
  revert h
  generalize metadataAt E t k = x
  generalize Meta.metadataAt s k = y
  intro h
  cases h with
  | ok h =>
    rw [h]
    simp only [Outcome.bind, Record.forget, any_addr]
  | err => rfl
  | panic => rfl

theorem getCkb_eq (sz : Sized E n t) {c : Option CkbInfo}
    (h : t.look E E.keys.ckb.bytes = c.map (fun c => encode (ckbItem c))) :
    getCkb E t = .ofOption c := by
  unfold getCkb
  rw [h]
  cases c with
  | none => rfl
  | some c =>
    show decodeWith itemCkb (encode (ckbItem c)) = _
    rw [decodeWith_encode (itemCkb_item c) (sz _ _ .ckb h)]
    rfl

/-! ## Hardforks -/

theorem pushFork_pair (l : List Fork) (f : Fork) :
    (pushFork l f).map Fork.pair = Meta.pushFork (l.map Fork.pair) f.number.val f.flags := by
  unfold pushFork Meta.pushFork
  rw [List.getLast?_map]
  cases hl : l.getLast? with
  | none => rfl
  | some i =>
    simp only [Option.map_some, Fork.pair]
    by_cases h1 : orH f.flags i.flags = i.flags ∨ f.number.val < i.number.val
    · rw [if_pos h1, if_pos h1]
    · rw [if_neg h1, if_neg h1]
      have : (i.number = f.number) ↔ (i.number.val = f.number.val) :=
        ⟨fun e => by rw [e], fun e => UIntN.ext' e⟩
      by_cases h2 : i.number = f.number
      · rw [if_pos h2, if_pos (this.1 h2)]
        simp [Fork.pair, List.map_dropLast]
      · rw [if_neg h2, if_neg (fun e => h2 (this.2 e))]
        simp [Fork.pair]

theorem forkAt_pair (l : List Fork) (k : Nat) :
    forkIn l k = Meta.forkAt (l.map Fork.pair) k := by
  unfold forkIn Meta.forkAt
  rw [← List.map_reverse, List.find?_map]
  have : (fun f : Fork => decide (¬ f.number.val > k)) = ((fun e : Nat × H256 => decide (e.1 ≤ k)) ∘ Fork.pair) := by
    funext f
    exact decide_eq_decide.2 (by simp only [Fork.pair]; omega)
  rw [this]
  cases l.reverse.find? ((fun e : Nat × H256 => decide (e.1 ≤ k)) ∘ Fork.pair) <;> rfl

theorem decodeForks {l : List Fork} (sz : Sized E n t)
    (h : t.look E E.keys.forks.bytes = some (encode (forksItem l))) :
    decodeWith itemForks (encode (forksItem l)) = .ok l :=
  decodeWith_encode (itemForks_item l) (sz _ _ .forks h)

theorem forkAt_rel (r : Rel E n t s) (sz : Sized E n t) (k : Nat) :
    forkAt E t k = .ok (Meta.forkAt (s.forks.getD []) k) := by
  obtain ⟨l, h1, h2⟩ := r.forks
  unfold forkAt
  rw [h1, h2]
  cases l with
  | none => rfl
  | some l =>
    simp only [Option.map_some]
    rw [decodeForks sz h1]
    simp only [Outcome.bind, Option.getD_some]
    rw [forkAt_pair]

theorem getForks_rel (r : Rel E n t s) (sz : Sized E n t) :
    ∃ l, getForks E t = .ok l ∧ l.map Fork.pair = s.forks.getD [] := by
  obtain ⟨l, h1, h2⟩ := r.forks
  unfold getForks
  rw [h1, h2]
  cases l with
  | none => exact ⟨[], rfl, rfl⟩
  | some l => exact ⟨l, decodeForks sz h1, rfl⟩

/-! ## Writing -/

theorem keys_ne (ap : Apart E n) :
    E.keys.seg.bytes ≠ E.keys.ckb.bytes ∧ E.keys.seg.bytes ≠ E.keys.config.bytes ∧
    E.keys.seg.bytes ≠ E.keys.forks.bytes ∧ E.keys.ckb.bytes ≠ E.keys.config.bytes ∧
    E.keys.ckb.bytes ≠ E.keys.forks.bytes ∧ E.keys.config.bytes ≠ E.keys.forks.bytes := by
  have h := ap.nodup
  simp only [List.nodup_cons, List.mem_cons, List.not_mem_nil, or_false, not_or] at h
  exact ⟨fixed_ne h.1.1, fixed_ne h.1.2.1, fixed_ne h.1.2.2, fixed_ne h.2.1.1, fixed_ne h.2.1.2, fixed_ne h.2.2.1⟩

theorem rel_current (r : Rel E n t s) (f : H256) : Rel E n { t with current := f } { s with current := f } :=
  ⟨r.seg, r.config, r.forks, r.ckb, r.inner, rfl⟩

theorem rel_seg (ap : Apart E n) (r : Rel E n t s) {v : Bytes} (hv : v ≠ []) :
    Rel E n (t.write E E.keys.seg.bytes v) { s with seg := v } := by
  obtain ⟨h1, h2, h3, -, -, -⟩ := keys_ne ap
  refine ⟨?_, ?_, ?_, ?_, ?_, r.current⟩
  · rw [look_write ap t .seg .seg hv, if_pos rfl]
  · rw [look_write ap t .config .seg hv, if_neg h2.symm]; exact r.config
  · rw [look_write ap t .forks .seg hv, if_neg h3.symm]; exact r.forks
  · rw [look_write ap t .ckb .seg hv, if_neg h1.symm]; exact r.ckb
  · intro e he
    rw [look_write ap t (.epoch he) .seg hv, if_neg (key_ne_epoch _ _).symm]; exact r.inner e he

theorem rel_config (ap : Apart E n) (r : Rel E n t s) {v : Bytes} (hv : v ≠ []) :
    Rel E n (t.write E E.keys.config.bytes v) { s with config := some v } := by
  obtain ⟨-, h2, -, h4, -, h6⟩ := keys_ne ap
  refine ⟨?_, ?_, ?_, ?_, ?_, r.current⟩
  · rw [look_write ap t .seg .config hv, if_neg h2]; exact r.seg
  · rw [look_write ap t .config .config hv, if_pos rfl]
  · rw [look_write ap t .forks .config hv, if_neg h6.symm]; exact r.forks
  · rw [look_write ap t .ckb .config hv, if_neg h4]; exact r.ckb
  · intro e he
    rw [look_write ap t (.epoch he) .config hv, if_neg (key_ne_epoch _ _).symm]; exact r.inner e he

theorem rel_ckb (ap : Apart E n) (r : Rel E n t s) (c : CkbInfo) :
    Rel E n (t.write E E.keys.ckb.bytes (encode (ckbItem c))) { s with ckb := some c.num } := by
  have hv := encode_ne (ckbItem c)
  obtain ⟨h1, -, -, h4, h5, -⟩ := keys_ne ap
  refine ⟨?_, ?_, ?_, ?_, ?_, r.current⟩
  · rw [look_write ap t .seg .ckb hv, if_neg h1]; exact r.seg
  · rw [look_write ap t .config .ckb hv, if_neg h4.symm]; exact r.config
  · rw [look_write ap t .forks .ckb hv, if_neg h5.symm]; exact r.forks
  · exact ⟨some c, by rw [look_write ap t .ckb .ckb hv, if_pos rfl]; rfl, rfl⟩
  · intro e he
    rw [look_write ap t (.epoch he) .ckb hv, if_neg (key_ne_epoch _ _).symm]; exact r.inner e he

theorem rel_forks (ap : Apart E n) (r : Rel E n t s) (l : List Fork) :
    Rel E n (t.write E E.keys.forks.bytes (encode (forksItem l))) { s with forks := some (l.map Fork.pair) } := by
  have hv := encode_ne (forksItem l)
  obtain ⟨-, -, h3, -, h5, h6⟩ := keys_ne ap
  refine ⟨?_, ?_, ?_, ?_, ?_, r.current⟩
  · rw [look_write ap t .seg .forks hv, if_neg h3]; exact r.seg
  · rw [look_write ap t .config .forks hv, if_neg h6]; exact r.config
  · exact ⟨some l, by rw [look_write ap t .forks .forks hv, if_pos rfl]; rfl, rfl⟩
  · rw [look_write ap t .ckb .forks hv, if_neg h5]; exact r.ckb
  · intro e he
    rw [look_write ap t (.epoch he) .forks hv, if_neg (key_ne_epoch _ _).symm]; exact r.inner e he

theorem rel_record (ap : Apart E n) (r : Rel E n t s) {e : Nat} (he : e < n) (x : Record) :
    Rel E n (t.write E (epochKey e) (encode (recordItem x))) { s with inner := put s.inner e x.forget } := by
  have hv := encode_ne (recordItem x)
  refine ⟨?_, ?_, ?_, ?_, ?_, r.current⟩
  · rw [look_write ap t .seg (.epoch he) hv, if_neg (key_ne_epoch _ _)]; exact r.seg
  · rw [look_write ap t .config (.epoch he) hv, if_neg (key_ne_epoch _ _)]; exact r.config
  · rw [look_write ap t .forks (.epoch he) hv, if_neg (key_ne_epoch _ _)]; exact r.forks
  · rw [look_write ap t .ckb (.epoch he) hv, if_neg (key_ne_epoch _ _)]; exact r.ckb
  · intro e' he'
    rw [look_write ap t (.epoch he') (.epoch he) hv, get_put]
    by_cases h : e' = e
    · subst h
      exact ⟨some x, by rw [if_pos rfl]; rfl, by rw [if_pos rfl]; rfl⟩
    · rw [if_neg (fun hk => h ((epochKey_inj ap.le he' he).1 hk)), if_neg h]
      exact r.inner e' he'

/-! ## The operations -/

theorem cput_pair (a : H160) (l : List Count) :
    (cput a l).map (fun c => (addr c.address, c.count.val)) =
      sput (addr a) 0 (l.map (fun c => (addr c.address, c.count.val))) := by
  induction l with
  | nil => rfl
  | cons c l ih =>
    simp only [cput, List.map_cons, sput]
    split
    · rfl
    · split
      · rfl
      · simp only [List.map_cons, ih]

theorem zeroCounts_pair (l : List Validator) :
    (zeroCounts l).map (fun c => (addr c.address, c.count.val)) =
      zeroCounter (l.map (fun v => addr v.address)) := by
  unfold zeroCounts zeroCounter
  have gen : ∀ (l : List Validator) (m : List Count),
      (l.foldl (fun m v => cput v.address m) m).map (fun c => (addr c.address, c.count.val)) =
      (l.map (fun v => addr v.address)).foldl (fun m v => sput v 0 m)
        (m.map (fun c => (addr c.address, c.count.val))) := by
    intro l
    induction l with
    | nil => intro m; rfl
    | cons v l ih => intro m; simp only [List.foldl_cons, List.map_cons, ih, cput_pair]
  exact gen l []

theorem bump_pair (a : H160) (l : List Count) :
    (bumpCount a l).map (fun l => l.map (fun c => (addr c.address, c.count.val))) =
      bump (addr a) (l.map (fun c => (addr c.address, c.count.val))) := by
  induction l with
  | nil => rfl
  | cons c l ih =>
    simp only [bumpCount, List.map_cons, bump]
    by_cases h : c.address = a
    · rw [if_pos h, if_pos (addr_inj.2 h)]
      unfold UIntN.ofNat?
      by_cases hb : c.count.val + 1 < 2 ^ 64
      · simp [hb]
      · simp [hb]
    · rw [if_neg h, if_neg (fun e => h (addr_inj.1 e)), ← ih]
      cases bumpCount a l <;> rfl

theorem encodeConfig_ne (f : H256) (c : Config) : encodeConfig f c ≠ [] := by
  unfold encodeConfig
  split <;> simp

theorem meta_append_eq (s : Store) (m : Metadata) : appendMetadata s m =
    (Outcome.ofOption (fromRaw s.seg)).bind fun seg =>
    if (isEmpty seg = true ∧ m.epoch.val ≠ 0) ∨
        (isEmpty seg = false ∧ m.epoch.val ≠ latestEpoch seg + 1) then .err
    else
      (lastBlock seg).bind fun l =>
      if l + 1 ≥ 2 ^ 64 then .panic
      else if m.start.val ≠ l + 1 ∧ m.epoch.val ≠ 0 then .err
      else
        (appendEndpoint seg m.last.val).bind fun seg' => .ok { s with
          seg := asBytes seg'
          inner := put s.inner m.epoch.val ⟨m.start, m.last, m.epoch, m.verifiers, zeroCounter m.verifiers⟩
          config := some (encodeConfig s.current m.config) } := by
  unfold appendMetadata
  cases fromRaw s.seg with
  | none => rfl
  | some seg =>
    simp only [Outcome.ofOption, Outcome.bind, lastBlock]
    cases seg.getLast? with
    | none => rfl
    | some l =>
      simp only [Outcome.orPanic]
      cases appendEndpoint seg m.last.val <;> rfl

theorem asBytes_ne {s : Segment} (h : s ≠ []) : asBytes s ≠ [] := by
  intro e
  have := congrArg List.length e
  rw [asBytes_length] at this
  have h0 : s.length = 0 := by simp at this; omega
  exact h (List.length_eq_zero_iff.1 h0)

theorem append_rel (ap : Apart E n) (r : Rel E n t s) {A : List Metadata} (inv : Inv A s) (hA : A.length < n)
    (m : Submitted) : Agree (Rel E n) (append E t m) (appendMetadata s m.forget) := by
  rw [meta_append_eq]
  unfold append
  rw [getSeg_eq r]
  refine (Agree.refl _).bind fun seg seg0 e0 hseg => ?_
  subst e0
  have hsegA : seg = segOf A := by
    rw [inv.seg, fromRaw_seg] at hseg
    simpa [Outcome.ofOption] using hseg.symm
  have e1 : m.forget.epoch = m.epoch := rfl
  have e2 : m.forget.start = m.start := rfl
  have e3 : m.forget.last = m.last := rfl
  rw [e1, e2, e3]
  split
  · exact .err
  rename_i hep
  have hme : m.epoch.val = A.length := by
    rw [not_or] at hep
    rw [hsegA] at hep
    unfold isEmpty latestEpoch segOf at hep
    simp only [List.length_cons, List.length_map] at hep
    cases A with
    | nil => simpa using hep
    | cons a A => simpa using hep
  refine (Agree.refl _).bind fun l l' hl _ => ?_
  subst hl
  split
  · exact .panic
  split
  · exact .err
  refine (Agree.refl _).bind fun seg' seg'' hs hseg' => ?_
  subst hs
  have hne : seg' ≠ [] := by
    rw [hsegA] at hseg'
    rw [(segOk_append inv.ok hseg').2]
    simp
  refine .ok ?_
  have h1 := rel_seg ap r (v := asBytes seg') (asBytes_ne hne)
  have h2 := rel_record ap h1 (e := m.epoch.val) (by omega)
    ⟨m.start, m.last, m.epoch, m.verifiers, zeroCounts m.verifiers⟩
  have h3 := rel_config ap h2 (encodeConfig_ne t.current m.config)
  have e : (Record.mk m.start m.last m.epoch m.verifiers (zeroCounts m.verifiers)).forget =
      ⟨m.start, m.last, m.epoch, m.verifiers.map (fun v => addr v.address),
        zeroCounter (m.verifiers.map (fun v => addr v.address))⟩ := by
    simp only [Record.forget, zeroCounts_pair]
  rw [e] at h3
  rw [r.current] at h3 ⊢
  exact h3

theorem meta_update_eq (s : Store) (k a : Nat) : Meta.updateCount s k a =
    (Meta.epochByBlock s k).bind fun e => (getInner s e).bind fun i =>
    (Outcome.orPanic (bump a i.counter)).bind fun c =>
    .ok { s with inner := put s.inner i.epoch.val { i with counter := c } } := by
  unfold Meta.updateCount
  cases Meta.epochByBlock s k with
  | ok e =>
    simp only [Outcome.bind]
    cases getInner s e with
    | ok i =>
      simp only
      cases bump a i.counter <;> rfl
    | err => rfl
    | panic => rfl
  | err => rfl
  | panic => rfl

theorem update_rel (ap : Apart E n) (r : Rel E n t s) (sz : Sized E n t) {A : List Metadata} (inv : Inv A s)
    (hA : A.length ≤ n) (k : Nat) (a : H160) :
    Agree (Rel E n) (updateCount E t k a) (Meta.updateCount s k (addr a)) := by
  rw [meta_update_eq]
  unfold updateCount
  rw [epochByBlock_eq r]
  refine (Agree.refl _).bind fun e e' he hk => ?_
  subst he
  have hen := epoch_lt inv hA hk
  refine (getRecord_rel r sz hen).bind fun x i hi hg => ?_
  subst hi
  have hb := bump_pair a x.counter
  have e1 : x.forget.counter = x.counter.map (fun c => (addr c.address, c.count.val)) := rfl
  rw [e1, ← hb]
  cases hc : bumpCount a x.counter with
  | none => exact .panic
  | some c =>
    refine .ok ?_
    have hep : x.epoch.val = e := by
      have := getInner_spec inv e
      cases hm : A[e]? with
      | none => rw [hm] at this; rw [this] at hg; cases hg
      | some m =>
        rw [hm] at this
        obtain ⟨i, hi, hmt⟩ := this
        rw [hi] at hg
        simp only [Outcome.ok.injEq] at hg
        have h1 := hmt.2.2.1
        rw [hg] at h1
        have h2 : x.epoch = m.epoch := h1
        rw [h2]
        exact inv.epoch e m hm
    exact rel_record ap r (e := x.epoch.val) (by omega) { x with counter := c }

theorem setFork_rel (ap : Apart E n) (r : Rel E n t s) (sz : Sized E n t) (f : Fork) :
    ∃ t', setFork E t f = .ok t' ∧
      Rel E n t' { s with forks := some (Meta.setFork s.forks f.number.val f.flags) } := by
  obtain ⟨l, h1, h2⟩ := r.forks
  unfold setFork
  rw [h1, h2]
  cases l with
  | none => exact ⟨_, rfl, rel_forks ap r [f]⟩
  | some l =>
    simp only [Option.map_some]
    rw [decodeForks sz h1]
    refine ⟨_, rfl, ?_⟩
    have := rel_forks ap r (pushFork l f)
    rw [pushFork_pair] at this
    exact this

/-! ## Lengths -/

/-- No value is longer than a `Vec` can be (`isize::MAX`). -/
def Held (E : Env) (n : Nat) (t : TStore) : Prop :=
  ∀ k v, IsKey E n k → t.look E k = some v → v.length < 2 ^ 63

theorem Held.sized (h : Held E n t) : Sized E n t := fun k v hk hv => by
  have := h k v hk hv
  omega

theorem encPayload_le (p : Bytes) (h : p.length < 2 ^ 64) : (encPayload p).length ≤ p.length + 9 := by
  unfold encPayload
  split
  · simp
  · have := beBytes_length_le p.length 8 (by simpa using h)
    simp [longHeader]; omega

theorem encode_forkItem_length (f : Fork) : (encode (forkItem f)).length ≤ 60 := by
  have h1 := encode_ofUint_length f.number
  have h2 : (encode (ofFixed f.flags)).length ≤ 33 := by
    unfold ofFixed
    rw [encode]
    have := encStr_length_le f.flags.bytes (by rw [f.flags.len]; omega)
    rw [f.flags.len] at this
    omega
  unfold forkItem
  rw [encode]
  have h3 : (encodeMany [ofUint f.number, ofFixed f.flags]).length ≤ 42 := by
    simp only [encodeMany, List.length_append, List.length_nil]
    omega
  have := encPayload_le _ (show (encodeMany [ofUint f.number, ofFixed f.flags]).length < 2 ^ 64 by omega)
  omega

theorem payload_lt (p : Bytes) : p.length < (encPayload p).length := encPayload_length p

theorem encodeMany_dropLast_le (l : List Item) : (encodeMany l.dropLast).length ≤ (encodeMany l).length := by
  induction l with
  | nil => simp
  | cons x l ih =>
    cases l with
    | nil => simp [encodeMany]
    | cons y l =>
      rw [List.dropLast_cons_cons, encodeMany, encodeMany]
      simp only [List.length_append]
      omega

/-- The list with one more entry is at most 100 bytes longer. -/
theorem push_length (l : List Fork) (f : Fork) (h : (encode (forksItem l)).length < 2 ^ 63) :
    (encode (forksItem (pushFork l f))).length < 2 ^ 64 := by
  have hl : (encodeMany (l.map forkItem)).length < (encode (forksItem l)).length := by
    unfold forksItem
    simp only [encode, encodeMany, List.append_nil]
    exact Nat.lt_trans (payload_lt _) (payload_lt _)
  have key : ∀ l' : List Fork, (encodeMany (l'.map forkItem)).length ≤ (encodeMany (l.map forkItem)).length + 60 →
      (encode (forksItem l')).length < 2 ^ 64 := by
    intro l' h'
    unfold forksItem
    simp only [encode, encodeMany, List.append_nil]
    have h1 := encPayload_le (encodeMany (l'.map forkItem)) (by omega)
    have h2 := encPayload_le (encPayload (encodeMany (l'.map forkItem))) (by omega)
    omega
  have one : ∀ x : Fork, (encodeMany ([x].map forkItem)).length ≤ 60 := by
    intro x
    simp only [List.map_cons, List.map_nil, encodeMany, List.append_nil]
    exact encode_forkItem_length x
  apply key
  unfold pushFork
  split
  · have := one f; omega
  · rename_i i hi
    simp only
    split
    · omega
    · split
      · rw [List.map_append, Trie.encodeMany_append, List.length_append, List.map_dropLast]
        have h1 := encodeMany_dropLast_le (l.map forkItem)
        have h2 := one { i with flags := orH f.flags i.flags }
        omega
      · rw [List.map_append, Trie.encodeMany_append, List.length_append]
        have h2 := one ⟨f.number, orH f.flags i.flags⟩
        omega

theorem single_length (f : Fork) : (encode (forksItem [f])).length < 2 ^ 64 := by
  have h0 := encode_forkItem_length f
  unfold forksItem
  simp only [encode, encodeMany, List.append_nil, List.map_cons, List.map_nil]
  have h1 := encPayload_le (encode (forkItem f)) (by omega)
  have h2 := encPayload_le (encPayload (encode (forkItem f))) (by omega)
  omega

theorem sized_write (ap : Apart E n) (sz : Sized E n t) {k v : Bytes} (hk : IsKey E n k) (hv : v ≠ [])
    (hl : v.length < 2 ^ 64) : Sized E n (t.write E k v) := by
  intro j w hj hw
  rw [look_write ap t hj hk hv] at hw
  split at hw
  · simp only [Option.some.injEq] at hw; rw [← hw]; exact hl
  · exact sz j w hj hw

theorem setFork_rel' (ap : Apart E n) (r : Rel E n t s) (hd : Held E n t) (f : Fork) :
    ∃ t', setFork E t f = .ok t' ∧ Sized E n t' ∧ t'.current = t.current ∧
      Rel E n t' { s with forks := some (Meta.setFork s.forks f.number.val f.flags) } := by
  obtain ⟨t', h1, h2⟩ := setFork_rel ap r hd.sized f
  refine ⟨t', h1, ?_, ?_, h2⟩
  all_goals
    unfold setFork at h1
    split at h1
    · rename_i raw hraw
      cases hdec : decodeWith itemForks raw with
      | ok l =>
        rw [hdec] at h1
        simp only [Outcome.bind, Outcome.ok.injEq] at h1
        subst h1
        first
          | rfl
          | (obtain ⟨l0, h3, -⟩ := r.forks
             rw [hraw] at h3
             cases l0 with
             | none => cases h3
             | some l0 =>
               simp only [Option.map_some, Option.some.injEq] at h3
               have h4 := hd _ _ .forks hraw
               rw [h3] at hdec h4
               rw [decodeWith_encode (itemForks_item l0) (by omega)] at hdec
               simp only [Outcome.ok.injEq] at hdec
               subst hdec
               exact sized_write ap hd.sized .forks (encode_ne _) (push_length _ _ h4))
      | err => rw [hdec] at h1; cases h1
      | panic => rw [hdec] at h1; cases h1
    · simp only [Outcome.ok.injEq] at h1
      subst h1
      first
        | rfl
        | exact sized_write ap hd.sized .forks (encode_ne _) (single_length f)

/-! ## Steps -/

theorem meta_hook_eq (s : Store) (k : Nat) (x : Option (Nat × H256)) (a : Nat) (hk : k ≠ 0) :
    Meta.hook s k x a = unwrap (Meta.updateCount { s with
        forks := forksAfter s.forks x
        current := Meta.forkAt ((forksAfter s.forks x).getD []) k } k a) := by
  unfold Meta.hook
  rw [if_neg hk]
  generalize Meta.updateCount _ k a = o
  cases o <;> rfl

theorem sized_current (sz : Sized E n t) (f : H256) : Sized E n { t with current := f } := sz

theorem hook_rel (ap : Apart E n) (r : Rel E n t s) (hd : Held E n t) {A : List Metadata} (inv : Inv A s)
    (hA : A.length ≤ n) (k : Nat) (x : List Bytes) (a : H160) :
    Agree (Rel E n) (hook E t k x a) (Meta.hook s k ((extraFork x).map Fork.pair) (addr a)) := by
  by_cases hk : k = 0
  · unfold hook Meta.hook
    rw [if_pos hk, if_pos hk]
    exact .ok r
  · rw [meta_hook_eq _ _ _ _ hk]
    unfold hook
    rw [if_neg hk]
    have fin : ∀ t' s', Rel E n t' s' → Sized E n t' → Inv A s' →
        Agree (Rel E n) ((unwrap (forkAt E t' k)).bind fun flags =>
          unwrap (updateCount E { t' with current := flags } k a))
          (unwrap (Meta.updateCount { s' with current := Meta.forkAt (s'.forks.getD []) k } k (addr a))) := by
      intro t' s' r' sz' inv'
      rw [forkAt_rel r' sz' k]
      show Agree _ (unwrap (updateCount E _ k a)) _
      refine (update_rel ap (rel_current r' _) (sized_current sz' _) (A := A) ?_ hA k a).unwrap
      exact ⟨inv'.seg, inv'.ok, inv'.epoch, inv'.start, inv'.inner, inv'.config, inv'.readable⟩
    cases hx : extraFork x with
    | none => exact fin t s r hd.sized inv
    | some f =>
      obtain ⟨t', h1, h2, -, h4⟩ := setFork_rel' ap r hd f
      simp only
      rw [h1]
      exact fin t' _ h4 h2 ⟨inv.seg, inv.ok, inv.epoch, inv.start, inv.inner, inv.config, inv.readable⟩

theorem runCall_rel (ap : Apart E n) (r : Rel E n t s) {A : List Metadata} (inv : Inv A s) (hA : A.length < n)
    (c : Call) : Agree (Rel E n) (runCall E t c) (Meta.runCall s c.forget) := by
  cases c with
  | append m => exact append_rel ap r inv hA m
  | ckb i => exact .ok (rel_ckb ap r i)
  | config c =>
    have := rel_config ap r (encodeConfig_ne t.current c)
    unfold runCall Meta.runCall Call.forget
    simp only
    rw [r.current] at this ⊢
    exact .ok this

/-- Related stores and the same success. -/
def RelB (E : Env) (n : Nat) (x : TStore × Bool) (y : Store × Bool) : Prop := Rel E n x.1 y.1 ∧ x.2 = y.2

theorem exec_rel (ap : Apart E n) (r : Rel E n t s) (hd : Held E n t) {A : List Metadata} (inv : Inv A s)
    (hA : A.length < n) (b : Nat) (a : H160) (c : Option Call) :
    Agree (RelB E n) (exec E t b a c) (Meta.exec s b (addr a) (c.map Call.forget)) := by
  unfold exec Meta.exec
  rw [isValidator_eq r hd.sized ap inv (Nat.le_of_lt hA) b a]
  generalize (if b = 0 then Outcome.ok true else Meta.isValidator s b (addr a)) = o
  cases o with
  | panic => exact .panic
  | err => exact .ok ⟨r, rfl⟩
  | ok v =>
    cases v with
    | false => exact .ok ⟨r, rfl⟩
    | true =>
      cases c with
      | none => exact .ok ⟨r, rfl⟩
      | some c =>
        simp only [Option.map_some]
        have h := runCall_rel ap r inv hA c
        revert h
        generalize runCall E t c = x
        generalize Meta.runCall s c.forget = y
        intro h
        cases h with
        | ok h => exact .ok ⟨h, rfl⟩
        | err => exact .ok ⟨r, rfl⟩
        | panic => exact .panic

theorem origin_eq (p : H160) (l : List H160) :
    addr (l.getLast?.getD p) = originAtEnd (addr p) (l.map addr) := by
  unfold originAtEnd
  rw [List.getLast?_map]
  cases l.getLast? <;> rfl

theorem step_rel (ap : Apart E n) (r : Rel E n t s) (hd : Held E n t) {A : List Metadata} (inv : Inv A s)
    (hA : A.length < n) (o : Op) : Agree (RelB E n) (step E t o) (Meta.step s o.forget) := by
  cases o with
  | tx b a c => exact exec_rel ap r hd inv hA b a c
  | endBlock k x p l =>
    have h := hook_rel ap r hd inv (Nat.le_of_lt hA) k x (l.getLast?.getD p)
    rw [origin_eq] at h
    show Agree _ ((hook E t k x (l.getLast?.getD p)).bind fun t' => .ok (t', true))
      (match Meta.hook s k ((extraFork x).map Fork.pair) (originAtEnd (addr p) (l.map addr)) with
        | .ok s' => .ok (s', true)
        | .err => .err
        | .panic => .panic)
    revert h
    generalize hook E t k x (l.getLast?.getD p) = u
    generalize Meta.hook s k ((extraFork x).map Fork.pair) (originAtEnd (addr p) (l.map addr)) = v
    intro h
    cases h with
    | ok h => exact .ok ⟨h, rfl⟩
    | err => exact .err
    | panic => exact .panic

theorem rel_init (ap : Apart E n) : Rel E n (TStore.init E) Store.init := by
  have look0 : ∀ k, TStore.look E ⟨.empty, zeroH⟩ k = none := fun k => rfl
  obtain ⟨h1, h2, h3, -, -, -⟩ := keys_ne ap
  have hv : asBytes segNew ≠ [] := by decide
  unfold TStore.init
  refine ⟨?_, ?_, ⟨none, ?_, rfl⟩, ⟨none, ?_, rfl⟩, ?_, rfl⟩
  · rw [look_write ap _ .seg .seg hv, if_pos rfl]; rfl
  · rw [look_write ap _ .config .seg hv, if_neg h2.symm]; exact look0 _
  · rw [look_write ap _ .forks .seg hv, if_neg h3.symm]; exact look0 _
  · rw [look_write ap _ .ckb .seg hv, if_neg h1.symm]; exact look0 _
  · intro e he
    refine ⟨none, ?_, rfl⟩
    rw [look_write ap _ (.epoch he) .seg hv, if_neg (key_ne_epoch _ _).symm]; exact look0 _

/-! ## Everything that was submitted -/

/-- The metadata an operation submits. -/
def appendOf : Op → Option Submitted
  | .tx _ _ (some (.append m)) => some m
  | _ => none

/-- The CKB information an operation submits. -/
def ckbOf : Op → Option CkbInfo
  | .tx _ _ (some (.ckb i)) => some i
  | _ => none

/-- The metadata accepted so far, oldest first. -/
def accepted (ops : List Op) : List Submitted := ops.filterMap appendOf

theorem appended_forget (ops : List Op) : appended (ops.map Op.forget) = (accepted ops).map Submitted.forget := by
  induction ops with
  | nil => rfl
  | cons o ops ih =>
    unfold accepted at ih ⊢
    rw [List.filterMap_cons]
    cases o with
    | endBlock n x p l => simpa [appended, Op.forget, appendOf] using ih
    | tx b a c =>
      cases c with
      | none => simpa [appended, Op.forget, appendOf] using ih
      | some c => cases c <;> simpa [appended, Op.forget, appendOf, Call.forget] using ih

/-- The records hold the submitted validators with all their fields, and the CKB information is the one
submitted last. -/
structure Full (E : Env) (ops : List Op) (t : TStore) : Prop where
  verifiers : ∀ (e : Nat) (m : Submitted), (accepted ops)[e]? = some m →
    ∃ r, t.look E (epochKey e) = some (encode (recordItem r)) ∧ r.verifiers = m.verifiers
  ckb : t.look E E.keys.ckb.bytes = (ops.filterMap ckbOf).getLast?.map (fun c => encode (ckbItem c))

theorem full_write {ops ops' : List Op} (ap : Apart E n) (f : Full E ops t) (hA : (accepted ops).length ≤ n)
    (h1 : accepted ops' = accepted ops) (h2 : ops'.filterMap ckbOf = ops.filterMap ckbOf) {k v : Bytes}
    (hk : IsKey E n k) (hv : v ≠ []) (hck : E.keys.ckb.bytes ≠ k) (hep : ∀ e, epochKey e ≠ k) :
    Full E ops' (t.write E k v) := by
  refine ⟨?_, ?_⟩
  · intro e m hm
    rw [h1] at hm
    have := (List.getElem?_eq_some_iff.1 hm).1
    rw [look_write ap t (.epoch (e := e) (by omega)) hk hv, if_neg (hep e)]
    exact f.verifiers e m hm
  · rw [h2, look_write ap t .ckb hk hv, if_neg hck]
    exact f.ckb

theorem full_same {ops ops' : List Op} (f : Full E ops t) (h1 : accepted ops' = accepted ops)
    (h2 : ops'.filterMap ckbOf = ops.filterMap ckbOf) (c : H256) : Full E ops' { t with current := c } :=
  ⟨fun e m hm => f.verifiers e m (by rw [← h1]; exact hm), by rw [h2]; exact f.ckb⟩

theorem full_update {ops : List Op} (ap : Apart E n) (r : Rel E n t s) (sz : Sized E n t) (f : Full E ops t)
    {A : List Metadata} (inv : Inv A s) (hlen : A.length = (accepted ops).length) (hA : A.length ≤ n) {k : Nat}
    {a : H160} {t' : TStore} (h : updateCount E t k a = .ok t') : Full E ops t' := by
  unfold updateCount at h
  rw [epochByBlock_eq r] at h
  cases he : Meta.epochByBlock s k with
  | err => rw [he] at h; cases h
  | panic => rw [he] at h; cases h
  | ok e =>
    rw [he] at h
    have hen := epoch_lt inv hA he
    obtain ⟨o, h1, h2⟩ := r.inner e hen
    cases o with
    | none =>
      simp only [Outcome.bind, getRecord] at h
      rw [h1] at h
      cases h
    | some x =>
      have hg : getRecord E t e = .ok x := by
        unfold getRecord
        rw [h1]
        exact decodeWith_encode (itemRecord_item x) (sz _ _ (.epoch hen) h1)
      simp only [Outcome.bind] at h
      rw [hg] at h
      simp only at h
      cases hb : bumpCount a x.counter with
      | none => rw [hb] at h; cases h
      | some c =>
        rw [hb] at h
        simp only [Outcome.orPanic, Outcome.ok.injEq] at h
        subst h
        have hep : x.epoch.val = e := by
          have h3 := getInner_spec inv e
          have h4 : getInner s e = .ok x.forget := by unfold getInner; rw [h2]; rfl
          cases hm : A[e]? with
          | none => rw [hm] at h3; rw [h3] at h4; cases h4
          | some m =>
            rw [hm] at h3
            obtain ⟨i, hi, hmt⟩ := h3
            rw [hi] at h4
            simp only [Outcome.ok.injEq] at h4
            have h5 := hmt.2.2.1
            rw [h4] at h5
            have h6 : x.epoch = m.epoch := h5
            rw [h6]
            exact inv.epoch e m hm
        rw [hep]
        refine ⟨?_, ?_⟩
        · intro e' m hm
          have hlt := (List.getElem?_eq_some_iff.1 hm).1
          have hen' : e' < n := by omega
          rw [look_write ap t (.epoch hen') (.epoch hen) (encode_ne _)]
          by_cases hee : e' = e
          · subst hee
            rw [if_pos rfl]
            obtain ⟨r0, h3, h4⟩ := f.verifiers e' m hm
            rw [h1] at h3
            simp only [Option.map_some, Option.some.injEq] at h3
            have h5 : x = r0 := by
              have hl : (encode (recordItem x)).length < 2 ^ 64 := sz _ _ (.epoch hen') h1
              have ha := decodeWith_encode (itemRecord_item x) hl
              rw [h3] at ha hl
              rw [decodeWith_encode (itemRecord_item r0) hl] at ha
              simpa using ha.symm
            exact ⟨_, rfl, by simp only; rw [h5]; exact h4⟩
          · rw [if_neg (fun hk => hee ((epochKey_inj ap.le hen' hen).1 hk))]
            exact f.verifiers e' m hm
        · rw [look_write ap t .ckb (.epoch hen) (encode_ne _), if_neg (key_ne_epoch _ _)]
          exact f.ckb

theorem full_append {ops : List Op} (ap : Apart E n) (r : Rel E n t s) (f : Full E ops t) {A : List Metadata}
    (inv : Inv A s) (hlen : A.length = (accepted ops).length) (hA : A.length < n) {m : Submitted} {t' : TStore}
    {b : Nat} {a : H160} (h : append E t m = .ok t') :
    Full E (ops ++ [.tx b a (some (.append m))]) t' := by
  obtain ⟨-, -, -, h4, -, -⟩ := keys_ne ap
  obtain ⟨h1, -, -, -, -, -⟩ := keys_ne ap
  have hag := append_rel ap r inv hA m
  rw [h] at hag
  generalize hy : appendMetadata s m.forget = y at hag
  cases hag with
  | ok hr =>
    have hinv := appendMetadata_inv inv hy
    have hme : m.epoch.val = A.length := by
      have := hinv.epoch A.length m.forget (by simp)
      exact this
    unfold append at h
    rw [getSeg_eq r, inv.seg, fromRaw_seg] at h
    simp only [Outcome.ofOption, Outcome.bind] at h
    split at h
    · cases h
    split at h
    · rename_i l hl
      split at h
      · cases h
      split at h
      · cases h
      split at h
      · rename_i seg' hseg'
        simp only [Outcome.ok.injEq] at h
        have hne : asBytes seg' ≠ [] := by
          apply asBytes_ne
          rw [(segOk_append inv.ok hseg').2]
          simp
        have hen : m.epoch.val < n := by omega
        subst h
        refine ⟨?_, ?_⟩
        · intro e x hx
          have hacc : accepted (ops ++ [.tx b a (some (.append m))]) = accepted ops ++ [m] := by
            simp [accepted, appendOf]
          rw [hacc] at hx
          have hlt := (List.getElem?_eq_some_iff.1 hx).1
          simp only [List.length_append, List.length_cons, List.length_nil] at hlt
          have he : e < n := by omega
          rw [look_write ap _ (.epoch he) .config (encodeConfig_ne _ _), if_neg (key_ne_epoch _ _).symm,
            look_write ap _ (.epoch he) (.epoch hen) (encode_ne _)]
          by_cases hee : e = m.epoch.val
          · rw [hee, if_pos rfl]
            have : e = (accepted ops).length := by omega
            rw [this] at hx
            simp only [List.getElem?_append_right (Nat.le_refl _), Nat.sub_self, List.getElem?_cons_zero,
              Option.some.injEq] at hx
            subst hx
            exact ⟨_, rfl, rfl⟩
          · rw [if_neg (fun hk => hee ((epochKey_inj ap.le he hen).1 hk)),
              look_write ap _ (.epoch he) .seg hne, if_neg (key_ne_epoch _ _).symm]
            rw [List.getElem?_append_left (by omega)] at hx
            exact f.verifiers e x hx
        · have : (ops ++ [Op.tx b a (some (.append m))]).filterMap ckbOf = ops.filterMap ckbOf := by
            simp [ckbOf]
          rw [this, look_write ap _ .ckb .config (encodeConfig_ne _ _), if_neg h4,
            look_write ap _ .ckb (.epoch hen) (encode_ne _), if_neg (key_ne_epoch _ _),
            look_write ap _ .ckb .seg hne, if_neg h1.symm]
          exact f.ckb
      · cases h
      · cases h
    · cases h
    · cases h

theorem full_step {ops : List Op} (ap : Apart E n) (r : Rel E n t s) (hd : Held E n t) (f : Full E ops t)
    {A : List Metadata} (inv : Inv A s) (hlen : A.length = (accepted ops).length) (hA : A.length < n) {o : Op}
    {t' : TStore} (h : step E t o = .ok (t', true)) : Full E (ops ++ [o]) t' := by
  obtain ⟨-, -, -, h4, h5, -⟩ := keys_ne ap
  cases o with
  | tx b a c =>
    unfold step exec at h
    simp only at h
    split at h
    · cases h
    · simp at h
    · simp at h
    · split at h
      · simp at h
      · rename_i c
        split at h
        · rename_i t'' hc
          simp only [Outcome.ok.injEq, Prod.mk.injEq, and_true] at h
          subst h
          cases c with
          | append m => exact full_append ap r f inv hlen hA hc
          | ckb i =>
            simp only [runCall, Outcome.ok.injEq] at hc
            subst hc
            refine ⟨?_, ?_⟩
            · intro e m hm
              have hacc : accepted (ops ++ [.tx b a (some (.ckb i))]) = accepted ops := by
                simp [accepted, appendOf]
              rw [hacc] at hm
              have hlt := (List.getElem?_eq_some_iff.1 hm).1
              rw [look_write ap t (.epoch (e := e) (by omega)) .ckb (encode_ne _), if_neg (key_ne_epoch _ _).symm]
              exact f.verifiers e m hm
            · rw [look_write ap t .ckb .ckb (encode_ne _), if_pos rfl]
              simp [ckbOf]
          | config c =>
            simp only [runCall, Outcome.ok.injEq] at hc
            subst hc
            exact full_write ap f (by omega) (by simp [accepted, appendOf]) (by simp [ckbOf]) .config
              (encodeConfig_ne _ _) h4 (fun e => (key_ne_epoch _ e).symm)
        · simp at h
        · cases h
  | endBlock k x p l =>
    have ha : accepted (ops ++ [.endBlock k x p l]) = accepted ops := by simp [accepted, appendOf]
    have hc : (ops ++ [Op.endBlock k x p l]).filterMap ckbOf = ops.filterMap ckbOf := by simp [ckbOf]
    unfold step at h
    simp only at h
    cases hh : hook E t k x (l.getLast?.getD p) with
    | err => rw [hh] at h; cases h
    | panic => rw [hh] at h; cases h
    | ok t1 =>
      rw [hh] at h
      simp only [Outcome.bind, Outcome.ok.injEq, Prod.mk.injEq, and_true] at h
      subst h
      unfold hook at hh
      split at hh
      · simp only [Outcome.ok.injEq] at hh
        subst hh
        exact full_same f ha hc t.current
      · have fin : ∀ u s', Rel E n u s' → Sized E n u → Full E ops u → Inv A s' →
            ((unwrap (forkAt E u k)).bind fun flags =>
              unwrap (updateCount E { u with current := flags } k (l.getLast?.getD p))) = .ok t1 →
            Full E (ops ++ [.endBlock k x p l]) t1 := by
          intro u s' r' sz' f' inv' h
          rw [forkAt_rel r' sz' k] at h
          simp only [unwrap, Outcome.bind] at h
          split at h
          · rename_i t2 h2
            simp only [Outcome.ok.injEq] at h
            subst h
            have := full_update ap (rel_current r' (Meta.forkAt (s'.forks.getD []) k)) (sized_current sz' _)
              (full_same f' rfl rfl _) (A := A) ⟨inv'.seg, inv'.ok, inv'.epoch, inv'.start, inv'.inner, inv'.config, inv'.readable⟩ hlen
              (by omega) h2
            exact full_same this ha hc t2.current
          · cases h
        cases hx : extraFork x with
        | none =>
          rw [hx] at hh
          exact fin t s r hd.sized f inv hh
        | some fk =>
          rw [hx] at hh
          obtain ⟨t2, h1, h2, -, h4'⟩ := setFork_rel' ap r hd fk
          simp only at hh
          rw [h1] at hh
          refine fin t2 _ h4' h2 ?_ ⟨inv.seg, inv.ok, inv.epoch, inv.start, inv.inner, inv.config, inv.readable⟩ hh
          unfold setFork at h1
          split at h1
          · rename_i raw hraw
            cases hdec : decodeWith itemForks raw with
            | err => rw [hdec] at h1; cases h1
            | panic => rw [hdec] at h1; cases h1
            | ok lf =>
              rw [hdec] at h1
              simp only [Outcome.bind, Outcome.ok.injEq] at h1
              subst h1
              exact full_write ap f (by omega) rfl rfl .forks (encode_ne _) h5 (fun e => (key_ne_epoch _ e).symm)
          · simp only [Outcome.ok.injEq] at h1
            subst h1
            exact full_write ap f (by omega) rfl rfl .forks (encode_ne _) h5 (fun e => (key_ne_epoch _ e).symm)

theorem full_init (ap : Apart E n) : Full E [] (TStore.init E) := by
  refine ⟨by intro e m h; simp [accepted] at h, ?_⟩
  obtain ⟨h1, -⟩ := keys_ne ap
  unfold TStore.init
  rw [look_write ap _ .ckb .seg (by decide), if_neg h1.symm]
  rfl

theorem step_failed {o : Op} {t' : TStore} (h : step E t o = .ok (t', false)) : t' = t := by
  cases o with
  | tx b a c =>
    unfold step exec at h
    simp only at h
    split at h
    · cases h
    · simp at h; exact h.symm
    · simp at h; exact h.symm
    · split at h
      · simp at h; exact h.symm
      · split at h
        · simp at h
        · simp at h; exact h.symm
        · cases h
  | endBlock k x p l =>
    unfold step at h
    simp only at h
    cases hh : hook E t k x (l.getLast?.getD p) with
    | err => rw [hh] at h; cases h
    | panic => rw [hh] at h; cases h
    | ok t1 => rw [hh] at h; simp [Outcome.bind] at h

/-! ## Tries stay in normal form -/

theorem canon_write (h : Trie.Canon t.trie) (k v : Bytes) : Trie.Canon (t.write E k v).trie :=
  Trie.canon_put h _ _

/-- A property of tries that insertions keep. -/
def Kept (E : Env) (P : Trie.Node → Prop) : Prop := ∀ u k v, P u → P (Trie.mptInsert E.H u k v)

variable {P : Trie.Node → Prop}

theorem keep_write (hp : Kept E P) (h : P t.trie) (k v : Bytes) : P (t.write E k v).trie := hp _ _ _ h

theorem keep_update (hp : Kept E P) {k : Nat} {a : H160} {t' : TStore} (h : P t.trie)
    (hu : updateCount E t k a = .ok t') : P t'.trie := by
  unfold updateCount at hu
  cases h1 : epochByBlock E t k with
  | err => rw [h1] at hu; cases hu
  | panic => rw [h1] at hu; cases hu
  | ok e =>
    rw [h1] at hu
    simp only [Outcome.bind] at hu
    cases h2 : getRecord E t e with
    | err => rw [h2] at hu; cases hu
    | panic => rw [h2] at hu; cases hu
    | ok r =>
      rw [h2] at hu
      simp only at hu
      cases h3 : bumpCount a r.counter with
      | none => rw [h3] at hu; cases hu
      | some c =>
        rw [h3] at hu
        simp only [Outcome.orPanic, Outcome.ok.injEq] at hu
        subst hu
        exact keep_write hp h _ _

theorem keep_setFork (hp : Kept E P) {f : Fork} {t' : TStore} (h : P t.trie) (hs : setFork E t f = .ok t') :
    P t'.trie := by
  unfold setFork at hs
  split at hs
  · rename_i raw hraw
    cases hd : decodeWith itemForks raw with
    | err => rw [hd] at hs; cases hs
    | panic => rw [hd] at hs; cases hs
    | ok l =>
      rw [hd] at hs
      simp only [Outcome.bind, Outcome.ok.injEq] at hs
      subst hs
      exact keep_write hp h _ _
  · simp only [Outcome.ok.injEq] at hs
    subst hs
    exact keep_write hp h _ _

theorem keep_append (hp : Kept E P) {m : Submitted} {t' : TStore} (h : P t.trie) (ha : append E t m = .ok t') :
    P t'.trie := by
  unfold append at ha
  cases h1 : getSeg E t with
  | err => rw [h1] at ha; cases ha
  | panic => rw [h1] at ha; cases ha
  | ok seg =>
    rw [h1] at ha
    simp only [Outcome.bind] at ha
    split at ha
    · cases ha
    split at ha
    · split at ha
      · cases ha
      split at ha
      · cases ha
      split at ha
      · simp only [Outcome.ok.injEq] at ha
        subst ha
        exact keep_write hp (keep_write hp (keep_write hp h _ _) _ _) _ _
      · cases ha
      · cases ha
    · cases ha
    · cases ha

theorem keep_step (hp : Kept E P) {o : Op} {t' : TStore} {b : Bool} (h : P t.trie) (hs : step E t o = .ok (t', b)) :
    P t'.trie := by
  cases b with
  | false => rw [step_failed hs]; exact h
  | true =>
    cases o with
    | tx bl a c =>
      unfold step exec at hs
      simp only at hs
      split at hs
      · cases hs
      · simp at hs
      · simp at hs
      · split at hs
        · simp at hs
        · rename_i c
          split at hs
          · rename_i t'' hc
            simp only [Outcome.ok.injEq, Prod.mk.injEq, and_true] at hs
            subst hs
            cases c with
            | append m => exact keep_append hp h hc
            | ckb i =>
              simp only [runCall, Outcome.ok.injEq] at hc
              subst hc
              exact keep_write hp h _ _
            | config c =>
              simp only [runCall, Outcome.ok.injEq] at hc
              subst hc
              exact keep_write hp h _ _
          · simp at hs
          · cases hs
    | endBlock k x p l =>
      unfold step at hs
      simp only at hs
      cases hh : hook E t k x (l.getLast?.getD p) with
      | err => rw [hh] at hs; cases hs
      | panic => rw [hh] at hs; cases hs
      | ok t1 =>
        rw [hh] at hs
        simp only [Outcome.bind, Outcome.ok.injEq, Prod.mk.injEq, and_true] at hs
        subst hs
        unfold hook at hh
        split at hh
        · simp only [Outcome.ok.injEq] at hh
          subst hh
          exact h
        · have fin : ∀ u : TStore, P u.trie → ((unwrap (forkAt E u k)).bind fun flags =>
              unwrap (updateCount E { u with current := flags } k (l.getLast?.getD p))) = .ok t1 →
              P t1.trie := by
            intro u hu h
            cases hf : forkAt E u k with
            | err => rw [hf] at h; cases h
            | panic => rw [hf] at h; cases h
            | ok fl =>
              rw [hf] at h
              simp only [unwrap, Outcome.bind] at h
              split at h
              · rename_i t2 h2
                simp only [Outcome.ok.injEq] at h
                subst h
                exact keep_update hp (t := { u with current := fl }) hu h2
              · cases h
          cases hx : extraFork x with
          | none => rw [hx] at hh; exact fin t h hh
          | some f =>
            rw [hx] at hh
            simp only at hh
            cases hsf : setFork E t f with
            | err => rw [hsf] at hh; cases hh
            | panic => rw [hsf] at hh; cases hh
            | ok t2 =>
              rw [hsf] at hh
              exact fin t2 (keep_setFork hp h hsf) hh

theorem canon_step {o : Op} {t' : TStore} {b : Bool} (h : Trie.Canon t.trie) (hs : step E t o = .ok (t', b)) :
    Trie.Canon t'.trie :=
  keep_step (P := Trie.Canon) (fun _ _ _ hu => Trie.canon_put hu _ _) h hs

end
end Axon.MetaTrie
