import Verif.Executor.SystemAbiLemmas
import Verif.Cells.ReadProps

/-!
# C123: call data of the system contracts

Specification: call data mean the call they encode, whatever comes behind; the first four bytes decide on the
method; no call data make the decoder panic; every decoded list is paid for by its own length in the data.
-/

namespace Axon.SysAbi
open Axon.Abi Axon.Cells

/-- The first four bytes of a call. -/
def MetaCall.sel : MetaCall → Bytes
  | .append _ => [0x53, 0xec, 0x79, 0xe6]
  | .ckb _ => [0x80, 0x4a, 0xfc, 0x59]
  | .config _ => [0xb7, 0x6f, 0xac, 0x01]

def ImageCall.sel : ImageCall → Bytes
  | .rollback _ => [0x08, 0xc1, 0x72, 0x28]
  | .setState _ => [0xac, 0x9f, 0x02, 0x22]
  | .update _ => [0xaf, 0xa7, 0x4e, 0x04]

def LightCall.sel : LightCall → Bytes
  | .rollback _ => [0xd3, 0x2a, 0x22, 0x85]
  | .setState _ => [0xac, 0x9f, 0x02, 0x22]
  | .update _ => [0x5d, 0x4e, 0x84, 0x42]

/-- C123: an encoded call decodes to itself, also with more bytes behind it. -/
theorem C123_round (more : Bytes) :
    (∀ c, (encodeMeta c ++ more).length < 2 ^ 32 → decodeMeta (encodeMeta c ++ more) = .ok c) ∧
    (∀ c, (encodeImage c ++ more).length < 2 ^ 32 → decodeImage (encodeImage c ++ more) = .ok c) ∧
    (∀ c, (encodeLight c ++ more).length < 2 ^ 32 → decodeLight (encodeLight c ++ more) = .ok c) := by
  have tk : ∀ {α : Type} {sel : Bytes} (c : Codec α) (a : α), sel.length = 4 →
      (encodeCall sel c a ++ more).take 4 = sel := by
    intro α sel c a h
    simp only [encodeCall, List.append_assoc]
    exact List.take_left' h
  refine ⟨fun c h => ?_, fun c h => ?_, fun c h => ?_⟩
  · cases c with
    | append m =>
      simp only [encodeMeta] at h ⊢
      simp only [decodeMeta, decodeCall_encodeCall _ _ _ _ rfl h, attempt]
    | ckb i =>
      simp only [encodeMeta] at h ⊢
      simp only [decodeMeta]
      rw [decodeCall_other _ (by rw [tk _ _ rfl]; decide), decodeCall_encodeCall _ _ _ _ rfl h]
      rfl
    | config i =>
      simp only [encodeMeta] at h ⊢
      simp only [decodeMeta]
      rw [decodeCall_other _ (by rw [tk _ _ rfl]; decide), decodeCall_other _ (by rw [tk _ _ rfl]; decide),
        decodeCall_encodeCall _ _ _ _ rfl h]
      rfl
  · cases c with
    | rollback m =>
      simp only [encodeImage] at h ⊢
      simp only [decodeImage, decodeCall_encodeCall _ _ _ _ rfl h, attempt]
    | setState i =>
      simp only [encodeImage] at h ⊢
      simp only [decodeImage]
      rw [decodeCall_other _ (by rw [tk _ _ rfl]; decide), decodeCall_encodeCall _ _ _ _ rfl h]
      rfl
    | update i =>
      simp only [encodeImage] at h ⊢
      simp only [decodeImage]
      rw [decodeCall_other _ (by rw [tk _ _ rfl]; decide), decodeCall_other _ (by rw [tk _ _ rfl]; decide),
        decodeCall_encodeCall _ _ _ _ rfl h]
      rfl
  · cases c with
    | rollback m =>
      simp only [encodeLight] at h ⊢
      simp only [decodeLight, decodeCall_encodeCall _ _ _ _ rfl h, attempt]
    | setState i =>
      simp only [encodeLight] at h ⊢
      simp only [decodeLight]
      rw [decodeCall_other _ (by rw [tk _ _ rfl]; decide), decodeCall_encodeCall _ _ _ _ rfl h]
      rfl
    | update i =>
      simp only [encodeLight] at h ⊢
      simp only [decodeLight]
      rw [decodeCall_other _ (by rw [tk _ _ rfl]; decide), decodeCall_other _ (by rw [tk _ _ rfl]; decide),
        decodeCall_encodeCall _ _ _ _ rfl h]
      rfl

/-- C123: no call data and no precompile input make the decoder panic. -/
theorem C123_no_panic (data : Bytes) :
    decodeMeta data ≠ .panic ∧ decodeImage data ≠ .panic ∧ decodeLight data ≠ .panic ∧
    decodeStruct outPointF data ≠ .panic ∧ decodeStruct (lastF hashC) data ≠ .panic ∧
    decodeStruct headerF data ≠ .panic :=
  ⟨attempt_ne_panic (decodeCall_ne_panic _ _ _) <| attempt_ne_panic (decodeCall_ne_panic _ _ _) <|
      attempt_ne_panic (decodeCall_ne_panic _ _ _) (by simp),
    attempt_ne_panic (decodeCall_ne_panic _ _ _) <| attempt_ne_panic (decodeCall_ne_panic _ _ _) <|
      attempt_ne_panic (decodeCall_ne_panic _ _ _) (by simp),
    attempt_ne_panic (decodeCall_ne_panic _ _ _) <| attempt_ne_panic (decodeCall_ne_panic _ _ _) <|
      attempt_ne_panic (decodeCall_ne_panic _ _ _) (by simp),
    decodeStruct_ne_panic _ _, decodeStruct_ne_panic _ _, decodeStruct_ne_panic _ _⟩

theorem attempt_ok {α β : Type} {x : Outcome α} {f : α → β} {y : Outcome β} {b : β} (h : attempt x f y = .ok b) :
    (∃ a, x = .ok a ∧ f a = b) ∨ (x = .err ∧ y = .ok b) := by
  cases x <;> simp_all [attempt]

theorem decodeMeta_cases {data : Bytes} {c : MetaCall} (h : decodeMeta data = .ok c) :
    (∃ m, c = .append m ∧ decodeCall selAppend (tupleC metaF) data = .ok m) ∨
    (∃ i, c = .ckb i ∧ decodeCall selCkb (tupleC ckbInfoF) data = .ok i) ∨
    ∃ x, c = .config x ∧ decodeCall selConfig (tupleC configF) data = .ok x := by
  rcases attempt_ok h with ⟨a, h1, rfl⟩ | ⟨_, h⟩
  · exact .inl ⟨a, rfl, h1⟩
  · rcases attempt_ok h with ⟨a, h1, rfl⟩ | ⟨_, h⟩
    · exact .inr (.inl ⟨a, rfl, h1⟩)
    · rcases attempt_ok h with ⟨a, h1, rfl⟩ | ⟨_, h⟩
      · exact .inr (.inr ⟨a, rfl, h1⟩)
      · simp at h

theorem decodeImage_cases {data : Bytes} {c : ImageCall} (h : decodeImage data = .ok c) :
    (∃ m, c = .rollback m ∧ decodeCall selImageRollback (listC (tupleC blockRollbackF)) data = .ok m) ∨
    (∃ i, c = .setState i ∧ decodeCall selSetState boolC data = .ok i) ∨
    ∃ x, c = .update x ∧ decodeCall selImageUpdate (listC (tupleC blockUpdateF)) data = .ok x := by
  rcases attempt_ok h with ⟨a, h1, rfl⟩ | ⟨_, h⟩
  · exact .inl ⟨a, rfl, h1⟩
  · rcases attempt_ok h with ⟨a, h1, rfl⟩ | ⟨_, h⟩
    · exact .inr (.inl ⟨a, rfl, h1⟩)
    · rcases attempt_ok h with ⟨a, h1, rfl⟩ | ⟨_, h⟩
      · exact .inr (.inr ⟨a, rfl, h1⟩)
      · simp at h

theorem decodeLight_cases {data : Bytes} {c : LightCall} (h : decodeLight data = .ok c) :
    (∃ m, c = .rollback m ∧ decodeCall selLightRollback (listC hashC) data = .ok m) ∨
    (∃ i, c = .setState i ∧ decodeCall selSetState boolC data = .ok i) ∨
    ∃ x, c = .update x ∧ decodeCall selLightUpdate (listC (tupleC headerF)) data = .ok x := by
  rcases attempt_ok h with ⟨a, h1, rfl⟩ | ⟨_, h⟩
  · exact .inl ⟨a, rfl, h1⟩
  · rcases attempt_ok h with ⟨a, h1, rfl⟩ | ⟨_, h⟩
    · exact .inr (.inl ⟨a, rfl, h1⟩)
    · rcases attempt_ok h with ⟨a, h1, rfl⟩ | ⟨_, h⟩
      · exact .inr (.inr ⟨a, rfl, h1⟩)
      · simp at h

/-- C123: the first four bytes are those of the method, so the order of the attempts does not matter. -/
theorem C123_dispatch (data : Bytes) :
    (∀ c, decodeMeta data = .ok c → data.take 4 = c.sel) ∧
    (∀ c, decodeImage data = .ok c → data.take 4 = c.sel) ∧
    (∀ c, decodeLight data = .ok c → data.take 4 = c.sel) := by
  refine ⟨fun c h => ?_, fun c h => ?_, fun c h => ?_⟩
  · rcases decodeMeta_cases h with ⟨_, rfl, k⟩ | ⟨_, rfl, k⟩ | ⟨_, rfl, k⟩ <;> exact decodeCall_sel k
  · rcases decodeImage_cases h with ⟨_, rfl, k⟩ | ⟨_, rfl, k⟩ | ⟨_, rfl, k⟩ <;> exact decodeCall_sel k
  · rcases decodeLight_cases h with ⟨_, rfl, k⟩ | ⟨_, rfl, k⟩ | ⟨_, rfl, k⟩ <;> exact decodeCall_sel k

/-- C123: call data are accepted exactly if they have the selector of a method and arguments of its type. -/
theorem C123_accepted (data : Bytes) : (∃ c, decodeImage data = .ok c) ↔
    4 ≤ data.length ∧
      ((data.take 4 = [0x08, 0xc1, 0x72, 0x28] ∧
          ∃ ts, Abi.decode [.array (.tuple [.array (.tuple [.fixed 32, .uint]), .array (.tuple [.fixed 32, .uint])])]
            (data.drop 4) = .ok ts) ∨
        (data.take 4 = [0xac, 0x9f, 0x02, 0x22] ∧ ∃ ts, Abi.decode [.bool] (data.drop 4) = .ok ts) ∨
        (data.take 4 = [0xaf, 0xa7, 0x4e, 0x04] ∧
          ∃ ts, Abi.decode [.array (.tuple [.uint, .array (.tuple [.fixed 32, .uint]),
            .array (.tuple [.tuple [.fixed 32, .uint],
              .tuple [.uint, .tuple [.fixed 32, .uint, .bytes], .array (.tuple [.fixed 32, .uint, .bytes])],
              .bytes])])] (data.drop 4) = .ok ts)) := by
  constructor
  · rintro ⟨c, h⟩
    rcases decodeImage_cases h with ⟨_, rfl, k⟩ | ⟨_, rfl, k⟩ | ⟨_, rfl, k⟩
    · obtain ⟨a, b, c⟩ := decodeCall_iff.mp ⟨_, k⟩
      exact ⟨a, .inl ⟨b, c⟩⟩
    · obtain ⟨a, b, c⟩ := decodeCall_iff.mp ⟨_, k⟩
      exact ⟨a, .inr (.inl ⟨b, c⟩)⟩
    · obtain ⟨a, b, c⟩ := decodeCall_iff.mp ⟨_, k⟩
      exact ⟨a, .inr (.inr ⟨b, c⟩)⟩
  · rintro ⟨h4, ⟨hs, ht⟩ | ⟨hs, ht⟩ | ⟨hs, ht⟩⟩
    · obtain ⟨a, h⟩ := (decodeCall_iff (sel := selImageRollback) (c := listC (tupleC blockRollbackF))).mpr ⟨h4, hs, ht⟩
      exact ⟨.rollback a, by simp [decodeImage, h, attempt]⟩
    · obtain ⟨a, h⟩ := (decodeCall_iff (sel := selSetState) (c := boolC)).mpr ⟨h4, hs, ht⟩
      refine ⟨.setState a, ?_⟩
      simp only [decodeImage]
      rw [decodeCall_other _ (by rw [hs]; decide), h]
      rfl
    · obtain ⟨a, h⟩ := (decodeCall_iff (sel := selImageUpdate) (c := listC (tupleC blockUpdateF))).mpr ⟨h4, hs, ht⟩
      refine ⟨.update a, ?_⟩
      simp only [decodeImage]
      rw [decodeCall_other _ (by rw [hs]; decide), decodeCall_other _ (by rw [hs]; decide), h]
      rfl

/-- C123: bytes behind call data that decode change nothing. -/
theorem C123_trailing (data more : Bytes) :
    (∀ c, decodeMeta data = .ok c → decodeMeta (data ++ more) = .ok c) ∧
    (∀ c, decodeImage data = .ok c → decodeImage (data ++ more) = .ok c) ∧
    (∀ c, decodeLight data = .ok c → decodeLight (data ++ more) = .ok c) := by
  have tk : ∀ {α : Type} {sel : Bytes} {c : Codec α} {a : α}, decodeCall sel c data = .ok a →
      (data ++ more).take 4 = sel := by
    intro α sel c a h
    rw [List.take_append_of_le_length (decodeCall_ok h).1, decodeCall_sel h]
  refine ⟨fun c h => ?_, fun c h => ?_, fun c h => ?_⟩
  · simp only [decodeMeta]
    rcases decodeMeta_cases h with ⟨_, rfl, k⟩ | ⟨_, rfl, k⟩ | ⟨_, rfl, k⟩
    · rw [decodeCall_append more k]; rfl
    · rw [decodeCall_other _ (by rw [tk k]; decide), decodeCall_append more k]; rfl
    · rw [decodeCall_other _ (by rw [tk k]; decide), decodeCall_other _ (by rw [tk k]; decide),
        decodeCall_append more k]
      rfl
  · simp only [decodeImage]
    rcases decodeImage_cases h with ⟨_, rfl, k⟩ | ⟨_, rfl, k⟩ | ⟨_, rfl, k⟩
    · rw [decodeCall_append more k]; rfl
    · rw [decodeCall_other _ (by rw [tk k]; decide), decodeCall_append more k]; rfl
    · rw [decodeCall_other _ (by rw [tk k]; decide), decodeCall_other _ (by rw [tk k]; decide),
        decodeCall_append more k]
      rfl
  · simp only [decodeLight]
    rcases decodeLight_cases h with ⟨_, rfl, k⟩ | ⟨_, rfl, k⟩ | ⟨_, rfl, k⟩
    · rw [decodeCall_append more k]; rfl
    · rw [decodeCall_other _ (by rw [tk k]; decide), decodeCall_append more k]; rfl
    · rw [decodeCall_other _ (by rw [tk k]; decide), decodeCall_other _ (by rw [tk k]; decide),
        decodeCall_append more k]
      rfl

/-- C123: each decoded list alone is no longer than the data allow, one word for an element.  Missing: a bound on
all of them together, which does not hold (`C123_together_false`). -/
theorem C123_bounded_partial (data : Bytes) :
    (∀ m, decodeMeta data = .ok (.append m) →
      32 * m.verifiers.length ≤ data.length ∧ 32 * m.counter.length ≤ data.length) ∧
    (∀ bs, decodeImage data = .ok (.rollback bs) → 32 * bs.length ≤ data.length ∧
      ∀ b ∈ bs, 32 * b.inputs.length ≤ data.length ∧ 32 * b.outputs.length ≤ data.length) ∧
    (∀ bs, decodeImage data = .ok (.update bs) → 32 * bs.length ≤ data.length ∧
      ∀ b ∈ bs, 32 * b.inputs.length ≤ data.length ∧ 32 * b.outputs.length ≤ data.length ∧
        ∀ c ∈ b.outputs, c.data.length ≤ data.length) ∧
    (∀ hs, decodeLight data = .ok (.rollback hs) → 32 * hs.length ≤ data.length) ∧
    (∀ hs, decodeLight data = .ok (.update hs) → 32 * hs.length ≤ data.length ∧
      ∀ h ∈ hs, h.extension.length ≤ data.length) := by
  refine ⟨fun m h => ?_, fun bs h => ?_, fun bs h => ?_, fun hs h => ?_, fun hs h => ?_⟩
  · rcases decodeMeta_cases h with ⟨_, e, k⟩ | ⟨_, e, k⟩ | ⟨_, e, k⟩ <;> cases e
    obtain ⟨t, hu, hw⟩ := decodeCall_within k
    obtain ⟨ts, hu, hw⟩ := tupleC_within hu hw
    obtain ⟨p, hp, rfl⟩ := structF_within hu
    obtain ⟨_, us, hu, hw⟩ := consF_within hp hw
    obtain ⟨_, us, hu, hw⟩ := consF_within hu hw
    obtain ⟨⟨t1, h1, w1⟩, us, hu, hw⟩ := consF_within hu hw
    obtain ⟨⟨t2, h2, w2⟩, us, hu, hw⟩ := consF_within hu hw
    exact ⟨(listC_within h1 w1).1, (listC_within h2 w2).1⟩
  · rcases decodeImage_cases h with ⟨_, e, k⟩ | ⟨_, e, k⟩ | ⟨_, e, k⟩ <;> cases e
    obtain ⟨t, hu, hw⟩ := decodeCall_within k
    obtain ⟨hl, hm⟩ := listC_within hu hw
    refine ⟨hl, fun b hb => ?_⟩
    obtain ⟨t, hu, hw⟩ := hm b hb
    obtain ⟨ts, hu, hw⟩ := tupleC_within hu hw
    obtain ⟨p, hp, rfl⟩ := structF_within hu
    obtain ⟨⟨t1, h1, w1⟩, us, hu, hw⟩ := consF_within hp hw
    obtain ⟨t2, h2, w2⟩ := lastF_within hu hw
    exact ⟨(listC_within h1 w1).1, (listC_within h2 w2).1⟩
  · rcases decodeImage_cases h with ⟨_, e, k⟩ | ⟨_, e, k⟩ | ⟨_, e, k⟩ <;> cases e
    obtain ⟨t, hu, hw⟩ := decodeCall_within k
    obtain ⟨hl, hm⟩ := listC_within hu hw
    refine ⟨hl, fun b hb => ?_⟩
    obtain ⟨t, hu, hw⟩ := hm b hb
    obtain ⟨ts, hu, hw⟩ := tupleC_within hu hw
    obtain ⟨p, hp, rfl⟩ := structF_within hu
    obtain ⟨_, us, hu, hw⟩ := consF_within hp hw
    obtain ⟨⟨t1, h1, w1⟩, us, hu, hw⟩ := consF_within hu hw
    obtain ⟨t2, h2, w2⟩ := lastF_within hu hw
    refine ⟨(listC_within h1 w1).1, (listC_within h2 w2).1, fun c hc => ?_⟩
    obtain ⟨t, hu, hw⟩ := (listC_within h2 w2).2 c hc
    obtain ⟨ts, hu, hw⟩ := tupleC_within hu hw
    obtain ⟨p, hp, rfl⟩ := structF_within hu
    obtain ⟨_, us, hu, hw⟩ := consF_within hp hw
    obtain ⟨_, us, hu, hw⟩ := consF_within hu hw
    obtain ⟨t, hu, hw⟩ := lastF_within hu hw
    exact bytesC_within hu hw
  · rcases decodeLight_cases h with ⟨_, e, k⟩ | ⟨_, e, k⟩ | ⟨_, e, k⟩ <;> cases e
    obtain ⟨t, hu, hw⟩ := decodeCall_within k
    exact (listC_within hu hw).1
  · rcases decodeLight_cases h with ⟨_, e, k⟩ | ⟨_, e, k⟩ | ⟨_, e, k⟩ <;> cases e
    obtain ⟨t, hu, hw⟩ := decodeCall_within k
    obtain ⟨hl, hm⟩ := listC_within hu hw
    refine ⟨hl, fun x hx => ?_⟩
    obtain ⟨t, hu, hw⟩ := hm x hx
    obtain ⟨ts, hu, hw⟩ := tupleC_within hu hw
    obtain ⟨p, hp, rfl⟩ := structF_within hu
    obtain ⟨_, us, hu, hw⟩ := consF_within hp hw
    obtain ⟨_, us, hu, hw⟩ := consF_within hu hw
    obtain ⟨_, us, hu, hw⟩ := consF_within hu hw
    obtain ⟨_, us, hu, hw⟩ := consF_within hu hw
    obtain ⟨_, us, hu, hw⟩ := consF_within hu hw
    obtain ⟨_, us, hu, hw⟩ := consF_within hu hw
    obtain ⟨_, us, hu, hw⟩ := consF_within hu hw
    obtain ⟨_, us, hu, hw⟩ := consF_within hu hw
    obtain ⟨_, us, hu, hw⟩ := consF_within hu hw
    obtain ⟨_, us, hu, hw⟩ := consF_within hu hw
    obtain ⟨_, us, hu, hw⟩ := consF_within hu hw
    obtain ⟨⟨t1, h1, w1⟩, us, hu, hw⟩ := consF_within hu hw
    exact bytesC_within h1 w1

/-- The decoder takes what the node can hold in memory; in less than 4 GiB of call data every header has room. -/
theorem C123_room {data : Bytes} (hl : data.length + 512 < 2 ^ 32) {c : LightCall}
    (h : decodeLight data = .ok c) : ∃ d, lightArg c = some d := by
  cases c with
  | rollback hs => exact ⟨_, rfl⟩
  | setState b => exact ⟨_, rfl⟩
  | update hs =>
    have hb := ((C123_bounded_partial data).2.2.2.2 hs h).2
    obtain ⟨l, e, _⟩ := fitHeaders_some hs (fun x hx => by
      have := hb x hx
      simp only [Header.Fits]; omega)
    exact ⟨_, by simp only [lightArg, e]; rfl⟩

/-- C123: the contracts do with call data what they do with the call, and nothing with any other data. -/
theorem C123_exec :
    (∀ (abi : HeaderAbi) (s : Ctx) (c : ImageCall) (more : Bytes), (encodeImage c ++ more).length < 2 ^ 32 →
      imageExec abi s (encodeImage c ++ more) = Cells.exec abi s (some (imageArg abi c))) ∧
    (∀ (abi : HeaderAbi) (s : Ctx) (data : Bytes), (∀ c : ImageCall, data.take 4 ≠ c.sel) →
      imageExec abi s data = .ok (s, false)) ∧
    (∀ (s : Ctx) (hs : List { h : Header // h.Fits }) (more : Bytes),
      (encodeLight (.update (hs.map (·.1))) ++ more).length < 2 ^ 32 →
      lightExec s (encodeLight (.update (hs.map (·.1))) ++ more) = Cells.exec headerAbi s (some (.saveHeaders hs))) ∧
    (∀ (s : Ctx) (ks : List H256) (more : Bytes), (encodeLight (.rollback ks) ++ more).length < 2 ^ 32 →
      lightExec s (encodeLight (.rollback ks) ++ more) = Cells.exec headerAbi s (some (.removeHeaders ks))) ∧
    (∀ (s : Ctx) (b : Bool), lightExec s (encodeLight (.setState b)) =
      Cells.exec headerAbi s (some (.setHeaderState b))) ∧
    (∀ (s : Ctx) (data : Bytes), (∀ c : LightCall, data.take 4 ≠ c.sel) → lightExec s data = .ok (s, false)) ∧
    (∀ (s : Meta.Store) (block sender : Nat) (c : MetaCall) (more : Bytes), (encodeMeta c ++ more).length < 2 ^ 32 →
      metaExec s block sender (encodeMeta c ++ more) = Meta.exec s block sender (some (metaCallArg c))) ∧
    ∀ (s : Meta.Store) (block sender : Nat) (data : Bytes), (∀ c : MetaCall, data.take 4 ≠ c.sel) →
      metaExec s block sender data = Meta.exec s block sender none := by
  refine ⟨?_, ?_, ?_, ?_, ?_, ?_, ?_, ?_⟩
  · intro abi s c more h
    simp only [imageExec, (C123_round more).2.1 c h, toOption, Option.map_some]
  · intro abi s data h
    cases hd : decodeImage data with
    | ok c => exact absurd ((C123_dispatch data).2.1 c hd) (h c)
    | err => simp only [imageExec, hd, toOption]; rfl
    | panic => exact absurd hd (C123_no_panic data).2.1
  · intro s hs more h
    simp only [lightExec, (C123_round more).2.2 _ h, toOption, Option.bind_some, lightArg, fitHeaders_map]
    rfl
  · intro s hs more h
    simp only [lightExec, (C123_round more).2.2 _ h, toOption, Option.bind_some, lightArg]
  · intro s b
    have := (C123_round []).2.2 (.setState b) (by cases b <;> decide +kernel)
    rw [List.append_nil] at this
    simp only [lightExec, this, toOption, Option.bind_some, lightArg]
  · intro s data h
    cases hd : decodeLight data with
    | ok c => exact absurd ((C123_dispatch data).2.2 c hd) (h c)
    | err => simp only [lightExec, hd, toOption]; rfl
    | panic => exact absurd hd (C123_no_panic data).2.2.1
  · intro s block sender c more h
    simp only [metaExec, (C123_round more).1 c h, toOption, Option.map_some]
  · intro s block sender data h
    cases hd : decodeMeta data with
    | ok c => exact absurd ((C123_dispatch data).1 c hd) (h c)
    | err => simp only [metaExec, hd, toOption]; rfl
    | panic => exact absurd hd (C123_no_panic data).1

/-- C123: the precompile that reads a cell takes the encoding of its out point, and its output is the encoding of
the cell found. -/
theorem C123_get_cell (t : Trie) (o : OutPoint) (v : CellView) (h : precompileCell t o = .ok v) :
    ∃ out, getCellBytes t (encodeStruct outPointF o) = .ok out ∧
      (out.length < 2 ^ 32 → decodeStruct (lastF (tupleC cellViewF)) out = .ok v) := by
  refine ⟨Abi.encode [(tupleC cellViewF).tok v], ?_, fun hl => ?_⟩
  · have hl : (encodeStruct outPointF o ++ []).length < 2 ^ 32 := by
      have e := heads_length (outPointF.toks o) outPointF.tys (Tok.headLens (outPointF.toks o)) (outPointF.fits o)
      simp only [encodeStruct, Abi.encode, List.length_append, List.append_nil, e]
      simp [outPointF, structF, consF, lastF, u32C, uintC, hashC, Tok.headLens, Tok.headLen, Tok.tails, Tok.tail]
    have := decodeStruct_encodeStruct outPointF o [] hl
    rw [List.append_nil] at this
    simp only [getCellBytes, this, ok_bind, h]
  · have := decodeStruct_encodeStruct (lastF (tupleC cellViewF)) v [] (by rw [List.append_nil]; exact hl)
    rw [List.append_nil] at this
    exact this

/-- C123: the precompile that reads a header answers with the encoding of the header that was saved last under the
hash, in any state the contracts can reach. -/
theorem C123_get_header {s : Ctx} (hr : Reach headerAbi s) (k : H256) :
    getHeaderBytes s.current (encodeStruct (lastF hashC) k) ≠ .panic ∧
    (∀ h, getHeader headerAbi s.current k = .ok (some h) →
      h.1.blockHash = k ∧
      getHeaderBytes s.current (encodeStruct (lastF hashC) k) = .ok (Abi.encode [(tupleC headerF).tok h.1]) ∧
      decodeStruct (lastF (tupleC headerF)) (Abi.encode [(tupleC headerF).tok h.1]) = .ok h.1) := by
  have hl : (encodeStruct (lastF hashC) k ++ []).length < 2 ^ 32 := by
    have e := heads_length ((lastF hashC).toks k) (lastF hashC).tys (Tok.headLens ((lastF hashC).toks k))
      ((lastF hashC).fits k)
    simp only [encodeStruct, Abi.encode, List.length_append, List.append_nil, e]
    simp [lastF, hashC, Tok.headLens, Tok.headLen, Tok.tails, Tok.tail]
  have hd := decodeStruct_encodeStruct (lastF hashC) k [] hl
  rw [List.append_nil] at hd
  obtain ⟨p1, p2, p3⟩ := C73_precompile headerAbi hr k
  refine ⟨?_, fun h hg => ?_⟩
  · simp only [getHeaderBytes, hd, ok_bind]
    exact bind_ne_panic p1 fun _ _ => by simp
  · have hp := (p3 h).mpr hg
    refine ⟨p2 h hp, by simp only [getHeaderBytes, hd, ok_bind, hp], ?_⟩
    have hx : (encodeStruct (lastF (tupleC headerF)) h.1 ++ []).length < 2 ^ 32 := by
      have e1 := heads_length ((lastF (tupleC headerF)).toks h.1) (lastF (tupleC headerF)).tys
        (Tok.headLens ((lastF (tupleC headerF)).toks h.1)) ((lastF (tupleC headerF)).fits h.1)
      have e2 := header_length h.1
      have hdy : Tok.dynAny (headerF.toks h.1) = true := rfl
      have e3 : Tok.tails ((lastF (tupleC headerF)).toks h.1) = encodeStruct headerF h.1 := by
        simp only [lastF, tupleC, Tok.tails, Tok.tail, hdy, if_true, List.append_nil]
        rfl
      have e4 : Tok.headLens ((lastF (tupleC headerF)).toks h.1) = 32 := by
        simp only [lastF, tupleC, Tok.headLens, Tok.headLen, hdy, if_true]
      have := h.2
      have := padded_length_le h.1.extension
      simp only [Header.Fits] at this
      rw [List.append_nil]
      conv => lhs; rw [encodeStruct, Abi.encode]
      rw [List.length_append, e1, e3, e4, e2]
      have := h.2
      simp only [Header.Fits] at this
      omega
    have := decodeStruct_encodeStruct (lastF (tupleC headerF)) h.1 [] hx
    rw [List.append_nil] at this
    exact this

/-! ## Layout -/

/-- An out point in call data. -/
def pointBytes (o : OutPoint) : Bytes := o.txHash.bytes ++ beFixed 32 o.index.val

theorem padded_hash (h : H256) : padded h.bytes = h.bytes := by simp [padded, h.len]

theorem points_heads : ∀ (l : List OutPoint) (d : Nat),
    Tok.heads (l.map (tupleC outPointF).tok) d = (l.map pointBytes).flatten ∧
    Tok.tails (l.map (tupleC outPointF).tok) = [] ∧ Tok.headLens (l.map (tupleC outPointF).tok) = 64 * l.length
  | [], d => by simp [Tok.heads, Tok.tails, Tok.headLens]
  | o :: l, d => by
    have e : (tupleC outPointF).tok o = .tuple [.fixed o.txHash.bytes, .uint o.index.val] := rfl
    have hd : Tok.dynAny [.fixed o.txHash.bytes, .uint o.index.val] = false := rfl
    have h1 : Tok.head ((tupleC outPointF).tok o) d = pointBytes o := by
      rw [e]
      simp [Tok.head, hd, Tok.heads, padded_hash, pointBytes, word]
    have h2 : Tok.tail ((tupleC outPointF).tok o) = [] := by rw [e]; simp [Tok.tail, hd]
    have h3 : Tok.headLen ((tupleC outPointF).tok o) = 64 := rfl
    have ih := points_heads l d
    simp only [List.map_cons, Tok.heads, Tok.tails, Tok.headLens, h1, h2, h3, List.length_nil, Nat.add_zero, ih.1,
      ih.2.1, ih.2.2, List.flatten_cons, List.length_cons, List.append_nil]
    exact ⟨trivial, trivial, by omega⟩

/-- C123: the bytes are those of the contract ABI: static members in the order of the signature, a word each;
dynamic ones as the offset of their tail, counted from the beginning of the enclosing tuple or array; arrays begin
with their length, byte strings too and are padded to a word. -/
theorem C123_layout :
    (∀ b, encodeImage (.setState b) = [0xac, 0x9f, 0x02, 0x22] ++ beFixed 32 (if b then 1 else 0)) ∧
    (∀ c : Meta.Config, encodeMeta (.config c) = [0xb7, 0x6f, 0xac, 0x01] ++ beFixed 32 c.proposeRatio.val ++
      beFixed 32 c.prevoteRatio.val ++ beFixed 32 c.precommitRatio.val ++ beFixed 32 c.brakeRatio.val ++
      beFixed 32 c.txNumLimit.val ++ beFixed 32 c.maxTxSize.val ++ beFixed 32 c.gasLimit.val ++
      beFixed 32 c.interval.val ++ beFixed 32 c.maxContractLimit.val) ∧
    (∀ i : CkbInfo, encodeMeta (.ckb i) = [0x80, 0x4a, 0xfc, 0x59] ++ i.metadataTypeId.bytes ++
      i.checkpointTypeId.bytes ++ i.xudtArgs.bytes ++ i.stakeSmtTypeId.bytes ++ i.delegateSmtTypeId.bytes ++
      i.rewardSmtTypeId.bytes) ∧
    (∀ b : BlockRollback, encodeImage (.rollback [b]) = [0x08, 0xc1, 0x72, 0x28] ++ beFixed 32 32 ++ beFixed 32 1 ++
      beFixed 32 32 ++ (beFixed 32 64 ++ beFixed 32 (96 + 64 * b.inputs.length) ++
        (beFixed 32 b.inputs.length ++ (b.inputs.map pointBytes).flatten) ++
        (beFixed 32 b.outputs.length ++ (b.outputs.map pointBytes).flatten))) ∧
    (∀ h : Header, encodeStruct headerF h = beFixed 32 h.version.val ++ beFixed 32 h.compactTarget.val ++
      beFixed 32 h.timestamp.val ++ beFixed 32 h.number.val ++ beFixed 32 h.epoch.val ++ h.parentHash.bytes ++
      h.transactionsRoot.bytes ++ h.proposalsHash.bytes ++ h.extraHash.bytes ++ h.dao.bytes ++
      beFixed 32 h.nonce.val ++ beFixed 32 416 ++ h.blockHash.bytes ++ beFixed 32 h.extension.length ++
      (h.extension ++ List.replicate ((32 - h.extension.length % 32) % 32) 0)) := by
  refine ⟨fun b => ?_, fun c => ?_, fun i => ?_, fun b => ?_, fun h => ?_⟩
  · cases b <;> decide +kernel
  · simp [encodeMeta, encodeCall, Abi.encode, tupleC, configF, structF, consF, lastF, u64C, uintC, Tok.heads, Tok.head,
      Tok.tails, Tok.tail, Tok.headLens, Tok.headLen, Tok.dynAny, Tok.dyn, word, selConfig]
  · simp [encodeMeta, encodeCall, Abi.encode, tupleC, ckbInfoF, structF, consF, lastF, hashC, Tok.heads, Tok.head,
      Tok.tails, Tok.tail, Tok.headLens, Tok.headLen, Tok.dynAny, Tok.dyn, padded_hash, selCkb]
  · have a := points_heads b.inputs (64 * b.inputs.length)
    have c := points_heads b.outputs (64 * b.outputs.length)
    have hlen : (b.inputs.map pointBytes).flatten.length = 64 * b.inputs.length := by
      rw [← a.1]
      have := heads_length_all (b.inputs.map (tupleC outPointF).tok) (tupleC outPointF).ty (64 * b.inputs.length)
        (fitAll_map _ _)
      rw [this, a.2.2]
    have e : (tupleC blockRollbackF).tok b = .tuple [.array (b.inputs.map (tupleC outPointF).tok),
      .array (b.outputs.map (tupleC outPointF).tok)] := rfl
    simp [encodeImage, encodeCall, Abi.encode, listC, e, Tok.heads, Tok.head, Tok.tails, Tok.tail, Tok.headLens,
      Tok.headLen, Tok.dynAny, Tok.dyn, word, selImageRollback, a.1, a.2.1, a.2.2, c.1, c.2.1, c.2.2, hlen]
    rw [show 64 + (32 + 64 * b.inputs.length) = 96 + 64 * b.inputs.length by omega]
  · simp [encodeStruct, Abi.encode, headerF, structF, consF, lastF, hashC, u32C, u64C, u128C, uintC, bytesC, Tok.heads,
      Tok.head, Tok.tails, Tok.tail, Tok.headLens, Tok.headLen, word, padded_hash]
    rfl

/-- C123: the members of the other structs, in the order of the signatures. -/
theorem C123_members :
    (∀ s : Script, (tupleC scriptF).tok s = .tuple [.fixed s.codeHash.bytes, .uint s.hashType.toNat, .bytes s.args]) ∧
    (∀ o : CellOutput, (tupleC cellOutputF).tok o =
      .tuple [.uint o.capacity.val, (tupleC scriptF).tok o.lock, .array (o.type_.map (tupleC scriptF).tok)]) ∧
    (∀ c : NewCell, (tupleC newCellF).tok c =
      .tuple [(tupleC outPointF).tok c.outPoint, (tupleC cellOutputF).tok c.output, .bytes c.data]) ∧
    (∀ b : BlockUpdate, (tupleC blockUpdateF).tok b = .tuple [.uint b.number.val,
      .array (b.inputs.map (tupleC outPointF).tok), .array (b.outputs.map (tupleC newCellF).tok)]) ∧
    (∀ v : Validator, (tupleC validatorF).tok v = .tuple [.bytes v.blsPubKey, .bytes v.pubKey, .address v.address.bytes,
      .uint v.proposeWeight.val, .uint v.voteWeight.val]) ∧
    (∀ m : MetaArg, (tupleC metaF).tok m = .tuple [.tuple [.uint m.version.1.val, .uint m.version.2.val],
      .uint m.epoch.val, .array (m.verifiers.map (tupleC validatorF).tok),
      .array (m.counter.map fun p => .tuple [.address p.1.bytes, .uint p.2.val]), (tupleC configF).tok m.config]) ∧
    (∀ v : CellView, (tupleC cellViewF).tok v = .tuple [(tupleC cellOutputF).tok v.output, .bytes v.data,
      .bool v.isConsumed, .uint v.created.val, .uint v.consumed.val]) :=
  ⟨fun _ => rfl, fun _ => rfl, fun _ => rfl, fun _ => rfl, fun _ => rfl, fun _ => rfl, fun _ => rfl⟩

/-- C123: each method does what its name says, with the arguments of the call data. -/
theorem C123_methods (abi : HeaderAbi) (s : Ctx) (m : Meta.Store) (block sender : Nat) :
    (∀ bs, (encodeImage (.update bs)).length < 2 ^ 32 →
      imageExec abi s (encodeImage (.update bs)) = Cells.exec abi s (some (.update bs))) ∧
    (∀ bs, (encodeImage (.rollback bs)).length < 2 ^ 32 →
      imageExec abi s (encodeImage (.rollback bs)) = Cells.exec abi s (some (.rollback bs))) ∧
    (∀ b, imageExec abi s (encodeImage (.setState b)) = Cells.exec abi s (some (.setCellState b))) ∧
    (∀ a : MetaArg, (encodeMeta (.append a)).length < 2 ^ 32 →
      metaExec m block sender (encodeMeta (.append a)) = Meta.exec m block sender (some (.append
        { start := a.version.1, last := a.version.2, epoch := a.epoch,
          verifiers := a.verifiers.map (fun v => beNat v.address.bytes), config := a.config }))) ∧
    (∀ c, metaExec m block sender (encodeMeta (.config c)) = Meta.exec m block sender (some (.config c))) ∧
    (∀ i, metaExec m block sender (encodeMeta (.ckb i)) = Meta.exec m block sender (some (.ckb (ckbArg i)))) ∧
    ∀ i j, ckbArg i = ckbArg j → i = j := by
  have r := C123_exec
  refine ⟨fun bs h => ?_, fun bs h => ?_, fun b => ?_, fun a h => ?_, fun c => ?_, fun i => ?_, fun i j h => ?_⟩
  · have := r.1 abi s (.update bs) [] (by rw [List.append_nil]; exact h)
    rw [List.append_nil] at this
    exact this
  · have := r.1 abi s (.rollback bs) [] (by rw [List.append_nil]; exact h)
    rw [List.append_nil] at this
    exact this
  · have := r.1 abi s (.setState b) [] (by cases b <;> decide +kernel)
    rw [List.append_nil] at this
    exact this
  · have := r.2.2.2.2.2.2.1 m block sender (.append a) [] (by rw [List.append_nil]; exact h)
    rw [List.append_nil] at this
    exact this
  · have := r.2.2.2.2.2.2.1 m block sender (.config c) [] (by
      rw [List.append_nil, C123_layout.2.1]
      simp only [List.length_append, beFixed_length, List.length_cons, List.length_nil]
      decide)
    rw [List.append_nil] at this
    exact this
  · have := r.2.2.2.2.2.2.1 m block sender (.ckb i) [] (by
      rw [List.append_nil, C123_layout.2.2.1]
      simp only [List.length_append, FixedBytes.len, List.length_cons, List.length_nil]
      decide)
    rw [List.append_nil] at this
    exact this
  · have inj : ∀ a b : Bytes, a.length = b.length → beNat a = beNat b → a = b := by
      intro a b hl hb
      rw [← beFixed_beNat a, ← beFixed_beNat b, hl, hb]
    have e := inj _ _ (by simp only [List.length_append, FixedBytes.len]) h
    have e1 := List.append_inj e (by simp only [List.length_append, FixedBytes.len])
    have e2 := List.append_inj e1.1 (by simp only [List.length_append, FixedBytes.len])
    have e3 := List.append_inj e2.1 (by simp only [List.length_append, FixedBytes.len])
    have e4 := List.append_inj e3.1 (by simp only [List.length_append, FixedBytes.len])
    have e5 := List.append_inj e4.1 (by simp only [FixedBytes.len])
    cases i; cases j
    simp only [CkbInfo.mk.injEq]
    exact ⟨FixedBytes.ext' e5.1, FixedBytes.ext' e5.2, FixedBytes.ext' e4.2, FixedBytes.ext' e3.2,
      FixedBytes.ext' e2.2, FixedBytes.ext' e1.2⟩

/-! ## What does not hold -/

/-- A rollback of `n` blocks that share one tail with `m` inputs. -/
def bomb (n m : Nat) (o : OutPoint) : Bytes :=
  selImageRollback ++ sharedTails n ((tupleC blockRollbackF).tok ⟨List.replicate m o, []⟩)

theorem heads_replicate (o : OutPoint) : ∀ (m : Nat),
    Tok.headLens (List.replicate m ((tupleC outPointF).tok o)) = 64 * m ∧
    Tok.tails (List.replicate m ((tupleC outPointF).tok o)) = []
  | 0 => by simp [Tok.headLens, Tok.tails]
  | m + 1 => by
    have ih := heads_replicate o m
    have e : Tok.dynAny (outPointF.toks o) = false := rfl
    have e2 : Tok.headLen ((tupleC outPointF).tok o) = 64 := rfl
    have e3 : Tok.tail ((tupleC outPointF).tok o) = [] := by simp [tupleC, Tok.tail, e]
    rw [List.replicate_succ]
    simp only [Tok.headLens, Tok.tails, ih.1, ih.2, e2, e3]
    exact ⟨by omega, rfl⟩

theorem bomb_tail (m : Nat) (o : OutPoint) :
    ((tupleC blockRollbackF).tok ⟨List.replicate m o, []⟩).tail.length = 128 + 64 * m := by
  have hd : Tok.dynAny (blockRollbackF.toks ⟨List.replicate m o, []⟩) = true := rfl
  have h1 := heads_length (blockRollbackF.toks ⟨List.replicate m o, []⟩) _
    (Tok.headLens (blockRollbackF.toks ⟨List.replicate m o, []⟩)) (blockRollbackF.fits _)
  have h2 := heads_length_all (List.replicate m ((tupleC outPointF).tok o)) (tupleC outPointF).ty (64 * m)
    (by have := fitAll_map (tupleC outPointF) (List.replicate m o); rwa [List.map_replicate] at this)
  have r := heads_replicate o m
  have e : ((tupleC blockRollbackF).tok ⟨List.replicate m o, []⟩) =
      .tuple (blockRollbackF.toks ⟨List.replicate m o, []⟩) := rfl
  rw [e]
  simp only [Tok.tail, hd, if_true, List.length_append, h1]
  have e1 : blockRollbackF.toks ⟨List.replicate m o, []⟩ =
      [.array (List.replicate m ((tupleC outPointF).tok o)), .array []] := by
    simp [blockRollbackF, structF, consF, lastF, listC]
  rw [e1]
  simp only [Tok.headLens, Tok.headLen, Tok.tails, Tok.tail, Tok.heads, List.length_append, word_length, r.1, r.2, h2,
    List.length_nil]
  omega

/-- C123: elements of an array may share their tails: data of `196 + 32 n + 64 m` bytes decode to `n` times `m` out
points. -/
theorem C123_shared_tails (n m : Nat) (o : OutPoint) (h : 256 + 32 * n + 64 * m < 2 ^ 32) :
    (bomb n m o).length = 196 + 32 * n + 64 * m ∧
    decodeImage (bomb n m o) = .ok (.rollback (List.replicate n ⟨List.replicate m o, []⟩)) := by
  have hl : (sharedTails n ((tupleC blockRollbackF).tok ⟨List.replicate m o, []⟩)).length = 192 + 32 * n + 64 * m := by
    simp only [sharedTails, List.length_append, word_length, flatten_length, bomb_tail]; omega
  refine ⟨by simp only [bomb, List.length_append, hl, selImageRollback, List.length_cons, List.length_nil]; omega, ?_⟩
  have hd := decode_shared n ((tupleC blockRollbackF).tok ⟨List.replicate m o, []⟩) _ (tupleC blockRollbackF).ty rfl rfl
    ((tupleC blockRollbackF).fits _) (by omega)
  have hc : decodeCall selImageRollback (listC (tupleC blockRollbackF)) (bomb n m o) =
      .ok (List.replicate n ⟨List.replicate m o, []⟩) := by
    unfold bomb decodeCall
    rw [if_neg ?_, List.drop_left' (show selImageRollback.length = 4 from rfl)]
    · rw [show (listC (tupleC blockRollbackF)).ty = .array (tupleC blockRollbackF).ty from rfl, hd, ok_bind]
      have := (listC (tupleC blockRollbackF)).law (List.replicate n ⟨List.replicate m o, []⟩)
      have e : (listC (tupleC blockRollbackF)).tok (List.replicate n ⟨List.replicate m o, []⟩) =
          .array (List.replicate n ((tupleC blockRollbackF).tok ⟨List.replicate m o, []⟩)) := by
        simp only [listC, List.map_replicate]
      rw [e] at this
      exact congrArg Outcome.ofOption this
    · rw [List.take_left' (show selImageRollback.length = 4 from rfl)]
      simp only [List.length_append, ne_eq, not_true_eq_false, or_false, selImageRollback, List.length_cons,
        List.length_nil]
      omega
  simp only [decodeImage, hc, attempt]

/-- C123 does not hold for all lists together: a call can name a thousand times more out points than it has
bytes. -/
theorem C123_together_false : ∃ (data : Bytes) (bs : List BlockRollback),
    decodeImage data = .ok (.rollback bs) ∧
    1000 * data.length < ((bs.map (fun b => b.inputs.length)).sum) := by
  obtain ⟨h1, h2⟩ := C123_shared_tails (2 ^ 17) (2 ^ 17) ⟨⟨List.replicate 32 0, by simp⟩, ⟨0, by decide⟩⟩ (by omega)
  refine ⟨_, _, h2, ?_⟩
  rw [h1, List.map_replicate, List.sum_replicate_nat, List.length_replicate]
  omega

/-- C123 does not hold for values out of range: a word that is no `bool` is read as `false`, and of an integer the
high bits are dropped. -/
theorem C123_range_false :
    decodeImage (selSetState ++ word 2) = .ok (.setState false) ∧
    decodeStruct (lastF u64C) (word (2 ^ 64)) = .ok u64Zero ∧
    decodeStruct (lastF addrC) (List.replicate 32 1) = .ok ⟨List.replicate 20 1, by simp⟩ := by
  refine ⟨?_, ?_, ?_⟩
  · have : decodeCall selSetState boolC (selSetState ++ word 2) = .ok false := by decide +kernel
    simp only [decodeImage]
    rw [decodeCall_other _ (by decide), this]
    rfl
  · decide +kernel
  · decide +kernel

/-! ## Examples -/

/-- `setState(true)` -/
example : encodeImage (.setState true) = [0xac, 0x9f, 0x02, 0x22] ++ List.replicate 31 0 ++ [1] := by decide +kernel

/-- `rollback([h])` of the light client: offset, length, hash -/
example (h : H256) : encodeLight (.rollback [h]) =
    [0xd3, 0x2a, 0x22, 0x85] ++ word 32 ++ word 1 ++ h.bytes := by
  have : padded h.bytes = h.bytes := by simp [padded, h.len]
  simp [encodeLight, encodeCall, Abi.encode, listC, hashC, Tok.heads, Tok.tails, Tok.head, Tok.tail, Tok.headLens,
    Tok.headLen, this, selLightRollback]

def exHeader : Header :=
  ⟨⟨0, by decide⟩, ⟨1, by decide⟩, ⟨2, by decide⟩, ⟨3, by decide⟩, ⟨4, by decide⟩, hashOf 1, hashOf 2, hashOf 3, hashOf 4,
    hashOf 5, ⟨6, by decide⟩, [7, 8], hashOf 9⟩

example : decodeHeader (encodeStruct headerF exHeader) = some ⟨exHeader, by decide⟩ :=
  decodeHeader_encode ⟨exHeader, by decide⟩

/-- A saved header is found again: no assumption on the codec is left. -/
example (x : { h : Header // h.Fits }) : getHeader headerAbi (saveHeaders headerAbi [] [x]) x.1.blockHash =
    .ok (some x) := by
  have h := (C73_update headerAbi [] [x]).1 x.1.blockHash
  have e : lastHeader headerAbi [x] x.1.blockHash = some x := by
    have := lastHeader_snoc headerAbi [] x x.1.blockHash
    rw [List.nil_append] at this
    rw [this]
    exact if_pos rfl
  rw [e] at h
  exact h

example : (bomb 1000 1000 ⟨hashOf 1, ⟨0, by decide⟩⟩).length = 96196 :=
  (C123_shared_tails 1000 1000 _ (by decide)).1

end Axon.SysAbi
