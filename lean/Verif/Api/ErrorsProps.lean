import Verif.Api.Errors
import Verif.Codec.HexProps
import Verif.Executor.RevertProps
import Verif.Logger.RollerProps

/-!
# C134: an error answer tells what went wrong

The code names the kind of error (`C134_code`), message and data give its values (`C134_values`), and the data of a
failed call are what the contract returned when it reverted, and otherwise the reason (`C134_revert`,
`C134_reason_partial`).

Not so: a run that failed for another reason is reported as reverted as well (`C134_message_false`), some reasons are
reported alike (`C134_reason_false`), and what a contract returns can stop the node (`C134_stop_false`).
-/

namespace Axon.RpcErr
open Axon.Exit
open Axon.Roller (decimal decimal_inj)

variable {β φ : Type} {showBlock : β → Text} {showFloat : φ → Text} {quote : String → Text}

/-! ## Specification -/

/-- The kinds of errors. -/
inductive Kind where
  | sigR | sigS | invalidAddressSource | missingDummyInputCell | cannotFindImageCell | gasPriceIsZero
  | gasPriceIsTooLarge | gasLimitIsTooLow | gasLimitIsTooLarge | transactionIsNotSigned | cannotGetLatestBlock
  | invalidBlockHash | invalidFromBlockNumber | invalidBlockRange | invalidNewestBlock | invalidPosition
  | cannotFindBlock | invalidRewardPercentiles | invalidFromBlockAndToBlockUnion | cannotFindFilterId
  | callSystemContract | evm | internal
deriving DecidableEq

def kind : RpcError β φ → Kind
  | .sigR _ => .sigR
  | .sigS _ => .sigS
  | .invalidAddressSource => .invalidAddressSource
  | .missingDummyInputCell => .missingDummyInputCell
  | .cannotFindImageCell => .cannotFindImageCell
  | .gasPriceIsZero => .gasPriceIsZero
  | .gasPriceIsTooLarge => .gasPriceIsTooLarge
  | .gasLimitIsTooLow => .gasLimitIsTooLow
  | .gasLimitIsTooLarge => .gasLimitIsTooLarge
  | .transactionIsNotSigned => .transactionIsNotSigned
  | .cannotGetLatestBlock => .cannotGetLatestBlock
  | .invalidBlockHash => .invalidBlockHash
  | .invalidFromBlockNumber _ => .invalidFromBlockNumber
  | .invalidBlockRange _ _ _ => .invalidBlockRange
  | .invalidNewestBlock _ => .invalidNewestBlock
  | .invalidPosition _ => .invalidPosition
  | .cannotFindBlock => .cannotFindBlock
  | .invalidRewardPercentiles _ _ => .invalidRewardPercentiles
  | .invalidFromBlockAndToBlockUnion => .invalidFromBlockAndToBlockUnion
  | .cannotFindFilterId _ => .cannotFindFilterId
  | .callSystemContract => .callSystemContract
  | .evm _ => .evm
  | .internal _ => .internal

/-- The client: the characters of a text as bytes, then the bytes that the hex digits stand for. -/
def readHex (t : Text) : Option Bytes := Hex.fromStr (t.map fun c => UInt8.ofNat c.toNat)

/-- The reasons that look alike. -/
inductive Alike : Reason → Reason → Prop
  | same (r : Reason) : Alike r r
  | left (t : Exit.Text) : Alike (.error (.other t)) (.fatal (.other t))
  | right (t : Exit.Text) : Alike (.fatal (.other t)) (.error (.other t))

/-! ## Lemmas -/

/-- What is before the first parenthesis. -/
def word (t : Text) : Text := t.takeWhile (· ≠ '(')

theorem word_name {n a : Text} (hn : '(' ∉ n) (ha : a = [] ∨ a.head? = some '(') : word (n ++ a) = n := by
  induction n with
  | nil =>
    rcases ha with rfl | ha
    · rfl
    · cases a with
      | nil => rfl
      | cons c a =>
        simp only [List.head?_cons, Option.some.injEq] at ha
        subst ha
        rfl
  | cons c n ih =>
    simp only [List.mem_cons, not_or] at hn
    have := ih hn.2
    unfold word at *
    rw [List.cons_append, List.takeWhile_cons, if_pos (by simpa using fun e => hn.1 e.symm), this]

theorem errorArgs_head (e : Error) : errorArgs quote e = [] ∨ (errorArgs quote e).head? = some '(' := by
  cases e <;> first | exact .inl rfl | exact .inr rfl

theorem fatalArgs_head (f : Fatal) : fatalArgs quote f = [] ∨ (fatalArgs quote f).head? = some '(' := by
  cases f <;> first | exact .inl rfl | exact .inr rfl

/-- An error without its values. -/
def plain : Error → Error
  | .invalidCode _ => .invalidCode 0
  | .other _ => .other ⟨"", by decide⟩
  | e => e

def errors : List Error :=
  [.stackUnderflow, .stackOverflow, .invalidJump, .invalidRange, .designatedInvalid, .callTooDeep, .createCollision,
    .createContractLimit, .invalidCode 0, .outOfOffset, .outOfGas, .outOfFund, .pcUnderflow, .createEmpty,
    .other ⟨"", by decide⟩, .maxNonce]

/-- The number of a variant. -/
def ord : Error → Nat
  | .stackUnderflow => 0
  | .stackOverflow => 1
  | .invalidJump => 2
  | .invalidRange => 3
  | .designatedInvalid => 4
  | .callTooDeep => 5
  | .createCollision => 6
  | .createContractLimit => 7
  | .invalidCode _ => 8
  | .outOfOffset => 9
  | .outOfGas => 10
  | .outOfFund => 11
  | .pcUnderflow => 12
  | .createEmpty => 13
  | .other _ => 14
  | .maxNonce => 15

def ordFatal : Fatal → Nat
  | .notSupported => 0
  | .unhandledInterrupt => 1
  | .callErrorAsFatal _ => 2
  | .other _ => 3

theorem ord_plain (e : Error) : ord (plain e) = ord e := by cases e <;> rfl

theorem plain_mem (e : Error) : plain e ∈ errors := by cases e <;> simp [plain, errors]

theorem errorName_eq (e : Error) : errorName e = errorName (plain e) := by cases e <;> rfl

def plainFatal : Fatal → Fatal
  | .callErrorAsFatal _ => .callErrorAsFatal .outOfGas
  | .other _ => .other ⟨"", by decide⟩
  | f => f

def fatals : List Fatal :=
  [.notSupported, .unhandledInterrupt, .callErrorAsFatal .outOfGas, .other ⟨"", by decide⟩]

theorem plainFatal_mem (f : Fatal) : plainFatal f ∈ fatals := by cases f <;> simp [plainFatal, fatals]

theorem ord_plainFatal (f : Fatal) : ordFatal (plainFatal f) = ordFatal f := by cases f <;> rfl

theorem fatalName_eq (f : Fatal) : fatalName f = fatalName (plainFatal f) := by cases f <;> rfl

theorem errorName_plain (e : Error) : ('(' ∉ errorName e ∧ (errorName e).head? ≠ some '0') ∧ errorName e ≠ [] := by
  have h : ∀ a ∈ errors, ('(' ∉ errorName a ∧ (errorName a).head? ≠ some '0') ∧ errorName a ≠ [] := by decide +kernel
  rw [errorName_eq]
  exact h _ (plain_mem e)

theorem fatalName_plain (f : Fatal) : ('(' ∉ fatalName f ∧ (fatalName f).head? ≠ some '0') ∧ fatalName f ≠ [] := by
  have h : ∀ a ∈ fatals, ('(' ∉ fatalName a ∧ (fatalName a).head? ≠ some '0') ∧ fatalName a ≠ [] := by decide +kernel
  rw [fatalName_eq]
  exact h _ (plainFatal_mem f)

theorem errorName_inj {e e' : Error} (h : errorName e = errorName e') : ord e = ord e' := by
  have k : ∀ a ∈ errors, ∀ b ∈ errors, errorName a = errorName b → ord a = ord b := by decide +kernel
  rw [errorName_eq, errorName_eq e'] at h
  rw [← ord_plain, ← ord_plain e']
  exact k _ (plain_mem e) _ (plain_mem e') h

theorem fatalName_inj {f f' : Fatal} (h : fatalName f = fatalName f') : ordFatal f = ordFatal f' := by
  have k : ∀ a ∈ fatals, ∀ b ∈ fatals, fatalName a = fatalName b → ordFatal a = ordFatal b := by decide +kernel
  rw [fatalName_eq, fatalName_eq f'] at h
  rw [← ord_plainFatal, ← ord_plainFatal f']
  exact k _ (plainFatal_mem f) _ (plainFatal_mem f') h

theorem names_alike {e : Error} {f : Fatal} (h : errorName e = fatalName f) : ord e = 14 ∧ ordFatal f = 3 := by
  have k : ∀ a ∈ errors, ∀ b ∈ fatals, errorName a = fatalName b → ord a = 14 ∧ ordFatal b = 3 := by decide +kernel
  rw [errorName_eq, fatalName_eq f] at h
  rw [← ord_plain, ← ord_plainFatal]
  exact k _ (plain_mem e) _ (plainFatal_mem f) h

theorem word_error (e : Error) : word (debugError quote e) = errorName e :=
  word_name (errorName_plain e).1.1 (errorArgs_head e)

theorem word_fatal (f : Fatal) : word (debugFatal quote f) = fatalName f :=
  word_name (fatalName_plain f).1.1 (fatalArgs_head f)

theorem ord_values {e e' : Error} (h : ord e = ord e') :
    e = e' ∨ (∃ a b, e = .invalidCode a ∧ e' = .invalidCode b) ∨ ∃ a b, e = .other a ∧ e' = .other b := by
  cases e <;> cases e' <;> first | exact .inl rfl | exact .inr (.inl ⟨_, _, rfl, rfl⟩) | exact .inr (.inr ⟨_, _, rfl, rfl⟩) | (simp [ord] at h)

theorem ordFatal_values {e e' : Fatal} (h : ordFatal e = ordFatal e') :
    e = e' ∨ (∃ a b, e = .callErrorAsFatal a ∧ e' = .callErrorAsFatal b) ∨ ∃ a b, e = .other a ∧ e' = .other b := by
  cases e <;> cases e' <;> first | exact .inl rfl | exact .inr (.inl ⟨_, _, rfl, rfl⟩) | exact .inr (.inr ⟨_, _, rfl, rfl⟩) | (simp [ordFatal] at h)

theorem paren_inj {a b : Text} (h : "(".toList ++ a ++ ")".toList = "(".toList ++ b ++ ")".toList) : a = b := by
  rw [List.append_assoc, List.append_assoc] at h
  exact List.append_cancel_right (List.append_cancel_left h)

theorem text_ext {a b : Exit.Text} (h : a.str = b.str) : a = b := by
  obtain ⟨a, _⟩ := a
  obtain ⟨b, _⟩ := b
  cases h
  rfl

theorem debugError_inj (hq : ∀ s t, quote s = quote t → s = t) {e e' : Error}
    (h : debugError quote e = debugError quote e') : e = e' := by
  have hw : errorName e = errorName e' := by rw [← word_error (quote := quote), h, word_error]
  have ha : errorArgs quote e = errorArgs quote e' := by
    unfold debugError at h
    rw [hw] at h
    exact List.append_cancel_left h
  rcases ord_values (errorName_inj hw) with e | ⟨a, b, rfl, rfl⟩ | ⟨a, b, rfl, rfl⟩
  · exact e
  · have ha : "(Opcode(".toList ++ decimal a.toNat ++ "))".toList = "(Opcode(".toList ++ decimal b.toNat ++ "))".toList := ha
    rw [List.append_assoc, List.append_assoc] at ha
    have h1 := List.append_cancel_right (List.append_cancel_left ha)
    rw [UInt8.toNat_inj.1 (decimal_inj h1)]
  · rw [text_ext (hq _ _ (paren_inj ha))]

theorem debugFatal_inj (hq : ∀ s t, quote s = quote t → s = t) {e e' : Fatal}
    (h : debugFatal quote e = debugFatal quote e') : e = e' := by
  have hw : fatalName e = fatalName e' := by rw [← word_fatal (quote := quote), h, word_fatal]
  have ha : fatalArgs quote e = fatalArgs quote e' := by
    unfold debugFatal at h
    rw [hw] at h
    exact List.append_cancel_left h
  rcases ordFatal_values (fatalName_inj hw) with e | ⟨a, b, rfl, rfl⟩ | ⟨a, b, rfl, rfl⟩
  · exact e
  · rw [debugError_inj hq (paren_inj ha)]
  · rw [text_ext (hq _ _ (paren_inj ha))]

theorem other_of_ord {e : Error} (h : ord e = 14) : ∃ t, e = .other t := by
  cases e <;> first | exact ⟨_, rfl⟩ | (simp [ord] at h)

theorem other_of_ordFatal {f : Fatal} (h : ordFatal f = 3) : ∃ t, f = .other t := by
  cases f <;> first | exact ⟨_, rfl⟩ | (simp [ordFatal] at h)

theorem debug_alike (hq : ∀ s t, quote s = quote t → s = t) {e : Error} {f : Fatal}
    (h : debugError quote e = debugFatal quote f) : ∃ t, e = .other t ∧ f = .other t := by
  have hw : errorName e = fatalName f := by rw [← word_error (quote := quote), h, word_fatal]
  have ha : errorArgs quote e = fatalArgs quote f := by
    unfold debugError debugFatal at h
    rw [hw] at h
    exact List.append_cancel_left h
  obtain ⟨hp, hp'⟩ := names_alike hw
  obtain ⟨a, rfl⟩ := other_of_ord hp
  obtain ⟨b, rfl⟩ := other_of_ordFatal hp'
  exact ⟨a, rfl, by rw [text_ext (hq _ _ (paren_inj ha))]⟩

theorem head_name {n a : Text} (hn : n ≠ []) (h : n.head? ≠ some '0') (r : Text) : n ++ a ≠ '0' :: r := by
  cases n with
  | nil => exact absurd rfl hn
  | cons c n =>
    intro e
    rw [List.cons_append] at e
    injection e with e1 _
    exact h (by rw [e1]; rfl)

theorem errorName_ne (e : Error) : errorName e ≠ [] := (errorName_plain e).2
theorem fatalName_ne (e : Fatal) : fatalName e ≠ [] := (fatalName_plain e).2

theorem latin_byte (b : UInt8) : UInt8.ofNat (Revert.latin b).toNat = b := by
  have h : ∀ n : Fin 256, UInt8.ofNat (Char.ofNat n.val).toNat = UInt8.ofNat n.val := by decide +kernel
  have := h ⟨b.toNat, b.toNat_lt⟩
  simpa [Revert.latin] using this

theorem bytes_latin (l : Bytes) : (l.map Revert.latin).map (fun c => UInt8.ofNat c.toNat) = l := by
  rw [List.map_map]
  exact (List.map_congr_left fun b _ => latin_byte b).trans (List.map_id l)

theorem split_at {p q r s : Text} {c : Char} (hp : c ∉ p) (hq : c ∉ q) (h : p ++ c :: r = q ++ c :: s) : p = q ∧ r = s := by
  induction p generalizing q with
  | nil =>
    cases q with
    | nil => simpa using h
    | cons d q =>
      simp only [List.nil_append, List.cons_append, List.cons.injEq] at h
      exact absurd (h.1 ▸ List.mem_cons_self) hq
  | cons d p ih =>
    cases q with
    | nil =>
      simp only [List.nil_append, List.cons_append, List.cons.injEq] at h
      exact absurd (h.1 ▸ List.mem_cons_self) hp
    | cons e q =>
      simp only [List.cons_append, List.cons.injEq] at h
      simp only [List.mem_cons, not_or] at hp hq
      obtain ⟨a, b⟩ := ih hp.2 hq.2 h.2
      exact ⟨by rw [h.1, a], b⟩

theorem no_space (n : Nat) : ' ' ∉ decimal n := fun h => absurd (decimal_digit h) (by decide)

theorem U64_ext {a b : U64} (h : decimal a.val = decimal b.val) : a = b := by
  have := decimal_inj h
  cases a
  cases b
  cases this
  rfl

theorem object_ok {e : RpcError β φ} {o : Object} (h : object showBlock showFloat quote e = .ok o) :
    o.code = code e ∧ message showBlock showFloat e = .ok o.message ∧ dataOf quote e = .ok o.data := by
  unfold object at h
  cases hd : dataOf quote e with
  | ok d =>
    rw [hd] at h
    cases hm : message showBlock showFloat e with
    | ok m =>
      rw [hm] at h
      cases h
      exact ⟨rfl, rfl, rfl⟩
    | err => rw [hm] at h; cases h
    | panic => rw [hm] at h; cases h
  | err => rw [hd] at h; cases h
  | panic => rw [hd] at h; cases h

/-! ## The theorems -/

/-- C134: errors with the same code are of the same kind. -/
theorem C134_code {e e' : RpcError β φ} (h : code e = code e') : kind e = kind e' := by
  cases e <;> cases e' <;> first | rfl | exact absurd h (by simp only [code]; decide)

/-- C134: an error answer determines the error with its values, apart from those whose printing is a parameter and from
failed runs, which are below. -/
theorem C134_values {e e' : RpcError β φ} {o : Object} (h : object showBlock showFloat quote e = .ok o)
    (h' : object showBlock showFloat quote e' = .ok o) (hb : kind e ≠ .invalidNewestBlock)
    (hp : kind e ≠ .invalidRewardPercentiles) (hv : kind e ≠ .evm) : e = e' := by
  obtain ⟨h1, h2, h3⟩ := object_ok h
  obtain ⟨k1, k2, k3⟩ := object_ok h'
  have hk := C134_code (h1.symm.trans k1)
  have hm := h2.trans k2.symm
  have hd := h3.trans k3.symm
  cases e <;> cases e' <;> first | rfl | exact absurd hk (by simp only [kind]; decide) | skip
  · have := Option.some.inj (Outcome.ok.inj hd)
    rw [this]
  · have := Option.some.inj (Outcome.ok.inj hd)
    rw [this]
  · rw [U64_ext (List.append_cancel_left (Outcome.ok.inj hm))]
  · have e1 := List.append_cancel_left (Outcome.ok.inj hm)
    obtain ⟨a1, a2⟩ := split_at (no_space _) (no_space _) e1
    have e2 := List.append_cancel_left (as := "to ".toList) a2
    obtain ⟨b1, b2⟩ := split_at (no_space _) (no_space _) e2
    have e3 := List.append_cancel_left (as := "limit to ".toList) b2
    rw [U64_ext a1, U64_ext b1, U64_ext e3]
  · exact absurd rfl hb
  · rw [U64_ext (List.append_cancel_left (Outcome.ok.inj hm))]
  · exact absurd rfl hp
  · rw [U64_ext (List.append_cancel_left (Outcome.ok.inj hm))]
  · exact absurd rfl hv
  · have := Option.some.inj (Outcome.ok.inj hd)
    rw [this]

/-- C134: what a run returns is answered if it succeeds, and an error with the code for failed runs otherwise; if the
contract reverted, the client reads from the data exactly what it returned. -/
theorem C134_revert {r : Resp} {x : Bytes ⊕ Object} (h : answer (β := β) (φ := φ) showBlock showFloat quote r = .ok x) :
    (∃ s, r.exit = .succeed s ∧ x = .inl r.ret) ∨
    ∃ o, x = .inr o ∧ o.code = -49998 ∧ (∀ s, r.exit ≠ .succeed s) ∧
      (r.exit = .revert → ∃ d, o.data = some d ∧ readHex d = some r.ret) := by
  unfold answer at h
  cases he : r.exit with
  | succeed s =>
    rw [he, if_pos (by rfl)] at h
    cases h
    exact .inl ⟨s, rfl, rfl⟩
  | _ =>
    right
    rw [he, if_neg (by simp [isSucceed])] at h
    cases ho : object (β := β) (φ := φ) showBlock showFloat quote (.evm r) with
    | ok o =>
      rw [ho] at h
      cases h
      obtain ⟨h1, _, h3⟩ := object_ok ho
      refine ⟨o, rfl, h1, fun s => by simp, ?_⟩
      intro hr
      first
        | cases hr
        | skip
      all_goals
        refine ⟨"0x".toList ++ hexText r.ret, ?_, ?_⟩
        · have h3 : (vmErr quote r).bind (fun d => .ok (some d)) = .ok o.data := h3
          unfold vmErr at h3
          rw [he] at h3
          exact (Outcome.ok.inj h3).symm
        · unfold readHex hexText
          have e : ("0x".toList ++ (Hex.hexEncode r.ret).map Revert.latin).map (fun c => UInt8.ofNat c.toNat) =
              Hex.asString r.ret := by
            rw [List.map_append, bytes_latin]
            rfl
          rw [e]
          exact Hex.C08_from_str_as_string r.ret
    | err => rw [ho] at h; cases h
    | panic => rw [ho] at h; cases h

/-- C134, as far as it holds: two failed runs that get the same answer failed for the same reason, unless one is an
error and the other a fatal error, both with the same text; and reverted runs returned the same. -/
theorem C134_reason_partial (hq : ∀ s t, quote s = quote t → s = t) {r r' : Resp} {o : Object}
    (h : answer (β := β) (φ := φ) showBlock showFloat quote r = .ok (.inr o))
    (h' : answer (β := β) (φ := φ) showBlock showFloat quote r' = .ok (.inr o)) :
    Alike r.exit r'.exit ∧ (r.exit = .revert → r.ret = r'.ret) := by
  have get : ∀ {x : Resp}, answer (β := β) (φ := φ) showBlock showFloat quote x = .ok (.inr o) →
      ∃ d, vmErr quote x = .ok d ∧ o.data = some d := by
    intro x hx
    unfold answer at hx
    split at hx
    · cases hx
    · cases ho : object (β := β) (φ := φ) showBlock showFloat quote (.evm x) with
      | ok o' =>
        rw [ho] at hx
        cases hx
        have h3 := (object_ok ho).2.2
        have h3 : (vmErr quote x).bind (fun d => .ok (some d)) = .ok _ := h3
        cases hv : vmErr quote x with
        | ok d =>
          rw [hv] at h3
          exact ⟨d, rfl, (Outcome.ok.inj h3).symm⟩
        | err => rw [hv] at h3; cases h3
        | panic => rw [hv] at h3; cases h3
      | err => rw [ho] at hx; cases hx
      | panic => rw [ho] at hx; cases hx
  obtain ⟨d, h1, h2⟩ := get h
  obtain ⟨d', k1, k2⟩ := get h'
  have e := Option.some.inj (h2.symm.trans k2)
  subst e
  unfold vmErr at h1 k1
  cases he : r.exit with
  | succeed s => rw [he] at h1; cases h1
  | error x =>
    rw [he] at h1
    cases he' : r'.exit with
    | succeed s => rw [he'] at k1; cases k1
    | error y =>
      rw [he'] at k1
      rw [debugError_inj hq (Outcome.ok.inj (h1.trans k1.symm))]
      exact ⟨.same _, fun c => by cases c⟩
    | revert =>
      rw [he'] at k1
      exact absurd (Outcome.ok.inj (h1.trans k1.symm)) (head_name (errorName_ne x) (errorName_plain x).1.2 _)
    | fatal y =>
      rw [he'] at k1
      obtain ⟨t, rfl, rfl⟩ := debug_alike hq (Outcome.ok.inj (h1.trans k1.symm))
      exact ⟨.left t, fun c => by cases c⟩
  | revert =>
    rw [he] at h1
    cases he' : r'.exit with
    | succeed s => rw [he'] at k1; cases k1
    | error y =>
      rw [he'] at k1
      exact absurd (Outcome.ok.inj (k1.trans h1.symm)) (head_name (errorName_ne y) (errorName_plain y).1.2 _)
    | revert =>
      rw [he'] at k1
      refine ⟨.same _, fun _ => ?_⟩
      have e1 := List.append_cancel_left (Outcome.ok.inj (h1.trans k1.symm))
      have e2 := congrArg (List.map fun c : Char => UInt8.ofNat c.toNat) e1
      unfold hexText at e2
      rw [bytes_latin, bytes_latin] at e2
      have e3 := Hex.C08_decode_encode r.ret
      rw [e2, Hex.C08_decode_encode] at e3
      exact (Option.some.inj e3).symm
    | fatal y =>
      rw [he'] at k1
      exact absurd (Outcome.ok.inj (k1.trans h1.symm)) (head_name (fatalName_ne y) (fatalName_plain y).1.2 _)
  | fatal x =>
    rw [he] at h1
    cases he' : r'.exit with
    | succeed s => rw [he'] at k1; cases k1
    | error y =>
      rw [he'] at k1
      obtain ⟨t, rfl, rfl⟩ := debug_alike hq (Outcome.ok.inj (k1.trans h1.symm))
      exact ⟨.right t, fun c => by cases c⟩
    | revert =>
      rw [he'] at k1
      exact absurd (Outcome.ok.inj (h1.trans k1.symm)) (head_name (fatalName_ne x) (fatalName_plain x).1.2 _)
    | fatal y =>
      rw [he'] at k1
      rw [debugFatal_inj hq (Outcome.ok.inj (h1.trans k1.symm))]
      exact ⟨.same _, fun c => by cases c⟩

/-- C134: the node stops on exactly those failed runs that return at least 68 bytes whose length word is beyond what a
machine word less 68 can hold. -/
theorem C134_stop_partial (r : Resp) : answer (β := β) (φ := φ) showBlock showFloat quote r = .panic ↔
    (∀ s, r.exit ≠ .succeed s) ∧ 68 ≤ r.ret.length ∧ 2 ^ 64 - 68 ≤ beNat ((r.ret.drop 36).take 32) := by
  have hv : (∀ s, r.exit ≠ .succeed s) → ∃ d, vmErr quote r = .ok d := by
    intro hs
    unfold vmErr
    cases he : r.exit with
    | succeed s => exact absurd he (hs s)
    | error _ => exact ⟨_, rfl⟩
    | revert => exact ⟨_, rfl⟩
    | fatal _ => exact ⟨_, rfl⟩
  by_cases hs : isSucceed r.exit = true
  · have e : ∃ s, r.exit = .succeed s := by
      cases he : r.exit <;> rw [he] at hs <;> first | exact ⟨_, rfl⟩ | cases hs
    unfold answer
    rw [if_pos hs]
    refine ⟨fun h => (by cases h), fun h => ?_⟩
    obtain ⟨s, e⟩ := e
    exact absurd e (h.1 s)
  · have hn : ∀ s, r.exit ≠ .succeed s := fun s e => hs (by rw [e]; rfl)
    obtain ⟨d, hd⟩ := hv hn
    have e : answer (β := β) (φ := φ) showBlock showFloat quote r = (Revert.decodeRevertMsg r.ret).bind fun m =>
        .ok (.inr ⟨-49998, "EVM error ".toList ++ m, some d⟩) := by
      unfold answer
      rw [if_neg hs]
      have o1 : object showBlock showFloat quote (.evm r) =
          ((vmErr quote r).bind fun d => Outcome.ok (some d)).bind fun d =>
            ((Revert.decodeRevertMsg r.ret).bind fun m => Outcome.ok ("EVM error ".toList ++ m)).bind fun m =>
              Outcome.ok (⟨-49998, m, d⟩ : Object) := rfl
      rw [o1, hd]
      cases Revert.decodeRevertMsg r.ret <;> rfl
    rw [e]
    rcases Revert.C42_total_partial r.ret with ⟨a, b, c⟩ | ⟨a, m, c⟩
    · rw [c]
      exact ⟨fun _ => ⟨hn, a, b⟩, fun _ => rfl⟩
    · rw [c]
      refine ⟨fun h => (by cases h), fun h => ?_⟩
      rcases a with a | a <;> omega

/-- Not so: every failed run that is answered is reported as reverted, among them those that ran out of gas. -/
theorem C134_message_false : (∀ (r : Resp) (o : Object),
      answer (β := β) (φ := φ) showBlock showFloat quote r = .ok (.inr o) →
      ∃ m, o.message = "EVM error execution reverted: ".toList ++ m) ∧
    ∃ (r : Resp) (o : Object), r.exit = .error .outOfGas ∧
      answer (β := β) (φ := φ) showBlock showFloat quote r = .ok (.inr o) := by
  constructor
  · intro r o h
    unfold answer at h
    split at h
    · cases h
    · cases ho : object (β := β) (φ := φ) showBlock showFloat quote (.evm r) with
      | ok o' =>
        rw [ho] at h
        cases h
        have h2 := (object_ok ho).2.1
        have h2 : (Revert.decodeRevertMsg r.ret).bind (fun m => .ok ("EVM error ".toList ++ m)) = .ok _ := h2
        rcases Revert.C42_total_partial r.ret with ⟨_, _, c⟩ | ⟨_, m, c⟩
        · rw [c] at h2
          cases h2
        · rw [c] at h2
          exact ⟨m, (Outcome.ok.inj h2).symm⟩
      | err => rw [ho] at h; cases h
      | panic => rw [ho] at h; cases h
  · exact ⟨⟨.error .outOfGas, []⟩, _, rfl, rfl⟩

/-- Not so: an error and a fatal error with the same text get the same answer. -/
theorem C134_reason_false (t : Exit.Text) : ∃ o,
    answer (β := β) (φ := φ) showBlock showFloat quote ⟨.error (.other t), []⟩ = .ok (.inr o) ∧
    answer (β := β) (φ := φ) showBlock showFloat quote ⟨.fatal (.other t), []⟩ = .ok (.inr o) := ⟨_, rfl, rfl⟩

/-- Not so: there is a reverted run whose answer stops the node. -/
theorem C134_stop_false : ∃ r : Resp, r.exit = .revert ∧
    answer (β := β) (φ := φ) showBlock showFloat quote r = .panic := by
  refine ⟨⟨.revert, List.replicate 36 0 ++ List.replicate 32 0xff⟩, rfl, ?_⟩
  rw [C134_stop_partial]
  exact ⟨fun s => by simp, by decide, by decide +kernel⟩

/-! ## Examples -/

/-- A way to quote that keeps texts apart. -/
def quote0 (s : String) : Text := '"' :: (s.toList ++ ['"'])

theorem quote0_inj (s t : String) (h : quote0 s = quote0 t) : s = t := by
  unfold quote0 at h
  have := List.append_cancel_right (List.tail_eq_of_cons_eq h)
  exact String.toList_injective this

/-- A revert with a return value, and an unknown opcode. -/
example : answer (β := Unit) (φ := Unit) (fun _ => []) (fun _ => []) quote0 ⟨.revert, [0xde, 0xad]⟩ =
    .ok (.inr ⟨-49998, "EVM error execution reverted: \u00de\u00ad".toList, some "0xdead".toList⟩) := by decide +kernel

example : vmErr quote0 ⟨.fatal (.callErrorAsFatal (.invalidCode 0xfe)), []⟩ =
    .ok "CallErrorAsFatal(InvalidCode(Opcode(254)))".toList := by decide +kernel

example : message (β := Unit) (φ := Unit) (fun _ => []) (fun _ => []) (.invalidBlockRange ⟨1, by decide⟩ ⟨20, by decide⟩ ⟨10, by decide⟩) =
    .ok "Invalid block range from 1 to 20 limit to 10".toList := by decide +kernel

end Axon.RpcErr
