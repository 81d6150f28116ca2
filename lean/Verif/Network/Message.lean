import Verif.Network.Endpoint
import Verif.Network.Proto
import Verif.Network.RpcMap

/-!
# From received bytes to the handler

Model of `MessageRouter::route_message` (core/network/src/reactor/router.rs:104-136), of
`MessageReactor::react` (core/network/src/reactor/mod.rs:44-119), of the two trace headers
(core/network/src/message/mod.rs:15-66, common/apm/src/tracing.rs:82-99) and of the sending side
(core/network/src/outbound/gossip.rs:35-55, outbound/rpc.rs:77, 105-116, 161, 169-180).
-/

namespace Axon.Message

open Axon.Assoc Axon.Proto Axon.Endpoint

/-- A trace: its id (`TraceId`, high and low word) and its span. -/
structure Trace where
  high : Nat
  low : Nat
  span : Nat
deriving DecidableEq, Repr

/-- One hexadecimal digit. -/
def hexVal (b : UInt8) : Option Nat :=
  if 48 ≤ b.toNat ∧ b.toNat ≤ 57 then some (b.toNat - 48)
  else if 97 ≤ b.toNat ∧ b.toNat ≤ 102 then some (b.toNat - 87)
  else if 65 ≤ b.toNat ∧ b.toNat ≤ 70 then some (b.toNat - 55)
  else none

def hexFold : Nat → Bytes → Option Nat
  | n, [] => some n
  | n, d :: ds =>
    match hexVal d with
    | none => none
    | some v => hexFold (n * 16 + v) ds

/-- A leading `+` is passed over, unless it is all there is. -/
def stripPlus : Bytes → Bytes
  | 43 :: d :: r => d :: r
  | t => t

/-- `u64::from_str_radix(_, 16)`: an optional `+`, then digits. -/
def parseHex (t : Bytes) : Option Nat :=
  if t.isEmpty then none
  else
    match hexFold 0 (stripPlus t) with
    | none => none
    | some n => if n < 2 ^ 64 then some n else none

/-- tracing.rs:82-99: `str_to_trace`. -/
def strToTrace (s : Bytes) : Option (Nat × Nat) :=
  if s.length ≤ 16 then (parseHex s).map fun l => (0, l)
  else if s.length ≤ 32 then
    let high := s.take (s.length - 16)
    let low := s.drop (s.length - 16)
    if utf8 high && utf8 low then
      match parseHex high, parseHex low with
      | some h, some l => some (h, l)
      | _, _ => none
    else none
  else none

def traceKey : Bytes := text "trace_id"
def spanKey : Bytes := text "span_id"

/-- message/mod.rs:52-58: `trace_id`; `unwrap` on a text that is no trace id. -/
def traceId (m : Msg) : Outcome (Option (Nat × Nat)) :=
  match get m.headers traceKey with
  | none => .ok none
  | some v =>
    if utf8 v then
      match strToTrace v with
      | some t => .ok (some t)
      | none => .panic
    else .ok none

/-- message/mod.rs:60-66: `span_id`; slicing fewer than eight bytes panics. -/
def spanId (m : Msg) : Outcome (Option Nat) :=
  match get m.headers spanKey with
  | none => .ok none
  | some v => if v.length < 8 then .panic else .ok (some (beNat (v.take 8)))

/-- What a message leads to. -/
inductive Reaction (α : Type) where
  /-- the handler is run on the decoded content, with the call number and the trace in its context -/
  | process (content : α) (rid : Option Nat) (trace : Option Trace)
  /-- the response is given to the waiting call -/
  | respond (rid : Nat) (r : Rpc.Resp)
  /-- a response nobody waits for -/
  | unknown (rid : Nat)
deriving DecidableEq, Repr

/-- reactor/mod.rs:44-119: `react`.  `decodeMsg` is `MessageCodec::decode_msg` of the handler's message
type, `waiting` tells whether the call map has an entry for the session and the call number, `lossy` is
`from_utf8_lossy`.  The handler itself is run after this. -/
def react {α : Type} (decodeMsg : Bytes → Option α) (waiting : Nat → Bool) (lossy : Bytes → Bytes)
    (e : Endpoint) (m : Msg) : Outcome (Reaction α) :=
  match traceId m, spanId m with
  | .ok t, .ok s =>
    let trace := match t, s with
      | some (h, l), some s => some ⟨h, l, s⟩
      | _, _ => none
    match e.scheme with
    | .ok .gossip =>
      match decodeMsg m.content with
      | none => .err
      | some c => .ok (.process c none trace)
    | .ok .rpcCall =>
      match decodeMsg m.content with
      | none => .err
      | some c =>
        match rpcId e with
        | .error _ => .err
        | .ok n => .ok (.process c (some n) trace)
    | .ok .rpcResponse =>
      match rpcId e with
      | .error _ => .err
      | .ok n => if waiting n then .ok (.respond n (Rpc.Resp.decode lossy m.content)) else .ok (.unknown n)
    | .err => .err
    | .panic => .panic
  | _, _ => .panic

/-- router.rs:104-136: `route_message`; the reactors carry the decoder of their message type. -/
def route {α : Type} (reactors : List (Bytes × (Bytes → Option α))) (waiting : Nat → Bool)
    (lossy : Bytes → Bytes) (data : Bytes) : Outcome (Reaction α) :=
  match decode data with
  | none => .err
  | some m =>
    match parse m.url with
    | .error _ => .err
    | .ok e =>
      match reactor reactors e with
      | .ok none => .err
      | .ok (some d) => react d waiting lossy e m
      | .err => .err
      | .panic => .panic

/-! ## Sending -/

def hexDigit (n : Nat) : UInt8 := if n < 10 then UInt8.ofNat (48 + n) else UInt8.ofNat (87 + n)

/-- `{:x}`. -/
def hex (n : Nat) : Bytes := if h : n < 16 then [hexDigit n] else hex (n / 16) ++ [hexDigit (n % 16)]
termination_by n
decreasing_by omega

/-- `{:0w x}`. -/
def hexPad (w n : Nat) : Bytes :=
  match w with
  | 0 => []
  | w + 1 => hexPad w (n / 16) ++ [hexDigit (n % 16)]

/-- `TraceId::to_string` of the crate `rustracing_jaeger`: 16 or up to 32 digits. -/
def Trace.text (t : Trace) : Bytes := if t.high = 0 then hex t.low else hex t.high ++ hexPad 16 t.low

/-- message/mod.rs:18-29: the headers set for a traced message. -/
def headers (t : Option Trace) : List (Bytes × Bytes) :=
  match t with
  | none => []
  | some t => [(traceKey, t.text), (spanKey, beFixed 8 t.span)]

/-- outbound/gossip.rs:35-55: `package_message`. -/
def packGossip (u : Bytes) (data : Bytes) (t : Option Trace) : Option Bytes :=
  match parse u with
  | .error _ => none
  | .ok e => some (Msg.encode ⟨headers t, e.url, data⟩)

/-- outbound/rpc.rs:77, 105-116 and 161, 169-180: a call or a response under its number. -/
def packRpc (u : Bytes) (rid : Nat) (data : Bytes) (t : Option Trace) : Option Bytes :=
  match parse u with
  | .error _ => none
  | .ok e =>
    match e.extend (dec rid) with
    | .error _ => none
    | .ok f => some (Msg.encode ⟨headers t, f.url, data⟩)

/-! ## Lemmas -/

theorem hexDigit_toNat (n : Nat) (h : n < 16) : (hexDigit n).toNat = if n < 10 then 48 + n else 87 + n := by
  unfold hexDigit
  split
  · simp [UInt8.toNat_ofNat']; omega
  · simp [UInt8.toNat_ofNat']; omega

theorem hexVal_hexDigit (n : Nat) (h : n < 16) : hexVal (hexDigit n) = some n := by
  unfold hexVal
  rw [hexDigit_toNat n h]
  by_cases h' : n < 10
  · rw [if_pos h', if_pos (by omega)]; simp
  · rw [if_neg h', if_neg (by omega), if_pos (by omega)]
    congr 1; omega

theorem hexFold_snoc (n v : Nat) (ds : Bytes) (d : UInt8) (h : hexVal d = some v) :
    hexFold n (ds ++ [d]) = (hexFold n ds).map fun x => x * 16 + v := by
  induction ds generalizing n with
  | nil => simp [hexFold, h]
  | cons x xs ih =>
    rw [List.cons_append]
    unfold hexFold
    split
    · rfl
    · exact ih _

/-- A digit that `hexDigit` writes. -/
def IsDigit (b : UInt8) : Prop := (48 ≤ b.toNat ∧ b.toNat ≤ 57) ∨ (97 ≤ b.toNat ∧ b.toNat ≤ 102)

theorem hexDigit_isDigit (n : Nat) (h : n < 16) : IsDigit (hexDigit n) := by
  unfold IsDigit
  rw [hexDigit_toNat n h]
  split <;> omega

theorem hex_spec (n : Nat) : hexFold 0 (hex n) = some n ∧ hex n ≠ [] ∧ ∀ d ∈ hex n, IsDigit d := by
  induction n using Nat.strongRecOn with
  | ind n ih =>
    unfold hex
    split
    · next h =>
      refine ⟨by simp [hexFold, hexVal_hexDigit n h], by simp, ?_⟩
      intro d hd; rw [List.mem_singleton.1 hd]; exact hexDigit_isDigit n h
    · next h =>
      obtain ⟨h1, h2, h3⟩ := ih (n / 16) (by omega)
      refine ⟨?_, by simp, ?_⟩
      · rw [hexFold_snoc 0 (n % 16) _ _ (hexVal_hexDigit _ (by omega)), h1]
        simp; omega
      · intro d hd
        rcases List.mem_append.1 hd with hd | hd
        · exact h3 d hd
        · rw [List.mem_singleton.1 hd]; exact hexDigit_isDigit _ (by omega)

theorem hex_length (n k : Nat) (hk : 0 < k) (h : n < 16 ^ k) : (hex n).length ≤ k := by
  induction k generalizing n with
  | zero => omega
  | succ k ih =>
    unfold hex
    split
    · simp
    · next h16 =>
      rw [List.length_append]
      have hk' : 0 < k := by
        rcases Nat.eq_zero_or_pos k with hh | hh
        · subst hh; omega
        · exact hh
      have := ih (n / 16) hk' (by rw [Nat.pow_succ] at h; omega)
      simp; omega

theorem hexPad_spec (w n : Nat) (h : n < 16 ^ w) : hexFold 0 (hexPad w n) = some n ∧ (hexPad w n).length = w ∧
    ∀ d ∈ hexPad w n, IsDigit d := by
  induction w generalizing n with
  | zero =>
    have : n = 0 := by simp at h; exact h
    subst this
    exact ⟨rfl, rfl, by simp [hexPad]⟩
  | succ w ih =>
    obtain ⟨h1, h2, h3⟩ := ih (n / 16) (by rw [Nat.pow_succ] at h; omega)
    unfold hexPad
    refine ⟨?_, by simp [h2], ?_⟩
    · rw [hexFold_snoc 0 (n % 16) _ _ (hexVal_hexDigit _ (by omega)), h1]
      simp; omega
    · intro d hd
      rcases List.mem_append.1 hd with hd | hd
      · exact h3 d hd
      · rw [List.mem_singleton.1 hd]; exact hexDigit_isDigit _ (by omega)

theorem parseHex_digits (t : Bytes) (n : Nat) (hn : n < 2 ^ 64) (ht : t ≠ []) (hd : ∀ d ∈ t, IsDigit d)
    (hf : hexFold 0 t = some n) : parseHex t = some n := by
  unfold parseHex
  have hds : stripPlus t = t := by
    unfold stripPlus
    split
    · next d r =>
      have := hd 43 List.mem_cons_self
      unfold IsDigit at this
      simp at this
    · rfl
  rw [if_neg (by simpa using ht), hds, hf]
  dsimp only
  rw [if_pos hn]

theorem utf8_ascii (t : Bytes) (h : ∀ d ∈ t, d.toNat < 128) : utf8 t = true := by
  induction t with
  | nil => rfl
  | cons x xs ih =>
    unfold utf8
    rw [if_pos (h x List.mem_cons_self)]
    exact ih fun d hd => h d (List.mem_cons_of_mem _ hd)

theorem utf8_digits (t : Bytes) (h : ∀ d ∈ t, IsDigit d) : utf8 t = true :=
  utf8_ascii t fun d hd => by
    have := h d hd
    unfold IsDigit at this
    omega

theorem trace_text (t : Trace) (hh : t.high < 2 ^ 64) (hl : t.low < 2 ^ 64) :
    utf8 t.text = true ∧ strToTrace t.text = some (t.high, t.low) := by
  obtain ⟨l1, l2, l3⟩ := hex_spec t.low
  obtain ⟨p1, p2, p3⟩ := hexPad_spec 16 t.low (by omega)
  obtain ⟨h1, h2, h3⟩ := hex_spec t.high
  unfold Trace.text
  by_cases h0 : t.high = 0
  · rw [if_pos h0]
    refine ⟨utf8_digits _ l3, ?_⟩
    unfold strToTrace
    rw [if_pos (hex_length _ 16 (by omega) (by omega)), parseHex_digits _ _ hl l2 l3 l1, h0]
    rfl
  · rw [if_neg h0]
    refine ⟨utf8_digits _ ?_, ?_⟩
    · intro d hd
      rcases List.mem_append.1 hd with hd | hd
      · exact h3 d hd
      · exact p3 d hd
    · have hlen := hex_length t.high 16 (by omega) (by omega)
      have hpos := List.length_pos_iff.2 h2
      have hn : (hex t.high ++ hexPad 16 t.low).length - 16 = (hex t.high).length := by
        rw [List.length_append, p2]; omega
      unfold strToTrace
      rw [if_neg (by rw [List.length_append, p2]; omega), if_pos (by rw [List.length_append, p2]; omega)]
      simp only [hn, List.take_left, List.drop_left]
      have hp : hexPad 16 t.low ≠ [] := by intro hh; rw [hh] at p2; simp at p2
      rw [utf8_digits _ h3, utf8_digits _ p3, parseHex_digits _ _ hh h2 h3 h1, parseHex_digits _ _ hl hp p3 p1]
      rfl

end Axon.Message
