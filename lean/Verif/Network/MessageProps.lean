import Verif.Network.Message
import Verif.Network.EndpointProps
import Verif.Network.ProtoProps

/-!
# C90 — received bytes never abort the node, and what a node sends is what the other's handler gets
-/

namespace Axon.Message

open Axon.Assoc Axon.Proto Axon.Endpoint

/-! ## Specification -/

/-- A text that the trace reader understands: one to sixteen hexadecimal digits, or up to thirty-two in two
parts; a plus sign may come first in each part. -/
def TraceText (v : Bytes) : Prop := ∃ h l, strToTrace v = some (h, l)

/-- The headers with which a message is safe to receive. -/
def Harmless (m : Msg) : Prop :=
  (∀ v, get m.headers traceKey = some v → utf8 v = true → TraceText v) ∧
  (∀ v, get m.headers spanKey = some v → 8 ≤ v.length)

/-- What a message of a given scheme leads to, from its content, its call number and its trace. -/
def expected {α : Type} (d : Bytes → Option α) (waiting : Nat → Bool) (lossy : Bytes → Bytes) (content : Bytes)
    (rid : Except Err Nat) (t : Option Trace) : Scheme → Outcome (Reaction α)
  | .gossip =>
    match d content with
    | none => .err
    | some c => .ok (.process c none t)
  | .rpcCall =>
    match d content with
    | none => .err
    | some c =>
      match rid with
      | .error _ => .err
      | .ok n => .ok (.process c (some n) t)
  | .rpcResponse =>
    match rid with
    | .error _ => .err
    | .ok n => if waiting n then .ok (.respond n (Rpc.Resp.decode lossy content)) else .ok (.unknown n)

theorem keys_ne : traceKey ≠ spanKey := by decide +kernel
theorem traceKey_utf8 : utf8 traceKey = true := by decide +kernel
theorem spanKey_utf8 : utf8 spanKey = true := by decide +kernel
theorem traceKey_length : traceKey.length ≤ 8 := by decide +kernel
theorem spanKey_length : spanKey.length ≤ 8 := by decide +kernel

/-! ## Abort -/

theorem traceId_panic (m : Msg) : traceId m = .panic ↔
    ∃ v, get m.headers traceKey = some v ∧ utf8 v = true ∧ ¬ TraceText v := by
  unfold traceId TraceText
  cases hg : get m.headers traceKey with
  | none => simp
  | some v =>
    by_cases hu : utf8 v = true
    · simp only [hu, if_true]
      cases hs : strToTrace v with
      | none => simp [hu, hs]
      | some t => simp [hs]; exact fun _ => ⟨_, _, rfl⟩
    · simp [hu]

theorem spanId_panic (m : Msg) : spanId m = .panic ↔ ∃ v, get m.headers spanKey = some v ∧ v.length < 8 := by
  unfold spanId
  cases hg : get m.headers spanKey with
  | none => simp
  | some v =>
    by_cases hl : v.length < 8
    · simp [hl]
    · simp [hl]

theorem traceId_ne_err (m : Msg) : traceId m ≠ .err := by
  unfold traceId
  split
  · simp
  · split
    · split <;> simp
    · simp

theorem spanId_ne_err (m : Msg) : spanId m ≠ .err := by
  unfold spanId
  split
  · simp
  · split <;> simp

theorem harmless_iff (m : Msg) : ¬ Harmless m ↔ traceId m = .panic ∨ spanId m = .panic := by
  rw [traceId_panic, spanId_panic]
  unfold Harmless
  constructor
  · intro h
    by_cases h1 : ∀ v, get m.headers traceKey = some v → utf8 v = true → TraceText v
    · right
      have h2 : ¬ ∀ v, get m.headers spanKey = some v → 8 ≤ v.length := fun h2 => h ⟨h1, h2⟩
      simp only [Classical.not_forall] at h2
      obtain ⟨v, hv, hl⟩ := h2
      exact ⟨v, hv, by omega⟩
    · left
      simp only [Classical.not_forall] at h1
      obtain ⟨v, hv, hu, ht⟩ := h1
      exact ⟨v, hv, hu, ht⟩
  · rintro (⟨v, hv, hu, ht⟩ | ⟨v, hv, hl⟩) ⟨h1, h2⟩
    · exact ht (h1 v hv hu)
    · have := h2 v hv; omega

theorem react_panic {α : Type} (d : Bytes → Option α) (waiting : Nat → Bool) (lossy : Bytes → Bytes)
    {u : Bytes} {e : Endpoint} (he : parse u = .ok e) (m : Msg) :
    react d waiting lossy e m = .panic ↔ ¬ Harmless m := by
  rw [harmless_iff]
  obtain ⟨⟨s, hs⟩, -⟩ := C89_no_abort he
  unfold react
  cases h1 : traceId m with
  | err => exact absurd h1 (traceId_ne_err m)
  | panic => simp
  | ok t =>
    cases h2 : spanId m with
    | err => exact absurd h2 (spanId_ne_err m)
    | panic => simp
    | ok sp =>
      simp only [hs]
      simp only [reduceCtorEq, or_self, iff_false]
      cases s with
      | gossip =>
        dsimp only
        split <;> simp
      | rpcCall =>
        dsimp only
        split
        · simp
        · split <;> simp
      | rpcResponse =>
        dsimp only
        split
        · simp
        · split <;> simp

/-- The exact condition: received bytes abort the node if and only if they decode to a message for an
endpoint that has a handler, whose trace headers are malformed. -/
theorem C90_abort {α : Type} (reactors : List (Bytes × (Bytes → Option α))) (waiting : Nat → Bool)
    (lossy : Bytes → Bytes) (data : Bytes) :
    route reactors waiting lossy data = .panic ↔
      ∃ m e d, decode data = some m ∧ parse m.url = .ok e ∧ reactor reactors e = .ok (some d) ∧ ¬ Harmless m := by
  unfold route
  cases h1 : decode data with
  | none => simp
  | some m =>
    dsimp only
    cases h2 : parse m.url with
    | error x => simp [h2]
    | ok e =>
      dsimp only
      obtain ⟨-, r, hr⟩ := C89_no_abort h2
      have hre : ∃ o, reactor reactors e = .ok o := by unfold reactor; rw [hr]; exact ⟨_, rfl⟩
      obtain ⟨o, ho⟩ := hre
      rw [ho]
      cases o with
      | none =>
        simp only [reduceCtorEq, false_iff]
        rintro ⟨m', e', d, hm, he, hd, -⟩
        cases hm
        rw [h2] at he
        cases he
        rw [ho] at hd
        cases hd
      | some d =>
        dsimp only
        rw [react_panic d waiting lossy h2 m]
        constructor
        · exact fun h => ⟨m, e, d, rfl, h2, ho, h⟩
        · rintro ⟨m', e', d', hm, he, hd, hh⟩
          cases hm
          exact hh

/-- The property as wanted, that received bytes never abort the node, holds for messages without trace
headers. -/
theorem C90_no_abort_partial {α : Type} (reactors : List (Bytes × (Bytes → Option α))) (waiting : Nat → Bool)
    (lossy : Bytes → Bytes) (data : Bytes)
    (h : ∀ m, decode data = some m → get m.headers traceKey = none ∧ get m.headers spanKey = none) :
    route reactors waiting lossy data ≠ .panic := by
  rw [Ne, C90_abort]
  rintro ⟨m, e, d, hm, -, -, hh⟩
  obtain ⟨h1, h2⟩ := h m hm
  exact hh ⟨by simp [h1], by simp [h2]⟩

/-- And it is false in general: every endpoint with a handler can be used by any peer to stop the node, with
a one-byte span header or with an empty trace header. -/
theorem C90_stranger_false {α : Type} (reactors : List (Bytes × (Bytes → Option α))) (waiting : Nat → Bool)
    (lossy : Bytes → Bytes) {u : Bytes} {e : Endpoint} (he : parse u = .ok e) (hu : utf8 u = true)
    (d : Bytes → Option α) (hd : reactor reactors e = .ok (some d)) (content : Bytes)
    (hc : content.length < 2 ^ 32) :
    route reactors waiting lossy (Msg.encode ⟨[(spanKey, [0])], u, content⟩) = .panic ∧
    route reactors waiting lossy (Msg.encode ⟨[(traceKey, [])], u, content⟩) = .panic := by
  have key : ∀ (k v : Bytes), k.length ≤ 8 → v.length ≤ 1 → utf8 k = true →
      ∃ m, decode (Msg.encode ⟨[(k, v)], u, content⟩) = some m ∧ Same m ⟨[(k, v)], u, content⟩ := by
    intro k v hk hv hku
    refine C91_roundtrip _ ⟨by simp [NodupKeys], by simpa using hku, hu⟩ ?_
    have vl : ∀ n, n < 2 ^ 64 → (encVarint n).length ≤ 10 := by
      intro n hn
      suffices h : ∀ k n, n < 128 ^ (k + 1) → (encVarint n).length ≤ k + 1 from h 9 n (by omega)
      intro k
      induction k with
      | zero => intro n hn; unfold encVarint; rw [dif_pos (by simpa using hn)]; simp
      | succ k ih =>
        intro n hn
        unfold encVarint
        split
        · simp
        · have := ih (n / 128) (by rw [Nat.pow_succ] at hn; omega)
          simp; omega
    have fl : ∀ t (x : Bytes), t < 100 → x.length < 2 ^ 63 → (encField t x).length ≤ 20 + x.length := by
      intro t x ht hx
      have a := vl (t * 8 + 2) (by omega)
      have b := vl x.length (by omega)
      unfold encField encKey
      simp; omega
    have ol : ∀ t (x : Bytes), t < 100 → x.length < 2 ^ 63 → (encOpt t x).length ≤ 20 + x.length := by
      intro t x ht hx
      unfold encOpt
      split
      · simp
      · exact fl t x ht hx
    have hul := (parse_ok he).2.1
    have a1 := ol 1 k (by omega) (by omega)
    have a2 := ol 2 v (by omega) (by omega)
    have a3 := fl 1 (encOpt 1 k ++ encOpt 2 v) (by omega) (by rw [List.length_append]; omega)
    have a4 := ol 2 u (by omega) (by omega)
    have a5 := ol 3 content (by omega) (by omega)
    rw [List.length_append] at a3
    unfold Msg.encode
    simp only [List.flatMap_cons, List.flatMap_nil, List.append_nil, encEntry, List.length_append]
    omega
  constructor
  · obtain ⟨m, hm, hs⟩ := key spanKey [0] spanKey_length (by simp) spanKey_utf8
    rw [C90_abort]
    refine ⟨m, e, d, hm, by rw [hs.url]; exact he, hd, fun hh => ?_⟩
    have := hh.2 [0] (by rw [hs.headers]; simp [get_cons])
    simp at this
  · obtain ⟨m, hm, hs⟩ := key traceKey [] traceKey_length (by simp) traceKey_utf8
    rw [C90_abort]
    refine ⟨m, e, d, hm, by rw [hs.url]; exact he, hd, fun hh => ?_⟩
    obtain ⟨a, b, hab⟩ := hh.1 [] (by rw [hs.headers]; simp [get_cons]) rfl
    simp [strToTrace, parseHex] at hab

/-! ## Delivery -/

/-- A trace that Rust can hold. -/
def Trace.Ok (t : Trace) : Prop := t.high < 2 ^ 64 ∧ t.low < 2 ^ 64 ∧ t.span < 2 ^ 64

theorem headers_valid (t : Option Trace) : NodupKeys (headers t) ∧ ∀ kv ∈ headers t, utf8 kv.1 = true := by
  cases t with
  | none => exact ⟨List.Pairwise.nil, by simp [headers]⟩
  | some t =>
    have h1 := keys_ne
    have h2 := traceKey_utf8
    have h3 := spanKey_utf8
    refine ⟨by simp [headers, NodupKeys, h1], ?_⟩
    intro kv hkv
    simp only [headers, List.mem_cons, List.not_mem_nil, or_false] at hkv
    rcases hkv with rfl | rfl
    · exact h2
    · exact h3

theorem trace_read (t : Option Trace) (ht : ∀ x, t = some x → x.Ok) (m : Msg)
    (hm : ∀ k, get m.headers k = get (headers t) k) :
    traceId m = .ok (t.map fun x => (x.high, x.low)) ∧ spanId m = .ok (t.map (·.span)) := by
  unfold traceId spanId
  rw [hm, hm]
  cases t with
  | none => exact ⟨rfl, rfl⟩
  | some x =>
    obtain ⟨h1, h2, h3⟩ := ht x rfl
    obtain ⟨t1, t2⟩ := trace_text x h1 h2
    have k := keys_ne
    have g1 : get (headers (some x)) traceKey = some x.text := by simp [headers, get_cons]
    have g2 : get (headers (some x)) spanKey = some (beFixed 8 x.span) := by simp [headers, get_cons, k]
    rw [g1, g2]
    dsimp only
    rw [t1, t2]
    refine ⟨rfl, ?_⟩
    rw [if_neg (by simp)]
    have : (beFixed 8 x.span).take 8 = beFixed 8 x.span := List.take_of_length_le (by simp)
    rw [this, beNat_beFixed_of_lt (by omega)]
    rfl

theorem route_of {α : Type} (reactors : List (Bytes × (Bytes → Option α))) (waiting : Nat → Bool)
    (lossy : Bytes → Bytes) (u content : Bytes) (t : Option Trace) (ht : ∀ x, t = some x → x.Ok)
    {e : Endpoint} (he : parse u = .ok e) (hu : utf8 u = true)
    (hl : (Msg.encode ⟨headers t, u, content⟩).length < 2 ^ 64) (d : Bytes → Option α)
    (hd : reactor reactors e = .ok (some d)) {s : Scheme} (hs : e.scheme = .ok s) :
    route reactors waiting lossy (Msg.encode ⟨headers t, u, content⟩) =
      expected d waiting lossy content (rpcId e) t s := by
  obtain ⟨hn, hk⟩ := headers_valid t
  obtain ⟨m, hm, hsm⟩ := C91_roundtrip ⟨headers t, u, content⟩ ⟨hn, hk, hu⟩ hl
  obtain ⟨r1, r2⟩ := trace_read t ht m hsm.headers
  have hurl : m.url = u := hsm.url
  have hcont : m.content = content := hsm.content
  unfold route
  rw [hm]
  dsimp only
  rw [hurl, he]
  dsimp only
  rw [hd]
  dsimp only
  unfold react
  rw [r1, r2, hs, hcont]
  dsimp only
  cases t <;> cases s <;> rfl

/-- A gossiped message: what the sender encodes is what the handler of that endpoint is given, with the
sender's trace. -/
theorem C90_gossip {α : Type} (reactors : List (Bytes × (Bytes → Option α))) (waiting : Nat → Bool)
    (lossy : Bytes → Bytes) (u content : Bytes) (t : Option Trace) (ht : ∀ x, t = some x → x.Ok)
    {e : Endpoint} (he : parse u = .ok e) (hs : e.scheme = .ok .gossip) (hu : utf8 u = true) (d : Bytes → Option α)
    (hd : reactor reactors e = .ok (some d)) (c : α) (hc : d content = some c) {data : Bytes}
    (hp : packGossip u content t = some data) (hl : data.length < 2 ^ 64) :
    route reactors waiting lossy data = .ok (.process c none t) := by
  unfold packGossip at hp
  rw [he] at hp
  simp only [Option.some.injEq] at hp
  rw [(parse_ok he).1] at hp
  subst hp
  rw [route_of reactors waiting lossy u content t ht he hu hl d hd hs]
  unfold expected
  dsimp only
  rw [hc]

theorem utf8_append_ascii (u c : Bytes) (hu : utf8 u = true) (hc : ∀ d ∈ c, d.toNat < 128) : utf8 (u ++ c) = true := by
  suffices h : ∀ n (u : Bytes), u.length ≤ n → utf8 u = true → utf8 (u ++ c) = true from h _ u (Nat.le_refl _) hu
  intro n
  induction n with
  | zero =>
    intro u hn _
    have : u = [] := List.length_eq_zero_iff.1 (by omega)
    subst this
    exact utf8_ascii c hc
  | succ n ih =>
    intro u hn hu
    match u, hu, hn with
    | [], _, _ => exact utf8_ascii c hc
    | [a], hu, hn =>
      unfold utf8 at hu
      rw [List.cons_append]
      unfold utf8
      split
      · exact utf8_ascii c hc
      · next h => rw [if_neg h] at hu; simp at hu
    | [a, b], hu, hn =>
      unfold utf8 at hu
      rw [List.cons_append]
      unfold utf8
      split
      · next h =>
        rw [if_pos h] at hu
        exact ih [b] (by simp at hn ⊢; omega) hu
      · next h =>
        rw [if_neg h] at hu
        dsimp only [List.cons_append] at hu ⊢
        split
        · next h2 =>
          rw [if_pos h2] at hu
          simp only [Bool.and_eq_true] at hu ⊢
          exact ⟨hu.1, utf8_ascii c hc⟩
        · next h2 => rw [if_neg h2] at hu; simp at hu
    | [a, b, x], hu, hn =>
      unfold utf8 at hu
      rw [List.cons_append]
      unfold utf8
      split
      · next h =>
        rw [if_pos h] at hu
        exact ih [b, x] (by simp at hn ⊢; omega) hu
      · next h =>
        rw [if_neg h] at hu
        dsimp only [List.cons_append] at hu ⊢
        split
        · next h2 =>
          rw [if_pos h2] at hu
          simp only [Bool.and_eq_true] at hu ⊢
          exact ⟨hu.1, ih [x] (by simp at hn ⊢; omega) hu.2⟩
        · next h2 =>
          rw [if_neg h2] at hu
          split
          · next h3 =>
            rw [if_pos h3] at hu
            simp only [Bool.and_eq_true] at hu ⊢
            exact ⟨hu.1, utf8_ascii c hc⟩
          · next h3 => rw [if_neg h3] at hu; simp at hu
    | a :: b :: x :: y :: r, hu, hn =>
      unfold utf8 at hu
      rw [List.cons_append]
      unfold utf8
      simp only [List.length_cons] at hn
      split
      · next h =>
        rw [if_pos h] at hu
        exact ih (b :: x :: y :: r) (by simp; omega) hu
      · next h =>
        rw [if_neg h] at hu
        dsimp only [List.cons_append] at hu ⊢
        split
        · next h2 =>
          rw [if_pos h2] at hu
          simp only [Bool.and_eq_true] at hu ⊢
          exact ⟨hu.1, ih (x :: y :: r) (by simp; omega) hu.2⟩
        · next h2 =>
          rw [if_neg h2] at hu
          split
          · next h3 =>
            rw [if_pos h3] at hu
            simp only [Bool.and_eq_true] at hu ⊢
            exact ⟨hu.1, ih (y :: r) (by simp; omega) hu.2⟩
          · next h3 =>
            rw [if_neg h3] at hu
            simp only [Bool.and_eq_true] at hu ⊢
            exact ⟨hu.1, ih r (by omega) hu.2⟩

theorem rpc_url {u : Bytes} {e f : Endpoint} (he : parse u = .ok e) (hu : utf8 u = true) {n : Nat}
    (hf : e.extend (dec n) = .ok f) : utf8 f.url = true := by
  unfold Endpoint.extend at hf
  rw [(parse_ok hf).1, (parse_ok he).1]
  refine utf8_append_ascii u _ hu ?_
  intro d hd
  rcases List.mem_cons.1 hd with rfl | hd
  · decide
  · have := (dec_spec n).1 d ((List.dropWhile_sublist _).subset hd)
    omega

/-- A call: the handler of the endpoint is given the caller's content, call number and trace. -/
theorem C90_call {α : Type} (reactors : List (Bytes × (Bytes → Option α))) (waiting : Nat → Bool)
    (lossy : Bytes → Bytes) (u content : Bytes) (t : Option Trace) (ht : ∀ x, t = some x → x.Ok)
    {e : Endpoint} (he : parse u = .ok e) (hs : e.scheme = .ok .rpcCall) (hu : utf8 u = true)
    (h3 : (comps u).length = 3) (h99 : u.length ≤ 99) (n : Nat) (hn : n < 2 ^ 64) (d : Bytes → Option α)
    (hd : reactor reactors e = .ok (some d)) (c : α) (hc : d content = some c) :
    ∃ data, packRpc u n content t = some data ∧
      (data.length < 2 ^ 64 → route reactors waiting lossy data = .ok (.process c (some n) t)) := by
  obtain ⟨f, f1, f2, f3, f4, f5⟩ := C89_call ((words_iff _ _).2 rfl) he h3 h99 n hn
  refine ⟨Msg.encode ⟨headers t, f.url, content⟩, by unfold packRpc; rw [he]; dsimp only; rw [f1], fun hl => ?_⟩
  have hd' : reactor reactors f = .ok (some d) := by
    unfold reactor at hd ⊢
    rw [f3]; exact hd
  rw [route_of reactors waiting lossy f.url content t ht f2 (rpc_url he hu f1) hl d hd' (f4.trans hs)]
  unfold expected
  dsimp only
  rw [hc, f5]

/-- A response: the waiting call of that number on that session is given what the other side answered, and
a response without such a call has no effect. -/
theorem C90_response {α : Type} (reactors : List (Bytes × (Bytes → Option α))) (waiting : Nat → Bool)
    (lossy : Bytes → Bytes) (u : Bytes) (r : Rpc.Resp) (hr : ∀ x, r = .error x → lossy x = x)
    (t : Option Trace) (ht : ∀ x, t = some x → x.Ok)
    {e : Endpoint} (he : parse u = .ok e) (hs : e.scheme = .ok .rpcResponse) (hu : utf8 u = true)
    (h3 : (comps u).length = 3) (h99 : u.length ≤ 99) (n : Nat) (hn : n < 2 ^ 64) (d : Bytes → Option α)
    (hd : reactor reactors e = .ok (some d)) :
    ∃ data, packRpc u n r.encode t = some data ∧
      (data.length < 2 ^ 64 → route reactors waiting lossy data =
        .ok (if waiting n then .respond n r else .unknown n)) := by
  obtain ⟨f, f1, f2, f3, f4, f5⟩ := C89_call ((words_iff _ _).2 rfl) he h3 h99 n hn
  refine ⟨Msg.encode ⟨headers t, f.url, r.encode⟩, by unfold packRpc; rw [he]; dsimp only; rw [f1], fun hl => ?_⟩
  have hd' : reactor reactors f = .ok (some d) := by
    unfold reactor at hd ⊢
    rw [f3]; exact hd
  rw [route_of reactors waiting lossy f.url r.encode t ht f2 (rpc_url he hu f1) hl d hd' (f4.trans hs)]
  unfold expected
  dsimp only
  rw [f5]
  have : Rpc.Resp.decode lossy r.encode = r := by
    cases r with
    | success b => simp [Rpc.Resp.decode, Rpc.Resp.encode]
    | error x => simp [Rpc.Resp.decode, Rpc.Resp.encode, hr x rfl]
  dsimp only
  rw [this]
  split <;> rfl

/-- A message for an endpoint without a handler is an error and nothing else. -/
theorem C90_no_handler {α : Type} (reactors : List (Bytes × (Bytes → Option α))) (waiting : Nat → Bool)
    (lossy : Bytes → Bytes) (data : Bytes) (m : Msg) (hm : decode data = some m)
    (h : ∀ e d, parse m.url = .ok e → reactor reactors e ≠ .ok (some d)) :
    route reactors waiting lossy data = .err := by
  unfold route
  rw [hm]
  dsimp only
  cases h2 : parse m.url with
  | error x => rfl
  | ok e =>
    dsimp only
    obtain ⟨-, r, hr⟩ := C89_no_abort h2
    have hre : ∃ o, reactor reactors e = .ok o := by unfold reactor; rw [hr]; exact ⟨_, rfl⟩
    obtain ⟨o, ho⟩ := hre
    rw [ho]
    cases o with
    | none => rfl
    | some d => exact absurd ho (h e d h2)

/-! ## Concrete cases -/

def sampleReactors : List (Bytes × (Bytes → Option Bytes)) :=
  [(text "/gossip/mempool/new_txs", some), (text "/rpc_call/mempool/pull_txs", some),
   (text "/rpc_resp/mempool/pull_txs", some)]

example : (Trace.text ⟨0, 0xabc, 1⟩) = text "abc" ∧ Trace.text ⟨0x1f, 5, 1⟩ = text "1f0000000000000005" := by
  simp [Trace.text, hex, hexPad, hexDigit, text]
example : strToTrace (text "1f0000000000000005") = some (0x1f, 5) ∧ strToTrace (text "xyz") = none ∧
    strToTrace (List.replicate 33 48) = none := by decide +kernel
/-- A gossip message with a trace. -/
example : route sampleReactors (fun _ => false) id
    ([10, 15] ++ [10, 8] ++ text "trace_id" ++ [18, 3] ++ text "abc" ++
     [10, 19] ++ [10, 7] ++ text "span_id" ++ [18, 8, 0, 0, 0, 0, 0, 0, 0, 7] ++
     [18, 23] ++ text "/gossip/mempool/new_txs" ++ [26, 2, 5, 6]) =
    .ok (.process [5, 6] none (some ⟨0, 0xabc, 7⟩)) := by decide +kernel
/-- The same with a one-byte span: the node stops. -/
example : route sampleReactors (fun _ => false) id
    ([10, 12] ++ [10, 7] ++ text "span_id" ++ [18, 1, 0] ++
     [18, 23] ++ text "/gossip/mempool/new_txs") = .panic := by decide +kernel
/-- A response to call 3. -/
example : route sampleReactors (fun n => n = 3) id
    ([18, 28] ++ text "/rpc_resp/mempool/pull_txs/3" ++ [26, 2, 0, 6]) = .ok (.respond 3 (.success [6])) ∧
  route sampleReactors (fun n => n = 3) id
    ([18, 28] ++ text "/rpc_resp/mempool/pull_txs/4" ++ [26, 2, 0, 6]) = .ok (.unknown 4) := by decide +kernel

end Axon.Message
