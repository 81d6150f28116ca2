import Verif.Network.Proto

/-!
# Messages of the ping, discovery and identify protocols on the wire

Model of core/network/src/protocols/ping.rs:223-257, discovery/proto.rs:1-84 and identify/protocol.rs:8-57:
the protobuf encoding that prost 0.11.9 derives, from its documented behaviour (the crate is not part of
/repo).  Numbers are kept below 2^32 by the merge functions.
-/

namespace Axon.Wire

open Axon.Proto

/-! ## Fields and nested messages -/

/-- prost `uint32::merge`: wire type 0; the varint is cut to 32 bits. -/
def mergeU32 (wire : Nat) (b : Bytes) : Option (Nat × Bytes) :=
  if wire = 0 then (decVarint b).map fun x => (x.1 % 2 ^ 32, x.2) else none

/-- prost `bool::merge`. -/
def mergeBool (wire : Nat) (b : Bytes) : Option (Bool × Bytes) :=
  if wire = 0 then (decVarint b).map fun x => (decide (x.1 ≠ 0), x.2) else none

/-- The loop of prost `Message::merge` (`limit` 0) and `merge_loop`: fields until `limit` bytes are left;
one unit of fuel for every field.  `field s tag wire b` is the derived `merge_field`. -/
def mergeLoop {σ : Type} (field : σ → Nat → Nat → Bytes → Option (σ × Bytes)) (limit : Nat) :
    Nat → Bytes → σ → Option (σ × Bytes)
  | 0, b, s => if b.length = limit then some (s, b) else none
  | f + 1, b, s =>
    if b.length > limit then
      match decKey b with
      | none => none
      | some (t, w, r) =>
        match field s t w r with
        | none => none
        | some (s', r') => mergeLoop field limit f r' s'
    else if b.length = limit then some (s, b) else none

/-- prost `message::merge`: a nested message; `depth` is what is left of the recursion limit. -/
def mergeMsg {σ : Type} (field : Nat → σ → Nat → Nat → Bytes → Option (σ × Bytes)) (depth : Nat) (s : σ)
    (wire : Nat) (b : Bytes) : Option (σ × Bytes) :=
  if wire ≠ 2 then none
  else if depth = 0 then none
  else
    match decVarint b with
    | none => none
    | some (n, r) =>
      if n > r.length then none else mergeLoop (field (depth - 1)) (r.length - n) r.length r s

/-- prost `Message::decode`. -/
def decodeMsg {σ : Type} (field : Nat → σ → Nat → Nat → Bytes → Option (σ × Bytes)) (s : σ) (b : Bytes) :
    Option σ :=
  (mergeLoop (field recursionLimit) 0 b.length b s).map (·.1)

/-- An unknown field is skipped. -/
def skip {σ : Type} (depth : Nat) (s : σ) (tag wire : Nat) (b : Bytes) : Option (σ × Bytes) :=
  (skipField depth wire tag b).map fun r => (s, r)

/-- A varint field. -/
def encU32 (tag n : Nat) : Bytes := encKey tag 0 ++ encVarint n

/-- A varint field that is left out when zero. -/
def encU32Opt (tag n : Nat) : Bytes := if n = 0 then [] else encU32 tag n

/-! ## Ping -/

/-- ping.rs:223-229: `PingPayload`. -/
inductive Ping where
  | ping (nonce : Nat)
  | pong (nonce : Nat)
deriving DecidableEq, Repr

/-- ping.rs:231-235: the `merge_field` of `PingMessage`. -/
def pingField (depth : Nat) (s : Option Ping) (tag wire : Nat) (b : Bytes) : Option (Option Ping × Bytes) :=
  match tag with
  | 1 => (mergeU32 wire b).map fun x => (some (.ping x.1), x.2)
  | 2 => (mergeU32 wire b).map fun x => (some (.pong x.1), x.2)
  | _ => skip depth s tag wire b

/-- ping.rs:171: `PingMessage::decode`. -/
def decodePing (b : Bytes) : Option (Option Ping) := decodeMsg pingField none b

/-- ping.rs:250-255: `into_bytes`. -/
def encodePing : Option Ping → Bytes
  | none => []
  | some (.ping n) => encU32 1 n
  | some (.pong n) => encU32 2 n

/-! ## Discovery -/

/-- discovery/proto.rs:6-20: `GetNodes` with `ListenPort`. -/
structure GetNodes where
  version : Nat
  count : Nat
  port : Option Nat
deriving DecidableEq, Repr

/-- discovery/proto.rs:47-53: `Nodes`; an item (discovery/proto.rs:31-35, `Node`) is its list of
addresses. -/
structure Nodes where
  announce : Bool
  items : List (List Bytes)
deriving DecidableEq, Repr

/-- discovery/proto.rs:55-61: `Payload`. -/
inductive Payload where
  | getNodes (g : GetNodes)
  | nodes (n : Nodes)
deriving DecidableEq, Repr

/-- discovery/proto.rs:12-20. -/
def getNodesField (depth : Nat) (s : GetNodes) (tag wire : Nat) (b : Bytes) : Option (GetNodes × Bytes) :=
  match tag with
  | 1 => (mergeU32 wire b).map fun x => ({ s with version := x.1 }, x.2)
  | 2 => (mergeU32 wire b).map fun x => ({ s with count := x.1 }, x.2)
  | 3 => (mergeU32 wire b).map fun x => ({ s with port := some x.1 }, x.2)
  | _ => skip depth s tag wire b

/-- discovery/proto.rs:31-35. -/
def nodeField (depth : Nat) (s : List Bytes) (tag wire : Nat) (b : Bytes) : Option (List Bytes × Bytes) :=
  match tag with
  | 1 => (mergeBytes wire b).map fun x => (s ++ [x.1], x.2)
  | _ => skip depth s tag wire b

/-- discovery/proto.rs:47-53. -/
def nodesField (depth : Nat) (s : Nodes) (tag wire : Nat) (b : Bytes) : Option (Nodes × Bytes) :=
  match tag with
  | 1 => (mergeBool wire b).map fun x => ({ s with announce := x.1 }, x.2)
  | 2 => (mergeMsg nodeField depth [] wire b).map fun x => ({ s with items := s.items ++ [x.1] }, x.2)
  | _ => skip depth s tag wire b

/-- The `GetNodes` a field is merged into. -/
def curGetNodes : Option Payload → GetNodes
  | some (.getNodes g) => g
  | _ => ⟨0, 0, none⟩

/-- The `Nodes` a field is merged into. -/
def curNodes : Option Payload → Nodes
  | some (.nodes n) => n
  | _ => ⟨false, []⟩

/-- discovery/proto.rs:63-67: the `merge_field` of `DiscoveryMessage`; a repeated payload of the same kind
is merged into the earlier one, another kind replaces it. -/
def discField (depth : Nat) (s : Option Payload) (tag wire : Nat) (b : Bytes) :
    Option (Option Payload × Bytes) :=
  match tag with
  | 1 => (mergeMsg getNodesField depth (curGetNodes s) wire b).map fun x => (some (.getNodes x.1), x.2)
  | 2 => (mergeMsg nodesField depth (curNodes s) wire b).map fun x => (some (.nodes x.1), x.2)
  | _ => skip depth s tag wire b

/-- discovery/mod.rs:99: `DiscoveryMessage::decode`. -/
def decodeDisc (b : Bytes) : Option (Option Payload) := decodeMsg discField none b

def encodeGetNodes (g : GetNodes) : Bytes :=
  encU32Opt 1 g.version ++ encU32Opt 2 g.count ++
    (match g.port with
      | none => []
      | some p => encU32 3 p)

def encodeNode (l : List Bytes) : Bytes := l.flatMap (encField 1)

def encodeNodes (n : Nodes) : Bytes :=
  (if n.announce then encU32 1 1 else []) ++ n.items.flatMap fun l => encField 2 (encodeNode l)

/-- discovery/state.rs:60-62, 113-115, discovery/mod.rs:157-158: `encode`. -/
def encodeDisc : Option Payload → Bytes
  | none => []
  | some (.getNodes g) => encField 1 (encodeGetNodes g)
  | some (.nodes n) => encField 2 (encodeNodes n)

/-! ## Identify -/

/-- identify/protocol.rs:8-14: `AddressInfo`. -/
structure AddrInfo where
  listen : List Bytes
  observed : Bytes
deriving DecidableEq, Repr

/-- identify/protocol.rs:35-41: `Identity`. -/
structure Identity where
  chainId : Bytes
  info : Option AddrInfo
deriving DecidableEq, Repr

/-- identify/protocol.rs:8-14. -/
def infoField (depth : Nat) (s : AddrInfo) (tag wire : Nat) (b : Bytes) : Option (AddrInfo × Bytes) :=
  match tag with
  | 1 => (mergeBytes wire b).map fun x => ({ s with listen := s.listen ++ [x.1] }, x.2)
  | 2 => (mergeBytes wire b).map fun x => ({ s with observed := x.1 }, x.2)
  | _ => skip depth s tag wire b

/-- identify/protocol.rs:35-41. -/
def identityField (depth : Nat) (s : Identity) (tag wire : Nat) (b : Bytes) : Option (Identity × Bytes) :=
  match tag with
  | 1 => (mergeString wire b).map fun x => ({ s with chainId := x.1 }, x.2)
  | 2 => (mergeMsg infoField depth (s.info.getD ⟨[], []⟩) wire b).map fun x => ({ s with info := some x.1 }, x.2)
  | _ => skip depth s tag wire b

/-- identify/mod.rs:340: `Identity::decode`. -/
def decodeIdentity (b : Bytes) : Option Identity := decodeMsg identityField ⟨[], none⟩ b

def encodeInfo (i : AddrInfo) : Bytes := i.listen.flatMap (encField 1) ++ encOpt 2 i.observed

/-- identify/protocol.rs:51-56: `into_bytes`. -/
def encodeIdentity (i : Identity) : Bytes :=
  encOpt 1 i.chainId ++
    (match i.info with
      | none => []
      | some a => encField 2 (encodeInfo a))

/-! ## Lemmas -/

/-- A field function never lengthens what is left. -/
def Shrinks {σ : Type} (f : σ → Nat → Nat → Bytes → Option (σ × Bytes)) : Prop :=
  ∀ s t w b s' r, f s t w b = some (s', r) → r.length ≤ b.length

theorem mergeLoop_length {σ : Type} {f : σ → Nat → Nat → Bytes → Option (σ × Bytes)} {limit k : Nat} {b r : Bytes}
    {s s' : σ} (h : mergeLoop f limit k b s = some (s', r)) : r.length = limit := by
  induction k generalizing b s with
  | zero =>
    unfold mergeLoop at h
    split at h
    · cases h; assumption
    · cases h
  | succ k ih =>
    unfold mergeLoop at h
    split at h
    · split at h
      · cases h
      · split at h
        · cases h
        · exact ih h
    · split at h
      · cases h; assumption
      · cases h

theorem mergeLoop_fuel {σ : Type} {f : σ → Nat → Nat → Bytes → Option (σ × Bytes)} (hf : Shrinks f) (limit : Nat)
    (j k : Nat) (b : Bytes) (s : σ) (hj : b.length ≤ j) (hk : b.length ≤ k) :
    mergeLoop f limit j b s = mergeLoop f limit k b s := by
  induction j generalizing k b s with
  | zero =>
    have hb : b = [] := List.length_eq_zero_iff.1 (by omega)
    subst hb
    cases k with
    | zero => rfl
    | succ k => simp [mergeLoop]
  | succ j ih =>
    cases k with
    | zero =>
      have hb : b = [] := List.length_eq_zero_iff.1 (by omega)
      subst hb
      simp [mergeLoop]
    | succ k =>
      unfold mergeLoop
      split
      · split
        · rfl
        · next heq =>
          have := decKey_length heq
          split
          · rfl
          · next heq' =>
            have := hf _ _ _ _ _ _ heq'
            exact ih k _ _ (by omega) (by omega)
      · rfl

/-- `e` is read by `f` as the change of `s` to `s'`. -/
def Reads {σ : Type} (f : σ → Nat → Nat → Bytes → Option (σ × Bytes)) (s : σ) (e : Bytes) (s' : σ) : Prop :=
  ∀ rest limit, limit ≤ rest.length →
    mergeLoop f limit (e ++ rest).length (e ++ rest) s = mergeLoop f limit rest.length rest s'

theorem Reads.nil {σ : Type} (f : σ → Nat → Nat → Bytes → Option (σ × Bytes)) (s : σ) : Reads f s [] s :=
  fun _ _ _ => rfl

theorem Reads.append {σ : Type} {f : σ → Nat → Nat → Bytes → Option (σ × Bytes)} {s s' s'' : σ} {d e : Bytes}
    (h1 : Reads f s d s') (h2 : Reads f s' e s'') : Reads f s (d ++ e) s'' := by
  intro rest limit hl
  rw [List.append_assoc, h1 (e ++ rest) limit (by simp; omega), h2 rest limit hl]

theorem Reads.field {σ : Type} {f : σ → Nat → Nat → Bytes → Option (σ × Bytes)} (hf : Shrinks f) {s s' : σ}
    {t w : Nat} {v : Bytes} (ht : 1 ≤ t) (hw : w ≤ 5) (hk : t * 8 + w < 2 ^ 32)
    (h : ∀ rest, f s t w (v ++ rest) = some (s', rest)) : Reads f s (encKey t w ++ v) s' := by
  intro rest limit hl
  have hd : decKey (encKey t w ++ v ++ rest) = some (t, w, v ++ rest) := by
    rw [List.append_assoc, decKey_enc t w ht hw hk]
  have hlen := decKey_length hd
  have hpos : 0 < (encKey t w ++ v ++ rest).length := by omega
  obtain ⟨k, hk'⟩ : ∃ k, (encKey t w ++ v ++ rest).length = k + 1 := ⟨_, (Nat.succ_pred_eq_of_pos hpos).symm⟩
  rw [hk']
  conv => lhs; unfold mergeLoop
  have : rest.length ≤ (v ++ rest).length := by simp
  rw [if_pos (by omega), hd]
  simp only
  rw [h rest]
  exact mergeLoop_fuel hf limit _ _ _ _ (by omega) (Nat.le_refl _)

theorem Reads.fold {σ α : Type} {f : σ → Nat → Nat → Bytes → Option (σ × Bytes)} (enc : α → Bytes) (upd : σ → α → σ)
    (l : List α) (h : ∀ s x, x ∈ l → Reads f s (enc x) (upd s x)) (s : σ) :
    Reads f s (l.flatMap enc) (l.foldl upd s) := by
  induction l generalizing s with
  | nil => exact Reads.nil f s
  | cons x l ih =>
    rw [List.flatMap_cons, List.foldl_cons]
    exact (h s x (by simp)).append (ih (fun s y hy => h s y (by simp [hy])) _)

theorem Reads.decode {σ : Type} {f : Nat → σ → Nat → Nat → Bytes → Option (σ × Bytes)} {s s' : σ} {e : Bytes}
    (h : Reads (f recursionLimit) s e s') : decodeMsg f s e = some s' := by
  unfold decodeMsg
  have := h [] 0 (Nat.zero_le _)
  rw [List.append_nil] at this
  rw [this]
  simp [mergeLoop]

/-- A nested message is read back. -/
theorem mergeMsg_reads {σ : Type} {f : Nat → σ → Nat → Nat → Bytes → Option (σ × Bytes)} {d : Nat} {s s' : σ}
    {e : Bytes} (hd : d ≠ 0) (h : Reads (f (d - 1)) s e s') (he : e.length < 2 ^ 64) (rest : Bytes) :
    mergeMsg f d s 2 (encVarint e.length ++ e ++ rest) = some (s', rest) := by
  unfold mergeMsg
  rw [if_neg (by simp), if_neg hd, List.append_assoc, decVarint_enc _ he]
  simp only
  rw [if_neg (by simp)]
  have hl : (e ++ rest).length - e.length = rest.length := by simp
  rw [hl, h rest rest.length (Nat.le_refl _)]
  cases hr : rest.length with
  | zero => simp [mergeLoop, hr]
  | succ k => unfold mergeLoop; rw [if_neg (by omega), if_pos hr]

theorem mergeU32_length {w : Nat} {b r : Bytes} {n : Nat} (h : mergeU32 w b = some (n, r)) :
    r.length < b.length ∧ n < 2 ^ 32 := by
  unfold mergeU32 at h
  split at h
  · rw [Option.map_eq_some_iff] at h
    obtain ⟨x, hx, hy⟩ := h
    cases hy
    exact ⟨decVarint_length (n := x.1) (by simpa using hx), Nat.mod_lt _ (by omega)⟩
  · cases h

theorem mergeBool_length {w : Nat} {b r : Bytes} {n : Bool} (h : mergeBool w b = some (n, r)) :
    r.length < b.length := by
  unfold mergeBool at h
  split at h
  · rw [Option.map_eq_some_iff] at h
    obtain ⟨x, hx, hy⟩ := h
    cases hy
    exact decVarint_length (n := x.1) (by simpa using hx)
  · cases h

theorem skip_length {σ : Type} {d : Nat} {s s' : σ} {t w : Nat} {b r : Bytes} (h : skip d s t w b = some (s', r)) :
    s' = s ∧ r.length ≤ b.length := by
  unfold skip at h
  rw [Option.map_eq_some_iff] at h
  obtain ⟨x, hx, hy⟩ := h
  cases hy
  exact ⟨rfl, skipField_length hx⟩

theorem mergeU32_enc (n : Nat) (hn : n < 2 ^ 32) (rest : Bytes) : mergeU32 0 (encVarint n ++ rest) = some (n, rest) := by
  unfold mergeU32
  rw [if_pos rfl, decVarint_enc n (by omega)]
  simp [Nat.mod_eq_of_lt hn]

/-- A size of what is held: it grows by no more than the bytes read, of which one belongs to the key. -/
def Bounded {σ : Type} (μ : σ → Nat) (f : σ → Nat → Nat → Bytes → Option (σ × Bytes)) : Prop :=
  ∀ s t w b s' r, f s t w b = some (s', r) → μ s' + r.length ≤ μ s + b.length + 1

theorem mergeLoop_bounded {σ : Type} {μ : σ → Nat} {f : σ → Nat → Nat → Bytes → Option (σ × Bytes)}
    (hf : Bounded μ f) {limit k : Nat} {b r : Bytes} {s s' : σ} (h : mergeLoop f limit k b s = some (s', r)) :
    μ s' + r.length ≤ μ s + b.length := by
  induction k generalizing b s with
  | zero =>
    unfold mergeLoop at h
    split at h
    · cases h; omega
    · cases h
  | succ k ih =>
    unfold mergeLoop at h
    split at h
    · split at h
      · cases h
      · next heq =>
        have := decKey_length heq
        split at h
        · cases h
        · next heq' =>
          have h1 := hf _ _ _ _ _ _ heq'
          have h2 := ih h
          omega
    · split at h
      · cases h; omega
      · cases h

theorem mergeMsg_bounded {σ : Type} {μ : σ → Nat} {f : Nat → σ → Nat → Nat → Bytes → Option (σ × Bytes)}
    (hf : ∀ d, Bounded μ (f d)) {d w : Nat} {b r : Bytes} {s s' : σ} (h : mergeMsg f d s w b = some (s', r)) :
    μ s' + r.length < μ s + b.length := by
  unfold mergeMsg at h
  split at h
  · cases h
  · split at h
    · cases h
    · split at h
      · cases h
      · next heq =>
        split at h
        · cases h
        · have h1 := decVarint_length heq
          have h2 := mergeLoop_bounded (hf _) h
          omega

theorem mergeMsg_length {σ : Type} {f : Nat → σ → Nat → Nat → Bytes → Option (σ × Bytes)} {d w : Nat} {b r : Bytes}
    {s s' : σ} (h : mergeMsg f d s w b = some (s', r)) : r.length < b.length := by
  unfold mergeMsg at h
  split at h
  · cases h
  · split at h
    · cases h
    · split at h
      · cases h
      · next heq =>
        split at h
        · cases h
        · have h1 := decVarint_length heq
          have h2 := mergeLoop_length h
          omega

end Axon.Wire
