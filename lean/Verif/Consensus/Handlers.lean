import Verif.Network.MessageProps
import Verif.Metadata.Config

/-!
# Consensus messages between nodes

From the engine of one node (`core/consensus/src/engine.rs:371-436`) through the network to the
handlers of another one (`core/consensus/src/message.rs`, registered in
`core/run/src/components/network.rs`) and into its Overlord instance
(`core/consensus/src/consensus.rs:33-103`).  The codec of the Overlord crate is a parameter.
-/

namespace Axon.Handlers

open Axon Axon.Endpoint Axon.Proto Axon.Message

/-- The four kinds of Overlord messages that travel between nodes. -/
inductive Kind where
  | proposal | vote | qc | choke
deriving DecidableEq, Repr

/-- The codec of the Overlord crate: `rlp_bytes` and `decode` of its message types. -/
structure Codec (M : Type) where
  enc : Kind → M → Bytes
  dec : Kind → Bytes → Option M

/-- protocol/src/constants/endpoints.rs:6-9. -/
def endpointOf : Kind → Bytes
  | .proposal => text "/gossip/consensus/signed_proposal"
  | .vote => text "/gossip/consensus/signed_vote"
  | .qc => text "/gossip/consensus/qc"
  | .choke => text "/gossip/consensus/signed_choke"

/-- core/consensus/src/engine.rs:371-399 `broadcast_to_other`: endpoint and payload; votes are
`unreachable!`. -/
def broadcastToOther {M : Type} (o : Codec M) (k : Kind) (m : M) : Outcome (Bytes × Bytes) :=
  match k with
  | .proposal => .ok (text "/gossip/consensus/signed_proposal", o.enc .proposal m)
  | .qc => .ok (text "/gossip/consensus/qc", o.enc .qc m)
  | .choke => .ok (text "/gossip/consensus/signed_choke", o.enc .choke m)
  | .vote => .panic

/-- core/consensus/src/engine.rs:403-436 `transmit_to_relayer`: votes and aggregated votes; the rest is
`unreachable!`. -/
def transmitToRelayer {M : Type} (o : Codec M) (k : Kind) (m : M) : Outcome (Bytes × Bytes) :=
  match k with
  | .vote => .ok (text "/gossip/consensus/signed_vote", o.enc .vote m)
  | .qc => .ok (text "/gossip/consensus/qc", o.enc .qc m)
  | _ => .panic

/-- core/consensus/src/adapter.rs:77-95 `transmit` hands a `Vec<u8>` to the network, whose codec
(protocol/src/codec/mod.rs:24-33) makes an RLP string of it. -/
def vecEncode (payload : Bytes) : Bytes := Rlp.encode (.str payload)

/-- core/consensus/src/message.rs:39-43, 67-71: `decode` of the four message types, an RLP string. -/
def bytesDecode (content : Bytes) : Option Bytes := (Rlp.decode content).bind Rlp.toBytes

/-- core/consensus/src/message.rs:35-37, 63-65: `encode` of the four message types.  Nothing in the
repository calls it. -/
def ownEncode (payload : Bytes) : Bytes := payload

/-- `BlockNumber` on the wire (core/consensus/src/message.rs:207-341, protocol/src/codec/mod.rs:24-33):
an RLP integer. -/
def u64Encode (n : UIntN 64) : Bytes := Rlp.encode (Rlp.ofUint n)

/-- protocol/src/codec/mod.rs:29-32 for `u64`. -/
def u64Decode (content : Bytes) : Option (UIntN 64) := (Rlp.decode content).bind (Rlp.toUint 64)

/-- core/consensus/src/types.rs:59-63 `PullTxsRequest` with derived RLP. -/
structure PullTxs where
  height : UIntN 64
  hashes : List H256
deriving DecidableEq

/-- core/consensus/src/types.rs:59, derived `Encodable`. -/
def PullTxs.encode (r : PullTxs) : Bytes :=
  Rlp.encode (.list [Rlp.ofUint r.height, .list (r.hashes.map Rlp.ofFixed)])

/-- core/consensus/src/types.rs:59, derived `Decodable`: `val_at(0)`, `list_at(1)`; further fields are ignored. -/
def PullTxs.decode (content : Bytes) : Option PullTxs :=
  match Rlp.decode content with
  | some (.list (h :: .list hs :: _)) =>
    match Rlp.toUint 64 h, hs.mapM (Rlp.toFixed 32) with
    | some h, some hs => some ⟨h, hs⟩
    | _, _ => none
  | _ => none

/-- The handlers that a node registers (core/run/src/components/network.rs:65-145). -/
inductive Name where
  | newTxs | pullTxs | consensus (k : Kind) | height | pullBlock | pullProof | pullSyncTxs
  /-- `NoopHandler` of a response endpoint. -/
  | response
deriving DecidableEq, Repr

/-- What a handler is given (core/network/src/traits.rs `MessageHandler::Message`). -/
inductive Inbound where
  /-- Transactions and requests for transactions of the pool; their codecs are not looked at here
  (see C14). -/
  | pool (name : Name) (content : Bytes)
  | consensus (k : Kind) (payload : Bytes)
  | height (n : UIntN 64)
  | pullBlock (n : UIntN 64)
  | pullProof (n : UIntN 64)
  | pullSyncTxs (r : PullTxs)
deriving DecidableEq

/-- The `Message` type of every handler (core/consensus/src/message.rs:85-341); that of responses is
never decoded. -/
def decoder : Name → Bytes → Option Inbound
  | .newTxs, c => some (.pool .newTxs c)
  | .pullTxs, c => some (.pool .pullTxs c)
  | .consensus k, c => (bytesDecode c).map (.consensus k)
  | .height, c => (u64Decode c).map .height
  | .pullBlock, c => (u64Decode c).map .pullBlock
  | .pullProof, c => (u64Decode c).map .pullProof
  | .pullSyncTxs, c => (PullTxs.decode c).map .pullSyncTxs
  | .response, c => some (.pool .response c)

/-- core/run/src/lib.rs:278-282 and core/run/src/components/network.rs:65-145, in order. -/
def registrations : List (Bytes × Name) :=
  [(text "/gossip/mempool/new_txs", .newTxs),
   (text "/rpc_call/mempool/pull_txs", .pullTxs),
   (text "/gossip/consensus/signed_proposal", .consensus .proposal),
   (text "/gossip/consensus/qc", .consensus .qc),
   (text "/gossip/consensus/signed_vote", .consensus .vote),
   (text "/gossip/consensus/signed_choke", .consensus .choke),
   (text "/gossip/consensus/broadcast_height", .height),
   (text "/rpc_call/consensus/sync_pull_block", .pullBlock),
   (text "/rpc_call/consensus/sync_pull_proof", .pullProof),
   (text "/rpc_call/consensus/sync_pull_txs", .pullSyncTxs),
   (text "/rpc_resp/mempool/pull_txs", .response),
   (text "/rpc_resp/mempool/pull_txs_sync", .response),
   (text "/rpc_resp/consensus/sync_pull_block", .response),
   (text "/rpc_resp/consensus/sync_pull_proof", .response),
   (text "/rpc_resp/consensus/sync_pull_txs", .response)]

/-- Registering one after the other (reactor/router.rs:86-103); an endpoint that does not parse stops
the start of the node. -/
def registerAll {ρ : Type} : List (Bytes × ρ) → List (Bytes × ρ) → Outcome (List (Bytes × ρ))
  | [], m => .ok m
  | (u, r) :: rest, m =>
    match parse u with
    | .error _ => .err
    | .ok e => (register m e r).bind (registerAll rest)

/-- The reactors of a node that has started (core/run/src/lib.rs:278-282). -/
def table : List (Bytes × Name) :=
  match registerAll registrations [] with
  | .ok m => m
  | _ => []

/-- The reactors, each with the decoding of its message type
(core/network/src/reactor/mod.rs:43-90). -/
def reactors : List (Bytes × (Bytes → Option Inbound)) := table.map fun x => (x.1, decoder x.2)

/-- What a received message leads to (core/network/src/reactor/mod.rs:43-121). -/
inductive Effect (M : Type) where
  /-- Handed to the local Overlord; the feedback is `Good`. -/
  | submitted (k : Kind) (m : M)
  /-- Not a message of that kind; the feedback is `Worse`.  (The reactor drops every feedback,
  reactor/mod.rs:118.) -/
  | refused
  /-- A handler other than those of consensus messages runs, with the call to answer. -/
  | request (r : Inbound) (rid : Option Nat)
  /-- A call of this node is answered. -/
  | answered (rid : Nat) (r : Rpc.Resp)
  | late (rid : Nat)
deriving DecidableEq

/-- core/consensus/src/consensus.rs:35-103: decoded and sent to Overlord; `alive`: the channel to
Overlord is open, else `expect` panics. -/
def submit {M : Type} (o : Codec M) (alive : Bool) (k : Kind) (payload : Bytes) :
    Outcome (Effect M) :=
  match o.dec k payload with
  | none => .ok .refused
  | some m => if alive then .ok (.submitted k m) else .panic

/-- A message arrives: router, reactor, handler (core/network/src/reactor/router.rs:105-150,
core/network/src/reactor/mod.rs:43-121, core/consensus/src/message.rs:95-235). -/
def receive {M : Type} (o : Codec M) (alive : Bool) (waiting : Nat → Bool) (lossy : Bytes → Bytes)
    (data : Bytes) : Outcome (Effect M) :=
  match route reactors waiting lossy data with
  | .ok (.process (.consensus k payload) _ _) => submit o alive k payload
  | .ok (.process r rid _) => .ok (.request r rid)
  | .ok (.respond rid r) => .ok (.answered rid r)
  | .ok (.unknown rid) => .ok (.late rid)
  | .err => .err
  | .panic => .panic

/-! ## Lemmas -/

theorem table_ok : registerAll registrations [] = .ok table ∧ table.length = 15 := by
  decide +kernel

/-- Every registered endpoint leads to its handler. -/
theorem table_find : ∀ x ∈ registrations, parse x.1 = .ok ⟨x.1⟩ ∧ (⟨x.1⟩ : Endpoint).root = .ok x.1 ∧
    utf8 x.1 = true ∧ (comps x.1).length = 3 ∧ x.1.length ≤ 99 ∧
    (table.find? fun y => y.1 = x.1) = some x := by
  decide +kernel

theorem table_sub : ∀ x ∈ table, x ∈ registrations := by decide +kernel

theorem scheme_of : ∀ x ∈ registrations, (⟨x.1⟩ : Endpoint).scheme = .ok (match x.2 with
    | .newTxs | .consensus _ | .height => .gossip
    | .response => .rpcResponse
    | _ => .rpcCall) := by
  decide +kernel

theorem find_reactors (k : Bytes) :
    ((reactors.find? fun x => x.1 = k).map (·.2)) =
      ((table.find? fun x => x.1 = k).map fun x => decoder x.2) := by
  unfold reactors
  generalize table = t
  induction t with
  | nil => rfl
  | cons x t ih =>
    simp only [List.map_cons, List.find?_cons]
    by_cases h : x.1 = k
    · simp [h]
    · simp only [h, decide_false]
      exact ih

/-- A node reacts to a registered endpoint. -/
theorem reactor_of {u : Bytes} {n : Name} (h : (u, n) ∈ registrations) {e : Endpoint}
    (hr : e.root = .ok u) : reactor reactors e = .ok (some (decoder n)) := by
  unfold reactor
  rw [hr]
  dsimp only
  rw [find_reactors, (table_find _ h).2.2.2.2.2]
  rfl

/-- And to no other one. -/
theorem reactor_some {e : Endpoint} {d : Bytes → Option Inbound}
    (h : reactor reactors e = .ok (some d)) :
    ∃ u n, (u, n) ∈ registrations ∧ e.root = .ok u ∧ d = decoder n := by
  unfold reactor at h
  cases hr : e.root with
  | err => rw [hr] at h; cases h
  | panic => rw [hr] at h; cases h
  | ok k =>
    rw [hr] at h
    dsimp only at h
    rw [find_reactors] at h
    injection h with h
    cases hf : table.find? (fun x => x.1 = k) with
    | none => rw [hf] at h; cases h
    | some x =>
      rw [hf] at h
      simp only [Option.map_some, Option.some.injEq] at h
      have h1 := List.mem_of_find?_eq_some hf
      have h2 := List.find?_some hf
      simp at h2
      exact ⟨k, x.2, by rw [← h2]; exact table_sub _ h1, rfl, h.symm⟩

theorem decoder_consensus {n : Name} {c : Bytes} {k : Kind} {p : Bytes}
    (h : decoder n c = some (.consensus k p)) : n = .consensus k ∧ bytesDecode c = some p := by
  cases n <;> simp [decoder] at h
  next k' => exact ⟨by rw [h.2], h.1⟩

theorem vec_roundtrip {p : Bytes} (h : (vecEncode p).length < 2 ^ 64) :
    bytesDecode (vecEncode p) = some p := by
  unfold bytesDecode vecEncode at *
  rw [Rlp.decode_encode_item _ h]
  rfl

theorem u64_roundtrip (n : UIntN 64) : u64Decode (u64Encode n) = some n := by
  unfold u64Decode u64Encode
  rw [Rlp.decode_encode_item]
  · exact Rlp.toUint_ofUint n
  · have := Meta.encode_ofUint_length n
    omega

theorem pullTxs_roundtrip (r : PullTxs) (h : r.encode.length < 2 ^ 64) :
    PullTxs.decode r.encode = some r := by
  unfold PullTxs.decode PullTxs.encode at *
  rw [Rlp.decode_encode_item _ h]
  simp only [Rlp.toUint_ofUint, Rlp.mapM_map_of_inverse _ _ (fun x => Rlp.toFixed_ofFixed x)]

end Axon.Handlers
