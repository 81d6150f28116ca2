import Verif.Consensus.Handlers

/-!
# C104: consensus messages reach the other node's consensus, and nothing else does
-/

namespace Axon.Handlers

open Axon Axon.Endpoint Axon.Proto Axon.Message

theorem mem_of_kind (k : Kind) : (endpointOf k, Name.consensus k) ∈ registrations := by
  cases k <;> decide +kernel

theorem route_process {w : Nat → Bool} {l : Bytes → Bytes} {data : Bytes} {c : Inbound}
    {rid : Option Nat} {t : Option Trace} (h : route reactors w l data = .ok (.process c rid t)) :
    ∃ m e d, decode data = some m ∧ parse m.url = .ok e ∧ reactor reactors e = .ok (some d) ∧
      Harmless m ∧ d m.content = some c := by
  have hp : route reactors w l data ≠ .panic := by rw [h]; intro h; cases h
  rw [Ne, C90_abort] at hp
  unfold route at h
  cases h1 : decode data with
  | none => rw [h1] at h; cases h
  | some m =>
    rw [h1] at h
    dsimp only at h
    cases h2 : parse m.url with
    | error x => rw [h2] at h; cases h
    | ok e =>
      rw [h2] at h
      dsimp only at h
      cases h3 : reactor reactors e with
      | err => rw [h3] at h; cases h
      | panic => rw [h3] at h; cases h
      | ok o =>
        rw [h3] at h
        cases o with
        | none => cases h
        | some d =>
          dsimp only at h
          refine ⟨m, e, d, rfl, h2, h3, Classical.byContradiction fun hh =>
            hp ⟨m, e, d, h1, h2, h3, hh⟩, ?_⟩
          unfold react at h
          split at h
          · dsimp only at h
            split at h
            · cases hd : d m.content with
              | none => rw [hd] at h; cases h
              | some c' =>
                rw [hd] at h
                simp only [Outcome.ok.injEq, Reaction.process.injEq] at h
                rw [h.1]
            · cases hd : d m.content with
              | none => rw [hd] at h; cases h
              | some c' =>
                rw [hd] at h
                dsimp only at h
                split at h
                · cases h
                · simp only [Outcome.ok.injEq, Reaction.process.injEq] at h
                  rw [h.1]
            · split at h
              · cases h
              · split at h <;> cases h
            · cases h
            · cases h
          · cases h

theorem route_gossip {w : Nat → Bool} {l : Bytes → Bytes} {data : Bytes} {m : Msg} {e : Endpoint}
    {d : Bytes → Option Inbound} {c : Inbound} (h1 : decode data = some m) (h2 : parse m.url = .ok e)
    (h3 : reactor reactors e = .ok (some d)) (hs : e.scheme = .ok .gossip) (hh : Harmless m)
    (hc : d m.content = some c) : ∃ t, route reactors w l data = .ok (.process c none t) := by
  have hp : route reactors w l data ≠ .panic := by
    rw [Ne, C90_abort]
    rintro ⟨m', e', d', h1', _, _, hh'⟩
    rw [h1] at h1'
    injection h1' with h1'
    subst h1'
    exact hh' hh
  unfold route at hp ⊢
  rw [h1] at hp ⊢
  dsimp only at hp ⊢
  rw [h2] at hp ⊢
  dsimp only at hp ⊢
  rw [h3] at hp ⊢
  dsimp only at hp ⊢
  unfold react at hp ⊢
  split
  · rw [hs]
    dsimp only
    rw [hc]
    exact ⟨_, rfl⟩
  next hx =>
    exfalso
    apply hp
    split
    next a b => exact absurd b (by intro b; exact hx _ _ a b)
    · rfl

theorem root_scheme {u : Bytes} {n : Name} (h : (u, n) ∈ registrations) {v : Bytes} {e : Endpoint}
    (he : parse v = .ok e) (hr : e.root = .ok u) : e.scheme = (⟨u⟩ : Endpoint).scheme := by
  obtain ⟨h1, h2, _⟩ := table_find _ h
  exact (C89_same ((words_iff _ _).2 rfl) ((words_iff _ _).2 rfl) he h1).2 (by rw [hr]; exact h2.symm)

/-- **C104, soundness and completeness of reception.**  Overlord is given message `m` of kind `k`
exactly when a well-formed network message with harmless headers arrives at the endpoint of that
kind, whose content is an RLP string that Overlord decodes to `m` as that kind. -/
theorem C104_submitted_partial {M : Type} (o : Codec M) (alive : Bool) (w : Nat → Bool)
    (l : Bytes → Bytes) (data : Bytes) (k : Kind) (m : M) :
    receive o alive w l data = .ok (.submitted k m) ↔
      alive = true ∧ ∃ msg e p, decode data = some msg ∧ parse msg.url = .ok e ∧
        e.root = .ok (endpointOf k) ∧ Harmless msg ∧ bytesDecode msg.content = some p ∧
        o.dec k p = some m := by
  constructor
  · intro h
    unfold receive at h
    split at h
    next k' p rid t hr =>
      obtain ⟨msg, e, d, h1, h2, h3, h4, h5⟩ := route_process hr
      obtain ⟨u, n, h6, h7, rfl⟩ := reactor_some h3
      obtain ⟨rfl, h8⟩ := decoder_consensus h5
      unfold submit at h
      split at h
      · cases h
      next m' hm =>
        split at h
        next ha =>
          simp only [Outcome.ok.injEq, Effect.submitted.injEq] at h
          obtain ⟨rfl, rfl⟩ := h
          refine ⟨ha, msg, e, p, h1, h2, ?_, h4, h8, hm⟩
          rw [h7]
          have : ∀ x ∈ registrations, ∀ k, x.2 = Name.consensus k → x.1 = endpointOf k := by
            intro x hx k
            cases k <;> revert x <;> decide +kernel
          exact congrArg _ (this _ h6 _ rfl)
        · cases h
    all_goals cases h
  · rintro ⟨ha, msg, e, p, h1, h2, h3, h4, h5, h6⟩
    have hm := mem_of_kind k
    have hs := (root_scheme hm h2 h3).trans (scheme_of _ hm)
    obtain ⟨t, ht⟩ := route_gossip (w := w) (l := l) h1 h2 (reactor_of hm h3) hs h4
      (c := .consensus k p) (by simp [decoder, h5])
    unfold receive
    rw [ht]
    dsimp only
    unfold submit
    rw [h6]
    simp [ha]

/-- **C104, delivery.**  What the engine of one node broadcasts or sends to a relayer is submitted,
as the same message of the same kind, to the Overlord of every node that receives it.  (Provided that
Overlord decodes what it encodes, and the message is of a size that exists.) -/
theorem C104_delivered_partial {M : Type} (o : Codec M) (w : Nat → Bool) (l : Bytes → Bytes)
    (k : Kind) (m : M) (hm : o.dec k (o.enc k m) = some m) (u p : Bytes)
    (hsend : broadcastToOther o k m = .ok (u, p) ∨ transmitToRelayer o k m = .ok (u, p))
    (t : Option Trace) (ht : ∀ x, t = some x → x.Ok) (hp : (vecEncode p).length < 2 ^ 64) :
    ∃ data, packGossip u (vecEncode p) t = some data ∧
      (data.length < 2 ^ 64 → receive o true w l data = .ok (.submitted k m)) := by
  have hup : u = endpointOf k ∧ p = o.enc k m := by
    rcases hsend with h | h
    · cases k <;> simp [broadcastToOther] at h
      all_goals exact ⟨h.1.symm, h.2.symm⟩
    · cases k <;> simp [transmitToRelayer] at h
      all_goals exact ⟨h.1.symm, h.2.symm⟩
  obtain ⟨rfl, rfl⟩ := hup
  have hmem := mem_of_kind k
  obtain ⟨h1, h2, h3, _⟩ := table_find _ hmem
  have hpk : packGossip (endpointOf k) (vecEncode (o.enc k m)) t =
      some (Msg.encode ⟨headers t, endpointOf k, vecEncode (o.enc k m)⟩) := by
    unfold packGossip
    rw [h1]
  refine ⟨_, hpk, fun hl => ?_⟩
  have hr := C90_gossip reactors w l (endpointOf k) (vecEncode (o.enc k m)) t ht h1
    (scheme_of _ hmem) h3 (decoder (.consensus k)) (reactor_of hmem h2)
    (.consensus k (o.enc k m)) (by simp [decoder, vec_roundtrip hp]) hpk hl
  unfold receive
  rw [hr]
  dsimp only
  unfold submit
  rw [hm]
  simp

/-- Which messages may be handed to the two functions of the engine; for the others it panics. -/
theorem C104_sendable {M : Type} (o : Codec M) (k : Kind) (m : M) :
    ((∃ x, broadcastToOther o k m = .ok x) ↔ k ≠ .vote) ∧
    ((∃ x, transmitToRelayer o k m = .ok x) ↔ k = .vote ∨ k = .qc) := by
  cases k <;> simp [broadcastToOther, transmitToRelayer]

/-- What a node receives never stops it through Overlord's codec: a payload that is not a message of
the kind is refused. -/
theorem C104_refused {M : Type} (o : Codec M) (alive : Bool) (k : Kind) (p : Bytes)
    (h : o.dec k p = none) : submit o alive k p = .ok .refused := by
  unfold submit
  rw [h]

/-- **C104, requests.**  The requests of a synchronising node reach the handler for them together with
the number of the call. -/
theorem C104_requests_partial {M : Type} (o : Codec M) (alive : Bool) (w : Nat → Bool)
    (l : Bytes → Bytes) (t : Option Trace) (ht : ∀ x, t = some x → x.Ok) (rid : Nat)
    (hrid : rid < 2 ^ 64) (u content : Bytes) (r : Inbound)
    (hu : (∃ n, u = text "/rpc_call/consensus/sync_pull_block" ∧ content = u64Encode n ∧
        r = .pullBlock n) ∨
      (∃ n, u = text "/rpc_call/consensus/sync_pull_proof" ∧ content = u64Encode n ∧
        r = .pullProof n) ∨
      (∃ q : PullTxs, u = text "/rpc_call/consensus/sync_pull_txs" ∧ content = q.encode ∧
        q.encode.length < 2 ^ 64 ∧ r = .pullSyncTxs q)) :
    ∃ data, packRpc u rid content t = some data ∧
      (data.length < 2 ^ 64 → receive o alive w l data = .ok (.request r (some rid))) := by
  have main : ∀ n : Name, (u, n) ∈ registrations → (⟨u⟩ : Endpoint).scheme = .ok .rpcCall →
      decoder n content = some r → (∀ k p, r ≠ .consensus k p) →
      ∃ data, packRpc u rid content t = some data ∧
        (data.length < 2 ^ 64 → receive o alive w l data = .ok (.request r (some rid))) := by
    intro n hmem hs hd hne
    obtain ⟨h1, h2, h3, h4, h5, _⟩ := table_find _ hmem
    obtain ⟨data, hdata, hr⟩ := C90_call reactors w l u content t ht h1 hs h3 h4 h5 rid hrid
      (decoder n) (reactor_of hmem h2) r hd
    refine ⟨data, hdata, fun hl => ?_⟩
    unfold receive
    rw [hr hl]
    cases r <;> first | rfl | exact absurd rfl (hne _ _)
  rcases hu with ⟨n, rfl, rfl, rfl⟩ | ⟨n, rfl, rfl, rfl⟩ | ⟨q, rfl, rfl, hq, rfl⟩
  · exact main .pullBlock (by decide +kernel) (by decide +kernel)
      (by simp [decoder, u64_roundtrip]) (by simp)
  · exact main .pullProof (by decide +kernel) (by decide +kernel)
      (by simp [decoder, u64_roundtrip]) (by simp)
  · exact main .pullSyncTxs (by decide +kernel) (by decide +kernel)
      (by simp [decoder, pullTxs_roundtrip q hq]) (by simp)

/-- The announcement of a height reaches the synchroniser. -/
theorem C104_height_partial {M : Type} (o : Codec M) (alive : Bool) (w : Nat → Bool)
    (l : Bytes → Bytes) (t : Option Trace) (ht : ∀ x, t = some x → x.Ok) (n : UIntN 64) :
    ∃ data, packGossip (text "/gossip/consensus/broadcast_height") (u64Encode n) t = some data ∧
      (data.length < 2 ^ 64 → receive o alive w l data = .ok (.request (.height n) none)) := by
  have hmem : (text "/gossip/consensus/broadcast_height", Name.height) ∈ registrations := by
    decide +kernel
  obtain ⟨h1, h2, h3, _⟩ := table_find _ hmem
  have hpk : packGossip (text "/gossip/consensus/broadcast_height") (u64Encode n) t =
      some (Msg.encode ⟨headers t, text "/gossip/consensus/broadcast_height", u64Encode n⟩) := by
    unfold packGossip
    rw [h1]
  refine ⟨_, hpk, fun hl => ?_⟩
  have hr := C90_gossip reactors w l _ (u64Encode n) t ht h1 (scheme_of _ hmem) h3 _
    (reactor_of hmem h2) (.height n) (by simp [decoder, u64_roundtrip]) hpk hl
  unfold receive
  rw [hr]

/-- **C104, replies.**  The reply of the block, proof and transaction handlers reaches the call that it
belongs to, if that still waits. -/
theorem C104_replies_partial {M : Type} (o : Codec M) (alive : Bool) (w : Nat → Bool)
    (l : Bytes → Bytes) (t : Option Trace) (ht : ∀ x, t = some x → x.Ok) (rid : Nat)
    (hrid : rid < 2 ^ 64) (u : Bytes)
    (hu : u = text "/rpc_resp/consensus/sync_pull_block" ∨
      u = text "/rpc_resp/consensus/sync_pull_proof" ∨
      u = text "/rpc_resp/consensus/sync_pull_txs" ∨ u = text "/rpc_resp/mempool/pull_txs")
    (r : Rpc.Resp) (hr : ∀ x, r = .error x → l x = x) :
    ∃ data, packRpc u rid r.encode t = some data ∧
      (data.length < 2 ^ 64 → receive o alive w l data =
        .ok (if w rid then .answered rid r else .late rid)) := by
  have hmem : (u, Name.response) ∈ registrations := by
    rcases hu with rfl | rfl | rfl | rfl <;> decide +kernel
  obtain ⟨h1, h2, h3, h4, h5, _⟩ := table_find _ hmem
  obtain ⟨data, hdata, hd⟩ := C90_response reactors w l u r hr t ht h1 (scheme_of _ hmem) h3 h4 h5
    rid hrid (decoder .response) (reactor_of hmem h2)
  refine ⟨data, hdata, fun hl => ?_⟩
  unfold receive
  rw [hd hl]
  cases w rid <;> rfl

/-- **The codec of the message types is not one.**  Their `encode` leaves the payload as it is and
their `decode` expects an RLP string around it: since Overlord's messages are RLP lists, decoding
what was encoded always fails. -/
theorem C104_codec_false (items : List Rlp.Item)
    (h : (Rlp.encode (.list items)).length < 2 ^ 64) :
    bytesDecode (ownEncode (Rlp.encode (.list items))) = none := by
  unfold bytesDecode ownEncode
  rw [Rlp.decode_encode_item _ h]
  rfl

/-- An Overlord whose messages are single bytes in a list. -/
def toy : Codec UInt8 where
  enc _ m := Rlp.encode (.list [.str [m]])
  dec _ p := match Rlp.decode p with
    | some (.list [.str [m]]) => some m
    | _ => none

example : toy.dec .vote (toy.enc .vote 7) = some 7 ∧ vecEncode (toy.enc .vote 7) = [0x82, 0xc1, 7] ∧
    receive toy true (fun _ => false) id
      ([18, 29] ++ text "/gossip/consensus/signed_vote" ++ [26, 3, 0x82, 0xc1, 7]) =
      .ok (.submitted .vote 7) ∧
    receive toy true (fun _ => false) id
      ([18, 29] ++ text "/gossip/consensus/signed_vote" ++ [26, 2, 0xc1, 7]) = .err ∧
    receive toy true (fun _ => false) id
      ([18, 29] ++ text "/gossip/consensus/signed_vote" ++ [26, 3, 0x82, 0xc2, 7]) =
      .ok .refused := by decide +kernel

end Axon.Handlers
