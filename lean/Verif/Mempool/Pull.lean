import Verif.Mempool.FetchProps
import Verif.Mempool.IdentityProps
import Verif.Metadata.Config

/-!
# Pulling the transactions of a proposal

A node that checks a proposal (`verify_txs`, `core/consensus/src/adapter.rs:114-122`) pulls what its pool lacks from the
peer the proposal came from: the request `MsgPullTxs` and its handler `PullTxsHandler`
(`core/mempool/src/adapter/message.rs:81-129`, `core/mempool/src/adapter/mod.rs:346-364,472-487`).

The way of the messages through the network and the codec of the transactions in the answer are not repeated here (C91, C98):
an answer arrives as it was sent.
-/

namespace Axon.Pull
open Axon.Assoc Axon.Pool
open Axon.Admission (key key_inj)

/-- `MsgPullTxs`, `message.rs:81-85` -/
structure Msg where
  height : Option (UIntN 64)
  hashes : List H256
deriving DecidableEq

/-- `Encodable for Option`: a list of at most one item. -/
def ofOption : Option (UIntN 64) → Rlp.Item
  | none => .list []
  | some n => .list [Rlp.ofUint n]

/-- `Decodable for Option` -/
def toOption : Rlp.Item → Option (Option (UIntN 64))
  | .list [] => some none
  | .list [x] => (Rlp.toUint 64 x).map some
  | _ => none

/-- The derived `Encodable`, `message.rs:81`. -/
def Msg.encode (m : Msg) : Bytes := Rlp.encode (.list [ofOption m.height, .list (m.hashes.map Rlp.ofFixed)])

/-- The derived `Decodable`, `message.rs:81`: `val_at(0)`, `list_at(1)`; further fields are ignored. -/
def Msg.decode (b : Bytes) : Option Msg :=
  match Rlp.decode b with
  | some (.list (h :: .list hs :: _)) =>
    (toOption h).bind fun h => (hs.mapM (Rlp.toFixed 32)).bind fun hs => some ⟨h, hs⟩
  | _ => none

/-- What a node answers from: its pool, the transactions stored for each block number, in key order, and those found by
hash. -/
structure Peer where
  pool : Pool
  blocks : Nat → List (Nat × PoolTx)
  byHash : Nat → Option PoolTx

/-- `get_transactions_from_storage`, `mod.rs:472-487` -/
def Peer.storage (p : Peer) : Option (UIntN 64) → List Nat → List (Option PoolTx)
  | some n => storageAtHeight (p.blocks n.val)
  | none => storageByHash p.byHash

/-- `PullTxsHandler::process`, `message.rs:110-128`: the transactions, or an error (`none`), as for a message that cannot be
read. -/
def Peer.answer (p : Peer) (b : Bytes) : Option (List PoolTx) :=
  (Msg.decode b).bind fun m =>
    match getFullTxs (getByHash p.pool) (p.storage m.height) (m.hashes.map key) with
    | .ok r => some r
    | .error _ => none

/-- A key of the models as a hash. -/
def unkey (n : Nat) : H256 := ⟨beFixed 32 n, beFixed_length 32 n⟩

/-- `pull_txs`, `mod.rs:346-364` -/
def pullTxs (p : Peer) (height : Option (UIntN 64)) (asked : List Nat) : Option (List PoolTx) :=
  p.answer (Msg.encode ⟨height, asked.map unkey⟩)

/-- `verify_txs`, `core/consensus/src/adapter.rs:114-122`, of a proposal with this number and these transactions that came
from the peer `p`, on a node with the pool `s`. -/
def verifyTxs (p : Peer) (check : PoolTx → Option Nat) (isSys : PoolTx → Option Bool) (s : Pool) (number : UIntN 64)
    (hashes : List H256) : Option (Pool × Except FetchErr Unit) :=
  ensureOrder (pullTxs p (some number)) check isSys s (hashes.map key)

/-! ## Lemmas -/

theorem unkey_key (h : H256) : unkey (key h) = h := by
  refine FixedBytes.ext' ?_
  have := beFixed_beNat h.bytes
  rw [h.len] at this
  exact this

theorem map_unkey : ∀ l : List H256, (l.map key).map unkey = l
  | [] => rfl
  | h :: l => by rw [List.map_cons, List.map_cons, unkey_key, map_unkey l]

theorem nodup_map_key : ∀ {l : List H256}, l.Nodup → (l.map key).Nodup
  | [], _ => List.nodup_nil
  | h :: l, hn => by
    rw [List.nodup_cons] at hn
    rw [List.map_cons, List.nodup_cons]
    refine ⟨fun hm => ?_, nodup_map_key hn.2⟩
    obtain ⟨x, hx, e⟩ := List.mem_map.1 hm
    exact hn.1 (key_inj e ▸ hx)

theorem encPayload_length {p : Bytes} (h : p.length < 2 ^ 64) : (Rlp.encPayload p).length ≤ p.length + 9 := by
  unfold Rlp.encPayload
  split
  · rw [List.length_cons]
    omega
  · have := beBytes_length_le p.length 8 (by simpa using h)
    unfold Rlp.longHeader
    rw [List.length_append, List.length_cons]
    omega

theorem encode_length {m : Msg} (h : m.hashes.length < 2 ^ 32) : m.encode.length < 2 ^ 64 := by
  have hf : (Rlp.encodeMany (m.hashes.map Rlp.ofFixed)).length ≤ 33 * m.hashes.length := by
    have := Meta.encodeMany_length_le (m.hashes.map Rlp.ofFixed) 33 (by
      intro x hx
      obtain ⟨y, _, rfl⟩ := List.mem_map.1 hx
      unfold Rlp.ofFixed
      rw [Rlp.encode]
      have := Meta.encStr_length_le y.bytes (by rw [y.len]; decide)
      rw [y.len] at this
      exact this)
    rwa [List.length_map] at this
  have h1 : (Rlp.encode (.list (m.hashes.map Rlp.ofFixed))).length ≤ 33 * m.hashes.length + 9 := by
    rw [Rlp.encode]
    have := encPayload_length (p := Rlp.encodeMany (m.hashes.map Rlp.ofFixed)) (by omega)
    omega
  have h2 : (Rlp.encode (ofOption m.height)).length ≤ 18 := by
    unfold ofOption
    split
    · rw [Rlp.encode, Rlp.encodeMany]
      decide
    · rename_i n _
      rw [Rlp.encode, Rlp.encodeMany, Rlp.encodeMany, List.append_nil]
      have h9 := Meta.encode_ofUint_length n
      have := encPayload_length (p := Rlp.encode (Rlp.ofUint n)) (by omega)
      omega
  unfold Msg.encode
  rw [Rlp.encode, Rlp.encodeMany, Rlp.encodeMany, Rlp.encodeMany, List.append_nil]
  have := encPayload_length (p := Rlp.encode (ofOption m.height) ++ Rlp.encode (.list (m.hashes.map Rlp.ofFixed)))
    (by rw [List.length_append]; omega)
  rw [List.length_append] at this
  omega

theorem toOption_ofOption (o : Option (UIntN 64)) : toOption (ofOption o) = some o := by
  cases o with
  | none => rfl
  | some n =>
    show (Rlp.toUint 64 (Rlp.ofUint n)).map some = _
    rw [Rlp.toUint_ofUint]
    rfl

theorem decode_encode {m : Msg} (h : m.hashes.length < 2 ^ 32) : Msg.decode m.encode = some m := by
  have hl := encode_length h
  unfold Msg.decode
  unfold Msg.encode at *
  rw [Rlp.decode_encode_item _ hl]
  dsimp only
  rw [toOption_ofOption, Option.bind_some, Rlp.mapM_map_of_inverse _ _ (fun x => Rlp.toFixed_ofFixed x), Option.bind_some]

/-- What a request comes to. -/
theorem pullTxs_eq (p : Peer) (o : Option (UIntN 64)) {l : List H256} (h : l.length < 2 ^ 32) :
    pullTxs p o (l.map key) =
      match getFullTxs (getByHash p.pool) (p.storage o) (l.map key) with
      | .ok r => some r
      | .error _ => none := by
  unfold pullTxs Peer.answer
  rw [map_unkey, decode_encode (by exact h), Option.bind_some]

/-! What is in the pool after insertions -/

theorem find_same {s s' : Pool} (h1 : s'.txMap = s.txMap) (h2 : s'.heap.tx = s.heap.tx) (h : Nat) : find s' h = find s h := by
  unfold find
  rw [h1, h2]

theorem getByHash_same {s s' : Pool} (h1 : s'.txMap = s.txMap) (h2 : s'.heap.tx = s.heap.tx) (h3 : s'.sys = s.sys) (h : Nat) :
    getByHash s' h = getByHash s h := by
  unfold getByHash
  rw [find_same h1 h2, h2, h3]

theorem find?_congr' {α : Type} {f g : α → Bool} : ∀ {l : List α}, (∀ x ∈ l, f x = g x) → l.find? f = l.find? g
  | [], _ => rfl
  | x :: l, h => by
    rw [List.find?_cons, List.find?_cons, h x List.mem_cons_self,
      find?_congr' fun y hy => h y (List.mem_cons_of_mem x hy)]

theorem insertTail_get {s : Pool} {t x : PoolTx} {d h : Nat} (hi : Inv s) (hg : getByHash (insertTail s t d) h = some x) :
    getByHash s h = some x ∨ x = t := by
  unfold insertTail at hg
  split at hg
  · left
    rwa [getByHash_same (s := s) (by rfl) (by rfl) (by rfl)] at hg
  · have htx : ∀ p ∈ s.txMap, (s.heap.alloc s.next t).tx p = s.heap.tx p := fun p hp => by
      have := hi.mapLt p hp
      have : p ≠ s.next := by omega
      simp [Heap.alloc, this]
    unfold getByHash at hg
    split at hg
    · rename_i p hf
      have hx : (s.heap.alloc s.next t).tx p = x := Option.some.inj hg
      have hm := List.mem_of_find?_eq_some hf
      have hh := List.find?_some hf
      rcases List.mem_append.1 hm with hm | hm
      · left
        unfold find at hf
        dsimp only at hf
        rw [List.find?_append] at hf
        have hc : s.txMap.find? (fun p => decide (((s.heap.alloc s.next t).tx p).hash = h)) =
            s.txMap.find? (fun p => decide ((s.heap.tx p).hash = h)) := by
          refine find?_congr' fun q hq => ?_
          rw [htx q hq]
        cases hq : s.txMap.find? (fun p => decide ((s.heap.tx p).hash = h)) with
        | none =>
          rw [hc, hq] at hf
          have := List.find?_eq_none.1 hq p hm
          rw [htx p hm] at hx
          dsimp only at hh
          rw [htx p hm] at hh
          exact absurd hh this
        | some q =>
          rw [hc, hq] at hf
          have e : q = p := Option.some.inj hf
          unfold getByHash find
          rw [hq]
          dsimp only
          rw [e, ← htx p hm, hx]
      · right
        have e : p = s.next := List.mem_singleton.1 hm
        rw [← hx, e]
        simp [Heap.alloc]
    · rename_i hf
      left
      unfold find at hf
      dsimp only at hf
      rw [List.find?_eq_none] at hf
      have : find s h = none := by
        unfold find
        rw [List.find?_eq_none]
        intro q hq
        have := hf q (List.mem_append_left _ hq)
        rwa [htx q hq] at this
      unfold getByHash
      rw [this]
      exact hg

theorem insert_get {s s1 : Pool} {t x : PoolTx} {d h : Nat} {c : Bool} {r : InsertRes} (hi : Inv s)
    (hins : insert s t c d = some (s1, r)) (hg : getByHash s1 h = some x) : getByHash s h = some x ∨ x = t := by
  unfold Pool.insert at hins
  split at hins
  · cases hins
    exact .inl hg
  · dsimp only at hins
    split at hins
    · obtain ⟨s2, h2, e⟩ := Option.map_eq_some_iff.1 hins
      cases e
      obtain ⟨i2, sm, _⟩ := flushToPending_inv (hi.withStock (s.stock + 1)) h2
      rcases insertTail_get i2 hg with h1 | h1
      · left
        rwa [getByHash_same sm.txMap sm.tx sm.sys] at h1
      · exact .inr h1
    · cases hins
      rcases insertTail_get (hi.withStock _) hg with h1 | h1
      · left
        rwa [getByHash_same (s := s) (by rfl) (by rfl) (by rfl)] at h1
      · exact .inr h1

theorem insertSys_get {s : Pool} {t x : PoolTx} {h : Nat} (ok : SysOk s.sys) (hg : getByHash (insertSys s t) h = some x) :
    getByHash s h = some x ∨ x = t := by
  unfold getByHash at hg ⊢
  rw [find_same (s := s) (by rfl) (by rfl)] at hg
  split at hg
  · exact .inl hg
  · unfold Sys.getByHash at hg ⊢
    obtain ⟨d, hd, hg⟩ := Option.bind_eq_some_iff.1 hg
    obtain ⟨m, hm, hx⟩ := Option.bind_eq_some_iff.1 hg
    simp only [insertSys, Sys.insert] at hd hm
    rw [get_put] at hd hm
    split at hm
    · rename_i e
      subst e
      cases hm
      rw [get_sput (ok.oldOk t.data).1] at hx
      split at hx
      · exact .inr (Option.some.inj hx).symm
      · rename_i hne
        rw [if_neg hne] at hd
        left
        cases hb : get s.sys.buckets t.data with
        | none =>
          rw [hb] at hx
          cases hx
        | some m =>
          rw [hb] at hx
          rw [hd, Option.bind_some, hb]
          exact hx
    · rename_i hne
      split at hd
      · cases hd
        exact absurd rfl hne
      · left
        rw [hd, Option.bind_some, hm]
        exact hx

/-- After insertions the pool has nothing but what it had and what was inserted. -/
theorem insertAll_get {isSys : PoolTx → Option Bool} {h : Nat} {x : PoolTx} : ∀ {l : List (PoolTx × Nat)} {s s' : Pool}
    {r : Except FetchErr Unit}, Good s → insertAll isSys s l = some (s', r) → getByHash s' h = some x →
    getByHash s h = some x ∨ ∃ e ∈ l, e.1 = x
  | [], s, s', r, _, hr, hg => by
    cases hr
    exact .inl hg
  | (t, d) :: l, s, s', r, g, hr, hg => by
    unfold insertAll at hr
    split at hr
    · cases hr
      exact .inl hg
    · rcases insertAll_get (g.insertSys t) hr hg with h1 | ⟨e, he, h1⟩
      · rcases insertSys_get g.sys h1 with h2 | h2
        · exact .inl h2
        · exact .inr ⟨(t, d), List.mem_cons_self, h2.symm⟩
      · exact .inr ⟨e, List.mem_cons_of_mem _ he, h1⟩
    · split at hr
      · cases hr
      · rename_i s1 y hins
        rcases insertAll_get (g.insert hins) hr hg with h1 | ⟨e, he, h1⟩
        · rcases insert_get g.inv hins h1 with h2 | h2
          · exact .inl h2
          · exact .inr ⟨(t, d), List.mem_cons_self, h2.symm⟩
        · exact .inr ⟨e, List.mem_cons_of_mem _ he, h1⟩

theorem room_run : ∀ {ops : List Op} {s s' : Pool}, Good s → Room s →
    (∀ t c d, Op.insert t c d ∈ ops → d ≤ t.nonce ∧ t.nonce < 2 ^ 64 - 1) → run s ops = some s' → Room s'
  | [], s, s', _, ro, _, hr => by
    cases hr
    exact ro
  | op :: ops, s, s', g, ro, h, hr => by
    obtain ⟨s1, h1, r1⟩ := step_total (op := op) g ro (fun t c d e => by
      have := h t c d (by rw [e]; exact List.mem_cons_self)
      refine ⟨this.1, ?_⟩
      unfold u64Bound
      omega)
    simp only [run, h1] at hr
    exact room_run (g.step h1) r1 (fun t c d hm => h t c d (List.mem_cons_of_mem _ hm)) hr

/-- Insertions of transactions whose checks have room succeed. -/
theorem insertAll_total {isSys : PoolTx → Option Bool} : ∀ {l : List (PoolTx × Nat)} {s : Pool}, Good s → Room s →
    (∀ e ∈ l, e.2 ≤ e.1.nonce ∧ e.1.nonce < 2 ^ 64 - 1 ∧ (isSys e.1).isSome = true) →
    ∃ s', insertAll isSys s l = some (s', .ok ())
  | [], s, _, _, _ => ⟨s, rfl⟩
  | (t, d) :: l, s, g, ro, h => by
    obtain ⟨h1, h2, h3⟩ := h (t, d) List.mem_cons_self
    have hl : ∀ e ∈ l, e.2 ≤ e.1.nonce ∧ e.1.nonce < 2 ^ 64 - 1 ∧ (isSys e.1).isSome = true :=
      fun e he => h e (List.mem_cons_of_mem _ he)
    dsimp only at h1 h2 h3
    unfold insertAll
    cases hs : isSys t with
    | none =>
      rw [hs] at h3
      cases h3
    | some b =>
      cases b with
      | true => exact insertAll_total (g.insertSys t) ⟨ro.map, ro.co⟩ hl
      | false =>
        obtain ⟨s1, e1, r1⟩ := step_total (op := .insert t false d) g ro (fun t' c' d' e => by
          cases e
          unfold u64Bound
          omega)
        obtain ⟨⟨s2, r⟩, hi, e2⟩ := Option.map_eq_some_iff.1 e1
        cases e2
        dsimp only
        rw [hi]
        exact insertAll_total (g.insert hi) r1 hl

theorem contains_iff {s : Pool} {h : Nat} : contains s h = true ↔ ∃ t, getByHash s h = some t := by
  unfold contains getByHash
  cases find s h with
  | some p => exact ⟨fun _ => ⟨_, rfl⟩, fun _ => rfl⟩
  | none =>
    unfold Sys.contains Sys.getByHash
    cases get s.sys.hashData h with
    | none => exact ⟨fun h => (nomatch h), fun ⟨_, h⟩ => (nomatch h)⟩
    | some d =>
      simp only [Option.bind_some]
      cases get s.sys.buckets d with
      | none => exact ⟨fun h => (nomatch h), fun ⟨_, h⟩ => (nomatch h)⟩
      | some m =>
        simp only [Option.bind_some]
        cases get m h with
        | none => exact ⟨fun h => (nomatch h), fun ⟨_, h⟩ => (nomatch h)⟩
        | some t => exact ⟨fun _ => ⟨_, rfl⟩, fun _ => rfl⟩

/-! What stays in the pool -/

theorem insertTail_keeps {s : Pool} {t : PoolTx} {d h : Nat} (hi : Inv s) (hk : contains s h = true) :
    contains (insertTail s t d) h = true := by
  have hsys : (insertTail s t d).sys = s.sys := by
    unfold insertTail
    split <;> rfl
  unfold contains at hk ⊢
  rw [Bool.or_eq_true] at hk ⊢
  rw [hsys]
  refine hk.imp (fun h1 => ?_) id
  unfold insertTail
  split
  · exact h1
  · obtain ⟨p, hp, e⟩ := find_isSome.1 h1
    refine find_isSome.2 ⟨p, List.mem_append_left _ hp, ?_⟩
    have := hi.mapLt p hp
    have : p ≠ s.next := by omega
    show ((s.heap.alloc s.next t).tx p).hash = h
    simp [Heap.alloc, this, e]

theorem same_keeps {s s' : Pool} (sm : Same s s') (h : Nat) : contains s' h = contains s h := by
  unfold contains
  rw [find_same sm.txMap sm.tx, sm.sys]

/-- Only a commit takes transactions out of the pool. -/
theorem step_keeps {s s' : Pool} {op : Op} (g : Good s) (hf : ∀ l n, op ≠ .flush l n) (hr : step s op = some s') {h : Nat}
    (hk : contains s h = true) : contains s' h = true := by
  cases op with
  | insert t c d =>
    obtain ⟨⟨s2, r⟩, hi, e⟩ := Option.map_eq_some_iff.1 hr
    cases e
    unfold Pool.insert at hi
    split at hi
    · cases hi
      exact hk
    · dsimp only at hi
      split at hi
      · obtain ⟨s3, h3, e⟩ := Option.map_eq_some_iff.1 hi
        cases e
        obtain ⟨i3, sm, _⟩ := flushToPending_inv (g.inv.withStock (s.stock + 1)) h3
        refine insertTail_keeps i3 ?_
        rw [same_keeps sm]
        exact hk
      · cases hi
        exact insertTail_keeps (g.inv.withStock _) hk
  | insertSys t =>
    cases hr
    exact (insertAll_contains (isSys := fun _ => some true) (l := [(t, 0)]) g rfl).1 h hk
  | package n st =>
    obtain ⟨r, hp, e⟩ := Option.map_eq_some_iff.1 hr
    cases e
    rw [same_keeps (g.package hp).2.1]
    exact hk
  | refresh =>
    rw [same_keeps (g.refresh hr).2.1]
    exact hk
  | flush l n => exact absurd rfl (hf l n)

theorem run_keeps : ∀ {ops : List Op} {s s' : Pool}, Good s → (∀ l n, Op.flush l n ∉ ops) → run s ops = some s' → ∀ {h : Nat},
    contains s h = true → contains s' h = true
  | [], s, s', _, _, hr, h, hk => by
    cases hr
    exact hk
  | op :: ops, s, s', g, hf, hr, h, hk => by
    unfold run at hr
    split at hr
    · cases hr
    · rename_i s1 h1
      exact run_keeps (g.step h1) (fun l n hm => hf l n (List.mem_cons_of_mem _ hm)) hr
        (step_keeps g (fun l n e => hf l n (e ▸ List.mem_cons_self)) h1 hk)

/-! Where the transactions that call system scripts are found -/

/-- Each is indexed under the bucket it is in, and came by an insertion. -/
def Indexed (ops : List Op) (b : Sys) : Prop :=
  ∀ d m h t, (d, m) ∈ b.buckets → (h, t) ∈ m → get b.hashData h = some d ∧ Op.insertSys t ∈ ops

theorem indexed_insert {ops : List Op} (hc : Consistent ops) {b : Sys} (ok : SysOk b) (ix : Indexed ops b) {t : PoolTx}
    (ht : Op.insertSys t ∈ ops) : Indexed ops (b.insert t).1 := by
  intro d m h x hm hx
  simp only [Sys.insert, put, List.mem_cons, List.mem_filter, Prod.mk.injEq] at hm
  show get (put b.hashData t.hash t.data) h = some d ∧ _
  rw [get_put]
  have old : ∀ m', (d, m') ∈ b.buckets → (h, x) ∈ m' →
      (if h = t.hash then some t.data else get b.hashData h) = some d ∧ Op.insertSys x ∈ ops := by
    intro m' hm' hx'
    obtain ⟨a, a'⟩ := ix d m' h x hm' hx'
    refine ⟨?_, a'⟩
    split
    · rename_i e
      obtain ⟨o1, o2⟩ := (ok.ok d m' hm').2.2 h x hx'
      rw [← hc.sys x t a' ht (by rw [o1, e]), o2]
    · exact a
  rcases hm with ⟨rfl, rfl⟩ | ⟨hm, _⟩
  · rcases (mem_sput (ok.oldOk t.data).1 _).1 hx with e | ⟨hx, _⟩
    · cases e
      exact ⟨if_pos rfl, ht⟩
    · cases hb : get b.buckets t.data with
      | none =>
        rw [hb] at hx
        cases hx
      | some m' =>
        rw [hb] at hx
        exact old m' (mem_of_get hb) hx
  · exact old m hm hx

theorem indexed_flush {ops : List Op} : ∀ (hashes : List Nat) {b : Sys}, Indexed ops b → Indexed ops (b.flush hashes).1
  | [], _, ix => ix
  | hash :: rest, b, ix => by
    unfold Sys.flush
    split
    · exact indexed_flush rest ix
    · rename_i d hd
      refine indexed_flush rest ?_
      intro d' m h t hm ht
      have hm' := List.mem_filter.1 hm
      obtain ⟨a, a'⟩ := ix d' m h t hm'.1 ht
      refine ⟨?_, a'⟩
      show get (del b.hashData hash) h = some d'
      rw [get_del]
      split
      · rename_i e
        rw [e, hd] at a
        cases a
        simp at hm'
      · exact a

theorem indexed_run {ops : List Op} (hc : Consistent ops) : ∀ {l : List Op} {s s' : Pool}, Good s →
    (∀ op ∈ l, op ∈ ops) → Indexed ops s.sys → run s l = some s' → Indexed ops s'.sys
  | [], s, s', _, _, ix, hr => by
    cases hr
    exact ix
  | op :: l, s, s', g, hl, ix, hr => by
    unfold run at hr
    split at hr
    · cases hr
    · rename_i s1 h1
      refine indexed_run hc (g.step h1) (fun o ho => hl o (List.mem_cons_of_mem _ ho)) ?_ hr
      cases op with
      | insert t c d =>
        obtain ⟨⟨s2, r⟩, hi, e⟩ := Option.map_eq_some_iff.1 h1
        cases e
        have hs : s2.sys = s.sys := by
          have sysTail : ∀ s0 : Pool, (insertTail s0 t d).sys = s0.sys := by
            intro s0
            unfold insertTail
            split <;> rfl
          unfold Pool.insert at hi
          split at hi
          · cases hi
            rfl
          · dsimp only at hi
            split at hi
            · obtain ⟨s3, h3, e⟩ := Option.map_eq_some_iff.1 hi
              cases e
              obtain ⟨_, sm, _⟩ := flushToPending_inv (g.inv.withStock (s.stock + 1)) h3
              rw [sysTail, sm.sys]
            · cases hi
              rw [sysTail]
        show Indexed ops s2.sys
        rw [hs]
        exact ix
      | insertSys t =>
        cases h1
        exact indexed_insert hc g.sys ix (hl _ List.mem_cons_self)
      | package n st =>
        obtain ⟨r, hp, e⟩ := Option.map_eq_some_iff.1 h1
        cases e
        rw [(g.package hp).2.1.sys]
        exact ix
      | refresh =>
        rw [(g.refresh h1).2.1.sys]
        exact ix
      | flush hs n =>
        obtain ⟨s2, s3, k, _, sm, _, f, _, _, rfl⟩ := flush_steps g h1
        refine indexed_flush hs ?_
        rw [f.sys, sm.sys]
        exact ix

/-- Everything a node packs for a proposal is in its pool. -/
theorem packed_contained {cap gap : Nat} (hc : 0 < cap) {ops : List Op} {s : Pool} (hrun : run (init cap gap) ops = some s)
    (hcons : Consistent ops) {limit : Nat} {st : Sorter} {s' : Pool} {r : Packed} (hp : package s limit st = some (s', r)) :
    r.hashes.Nodup ∧ ∀ h ∈ r.hashes, contains s' h = true := by
  have g := good_run hc hrun
  obtain ⟨_, hn, ho, _⟩ := C16_package_partial hc hrun hcons hp
  obtain ⟨g', sm, _, sh, hsh, hcount, hhash⟩ := g.package hp
  dsimp only at g' sm hcount hhash
  have ix : Indexed ops s.sys := indexed_run hcons (Good.init hc gap) (fun o ho => ho)
    (by intro d m h t hm; simp [init] at hm) hrun
  refine ⟨hn, fun h hh => ?_⟩
  rw [hhash] at hh
  rcases List.mem_append.1 hh with hh | hh
  · obtain ⟨d, m, t, hm, ht, _⟩ := sysPackage_mem g.sys hsh hh
    have hd := (ix d m h t hm ht).1
    unfold contains
    rw [sm.sys]
    have : s.sys.contains h = true := by
      unfold Sys.contains
      rw [hd]
      dsimp only
      rw [get_of_mem g.sys.keys hm]
      dsimp only
      rw [get_of_mem (g.sys.ok d m hm).2.1.nodupKeys ht]
      rfl
    rw [this, Bool.or_true]
  · refine ho h ?_
    unfold Packed.ordinary
    rw [hhash, hcount, List.drop_left]
    exact hh

end Axon.Pull
