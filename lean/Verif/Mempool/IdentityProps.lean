import Verif.Mempool.Identity
import Verif.Mempool.FetchProps
import Verif.Mempool.AdmissionProps
import Verif.Consensus.SyncProps

/-!
# C98: a transaction is known everywhere by the same hash
-/

namespace Axon.Admission
open Axon.Tx Axon.Rlp Axon.Assoc

/-- Two different byte strings with the same digest. -/
def Collide (k : Keys) (a b : Bytes) : Prop := a ≠ b ∧ k.digest a = k.digest b

instance (k : Keys) (a b : Bytes) : Decidable (Collide k a b) := inferInstanceAs (Decidable (_ ∧ _))

/-- A transaction some node holds: it came from a peer or a client. -/
def Held (k : Keys) (x : Known) : Prop :=
  ∃ raw : Bytes, raw.length < 2 ^ 64 ∧ (fromPeer k raw = .ok x ∨ ∃ cap, fromRpc k cap raw = .ok x)

/-- What the property asks for: two held copies of the same signed transaction have the same hash. -/
def OneHash (k : Keys) : Prop := ∀ x y : Known, Held k x → Held k y → x.stx = y.stx → x.hash = y.hash

/-! ## Client submissions -/

/-- A submission is accepted only under the digest of the transaction's one encoding, and unless digests
collide the submitted bytes are that encoding. -/
theorem C98_rpc (k : Keys) (cap : Nat) {raw : Bytes} {x : Known} (h : fromRpc k cap raw = .ok x) :
    ∃ e, encodeTx x.stx.transaction = some e ∧ x.hash = k.digest e ∧ x.hash = k.digest raw ∧
      (raw = e ∨ Collide k raw e) := by
  obtain ⟨_, _, e, he, hx, hd⟩ := fromRpc_ok h
  exact ⟨e, he, hx, by rw [hx, hd], Decidable.or_iff_not_imp_left.2 fun hc => ⟨hc, hd⟩⟩

/-- Among submissions, equal transactions have equal hashes and, unless digests collide, different
transactions have different ones. -/
theorem C98_rpc_one_hash (k : Keys) {c1 c2 : Nat} {r1 r2 : Bytes} {x y : Known} (h1 : fromRpc k c1 r1 = .ok x)
    (h2 : fromRpc k c2 r2 = .ok y) :
    (x.stx.transaction = y.stx.transaction → x.hash = y.hash) ∧
    (x.hash = y.hash → (x.stx = y.stx ∧ r1 = r2) ∨ Collide k r1 r2) := by
  obtain ⟨d1, f1, e1, he1, hx1, hd1⟩ := fromRpc_ok h1
  obtain ⟨d2, f2, e2, he2, hx2, hd2⟩ := fromRpc_ok h2
  constructor
  · intro ht
    rw [ht, he2] at he1
    cases he1
    rw [hx1, hx2]
  · intro hh
    by_cases hr : r1 = r2
    · left
      subst hr
      rw [d1] at d2
      injection d2 with d2
      rw [d2, f2] at f1
      exact ⟨by injection f1 with f1; exact f1.symm, rfl⟩
    · exact .inr ⟨hr, by rw [hd1, hd2, ← hx1, ← hx2, hh]⟩

/-- Bytes behind the transaction are refused, unless they make a collision. -/
theorem C98_rpc_junk (k : Keys) (cap : Nat) {raw : Bytes} {x : Known} {junk : Bytes}
    (h : fromPeer k raw = .ok x) (hl : raw.length < 2 ^ 64) (hj : junk ≠ []) (y : Known)
    (hr : fromRpc k cap (raw ++ junk) = .ok y) :
    ∃ e, encodeTx x.stx.transaction = some e ∧ Collide k (raw ++ junk) e := by
  obtain ⟨d1, f1, e1, he1, hx1, hd1⟩ := fromRpc_ok hr
  obtain ⟨d2, _, _⟩ := fromPeer_ok h
  rw [decodeTx_append junk hl d2] at d1
  injection d1 with d1
  rw [← d1] at he1
  refine ⟨e1, he1, fun he => ?_, hd1⟩
  obtain ⟨_, e, rest, he', hraw⟩ := C02_canonical _ _ d2
  rw [he1] at he'
  cases he'
  have hlen := congrArg List.length (he.symm.trans (congrArg (· ++ junk) hraw))
  simp only [List.length_append] at hlen
  exact hj (List.eq_nil_of_length_eq_zero (by omega))

/-! ## Transactions from peers -/

/-- What is known of a peer's transaction: its hash is the digest of all the bytes the peer sent for it, and
these are the transaction's encoding followed by bytes the peer chose. -/
theorem C98_peer_partial (k : Keys) {raw : Bytes} {x : Known} (h : fromPeer k raw = .ok x) :
    x.hash = k.digest raw ∧ ∃ e junk, encodeTx x.stx.transaction = some e ∧ raw = e ++ junk := by
  obtain ⟨d, _, hx⟩ := fromPeer_ok h
  obtain ⟨_, e, junk, he, hr⟩ := C02_canonical _ _ d
  exact ⟨hx, e, junk, he, hr⟩

/-- Bytes no decoder takes for an item: the header of a long string with length bytes that are missing or
start with zero. -/
def junk (n : Nat) : Bytes := 0xb8 :: List.replicate n 0

theorem junk_inj {m n : Nat} (h : junk m = junk n) : m = n := by
  have := congrArg List.length h
  simpa [junk] using this

/-- C98 is false: a peer can have a transaction it has seen accepted under as many further hashes as it likes;
any two of them that are equal are a collision. -/
theorem C98_many_hashes_false (k : Keys) {raw : Bytes} {x : Known} (h : fromPeer k raw = .ok x)
    (hl : raw.length < 2 ^ 64) (n : Nat) :
    ∃ y, fromPeer k (raw ++ junk n) = .ok y ∧ y.stx = x.stx ∧ (y.hash = x.hash → Collide k (raw ++ junk n) raw) ∧
      ∀ m z, m ≠ n → fromPeer k (raw ++ junk m) = .ok z → z.hash = y.hash →
        Collide k (raw ++ junk m) (raw ++ junk n) := by
  obtain ⟨d, f, hx⟩ := fromPeer_ok h
  refine ⟨⟨x.stx, k.digest (raw ++ junk n)⟩, fromPeer_of (decodeTx_append _ hl d) f, rfl, ?_, ?_⟩
  · intro he
    refine ⟨fun e => ?_, he.trans hx⟩
    have := congrArg List.length e
    simp [junk] at this
  · intro m z hmn hz he
    obtain ⟨_, _, hz⟩ := fromPeer_ok hz
    exact ⟨fun e => hmn (junk_inj (List.append_cancel_left e)), hz.symm.trans he⟩

/-- So one signed transaction does not have one hash, as soon as any transaction is accepted at all. -/
theorem C98_one_hash_false (k : Keys) {raw : Bytes} {x : Known} (h : fromPeer k raw = .ok x)
    (hl : raw.length + 1 < 2 ^ 64) (hc : ¬ Collide k (raw ++ junk 0) raw) : ¬ OneHash k := by
  intro ho
  obtain ⟨y, h1, h2, h3, _⟩ := C98_many_hashes_false k h (by omega) 0
  exact hc (h3 (ho _ _ ⟨_, by simp [junk]; omega, .inl h1⟩ ⟨raw, by omega, .inl h⟩ h2))

/-! ## Passing on -/

theorem Held.decoded {k : Keys} {x : Known} (h : Held k x) :
    ∃ raw e rest, raw.length < 2 ^ 64 ∧ decodeTx raw = .ok x.stx.transaction ∧
      fromUnverified k x.stx.transaction = .ok x.stx ∧ encodeTx x.stx.transaction = some e ∧ raw = e ++ rest ∧
      x.hash = k.digest raw ∧ decodeTx e = .ok x.stx.transaction := by
  have key : ∀ raw : Bytes, raw.length < 2 ^ 64 → decodeTx raw = .ok x.stx.transaction →
      ∃ e rest, encodeTx x.stx.transaction = some e ∧ raw = e ++ rest ∧ decodeTx e = .ok x.stx.transaction := by
    intro raw hl d
    obtain ⟨hs, e, rest, he, hr⟩ := C02_canonical _ _ d
    exact ⟨e, rest, he, hr, C02_roundtrip _ hs e he (by rw [hr] at hl; simp at hl; omega)⟩
  obtain ⟨raw, hl, h | ⟨cap, h⟩⟩ := h
  · obtain ⟨d, f, hx⟩ := fromPeer_ok h
    obtain ⟨e, rest, he, hr, hd⟩ := key raw hl d
    exact ⟨raw, e, rest, hl, d, f, he, hr, hx, hd⟩
  · obtain ⟨d, f, e', he', hx, hdd⟩ := fromRpc_ok h
    obtain ⟨e, rest, he, hr, hd⟩ := key raw hl d
    exact ⟨raw, e, rest, hl, d, f, he, hr, by rw [hx, hdd], hd⟩

/-- Passing on a held transaction never fails and never changes it, and it arrives under the digest of its
one encoding; passing it on again changes nothing more. -/
theorem C98_relay (k : Keys) {x : Known} (h : Held k x) :
    ∃ e y, wire x = some e ∧ relay k x = .ok y ∧ Held k y ∧ y.stx = x.stx ∧ y.hash = k.digest e ∧
      relay k y = .ok y := by
  obtain ⟨raw, e, rest, hl, d, f, he, hr, hx, hd⟩ := h.decoded
  have hle : e.length < 2 ^ 64 := by rw [hr] at hl; simp at hl; omega
  have hp : fromPeer k e = .ok ⟨x.stx, k.digest e⟩ := fromPeer_of hd f
  refine ⟨e, ⟨x.stx, k.digest e⟩, he, ?_, ⟨e, hle, .inl hp⟩, rfl, rfl, ?_⟩
  · simp only [relay, wire, he]; exact hp
  · simp only [relay, wire, he]; exact hp

/-- The hash survives passing on exactly when the bytes first received were the transaction's encoding or
collide with it. -/
theorem C98_relay_iff (k : Keys) {raw : Bytes} {x y : Known} (hl : raw.length < 2 ^ 64)
    (h : fromPeer k raw = .ok x) (hy : relay k x = .ok y) :
    y.hash = x.hash ↔ ∃ e, encodeTx x.stx.transaction = some e ∧ (e = raw ∨ Collide k e raw) := by
  obtain ⟨_, _, hx⟩ := fromPeer_ok h
  obtain ⟨e, y', he, hr, _, _, hh, _⟩ := C98_relay k (x := x) ⟨raw, hl, .inl h⟩
  rw [hr] at hy
  cases hy
  rw [hh, hx]
  simp only [wire] at he
  constructor
  · intro hd
    exact ⟨e, he, Decidable.or_iff_not_imp_left.2 fun hc => ⟨hc, hd⟩⟩
  · rintro ⟨e', he', h'⟩
    rw [he] at he'
    cases he'
    rcases h' with h' | h'
    · rw [h']
    · exact h'.2

/-- So for transactions submitted by clients it always survives. -/
theorem C98_relay_rpc (k : Keys) {cap : Nat} {raw : Bytes} {x : Known} (hl : raw.length < 2 ^ 64)
    (h : fromRpc k cap raw = .ok x) : relay k x = .ok x := by
  obtain ⟨e, y, he, hr, _, hs, hh, _⟩ := C98_relay k (x := x) ⟨raw, hl, .inr ⟨cap, h⟩⟩
  obtain ⟨_, _, e', he', hx, _⟩ := fromRpc_ok h
  simp only [wire] at he
  rw [he] at he'
  cases he'
  rw [hr]
  congr 1
  cases x; cases y
  simp_all

/-- Passed on once, all copies of a transaction agree: this is the property for everything but first hand
receipt. -/
theorem C98_relayed_one_hash (k : Keys) {x y x' y' : Known} (hx : Held k x) (hy : Held k y)
    (he : x.stx = y.stx) (h1 : relay k x = .ok x') (h2 : relay k y = .ok y') : x' = y' := by
  have : relay k x = relay k y := by unfold relay wire; rw [he]
  rw [this, h2] at h1
  injection h1 with h1
  exact h1.symm

/-- No transaction that has been passed on carries the hash of one received with bytes behind it. -/
theorem relayed_hash_ne {k : Keys} {x y z : Known} {raw rest e e' : Bytes}
    (hd : decodeTx raw = .ok x.stx.transaction) (he : encodeTx x.stx.transaction = some e) (hr : raw = e ++ rest)
    (hrest : rest ≠ []) (hy : Held k y) (hw : wire y = some e') (hc : ¬ Collide k e' raw)
    (hz : relay k y = .ok z) : z.hash ≠ k.digest raw := by
  intro hh
  obtain ⟨e'', z', hw', hr', _, hs, hz', _⟩ := C98_relay k hy
  rw [hw] at hw'
  cases hw'
  rw [hr'] at hz
  cases hz
  obtain ⟨_, e2, _, _, _, _, he2, _, _, hd2⟩ := hy.decoded
  simp only [wire] at hw
  rw [hw] at he2
  cases he2
  refine hc ⟨fun this => ?_, hz'.symm.trans hh⟩
  rw [this, hd] at hd2
  injection hd2 with hd2
  rw [← hd2, he] at hw
  cases hw
  have := congrArg List.length (this.trans hr)
  simp only [List.length_append] at this
  exact hrest (List.eq_nil_of_length_eq_zero (by omega))

/-! ## Consequences for proposals and synchronisation -/

end Axon.Admission

namespace Axon.Sync
open Axon.Assoc Axon.Chain

theorem split_missing (mem : Nat → Option Tx) {h : Nat} (hm : mem h = none) : ∀ (hs : List Nat) (i : Nat), h ∈ hs →
    (get (split mem i hs).2.1 h).isSome = true := by
  intro hs
  induction hs with
  | nil => intro i hh; cases hh
  | cons a hs ih =>
    intro i hh
    unfold split
    simp only
    split
    · rename_i t ht
      rcases List.mem_cons.1 hh with rfl | hh
      · rw [hm] at ht; cases ht
      · exact ih _ hh
    · simp only
      split
      · rename_i hs'
        rcases List.mem_cons.1 hh with rfl | hh
        · exact hs'
        · exact ih _ hh
      · rw [get_put]
        split
        · rfl
        · rename_i hne
          rcases List.mem_cons.1 hh with rfl | hh
          · exact absurd rfl hne
          · exact ih _ hh

theorem absorb_missing {h : Nat} : ∀ (txs : List Tx) {res missing res' missing'}, (∀ t ∈ txs, t.hash ≠ h) →
    (get missing h).isSome = true → absorb txs res missing = some (res', missing') →
    (get missing' h).isSome = true := by
  intro txs
  induction txs with
  | nil => intro res missing res' missing' _ hm h'; simp only [absorb, Option.some.injEq, Prod.mk.injEq] at h'; rw [← h'.2]; exact hm
  | cons t txs ih =>
    intro res missing res' missing' ht hm h'
    unfold absorb at h'
    split at h'
    · cases h'
    · refine ih (fun t' h1 => ht t' (List.mem_cons_of_mem _ h1)) ?_ h'
      rw [get_del, if_neg (fun e => ht t (by simp) e.symm)]
      exact hm

theorem fetch_missing {h : Nat} (remote : List Nat → Option (List Tx))
    (hr : ∀ c txs, remote c = some txs → ∀ t ∈ txs, t.hash ≠ h) : ∀ (cs : List (List Nat)) {res missing res' missing'},
    (get missing h).isSome = true → fetch remote cs res missing = some (res', missing') →
    (get missing' h).isSome = true := by
  intro cs
  induction cs with
  | nil => intro res missing res' missing' hm h'; simp only [fetch, Option.some.injEq, Prod.mk.injEq] at h'; rw [← h'.2]; exact hm
  | cons c cs ih =>
    intro res missing res' missing' hm h'
    unfold fetch at h'
    split at h'
    · cases h'
    · rename_i txs htx
      split at h'
      · cases h'
      · rename_i r m ha
        exact ih (absorb_missing txs (hr _ _ htx) hm ha) h'

/-- A block naming a transaction this node does not have and no peer delivers is not assembled. -/
theorem richTxs_missing (mem : Nat → Option Tx) (remote : List Nat → Option (List Tx)) (n : Nat) {hashes : List Nat}
    {h : Nat} (hh : h ∈ hashes) (hm : mem h = none) (hr : ∀ c txs, remote c = some txs → ∀ t ∈ txs, t.hash ≠ h)
    (txs : List Tx) : richTxs mem remote n hashes ≠ .ok txs := by
  intro hok
  unfold richTxs at hok
  simp only at hok
  split at hok
  · cases hok
  · split at hok
    · cases hok
    · rename_i res missing hf
      have := fetch_missing remote hr _ (split_missing mem hm hashes 0 hh) hf
      split at hok
      · rename_i he; rw [he] at this; cases this
      · cases hok

end Axon.Sync

namespace Axon.Pool
open Axon.Assoc

theorem insert_absent {s s1 : Pool} {t : PoolTx} {d : Nat} {r : InsertRes} (g : Good s)
    (hins : insert s t false d = some (s1, r)) {h : Nat} (hn : contains s h = false) (hne : t.hash ≠ h) :
    contains s1 h = false := by
  have tail : ∀ s0 : Pool, Inv s0 → ((find (insertTail s0 t d) h).isSome ↔ (find s0 h).isSome ∨ h = t.hash) := by
    intro s0 i0
    unfold insertTail
    split
    · rename_i p hf
      constructor
      · intro h1; exact .inl h1
      · rintro (h1 | rfl)
        · exact h1
        · exact absurd rfl hne
    · rw [find_isSome, find_isSome]
      have htx : ∀ p ∈ s0.txMap, (s0.heap.alloc s0.next t).tx p = s0.heap.tx p := fun p hp => by
        have := i0.mapLt p hp
        have : p ≠ s0.next := by omega
        simp [Heap.alloc, this]
      constructor
      · rintro ⟨p, hp, he⟩
        simp only [List.mem_append, List.mem_singleton] at hp he
        rcases hp with hp | rfl
        · rw [htx p hp] at he; exact .inl ⟨p, hp, he⟩
        · right; rw [← he]; simp [Heap.alloc]
      · rintro (⟨p, hp, he⟩ | rfl)
        · exact ⟨p, by simp [hp], by simp only; rw [htx p hp]; exact he⟩
        · exact absurd rfl hne
  have sysTail : ∀ s0 : Pool, (insertTail s0 t d).sys = s0.sys := by
    intro s0; unfold insertTail; split <;> rfl
  have main : ((find s1 h).isSome ↔ (find s h).isSome ∨ h = t.hash) ∧ s1.sys = s.sys := by
    unfold insert at hins
    split at hins
    · rename_i h; simp at h
    · simp only at hins
      split at hins
      · simp only [Option.map_eq_some_iff, Prod.mk.injEq] at hins
        obtain ⟨s2, h2, rfl, _⟩ := hins
        obtain ⟨i2, sm, _⟩ := flushToPending_inv (g.inv.withStock (s.stock + 1)) h2
        refine ⟨?_, by rw [sysTail, sm.sys]⟩
        rw [tail s2 i2, find_isSome, find_isSome, sm.txMap, sm.tx]
      · simp only [Option.some.injEq, Prod.mk.injEq] at hins
        obtain ⟨rfl, _⟩ := hins
        exact ⟨tail { s with stock := s.stock + 1 } (g.inv.withStock _), by rw [sysTail]⟩
  simp only [contains, Bool.or_eq_false_iff] at hn ⊢
  refine ⟨?_, by rw [main.2]; exact hn.2⟩
  cases hf : (find s1 h).isSome with
  | false => rfl
  | true =>
    rcases main.1.1 hf with h1 | h1
    · rw [h1] at hn; cases hn.1
    · exact absurd h1.symm hne

theorem insertSys_absent {s : Pool} {t : PoolTx} (g : Good s) {h : Nat} (hn : contains s h = false)
    (hne : t.hash ≠ h) : contains (insertSys s t) h = false := by
  simp only [contains, Bool.or_eq_false_iff] at hn ⊢
  refine ⟨hn.1, ?_⟩
  have hn := hn.2
  simp only [insertSys, Sys.insert, Sys.contains] at hn ⊢
  rw [get_put, if_neg (fun e => hne e.symm)]
  split at hn
  · rename_i d hd
    rw [get_put]
    by_cases e2 : d = t.data
    · subst e2
      simp only [if_true]
      rw [get_sput (g.sys.oldOk t.data).1, if_neg (fun e => hne e.symm)]
      split at hn
      · rename_i m hm; rw [hm]; exact hn
      · rename_i hm; rw [hm]; rfl
    · rw [if_neg e2]; exact hn
  · rfl

/-- Inserting transactions with other hashes does not make a hash known. -/
theorem insertAll_absent {isSys : PoolTx → Option Bool} {h : Nat} : ∀ {l : List (PoolTx × Nat)} {s s' : Pool}
    {r : Except FetchErr Unit}, Good s → insertAll isSys s l = some (s', r) → contains s h = false →
    (∀ e ∈ l, e.1.hash ≠ h) → contains s' h = false := by
  intro l
  induction l with
  | nil =>
    intro s s' r _ hr hn _
    simp only [insertAll, Option.some.injEq, Prod.mk.injEq] at hr
    rw [← hr.1]; exact hn
  | cons e l ih =>
    obtain ⟨t, d⟩ := e
    intro s s' r g hr hn hl
    have hne : t.hash ≠ h := hl (t, d) (by simp)
    have hl' : ∀ e ∈ l, e.1.hash ≠ h := fun e he => hl e (List.mem_cons_of_mem _ he)
    unfold insertAll at hr
    split at hr
    · simp only [Option.some.injEq, Prod.mk.injEq] at hr
      rw [← hr.1]; exact hn
    · exact ih (g.insertSys t) hr (insertSys_absent g hn hne) hl'
    · split at hr
      · cases hr
      · rename_i s1 x hins
        exact ih (g.insert hins) hr (insert_absent g hins hn hne) hl'

/-- A hash no pulled transaction carries stays unknown, also when the order is declared complete. -/
theorem ensureOrder_absent {cap gap : Nat} (hc : 0 < cap) {ops : List Op} {s s' : Pool}
    (hrun : run (init cap gap) ops = some s) {pull : List Nat → Option (List PoolTx)}
    {check : PoolTx → Option Nat} {isSys : PoolTx → Option Bool} {hashes : List Nat} {r : Except FetchErr Unit}
    (hr : ensureOrder pull check isSys s hashes = some (s', r)) {h : Nat} (hn : contains s h = false)
    (hp : ∀ asked txs, pull asked = some txs → ∀ t ∈ txs, t.hash ≠ h) : contains s' h = false := by
  have g := good_run hc hrun
  unfold ensureOrder at hr
  have same : some (s, r) = some (s', r) → contains s' h = false := by
    intro e; simp only [Option.some.injEq, Prod.mk.injEq, and_true] at e; rw [← e]; exact hn
  split at hr
  · simp only [Option.some.injEq, Prod.mk.injEq] at hr; rw [← hr.1]; exact hn
  · simp only at hr
    split at hr
    · simp only [Option.some.injEq, Prod.mk.injEq] at hr; rw [← hr.1]; exact hn
    · split at hr
      · simp only [Option.some.injEq, Prod.mk.injEq] at hr; rw [← hr.1]; exact hn
      · rename_i txs htx
        split at hr
        · simp only [Option.some.injEq, Prod.mk.injEq] at hr; rw [← hr.1]; exact hn
        · split at hr
          · simp only [Option.some.injEq, Prod.mk.injEq] at hr; rw [← hr.1]; exact hn
          · exact insertAll_absent g hr hn fun e he => hp _ _ htx _ (List.of_mem_zip he).1

end Axon.Pool

namespace Axon.Admission
open Axon.Tx Axon.Rlp

/-- A hash as answers from peers can carry it: the digest of the encoding of a held transaction; `raw` is the
byte string such a digest must not collide with. -/
def Answered (k : Keys) (raw : Bytes) (h : Nat) : Prop :=
  ∃ y z e, Held k y ∧ wire y = some e ∧ ¬ Collide k e raw ∧ relay k y = .ok z ∧ h = key z.hash

theorem answered_ne {k : Keys} {raw : Bytes} {x : Known} (hx : fromPeer k raw = .ok x)
    (hj : encodeTx x.stx.transaction ≠ some raw) {h : Nat} (ha : Answered k raw h) : h ≠ key x.hash := by
  obtain ⟨y, z, e', hy, hw, hc, hz, rfl⟩ := ha
  obtain ⟨d, _, hh⟩ := fromPeer_ok hx
  obtain ⟨_, e, rest, he, hr⟩ := C02_canonical _ _ d
  intro hk
  refine relayed_hash_ne d he hr ?_ hy hw hc hz ((key_inj hk).trans hh)
  rintro rfl
  rw [List.append_nil] at hr
  rw [hr] at hj
  exact hj he

/-- A block that names a transaction received with bytes behind it cannot be synchronised: a node that has not
itself received these very bytes never assembles it, whoever answers and however often. -/
theorem C98_unsyncable_false (k : Keys) {raw : Bytes} {x : Known} (hx : fromPeer k raw = .ok x)
    (hj : encodeTx x.stx.transaction ≠ some raw) (mem : Nat → Option Chain.Tx)
    (remote : List Nat → Option (List Chain.Tx)) (n : Nat) {hashes : List Nat} (hh : key x.hash ∈ hashes)
    (hm : mem (key x.hash) = none)
    (hr : ∀ c txs, remote c = some txs → ∀ t ∈ txs, Answered k raw t.hash) (txs : List Chain.Tx) :
    Sync.richTxs mem remote n hashes ≠ .ok txs :=
  Sync.richTxs_missing mem remote n hh hm (fun c txs h t ht => answered_ne hx hj (hr c txs h t ht)) txs

/-- A validator that pulls the transactions of a proposal naming it ends without it, although it may well
declare the proposal's transactions complete (see `C56_substituted_false`). -/
theorem C98_unpullable_false (k : Keys) {raw : Bytes} {x : Known} (hx : fromPeer k raw = .ok x)
    (hj : encodeTx x.stx.transaction ≠ some raw) {cap gap : Nat} (hc : 0 < cap) {ops : List Pool.Op}
    {s s' : Pool.Pool} (hrun : Pool.run (Pool.init cap gap) ops = some s)
    {pull : List Nat → Option (List Pool.PoolTx)} {check : Pool.PoolTx → Option Nat}
    {isSys : Pool.PoolTx → Option Bool} {hashes : List Nat} {r : Except Pool.FetchErr Unit}
    (hr : Pool.ensureOrder pull check isSys s hashes = some (s', r)) (hn : Pool.contains s (key x.hash) = false)
    (hp : ∀ asked txs, pull asked = some txs → ∀ t ∈ txs, Answered k raw t.hash) :
    Pool.contains s' (key x.hash) = false :=
  Pool.ensureOrder_absent hc hrun hr hn (fun c txs h t ht => answered_ne hx hj (hp c txs h t ht))

/-! ## Concrete cases

A digest that returns the length, and the transaction of the admission examples. -/

def sampleKeys : Keys :=
  ⟨fun _ => some ([], ⟨List.replicate 20 7, rfl⟩), fun _ => none, fun b => ⟨beFixed 32 b.length, beFixed_length 32 _⟩⟩

def sampleTx : SignedTx := okTx ⟨5, by decide⟩ ⟨21000, by decide⟩

def sampleRaw : Bytes := (encodeTx sampleTx.transaction).getD []

def sampleHash (n : Nat) : H256 := ⟨beFixed 32 n, beFixed_length 32 _⟩

/-- Submitted as it is, it is accepted; with a byte behind it, it is refused; a peer can deliver both. -/
example : fromRpc sampleKeys 30000000 sampleRaw = .ok ⟨sampleTx, sampleHash sampleRaw.length⟩ ∧
    fromRpc sampleKeys 30000000 (sampleRaw ++ junk 0) = .err ∧
    fromPeer sampleKeys sampleRaw = .ok ⟨sampleTx, sampleHash sampleRaw.length⟩ ∧
    fromPeer sampleKeys (sampleRaw ++ junk 0) = .ok ⟨sampleTx, sampleHash (sampleRaw.length + 1)⟩ ∧
    relay sampleKeys ⟨sampleTx, sampleHash (sampleRaw.length + 1)⟩ = .ok ⟨sampleTx, sampleHash sampleRaw.length⟩ := by
  decide +kernel

/-- The hypotheses of `C98_one_hash_false` and of the two consequences. -/
example : ¬ Collide sampleKeys (sampleRaw ++ junk 0) sampleRaw ∧
    encodeTx sampleTx.transaction ≠ some (sampleRaw ++ junk 0) ∧ ¬ Collide sampleKeys sampleRaw (sampleRaw ++ junk 0) := by
  decide +kernel

/-- A block naming the transaction under its second hash: the peer answers with the transaction itself. -/
example : Sync.richTxs (fun _ => none) (fun c => some (c.map fun _ => (⟨88, 0⟩ : Chain.Tx))) 10 [89] = .err ∧
    Sync.richTxs (fun _ => none) (fun c => some (c.map fun _ => (⟨88, 0⟩ : Chain.Tx))) 10 [88] = .ok [⟨88, 0⟩] := by
  decide +kernel

end Axon.Admission
