import Verif.Mempool.Pull

/-!
# C137: a validator gets the transactions of a proposal from the proposer
-/

namespace Axon.Pull
open Axon.Assoc Axon.Pool
open Axon.Admission (key key_inj)

/-! ## Specification -/

/-- The pool of the node came about by the operations of the pool, and what it stored for a block are transactions under
their own hashes. -/
structure Sound (p : Peer) : Prop where
  pool : ∃ cap gap ops, 0 < cap ∧ run (init cap gap) ops = some p.pool
  keys : ∀ n, NodupKeys (p.blocks n)
  hash : ∀ n, ∀ e ∈ p.blocks n, e.2.hash = e.1

/-- The transaction the node has under a hash, in its pool or else in the block with the number `n`. -/
def Peer.own (p : Peer) (n : Nat) (h : Nat) : Option PoolTx := (getByHash p.pool h).or (get (p.blocks n) h)

/-! ## The request -/

/-- The request the peer reads is the request sent. -/
theorem C137_message {m : Msg} (h : m.hashes.length < 2 ^ 32) : Msg.decode m.encode = some m := decode_encode h

example : Msg.decode (Msg.encode ⟨some ⟨300, by decide⟩, [unkey 5, unkey 7]⟩) = some ⟨some ⟨300, by decide⟩, [unkey 5, unkey 7]⟩ :=
  C137_message (by decide)

/-- Two different requests are never the same bytes. -/
theorem C137_message_inj {m m' : Msg} (h : m.hashes.length < 2 ^ 32) (h' : m'.hashes.length < 2 ^ 32)
    (e : m.encode = m'.encode) : m = m' := by
  have := decode_encode h
  rw [e, decode_encode h'] at this
  exact (Option.some.inj this).symm

example : Msg.encode ⟨none, [unkey 5]⟩ ≠ Msg.encode ⟨some ⟨0, by decide⟩, [unkey 5]⟩ :=
  fun e => nomatch C137_message_inj (by decide) (by decide) e

/-! ## The answer -/

theorem own_hash {p : Peer} (sp : Sound p) {n h : Nat} {t : PoolTx} (e : p.own n h = some t) : t.hash = h := by
  obtain ⟨cap, gap, ops, hc, hrun⟩ := sp.pool
  unfold Peer.own at e
  rcases Option.or_eq_some_iff.1 e with e | ⟨_, e⟩
  · exact getByHash_hash (good_run hc hrun) e
  · exact sp.hash n _ (mem_of_get e)

/-- The proposer answers a request for transactions of its proposal iff it has every one of them in the pool or in the block
with that number; the answer is then those transactions, each once. -/
theorem C137_served {p : Peer} (sp : Sound p) (n : UIntN 64) {asked : List H256} (hn : asked.Nodup)
    (hl : asked.length < 2 ^ 32) :
    ((∃ r, pullTxs p (some n) (asked.map key) = some r) ↔ ∀ h ∈ asked, (p.own n.val (key h)).isSome = true) ∧
    ∀ r, pullTxs p (some n) (asked.map key) = some r →
      (r.map (·.hash)).Perm (asked.map key) ∧ ∀ t ∈ r, p.own n.val t.hash = some t := by
  obtain ⟨cap, gap, ops, hc, hrun⟩ := sp.pool
  obtain ⟨e, hp⟩ := C23_height_partial hc hrun (sp.keys n.val) (nodup_map_key hn)
  obtain ⟨c1, c2⟩ := C23_content_partial (db := get (p.blocks n.val)) hp (fun h t e => sp.hash n.val _ (mem_of_get e))
    (asked.map key)
  rw [pullTxs_eq p _ hl]
  show ((∃ r, (match getFullTxs (getByHash p.pool) (storageAtHeight (p.blocks n.val)) (asked.map key) with
    | .ok r => some r | .error _ => none) = some r) ↔ _) ∧ ∀ r, (match getFullTxs (getByHash p.pool)
      (storageAtHeight (p.blocks n.val)) (asked.map key) with | .ok r => some r | .error _ => none) = some r → _
  rw [e]
  have hown : ∀ h, (p.own n.val h).isSome = true ↔ (getByHash p.pool h).isSome = true ∨ (get (p.blocks n.val) h).isSome = true := by
    intro h
    unfold Peer.own
    rw [Option.isSome_or, Bool.or_eq_true]
  constructor
  · constructor
    · rintro ⟨r, hr⟩ h hh
      rw [hown]
      cases hg : getFullTxs (getByHash p.pool) (storageByHash (get (p.blocks n.val))) (asked.map key) with
      | ok r' => exact c1.1 ⟨r', hg⟩ _ (List.mem_map_of_mem hh)
      | error x =>
        rw [hg] at hr
        cases hr
    · intro h
      obtain ⟨r, hr⟩ := c1.2 (fun x hx => by
        obtain ⟨y, hy, rfl⟩ := List.mem_map.1 hx
        exact (hown _).1 (h y hy))
      exact ⟨r, by rw [hr]⟩
  · intro r hr
    cases hg : getFullTxs (getByHash p.pool) (storageByHash (get (p.blocks n.val))) (asked.map key) with
    | error x =>
      rw [hg] at hr
      cases hr
    | ok r' =>
      rw [hg] at hr
      cases hr
      obtain ⟨d1, d2⟩ := c2 r hg
      refine ⟨?_, fun t ht => ?_⟩
      · rw [d1]
        have : (asked.map key).filter (fun h => (getByHash p.pool h).isNone) =
            (asked.map key).filter (fun h => !(getByHash p.pool h).isSome) :=
          List.filter_congr fun x _ => by cases getByHash p.pool x <;> rfl
        rw [this]
        exact List.filter_append_perm _ _
      · unfold Peer.own
        rcases d2 t ht with h | ⟨h, h'⟩
        · rw [h]
          rfl
        · rw [h, h']
          rfl

/-- A proposer with the transaction 2 in the pool and 1 in block 7. -/
def demo : Peer := ⟨((run (init 10 20) [.insert ⟨2, 7, 0, 5, 0⟩ true 0]).getD (init 10 20)),
  fun n => if n = 7 then [(1, ⟨1, 8, 0, 5, 0⟩)] else [], fun h => if h = 1 then some ⟨1, 8, 0, 5, 0⟩ else none⟩

theorem demo_sound : Sound demo := by
  refine ⟨⟨10, 20, [.insert ⟨2, 7, 0, 5, 0⟩ true 0], by decide, rfl⟩, fun n => ?_, fun n e he => ?_⟩
  · unfold demo
    dsimp only
    split
    · exact List.pairwise_singleton _ _
    · exact List.Pairwise.nil
  · unfold demo at he
    dsimp only at he
    split at he
    · rw [List.mem_singleton.1 he]
    · cases he

example : pullTxs demo (some ⟨7, by decide⟩) ([unkey 1, unkey 2].map key) = some [⟨2, 7, 0, 5, 0⟩, ⟨1, 8, 0, 5, 0⟩] := by
  decide +kernel

example : (∃ r, pullTxs demo (some ⟨7, by decide⟩) ([unkey 1, unkey 2].map key) = some r) ∧
    ¬ ∃ r, pullTxs demo (some ⟨8, by decide⟩) ([unkey 1, unkey 2].map key) = some r :=
  ⟨(C137_served demo_sound _ (by decide) (by decide)).1.2 (by decide +kernel),
    fun h => absurd ((C137_served demo_sound _ (by decide) (by decide)).1.1 h) (by decide +kernel)⟩

/-! ## The validator -/

theorem unknown_eq (s : Pool) (hs : List H256) :
    (hs.map key).filter (fun h => !contains s h) = (hs.filter fun h => !contains s (key h)).map key := by
  rw [List.filter_map]
  rfl

theorem checkDup_nodup {hs : List H256} (hn : hs.Nodup) : checkDup (hs.map key) [] = .ok () :=
  (checkDup_ok _ _).2 ⟨nodup_map_key hn, fun _ _ h => nomatch h⟩

theorem mapM_all {check : PoolTx → Option Nat} : ∀ {l : List PoolTx}, (∀ t ∈ l, (check t).isSome = true) →
    ∃ r, l.mapM check = some r
  | [], _ => ⟨[], rfl⟩
  | t :: l, h => by
    obtain ⟨d, hd⟩ := Option.isSome_iff_exists.1 (h t List.mem_cons_self)
    obtain ⟨r, hr⟩ := mapM_all (l := l) fun x hx => h x (List.mem_cons_of_mem _ hx)
    exact ⟨d :: r, by rw [List.mapM_cons, hd, hr]; rfl⟩

theorem zip_check {check : PoolTx → Option Nat} : ∀ {l : List PoolTx} {r : List Nat}, l.mapM check = some r →
    ∀ e ∈ l.zip r, e.1 ∈ l ∧ check e.1 = some e.2
  | [], r, _, e, he => by rw [List.zip_nil_left] at he; cases he
  | t :: l, r, h, e, he => by
    rw [List.mapM_cons] at h
    obtain ⟨d, hd, h⟩ := Option.bind_eq_some_iff.1 h
    obtain ⟨r', hr', h⟩ := Option.bind_eq_some_iff.1 h
    cases h
    rw [List.zip_cons_cons] at he
    rcases List.mem_cons.1 he with rfl | he
    · exact ⟨List.mem_cons_self, hd⟩
    · exact ⟨List.mem_cons_of_mem _ (zip_check hr' e he).1, (zip_check hr' e he).2⟩

theorem mem_zip : ∀ {l : List PoolTx} {r : List Nat}, r.length = l.length → ∀ t ∈ l, ∃ d, (t, d) ∈ l.zip r
  | [], _, _, _, ht => nomatch ht
  | _ :: _, [], hr, _, _ => nomatch hr
  | x :: l, d :: r, hr, t, ht => by
    rw [List.zip_cons_cons]
    rcases List.mem_cons.1 ht with rfl | ht
    · exact ⟨d, List.mem_cons_self⟩
    · obtain ⟨d', h'⟩ := mem_zip (Nat.succ.inj hr) t ht
      exact ⟨d', List.mem_cons_of_mem _ h'⟩

/-- The transactions of a proposal that the node lacks and the proposer has are taken over: if the proposer has every one of
them and each passes the checks of the node, the proposal passes and the node has all its transactions.  (The bounds on
nonces are those of `C55_no_panic_partial`.) -/
theorem C137_complete {p : Peer} (sp : Sound p) {cap gap : Nat} (hc : 0 < cap) {ops : List Op} {s : Pool}
    (hrun : run (init cap gap) ops = some s)
    (hops : ∀ t c d, Op.insert t c d ∈ ops → d ≤ t.nonce ∧ t.nonce < 2 ^ 64 - 1)
    {check : PoolTx → Option Nat} {isSys : PoolTx → Option Bool} (n : UIntN 64) {hs : List H256} (hn : hs.Nodup)
    (hl : hs.length < 2 ^ 32)
    (hold : ∀ h ∈ hs, contains s (key h) = true ∨ (p.own n.val (key h)).isSome = true)
    (hck : ∀ h ∈ hs, ∀ t, p.own n.val (key h) = some t →
      (∃ d, check t = some d ∧ d ≤ t.nonce) ∧ t.nonce < 2 ^ 64 - 1 ∧ (isSys t).isSome = true) :
    ∃ s', verifyTxs p check isSys s n hs = some (s', .ok ()) ∧ ∀ h ∈ hs, contains s' (key h) = true := by
  have g := good_run hc hrun
  have ro : Room s := room_run (Good.init hc gap) ⟨by simp [init], by simp [init]⟩ hops hrun
  let asked := hs.filter fun h => !contains s (key h)
  have ha : asked.Nodup := hn.sublist List.filter_sublist
  have hal : asked.length < 2 ^ 32 := Nat.lt_of_le_of_lt (List.length_filter_le _ _) hl
  obtain ⟨s1, s2⟩ := C137_served sp n ha hal
  have hheld : ∀ h ∈ asked, (p.own n.val (key h)).isSome = true := fun h hh => by
    obtain ⟨m1, m2⟩ := List.mem_filter.1 hh
    rcases hold h m1 with h1 | h1
    · rw [h1] at m2
      cases m2
    · exact h1
  obtain ⟨txs, htx⟩ := s1.2 hheld
  obtain ⟨hperm, hmine⟩ := s2 txs htx
  have hlen : txs.length = (asked.map key).length := by
    have := hperm.length_eq
    rwa [List.length_map] at this
  have htxs : ∀ t ∈ txs, (∃ d, check t = some d ∧ d ≤ t.nonce) ∧ t.nonce < 2 ^ 64 - 1 ∧ (isSys t).isSome = true := by
    intro t ht
    obtain ⟨h, hh, e⟩ := List.mem_map.1 (hperm.mem_iff.1 (List.mem_map_of_mem (f := (·.hash)) ht))
    refine hck h (List.mem_filter.1 hh).1 t ?_
    rw [e]
    exact hmine t ht
  obtain ⟨diffs, hd⟩ := mapM_all (check := check) (l := txs) fun t ht => by
    obtain ⟨⟨d, hd, _⟩, _⟩ := htxs t ht
    rw [hd]
    rfl
  obtain ⟨s', hs'⟩ := insertAll_total (isSys := isSys) (l := txs.zip diffs) g ro (fun e he => by
    obtain ⟨m1, m2⟩ := zip_check hd e he
    obtain ⟨⟨d, hd', hle⟩, h2, h3⟩ := htxs e.1 m1
    rw [m2] at hd'
    cases hd'
    exact ⟨hle, h2, h3⟩)
  have hv : verifyTxs p check isSys s n hs = if (asked.map key).isEmpty then some (s, .ok ()) else some (s', .ok ()) := by
    unfold verifyTxs ensureOrder
    rw [checkDup_nodup hn]
    dsimp only
    rw [unknown_eq]
    show (if (asked.map key).isEmpty = true then _ else _) = _
    split
    · rfl
    · rw [show pullTxs p (some n) ((hs.filter fun h => !contains s (key h)).map key) = some txs from htx]
      dsimp only
      rw [if_neg (fun h => h hlen)]
      unfold verifyAll
      rw [hd]
      exact hs'
  obtain ⟨c1, c2⟩ := insertAll_contains g hs'
  have hin : ∀ h ∈ hs, contains s (key h) = true ∨ contains s' (key h) = true := by
    intro h hh
    cases hk : contains s (key h) with
    | true => exact .inl rfl
    | false =>
      have hm : h ∈ asked := List.mem_filter.2 ⟨hh, by rw [hk]; rfl⟩
      obtain ⟨t, ht, e⟩ := List.mem_map.1 (hperm.mem_iff.2 (List.mem_map_of_mem (f := key) hm))
      obtain ⟨d, hz⟩ := mem_zip (mapM_length hd) t ht
      right
      rw [← e]
      exact c2 (t, d) hz
  cases he : (asked.map key).isEmpty with
  | true =>
    rw [he] at hv
    refine ⟨s, hv, fun h hh => ?_⟩
    cases hk : contains s (key h) with
    | true => rfl
    | false =>
      have hm : h ∈ asked := List.mem_filter.2 ⟨hh, by rw [hk]; rfl⟩
      have := List.mem_map_of_mem (f := key) hm
      rw [List.isEmpty_iff.1 he] at this
      cases this
  | false =>
    rw [he] at hv
    exact ⟨s', hv, fun h hh => (hin h hh).elim (c1 _) id⟩

/-- A validator that has one of the three transactions of a proposal takes the other two over. -/
example : ∃ s', verifyTxs demo (fun _ => some 0) (fun _ => some false)
      ((run (init 10 20) [.insert ⟨9, 3, 0, 5, 0⟩ true 0]).getD (init 10 20)) ⟨7, by decide⟩ [unkey 9, unkey 1, unkey 2] =
        some (s', .ok ()) ∧ ∀ h ∈ [unkey 9, unkey 1, unkey 2], contains s' (key h) = true :=
  C137_complete demo_sound (cap := 10) (gap := 20) (by decide) (ops := [.insert ⟨9, 3, 0, 5, 0⟩ true 0]) rfl
    (fun t c d h => by cases List.mem_singleton.1 h; decide) ⟨7, by decide⟩ (by decide +kernel) (by decide) (by decide +kernel)
    (fun h hh t ht => by
      refine ⟨⟨0, rfl, Nat.zero_le _⟩, ?_, rfl⟩
      have : ∀ h ∈ [unkey 9, unkey 1, unkey 2], ((demo.own 7 (key h)).map (·.nonce)).getD 0 < 2 ^ 64 - 1 := by decide +kernel
      have h1 := this h hh
      rw [ht] at h1
      exact h1)

/-- Whatever the outcome, the pool of the validator has nothing new but transactions of the proposal that it lacked, as the
proposer has them. -/
theorem C137_content {p : Peer} (sp : Sound p) {cap gap : Nat} (hc : 0 < cap) {ops : List Op} {s s' : Pool}
    (hrun : run (init cap gap) ops = some s) {check : PoolTx → Option Nat} {isSys : PoolTx → Option Bool} {n : UIntN 64}
    {hs : List H256} (hl : hs.length < 2 ^ 32) {r : Except FetchErr Unit}
    (hv : verifyTxs p check isSys s n hs = some (s', r)) {h : Nat} {x : PoolTx} (hg : getByHash s' h = some x) :
    getByHash s h = some x ∨
      (x.hash ∈ hs.map key ∧ contains s x.hash = false ∧ p.own n.val x.hash = some x ∧ (check x).isSome = true) := by
  have g := good_run hc hrun
  unfold verifyTxs ensureOrder at hv
  split at hv
  · cases hv
    exact .inl hg
  · rename_i hdup
    have hkn := ((checkDup_ok _ _).1 hdup).1
    dsimp only at hv
    rw [unknown_eq] at hv
    split at hv
    · cases hv
      exact .inl hg
    · split at hv
      · cases hv
        exact .inl hg
      · rename_i txs htx
        split at hv
        · cases hv
          exact .inl hg
        · split at hv
          · cases hv
            exact .inl hg
          · rename_i diffs hd
            rcases insertAll_get g hv hg with h1 | ⟨e, he, rfl⟩
            · exact .inl h1
            · right
              obtain ⟨m1, m2⟩ := zip_check hd e he
              have hn : hs.Nodup := by
                have := List.nodup_iff_pairwise_ne.1 hkn
                rw [List.pairwise_map] at this
                exact List.nodup_iff_pairwise_ne.2 (this.imp fun h e => h (by rw [e]))
              obtain ⟨_, s2⟩ := C137_served sp n (asked := hs.filter fun h => !contains s (key h))
                (hn.sublist List.filter_sublist) (Nat.lt_of_le_of_lt (List.length_filter_le _ _) hl)
              obtain ⟨hperm, hmine⟩ := s2 txs htx
              obtain ⟨y, hy, e1⟩ := List.mem_map.1 (hperm.mem_iff.1 (List.mem_map_of_mem (f := (·.hash)) m1))
              obtain ⟨y1, y2⟩ := List.mem_filter.1 hy
              refine ⟨?_, ?_, hmine _ m1, ?_⟩
              · rw [← e1]
                exact List.mem_map_of_mem y1
              · rw [← e1]
                cases hk : contains s (key y) with
                | false => rfl
                | true =>
                  rw [hk] at y2
                  cases y2
              · rw [m2]
                rfl

/-- The same validator ends with the transaction 1 as stored by the proposer. -/
example : (verifyTxs demo (fun _ => some 0) (fun _ => some false)
      ((run (init 10 20) [.insert ⟨9, 3, 0, 5, 0⟩ true 0]).getD (init 10 20)) ⟨7, by decide⟩ [unkey 9, unkey 1, unkey 2]).map
        (fun r => (getByHash r.1 1, getByHash r.1 2, getByHash r.1 9, getByHash r.1 4)) =
      some (some ⟨1, 8, 0, 5, 0⟩, some ⟨2, 7, 0, 5, 0⟩, some ⟨9, 3, 0, 5, 0⟩, none) := by
  decide +kernel

/-- If the proposer lacks one that the validator lacks too, the proposal is refused, and nothing is taken over. -/
theorem C137_missing {p : Peer} (sp : Sound p) {check : PoolTx → Option Nat} {isSys : PoolTx → Option Bool} {s : Pool}
    {n : UIntN 64} {hs : List H256} (hn : hs.Nodup) (hl : hs.length < 2 ^ 32) {h : H256} (hh : h ∈ hs)
    (h1 : contains s (key h) = false) (h2 : p.own n.val (key h) = none) :
    verifyTxs p check isSys s n hs = some (s, .error .pull) := by
  obtain ⟨s1, _⟩ := C137_served sp n (asked := hs.filter fun h => !contains s (key h))
    (hn.sublist List.filter_sublist) (Nat.lt_of_le_of_lt (List.length_filter_le _ _) hl)
  have hm : h ∈ hs.filter fun h => !contains s (key h) := List.mem_filter.2 ⟨hh, by rw [h1]; rfl⟩
  have hnone : pullTxs p (some n) ((hs.filter fun h => !contains s (key h)).map key) = none := by
    cases hp : pullTxs p (some n) ((hs.filter fun h => !contains s (key h)).map key) with
    | none => rfl
    | some r =>
      have := s1.1 ⟨r, hp⟩ h hm
      rw [h2] at this
      cases this
  unfold verifyTxs ensureOrder
  rw [checkDup_nodup hn]
  dsimp only
  rw [unknown_eq]
  split
  · rename_i he
    rw [List.isEmpty_iff] at he
    have := List.mem_map_of_mem (f := key) hm
    rw [he] at this
    cases this
  · rw [hnone]

example : verifyTxs demo (fun _ => some 0) (fun _ => some false) (init 10 20) ⟨7, by decide⟩ [unkey 1, unkey 4] =
    some (init 10 20, .error .pull) :=
  C137_missing demo_sound (by decide) (by decide) (h := unkey 4) (by decide) (by decide +kernel) (by decide +kernel)

/-! ## The proposal of an honest proposer -/

/-- Whatever a proposer packs from its pool, system scripts included, a validator that asks it gets, as long as the proposer
has not committed a block since: the proposal passes on every node on which its transactions pass the checks. -/
theorem C137_proposal {cap gap : Nat} (hc : 0 < cap) {ops : List Op} {s : Pool} (hrun : run (init cap gap) ops = some s)
    (hcons : Consistent ops) {limit : Nat} {st : Sorter} {s' : Pool} {r : Packed} (hp : package s limit st = some (s', r))
    {later : List Op} (hlater : ∀ l n, Op.flush l n ∉ later) {p : Peer} (hq : run s' later = some p.pool) (sp : Sound p)
    {hs : List H256} (hhs : hs.map key = r.hashes) (hl : hs.length < 2 ^ 32)
    {cap' gap' : Nat} (hc' : 0 < cap') {ops' : List Op} {v : Pool} (hrun' : run (init cap' gap') ops' = some v)
    (hops : ∀ t c d, Op.insert t c d ∈ ops' → d ≤ t.nonce ∧ t.nonce < 2 ^ 64 - 1)
    {check : PoolTx → Option Nat} {isSys : PoolTx → Option Bool} (n : UIntN 64)
    (hck : ∀ h ∈ r.hashes, ∀ t, getByHash p.pool h = some t →
      (∃ d, check t = some d ∧ d ≤ t.nonce) ∧ t.nonce < 2 ^ 64 - 1 ∧ (isSys t).isSome = true) :
    ∃ v', verifyTxs p check isSys v n hs = some (v', .ok ()) ∧ ∀ h ∈ r.hashes, contains v' h = true := by
  obtain ⟨hn, hcon⟩ := packed_contained hc hrun hcons hp
  have g' := ((good_run hc hrun).package hp).1
  have hkn : hs.Nodup := by
    rw [← hhs] at hn
    have := List.nodup_iff_pairwise_ne.1 hn
    rw [List.pairwise_map] at this
    exact List.nodup_iff_pairwise_ne.2 (this.imp fun h e => h (by rw [e]))
  have hmem : ∀ h ∈ hs, key h ∈ r.hashes := fun h hh => by
    rw [← hhs]
    exact List.mem_map_of_mem hh
  have hget : ∀ h ∈ hs, ∃ t, getByHash p.pool (key h) = some t := fun h hh =>
    contains_iff.1 (run_keeps g' hlater hq (hcon _ (hmem h hh)))
  obtain ⟨v', hv, hall⟩ := C137_complete sp hc' hrun' hops (check := check) (isSys := isSys) n hkn hl
    (fun h hh => by
      obtain ⟨t, ht⟩ := hget h hh
      refine .inr ?_
      unfold Peer.own
      rw [ht]
      rfl)
    (fun h hh t ht => by
      obtain ⟨t', ht'⟩ := hget h hh
      unfold Peer.own at ht
      rw [ht'] at ht
      cases ht
      exact hck _ (hmem h hh) _ ht')
  refine ⟨v', hv, fun h hh => ?_⟩
  rw [← hhs] at hh
  obtain ⟨x, hx, rfl⟩ := List.mem_map.1 hh
  exact hall x hx

/-- When the proposer has committed the block meanwhile, with all its transactions, it sends them from there. -/
theorem C137_committed {p : Peer} (sp : Sound p) {cap gap : Nat} (hc : 0 < cap) {ops : List Op} {v : Pool}
    (hrun : run (init cap gap) ops = some v)
    (hops : ∀ t c d, Op.insert t c d ∈ ops → d ≤ t.nonce ∧ t.nonce < 2 ^ 64 - 1)
    {check : PoolTx → Option Nat} {isSys : PoolTx → Option Bool} (n : UIntN 64) {hs : List H256} (hn : hs.Nodup)
    (hl : hs.length < 2 ^ 32) (hblock : ∀ h ∈ hs, ∃ t, (key h, t) ∈ p.blocks n.val ∧ getByHash p.pool (key h) = none ∧
      (∃ d, check t = some d ∧ d ≤ t.nonce) ∧ t.nonce < 2 ^ 64 - 1 ∧ (isSys t).isSome = true) :
    ∃ v', verifyTxs p check isSys v n hs = some (v', .ok ()) ∧ ∀ h ∈ hs, contains v' (key h) = true := by
  have hown : ∀ h ∈ hs, ∃ t, p.own n.val (key h) = some t ∧
      (∃ d, check t = some d ∧ d ≤ t.nonce) ∧ t.nonce < 2 ^ 64 - 1 ∧ (isSys t).isSome = true := fun h hh => by
    obtain ⟨t, h1, h2, h3⟩ := hblock h hh
    refine ⟨t, ?_, h3⟩
    unfold Peer.own
    rw [h2, get_of_mem (sp.keys n.val) h1]
    rfl
  refine C137_complete sp hc hrun hops n hn hl (fun h hh => ?_) fun h hh t ht => ?_
  · obtain ⟨t, h1, _⟩ := hown h hh
    rw [h1]
    exact .inr rfl
  · obtain ⟨t', h1, h2⟩ := hown h hh
    rw [h1] at ht
    cases ht
    exact h2

example : ∃ v', verifyTxs demo (fun _ => some 0) (fun _ => some false) (init 10 20) ⟨7, by decide⟩ [unkey 1] = some (v', .ok ()) ∧
    ∀ h ∈ [unkey 1], contains v' (key h) = true :=
  C137_committed demo_sound (cap := 10) (gap := 20) (by decide) (ops := []) rfl (fun _ _ _ h => nomatch h) ⟨7, by decide⟩
    (by decide) (by decide) fun h hh => by
      cases List.mem_singleton.1 hh
      exact ⟨⟨1, 8, 0, 5, 0⟩, by decide +kernel, by decide +kernel, ⟨0, rfl, Nat.zero_le _⟩, by decide, rfl⟩

/-- An ordinary transaction and one for a system script are packed, a third comes later; a node with an empty pool gets both. -/
example : ((run (init 10 20) [.insert ⟨2, 7, 0, 5, 0⟩ true 0, .insertSys ⟨3, 8, 0, 0, 55⟩]).bind fun s =>
    (package s 10 ⟨fun _ l => l, fun _ l => List.Perm.refl l⟩).bind fun q =>
    (run q.1 [.insert ⟨6, 7, 1, 5, 0⟩ true 1, .refresh]).bind fun s' =>
      (verifyTxs ⟨s', fun _ => [], fun _ => none⟩ (fun _ => some 0) (fun t => some (t.data == 55)) (init 10 20) ⟨1, by decide⟩
        (q.2.hashes.map unkey)).map fun v => (q.2.hashes, v.2.toOption.isSome, v.1.sys.contains 3, contains v.1 2)) =
    some ([3, 2], true, true, true) := by
  decide +kernel

/-! ## The block that is searched -/

/-- The proposer looks in the block with the number of the proposal only: a transaction that it committed in another block it
does not send, although it finds it by hash. -/
theorem C137_other_block :
    demo.byHash 1 = some ⟨1, 8, 0, 5, 0⟩ ∧ pullTxs demo none ([unkey 1].map key) = some [⟨1, 8, 0, 5, 0⟩] ∧
    pullTxs demo (some ⟨8, by decide⟩) ([unkey 1].map key) = none ∧
    verifyTxs demo (fun _ => some 0) (fun _ => some false) (init 10 20) ⟨8, by decide⟩ [unkey 1] =
      some (init 10 20, .error .pull) :=
  ⟨by decide +kernel, by decide +kernel, by decide +kernel,
    C137_missing demo_sound (by decide) (by decide) (h := unkey 1) (by decide) (by decide +kernel) (by decide +kernel)⟩

end Axon.Pull
