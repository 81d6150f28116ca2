import Verif.Network.Endpoint

/-!
# C89 — a message reaches the handler its endpoint was registered for, with the call number of its sender
-/

namespace Axon.Endpoint

/-! ## Specification -/

/-- `ws` are the words of the path `u`, the maximal slash-free pieces. -/
inductive Words : Bytes → List Bytes → Prop where
  | nil : Words [] []
  | slash {u ws} : Words u ws → Words (47 :: u) ws
  | word {w rest ws} : w ≠ [] → 47 ∉ w → (rest = [] ∨ ∃ t, rest = 47 :: t) → Words rest ws →
      Words (w ++ rest) (w :: ws)

/-- A path has exactly one list of words, the one the code computes. -/
theorem words_iff (u : Bytes) (ws : List Bytes) : Words u ws ↔ ws = comps u := by
  constructor
  · intro h
    induction h with
    | nil => rfl
    | slash _ ih => rw [ih]; exact (comps_append [] _).symm
    | @word w rest ws hw hs hr _ ih =>
      rcases hr with rfl | ⟨t, rfl⟩
      · rw [List.append_nil, comps_word hs hw, ih]; rfl
      · rw [show (47 : UInt8) = Axon.Endpoint.slash from rfl, comps_append, comps_word hs hw, ih]
        rw [show (47 : UInt8) = Axon.Endpoint.slash from rfl]
        rw [show Axon.Endpoint.slash :: t = [] ++ Axon.Endpoint.slash :: t from rfl, comps_append]
        rfl
  · rintro rfl
    suffices h : ∀ n (u : Bytes), u.length = n → Words u (comps u) from h _ u rfl
    intro n
    induction n using Nat.strongRecOn with
    | ind n ih =>
      intro u hu
      cases u with
      | nil => exact .nil
      | cons b bs =>
        by_cases hb : b = Axon.Endpoint.slash
        · subst hb
          have := ih bs.length (by simp at hu; omega) bs rfl
          rw [show Axon.Endpoint.slash :: bs = [] ++ Axon.Endpoint.slash :: bs from rfl, comps_append]
          exact .slash this
        · obtain ⟨c, r, h1, h2, h3⟩ := splitSlash_head (b :: bs)
          have hc : c ≠ [] := by
            rintro rfl
            rcases h3 with rfl | ⟨t, rfl⟩
            · simp at h2
            · exact hb (List.cons.inj h2).1
          have hcs : Axon.Endpoint.slash ∉ c := by
            refine (comps_mem (u := b :: bs) ?_).1
            refine List.mem_filter.2 ⟨?_, by simpa using hc⟩
            rw [h1]; exact List.mem_cons_self
          have hcomp : comps (b :: bs) = c :: comps r := by
            rw [h2]
            rcases h3 with rfl | ⟨t, rfl⟩
            · rw [List.append_nil, comps_word hcs hc]; rfl
            · rw [comps_append, comps_word hcs hc,
                show comps (Axon.Endpoint.slash :: t) = comps t from comps_append [] t]; rfl
          rw [hcomp, h2]
          refine .word hc hcs h3 (ih r.length ?_ r rfl)
          have := congrArg List.length h2
          have hl : 0 < c.length := List.length_pos_iff.2 hc
          rw [List.length_append] at this
          omega

/-! ## Theorems -/

/-- A text is accepted as an endpoint exactly if it has at most 120 bytes, three or four words, and starts
with one of the three scheme prefixes. -/
theorem C89_parse (u : Bytes) (ws : List Bytes) (h : Words u ws) :
    (∃ e, parse u = .ok e) ↔
      u.length ≤ 120 ∧ (ws.length = 3 ∨ ws.length = 4) ∧
      (text "/gossip" <+: u ∨ text "/rpc_call" <+: u ∨ text "/rpc_resp" <+: u) := by
  have hw := (words_iff u ws).1 h
  subst hw
  constructor
  · rintro ⟨e, he⟩
    obtain ⟨-, h1, h2, h3, h4⟩ := parse_ok he
    simp only [startsWith, List.isPrefixOf_iff_prefix] at h4
    exact ⟨h1, by omega, h4⟩
  · rintro ⟨h1, h2, h3⟩
    refine ⟨⟨u⟩, parse_of ?_ h1 (by omega) (by omega) ?_⟩
    · rintro rfl; simp [comps, splitSlash] at h2
    · simp only [startsWith, List.isPrefixOf_iff_prefix]
      exact h3

/-- The endpoint keeps the text. -/
theorem C89_url {u : Bytes} {e : Endpoint} (h : parse u = .ok e) : e.url = u := (parse_ok h).1

/-- Neither the scheme nor the root of an accepted endpoint aborts the node. -/
theorem C89_no_abort {u : Bytes} {e : Endpoint} (h : parse u = .ok e) :
    (∃ s, e.scheme = .ok s) ∧ ∃ r, e.root = .ok r := by
  constructor
  · obtain ⟨h1, -, -, -, h2⟩ := parse_ok h
    unfold Endpoint.scheme
    rw [h1]
    rcases h2 with hh | hh | hh
    · exact ⟨_, if_pos hh⟩
    · rw [hh]; split
      · exact ⟨_, rfl⟩
      · exact ⟨_, if_pos rfl⟩
    · rw [hh]; split
      · exact ⟨_, rfl⟩
      · split
        · exact ⟨_, rfl⟩
        · exact ⟨_, if_pos rfl⟩
  · obtain ⟨a, b, c, t, -, h2⟩ := root_ok h
    exact ⟨_, h2⟩

/-- Two endpoints are the same to the router exactly if their first three words are the same; and then the
router treats their messages under the same scheme. -/
theorem C89_same {u v : Bytes} {ws vs : List Bytes} {e f : Endpoint} (hu : Words u ws) (hv : Words v vs)
    (he : parse u = .ok e) (hf : parse v = .ok f) :
    (e.root = f.root ↔ ws.take 3 = vs.take 3) ∧ (e.root = f.root → e.scheme = f.scheme) := by
  have hw := (words_iff u ws).1 hu
  have hw' := (words_iff v vs).1 hv
  subst hw hw'
  refine ⟨root_inj he hf, fun h => ?_⟩
  have h3 := (root_inj he hf).1 h
  have hh : (comps u).head? = (comps v).head? := by
    obtain ⟨a, b, c, t, h1, -⟩ := root_ok he
    obtain ⟨a', b', c', t', h1', -⟩ := root_ok hf
    rw [h1, h1'] at h3 ⊢
    simp at h3 ⊢
    exact h3.1
  unfold Endpoint.scheme
  rw [(parse_ok he).1, (parse_ok hf).1]
  have a1 : startsWith u gossipScheme = startsWith v gossipScheme :=
    schemes_agree he hf hh (q := text "gossip") (by decide)
  have a2 : startsWith u callScheme = startsWith v callScheme :=
    schemes_agree he hf hh (q := text "rpc_call") (by decide)
  have a3 : startsWith u respScheme = startsWith v respScheme :=
    schemes_agree he hf hh (q := text "rpc_resp") (by decide)
  rw [a1, a2, a3]

/-- A call on an endpoint of three words and at most 99 bytes, under any call number: the text sent is
accepted by the receiver as an endpoint with the same root and the same call number. -/
theorem C89_call {u : Bytes} {ws : List Bytes} {e : Endpoint} (hu : Words u ws) (he : parse u = .ok e)
    (h3 : ws.length = 3) (hl : u.length ≤ 99) (n : Nat) (hn : n < 2 ^ 64) :
    ∃ f, e.extend (dec n) = .ok f ∧ parse f.url = .ok f ∧ f.root = e.root ∧ f.scheme = e.scheme ∧
      rpcId f = .ok n := by
  have hw := (words_iff u ws).1 hu
  subst hw
  obtain ⟨h1, -, -, -, h5⟩ := parse_ok he
  obtain ⟨d1, d2, -⟩ := dec_spec n
  have hdrop : (dec n).dropWhile (· == Axon.Endpoint.slash) = dec n := by
    cases hd : dec n with
    | nil => rfl
    | cons x xs =>
      rw [List.dropWhile_cons, if_neg]
      intro hx
      exact dec_noslash n (by rw [hd, ← (beq_iff_eq.1 hx)]; exact List.mem_cons_self)
  have hlen : (dec n).length ≤ 20 := dec_length n 20 (by omega) (by omega)
  have hc : comps (u ++ Axon.Endpoint.slash :: dec n) = comps u ++ [dec n] := by
    rw [comps_append, comps_word (dec_noslash n) d2]
  have hp : parse (u ++ Axon.Endpoint.slash :: dec n) = .ok ⟨u ++ Axon.Endpoint.slash :: dec n⟩ := by
    refine parse_of (by simp) (by simp; omega) (by rw [hc]; simp; omega) (by rw [hc]; simp; omega) ?_
    rcases h5 with hh | hh | hh
    · exact .inl (startsWith_append hh _)
    · exact .inr (.inl (startsWith_append hh _))
    · exact .inr (.inr (startsWith_append hh _))
  have hext : e.extend (dec n) = .ok ⟨u ++ Axon.Endpoint.slash :: dec n⟩ := by
    unfold Endpoint.extend; rw [h1, hdrop, hp]
  have hroot : (⟨u ++ Axon.Endpoint.slash :: dec n⟩ : Endpoint).root = e.root :=
    (root_inj hp he).2 (by rw [hc, List.take_append, h3]; simp [h3])
  refine ⟨_, hext, hp, hroot,
    (C89_same ((words_iff _ _).2 rfl) ((words_iff _ _).2 rfl) hp he).2 hroot, ?_⟩
  unfold rpcId
  rw [if_neg (by simp [Axon.Endpoint.slash])]
  simp only [splitSlash_append, splitSlash_word (dec_noslash n)]
  rw [List.getLast?_append]
  simp only [List.getLast?_singleton, Option.some_or]
  cases hd : dec n with
  | nil => exact absurd hd d2
  | cons x xs => rw [← hd, parseU64_dec n hn]

/-- An endpoint that already has four words cannot be called. -/
theorem C89_four {u : Bytes} {ws : List Bytes} {e : Endpoint} (hu : Words u ws) (he : parse u = .ok e)
    (h4 : ws.length = 4) (n : Nat) : ∀ f, e.extend (dec n) ≠ .ok f := by
  have hw := (words_iff u ws).1 hu
  subst hw
  intro f hf
  obtain ⟨h1, -⟩ := parse_ok he
  unfold Endpoint.extend at hf
  obtain ⟨-, -, -, h, -⟩ := parse_ok hf
  obtain ⟨-, d2, -⟩ := dec_spec n
  have hdrop : (dec n).dropWhile (· == Axon.Endpoint.slash) = dec n := by
    cases hd : dec n with
    | nil => rfl
    | cons x xs =>
      rw [List.dropWhile_cons, if_neg]
      intro hx
      exact dec_noslash n (by rw [hd, ← (beq_iff_eq.1 hx)]; exact List.mem_cons_self)
  rw [h1, hdrop, comps_append, comps_word (dec_noslash n) d2] at h
  simp at h
  omega

/-- Registering a handler: it receives exactly the messages of the endpoints with its root, and every other
endpoint keeps its handler. -/
theorem C89_register {ρ : Type} (m : List (Bytes × ρ)) {u : Bytes} {e : Endpoint} (he : parse u = .ok e)
    (r : ρ) : ∃ m', register m e r = .ok m' ∧
      ∀ {v : Bytes} {f : Endpoint}, parse v = .ok f →
        (f.root = e.root → reactor m' f = .ok (some r)) ∧ (f.root ≠ e.root → reactor m' f = reactor m f) := by
  obtain ⟨-, k, hk⟩ := C89_no_abort he
  refine ⟨(k, r) :: m.filter (fun x => x.1 ≠ k), by unfold register; rw [hk], ?_⟩
  intro v f hf
  obtain ⟨-, k', hk'⟩ := C89_no_abort hf
  unfold reactor
  rw [hk', hk]
  refine ⟨fun h => ?_, fun h => ?_⟩
  · cases h; simp
  · have hne : k ≠ k' := fun hh => h (by rw [hh])
    simp only [List.find?_cons, hne, decide_false]
    congr 2
    induction m with
    | nil => rfl
    | cons x xs ih =>
      by_cases hx : x.1 = k
      · rw [List.filter_cons_of_neg (by simpa using hx), ih, List.find?_cons_of_neg]
        simp [hx, hne]
      · rw [List.filter_cons_of_pos (by simpa using hx)]
        by_cases hx' : x.1 = k'
        · simp [hx']
        · simp only [List.find?_cons, hx', decide_false, ih]

/-- The endpoints of the node: all of them are accepted, each is its own root, so no two of them share a
handler, and all are short enough for every call number. -/
theorem C89_known : ∀ u ∈ known, ∃ e, parse u = .ok e ∧ e.root = .ok u ∧ (comps u).length = 3 ∧ u.length ≤ 99 := by
  have h : ∀ u ∈ known, parse u = .ok ⟨u⟩ ∧ (⟨u⟩ : Endpoint).root = .ok u ∧ (comps u).length = 3 ∧ u.length ≤ 99 := by
    decide +kernel
  exact fun u hu => ⟨⟨u⟩, h u hu⟩

theorem C89_known_distinct : known.Nodup := by decide +kernel

/-- End to end: with a handler registered for every endpoint of the node, a call number appended by the
sender reaches the handler of that endpoint, which reads the same call number. -/
theorem C89_delivered {ρ : Type} (m : List (Bytes × ρ)) {u : Bytes} (hu : u ∈ known) (r : ρ)
    {e : Endpoint} (he : parse u = .ok e) {m' : List (Bytes × ρ)} (hm : register m e r = .ok m')
    (n : Nat) (hn : n < 2 ^ 64) :
    ∃ f g, e.extend (dec n) = .ok f ∧ parse f.url = .ok g ∧ reactor m' g = .ok (some r) ∧ rpcId g = .ok n := by
  obtain ⟨e', h1, h2, h3, h4⟩ := C89_known u hu
  obtain ⟨f, f1, f2, f3, -, f5⟩ := C89_call ((words_iff _ _).2 rfl) he h3 h4 n hn
  obtain ⟨m'', hm'', hr⟩ := C89_register m he r
  rw [hm] at hm''
  cases hm''
  exact ⟨f, f, f1, f2, (hr f2).1 f3, f5⟩

/-- The scheme is only compared as a prefix: a text whose first word is not a scheme is accepted. -/
theorem C89_scheme_false : ∃ u e, Words u [text "gossiped", text "a", text "b"] ∧ parse u = .ok e ∧
    e.scheme = .ok .gossip := by
  refine ⟨text "/gossiped/a/b", ⟨text "/gossiped/a/b"⟩, (words_iff _ _).2 ?_, ?_, ?_⟩ <;> decide +kernel

/-- The call number is read loosely: two different texts name the same call. -/
theorem C89_id_false : ∃ u v e f, u ≠ v ∧ parse u = .ok e ∧ parse v = .ok f ∧ rpcId e = .ok 7 ∧ rpcId f = .ok 7 := by
  refine ⟨text "/rpc_resp/a/b/7", text "/rpc_resp/a/b/+007", ⟨_⟩, ⟨_⟩, ?_, rfl, rfl, ?_, ?_⟩ <;> decide +kernel

/-- C89: the kind of an accepted endpoint is read off its beginning. -/
theorem C89_kind {u : Bytes} {e : Endpoint} (h : parse u = .ok e) :
    (e.scheme = .ok .gossip ↔ text "/gossip" <+: u) ∧
    (e.scheme = .ok .rpcCall ↔ text "/rpc_call" <+: u) ∧
    (e.scheme = .ok .rpcResponse ↔ text "/rpc_resp" <+: u) := by
  obtain ⟨h1, -, -, -, h2⟩ := parse_ok h
  have hx : ∀ {p q : Bytes}, p.length ≤ q.length → ¬ p <+: q → ∀ {w : Bytes}, p <+: w → q <+: w → False := by
    intro p q hl hn w hp hq
    exact hn (List.prefix_of_prefix_length_le hp hq hl)
  have n1 : text "/gossip" <+: u → text "/rpc_call" <+: u → False :=
    fun a b => hx (by decide) (by decide) a b
  have n2 : text "/gossip" <+: u → text "/rpc_resp" <+: u → False :=
    fun a b => hx (by decide) (by decide) a b
  have n3 : text "/rpc_call" <+: u → text "/rpc_resp" <+: u → False :=
    fun a b => hx (by decide) (by decide) a b
  simp only [startsWith, List.isPrefixOf_iff_prefix] at h2
  unfold Endpoint.scheme
  simp only [startsWith, List.isPrefixOf_iff_prefix, h1]
  by_cases a : text "/gossip" <+: u
  · rw [if_pos (show gossipScheme <+: u from a)]
    exact ⟨by simp [a], by simp; exact n1 a, by simp; exact n2 a⟩
  · rw [if_neg (show ¬ gossipScheme <+: u from a)]
    by_cases b : text "/rpc_call" <+: u
    · rw [if_pos (show callScheme <+: u from b)]
      exact ⟨by simp [a], by simp [b], by simp; exact n3 b⟩
    · rw [if_neg (show ¬ callScheme <+: u from b)]
      by_cases c : text "/rpc_resp" <+: u
      · rw [if_pos (show respScheme <+: u from c)]
        exact ⟨by simp [a], by simp [b], by simp [c]⟩
      · exact absurd h2 (fun x => x.elim a fun x => x.elim b c)

/-- C89: an endpoint of a call or of a response is read together with its number, and of no other kind. -/
theorem C89_rpc {u : Bytes} {e : Endpoint} (h : parse u = .ok e) (f : Endpoint) (n : Nat) :
    parseRpc u = .ok (f, n) ↔ f = e ∧ (text "/rpc_call" <+: u ∨ text "/rpc_resp" <+: u) ∧ rpcId e = .ok n := by
  unfold parseRpc
  rw [h]
  dsimp only
  have hc : (!startsWith u callScheme && !startsWith u respScheme) = true ↔
      ¬ (text "/rpc_call" <+: u ∨ text "/rpc_resp" <+: u) := by
    simp only [startsWith, Bool.and_eq_true, Bool.not_eq_true', Bool.eq_false_iff, ne_eq, List.isPrefixOf_iff_prefix,
      callScheme, respScheme, not_or]
  by_cases hp : text "/rpc_call" <+: u ∨ text "/rpc_resp" <+: u
  · rw [if_neg (fun x => hc.1 x hp)]
    cases hi : rpcId e with
    | error x => simp
    | ok k =>
      constructor
      · intro x; cases x; exact ⟨rfl, hp, rfl⟩
      · rintro ⟨rfl, _, x⟩; cases x; rfl
  · rw [if_pos (hc.2 hp)]
    constructor
    · intro x; cases x
    · rintro ⟨_, x, _⟩; exact absurd x hp

/-! ## Concrete cases -/

example : parseRpc (text "/rpc_resp/a/b/3") = .ok (⟨text "/rpc_resp/a/b/3"⟩, 3) := by decide +kernel

example : parse (text "/rpc_call/mempool/pull_txs") = .ok ⟨text "/rpc_call/mempool/pull_txs"⟩ := by decide +kernel
example : parse (text "//gossip/a/b") = .error .unexpectedScheme := by decide +kernel
example : parse (text "/gossip/a") = .error .notEndpoint := by decide +kernel
example : dec 18446744073709551615 = text "18446744073709551615" := by
  simp [dec, text]
example : rpcId ⟨text "/rpc_call/mempool/pull_txs/12"⟩ = .ok 12 := by decide +kernel
example : rpcId ⟨text "/rpc_call/mempool/pull_txs"⟩ = .error .notIdString := by decide +kernel
example : rpcId ⟨text "/rpc_call/mempool/pull_txs/"⟩ = .error .notEndpoint := by decide +kernel
example : parseRpc (text "/gossip/a/b/3") = .error .unexpectedScheme := by decide +kernel
example : (register [] ⟨text "/gossip/mempool/new_txs"⟩ 'a') = .ok [(text "/gossip/mempool/new_txs", 'a')] := by
  decide +kernel

end Axon.Endpoint
