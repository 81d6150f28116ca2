import Verif.Util.Bytes
import Verif.Util.Outcome

/-!
# Endpoints

Model of core/network/src/endpoint.rs.  Texts are their UTF-8 bytes; the separator is ASCII, so
splitting characters and splitting bytes are the same.
-/

deriving instance DecidableEq for Except

namespace Axon.Endpoint

/-- `'/'`. -/
def slash : UInt8 := 47

/-- The bytes of an ASCII text. -/
def text (s : String) : Bytes := s.toList.map fun c => UInt8.ofNat c.toNat

/-- `str::split('/')`. -/
def splitSlash : Bytes → List Bytes
  | [] => [[]]
  | b :: bs =>
    if b = slash then [] :: splitSlash bs
    else
      match splitSlash bs with
      | [] => [[b]]
      | h :: t => (b :: h) :: t

/-- endpoint.rs:62-65, 112-115: the non-empty components. -/
def comps (u : Bytes) : List Bytes := (splitSlash u).filter fun c => !c.isEmpty

/-- endpoint.rs:12-14. -/
def gossipScheme : Bytes := text "/gossip"
def callScheme : Bytes := text "/rpc_call"
def respScheme : Bytes := text "/rpc_resp"

/-- `str::starts_with`. -/
def startsWith (u p : Bytes) : Bool := p.isPrefixOf u

inductive Scheme where
  | gossip | rpcCall | rpcResponse
deriving DecidableEq, Repr

inductive Err where
  | notEndpoint | unexpectedScheme | notIdString
deriving DecidableEq, Repr

/-- endpoint.rs:37-39: `Endpoint`. -/
structure Endpoint where
  url : Bytes
deriving DecidableEq, Repr

/-- endpoint.rs:95-124: `from_str`; 120 is `MAX_ENDPOINT_LENGTH`. -/
def parse (u : Bytes) : Except Err Endpoint :=
  if u.isEmpty || decide (u.length > 120) then .error .notEndpoint
  else if !startsWith u gossipScheme && !startsWith u callScheme && !startsWith u respScheme then
    .error .unexpectedScheme
  else if (comps u).length < 3 ∨ (comps u).length > 4 then .error .notEndpoint
  else .ok ⟨u⟩

/-- endpoint.rs:46-56: `scheme`; `unreachable!` panics. -/
def Endpoint.scheme (e : Endpoint) : Outcome Scheme :=
  if startsWith e.url gossipScheme then .ok .gossip
  else if startsWith e.url callScheme then .ok .rpcCall
  else if startsWith e.url respScheme then .ok .rpcResponse
  else .panic

/-- endpoint.rs:59-68: `root`; indexing out of bounds panics. -/
def Endpoint.root (e : Endpoint) : Outcome Bytes :=
  match comps e.url with
  | a :: b :: c :: _ => .ok (slash :: a ++ slash :: b ++ slash :: c)
  | _ => .panic

/-- endpoint.rs:74-78: `extend`. -/
def Endpoint.extend (e : Endpoint) (comp : Bytes) : Except Err Endpoint :=
  parse (e.url ++ slash :: comp.dropWhile (· == slash))

/-- Rust's `parse::<u64>`: an optional `+`, then digits. -/
def parseU64 (t : Bytes) : Option Nat :=
  let ds := match t with
    | 43 :: r => if r.isEmpty then t else r
    | _ => t
  if ds.isEmpty || !ds.all (fun d => decide (48 ≤ d.toNat ∧ d.toNat ≤ 57)) then none
  else
    let n := ds.foldl (fun n d => n * 10 + (d.toNat - 48)) 0
    if n < 2 ^ 64 then some n else none

/-- endpoint.rs:152-169: `extract_rpc_id_from`; the text after the last `/`. -/
def rpcId (e : Endpoint) : Except Err Nat :=
  if !e.url.contains slash then .error .notEndpoint
  else
    match (splitSlash e.url).getLast? with
    | none => .error .notEndpoint
    | some [] => .error .notEndpoint
    | some t =>
      match parseU64 t with
      | some n => .ok n
      | none => .error .notIdString

/-- endpoint.rs:182-196: `RpcEndpoint::from_str`. -/
def parseRpc (u : Bytes) : Except Err (Endpoint × Nat) :=
  match parse u with
  | .error e => .error e
  | .ok e =>
    if !startsWith u callScheme && !startsWith u respScheme then .error .unexpectedScheme
    else
      match rpcId e with
      | .ok n => .ok (e, n)
      | .error e => .error e

/-- `u64::to_string`. -/
def dec (n : Nat) : Bytes :=
  if h : n < 10 then [UInt8.ofNat (48 + n)] else dec (n / 10) ++ [UInt8.ofNat (48 + n % 10)]
termination_by n
decreasing_by omega

/-- router.rs:61, 86-102, endpoint.rs:81-93: the reactors by endpoint — that is, by root; a later registration replaces an
earlier one. -/
def register {ρ : Type} (m : List (Bytes × ρ)) (e : Endpoint) (r : ρ) : Outcome (List (Bytes × ρ)) :=
  match e.root with
  | .ok k => .ok ((k, r) :: m.filter fun x => x.1 ≠ k)
  | .err => .err
  | .panic => .panic

/-- router.rs:122-126: the reactor of an endpoint. -/
def reactor {ρ : Type} (m : List (Bytes × ρ)) (e : Endpoint) : Outcome (Option ρ) :=
  match e.root with
  | .ok k => .ok ((m.find? fun x => x.1 = k).map (·.2))
  | .err => .err
  | .panic => .panic

/-- protocol/src/constants/endpoints.rs:1-16: the endpoints of the node. -/
def known : List Bytes :=
  [text "/gossip/mempool/new_txs", text "/rpc_call/mempool/pull_txs", text "/rpc_resp/mempool/pull_txs",
   text "/rpc_resp/mempool/pull_txs_sync", text "/gossip/consensus/signed_proposal",
   text "/gossip/consensus/signed_vote", text "/gossip/consensus/qc", text "/gossip/consensus/signed_choke",
   text "/rpc_call/consensus/sync_pull_block", text "/rpc_resp/consensus/sync_pull_block",
   text "/rpc_call/consensus/sync_pull_txs", text "/rpc_resp/consensus/sync_pull_txs",
   text "/gossip/consensus/broadcast_height", text "/rpc_call/consensus/sync_pull_proof",
   text "/rpc_resp/consensus/sync_pull_proof"]

/-! ## Lemmas -/

theorem splitSlash_ne_nil (u : Bytes) : splitSlash u ≠ [] := by
  cases u with
  | nil => simp [splitSlash]
  | cons b bs =>
    unfold splitSlash
    split
    · simp
    · split <;> simp

theorem splitSlash_append (u c : Bytes) : splitSlash (u ++ slash :: c) = splitSlash u ++ splitSlash c := by
  induction u with
  | nil => simp [splitSlash]
  | cons b bs ih =>
    rw [List.cons_append]
    by_cases hb : b = slash
    · simp [splitSlash, hb, ih]
    · simp only [splitSlash, if_neg hb, ih]
      cases h : splitSlash bs with
      | nil => exact absurd h (splitSlash_ne_nil bs)
      | cons x xs => rfl

theorem splitSlash_word {w : Bytes} (h : slash ∉ w) : splitSlash w = [w] := by
  induction w with
  | nil => rfl
  | cons b bs ih =>
    have h1 : b ≠ slash := fun hh => h (hh ▸ List.mem_cons_self)
    simp only [splitSlash, if_neg h1, ih (fun hh => h (List.mem_cons_of_mem _ hh))]

theorem comps_append (u c : Bytes) : comps (u ++ slash :: c) = comps u ++ comps c := by
  simp [comps, splitSlash_append, List.filter_append]

theorem comps_word {w : Bytes} (h : slash ∉ w) (hw : w ≠ []) : comps w = [w] := by
  simp [comps, splitSlash_word h, hw]

theorem comps_mem {u w : Bytes} (h : w ∈ comps u) : slash ∉ w ∧ w ≠ [] := by
  have hne : w ≠ [] := by simpa using (List.mem_filter.1 h).2
  refine ⟨?_, hne⟩
  have hm := (List.mem_filter.1 h).1
  clear h hne
  induction u generalizing w with
  | nil => simp [splitSlash] at hm; simp [hm]
  | cons b bs ih =>
    by_cases hb : b = slash
    · simp only [splitSlash, if_pos hb, List.mem_cons] at hm
      rcases hm with rfl | hm
      · simp
      · exact ih hm
    · simp only [splitSlash, if_neg hb] at hm
      cases h : splitSlash bs with
      | nil => exact absurd h (splitSlash_ne_nil bs)
      | cons x xs =>
        rw [h] at hm ih
        dsimp only at hm
        rcases List.mem_cons.1 hm with rfl | hm
        · intro hh
          rcases List.mem_cons.1 hh with hh | hh
          · exact hb hh.symm
          · exact ih List.mem_cons_self hh
        · exact ih (List.mem_cons_of_mem _ hm)

theorem dec_spec (n : Nat) : (∀ d ∈ dec n, 48 ≤ d.toNat ∧ d.toNat ≤ 57) ∧ dec n ≠ [] ∧
    (dec n).foldl (fun n d => n * 10 + (d.toNat - 48)) 0 = n := by
  induction n using Nat.strongRecOn with
  | ind n ih =>
    unfold dec
    split
    · next h =>
      have hv : (UInt8.ofNat (48 + n)).toNat = 48 + n := by simp [UInt8.toNat_ofNat']; omega
      refine ⟨?_, by simp, ?_⟩
      · intro d hd
        rw [List.mem_singleton.1 hd, hv]; omega
      · simp only [List.foldl_cons, List.foldl_nil, hv]; omega
    · next h =>
      obtain ⟨h1, h2, h3⟩ := ih (n / 10) (by omega)
      have hv : (UInt8.ofNat (48 + n % 10)).toNat = 48 + n % 10 := by simp [UInt8.toNat_ofNat']; omega
      refine ⟨?_, by simp, ?_⟩
      · intro d hd
        rcases List.mem_append.1 hd with hd | hd
        · exact h1 d hd
        · rw [List.mem_singleton.1 hd, hv]; omega
      · rw [List.foldl_append, h3]
        simp only [List.foldl_cons, List.foldl_nil, hv]
        omega

theorem dec_length (n k : Nat) (hk : 0 < k) (h : n < 10 ^ k) : (dec n).length ≤ k := by
  induction k generalizing n with
  | zero => omega
  | succ k ih =>
    unfold dec
    split
    · simp
    · next h10 =>
      rw [List.length_append]
      have hk' : 0 < k := by
        rcases Nat.eq_zero_or_pos k with hh | hh
        · subst hh; omega
        · exact hh
      have := ih (n / 10) hk' (by rw [Nat.pow_succ] at h; omega)
      simp; omega

theorem dec_noslash (n : Nat) : slash ∉ dec n := by
  intro h
  have := (dec_spec n).1 slash h
  simp [slash] at this

theorem parseU64_dec (n : Nat) (h : n < 2 ^ 64) : parseU64 (dec n) = some n := by
  obtain ⟨h1, h2, h3⟩ := dec_spec n
  unfold parseU64
  have hds : (match dec n with
    | 43 :: r => if r.isEmpty = true then dec n else r
    | _ => dec n) = dec n := by
    split
    · next r heq =>
      have := h1 43 (by rw [heq]; exact List.mem_cons_self)
      simp at this
    · rfl
  simp only [hds]
  have hall : (dec n).all (fun d => decide (48 ≤ d.toNat ∧ d.toNat ≤ 57)) = true := by
    rw [List.all_eq_true]; intro d hd; simpa using h1 d hd
  have hemp : (dec n).isEmpty = false := by simpa using h2
  rw [hall, hemp, h3]
  simp [h]

theorem parse_ok {u : Bytes} {e : Endpoint} (h : parse u = .ok e) :
    e.url = u ∧ u.length ≤ 120 ∧ 3 ≤ (comps u).length ∧ (comps u).length ≤ 4 ∧
      (startsWith u gossipScheme = true ∨ startsWith u callScheme = true ∨ startsWith u respScheme = true) := by
  unfold parse at h
  split at h
  · cases h
  · next h1 =>
    split at h
    · cases h
    · next h2 =>
      split at h
      · cases h
      · next h3 =>
        cases h
        simp only [Bool.or_eq_true, decide_eq_true_eq, not_or] at h1
        refine ⟨rfl, by omega, by omega, by omega, ?_⟩
        cases a : startsWith u gossipScheme <;> cases b : startsWith u callScheme <;>
          cases c : startsWith u respScheme <;> simp_all

theorem parse_of {u : Bytes} (h1 : u ≠ []) (h2 : u.length ≤ 120) (h3 : 3 ≤ (comps u).length)
    (h4 : (comps u).length ≤ 4)
    (h5 : startsWith u gossipScheme = true ∨ startsWith u callScheme = true ∨ startsWith u respScheme = true) :
    parse u = .ok ⟨u⟩ := by
  unfold parse
  rw [if_neg (by simp [h1]; omega), if_neg, if_neg (by omega)]
  rcases h5 with h | h | h <;> simp [h]

theorem startsWith_append {u p : Bytes} (h : startsWith u p = true) (c : Bytes) : startsWith (u ++ c) p = true := by
  unfold startsWith at *
  rw [List.isPrefixOf_iff_prefix] at *
  exact h.trans (List.prefix_append u c)

/-- A slash-free text is a prefix of a component followed by anything exactly if it is a prefix of the
component. -/
theorem prefix_word {q c r : Bytes} (hq : slash ∉ q) (hr : r = [] ∨ ∃ t, r = slash :: t) :
    q <+: c ++ r ↔ q <+: c := by
  constructor
  · intro h
    induction q generalizing c with
    | nil => simp
    | cons x xs ih =>
      cases c with
      | nil =>
        exfalso
        rcases hr with rfl | ⟨t, rfl⟩
        · simp at h
        · rw [List.nil_append, List.cons_prefix_cons] at h
          exact hq (h.1 ▸ List.mem_cons_self)
      | cons y ys =>
        rw [List.cons_append, List.cons_prefix_cons] at h
        rw [List.cons_prefix_cons]
        exact ⟨h.1, ih (fun hh => hq (List.mem_cons_of_mem _ hh)) h.2⟩
  · exact fun h => h.trans (List.prefix_append _ _)

/-- A text is its first piece, followed by nothing or by a slash. -/
theorem splitSlash_head (x : Bytes) : ∃ c r, splitSlash x = c :: (splitSlash x).tail ∧ x = c ++ r ∧
    (r = [] ∨ ∃ t, r = slash :: t) := by
  induction x with
  | nil => exact ⟨[], [], rfl, rfl, .inl rfl⟩
  | cons b bs ih =>
    by_cases hb : b = slash
    · exact ⟨[], b :: bs, by simp [splitSlash, hb], rfl, .inr ⟨bs, by rw [hb]⟩⟩
    · obtain ⟨c, r, h1, h2, h3⟩ := ih
      refine ⟨b :: c, r, ?_, by rw [h2]; rfl, h3⟩
      simp only [splitSlash, if_neg hb]
      rw [h1]
      rfl

/-- Whether a text starts with a slash and a name is decided by its first component. -/
theorem startsWith_first {u p q : Bytes} (hp : slash ∉ p) (hpn : p ≠ []) (hq : slash ∉ q)
    (h : startsWith u (slash :: p) = true) :
    ∃ a t, comps u = a :: t ∧ (startsWith u (slash :: q) = true ↔ q <+: a) := by
  unfold startsWith at h
  rw [List.isPrefixOf_iff_prefix] at h
  obtain ⟨y, rfl⟩ := h
  obtain ⟨c, r, h1, h2, h3⟩ := splitSlash_head (p ++ y)
  have hpc : p <+: c := (prefix_word hp h3).1 (h2 ▸ List.prefix_append p y)
  have hc : c ≠ [] := by
    rintro rfl
    exact hpn (by simpa using hpc)
  refine ⟨c, ((splitSlash (p ++ y)).tail).filter (fun c => !c.isEmpty), ?_, ?_⟩
  · unfold comps
    rw [List.cons_append, show splitSlash (slash :: (p ++ y)) = [] :: splitSlash (p ++ y) by simp [splitSlash]]
    rw [h1]
    simp [hc]
  · unfold startsWith
    rw [List.isPrefixOf_iff_prefix, List.cons_append, List.cons_prefix_cons, h2]
    simp only [true_and]
    exact prefix_word hq h3

theorem bool_eq_of_iff {a b : Bool} {p : Prop} (h1 : a = true ↔ p) (h2 : b = true ↔ p) : a = b := by
  cases a <;> cases b <;> simp_all

/-- Two parsed texts with the same first component start with the same schemes. -/
theorem schemes_agree {u v : Bytes} {e f : Endpoint} (he : parse u = .ok e) (hf : parse v = .ok f)
    (h : (comps u).head? = (comps v).head?) {q : Bytes} (hq : slash ∉ q) :
    startsWith u (slash :: q) = startsWith v (slash :: q) := by
  have key : ∀ {w : Bytes} {g : Endpoint}, parse w = .ok g →
      ∃ a t, comps w = a :: t ∧ (startsWith w (slash :: q) = true ↔ q <+: a) := by
    intro w g hg
    rcases (parse_ok hg).2.2.2.2 with hh | hh | hh
    · exact startsWith_first (p := text "gossip") (by decide) (by decide) hq hh
    · exact startsWith_first (p := text "rpc_call") (by decide) (by decide) hq hh
    · exact startsWith_first (p := text "rpc_resp") (by decide) (by decide) hq hh
  obtain ⟨a, t, h1, h2⟩ := key he
  obtain ⟨b, s, h3, h4⟩ := key hf
  rw [h1, h3] at h
  simp only [List.head?_cons, Option.some.injEq] at h
  subst h
  exact bool_eq_of_iff h2 h4

theorem root_ok {u : Bytes} {e : Endpoint} (h : parse u = .ok e) :
    ∃ a b c t, comps u = a :: b :: c :: t ∧ e.root = .ok (slash :: a ++ slash :: b ++ slash :: c) := by
  obtain ⟨h1, -, h2, -, -⟩ := parse_ok h
  match hc : comps u, h2 with
  | a :: b :: c :: t, _ =>
    refine ⟨a, b, c, t, rfl, ?_⟩
    unfold Endpoint.root
    rw [h1, hc]

theorem comps_root {a b c : Bytes} (ha : slash ∉ a ∧ a ≠ []) (hb : slash ∉ b ∧ b ≠ []) (hc : slash ∉ c ∧ c ≠ []) :
    comps (slash :: a ++ slash :: b ++ slash :: c) = [a, b, c] := by
  have h0 : slash :: a ++ slash :: b ++ slash :: c = [] ++ slash :: (a ++ slash :: (b ++ slash :: c)) := by simp
  rw [h0, comps_append, comps_append, comps_append, comps_word ha.1 ha.2, comps_word hb.1 hb.2,
    comps_word hc.1 hc.2]
  rfl

/-- Equal roots: equal first three components. -/
theorem root_inj {u v : Bytes} {e f : Endpoint} (he : parse u = .ok e) (hf : parse v = .ok f) :
    e.root = f.root ↔ (comps u).take 3 = (comps v).take 3 := by
  obtain ⟨a, b, c, t, h1, h2⟩ := root_ok he
  obtain ⟨a', b', c', t', h1', h2'⟩ := root_ok hf
  rw [h2, h2', h1, h1']
  simp only [List.take_succ_cons, List.take_zero]
  have m : ∀ x ∈ comps u, slash ∉ x ∧ x ≠ [] := fun x hx => comps_mem hx
  have m' : ∀ x ∈ comps v, slash ∉ x ∧ x ≠ [] := fun x hx => comps_mem hx
  rw [h1] at m
  rw [h1'] at m'
  constructor
  · intro h
    have h := congrArg comps (Outcome.ok.inj h)
    rwa [comps_root (m a (by simp)) (m b (by simp)) (m c (by simp)),
      comps_root (m' a' (by simp)) (m' b' (by simp)) (m' c' (by simp))] at h
  · intro h
    injection h with ha h
    injection h with hb h
    injection h with hc h
    rw [ha, hb, hc]

end Axon.Endpoint
