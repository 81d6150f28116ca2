import Verif.Consensus.Crypto

/-!
# C108: the signatures that Overlord accepts
-/

namespace Axon.Bls

open Axon Axon.Block

/-! ## Specification -/

/-- The vote on `h` is signed by the holder of this member's key. -/
def Signed (S : Scheme) (vs : List Member) (voter : Bytes) (h : H256) (s : S.Sig) : Prop :=
  ∃ b k, (voter, b) ∈ vs ∧ S.parseKey b = some k ∧ S.verify s h k = true

/-- Member lists with one entry for each public key. -/
def Distinct (vs : List Member) : Prop := (vs.map (·.1)).Nodup

/-- Validators change only after the last block of an epoch. -/
def Epochal (E : Epochs) : Prop := ∀ n, E.last n = false → E.members (n + 1) = E.members n

/-- The keys in use are those of the validators for the next block. -/
def Current (S : Scheme) (E : Epochs) (n : Node S) : Prop :=
  ∀ t, n.table = some t → tableOf S (E.members (n.saved + 1)) = some t

/-- The BLS keys of all validators parse. -/
def Usable (S : Scheme) (E : Epochs) : Prop := ∀ n, tableOf S (E.members n) ≠ none

/-- No start at the end of an epoch, and no such block taken from peers. -/
def Quiet (S : Scheme) (E : Epochs) (ops : List Op) : Prop :=
  ∀ pre op post, ops = pre ++ op :: post →
    (op = .start → E.last (run S E pre).saved = false) ∧
    (op = .sync → E.last ((run S E pre).saved + 1) = false)

/-! ## Single and aggregated signatures -/

theorem lookup_mem {α : Type} {l : List (Bytes × α)} {a : Bytes} {k : α} (h : l.lookup a = some k) :
    (a, k) ∈ l := by
  induction l with
  | nil => cases h
  | cons x l ih =>
    obtain ⟨b, y⟩ := x
    rw [List.lookup_cons] at h
    split at h
    next hb =>
      injection h with h
      have : a = b := by simpa using hb
      subst this
      subst h
      exact List.mem_cons_self
    · exact List.mem_cons_of_mem _ (ih h)

theorem lookup_of_mem {α : Type} {l : List (Bytes × α)} {a : Bytes} {k : α}
    (hn : (l.map (·.1)).Nodup) (h : (a, k) ∈ l) : l.lookup a = some k := by
  induction l with
  | nil => cases h
  | cons x l ih =>
    obtain ⟨b, y⟩ := x
    rw [List.map_cons, List.nodup_cons] at hn
    rw [List.lookup_cons]
    rcases List.mem_cons.1 h with e | h
    · cases e; simp
    · have : a ≠ b := fun e => hn.1 (e ▸ List.mem_map_of_mem (f := (·.1)) h)
      rw [show (a == b) = false by simpa using this]
      exact ih hn.2 h

/-- What the table made of a member list contains. -/
theorem tableOf_mem (S : Scheme) {vs : List Member} {t : Table S} (h : tableOf S vs = some t)
    (a : Bytes) (k : S.Key) : (a, k) ∈ t ↔ ∃ b, (a, b) ∈ vs ∧ S.parseKey b = some k := by
  induction vs using snoc_induction generalizing t with
  | nil => cases h; simp
  | snoc vs v ih =>
    rw [tableOf_snoc] at h
    cases ht : tableOf S vs with
    | none => rw [ht] at h; cases h
    | some t0 =>
      rw [ht] at h
      cases hk : S.parseKey v.2 with
      | none => simp [hk] at h
      | some kv =>
        simp [hk] at h
        subst h
        rw [List.mem_cons, ih ht]
        constructor
        · rintro (e | ⟨b, hb, e⟩)
          · cases e; exact ⟨v.2, by simp, hk⟩
          · exact ⟨b, List.mem_append_left _ hb, e⟩
        · rintro ⟨b, hb, e⟩
          rcases List.mem_append.1 hb with hb | hb
          · exact .inr ⟨b, hb, e⟩
          · rw [List.mem_singleton] at hb
            subst hb
            rw [hk] at e
            cases e
            exact .inl rfl

theorem tableOf_keys (S : Scheme) {vs : List Member} {t : Table S} (h : tableOf S vs = some t) :
    t.map (·.1) = (vs.map (·.1)).reverse := by
  induction vs using snoc_induction generalizing t with
  | nil => cases h; rfl
  | snoc vs v ih =>
    rw [tableOf_snoc] at h
    cases ht : tableOf S vs with
    | none => rw [ht] at h; cases h
    | some t0 =>
      rw [ht] at h
      cases hk : S.parseKey v.2 with
      | none => simp [hk] at h
      | some kv =>
        simp [hk] at h
        subst h
        simp [ih ht]

/-- **C108, single votes.**  With the table of a member list, a vote is accepted exactly when it is
signed with the key of the member it names. -/
theorem C108_vote_iff (S : Scheme) {vs : List Member} {t : Table S} (ht : tableOf S vs = some t)
    (hd : Distinct vs) (sig h voter : Bytes) :
    verifySignature S t sig h voter = .ok () ↔
      ∃ m s, hashValue h = some m ∧ S.parseSig sig = some s ∧ Signed S vs voter m s := by
  have hn : (t.map (·.1)).Nodup := by
    rw [tableOf_keys S ht]
    exact (List.reverse_perm _).nodup_iff.2 hd
  unfold verifySignature Signed
  cases hashValue h with
  | none => simp
  | some m =>
    dsimp only
    cases hg : t.get voter with
    | none =>
      simp only [reduceCtorEq, false_iff]
      rintro ⟨m', s, hm, hs, b, k, hb, hk, hv⟩
      have := lookup_of_mem hn ((tableOf_mem S ht voter k).2 ⟨b, hb, hk⟩)
      unfold Table.get at hg
      rw [hg] at this
      cases this
    | some k =>
      dsimp only
      cases S.parseSig sig with
      | none => simp
      | some s =>
        dsimp only
        constructor
        · intro hv
          split at hv
          next hver =>
            obtain ⟨b, hb, hk⟩ := (tableOf_mem S ht voter k).1 (lookup_mem hg)
            exact ⟨m, s, rfl, rfl, b, k, hb, hk, hver⟩
          · cases hv
        · rintro ⟨m', s', hm, hs, b, k', hb, hk, hv⟩
          cases hm
          cases hs
          have := lookup_of_mem hn ((tableOf_mem S ht voter k').2 ⟨b, hb, hk⟩)
          unfold Table.get at hg
          rw [hg] at this
          cases this
          rw [if_pos hv]

theorem vote_parts (S : Scheme) {t : Table S} {sig h voter : Bytes}
    (hv : verifySignature S t sig h voter = .ok ()) :
    ∃ m k s, hashValue h = some m ∧ t.get voter = some k ∧ S.parseSig sig = some s ∧
      S.verify s m k = true := by
  unfold verifySignature at hv
  cases hm : hashValue h with
  | none => rw [hm] at hv; cases hv
  | some m =>
    rw [hm] at hv
    dsimp only at hv
    cases hk : t.get voter with
    | none => rw [hk] at hv; cases hv
    | some k =>
      rw [hk] at hv
      dsimp only at hv
      cases hs : S.parseSig sig with
      | none => rw [hs] at hv; cases hv
      | some s =>
        rw [hs] at hv
        dsimp only at hv
        split at hv
        next h => exact ⟨m, k, s, rfl, rfl, rfl, h⟩
        · cases hv

/-- A node's own votes are accepted by every node whose table has its key. -/
theorem C108_own {S : Scheme} (hS : Laws S) {t : Table S} {x : S.Secret} {voter h sig : Bytes}
    (hk : t.get voter = some (S.pub x)) (hs : signVote S x h = .ok sig) :
    verifySignature S t sig h voter = .ok () := by
  unfold signVote at hs
  unfold verifySignature
  cases hm : hashValue h with
  | none => rw [hm] at hs; cases hs
  | some m =>
    rw [hm] at hs
    injection hs with hs
    subst hs
    dsimp only
    rw [hk]
    dsimp only
    rw [hS.bytes]
    dsimp only
    rw [if_pos (hS.correct x m)]

/-- **C108, aggregation.**  Votes that are accepted one by one can be aggregated, and the result is
accepted for the same voters. -/
theorem C108_aggregate {S : Scheme} (hS : Laws S) (t : Table S) (h : Bytes)
    (votes : List (Bytes × Bytes)) (hne : votes ≠ [])
    (hv : ∀ v ∈ votes, verifySignature S t v.1 h v.2 = .ok ()) :
    ∃ sig, aggregate S t (votes.map (·.1)) (votes.map (·.2)) = .ok sig ∧
      verifyAggregated S t sig h (votes.map (·.2)) = .ok () := by
  -- the hash is well formed
  obtain ⟨m, hm⟩ : ∃ m, hashValue h = some m := by
    cases votes with
    | nil => exact absurd rfl hne
    | cons v l =>
      obtain ⟨m, _, _, hm, _⟩ := vote_parts S (hv v List.mem_cons_self)
      exact ⟨m, hm⟩
  -- signatures and keys found, pairwise verified
  have hcol : ∀ l : List (Bytes × Bytes), (∀ v ∈ l, verifySignature S t v.1 h v.2 = .ok ()) →
      ∃ r : List (S.Sig × S.Key), collect S t l = .ok (r.map (·.1)) ∧
        keysOf S t (l.map (·.2)) = some (r.map (·.2)) ∧ r.length = l.length ∧
        ∀ p ∈ r, S.verify p.1 m p.2 = true := by
    intro l
    induction l with
    | nil => intro _; exact ⟨[], rfl, rfl, rfl, by simp⟩
    | cons v l ih =>
      intro hl
      obtain ⟨m', k, s, hm', hk, hs, hver⟩ := vote_parts S (hl v List.mem_cons_self)
      rw [hm] at hm'
      cases hm'
      obtain ⟨r, h1, h2, h3, h4⟩ := ih (fun w hw => hl w (List.mem_cons_of_mem _ hw))
      refine ⟨(s, k) :: r, ?_, ?_, by simp [h3], ?_⟩
      · unfold collect
        rw [hs]
        dsimp only
        rw [hk]
        dsimp only
        rw [h1]
        rfl
      · simp [keysOf, hk, h2]
      · intro p hp
        rcases List.mem_cons.1 hp with rfl | hp
        · exact hver
        · exact h4 p hp
  obtain ⟨r, h1, h2, h3, h4⟩ := hcol votes hv
  cases r with
  | nil =>
    exact absurd (List.eq_nil_of_length_eq_zero h3.symm) hne
  | cons p r =>
    have hfold : ∀ (r : List (S.Sig × S.Key)) (s : S.Sig) (k : S.Key), S.verify s m k = true →
        (∀ p ∈ r, S.verify p.1 m p.2 = true) →
        S.verify ((r.map (·.1)).foldl S.addSig s) m ((r.map (·.2)).foldl S.addKey k) = true := by
      intro r
      induction r with
      | nil => intro s k h _; exact h
      | cons q r ih =>
        intro s k h hr
        exact ih _ _ (hS.add _ _ _ _ _ h (hr q List.mem_cons_self))
          (fun p hp => hr p (List.mem_cons_of_mem _ hp))
    have hfin := hfold r p.1 p.2 (h4 p List.mem_cons_self) (fun q hq => h4 q (List.mem_cons_of_mem _ hq))
    refine ⟨S.sigBytes ((r.map (·.1)).foldl S.addSig p.1), ?_, ?_⟩
    · unfold aggregate
      rw [if_neg (by simp)]
      have hz : (votes.map (·.1)).zip (votes.map (·.2)) = votes := by
        clear hne hv h1 h2 h3
        induction votes with
        | nil => rfl
        | cons v l ih => simp [ih]
      rw [hz, h1]
      rfl
    · unfold verifyAggregated
      rw [h2]
      rw [List.map_cons]
      simp only [innerVerify, sumKeys, hS.bytes, hm, hfin, if_true]

/-- The cases that are refused: different numbers of signatures and voters, a voter without a key,
nobody at all. -/
theorem C108_refused (S : Scheme) (t : Table S) (sigs voters : List Bytes) (sig h : Bytes) :
    (sigs.length ≠ voters.length → aggregate S t sigs voters = .error .length) ∧
    ((∃ a ∈ voters, t.get a = none) → verifyAggregated S t sig h voters = .error .loseKey) ∧
    verifyAggregated S t sig h [] = .error .crypto := by
  refine ⟨fun hl => by unfold aggregate; rw [if_pos hl], ?_, rfl⟩
  rintro ⟨a, ha, hn⟩
  have : keysOf S t voters = none := by
    induction voters with
    | nil => cases ha
    | cons b l ih =>
      rcases List.mem_cons.1 ha with rfl | ha
      · simp [keysOf, hn]
      · simp [keysOf, ih ha]
  unfold verifyAggregated
  rw [this]

/-- **Rogue keys.**  Nothing proves the possession of a BLS key when metadata are appended.  A member
who registers the difference of a key of their own and another member's key can alone produce an
aggregate that is accepted as signed by both, on any hash, using nothing secret of the other. -/
theorem C108_rogue_false {S : Scheme} (hS : Laws S) (victim rogue : Bytes) (hne : victim ≠ rogue)
    (p : S.Key) (x : S.Secret) (h : Bytes) (m : H256) (hm : hashValue h = some m) :
    verifyAggregated S [(rogue, S.subKey (S.pub x) p), (victim, p)] (S.sigBytes (S.sign x m)) h
      [victim, rogue] = .ok () := by
  have h1 : (victim == rogue) = false := by simpa using hne
  simp [verifyAggregated, keysOf, Table.get, List.lookup_cons, h1, innerVerify, sumKeys, hS.bytes, hm,
    hS.cancel, hS.correct]

/-! ## The table of keys over time -/

theorem step_sync_saved {S : Scheme} {E : Epochs} {n : Node S} {t : Table S} (h : n.table = some t) :
    step S E n .sync = ⟨n.saved + 1, n.saved + 1, some t⟩ := by
  unfold step
  rw [h]

/-- **C108, the keys of the next block.**  As long as a node neither starts at the end of an epoch nor
takes the last block of an epoch from peers, it checks votes with the keys of the validators for the
next block, provided that all BLS keys parse.  Without these conditions: `C108_restart_false`,
`C108_sync_false`, `C108_badkey_false`. -/
theorem C108_current_partial (S : Scheme) (E : Epochs) (hE : Epochal E) (hu : Usable S E)
    (ops : List Op) (hq : Quiet S E ops) : Current S E (run S E ops) := by
  induction ops using snoc_induction with
  | nil => intro t h; cases h
  | snoc ops op ih =>
    have ih := ih (fun pre op' post e => hq pre op' (post ++ [op]) (by rw [e]; simp))
    have hop := hq ops op [] rfl
    rw [run_snoc]
    revert ih hop
    generalize run S E ops = n
    intro ih hop
    cases op with
    | stop => intro t h; cases h
    | start =>
      intro t h
      unfold step at h ⊢
      cases ht : n.table with
      | some t0 => simp only [ht] at h ⊢; exact ih t (h ▸ ht)
      | none =>
        simp only [ht] at h ⊢
        rw [hE _ (hop.1 rfl)]
        exact h
    | sync =>
      intro t h
      unfold step at h ⊢
      cases ht : n.table with
      | none => rw [ht] at h; simp [ht] at h
      | some t0 =>
        rw [ht] at h
        dsimp only at h ⊢
        cases h
        rw [hE _ (hop.2 rfl)]
        exact ih _ ht
    | commit =>
      intro t h
      unfold step at h ⊢
      cases ht : n.table with
      | none => rw [ht] at h; simp [ht] at h
      | some t0 =>
        rw [ht] at h
        dsimp only at h ⊢
        by_cases hl : E.last (n.saved + 1) = true
        · rw [if_pos hl] at h ⊢
          cases hn : tableOf S (E.members (n.saved + 2)) with
          | none => exact absurd hn (hu _)
          | some t' => rw [hn] at h; dsimp only at h ⊢; cases h; exact hn
        · rw [if_neg hl] at h ⊢
          dsimp only at h ⊢
          cases h
          rw [hE _ (by simpa using hl)]
          exact ih _ ht

/-- Every block of an epoch but its last one leaves the keys alone, whatever happens. -/
theorem C108_unchanged (S : Scheme) (E : Epochs) (n : Node S) (t : Table S) (ht : n.table = some t)
    (hl : E.last (n.saved + 1) = false) :
    (step S E n .commit).table = some t ∧ (step S E n .sync).table = some t := by
  simp [step, ht, hl]

/-- **Restart.**  A node that starts right after the last block of an epoch has the keys of the epoch
that ended, although the next block belongs to the validators of the new one. -/
theorem C108_restart_false (S : Scheme) (E : Epochs) (n : Node S) (t t' : Table S)
    (hn : n.table = none) (ht : tableOf S (E.members n.saved) = some t)
    (ht' : tableOf S (E.members (n.saved + 1)) = some t') (hne : t ≠ t') :
    (step S E n .start).table = some t ∧ ¬ Current S E (step S E n .start) := by
  have h : step S E n .start = { n with table := some t, status := n.saved } := by
    simp only [step, hn, ht]
  rw [h]
  refine ⟨rfl, fun hc => ?_⟩
  have := hc t rfl
  dsimp only at this
  rw [ht'] at this
  exact hne (Option.some.inj this).symm

/-- **Synchronisation.**  A running node that takes the last block of an epoch from peers keeps the keys
of the epoch that ended; one that commits the same block itself changes them. -/
theorem C108_sync_false (S : Scheme) (E : Epochs) (n : Node S) (t t' : Table S)
    (hn : n.table = some t) (hl : E.last (n.saved + 1) = true)
    (ht' : tableOf S (E.members (n.saved + 2)) = some t') (hne : t ≠ t') :
    (step S E n .sync).saved = (step S E n .commit).saved ∧
    (step S E n .commit).table = some t' ∧ (step S E n .sync).table = some t ∧
    ¬ Current S E (step S E n .sync) := by
  refine ⟨?_, ?_, ?_, fun hc => ?_⟩
  · simp [step, hn, hl, ht']
  · simp [step, hn, hl, ht']
  · simp [step, hn]
  · rw [step_sync_saved hn] at hc
    have := hc t rfl
    dsimp only at this
    rw [ht'] at this
    exact hne (Option.some.inj this).symm

/-- A voter without an entry in the keys in use is refused, whatever the signature: this is what a node
with the keys of the epoch that ended does to the votes of new validators. -/
theorem C108_unknown (S : Scheme) (t : Table S) (sig h voter : Bytes) (m : H256)
    (hm : hashValue h = some m) (hv : ∀ k, (voter, k) ∉ t) :
    verifySignature S t sig h voter = .error .loseKey := by
  have hg : t.get voter = none := by
    cases hg : t.get voter with
    | none => rfl
    | some k => exact absurd (lookup_mem hg) (hv k)
  simp only [verifySignature, hm, hg]

/-- A list with a BLS key that does not parse has no table. -/
theorem tableOf_bad (S : Scheme) (vs : List Member) (v : Member) (hv : v ∈ vs)
    (hp : S.parseKey v.2 = none) : tableOf S vs = none := by
  induction vs using snoc_induction with
  | nil => cases hv
  | snoc vs w ih =>
    rw [tableOf_snoc]
    rcases List.mem_append.1 hv with hv | hv
    · rw [ih hv]; rfl
    · rw [List.mem_singleton] at hv
      subst hv
      simp [hp]

/-- **A bad key.**  Metadata are stored with whatever BLS keys they name.  One key that does not parse,
for the epoch after block `saved + 1`: the node that commits that block stores it but keeps its old
status and its old keys. -/
theorem C108_badkey_false (S : Scheme) (E : Epochs) (n : Node S) (t : Table S) (v : Member)
    (hn : n.table = some t) (hl : E.last (n.saved + 1) = true)
    (hv : v ∈ E.members (n.saved + 2)) (hp : S.parseKey v.2 = none) :
    step S E n .commit = ⟨n.saved + 1, n.status, some t⟩ := by
  simp [step, hn, hl, tableOf_bad S _ v hv hp]

/-- ... and a node whose stored block is in that epoch does not start again, however often it is
tried. -/
theorem C108_badkey_start (S : Scheme) (E : Epochs) (n : Node S) (v : Member) (k : Nat)
    (hn : n.table = none) (hv : v ∈ E.members n.saved) (hp : S.parseKey v.2 = none) :
    ((List.replicate k Op.start).foldl (step S E) n).table = none := by
  induction k generalizing n with
  | zero => exact hn
  | succ k ih =>
    rw [List.replicate_succ, List.foldl_cons]
    have h : step S E n .start = { n with table := none, status := n.saved } := by
      simp only [step, hn, tableOf_bad S _ v hv hp]
    rw [h]
    exact ih _ rfl hv

/-! ## Cases that meet the hypotheses -/

/-- Signatures in the integers modulo 7: keys are secrets, the hash is its first byte. -/
def toy : Scheme where
  Secret := Fin 7
  Key := Fin 7
  Sig := Fin 7
  pub x := x
  sign x m := x * Fin.ofNat 7 (m.bytes.headD 0).toNat
  verify s m k := s == k * Fin.ofNat 7 (m.bytes.headD 0).toNat
  addKey := (· + ·)
  subKey := (· - ·)
  addSig := (· + ·)
  parseKey b := match b with
    | [x] => if h : x.toNat < 7 then some ⟨x.toNat, h⟩ else none
    | _ => none
  parseSig b := match b with
    | [x] => if h : x.toNat < 7 then some ⟨x.toNat, h⟩ else none
    | _ => none
  sigBytes s := [UInt8.ofNat s.val]

theorem toy_laws : Laws toy where
  correct x m := by simp [toy]
  add s s' m k k' h h' := by
    have key : ∀ a b c : Fin 7, a * c + b * c = (a + b) * c := by decide +kernel
    have h : s = (show Fin 7 from k) * Fin.ofNat 7 (m.bytes.headD 0).toNat :=
      eq_of_beq (α := Fin 7) h
    have h' : s' = (show Fin 7 from k') * Fin.ofNat 7 (m.bytes.headD 0).toNat :=
      eq_of_beq (α := Fin 7) h'
    subst h
    subst h'
    exact beq_iff_eq (α := Fin 7) |>.2 (key _ _ _)
  cancel := by
    have key : ∀ p k : Fin 7, p + (k - p) = k := by decide +kernel
    exact key
  bytes s := by
    obtain ⟨v, hv⟩ := s
    have : (UInt8.ofNat v).toNat = v := by
      rw [UInt8.toNat_ofNat']
      omega
    simp [toy, this, hv]

/-- A hash that starts with 3. -/
def hash3 : Bytes := 3 :: List.replicate 31 0

/-- Two epochs of two blocks; the second member changes. -/
def epochs : Epochs where
  members n := if n ≤ 2 then [([1], [2]), ([2], [4])] else [([1], [2]), ([3], [5])]
  last n := n % 2 == 0 && n != 0

/-- The same with a BLS key that does not parse. -/
def badEpochs : Epochs where
  members n := if n ≤ 2 then [([1], [2]), ([2], [4])] else [([1], [2]), ([3], [9])]
  last n := n % 2 == 0 && n != 0

example : Epochal epochs := by
  intro n h
  simp only [epochs] at h ⊢
  by_cases h2 : n ≤ 1
  · rw [if_pos (by omega), if_pos (by omega)]
  · by_cases h3 : n = 2
    · subst h3; cases h
    · rw [if_neg (by omega), if_neg (by omega)]

example : Usable toy epochs := by
  intro n
  simp only [epochs]
  split <;> decide

-- votes of both members, aggregated and accepted; a signature for another hash is not
example : verifySignature toy [([2], (4 : Fin 7)), ([1], (2 : Fin 7))] [6] hash3 [1] = .ok () := by rfl
example : verifySignature toy [([2], (4 : Fin 7)), ([1], (2 : Fin 7))] [5] hash3 [2] = .ok () := by rfl
example : verifySignature toy [([2], (4 : Fin 7)), ([1], (2 : Fin 7))] [6] hash3 [2] = .error .crypto := by
  rfl
example : aggregate toy [([2], (4 : Fin 7)), ([1], (2 : Fin 7))] [[6], [5]] [[1], [2]] = .ok [4] := by rfl
example : verifyAggregated toy [([2], (4 : Fin 7)), ([1], (2 : Fin 7))] [4] hash3 [[1], [2]] = .ok () := by
  rfl
-- the rogue key 3 - 4: the aggregate is accepted, and is no signature of the victim
example : verifyAggregated toy [([2], (3 - 4 : Fin 7)), ([1], (4 : Fin 7))] [2] hash3 [[1], [2]] = .ok () ∧
    verifySignature toy [([2], (3 - 4 : Fin 7)), ([1], (4 : Fin 7))] [2] hash3 [1] = .error .crypto :=
  ⟨by rfl, by rfl⟩
-- committing over the end of the epoch, against restarting there and synchronising over it
example : (run toy epochs [.start, .commit, .commit]).table = some [([3], (5 : Fin 7)), ([1], (2 : Fin 7))] := by
  rfl
example : (run toy epochs [.start, .commit, .commit, .stop, .start]).table
    = some [([2], (4 : Fin 7)), ([1], (2 : Fin 7))] := by rfl
example : (run toy epochs [.start, .commit, .sync]).table
    = some [([2], (4 : Fin 7)), ([1], (2 : Fin 7))] := by rfl
-- the bad key: stored 2, status 1; after one more block and a restart nothing runs
example : (run toy badEpochs [.start, .commit, .commit]).saved = 2 ∧
    (run toy badEpochs [.start, .commit, .commit]).status = 1 := ⟨by rfl, by rfl⟩
example : (run toy badEpochs [.start, .commit, .commit, .sync, .stop, .start]).table = none := by rfl

end Axon.Bls
