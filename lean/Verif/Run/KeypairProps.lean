import Verif.Run.Keypair
import Verif.Codec.AddressProps
import Verif.Codec.HexProps
import Verif.Logger.RollerProps

/-!
# C135: generated keys are what a node runs with

What `generate-keypair` prints, what it writes, what `recover-keypair` reads back and what a node started on the files
is known by are the same (`C135_recover`, `C135_identity`), and a validator entered with the printed keys is that node
(`C135_validator`).
-/

namespace Axon.Keypair
open Axon.Addr
open Axon.Roller (decimal decimal_inj)

variable {S : Scheme}

/-! ## Specification -/

/-- What the libraries guarantee: secrets have 32 bytes, public keys 33, and a public key can be written in full. -/
structure Lawful (S : Scheme) : Prop where
  net : ∀ k p, S.netPub k = some p → k.length = 32 ∧ p.length = 33 ∧ ∃ u, S.full p = some u ∧ u.length = 65
  bls : ∀ k p, S.blsPub k = some p → k.length = 32

/-- The path of a file in a directory. -/
def Within (dir name path : Text) : Prop :=
  (dir = [] ∧ path = name) ∨ (∃ d, dir = d ++ ['/'] ∧ path = d ++ ['/'] ++ name) ∨
    (dir ≠ [] ∧ (∀ d, dir ≠ d ++ ['/']) ∧ path = dir ++ ['/'] ++ name)

/-- Where the secrets of a pair are. -/
def NetFile (dir : Text) (i : Nat) (path : Text) : Prop := Within dir ("net_".toList ++ decimal i ++ ".key".toList) path

/-- Where the BLS secrets are. -/
def BlsFile (dir : Text) (i : Nat) (path : Text) : Prop := Within dir ("bls_".toList ++ decimal i ++ ".key".toList) path

/-- The printed values of a pair follow from its secrets. -/
structure Belongs (S : Scheme) (k : Keypair) : Prop where
  pub : S.netPub k.netPriv = some k.pubKey
  bls : S.blsPub k.blsPriv = some k.blsPub
  address : ∀ u, S.full k.pubKey = some u → k.pubKey.length = 33 → k.address.bytes = (S.digest (u.drop 1)).bytes.drop 12
  peer : k.peerId = S.base58 (S.peerId k.pubKey)

/-! ## Lemmas -/

theorem h160_ext {a b : H160} (h : a.bytes = b.bytes) : a = b := by
  obtain ⟨a, _⟩ := a
  obtain ⟨b, _⟩ := b
  cases h
  rfl

theorem push_within {dir name : Text} (h : name.head? ≠ some '/') : Within dir name (push dir name) := by
  unfold push
  rw [if_neg h]
  by_cases h1 : dir = []
  · rw [if_pos (.inl h1), h1]
    exact .inl ⟨rfl, rfl⟩
  · by_cases h2 : dir.getLast? = some '/'
    · rw [if_pos (.inr h2)]
      obtain ⟨d, hd⟩ := List.getLast?_eq_some_iff.1 h2
      subst hd
      exact .inr (.inl ⟨d, rfl, rfl⟩)
    · rw [if_neg (by rintro (c | c) <;> contradiction)]
      refine .inr (.inr ⟨h1, fun d hd => h2 (by rw [hd]; simp), by simp⟩)

theorem within_unique {dir name p q : Text} (hp : Within dir name p) (hq : Within dir name q) : p = q := by
  rcases hp with ⟨a, b⟩ | ⟨d, a, b⟩ | ⟨a, c, b⟩ <;> rcases hq with ⟨a', b'⟩ | ⟨d', a', b'⟩ | ⟨a', c', b'⟩
  · rw [b, b']
  · rw [a] at a'; simp at a'
  · exact absurd a a'
  · rw [a'] at a; simp at a
  · rw [b, b', ← a, ← a']
  · exact absurd a (c' d)
  · exact absurd a' a
  · exact absurd a' (c d')
  · rw [b, b']

theorem netName_head (i : Nat) : (netName i).head? ≠ some '/' := by
  have : (netName i).head? = some 'n' := rfl
  rw [this]
  decide

theorem blsName_head (i : Nat) : (blsName i).head? ≠ some '/' := by
  have : (blsName i).head? = some 'b' := rfl
  rw [this]
  decide

theorem netName_inj {i j : Nat} (h : netName i = netName j) : i = j :=
  decimal_inj (List.append_cancel_right (List.append_cancel_left h))

theorem blsName_inj {i j : Nat} (h : blsName i = blsName j) : i = j :=
  decimal_inj (List.append_cancel_right (List.append_cancel_left h))

theorem net_ne_bls (dir : Text) (i j : Nat) : push dir (netName i) ≠ push dir (blsName j) := by
  intro h
  have e := congrArg List.head? (push_inj (netName_head i) (blsName_head j) h)
  have h1 : (netName i).head? = some 'n' := rfl
  have h2 : (blsName j).head? = some 'b' := rfl
  rw [h1, h2] at e
  exact absurd e (by decide)

theorem netFile_push (dir : Text) (i : Nat) : NetFile dir i (push dir (netName i)) := by
  have := push_within (dir := dir) (netName_head i)
  unfold netName at this ⊢
  unfold NetFile
  rwa [List.append_assoc]

theorem blsFile_push (dir : Text) (i : Nat) : BlsFile dir i (push dir (blsName i)) := by
  have := push_within (dir := dir) (blsName_head i)
  unfold blsName at this ⊢
  unfold BlsFile
  rwa [List.append_assoc]

theorem netFile_eq {dir : Text} {i : Nat} {p : Text} (h : NetFile dir i p) : p = push dir (netName i) :=
  within_unique h (netFile_push dir i)

theorem blsFile_eq {dir : Text} {i : Nat} {p : Text} (h : BlsFile dir i p) : p = push dir (blsName i) :=
  within_unique h (blsFile_push dir i)

theorem write_other {io : Text → Write} {fs : Files} {p q : Text} {b : Bytes} (h : q ≠ p) : (write io fs p b).1 q = fs q := by
  unfold write
  cases io p with
  | done => exact put_other h
  | refused => rfl
  | cut n => exact put_other h

theorem write_ok {io : Text → Write} {fs : Files} {p : Text} {b : Bytes} (h : (write io fs p b).2 = true) :
    (write io fs p b).1 p = some b := by
  unfold write at h ⊢
  cases hi : io p with
  | done => exact put_same _ _ _
  | refused => rw [hi] at h; cases h
  | cut n => rw [hi] at h; cases h

theorem writeKeys_other {io : Text → Write} {dir : Text} {net bls : Bytes} {i : Nat} {fs : Files} {p : Text}
    (h1 : p ≠ push dir (netName i)) (h2 : p ≠ push dir (blsName i)) : (writeKeys io dir net bls i fs).1 p = fs p := by
  unfold writeKeys
  dsimp only
  split
  · rw [write_other h1, write_other h2]
  · exact write_other h2

theorem writeKeys_ok {io : Text → Write} {dir : Text} {net bls : Bytes} {i : Nat} {fs : Files}
    (h : (writeKeys io dir net bls i fs).2 = true) :
    (writeKeys io dir net bls i fs).1 (push dir (netName i)) = some net ∧
      (writeKeys io dir net bls i fs).1 (push dir (blsName i)) = some bls := by
  unfold writeKeys at h ⊢
  dsimp only at h ⊢
  by_cases hb : (write io fs (push dir (blsName i)) bls).2 = true
  · rw [if_pos hb] at h ⊢
    exact ⟨write_ok h, by rw [write_other (net_ne_bls dir i i).symm]; exact write_ok hb⟩
  · rw [if_neg hb] at h
    exact absurd h hb

theorem from_eq {net bls : Bytes} {i : Nat} {k : Keypair} (h : fromPrivateKeys S net bls i = some k) :
    k.netPriv = net ∧ k.blsPriv = bls ∧ k.index = i ∧ S.netPub net = some k.pubKey ∧ S.blsPub bls = some k.blsPub ∧
      fromPubkeyBytes S.digest S.full k.pubKey = some k.address ∧ k.peerId = S.base58 (S.peerId k.pubKey) := by
  unfold fromPrivateKeys at h
  cases hp : S.netPub net with
  | none => rw [hp] at h; cases h
  | some p =>
    rw [hp] at h
    cases hq : S.blsPub bls with
    | none => rw [hq] at h; cases h
    | some q =>
      rw [hq] at h
      cases ha : fromPubkeyBytes S.digest S.full p with
      | none =>
        have h : (fromPubkeyBytes S.digest S.full p).map _ = some k := h
        rw [ha] at h
        cases h
      | some a =>
        have h : (fromPubkeyBytes S.digest S.full p).map _ = some k := h
        rw [ha] at h
        cases h
        exact ⟨rfl, rfl, rfl, rfl, rfl, ha, rfl⟩

theorem from_of {net bls : Bytes} {i : Nat} {k : Keypair} (h : fromPrivateKeys S net bls i = some k) (j : Nat) :
    fromPrivateKeys S net bls j = some { k with index := j } := by
  obtain ⟨h1, h2, h3, h4, h5, h6, h7⟩ := from_eq h
  unfold fromPrivateKeys
  rw [h4, h5]
  show (fromPubkeyBytes S.digest S.full k.pubKey).map _ = _
  rw [h6, ← h1, ← h2, ← h7]
  rfl

theorem belongs_of {net bls : Bytes} {i : Nat} {k : Keypair} (h : fromPrivateKeys S net bls i = some k) : Belongs S k := by
  obtain ⟨h1, h2, h3, h4, h5, h6, h7⟩ := from_eq h
  refine ⟨by rw [h1, h4], by rw [h2, h5], ?_, h7⟩
  intro u hu hl
  unfold fromPubkeyBytes at h6
  rw [if_neg (by omega), if_pos hl, hu] at h6
  rw [← Option.some.inj h6]
  rfl

theorem gen_other {io : Text → Write} {dir : Text} {rnd : Nat → Bytes × Bytes} {p : Text} : ∀ (n i : Nat) (fs : Files),
    (∀ j, i ≤ j → j < i + n → p ≠ push dir (netName j) ∧ p ≠ push dir (blsName j)) →
    (generateFrom S io dir rnd n i fs).1 p = fs p
  | 0, _, _, _ => rfl
  | n + 1, i, fs, h => by
    unfold generateFrom
    cases fromPrivateKeys S (rnd i).1 (rnd i).2 i with
    | none => rfl
    | some k =>
      dsimp only
      have hi := h i (Nat.le_refl _) (by omega)
      split
      · rw [gen_other n (i + 1) _ fun j h1 h2 => h j (by omega) (by omega)]
        exact writeKeys_other hi.1 hi.2
      · exact writeKeys_other hi.1 hi.2

theorem later_other {io : Text → Write} {dir : Text} {rnd : Nat → Bytes × Bytes} {n i : Nat} {fs : Files} :
    (generateFrom S io dir rnd n (i + 1) fs).1 (push dir (netName i)) = fs (push dir (netName i)) ∧
      (generateFrom S io dir rnd n (i + 1) fs).1 (push dir (blsName i)) = fs (push dir (blsName i)) := by
  constructor
  · refine gen_other n (i + 1) fs fun j h1 h2 => ⟨fun e => ?_, net_ne_bls dir i j⟩
    have := netName_inj (push_inj (netName_head i) (netName_head j) e)
    omega
  · refine gen_other n (i + 1) fs fun j h1 h2 => ⟨(net_ne_bls dir j i).symm, fun e => ?_⟩
    have := blsName_inj (push_inj (blsName_head i) (blsName_head j) e)
    omega

/-- What is at `j` in the files and in the list. -/
theorem gen_ok {io : Text → Write} {dir : Text} {rnd : Nat → Bytes × Bytes} : ∀ (n i : Nat) (fs fs' : Files) (ks : List Keypair),
    generateFrom S io dir rnd n i fs = (fs', some ks) → ks.length = n ∧ ∀ j, j < n → ∃ k, ks[j]? = some k ∧
      fromPrivateKeys S (rnd (i + j)).1 (rnd (i + j)).2 (i + j) = some k ∧
      fs' (push dir (netName (i + j))) = some k.netPriv ∧ fs' (push dir (blsName (i + j))) = some k.blsPriv
  | 0, i, fs, fs', ks, h => by
    cases h
    exact ⟨rfl, fun j hj => absurd hj (Nat.not_lt_zero _)⟩
  | n + 1, i, fs, fs', ks, h => by
    unfold generateFrom at h
    cases hk : fromPrivateKeys S (rnd i).1 (rnd i).2 i with
    | none => rw [hk] at h; cases h
    | some k =>
      rw [hk] at h
      dsimp only at h
      by_cases hw : (writeKeys io dir k.netPriv k.blsPriv i fs).2 = true
      · rw [if_pos hw] at h
        cases hr : generateFrom S io dir rnd n (i + 1) (writeKeys io dir k.netPriv k.blsPriv i fs).1 with
        | mk f r =>
          rw [hr] at h
          cases r with
          | none => cases h
          | some ks' =>
            cases h
            obtain ⟨ih1, ih2⟩ := gen_ok n (i + 1) _ _ _ hr
            refine ⟨by rw [List.length_cons, ih1], fun j hj => ?_⟩
            cases j with
            | zero =>
              have e := later_other (S := S) (io := io) (dir := dir) (rnd := rnd) (n := n) (i := i)
                (fs := (writeKeys io dir k.netPriv k.blsPriv i fs).1)
              rw [hr] at e
              obtain ⟨w1, w2⟩ := writeKeys_ok hw
              exact ⟨k, rfl, hk, e.1.trans w1, e.2.trans w2⟩
            | succ j =>
              obtain ⟨k', a, b, c, d⟩ := ih2 j (by omega)
              rw [show i + 1 + j = i + (j + 1) by omega] at b c d
              exact ⟨k', a, b, c, d⟩
      · rw [if_neg hw] at h
        cases h

theorem gen_fail {io : Text → Write} {dir : Text} {rnd : Nat → Bytes × Bytes} : ∀ (n i : Nat) (fs fs' : Files),
    generateFrom S io dir rnd n i fs = (fs', none) → ∃ j, j < n ∧
      (∀ l, l < j → ∃ k, fromPrivateKeys S (rnd (i + l)).1 (rnd (i + l)).2 (i + l) = some k ∧
        fs' (push dir (netName (i + l))) = some k.netPriv ∧ fs' (push dir (blsName (i + l))) = some k.blsPriv) ∧
      ∀ l, j < l → fs' (push dir (netName (i + l))) = fs (push dir (netName (i + l))) ∧
        fs' (push dir (blsName (i + l))) = fs (push dir (blsName (i + l)))
  | 0, i, fs, fs', h => by cases h
  | n + 1, i, fs, fs', h => by
    have keep : ∀ (net bls : Bytes) (l : Nat), 0 < l →
        (writeKeys io dir net bls i fs).1 (push dir (netName (i + l))) = fs (push dir (netName (i + l))) ∧
        (writeKeys io dir net bls i fs).1 (push dir (blsName (i + l))) = fs (push dir (blsName (i + l))) := by
      intro net bls l hl
      refine ⟨writeKeys_other (fun e => ?_) (net_ne_bls _ _ _), writeKeys_other (net_ne_bls _ _ _).symm fun e => ?_⟩
      · have := netName_inj (push_inj (netName_head _) (netName_head _) e)
        omega
      · have := blsName_inj (push_inj (blsName_head _) (blsName_head _) e)
        omega
    unfold generateFrom at h
    cases hk : fromPrivateKeys S (rnd i).1 (rnd i).2 i with
    | none =>
      rw [hk] at h
      cases h
      exact ⟨0, by omega, fun l hl => absurd hl (Nat.not_lt_zero _), fun l _ => ⟨rfl, rfl⟩⟩
    | some k =>
      rw [hk] at h
      dsimp only at h
      by_cases hw : (writeKeys io dir k.netPriv k.blsPriv i fs).2 = true
      · rw [if_pos hw] at h
        cases hr : generateFrom S io dir rnd n (i + 1) (writeKeys io dir k.netPriv k.blsPriv i fs).1 with
        | mk f r =>
          rw [hr] at h
          cases r with
          | some ks' => cases h
          | none =>
            cases h
            obtain ⟨j, hj, ih1, ih2⟩ := gen_fail n (i + 1) _ _ hr
            refine ⟨j + 1, by omega, fun l hl => ?_, fun l hl => ?_⟩
            · cases l with
              | zero =>
                have e := later_other (S := S) (io := io) (dir := dir) (rnd := rnd) (n := n) (i := i)
                  (fs := (writeKeys io dir k.netPriv k.blsPriv i fs).1)
                rw [hr] at e
                obtain ⟨w1, w2⟩ := writeKeys_ok hw
                exact ⟨k, hk, e.1.trans w1, e.2.trans w2⟩
              | succ l =>
                obtain ⟨k', b, c, d⟩ := ih1 l (by omega)
                rw [show i + 1 + l = i + (l + 1) by omega] at b c d
                exact ⟨k', b, c, d⟩
            · cases l with
              | zero => omega
              | succ l =>
                obtain ⟨c, d⟩ := ih2 l (by omega)
                rw [show i + 1 + l = i + (l + 1) by omega] at c d
                obtain ⟨e, f⟩ := keep k.netPriv k.blsPriv (l + 1) (by omega)
                exact ⟨c.trans e, d.trans f⟩
      · rw [if_neg hw] at h
        cases h
        exact ⟨0, by omega, fun l hl => absurd hl (Nat.not_lt_zero _), fun l hl => keep _ _ l hl⟩

theorem gen_total {io : Text → Write} {dir : Text} {rnd : Nat → Bytes × Bytes} (L : Lawful S)
    (hr : ∀ i, (S.netPub (rnd i).1).isSome = true ∧ (S.blsPub (rnd i).2).isSome = true) (hio : ∀ p, io p = .done) :
    ∀ (n i : Nat) (fs : Files), ∃ ks, (generateFrom S io dir rnd n i fs).2 = some ks
  | 0, _, _ => ⟨[], rfl⟩
  | n + 1, i, fs => by
    obtain ⟨h1, h2⟩ := hr i
    obtain ⟨p, hp⟩ := Option.isSome_iff_exists.1 h1
    obtain ⟨q, hq⟩ := Option.isSome_iff_exists.1 h2
    obtain ⟨_, l, u, hu, _⟩ := L.net _ _ hp
    have hk : ∃ k, fromPrivateKeys S (rnd i).1 (rnd i).2 i = some k := by
      unfold fromPrivateKeys
      rw [hp, hq]
      refine ⟨⟨i, (rnd i).1, p, fromPubkey S.digest u, S.base58 (S.peerId p), (rnd i).2, q⟩, ?_⟩
      show (fromPubkeyBytes S.digest S.full p).map _ = _
      unfold fromPubkeyBytes
      rw [if_neg (by omega), if_pos l, hu]
      rfl
    obtain ⟨k, hk⟩ := hk
    have hw : ∀ (a b : Bytes), (writeKeys io dir a b i fs).2 = true := by
      intro a b
      unfold writeKeys write
      rw [hio]
      dsimp only
      rw [if_pos rfl, hio]
    obtain ⟨ks, e⟩ := gen_total L hr hio n (i + 1) (writeKeys io dir k.netPriv k.blsPriv i fs).1
    refine ⟨k :: ks, ?_⟩
    unfold generateFrom
    rw [hk]
    dsimp only
    rw [if_pos (hw _ _), e]
    rfl

/-! ## The theorems -/

variable {room num : Nat} {io : Text → Write} {dir : Text} {rnd : Nat → Bytes × Bytes} {fs fs' : Files}

/-- C135: generation succeeds if there is room, the secrets are such and the files can be written. -/
theorem C135_total (L : Lawful S)
    (hr : ∀ i, (S.netPub (rnd i).1).isSome = true ∧ (S.blsPub (rnd i).2).isSome = true) (hio : ∀ p, io p = .done)
    (hn : num ≤ room) : ∃ fs' ks, generate S room io dir rnd num fs = .ok (fs', some ks) := by
  obtain ⟨ks, h⟩ := gen_total (dir := dir) L hr hio num 0 fs
  refine ⟨(generateFrom S io dir rnd num 0 fs).1, ks, ?_⟩
  unfold generate
  rw [if_neg (by omega), ← h]

/-- C135: as many pairs are printed as asked for; the files of each hold its secrets, its values follow from them, and
recovering it from the files prints the same, but for the index. -/
theorem C135_recover {ks : List Keypair} (h : generate S room io dir rnd num fs = .ok (fs', some ks)) :
    ks.length = num ∧ ∀ i k, ks[i]? = some k → k.index = i ∧ Belongs S k ∧
      ∀ p q, NetFile dir i p → BlsFile dir i q → fs' p = some k.netPriv ∧ fs' q = some k.blsPriv ∧
        recover S fs' p q = some { k with index := 0 } := by
  unfold generate at h
  split at h
  · cases h
  · obtain ⟨h1, h2⟩ := gen_ok num 0 _ _ _ (Outcome.ok.inj h)
    refine ⟨h1, fun i k hk => ?_⟩
    have hi : i < num := by
      rw [← h1]
      exact (List.getElem?_eq_some_iff.1 hk).1
    obtain ⟨k', a, b, c, d⟩ := h2 i hi
    rw [hk] at a
    cases Option.some.inj a
    rw [Nat.zero_add] at b c d
    obtain ⟨b1, b2, b3, _⟩ := from_eq b
    refine ⟨b3, belongs_of b, fun p q hp hq => ?_⟩
    rw [netFile_eq hp, blsFile_eq hq]
    refine ⟨c, d, ?_⟩
    unfold recover
    rw [c, d]
    have e := from_of b 0
    rw [← b1, ← b2] at e
    exact e

/-- C135: a node configured with the files of a pair, and given no other key provider, has the printed public key as its
name, proposes with the printed address, has the printed peer id and signs with the secret of the printed BLS key; with
another key provider only the peer id is another. -/
theorem C135_identity (L : Lawful S) {ks : List Keypair} (h : generate S room io dir rnd num fs = .ok (fs', some ks))
    {i : Nat} {k : Keypair} (hk : ks[i]? = some k) {cdir netFile blsFile : Text} (hn : NetFile dir i (push cdir netFile))
    (hb : BlsFile dir i (push cdir blsFile)) (provider : Option Bytes) :
    ∃ d, start S fs' cdir netFile blsFile provider = some d ∧ d.name = k.pubKey ∧ d.address = k.address ∧
      d.blsPriv = k.blsPriv ∧ S.blsPub d.blsPriv = some k.blsPub ∧ (provider = none → S.base58 d.peerId = k.peerId) ∧
      ∀ x, provider = some x → d.peerId = S.peerId x := by
  obtain ⟨_, h2⟩ := C135_recover h
  obtain ⟨_, B, h3⟩ := h2 i k hk
  obtain ⟨c, d, _⟩ := h3 _ _ hn hb
  obtain ⟨l1, l2, u, hu, l3⟩ := L.net _ _ B.pub
  have l4 := L.bls _ _ B.bls
  have e : start S fs' cdir netFile blsFile provider =
      some ⟨k.pubKey, fromPubkey S.digest u, S.peerId (provider.getD k.pubKey), k.blsPriv⟩ := by
    unfold start loadKey
    rw [c, d]
    simp only [Option.bind_some, if_pos l1, if_pos l4, B.pub, B.bls, hu, Option.map_some]
  refine ⟨_, e, rfl, ?_, rfl, B.bls, fun hp => ?_, fun x hx => ?_⟩
  · refine h160_ext ?_
    exact (B.address u hu l2).symm
  · rw [hp, B.peer]
    rfl
  · rw [hx]
    rfl

/-- C135: what is printed can be read: the texts stand for the values. -/
theorem C135_printed (k : Keypair) : ∃ t, printed S k = .ok t ∧ t.index = k.index ∧ t.peerId = k.peerId ∧
    Hex.fromStr t.netPriv = some k.netPriv ∧ Hex.fromStr t.pubKey = some k.pubKey ∧ Hex.fromStr t.blsPriv = some k.blsPriv ∧
    Hex.fromStr t.blsPub = some k.blsPub ∧ Addr.fromStr S.digest t.address = .ok k.address := by
  have e := C119_writes S.digest k.address
  have e1 : printed S k = .ok ⟨k.index, Hex.asString k.netPriv, Hex.asString k.pubKey, eip55 S.digest k.address, k.peerId,
      Hex.asString k.blsPriv, Hex.asString k.blsPub⟩ := by
    unfold printed
    rw [e]
    rfl
  exact ⟨_, e1, rfl, rfl, Hex.C08_from_str_as_string _, Hex.C08_from_str_as_string _, Hex.C08_from_str_as_string _,
    Hex.C08_from_str_as_string _, (C119_round_trip S.digest k.address _ e).1⟩

/-- C135: a validator entered with the printed keys is the node: it has the name, the address and the peer id of the
node, and the BLS key others check its signatures with is that of the node's secret. -/
theorem C135_validator (L : Lawful S) {ks : List Keypair} (h : generate S room io dir rnd num fs = .ok (fs', some ks))
    {i : Nat} {k : Keypair} (hk : ks[i]? = some k) {t : Printed} (ht : printed S k = .ok t) {cdir netFile blsFile : Text}
    (hn : NetFile dir i (push cdir netFile)) (hb : BlsFile dir i (push cdir blsFile)) :
    ∃ d v, start S fs' cdir netFile blsFile none = some d ∧ readValidator S t.blsPub t.pubKey = .ok v ∧
      v.pubKey = d.name ∧ v.address = d.address ∧ S.blsPub d.blsPriv = some v.blsPub ∧
      ∀ vs, v ∈ vs → d.peerId ∈ tagged S vs ∧
        ((∀ w ∈ vs, w.pubKey = v.pubKey → w.blsPub = v.blsPub) → blsKeys vs d.name = S.blsPub d.blsPriv) := by
  obtain ⟨_, h2⟩ := C135_recover h
  obtain ⟨_, B, h3⟩ := h2 i k hk
  obtain ⟨c, d, _⟩ := h3 _ _ hn hb
  obtain ⟨l1, l2, u, hu, l3⟩ := L.net _ _ B.pub
  have l4 := L.bls _ _ B.bls
  have ha : k.address = fromPubkey S.digest u := h160_ext (B.address u hu l2)
  have e : start S fs' cdir netFile blsFile none = some ⟨k.pubKey, k.address, S.peerId k.pubKey, k.blsPriv⟩ := by
    unfold start loadKey
    rw [c, d, ha]
    simp only [Option.bind_some, if_pos l1, if_pos l4, B.pub, B.bls, hu, Option.map_some, Option.getD_none]
  obtain ⟨t', e1, _, _, _, e2, _, e3, _⟩ := C135_printed (S := S) k
  rw [ht] at e1
  cases Outcome.ok.inj e1
  have ev : readValidator S t.blsPub t.pubKey = .ok ⟨k.blsPub, k.pubKey, k.address⟩ := by
    unfold readValidator
    rw [e2, e3, ha]
    simp only [Outcome.ofOption, Outcome.bind, (C119_pubkey S.digest S.full _ u l2 l3 hu).1, Outcome.orPanic]
  refine ⟨_, _, e, ev, rfl, rfl, B.bls, fun vs hv => ⟨List.mem_map.2 ⟨_, hv, rfl⟩, fun hs => ?_⟩⟩
  show blsKeys vs k.pubKey = S.blsPub k.blsPriv
  rw [B.bls]
  have key : ∀ (vs : List Validator) (m : Bytes → Option Bytes), (∀ w ∈ vs, w.pubKey = k.pubKey → w.blsPub = k.blsPub) →
      ((∃ w ∈ vs, w.pubKey = k.pubKey) ∨ m k.pubKey = some k.blsPub) →
      vs.foldl (fun m v => fun n => if n = v.pubKey then some v.blsPub else m n) m k.pubKey = some k.blsPub := by
    intro vs
    induction vs with
    | nil =>
      rintro m _ (⟨w, hw, _⟩ | hm)
      · cases hw
      · exact hm
    | cons w vs ih =>
      intro m hs hm
      refine ih _ (fun x hx => hs x (List.mem_cons_of_mem _ hx)) ?_
      by_cases hw : w.pubKey = k.pubKey
      · right
        have := hs w List.mem_cons_self hw
        show (if k.pubKey = w.pubKey then some w.blsPub else m k.pubKey) = _
        rw [if_pos hw.symm, this]
      · rcases hm with ⟨x, hx, hx'⟩ | hm
        · rcases List.mem_cons.1 hx with rfl | hx
          · exact absurd hx' hw
          · exact .inl ⟨x, hx, hx'⟩
        · right
          show (if k.pubKey = w.pubKey then some w.blsPub else m k.pubKey) = _
          rw [if_neg (fun c => hw c.symm)]
          exact hm
  exact key vs _ hs (.inl ⟨_, hv, rfl⟩)

/-- C135: no file but those of the pairs asked for is touched, whether generation succeeds or not. -/
theorem C135_others {r : Option (List Keypair)} (h : generate S room io dir rnd num fs = .ok (fs', r)) {p : Text}
    (hp : ∀ i, i < num → ¬ NetFile dir i p ∧ ¬ BlsFile dir i p) : fs' p = fs p := by
  unfold generate at h
  split at h
  · cases h
  · have e := congrArg Prod.fst (Outcome.ok.inj h)
    dsimp only at e
    rw [← e]
    refine gen_other num 0 fs fun j _ hj => ?_
    obtain ⟨a, b⟩ := hp j (by omega)
    exact ⟨fun c => a (c ▸ netFile_push dir j), fun c => b (c ▸ blsFile_push dir j)⟩

/-- C135: if generation fails, there is a pair at which it stopped: nothing is printed, the pairs before it can be
recovered from their files, and the files of the pairs after it are as before. -/
theorem C135_failed (h : generate S room io dir rnd num fs = .ok (fs', none)) : ∃ j, j < num ∧
    (∀ i, i < j → ∀ p q, NetFile dir i p → BlsFile dir i q → ∃ k, recover S fs' p q = some k ∧ Belongs S k) ∧
    ∀ i, j < i → ∀ p, NetFile dir i p ∨ BlsFile dir i p → fs' p = fs p := by
  unfold generate at h
  split at h
  · cases h
  · obtain ⟨j, hj, h1, h2⟩ := gen_fail num 0 _ _ (Outcome.ok.inj h)
    refine ⟨j, hj, fun i hi p q hp hq => ?_, fun i hi p hp => ?_⟩
    · obtain ⟨k, b, c, d⟩ := h1 i hi
      rw [Nat.zero_add] at b c d
      obtain ⟨b1, b2, _⟩ := from_eq b
      rw [netFile_eq hp, blsFile_eq hq]
      have e := from_of b 0
      rw [← b1, ← b2] at e
      refine ⟨_, ?_, belongs_of e⟩
      unfold recover
      rw [c, d]
      exact e
    · obtain ⟨c, d⟩ := h2 i hi
      rw [Nat.zero_add] at c d
      rcases hp with hp | hp
      · rw [netFile_eq hp]; exact c
      · rw [blsFile_eq hp]; exact d

/-! ## Examples -/

/-- Toy libraries: the public key of a secret is the secret behind a byte. -/
def toy : Scheme where
  netPub k := if k.length = 32 then some (2 :: k) else none
  full p := if p.length = 33 then some (4 :: (p.drop 1 ++ List.replicate 32 0)) else none
  blsPub k := if k.length = 32 then some (k ++ List.replicate 16 7) else none
  digest b := ⟨(b ++ List.replicate 32 0).take 32, by simp⟩
  peerId p := 18 :: p
  base58 b := b.map fun c => Char.ofNat c.toNat

theorem toy_lawful : Lawful toy where
  net k p h := by
    have h : (if k.length = 32 then some ((2 : UInt8) :: k) else none) = some p := h
    split at h
    · rename_i hk
      cases h
      refine ⟨hk, by rw [List.length_cons, hk], 4 :: (((2 : UInt8) :: k).drop 1 ++ List.replicate 32 0), ?_, ?_⟩
      · exact if_pos (by rw [List.length_cons, hk])
      · simp [hk]
    · cases h
  bls k p h := by
    have h : (if k.length = 32 then some (k ++ List.replicate 16 (7 : UInt8)) else none) = some p := h
    split at h
    · assumption
    · cases h

def rnd0 (i : Nat) : Bytes × Bytes := (List.replicate 32 (UInt8.ofNat i), List.replicate 32 (UInt8.ofNat (100 + i)))

/-- Two pairs are generated into a directory that holds a file; the second can be recovered. -/
example : ∃ fs' ks, generate toy 10 (fun _ => .done) "keys".toList rnd0 2 (put (fun _ => none) "keys/a".toList [1]) =
      .ok (fs', some ks) ∧ ks.length = 2 ∧
    (recover toy fs' "keys/net_1.key".toList "keys/bls_1.key".toList).map (·.netPriv) = some (List.replicate 32 1) ∧
    fs' "keys/a".toList = some [1] := ⟨_, _, rfl, rfl, by decide +kernel, by decide +kernel⟩

/-- The second pair cannot be written: the first is there, and the old second BLS key is lost. -/
example : ∃ fs', generate toy 10 (fun p => if p = "keys/bls_1.key".toList then .cut 3 else .done) "keys".toList rnd0 3
      (fun _ => some [9]) = .ok (fs', none) ∧
    fs' "keys/net_0.key".toList = some (List.replicate 32 0) ∧ fs' "keys/bls_1.key".toList = some [101, 101, 101] ∧
    fs' "keys/net_1.key".toList = some [9] := ⟨_, rfl, by decide +kernel, by decide +kernel, by decide +kernel⟩

end Axon.Keypair
