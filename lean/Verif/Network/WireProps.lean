import Verif.Network.Wire

/-!
# C94 — control messages arrive as they were sent, and a received one holds no more than its bytes
-/

namespace Axon.Wire

open Axon.Proto

/-! ## Specification -/

/-- A number that Rust's `u32` holds. -/
def U32 (n : Nat) : Prop := n < 2 ^ 32

def Ping.Fits : Ping → Prop
  | .ping n => U32 n
  | .pong n => U32 n

def Payload.Fits : Payload → Prop
  | .getNodes g => U32 g.version ∧ U32 g.count ∧ ∀ p, g.port = some p → U32 p
  | .nodes _ => True

/-- What the items of a message hold: two for each item, two for each address, and its bytes. -/
def weight (items : List (List Bytes)) : Nat :=
  (items.map fun l => 2 + (l.map fun a => 2 + a.length).sum).sum

/-! ## Lemmas -/

theorem shrinks_ping (d : Nat) : Shrinks (pingField d) := by
  intro s t w b s' r h
  unfold pingField at h
  split at h
  · rw [Option.map_eq_some_iff] at h; obtain ⟨x, hx, hy⟩ := h; cases hy; exact Nat.le_of_lt (mergeU32_length (n := x.1) hx).1
  · rw [Option.map_eq_some_iff] at h; obtain ⟨x, hx, hy⟩ := h; cases hy; exact Nat.le_of_lt (mergeU32_length (n := x.1) hx).1
  · exact (skip_length h).2

theorem shrinks_getNodes (d : Nat) : Shrinks (getNodesField d) := by
  intro s t w b s' r h
  unfold getNodesField at h
  split at h
  · rw [Option.map_eq_some_iff] at h; obtain ⟨x, hx, hy⟩ := h; cases hy; exact Nat.le_of_lt (mergeU32_length (n := x.1) hx).1
  · rw [Option.map_eq_some_iff] at h; obtain ⟨x, hx, hy⟩ := h; cases hy; exact Nat.le_of_lt (mergeU32_length (n := x.1) hx).1
  · rw [Option.map_eq_some_iff] at h; obtain ⟨x, hx, hy⟩ := h; cases hy; exact Nat.le_of_lt (mergeU32_length (n := x.1) hx).1
  · exact (skip_length h).2

/-- The weight of the addresses of an item. -/
def weight1 (l : List Bytes) : Nat := (l.map fun a => 2 + a.length).sum

theorem bounded_node (d : Nat) : Bounded weight1 (nodeField d) := by
  intro s t w b s' r h
  unfold nodeField at h
  split at h
  · rw [Option.map_eq_some_iff] at h; obtain ⟨x, hx, hy⟩ := h; cases hy
    have := mergeBytes_length (v := x.1) hx
    simp [weight1]; omega
  · obtain ⟨h1, h2⟩ := skip_length h
    rw [h1]; omega

theorem shrinks_node (d : Nat) : Shrinks (nodeField d) := by
  intro s t w b s' r h
  unfold nodeField at h
  split at h
  · rw [Option.map_eq_some_iff] at h; obtain ⟨x, hx, hy⟩ := h; cases hy
    have := mergeBytes_length (v := x.1) hx
    omega
  · exact (skip_length h).2

theorem bounded_nodes (d : Nat) : Bounded (fun n : Nodes => weight n.items) (nodesField d) := by
  intro s t w b s' r h
  unfold nodesField at h
  split at h
  · rw [Option.map_eq_some_iff] at h; obtain ⟨x, hx, hy⟩ := h; cases hy
    have := mergeBool_length (n := x.1) hx
    simp only; omega
  · rw [Option.map_eq_some_iff] at h; obtain ⟨x, hx, hy⟩ := h; cases hy
    have := mergeMsg_bounded (s' := x.1) bounded_node hx
    simp [weight1] at this
    simp [weight]; omega
  · obtain ⟨h1, h2⟩ := skip_length h
    rw [h1]; omega

theorem shrinks_nodes (d : Nat) : Shrinks (nodesField d) := by
  intro s t w b s' r h
  unfold nodesField at h
  split at h
  · rw [Option.map_eq_some_iff] at h; obtain ⟨x, hx, hy⟩ := h; cases hy
    exact Nat.le_of_lt (mergeBool_length (n := x.1) hx)
  · rw [Option.map_eq_some_iff] at h; obtain ⟨x, hx, hy⟩ := h; cases hy
    exact Nat.le_of_lt (mergeMsg_length (s' := x.1) hx)
  · exact (skip_length h).2

/-- The weight of a payload. -/
def weightP : Option Payload → Nat
  | some (.nodes n) => weight n.items
  | _ => 0

theorem bounded_getNodes (d : Nat) : Bounded (fun _ : GetNodes => 0) (getNodesField d) := by
  intro s t w b s' r h
  have := shrinks_getNodes d _ _ _ _ _ _ h
  simp; omega

theorem bounded_disc (d : Nat) : Bounded weightP (discField d) := by
  intro s t w b s' r h
  unfold discField at h
  split at h
  · rw [Option.map_eq_some_iff] at h; obtain ⟨x, hx, hy⟩ := h; cases hy
    have := mergeMsg_length (s' := x.1) hx
    simp [weightP]; omega
  · rw [Option.map_eq_some_iff] at h; obtain ⟨x, hx, hy⟩ := h; cases hy
    have := mergeMsg_bounded (s' := x.1) bounded_nodes hx
    have h2 : weight (curNodes s).items ≤ weightP s := by
      cases s with
      | none => simp [curNodes, weight]
      | some p => cases p <;> simp [curNodes, weight, weightP]
    show weight x.1.items + x.2.length ≤ weightP s + b.length + 1
    omega
  · obtain ⟨h1, h2⟩ := skip_length h
    rw [h1]; omega

theorem shrinks_disc (d : Nat) : Shrinks (discField d) := by
  intro s t w b s' r h
  unfold discField at h
  split at h
  · rw [Option.map_eq_some_iff] at h; obtain ⟨x, hx, hy⟩ := h; cases hy
    exact Nat.le_of_lt (mergeMsg_length (s' := x.1) hx)
  · rw [Option.map_eq_some_iff] at h; obtain ⟨x, hx, hy⟩ := h; cases hy
    exact Nat.le_of_lt (mergeMsg_length (s' := x.1) hx)
  · exact (skip_length h).2

/-- The weight of an `AddressInfo`. -/
def weightI (i : AddrInfo) : Nat := weight1 i.listen + i.observed.length

theorem bounded_info (d : Nat) : Bounded weightI (infoField d) := by
  intro s t w b s' r h
  unfold infoField at h
  split at h
  · rw [Option.map_eq_some_iff] at h; obtain ⟨x, hx, hy⟩ := h; cases hy
    have := mergeBytes_length (v := x.1) hx
    simp [weightI, weight1]; omega
  · rw [Option.map_eq_some_iff] at h; obtain ⟨x, hx, hy⟩ := h; cases hy
    have := mergeBytes_length (v := x.1) hx
    simp only [weightI]; omega
  · obtain ⟨h1, h2⟩ := skip_length h
    rw [h1]; omega

theorem shrinks_info (d : Nat) : Shrinks (infoField d) := by
  intro s t w b s' r h
  unfold infoField at h
  split at h
  · rw [Option.map_eq_some_iff] at h; obtain ⟨x, hx, hy⟩ := h; cases hy
    have := mergeBytes_length (v := x.1) hx
    omega
  · rw [Option.map_eq_some_iff] at h; obtain ⟨x, hx, hy⟩ := h; cases hy
    have := mergeBytes_length (v := x.1) hx
    omega
  · exact (skip_length h).2

/-- The weight of an `Identity`. -/
def weightD (i : Identity) : Nat := i.chainId.length + (i.info.map weightI).getD 0

theorem bounded_identity (d : Nat) : Bounded weightD (identityField d) := by
  intro s t w b s' r h
  unfold identityField at h
  split at h
  · rw [Option.map_eq_some_iff] at h; obtain ⟨x, hx, hy⟩ := h; cases hy
    have := mergeBytes_length (mergeString_bytes (v := x.1) hx).1
    simp only [weightD]; omega
  · rw [Option.map_eq_some_iff] at h; obtain ⟨x, hx, hy⟩ := h; cases hy
    have := mergeMsg_bounded (s' := x.1) bounded_info hx
    have h2 : weightI (s.info.getD ⟨[], []⟩) = (s.info.map weightI).getD 0 := by
      cases s.info <;> simp [weightI, weight1]
    simp only [weightD, Option.map_some, Option.getD_some]; omega
  · obtain ⟨h1, h2⟩ := skip_length h
    rw [h1]; omega

theorem shrinks_identity (d : Nat) : Shrinks (identityField d) := by
  intro s t w b s' r h
  unfold identityField at h
  split at h
  · rw [Option.map_eq_some_iff] at h; obtain ⟨x, hx, hy⟩ := h; cases hy
    have := mergeBytes_length (mergeString_bytes (v := x.1) hx).1
    omega
  · rw [Option.map_eq_some_iff] at h; obtain ⟨x, hx, hy⟩ := h; cases hy
    exact Nat.le_of_lt (mergeMsg_length (s' := x.1) hx)
  · exact (skip_length h).2

theorem encField_eq (tag : Nat) (v : Bytes) : encField tag v = encKey tag 2 ++ (encVarint v.length ++ v) := by
  unfold encField; rw [List.append_assoc]

theorem length_le_encField (tag : Nat) (v : Bytes) : v.length ≤ (encField tag v).length := by
  rw [encField_eq]; simp; omega

theorem length_le_flatMap {α : Type} (f : α → Bytes) (l : List α) (x : α) (h : x ∈ l) :
    (f x).length ≤ (l.flatMap f).length := by
  induction l with
  | nil => cases h
  | cons y l ih =>
    rw [List.flatMap_cons, List.length_append]
    rcases List.mem_cons.1 h with rfl | h
    · omega
    · have := ih h; omega

theorem reads_addrs (d : Nat) (l : List Bytes) (hl : ∀ a ∈ l, a.length < 2 ^ 64) :
    Reads (nodeField d) [] (encodeNode l) l := by
  have h := Reads.fold (f := nodeField d) (encField 1) (fun s x => s ++ [x]) l (by
    intro s x hx
    rw [encField_eq]
    refine Reads.field (shrinks_node d) (by omega) (by omega) (by omega) fun rest => ?_
    show (mergeBytes 2 _).map _ = _
    rw [mergeBytes_enc x rest (hl x hx)]
    rfl) []
  have e : ∀ (l s : List Bytes), l.foldl (fun s x => s ++ [x]) s = s ++ l := by
    intro l
    induction l with
    | nil => simp
    | cons x l ih => intro s; rw [List.foldl_cons, ih]; simp
  rw [e] at h
  exact h

/-- Reading `Nodes` back. -/
theorem reads_nodes (d : Nat) (hd : d ≠ 0) (n : Nodes) (hl : (encodeNodes n).length < 2 ^ 64) :
    Reads (nodesField d) ⟨false, []⟩ (encodeNodes n) n := by
  obtain ⟨ann, items⟩ := n
  unfold encodeNodes at hl ⊢
  simp only at hl ⊢
  have h1 : Reads (nodesField d) ⟨false, []⟩ (if ann = true then encU32 1 1 else []) ⟨ann, []⟩ := by
    cases ann with
    | false => exact Reads.nil _ _
    | true =>
      rw [if_pos rfl]
      refine Reads.field (shrinks_nodes d) (by omega) (by omega) (by omega) fun rest => ?_
      show (mergeBool 0 _).map _ = _
      unfold mergeBool
      rw [if_pos rfl, decVarint_enc 1 (by omega)]
      rfl
  refine h1.append ?_
  have h := Reads.fold (f := nodesField d) (fun l => encField 2 (encodeNode l))
    (fun (s : Nodes) x => { s with items := s.items ++ [x] }) items (by
    intro s x hx
    have hx1 := length_le_flatMap (fun l => encField 2 (encodeNode l)) items x hx
    have hx2 := length_le_encField 2 (encodeNode x)
    rw [List.length_append] at hl
    rw [encField_eq]
    refine Reads.field (shrinks_nodes d) (by omega) (by omega) (by omega) fun rest => ?_
    show (mergeMsg nodeField d [] 2 _).map _ = _
    rw [mergeMsg_reads hd (reads_addrs (d - 1) x ?_) (by omega)]
    · rfl
    · intro a ha
      have h3 := length_le_flatMap (encField 1) x a ha
      have h4 := length_le_encField 1 a
      have h5 : (encodeNode x).length = (x.flatMap (encField 1)).length := rfl
      omega) ⟨ann, []⟩
  have e : ∀ (l : List (List Bytes)) (s : Nodes),
      l.foldl (fun (s : Nodes) x => { s with items := s.items ++ [x] }) s = ⟨s.announce, s.items ++ l⟩ := by
    intro l
    induction l with
    | nil => intro s; simp
    | cons x l ih => intro s; rw [List.foldl_cons, ih]; simp
  rw [e] at h
  exact h

theorem reads_u32 {σ : Type} {f : σ → Nat → Nat → Bytes → Option (σ × Bytes)} (hf : Shrinks f) (t n : Nat)
    (ht : 1 ≤ t) (ht' : t < 100) (hn : n < 2 ^ 32) (s : σ) (upd : Nat → σ)
    (h : ∀ b, f s t 0 b = (mergeU32 0 b).map fun x => (upd x.1, x.2)) : Reads f s (encU32 t n) (upd n) := by
  refine Reads.field hf ht (by omega) (by omega) fun rest => ?_
  rw [h, mergeU32_enc n hn]
  rfl

/-- Reading `GetNodes` back. -/
theorem reads_getNodes (d : Nat) (g : GetNodes) (h : (Payload.getNodes g).Fits) :
    Reads (getNodesField d) ⟨0, 0, none⟩ (encodeGetNodes g) g := by
  obtain ⟨v, c, p⟩ := g
  obtain ⟨h1, h2, h3⟩ := h
  unfold encodeGetNodes
  simp only at h1 h2 h3 ⊢
  have r1 : Reads (getNodesField d) ⟨0, 0, none⟩ (encU32Opt 1 v) ⟨v, 0, none⟩ := by
    unfold encU32Opt
    split
    · next h => subst h; exact Reads.nil _ _
    · exact reads_u32 (shrinks_getNodes d) 1 v (by omega) (by omega) h1 _ (fun n => ⟨n, 0, none⟩) fun _ => rfl
  have r2 : Reads (getNodesField d) ⟨v, 0, none⟩ (encU32Opt 2 c) ⟨v, c, none⟩ := by
    unfold encU32Opt
    split
    · next h => subst h; exact Reads.nil _ _
    · exact reads_u32 (shrinks_getNodes d) 2 c (by omega) (by omega) h2 _ (fun n => ⟨v, n, none⟩) fun _ => rfl
  refine (r1.append r2).append ?_
  cases p with
  | none => exact Reads.nil _ _
  | some p =>
    exact reads_u32 (shrinks_getNodes d) 3 p (by omega) (by omega) (h3 p rfl) _ (fun n => ⟨v, c, some n⟩) fun _ => rfl

/-- Reading `AddressInfo` back. -/
theorem reads_info (d : Nat) (i : AddrInfo) (hl : (encodeInfo i).length < 2 ^ 64) :
    Reads (infoField d) ⟨[], []⟩ (encodeInfo i) i := by
  obtain ⟨ls, o⟩ := i
  unfold encodeInfo at hl ⊢
  simp only at hl ⊢
  rw [List.length_append] at hl
  have h := Reads.fold (f := infoField d) (encField 1)
    (fun (s : AddrInfo) x => { s with listen := s.listen ++ [x] }) ls (by
    intro s x hx
    have h3 := length_le_flatMap (encField 1) ls x hx
    have h4 := length_le_encField 1 x
    rw [encField_eq]
    refine Reads.field (shrinks_info d) (by omega) (by omega) (by omega) fun rest => ?_
    show (mergeBytes 2 _).map _ = _
    rw [mergeBytes_enc x rest (by omega)]
    rfl) ⟨[], []⟩
  have e : ∀ (l : List Bytes) (s : AddrInfo),
      l.foldl (fun (s : AddrInfo) x => { s with listen := s.listen ++ [x] }) s = ⟨s.listen ++ l, s.observed⟩ := by
    intro l
    induction l with
    | nil => intro s; simp
    | cons x l ih => intro s; rw [List.foldl_cons, ih]; simp
  rw [e] at h
  refine h.append ?_
  unfold encOpt
  split
  · next ho => simp at ho; subst ho; exact Reads.nil _ _
  · next ho =>
    have h4 := length_le_encField 2 o
    unfold encOpt at hl
    rw [if_neg ho] at hl
    rw [encField_eq]
    refine Reads.field (shrinks_info d) (by omega) (by omega) (by omega) fun rest => ?_
    show (mergeBytes 2 _).map _ = _
    rw [mergeBytes_enc o rest (by omega)]
    rfl

/-! ## C94 -/

/-- C94: a ping or pong is read back as it was written. -/
theorem C94_ping (p : Option Ping) (h : ∀ x, p = some x → x.Fits) : decodePing (encodePing p) = some p := by
  unfold decodePing
  refine Reads.decode ?_
  cases p with
  | none => exact Reads.nil _ _
  | some p =>
    have hp := h p rfl
    cases p with
    | ping n => exact reads_u32 (shrinks_ping _) 1 n (by omega) (by omega) hp _ (fun n => some (.ping n)) fun _ => rfl
    | pong n => exact reads_u32 (shrinks_ping _) 2 n (by omega) (by omega) hp _ (fun n => some (.pong n)) fun _ => rfl

/-- C94: a discovery message is read back as it was written. -/
theorem C94_discovery (p : Option Payload) (h : ∀ x, p = some x → x.Fits) (hl : (encodeDisc p).length < 2 ^ 64) :
    decodeDisc (encodeDisc p) = some p := by
  unfold decodeDisc
  refine Reads.decode ?_
  cases p with
  | none => exact Reads.nil _ _
  | some p =>
    have hp := h p rfl
    cases p with
    | getNodes g =>
      have h4 := length_le_encField 1 (encodeGetNodes g)
      unfold encodeDisc at hl ⊢
      simp only at hl ⊢
      rw [encField_eq]
      refine Reads.field (shrinks_disc _) (by omega) (by omega) (by omega) fun rest => ?_
      show (mergeMsg getNodesField recursionLimit ⟨0, 0, none⟩ 2 _).map _ = _
      rw [mergeMsg_reads (d := recursionLimit) (by decide) (reads_getNodes _ g hp) (by omega)]
      rfl
    | nodes n =>
      have h4 := length_le_encField 2 (encodeNodes n)
      unfold encodeDisc at hl ⊢
      simp only at hl ⊢
      rw [encField_eq]
      refine Reads.field (shrinks_disc _) (by omega) (by omega) (by omega) fun rest => ?_
      show (mergeMsg nodesField recursionLimit ⟨false, []⟩ 2 _).map _ = _
      rw [mergeMsg_reads (d := recursionLimit) (by decide) (reads_nodes _ (by decide) n (by omega)) (by omega)]
      rfl

/-- C94: an identity is read back as it was written. -/
theorem C94_identity (i : Identity) (h : utf8 i.chainId = true) (hl : (encodeIdentity i).length < 2 ^ 64) :
    decodeIdentity (encodeIdentity i) = some i := by
  unfold decodeIdentity
  refine Reads.decode ?_
  obtain ⟨c, info⟩ := i
  unfold encodeIdentity at hl ⊢
  simp only at hl h ⊢
  rw [List.length_append] at hl
  have r1 : Reads (identityField recursionLimit) ⟨[], none⟩ (encOpt 1 c) ⟨c, none⟩ := by
    unfold encOpt at hl ⊢
    split
    · next ho => simp at ho; subst ho; exact Reads.nil _ _
    · next ho =>
      have h4 := length_le_encField 1 c
      rw [if_neg ho] at hl
      rw [encField_eq]
      refine Reads.field (shrinks_identity _) (by omega) (by omega) (by omega) fun rest => ?_
      show (mergeString 2 _).map _ = _
      rw [mergeString_enc c rest (by omega) h]
      rfl
  refine r1.append ?_
  cases info with
  | none => exact Reads.nil _ _
  | some a =>
    have h4 := length_le_encField 2 (encodeInfo a)
    simp only at hl ⊢
    rw [encField_eq]
    refine Reads.field (shrinks_identity _) (by omega) (by omega) (by omega) fun rest => ?_
    show (mergeMsg infoField recursionLimit ⟨[], []⟩ 2 _).map _ = _
    rw [mergeMsg_reads (d := recursionLimit) (by decide) (reads_info _ a (by omega)) (by omega)]
    rfl

/-- C94: whatever bytes arrive, the nodes read from them are no more than the bytes allow: two bytes for
each item, two for each address, and the addresses themselves. -/
theorem C94_nodes_bounded (b : Bytes) (n : Nodes) (h : decodeDisc b = some (some (.nodes n))) :
    (n.items.map fun l => 2 + (l.map fun a => 2 + a.length).sum).sum ≤ b.length := by
  unfold decodeDisc decodeMsg at h
  rw [Option.map_eq_some_iff] at h
  obtain ⟨x, hx, hy⟩ := h
  have := mergeLoop_bounded (bounded_disc _) (s' := x.1) hx
  rw [hy] at this
  simp only [weightP, weight] at this
  omega

/-- C94: likewise for an identity. -/
theorem C94_identity_bounded (b : Bytes) (i : Identity) (h : decodeIdentity b = some i) :
    i.chainId.length ≤ b.length ∧
    ∀ a, i.info = some a → i.chainId.length + (a.listen.map fun x => 2 + x.length).sum + a.observed.length ≤ b.length := by
  unfold decodeIdentity decodeMsg at h
  rw [Option.map_eq_some_iff] at h
  obtain ⟨x, hx, hy⟩ := h
  have := mergeLoop_bounded (bounded_identity _) (s' := x.1) hx
  rw [hy] at this
  simp only [weightD, Option.map_none, Option.getD_none, List.length_nil] at this
  refine ⟨by omega, fun a ha => ?_⟩
  rw [ha] at this
  simp only [Option.map_some, Option.getD_some, weightI, weight1] at this
  omega

/-- **C94, the full statement is false.** The encoding is not unique: a message with any number of
unknown fields in front is the same message. -/
theorem C94_unique_false (k n : Nat) (hn : n < 2 ^ 32) :
    decodePing ((List.replicate k (encU32 9 0)).flatten ++ encodePing (some (.pong n))) = some (some (.pong n)) ∧
    (0 < k → (List.replicate k (encU32 9 0)).flatten ++ encodePing (some (.pong n)) ≠ encodePing (some (.pong n))) := by
  constructor
  · unfold decodePing
    refine Reads.decode (Reads.append (s' := none) ?_ (reads_u32 (shrinks_ping _) 2 n (by omega) (by omega) hn _
      (fun n => some (.pong n)) fun _ => rfl))
    induction k with
    | zero => exact Reads.nil _ _
    | succ k ih =>
      rw [List.replicate_succ, List.flatten_cons]
      refine Reads.append (s' := none) ?_ ih
      refine Reads.field (shrinks_ping _) (by omega) (by omega) (by omega) fun rest => ?_
      show skip _ _ _ _ _ = _
      unfold skip recursionLimit skipField
      simp only
      rw [decVarint_enc 0 (by omega)]
      rfl
  · intro hk h
    have hlen := congrArg List.length h
    rw [List.length_append] at hlen
    have : 0 < ((List.replicate k (encU32 9 0)).flatten).length := by
      obtain ⟨j, rfl⟩ : ∃ j, k = j + 1 := ⟨k - 1, by omega⟩
      rw [List.replicate_succ, List.flatten_cons, List.length_append]
      have : 0 < (encU32 9 0).length := by
        unfold encU32 encKey
        have := List.length_pos_iff.2 (encVarint_ne_nil (9 * 8 + 0))
        rw [List.length_append]; omega
      omega
    omega

/-! ## Concrete cases -/

example : encodePing (some (.ping 300)) = [8, 172, 2] ∧ decodePing [8, 172, 2] = some (some (.ping 300)) := by
  refine ⟨by simp [encodePing, encU32, encKey, encVarint], by decide +kernel⟩

/-- Bytes that hold a number beyond 32 bits are cut. -/
example : decodePing [16, 255, 255, 255, 255, 31] = some (some (.pong 4294967295)) := by decide +kernel

example : decodePing [] = some none ∧ decodePing [8] = none ∧ decodePing [10, 0] = none := by decide +kernel

example : decodeDisc [10, 6, 8, 1, 16, 5, 24, 7] = some (some (.getNodes ⟨1, 5, some 7⟩)) := by decide +kernel

/-- Two payloads of nodes in one message are one. -/
example : decodeDisc [18, 8, 8, 1, 18, 4, 10, 2, 4, 4, 18, 2, 18, 0] =
    some (some (.nodes ⟨true, [[[4, 4]], []]⟩)) := by decide +kernel

example : decodeIdentity [10, 1, 50, 18, 6, 10, 1, 9, 18, 1, 8] = some ⟨[50], some ⟨[[9]], [8]⟩⟩ ∧
    decodeIdentity [10, 1, 200] = none := by decide +kernel

end Axon.Wire
