import Verif.Codec.BlockProps
import Verif.Codec.TxProps

/-!
# Sync RPC responses

Model of `ConsensusRpcResponse`, `core/consensus/src/types.rs:15-57`, with the codec of signed
transactions (`protocol/src/codec/transaction.rs:329-364`).  Signature recovery is a parameter
(`rec t`: recovery of the sender of `t` succeeds); the recovered sender and public key, which are
functions of the transaction, are omitted.
-/

namespace Axon.RpcResponse
open Axon.Rlp Axon.Tx Axon.Block

inductive Response where
  | blocks (b : Block)
  | txs (ts : List Unverified)

/-- `SignedTransaction::rlp_append`, `codec/transaction.rs:329-333`: the raw transaction as a string;
`none` is the panic of the transaction encoder. -/
def signedItem (t : Unverified) : Option Item := (encodeTx t).map .str

/-- `SignedTransaction::decode`, `codec/transaction.rs:335-364`. -/
def decodeSigned (rec : Unverified → Bool) : Item → Outcome Unverified
  | .list _ => .err
  | .str b =>
    match decodeTx b with
    | .ok t => if t.signature.isSome && rec t then .ok t else .err
    | .err => .err
    | .panic => .panic

/-- `collect::<Result<Vec<_>, _>>()`: the first failure ends the iteration. -/
def mapOutcome {α β : Type} (f : α → Outcome β) : List α → Outcome (List β)
  | [] => .ok []
  | x :: xs =>
    match f x with
    | .ok y =>
      match mapOutcome f xs with
      | .ok ys => .ok (y :: ys)
      | .err => .err
      | .panic => .panic
    | .err => .err
    | .panic => .panic

/-- `BatchSignedTxs::encode_msg`, `types/batch.rs:9-12` -/
def encodeBatch (ts : List Unverified) : Option Bytes :=
  (ts.mapM signedItem).map fun l => encode (.list l)

/-- `BatchSignedTxs::decode_msg`, `types/batch.rs:14-19` -/
def decodeBatch (rec : Unverified → Bool) (bs : Bytes) : Outcome (List Unverified) :=
  match decodePrefix bs with
  | some (.list l, _) => mapOutcome (decodeSigned rec) l
  | _ => .err

/-- `ConsensusRpcResponse::encode_msg`, `types.rs:22-37` -/
def encodeMsg : Response → Option Bytes
  | .blocks b => some (encodeBlock b ++ [97])
  | .txs ts => (encodeBatch ts).map (· ++ [98])

/-- `ConsensusRpcResponse::decode_msg`, `types.rs:39-56`: `len - 1` overflows on the empty string,
an unknown last byte is `unreachable!()`. -/
def decodeMsg (rec : Unverified → Bool) (bs : Bytes) : Outcome Response :=
  match bs.getLast? with
  | none => .panic
  | some flag =>
    if flag = 97 then
      match decodeBlock bs.dropLast with
      | some b => .ok (.blocks b)
      | none => .err
    else if flag = 98 then
      match decodeBatch rec bs.dropLast with
      | .ok ts => .ok (.txs ts)
      | .err => .err
      | .panic => .panic
    else .panic

/-! ## Lemmas -/

theorem mapOutcome_ok {α β : Type} (f : α → Outcome β) (l : List α) (r : List β)
    (h : l.length = r.length) (hf : ∀ i (h1 : i < l.length) (h2 : i < r.length), f l[i] = .ok r[i]) :
    mapOutcome f l = .ok r := by
  induction l generalizing r with
  | nil => cases r with
    | nil => rfl
    | cons => simp at h
  | cons x xs ih =>
    cases r with
    | nil => simp at h
    | cons y ys =>
      have h0 := hf 0 (by simp) (by simp)
      simp only [List.getElem_cons_zero] at h0
      have ht := ih ys (by simpa using h) (fun i h1 h2 => by
        have := hf (i + 1) (by simpa using h1) (by simpa using h2)
        simpa using this)
      simp [mapOutcome, h0, ht]

theorem mapOutcome_mem {α β : Type} (f : α → Outcome β) (l : List α) (r : List β)
    (h : mapOutcome f l = .ok r) : ∀ y ∈ r, ∃ x ∈ l, f x = .ok y := by
  induction l generalizing r with
  | nil => simp only [mapOutcome, Outcome.ok.injEq] at h; subst h; simp
  | cons a l ih =>
    unfold mapOutcome at h
    split at h
    · rename_i z hz
      split at h
      · rename_i zs hzs
        simp only [Outcome.ok.injEq] at h
        subst h
        intro y hy
        rcases List.mem_cons.1 hy with rfl | hy
        · exact ⟨a, by simp, hz⟩
        · obtain ⟨x, hx, he⟩ := ih zs hzs y hy
          exact ⟨x, by simp [hx], he⟩
      · cases h
      · cases h
    · cases h
    · cases h

theorem mapOutcome_panic {α β : Type} (f : α → Outcome β) (l : List α) :
    mapOutcome f l = .panic ↔
      ∃ pre x post, l = pre ++ x :: post ∧ f x = .panic ∧ ∀ y ∈ pre, ∃ z, f y = .ok z := by
  induction l with
  | nil => simp [mapOutcome]
  | cons a l ih =>
    unfold mapOutcome
    constructor
    · intro h
      split at h
      · rename_i y hy
        split at h
        · simp at h
        · simp at h
        · rename_i hp
          obtain ⟨pre, x, post, rfl, hx, hpre⟩ := ih.1 hp
          refine ⟨a :: pre, x, post, rfl, hx, ?_⟩
          intro z hz
          rw [List.mem_cons] at hz
          rcases hz with rfl | hz
          · exact ⟨y, hy⟩
          · exact hpre z hz
      · simp at h
      · rename_i hp
        exact ⟨[], a, l, rfl, hp, by simp⟩
    · rintro ⟨pre, x, post, he, hx, hpre⟩
      cases pre with
      | nil =>
        simp only [List.nil_append, List.cons.injEq] at he
        obtain ⟨rfl, rfl⟩ := he
        rw [hx]
      | cons b pre =>
        simp only [List.cons_append, List.cons.injEq] at he
        obtain ⟨rfl, rfl⟩ := he
        obtain ⟨z, hz⟩ := hpre a (by simp)
        have : mapOutcome f (pre ++ x :: post) = .panic :=
          ih.2 ⟨pre, x, post, rfl, hx, fun y hy => hpre y (by simp [hy])⟩
        rw [hz, this]

end Axon.RpcResponse
