import Verif.Util.Assoc
import Verif.Util.Bytes

/-!
# Network RPC: pending calls and their responses

Model of `RpcMap` (core/network/src/reactor/rpc_map.rs), of the caller `NetworkRpc::call`
(core/network/src/outbound/rpc.rs:66-143) and of the response branch of `MessageReactor::react`
(core/network/src/reactor/mod.rs:76-113) as a transition system.  Each step is one access to shared
memory: one atomic addition, one critical section of the `RwLock`, one operation of a oneshot
channel.  Any number of calls and of received responses interleave in any order.
-/

namespace Axon.Rpc

open Axon.Assoc

/-- core/network/src/rpc.rs:5-9: `RpcResponse`.  The text of an error is modelled by its bytes. -/
inductive Resp where
  | success (payload : Bytes)
  | error (text : Bytes)
deriving DecidableEq, Repr

/-- core/network/src/rpc.rs:11-28: `RpcResponse::encode`. -/
def Resp.encode : Resp → Bytes
  | .success b => 0 :: b
  | .error e => 1 :: e

/-- `"empty message"`. -/
def emptyMessage : Bytes := [101, 109, 112, 116, 121, 32, 109, 101, 115, 115, 97, 103, 101]

/-- core/network/src/reactor/mod.rs:77-89: content of a response.  `String::from_utf8_lossy`, the
identity on the bytes of a string, is the parameter `lossy`. -/
def Resp.decode (lossy : Bytes → Bytes) : Bytes → Resp
  | [] => .error emptyMessage
  | b :: raw => if b = 0 then .success raw else .error (lossy raw)

/-- core/network/src/reactor/rpc_map.rs:15-19: `Key`. -/
structure Key where
  sid : Nat
  rid : Nat
deriving DecidableEq, Repr

/-- How a call ended: core/network/src/outbound/rpc.rs:118-142, and `cancelled` for a call whose
future is dropped or which fails before it waits (lines 100, 101, 111, 113). -/
inductive End where
  | got (r : Resp)
  | dropped
  | timeout
  | cancelled
deriving DecidableEq, Repr

/-- Where a call is: it has an id but is not in the map yet (`fresh`), it waits, it has ended and the
guard has still to check the map (`ended`) or to remove the key (`guarded`), or it is over. -/
inductive Phase where
  | fresh
  | waiting
  | ended (e : End)
  | guarded (e : End)
  | closed (e : End)
deriving DecidableEq, Repr

/-- The end of a call, if it has ended. -/
def Phase.result : Phase → Option End
  | .fresh => none
  | .waiting => none
  | .ended e => some e
  | .guarded e => some e
  | .closed e => some e

/-- One call with its oneshot channel: `slot` is the value sent, `dropped` tells that the sender is
gone without having sent. -/
structure Call where
  sid : Nat
  rid : Nat
  phase : Phase
  slot : Option Resp
  dropped : Bool
deriving DecidableEq, Repr

/-- The key a call is registered under. -/
def Call.key (c : Call) : Key := ⟨c.sid, c.rid⟩

/-- Where the processing of a received response is.
`ignored`: core/network/src/reactor/mod.rs:93-102, `unknown`: the error of `RpcMap::take`,
`holds c`: the sender of call `c` was taken, `sent c`: it accepted the response, `lost c`: the caller
was gone (mod.rs:106-109). -/
inductive Pc where
  | start
  | found
  | found2
  | holds (c : Nat)
  | sent (c : Nat)
  | lost (c : Nat)
  | ignored
  | unknown
deriving DecidableEq, Repr

/-- A received response: session it arrived on, id in its endpoint, content. -/
structure Task where
  sid : Nat
  rid : Nat
  resp : Resp
  pc : Pc
deriving DecidableEq, Repr

/-- The key of a received response. -/
def Task.key (t : Task) : Key := ⟨t.sid, t.rid⟩

/-- core/network/src/reactor/rpc_map.rs:23-27 with the calls and responses of one execution.  A map
entry holds the number of the call whose sender it is. -/
structure St where
  next : Nat
  map : List (Key × Nat)
  nCalls : Nat
  calls : List (Nat × Call)
  nTasks : Nat
  tasks : List (Nat × Task)

/-- core/network/src/reactor/rpc_map.rs:30-35: `RpcMap::new`. -/
def init : St := ⟨0, [], 0, [], 0, []⟩

/-- core/network/src/reactor/rpc_map.rs:52-55: `contains`. -/
def St.contains (s : St) (k : Key) : Bool := (get s.map k).isSome

/-- The sender of call `c` is dropped. -/
def dropSender (calls : List (Nat × Call)) (c : Nat) : List (Nat × Call) :=
  match get calls c with
  | some x => put calls c { x with dropped := true }
  | none => calls

/-- core/network/src/reactor/rpc_map.rs:37-39 and core/network/src/outbound/rpc.rs:80: a new call
takes its id, `fetch_add` wraps around. -/
def St.open (s : St) (sid : Nat) : St :=
  { s with
    next := (s.next + 1) % 2 ^ 64
    nCalls := s.nCalls + 1
    calls := put s.calls s.nCalls ⟨sid, s.next, .fresh, none, false⟩ }

/-- core/network/src/reactor/rpc_map.rs:41-50: `insert` by call `c`; the sender of an entry that is
overwritten is dropped. -/
def St.register (s : St) (c : Nat) : St :=
  match get s.calls c with
  | none => s
  | some x =>
    match x.phase with
    | .fresh =>
      let calls := match get s.map x.key with
        | some c' => dropSender s.calls c'
        | none => s.calls
      { s with
        map := put s.map x.key c
        calls := put calls c { x with phase := .waiting } }
    | _ => s

/-- A response arrives. -/
def St.receive (s : St) (sid rid : Nat) (r : Resp) : St :=
  { s with nTasks := s.nTasks + 1, tasks := put s.tasks s.nTasks ⟨sid, rid, r, .start⟩ }

/-- A oneshot send: it succeeds while the receiver waits. -/
def St.send (s : St) (t : Nat) (x : Task) (c : Nat) : St :=
  match get s.calls c with
  | some y =>
    match y.phase with
    | .waiting =>
      { s with calls := put s.calls c { y with slot := some x.resp }
               tasks := put s.tasks t { x with pc := .sent c } }
    | _ => { s with calls := put s.calls c { y with dropped := true }
                    tasks := put s.tasks t { x with pc := .lost c } }
  | none => { s with tasks := put s.tasks t { x with pc := .lost c } }

/-- core/network/src/reactor/rpc_map.rs:57-78 and core/network/src/reactor/mod.rs:90-112: the next step
of processing response `t`: the check of the reactor, the check of `take`, the removal of `take`, the
send.  `downcast` and `Arc::try_unwrap` always succeed: every sender is put in by `insert` with the
same type and one reference. -/
def St.advance (s : St) (t : Nat) : St :=
  match get s.tasks t with
  | none => s
  | some x =>
    match x.pc with
    | .start =>
      { s with tasks := put s.tasks t { x with pc := if s.contains x.key then .found else .ignored } }
    | .found =>
      { s with tasks := put s.tasks t { x with pc := if s.contains x.key then .found2 else .unknown } }
    | .found2 =>
      match get s.map x.key with
      | none => { s with tasks := put s.tasks t { x with pc := .unknown } }
      | some c =>
        { s with map := del s.map x.key, tasks := put s.tasks t { x with pc := .holds c } }
    | .holds c => s.send t x c
    | _ => s

/-- The end a polled call sees: tokio's `timeout` polls the channel before the clock. -/
def pollEnd (x : Call) (late : Bool) : Option End :=
  match x.slot with
  | some r => some (.got r)
  | none => if x.dropped then some .dropped else if late then some .timeout else none

/-- core/network/src/outbound/rpc.rs:117-142: call `c` is polled; `late` tells that ten seconds have
passed. -/
def St.poll (s : St) (c : Nat) (late : Bool) : St :=
  match get s.calls c with
  | none => s
  | some x =>
    match x.phase with
    | .waiting =>
      match pollEnd x late with
      | some e => { s with calls := put s.calls c { x with phase := .ended e } }
      | none => s
    | _ => s

/-- Call `c` is given up while it waits. -/
def St.cancel (s : St) (c : Nat) : St :=
  match get s.calls c with
  | none => s
  | some x =>
    match x.phase with
    | .waiting => { s with calls := put s.calls c { x with phase := .ended .cancelled } }
    | _ => s

/-- core/network/src/outbound/rpc.rs:91-97 and core/network/src/reactor/rpc_map.rs:57-78: the next step
of the guard of call `c`, which takes the sender and drops it. -/
def St.guard (s : St) (c : Nat) : St :=
  match get s.calls c with
  | none => s
  | some x =>
    match x.phase with
    | .ended e =>
      let phase := if s.contains x.key then .guarded e else .closed e
      { s with calls := put s.calls c { x with phase := phase } }
    | .guarded e =>
      let calls := put s.calls c { x with phase := .closed e }
      match get s.map x.key with
      | none => { s with calls := calls }
      | some c' => { s with map := del s.map x.key, calls := dropSender calls c' }
    | _ => s

/-- The steps of an execution. -/
inductive Act where
  | open (sid : Nat)
  | register (c : Nat)
  | receive (sid rid : Nat) (r : Resp)
  | advance (t : Nat)
  | poll (c : Nat) (late : Bool)
  | cancel (c : Nat)
  | guard (c : Nat)
deriving DecidableEq, Repr

def step (s : St) : Act → St
  | .open sid => s.open sid
  | .register c => s.register c
  | .receive sid rid r => s.receive sid rid r
  | .advance t => s.advance t
  | .poll c late => s.poll c late
  | .cancel c => s.cancel c
  | .guard c => s.guard c

def run (s : St) (as : List Act) : St := as.foldl step s

theorem run_nil (s : St) : run s [] = s := rfl

theorem run_append (s : St) (as bs : List Act) : run s (as ++ bs) = run (run s as) bs := by
  simp [run]

theorem run_cons (s : St) (a : Act) (as : List Act) : run s (a :: as) = run (step s a) as := rfl

/-! ## Invariant -/

/-- What holds of every reachable state. -/
structure Inv (s : St) : Prop where
  next : s.next = s.nCalls % 2 ^ 64
  fresh : ∀ c, s.nCalls ≤ c → get s.calls c = none
  freshT : ∀ t, s.nTasks ≤ t → get s.tasks t = none
  rid : ∀ c x, get s.calls c = some x → x.rid = c % 2 ^ 64
  /-- a map entry belongs to a registered call with that key whose sender is unused -/
  entry : ∀ k c, get s.map k = some c → ∃ x, get s.calls c = some x ∧ x.key = k ∧
    x.phase ≠ .fresh ∧ (∀ e, x.phase ≠ .closed e) ∧ x.slot = none ∧ x.dropped = false
  /-- a sender held by the processing of a response is not in the map -/
  held : ∀ t y c, get s.tasks t = some y → y.pc = .holds c → ∃ x, get s.calls c = some x ∧
    x.key = y.key ∧ x.phase ≠ .fresh ∧ x.slot = none ∧ x.dropped = false ∧
    (∀ k, get s.map k ≠ some c)
  heldOnce : ∀ t y t' y' c, get s.tasks t = some y → get s.tasks t' = some y' →
    y.pc = .holds c → y'.pc = .holds c → t = t'
  sent : ∀ t y c, get s.tasks t = some y → y.pc = .sent c → ∃ x, get s.calls c = some x ∧
    x.key = y.key ∧ x.phase ≠ .fresh ∧ x.slot = some y.resp
  sentOnce : ∀ t y t' y' c, get s.tasks t = some y → get s.tasks t' = some y' →
    y.pc = .sent c → y'.pc = .sent c → t = t'
  /-- a value in a channel was sent by the processing of a response -/
  slot : ∀ c x r, get s.calls c = some x → x.slot = some r →
    ∃ t y, get s.tasks t = some y ∧ y.pc = .sent c
  /-- a call that waits has its sender in the map, held, or gone -/
  live : ∀ c x, get s.calls c = some x → x.phase = .waiting → x.slot = none → x.dropped = false →
    get s.map x.key = some c ∨ ∃ t y, get s.tasks t = some y ∧ y.pc = .holds c
  freshSlot : ∀ c x, get s.calls c = some x → x.phase = .fresh → x.slot = none ∧ x.dropped = false
  got : ∀ c x r, get s.calls c = some x → x.phase.result = some (.got r) → x.slot = some r
  endDropped : ∀ c x, get s.calls c = some x → x.phase.result = some .dropped → x.dropped = true
  /-- a waiting call loses its sender only to another call with the same key -/
  lostSender : ∀ c x, get s.calls c = some x → x.dropped = true →
    (∃ e, x.phase.result = some e ∧ e ≠ .dropped) ∨ ∃ c', c' ≠ c ∧ (get s.calls c').map Call.key = some x.key

theorem get_dropSender (calls : List (Nat × Call)) (c d : Nat) :
    get (dropSender calls c) d =
      if d = c then (get calls c).map (fun x => { x with dropped := true }) else get calls d := by
  unfold dropSender
  cases h : get calls c with
  | none =>
    by_cases hd : d = c
    · simp [hd, h]
    · simp [hd]
  | some x =>
    simp only [get_put]
    by_cases hd : d = c <;> simp [hd]

theorem inv_init : Inv init := by
  constructor <;> simp [init, get_nil]

theorem inv_open {s : St} (h : Inv s) (sid : Nat) : Inv (s.open sid) := by
  have h0 := h.fresh s.nCalls (Nat.le_refl _)
  obtain ⟨h1, h2, h3, h4, h5, h6, h7, h8, h9, h10, h11, h12, h13, h14, h15⟩ := h
  constructor <;> simp only [St.open, get_put, Call.key, Phase.result] at * <;> grind

theorem inv_receive {s : St} (h : Inv s) (sid rid : Nat) (r : Resp) : Inv (s.receive sid rid r) := by
  have h0 := h.freshT s.nTasks (Nat.le_refl _)
  obtain ⟨h1, h2, h3, h4, h5, h6, h7, h8, h9, h10, h11, h12, h13, h14, h15⟩ := h
  constructor <;> simp only [St.receive, get_put, Call.key, Task.key] at * <;> grind

theorem inv_cancel {s : St} (h : Inv s) (c : Nat) : Inv (s.cancel c) := by
  unfold St.cancel
  cases hx : get s.calls c with
  | none => exact h
  | some x =>
    dsimp only
    split
    next hw =>
      obtain ⟨h1, h2, h3, h4, h5, h6, h7, h8, h9, h10, h11, h12, h13, h14, h15⟩ := h
      constructor <;> simp only [get_put, Task.key] at * <;> grind [Call.key, Phase.result]
    next => exact h

theorem inv_poll {s : St} (h : Inv s) (c : Nat) (late : Bool) : Inv (s.poll c late) := by
  unfold St.poll
  cases hx : get s.calls c with
  | none => exact h
  | some x =>
    dsimp only
    split
    next hw =>
      cases he : pollEnd x late with
      | none => exact h
      | some e =>
        have hd : e = .dropped → x.dropped = true := by
          unfold pollEnd at he; grind
        have hg : ∀ r, e = .got r → x.slot = some r := by
          unfold pollEnd at he; grind
        obtain ⟨h1, h2, h3, h4, h5, h6, h7, h8, h9, h10, h11, h12, h13, h14, h15⟩ := h
        constructor <;> simp only [get_put, Task.key] at * <;> grind [Call.key, Phase.result]
    next => exact h

theorem inv_register {s : St} (h : Inv s) (c : Nat) : Inv (s.register c) := by
  unfold St.register
  cases hx : get s.calls c with
  | none => exact h
  | some x =>
    dsimp only
    split
    next hw =>
      cases hm : get s.map x.key with
      | none =>
        obtain ⟨h1, h2, h3, h4, h5, h6, h7, h8, h9, h10, h11, h12, h13, h14, h15⟩ := h
        constructor <;> simp only [get_put, Task.key] at *
        all_goals grind [Call.key, Phase.result]
      | some c' =>
        obtain ⟨h1, h2, h3, h4, h5, h6, h7, h8, h9, h10, h11, h12, h13, h14, h15⟩ := h
        constructor <;> simp only [get_put, get_dropSender, Task.key] at *
        all_goals grind [Call.key, Phase.result]
    next => exact h

theorem inv_guard1 {s : St} (h : Inv s) {c : Nat} {x : Call} {e : End} (hx : get s.calls c = some x)
    (hw : x.phase = .ended e) (hc : (get s.map x.key).isSome) :
    Inv { s with calls := put s.calls c { x with phase := .guarded e } } := by
  obtain ⟨h1, h2, h3, h4, h5, h6, h7, h8, h9, h10, h11, h12, h13, h14, h15⟩ := h
  constructor <;> simp only [get_put, Task.key] at * <;> grind [Call.key, Phase.result]

theorem inv_guard2 {s : St} (h : Inv s) {c : Nat} {x : Call} {e : End} (hx : get s.calls c = some x)
    (hw : x.phase = .ended e ∨ x.phase = .guarded e) (hc : get s.map x.key = none) :
    Inv { s with calls := put s.calls c { x with phase := .closed e } } := by
  obtain ⟨h1, h2, h3, h4, h5, h6, h7, h8, h9, h10, h11, h12, h13, h14, h15⟩ := h
  constructor <;> simp only [get_put, Task.key] at * <;> grind [Call.key, Phase.result]

theorem inv_guard3 {s : St} (h : Inv s) {c c' : Nat} {x : Call} {e : End} (hx : get s.calls c = some x)
    (hw : x.phase = .guarded e) (hc : get s.map x.key = some c') :
    Inv { s with map := del s.map x.key,
                 calls := dropSender (put s.calls c { x with phase := .closed e }) c' } := by
  obtain ⟨y, hy, hk, hf, hcl, hsl, hdr⟩ := h.entry _ _ hc
  obtain ⟨h1, h2, h3, h4, h5, h6, h7, h8, h9, h10, h11, h12, h13, h14, h15⟩ := h
  constructor <;> simp only [get_put, get_del, get_dropSender, Task.key] at *
  all_goals grind [Call.key, Phase.result]

theorem inv_guard {s : St} (h : Inv s) (c : Nat) : Inv (s.guard c) := by
  unfold St.guard
  cases hx : get s.calls c with
  | none => exact h
  | some x =>
    dsimp only
    split
    next e hw =>
      cases hc : get s.map x.key with
      | none => simpa [St.contains, hc] using inv_guard2 h hx (.inl hw) hc
      | some c' => simpa [St.contains, hc] using inv_guard1 h hx hw (by simp [hc])
    next e hw =>
      cases hm : get s.map x.key with
      | none => exact inv_guard2 h hx (.inr hw) hm
      | some c' => exact inv_guard3 h hx hw hm
    next => exact h

theorem inv_send {s : St} (h : Inv s) {t c : Nat} {x : Task} (hx : get s.tasks t = some x)
    (hp : x.pc = .holds c) : Inv (s.send t x c) := by
  obtain ⟨y, hy, hk, hf, hsl, hdr, hmap⟩ := h.held _ _ _ hx hp
  unfold St.send
  simp only [hy]
  split
  next hw =>
    obtain ⟨h1, h2, h3, h4, h5, h6, h7, h8, h9, h10, h11, h12, h13, h14, h15⟩ := h
    constructor <;> simp only [get_put] at *
    all_goals grind [Call.key, Phase.result, Task.key]
  next hw =>
    have hr : ∃ e, y.phase.result = some e ∧ e ≠ .dropped := by
      cases hph : y.phase with
      | fresh => exact absurd hph hf
      | waiting => exact absurd hph hw
      | ended e => exact ⟨e, rfl, fun he => by
          have := h.endDropped _ _ hy (by rw [hph, he]; rfl); simp [hdr] at this⟩
      | guarded e => exact ⟨e, rfl, fun he => by
          have := h.endDropped _ _ hy (by rw [hph, he]; rfl); simp [hdr] at this⟩
      | closed e => exact ⟨e, rfl, fun he => by
          have := h.endDropped _ _ hy (by rw [hph, he]; rfl); simp [hdr] at this⟩
    obtain ⟨h1, h2, h3, h4, h5, h6, h7, h8, h9, h10, h11, h12, h13, h14, h15⟩ := h
    constructor <;> simp only [get_put] at *
    all_goals grind [Call.key, Task.key]

theorem inv_pc {s : St} (h : Inv s) {t : Nat} {x : Task} (hx : get s.tasks t = some x) (p : Pc)
    (h1 : ∀ c, x.pc ≠ .holds c) (h1' : ∀ c, x.pc ≠ .sent c) (h2 : ∀ c, p ≠ .holds c) (h3 : ∀ c, p ≠ .sent c) :
    Inv { s with tasks := put s.tasks t { x with pc := p } } := by
  obtain ⟨g1, g2, g3, g4, g5, g6, g7, g8, g9, g10, g11, g12, g13, g14, g15⟩ := h
  constructor <;> simp only [get_put] at *
  all_goals grind [Task.key]

theorem inv_take {s : St} (h : Inv s) {t c : Nat} {x : Task} (hx : get s.tasks t = some x)
    (hp : x.pc = .found2) (hm : get s.map x.key = some c) :
    Inv { s with map := del s.map x.key, tasks := put s.tasks t { x with pc := .holds c } } := by
  obtain ⟨y, hy, hk, hf, hcl, hsl, hdr⟩ := h.entry _ _ hm
  obtain ⟨g1, g2, g3, g4, g5, g6, g7, g8, g9, g10, g11, g12, g13, g14, g15⟩ := h
  constructor <;> simp only [get_put, get_del] at *
  all_goals grind [Task.key]

theorem inv_advance {s : St} (h : Inv s) (t : Nat) : Inv (s.advance t) := by
  unfold St.advance
  cases hx : get s.tasks t with
  | none => exact h
  | some x =>
    dsimp only
    split
    next hp => exact inv_pc h hx _ (by simp [hp]) (by simp [hp]) (by grind) (by grind)
    next hp => exact inv_pc h hx _ (by simp [hp]) (by simp [hp]) (by grind) (by grind)
    next hp =>
      cases hm : get s.map x.key with
      | none => exact inv_pc h hx _ (by simp [hp]) (by simp [hp]) (by grind) (by grind)
      | some c => exact inv_take h hx hp hm
    next c hp => exact inv_send h hx hp
    next => exact h

theorem inv_step {s : St} (h : Inv s) (a : Act) : Inv (step s a) := by
  cases a with
  | «open» sid => exact inv_open h sid
  | register c => exact inv_register h c
  | receive sid rid r => exact inv_receive h sid rid r
  | advance t => exact inv_advance h t
  | poll c late => exact inv_poll h c late
  | cancel c => exact inv_cancel h c
  | guard c => exact inv_guard h c

theorem inv_run {s : St} (h : Inv s) (as : List Act) : Inv (run s as) := by
  induction as generalizing s with
  | nil => exact h
  | cons a as ih => exact ih (inv_step h a)

end Axon.Rpc
