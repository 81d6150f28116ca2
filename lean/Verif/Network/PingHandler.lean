import Verif.Network.WireProps
import Verif.Util.Assoc

/-!
# The ping protocol

Model of `PingHandler`, core/network/src/protocols/ping.rs:19-221.  Times are milliseconds of the monotonic
clock.  `open_protocol` and `close_protocol` of the peer manager, which only mark the protocol in the
registry, are left out.
-/

namespace Axon.PingProto

open Axon.Assoc Axon.Wire

/-- ping.rs:93-100: `PingStatus`. -/
structure Status where
  processing : Bool
  sentAt : Nat
  nonce : Nat
deriving DecidableEq, Repr

/-- ping.rs:29-35: `PingHandler`; the interval only sets the timer. -/
structure Handler where
  timeout : Nat
  start : Nat
  sessions : List (Nat × Status)
deriving DecidableEq, Repr

/-- ping.rs:38-51: `new`. -/
def Handler.new (timeout now : Nat) : Handler := ⟨timeout, now, []⟩

/-- What happens to the handler; the bytes are those of a message. -/
inductive Ev where
  | connected (s now : Nat)
  | disconnected (s : Nat)
  | received (s : Nat) (data : Bytes)
  | pingTimer (now : Nat)
  | checkTimer (now : Nat)
deriving DecidableEq, Repr

/-- What the handler does: it sends a message, or asks for a session to be closed. -/
inductive Eff where
  | send (s : Nat) (data : Bytes)
  | disconnect (s : Nat)
deriving DecidableEq, Repr

/-- ping.rs:88-90: `nonce`, whole seconds cut to 32 bits. -/
def Handler.nonce (h : Handler) (now : Nat) : Nat := (now - h.start) / 1000 % 2 ^ 32

/-- ping.rs:57-70: one entry in `ping_peers`. -/
def Status.pinged (x : Status) (now nonce : Nat) : Status := if x.processing then x else ⟨true, now, nonce⟩

/-- ping.rs:57-85: `ping_peers`; one broadcast is a message to every one of the peers. -/
def Handler.pingPeers (h : Handler) (now : Nat) : Handler × List Eff :=
  ({ h with sessions := h.sessions.map fun e => (e.1, e.2.pinged now (h.nonce now)) },
   (h.sessions.filter fun e => !e.2.processing).map fun e => .send e.1 (encodePing (some (.ping (h.nonce now)))))

/-- ping.rs:169-201: `received`. -/
def Handler.received (h : Handler) (s : Nat) (data : Bytes) : Handler × List Eff :=
  match decodePing data with
  | none => (h, [])
  | some none => (h, [])
  | some (some (.ping n)) => (h, [.send s (encodePing (some (.pong n)))])
  | some (some (.pong n)) =>
    match get h.sessions s with
    | none => (h, [])
    | some x =>
      if x.processing = true ∧ n = x.nonce then
        ({ h with sessions := put h.sessions s { x with processing := false } }, [])
      else (h, [.disconnect s])

/-- ping.rs:204-219: the timeout check of `notify`. -/
def Handler.check (h : Handler) (now : Nat) : List Eff :=
  (h.sessions.filter fun e => e.2.processing && decide (now - e.2.sentAt ≥ h.timeout)).map fun e => .disconnect e.1

/-- ping.rs:119-221: `connected`, `disconnected`, `received`, `notify`. -/
def Handler.step (h : Handler) : Ev → Handler × List Eff
  | .connected s now =>
    match get h.sessions s with
    | some _ => (h, [])
    | none => ({ h with sessions := put h.sessions s ⟨false, now, 0⟩ }, [])
  | .disconnected s => ({ h with sessions := del h.sessions s }, [])
  | .received s data => h.received s data
  | .pingTimer now => h.pingPeers now
  | .checkTimer now => (h, h.check now)

/-- What happened and what was done, latest first. -/
abbrev History := List (Ev × List Eff)

/-- The executions of a handler. -/
inductive Run (timeout start : Nat) : History → Handler → Prop
  | new : Run timeout start [] (Handler.new timeout start)
  | step {l : History} {h : Handler} (e : Ev) (r : Run timeout start l h) :
    Run timeout start ((e, (h.step e).2) :: l) (h.step e).1

end Axon.PingProto
