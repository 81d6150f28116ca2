import Verif.Network.Discovery

/-!
# The identify protocol

Model of `IdentifyProtocol`, core/network/src/protocols/identify/mod.rs:26-385 and protocol.rs.  Changes of the peer
store and of the registry are given as effects.  Left out: `open_protocol`/`close_protocol`, and the peer id of
`RemoteInfo`, which is only logged; whether the session has a public key is part of the event.
-/

namespace Axon.Identify

open Axon.Assoc Axon.Wire Axon.Peers

/-- What the handler knows: the chain id of the node, as the bytes of its text, and the libraries for addresses. -/
structure Cfg where
  chain : Bytes
  env : Discovery.Env

/-- identify/mod.rs:60-66: `RemoteInfo`; the timeout is always 8 s (mod.rs:31, 289), times are in milliseconds. -/
structure Info where
  addr : MAddr
  outbound : Bool
  at_ : Nat
  received : Bool
deriving DecidableEq, Repr

/-- identify/mod.rs:85-89: `IdentifyProtocol`; `global_ip_only` is true (mod.rs:95). -/
abbrev Ident := List (Nat × Info)

/-- What the handler does: sends its identity, asks for a session to be closed, opens the feeler protocol or all
others, enters addresses in the peer store (`add_addr`, `add_outbound_addr`, the latter if not banned), records the
listen addresses of a session, dials. -/
inductive Eff where
  | send (s : Nat) (i : Identity)
  | disconnect (s : Nat)
  | openFeeler (s : Nat)
  | openAll (s : Nat)
  | learn (a : MAddr)
  | learnOutbound (a : MAddr)
  | relearn (a : MAddr)
  | listens (s : Nat) (l : List MAddr)
  | dial (a : MAddr)
deriving DecidableEq, Repr

/-- What happens: a session opens, with a public key or not, with the listen addresses of the node; it closes; bytes
arrive, with the answer of `is_feeler`; the timer. -/
inductive Ev where
  | connected (s : Nat) (addr : MAddr) (outbound hasKey : Bool) (own : List MAddr) (now : Nat)
  | disconnected (s : Nat)
  | received (s : Nat) (data : Bytes) (feeler : Bool)
  | timer (now : Nat)
deriving DecidableEq, Repr

/-- identify/mod.rs:271-313, protocol.rs:17-22, 44-49: `connected`. -/
def connected (c : Cfg) (m : Ident) (s : Nat) (addr : MAddr) (outbound hasKey : Bool) (own : List MAddr) (now : Nat) :
    Outcome (Ident × List Eff) :=
  match addr.peer with
  | none => .panic
  | some _ =>
    if hasKey = false then .panic
    else .ok (put m s ⟨addr, outbound, now, false⟩,
      (if outbound then [.learnOutbound addr] else []) ++
        [.send s ⟨c.chain, some ⟨((own.filter c.env.valid).take 10).map c.env.print, c.env.print addr⟩⟩])

/-- identify/mod.rs:315-336: `disconnected`. -/
def disconnected (m : Ident) (s : Nat) : Outcome (Ident × List Eff) :=
  match get m s with
  | none => .panic
  | some x => .ok (del m s, if x.outbound then [.relearn x.addr] else [])

/-- identify/mod.rs:117-151: `received_identify` on the right chain. -/
def opening (s : Nat) (x : Info) (feeler : Bool) : List Eff :=
  if x.outbound then (if feeler then [.openFeeler s] else [.openAll s]) else []

/-- identify/mod.rs:189-251: `process_observed`: it always continues; the future of `dial` is dropped without being
awaited, so that nothing is dialled. -/
def observed (_c : Cfg) (_x : Info) (_a : Option MAddr) : List Eff := []

/-- identify/mod.rs:338-375, 100-115, 153-187, protocol.rs:24-32: `received`. -/
def received (c : Cfg) (m : Ident) (s : Nat) (data : Bytes) (feeler : Bool) : Outcome (Ident × List Eff) :=
  match decodeIdentity data with
  | none =>
    match get m s with
    | none => .panic
    | some _ => .ok (m, [.disconnect s])
  | some msg =>
    match msg.info with
    | none => .ok (m, [.disconnect s])
    | some i =>
      match get m s with
      | none => .panic
      | some x =>
        if x.received then .ok (m, [.disconnect s])
        else if msg.chainId ≠ c.chain then .ok (put m s { x with received := true }, [.disconnect s])
        else if (i.listen.filterMap c.env.parse).length > 10 then
          .ok (put m s { x with received := true }, opening s x feeler ++ [.disconnect s])
        else
          .ok (put m s { x with received := true },
            opening s x feeler ++ ((i.listen.filterMap c.env.parse).filter c.env.valid).map .learn ++
              [.listens s ((i.listen.filterMap c.env.parse).filter c.env.valid)] ++
              observed c x (c.env.parse i.observed))

/-- identify/mod.rs:377-384: `notify`. -/
def timer (m : Ident) (now : Nat) : List Eff :=
  (m.filter fun e => !e.2.received && decide (e.2.at_ + 8000 ≤ now)).map fun e => .disconnect e.1

/-- identify/mod.rs:254-385. -/
def step (c : Cfg) (m : Ident) : Ev → Outcome (Ident × List Eff)
  | .connected s addr outbound hasKey own now => connected c m s addr outbound hasKey own now
  | .disconnected s => disconnected m s
  | .received s data feeler => received c m s data feeler
  | .timer now => .ok (m, timer m now)

/-- What happened and what was done, latest first. -/
abbrev History := List (Ev × List Eff)

/-- The executions of the handler. -/
inductive Run (c : Cfg) : History → Ident → Prop
  | new : Run c [] []
  | step {h : History} {m m' : Ident} {e : Ev} {fx : List Eff} (r : Run c h m) (hs : step c m e = .ok (m', fx)) :
    Run c ((e, fx) :: h) m'

end Axon.Identify
