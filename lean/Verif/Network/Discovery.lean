import Verif.Network.WireProps
import Verif.Network.PeerStore

/-!
# The discovery protocol

Model of `DiscoveryProtocol` with `DiscoveryAddressManager`, core/network/src/protocols/discovery/mod.rs:36-400
and state.rs:20-163.  Changes of the peer store are given as effects: the store is shared and modelled in
`Verif.Network.PeerStore`.  Left out: `open_protocol`/`close_protocol`, the mark `reuse` in the registry, and
the set `addr_known`, a stable Bloom filter that forgets and confuses addresses: what it answers is a parameter
of the announcing step.
-/

namespace Axon.Discovery

open Axon.Assoc Axon.Wire Axon.Peers

/-- What the handler takes from libraries: `is_reachable` of tentacle, and the bytes of addresses
(`Multiaddr::try_from`, `to_vec`). -/
structure Env where
  reach : Ip → Bool
  parse : Bytes → Option MAddr
  print : MAddr → Bytes

/-- discovery/mod.rs:330-339: `is_valid_addr`; `discovery_local_address` is false (mod.rs:304-311). -/
def Env.valid (v : Env) (a : MAddr) : Bool :=
  match a.sock with
  | none => false
  | some k => v.reach k.ip

/-- discovery/state.rs:127-133: `RemoteAddress`. -/
inductive Remote where
  | init (a : MAddr)
  | listen (a : MAddr)
deriving DecidableEq, Repr

/-- discovery/state.rs:136-140: `to_inner`. -/
def Remote.addr : Remote → MAddr
  | .init a => a
  | .listen a => a

/-- An address with another TCP port; only the port of the socket address is modelled. -/
def withPort (a : MAddr) (p : Nat) : MAddr := { a with sock := a.sock.map fun k => { k with port := p } }

/-- discovery/state.rs:148-162: `update_port`. -/
def Remote.updatePort (r : Remote) (p : Nat) : Remote :=
  match r with
  | .init a => .listen (withPort a p)
  | .listen a => .listen a

/-- discovery/state.rs:142-146: `change_to_listen`. -/
def Remote.toListen (r : Remote) : Remote := .listen r.addr

/-- discovery/state.rs:29-38: `SessionState`; `addr_known` is left out. -/
structure St where
  remote : Remote
  last : Option Nat
  pending : List MAddr
  gotGet : Bool
  gotNodes : Bool
deriving DecidableEq, Repr

/-- discovery/mod.rs:45-49: the sessions of `DiscoveryProtocol`. -/
abbrev Disc := List (Nat × St)

/-- What the handler does: it sends a message (its bytes are `encodeDisc`), asks for a session to be closed,
or enters an address in the peer store (`add_addr`, `add_outbound_addr`). -/
inductive Eff where
  | send (s : Nat) (p : Payload)
  | disconnect (s : Nat)
  | learn (a : MAddr)
  | learnOutbound (a : MAddr)
deriving DecidableEq, Repr

/-- What happens: a session opens, with the addresses the node listens on; it closes; bytes arrive, with the
addresses the store offers (`fetch_random_addrs(2500)`) and the choice of `choose_multiple`; the timer, with the
addresses of connected validators, the shuffled sessions for every announcement and the answers of the Bloom
filters. -/
inductive Ev where
  | connected (s : Nat) (addr : MAddr) (outbound : Bool) (listens : List MAddr)
  | disconnected (s : Nat)
  | received (s : Nat) (data : Bytes) (offered : List MAddr) (choose : List MAddr → Nat → List MAddr)
  | timer (now : Nat) (consensus : List MAddr) (order : Nat → List Nat → List Nat) (knows : Nat → Nat → Bool)

/-- discovery/mod.rs:266-297: `verify_nodes_message`; true if there is no misbehaviour. -/
def verify (n : Nodes) : Bool :=
  (if n.announce then decide (n.items.length ≤ 10) else decide (n.items.length ≤ 1000)) &&
    n.items.all fun l => decide (l.length ≤ 3)

/-- discovery/state.rs:47-59: the port announced by an outbound session. -/
def Env.ownPort (v : Env) (listens : List MAddr) : Option Nat :=
  ((listens.filter v.valid).filterMap (·.sock)).head?.map (·.port)

/-- discovery/mod.rs:76-87, 315-320, state.rs:41-87: `connected` with `SessionState::new`; an address without
peer id panics; the node runs on Linux. -/
def connected (v : Env) (m : Disc) (s : Nat) (addr : MAddr) (outbound : Bool) (listens : List MAddr) :
    Outcome (Disc × List Eff) :=
  match addr.peer with
  | none => .panic
  | some _ =>
    if outbound then
      .ok (put m s ⟨.listen addr, none, [], false, false⟩, [.send s (.getNodes ⟨1, 1000, v.ownPort listens⟩)])
    else .ok (put m s ⟨.init addr, none, [], false, false⟩, [])

/-- discovery/proto.rs:22-29: `ListenPort::listen_port`. -/
def portOf (g : GetNodes) : Option Nat :=
  match g.port with
  | none => none
  | some p => if p ≤ 65535 then some p else none

/-- discovery/mod.rs:129-130. -/
def remotePort (r : Remote) (g : GetNodes) : Remote :=
  match portOf g with
  | none => r
  | some p => r.updatePort p

/-- discovery/mod.rs:129-136, 341-362: the client's listen address enters the store. -/
def Env.learnPort (v : Env) (r : Remote) (g : GetNodes) : List Eff :=
  match portOf g, remotePort r g with
  | some _, .listen a => if v.valid a then [.learn a] else []
  | _, _ => []

/-- discovery/mod.rs:137-139. -/
def remoteReuse (r : Remote) (g : GetNodes) : Remote := if g.version ≥ 1 then r.toListen else r

/-- discovery/mod.rs:137-142, 390-399: `add_reuse_port_addr`; an address without peer id panics. -/
def learnReuse (r : Remote) (g : GetNodes) : Outcome (List Eff) :=
  if g.version ≥ 1 then
    match r.addr.peer with
    | none => .panic
    | some _ => .ok [.learnOutbound r.addr]
  else .ok []

/-- discovery/mod.rs:144-150: the items of the reply. -/
def replyItems (l : List MAddr) (count : Nat) (choose : List MAddr → Nat → List MAddr) : List MAddr :=
  if l.length > min 1000 count then choose l (min 1000 count) else l

/-- discovery/mod.rs:105-167, 369-384: `GetNodes` is received. -/
def onGetNodes (v : Env) (m : Disc) (s : Nat) (g : GetNodes) (offered : List MAddr)
    (choose : List MAddr → Nat → List MAddr) : Outcome (Disc × List Eff) :=
  match get m s with
  | none => .ok (m, [])
  | some st =>
    if st.gotGet then .ok (m, [.disconnect s])
    else
      match learnReuse (remotePort st.remote g) g with
      | .err => .err
      | .panic => .panic
      | .ok reuse =>
        .ok (put m s { st with gotGet := true, remote := remoteReuse (remotePort st.remote g) g },
          v.learnPort st.remote g ++ reuse ++
            [.send s (.nodes ⟨false, (replyItems (offered.filter v.valid) g.count choose).map fun a => [v.print a]⟩)])

/-- discovery/mod.rs:168-206, 345-362, proto.rs:37-42: `Nodes` is received. -/
def onNodes (v : Env) (m : Disc) (s : Nat) (n : Nodes) : Disc × List Eff :=
  if !verify n then (m, [.disconnect s])
  else
    match get m s with
    | none => (m, [])
    | some st =>
      if !n.announce && st.gotNodes then (m, [.disconnect s])
      else
        (put m s { st with gotNodes := if n.announce then st.gotNodes else true },
          ((n.items.flatMap fun l => l.filterMap v.parse).filter v.valid).map .learn)

/-- discovery/mod.rs:96-221, 364-367: `received`. -/
def received (v : Env) (m : Disc) (s : Nat) (data : Bytes) (offered : List MAddr)
    (choose : List MAddr → Nat → List MAddr) : Outcome (Disc × List Eff) :=
  match decodeDisc data with
  | none => .ok (m, [.disconnect s])
  | some none => .ok (m, [])
  | some (some (.getNodes g)) => onGetNodes v m s g offered choose
  | some (some (.nodes n)) => .ok (onNodes v m s n)

/-- discovery/state.rs:106-124: `send_messages`. -/
def St.flush (v : Env) (s : Nat) (st : St) : List Eff :=
  if st.pending.isEmpty then []
  else [.send s (.nodes ⟨true, st.pending.map fun a => [v.print a]⟩)]

/-- discovery/state.rs:89-94: `check_timer` with one day, mod.rs:43; is it time? -/
def St.due (st : St) (now : Nat) : Bool :=
  match st.last with
  | none => true
  | some t => decide (now - t > 24 * 3600 * 1000)

/-- discovery/mod.rs:229-238, state.rs:89-124: one session at the timer. -/
def St.tick (st : St) (now : Nat) : St :=
  { st with pending := [], last := if st.due now then some now else st.last }

/-- discovery/state.rs:89-104, mod.rs:232-237: the address to announce. -/
def Env.announced (v : Env) (st : St) (now : Nat) : List MAddr :=
  if st.due now then
    match st.remote with
    | .listen a => if v.valid a then [a] else []
    | .init _ => []
  else []

/-- discovery/mod.rs:246-259: address `a` for one session. -/
def offer (a : MAddr) (knows : Nat → Bool) (m : Disc) (k : Nat) : Disc :=
  match get m k with
  | none => m
  | some st =>
    if st.pending.length < 10 ∧ knows k = false then put m k { st with pending := st.pending ++ [a] } else m

/-- discovery/mod.rs:240-262: the announcements from number `i` on. -/
def announce (order : Nat → List Nat → List Nat) (knows : Nat → Nat → Bool) (keys : List Nat) :
    Nat → List MAddr → Disc → Disc
  | _, [], m => m
  | i, a :: l, m => announce order knows keys (i + 1) l (((order i keys).take 3).foldl (offer a (knows i)) m)

/-- discovery/mod.rs:223-263: `notify`. -/
def timer (v : Env) (m : Disc) (now : Nat) (consensus : List MAddr) (order : Nat → List Nat → List Nat)
    (knows : Nat → Nat → Bool) : Disc × List Eff :=
  (announce order knows (m.map (·.1)) 0 (consensus ++ m.flatMap fun e => v.announced e.2 now)
      (m.map fun e => (e.1, e.2.tick now)),
    m.flatMap fun e => e.2.flush v e.1)

/-- discovery/mod.rs:62-264: `connected`, `disconnected`, `received`, `notify`. -/
def step (v : Env) (m : Disc) : Ev → Outcome (Disc × List Eff)
  | .connected s addr outbound listens => connected v m s addr outbound listens
  | .disconnected s => .ok (del m s, [])
  | .received s data offered choose => received v m s data offered choose
  | .timer now consensus order knows => .ok (timer v m now consensus order knows)

/-- What the environment guarantees: ports have 16 bits, `choose_multiple` takes as many elements as it is asked
for, `shuffle` permutes. -/
def Real : Ev → Prop
  | .connected _ _ _ listens => ∀ a ∈ listens, ∀ k, a.sock = some k → k.port < 65536
  | .disconnected _ => True
  | .received _ _ _ choose => ∀ l n, n ≤ l.length → ∃ t : List MAddr, t.Sublist l ∧ (choose l n).Perm t ∧ t.length = n
  | .timer _ _ order _ => ∀ i l, (order i l).Perm l

/-- What happened and what was done, latest first. -/
abbrev History := List (Ev × List Eff)

/-- The executions of the handler. -/
inductive Run (v : Env) : History → Disc → Prop
  | new : Run v [] []
  | step {h : History} {m m' : Disc} {e : Ev} {fx : List Eff} (r : Run v h m) (he : Real e)
    (hs : step v m e = .ok (m', fx)) : Run v ((e, fx) :: h) m'

end Axon.Discovery
