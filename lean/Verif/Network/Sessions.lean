import Verif.Network.PeerStoreProps

/-!
# Sessions: admission, the registry of connected peers, dials and bans

Model of the registry (core/network/src/peer_manager/registry.rs), of the peer manager
(core/network/src/peer_manager/mod.rs) and of the service handler and the dialling loop
(core/network/src/service.rs).

Not modelled: the library `tentacle`, which opens and closes sessions and has a limit of its own on the
number of connections, the protocols opened on a session, metrics and log output.
-/

namespace Axon.Sessions

open Axon.Assoc Axon.Bans Axon.Peers

/-- registry.rs:10-17: `PeerInfo`, which `PeerInfo::new` (20-29) copies from a `SessionContext`; the
fields about protocols and listen addresses are left out. -/
structure Sess where
  id : Nat
  addr : MAddr
  outbound : Bool
deriving DecidableEq, Repr

/-- The parts of `NetworkConfig` (config.rs:40-70) that decide about sessions. -/
structure Config where
  max : Nat
  inLimit : Nat

/-- config.rs:122-130 refuses a maximum that does not exceed the limit on inbound connections. -/
def Config.Ok (c : Config) : Prop := c.inLimit < c.max

/-- config.rs:22, 28: the default limits. -/
def Config.default : Config := ⟨40, 20⟩

/-- peer_manager/mod.rs:21-30: `PeerManager` together with registry.rs:40-45, `Online`. -/
structure Node where
  peers : List (Nat × Sess)
  dialing : List MAddr
  feeler : List MAddr
  store : Store
  boots : List (Nat × MAddr)
  consensus : List Nat

/-- peer_manager/mod.rs:33-55: `new`, with an empty peer store. -/
def Node.new (boots : List (Nat × MAddr)) : Node := ⟨[], [], [], Store.empty, boots, []⟩

/-- registry.rs:72-90: `connection_status`; the total number is `peers.len()`. -/
def Node.total (n : Node) : Nat := n.peers.length
def Node.outbound (n : Node) : Nat := (n.peers.filter fun e => e.2.outbound).length
def Node.inbound (n : Node) : Nat := (n.peers.filter fun e => !e.2.outbound).length

/-- What the node asks of the library. -/
inductive Eff where
  | disconnect (id : Nat)
  | dial (a : MAddr)
  /-- `std::process::exit` (service.rs:644). -/
  | exit
deriving DecidableEq

/-- service.rs:658-665: whether the limits are used up for a session of this kind.  The subtraction does
not underflow (`Config.Ok`). -/
def Node.full (n : Node) (c : Config) (outbound : Bool) : Bool :=
  decide (n.total + 1 > c.max) ||
    (if outbound then decide (n.outbound + 1 > c.max - c.inLimit) else decide (n.inbound + 1 > c.inLimit))

/-- peer_manager/mod.rs:230-235: `always_allow` -/
def Node.alwaysAllow (n : Node) (a : MAddr) (now : Nat) : Outcome Bool :=
  match a.peer with
  | none => .panic
  | some p => .ok ((Assoc.get n.boots p).isSome || decide (p ∈ n.consensus) || !n.store.isBanned a now)

/-- peer_manager/mod.rs:124-147: `register` -/
def Node.register (n : Node) (s : Sess) : Outcome Node :=
  match s.addr.peer with
  | none => .panic
  | some p =>
    match n.store.connect s.addr with
    | .ok st => .ok { n with peers := put n.peers p s, store := st }
    | .err => .err
    | .panic => .panic

/-- service.rs:650-672: the branch `SessionOpen` of `handle_event` -/
def Node.opened (n : Node) (c : Config) (s : Sess) (now : Nat) : Outcome (Node × List Eff) :=
  let n := { n with dialing := n.dialing.filter (· ≠ s.addr) }
  if s.addr ∈ n.feeler then .ok (n, [])
  else
    let admit : Outcome (Node × List Eff) :=
      match n.register s with
      | .ok n' => .ok (n', [])
      | .err => .err
      | .panic => .panic
    if n.full c s.outbound then
      match n.alwaysAllow s.addr now with
      | .ok true => admit
      | .ok false => .ok (n, [.disconnect s.id])
      | .err => .err
      | .panic => .panic
    else admit

/-- peer_manager/mod.rs:149-169: `unregister`, called by the branch `SessionClose` of `handle_event`
(service.rs:673-675) -/
def Node.closed (n : Node) (a : MAddr) : Outcome Node :=
  match a.peer with
  | none => .panic
  | some p =>
    let m := { n with feeler := n.feeler.filter (· ≠ a) }
    match Assoc.get n.peers p with
    | none => .ok m
    | some s => .ok { m with peers := del n.peers p, store := n.store.disconnect s.addr }

/-- service.rs:562-566: a dial failed (`DialerError`).  The list of public addresses, which grows when
the node finds that it dialled itself, is left out. -/
def Node.dialError (n : Node) (a : MAddr) : Node :=
  { n with feeler := n.feeler.filter (· ≠ a), dialing := n.dialing.filter (· ≠ a) }

/-- peer_manager/mod.rs:258-271: `ban_session_id` -/
def Node.banSession (n : Node) (id timeout now : Nat) : Outcome Node :=
  match n.peers.find? fun e => e.2.id = id with
  | none => .ok n
  | some e =>
    match n.store.banAddr e.2.addr timeout now with
    | .ok st => .ok { n with store := st }
    | .err => .err
    | .panic => .panic

/-- peer_manager/mod.rs:249-256: `ban_id`; it never names a session. -/
def Node.banId (n : Node) (p timeout now : Nat) : Outcome (Node × Option Nat) :=
  match Assoc.get n.peers p with
  | none => .ok (n, none)
  | some s =>
    match n.store.banAddr s.addr timeout now with
    | .ok st => .ok ({ n with store := st }, none)
    | .err => .err
    | .panic => .panic

/-- service.rs:588-604: a protocol error on a session: a ban of 300 seconds, then the session is closed. -/
def Node.protocolError (n : Node) (id now : Nat) : Outcome (Node × List Eff) :=
  match n.banSession id 300000 now with
  | .ok n' => .ok (n', [.disconnect id])
  | .err => .err
  | .panic => .panic

/-- service.rs:632-645: a protocol handler panicked while it served a session. -/
def Node.handleError (n : Node) (id : Option Nat) (now : Nat) : Outcome (Node × List Eff) :=
  match id with
  | none => .ok (n, [.exit])
  | some id =>
    match n.banSession id 300000 now with
    | .ok n' => .ok (n', [.exit])
    | .err => .err
    | .panic => .panic

/-- service.rs:128-139: the tag `Ban` -/
def Node.tagBan (n : Node) (p until_ now : Nat) : Outcome (Node × List Eff) :=
  match n.banId p until_ now with
  | .ok (n', some id) => .ok (n', [.disconnect id])
  | .ok (n', none) => .ok (n', [])
  | .err => .err
  | .panic => .panic

/-- service.rs:120-127: the tag `Consensus` -/
def Node.tagConsensus (n : Node) (p : Nat) : Node := { n with consensus := p :: n.consensus.filter (· ≠ p) }

/-- service.rs:145-160: `untag` -/
def Node.untagConsensus (n : Node) (p : Nat) : Node := { n with consensus := n.consensus.filter (· ≠ p) }

/-- service.rs:162-178: `tag_consensus` -/
def Node.setConsensus (n : Node) (ps : List Nat) : Node := { n with consensus := ps.eraseDups }

/-- service.rs:349-366: `dial_feeler` -/
def Node.dialFeeler (n : Node) (a : MAddr) : Outcome (Node × List Eff) :=
  match a.peer with
  | none => .panic
  | some p =>
    if (Assoc.get n.peers p).isSome ∨ a ∈ n.dialing ∨ a ∈ n.feeler then .ok (n, [])
    else .ok ({ n with feeler := a :: n.feeler }, [.dial a])

/-- service.rs:369-386: `dial_identify` -/
def Node.dialIdentify (n : Node) (a : MAddr) : Outcome (Node × List Eff) :=
  match a.peer with
  | none => .panic
  | some p =>
    if (Assoc.get n.peers p).isSome ∨ a ∈ n.feeler ∨ a ∈ n.dialing then .ok (n, [])
    else .ok ({ n with dialing := a :: n.dialing }, [.dial a])

/-- Dialling a list of addresses one after the other. -/
def Node.dialAll (n : Node) : List MAddr → Outcome (Node × List Eff)
  | [] => .ok (n, [])
  | a :: l =>
    match n.dialIdentify a with
    | .err => .err
    | .panic => .panic
    | .ok (n1, e1) =>
      match n1.dialAll l with
      | .err => .err
      | .panic => .panic
      | .ok (n2, e2) => .ok (n2, e1 ++ e2)

/-- peer_manager/mod.rs:187-197: `unconnected_bootstraps` -/
def Node.unconnectedBoots (n : Node) : List MAddr :=
  (n.boots.filter fun e => !(Assoc.get n.peers e.1).isSome).map (·.2)

/-- service.rs:427-429: how many peers `try_dial_peers` still wants; the code subtracts the number of
*inbound* connections. -/
def Node.wanted (n : Node) (c : Config) : Nat := (c.max - c.inLimit) - n.inbound

/-- service.rs:436-445: `fetch_addrs_to_attempt` and `mark_tried` of each address. -/
def Node.attempt (n : Node) (count now : Nat) (ch : Nat → Nat) : Outcome (Node × List MAddr) :=
  match n.store.fetch (n.store.attemptFlt now) count now ch with
  | .err => .err
  | .panic => .panic
  | .ok (st, l) =>
    let book := l.foldl (fun b x => b.update x.addr (·.markTried now)) st.book
    .ok ({ n with store := { st with book := book } }, l.map (·.addr))

/-- service.rs:423-487: `try_dial_peers`; `k` is `try_identify_count`, `ch` the random choices of the
address book and `pick` those among the bootstrap nodes. -/
def Node.tryDialPeers (n : Node) (c : Config) (k now : Nat) (ch : Nat → Nat)
    (pick : List MAddr → Nat → List MAddr) : Outcome (Node × Nat × List Eff) :=
  let count := n.wanted c
  if count = 0 then .ok (n, 0, [])
  else
    let go (n : Node) (k : Nat) (l : List MAddr) : Outcome (Node × Nat × List Eff) :=
      match n.dialAll l with
      | .ok (n, e) => .ok (n, k, e)
      | .err => .err
      | .panic => .panic
    if k + 1 > 3 then
      let boots := n.unconnectedBoots
      if boots.length < count then
        match n.attempt (count - boots.length) now ch with
        | .ok (n, l) => go n 0 (l ++ boots)
        | .err => .err
        | .panic => .panic
      else go n 0 (pick boots count)
    else
      match n.attempt count now ch with
      | .ok (n, l) => go n (k + 1) l
      | .err => .err
      | .panic => .panic

/-- peer_store_impl.rs:189-196: `fetch_addr_by_peer_id` -/
def byPeer (st : Store) (p now : Nat) : Outcome (List MAddr) :=
  st.book.getByPeer p now fun x =>
    decide (x.lastConn > now - 3 * 24 * 3600 * 1000) && decide (x.lastConn ≤ now - 15 * 1000)

/-- peer_manager/mod.rs:58-83: `peers`: the sessions of the connected ones and addresses of the others;
outbound/gossip.rs:101-125 sends to the former and dials the latter. -/
def Node.select (n : Node) (now : Nat) : List Nat → Outcome (Node × List Nat × List MAddr)
  | [] => .ok (n, [], [])
  | p :: ps =>
    match Assoc.get n.peers p with
    | some s =>
      match n.select now ps with
      | .ok (n', ss, as_) => .ok (n', s.id :: ss, as_)
      | .err => .err
      | .panic => .panic
    | none =>
      match byPeer n.store p now with
      | .err => .err
      | .panic => .panic
      | .ok l =>
        let book := l.foldl (fun b a => b.update a (·.markTried now)) n.store.book
        match Node.select { n with store := { n.store with book := book } } now ps with
        | .ok (n', ss, as_) => .ok (n', ss, l ++ as_)
        | .err => .err
        | .panic => .panic

/-! ## Histories -/

/-- What happens to a node, each with its time. -/
inductive Ev where
  | opened (s : Sess) (now : Nat)
  | closed (s : Sess)
  | dialError (a : MAddr)
  | protocolError (id now : Nat)
  | tagBan (p until_ now : Nat)
  | tagConsensus (p : Nat)
  | untagConsensus (p : Nat)
  | setConsensus (ps : List Nat)
  | dialFeeler (a : MAddr)
  | dialIdentify (a : MAddr)
  /-- Any operation of the other protocols on the peer store (discovery, identify, feeler). -/
  | addAddr (a : MAddr) (ch : Choice) (now : Nat)
  | addOutbound (a : MAddr) (now : Nat)

/-- An operation of the peer store within the node. -/
def Node.withStore (n : Node) (op : SOp) : Outcome (Node × List Eff) :=
  match n.store.step op with
  | .ok st => .ok ({ n with store := st }, [])
  | .err => .err
  | .panic => .panic

def Node.step (c : Config) (n : Node) : Ev → Outcome (Node × List Eff)
  | .opened s now => n.opened c s now
  | .closed s => match n.closed s.addr with | .ok n' => .ok (n', []) | .err => .err | .panic => .panic
  | .dialError a => .ok (n.dialError a, [])
  | .protocolError id now => n.protocolError id now
  | .tagBan p u now => n.tagBan p u now
  | .tagConsensus p => .ok (n.tagConsensus p, [])
  | .untagConsensus p => .ok (n.untagConsensus p, [])
  | .setConsensus ps => .ok (n.setConsensus ps, [])
  | .dialFeeler a => n.dialFeeler a
  | .dialIdentify a => n.dialIdentify a
  | .addAddr a ch now => n.withStore (.addAddr a ch now)
  | .addOutbound a now => n.withStore (.addOutbound a now)

/-- A history with what the node asked for at each event. -/
inductive Run (c : Config) (boots : List (Nat × MAddr)) : List (Ev × List Eff) → Node → Prop where
  | nil : Run c boots [] (Node.new boots)
  | snoc {h n e n' fx} : Run c boots h n → n.step c e = .ok (n', fx) → Run c boots (h ++ [(e, fx)]) n'

end Axon.Sessions
