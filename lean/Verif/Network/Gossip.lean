/-!
# Whom a gossiped message is sent to

Model of `NetworkGossip::gossip` (core/network/src/outbound/gossip.rs:150-176) and of `RandomGossip`
(lines 203-228).  tentacle's `filter_broadcast` asks the filter once for every open session, in the order
of its session table, which is the list here.
-/

namespace Axon.Gossip

/-- gossip.rs:219-227: `next_inner`. -/
def next (index : Nat) : Bool × Nat := if index < 2 then (true, index + 1) else (false, 0)

/-- gossip.rs:163-172: the sessions for which the filter answers yes; `index` is the random start in 0..3,
`origin` the session the message came from, if any. -/
def targets (origin : Option Nat) : Nat → List Nat → List Nat
  | _, [] => []
  | index, s :: ss =>
    if origin = some s then targets origin index ss
    else
      match next index with
      | (true, i) => s :: targets origin i ss
      | (false, i) => targets origin i ss

end Axon.Gossip
