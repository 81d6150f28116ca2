import Verif.Network.Ip
import Verif.Util.Assoc
import Verif.Util.Outcome

/-!
# The ban list of the peer store

Model of core/network/src/peer_manager/peer_store/ban_list.rs and of `ban_network`
(peer_store_impl.rs:208-217).
-/

namespace Axon.Bans

open Axon.Assoc

/-- `ipnetwork::IpNetwork`: an address — host bits are kept and take part in equality — and a prefix
length. -/
inductive Net where
  | v4 (n prefix_ : Nat)
  | v6 (n prefix_ : Nat)
deriving DecidableEq, Repr

/-- `IpNetwork::contains` of the ipnetwork crate: equal under the mask; the families never mix. -/
def Net.contains : Net → Ip → Bool
  | .v4 n p, .v4 ip => decide (n / 2 ^ (32 - p) = ip / 2 ^ (32 - p))
  | .v6 n p, .v6 ip => decide (n / 2 ^ (128 - p) = ip / 2 ^ (128 - p))
  | _, _ => false

/-- types.rs:134-139: `ip_to_network`. -/
def ipNet : Ip → Net
  | .v4 n => .v4 n 32
  | .v6 n => .v6 n 128

/-- ban_list.rs:12-15: `BanList`; of a `BannedAddr` only `ban_until` matters. -/
structure BanList where
  inner : List (Net × Nat)
  insertCount : Nat

/-- ban_list.rs:25-30: `new`. -/
def BanList.new : BanList := ⟨[], 0⟩

/-- ban_list.rs:79-83: `clear_expires`. -/
def BanList.clearExpires (b : BanList) (now : Nat) : BanList :=
  { b with inner := b.inner.filter fun e => decide (e.2 > now) }

/-- ban_list.rs:33-40: `ban`; the counter wraps. -/
def BanList.ban (b : BanList) (net : Net) (till now : Nat) : BanList :=
  let c := (b.insertCount + 1) % 2 ^ 64
  let b := { inner := put b.inner net till, insertCount := c }
  if c % 1024 = 0 then b.clearExpires now else b

/-- ban_list.rs:43-45: `unban_network`. -/
def BanList.unban (b : BanList) (net : Net) : BanList := { b with inner := del b.inner net }

/-- ban_list.rs:47-58: `is_ip_banned_until`. -/
def BanList.isBanned (b : BanList) (ip : Ip) (now : Nat) : Bool :=
  (match Assoc.get b.inner (ipNet ip) with
    | some till => decide (till > now)
    | none => false) ||
  b.inner.any fun e => decide (e.2 > now) && e.1.contains ip

/-- ban_list.rs:67-71: `is_addr_banned` of an address whose socket address has this IP, if any. -/
def BanList.isAddrBanned (b : BanList) (ip : Option Ip) (now : Nat) : Bool :=
  match ip with
  | none => false
  | some ip => b.isBanned ip now

/-- peer_store_impl.rs:208-217: `ban_network`; the addition of two `u64` panics on overflow. -/
def BanList.banNetwork (b : BanList) (net : Net) (timeout now : Nat) : Outcome BanList :=
  if now + timeout < 2 ^ 64 then .ok (b.ban net (now + timeout) now) else .panic

/-- An operation with the time at which it happens. -/
inductive Op where
  | ban (net : Net) (till : Nat)
  | unban (net : Net)
deriving DecidableEq

def BanList.step (b : BanList) (e : Nat × Op) : BanList :=
  match e.2 with
  | .ban net till => b.ban net till e.1
  | .unban net => b.unban net

def BanList.run (b : BanList) (ops : List (Nat × Op)) : BanList := ops.foldl BanList.step b

theorem contains_ipNet (ip : Ip) : (ipNet ip).contains ip = true := by
  cases ip <;> simp [ipNet, Net.contains]

theorem contains_ipNet_iff (ip ip' : Ip) : (ipNet ip).contains ip' = true ↔ ip' = ip := by
  cases ip <;> cases ip' <;> simp [ipNet, Net.contains, eq_comm]

theorem isBanned_iff {b : BanList} (hn : NodupKeys b.inner) (ip : Ip) (t : Nat) :
    b.isBanned ip t = true ↔ ∃ net till, Assoc.get b.inner net = some till ∧ t < till ∧ net.contains ip = true := by
  unfold BanList.isBanned
  simp only [Bool.or_eq_true, List.any_eq_true, Bool.and_eq_true, decide_eq_true_eq]
  constructor
  · rintro (h | ⟨e, he, h1, h2⟩)
    · cases hg : Assoc.get b.inner (ipNet ip) with
      | none => rw [hg] at h; cases h
      | some till =>
        rw [hg] at h
        exact ⟨ipNet ip, till, hg, by simpa using h, contains_ipNet ip⟩
    · exact ⟨e.1, e.2, get_of_mem hn he, h1, h2⟩
  · rintro ⟨net, till, hg, h1, h2⟩
    exact .inr ⟨(net, till), mem_of_get hg, h1, h2⟩

theorem get_filter_live {l : List (Net × Nat)} (hn : NodupKeys l) (now : Nat) (net : Net) (till : Nat)
    (ht : now < till) :
    Assoc.get (l.filter fun e => decide (e.2 > now)) net = some till ↔ Assoc.get l net = some till := by
  have hn' : NodupKeys (l.filter fun e => decide (e.2 > now)) := List.Pairwise.sublist List.filter_sublist hn
  constructor
  · intro h
    exact get_of_mem hn (List.mem_filter.1 (mem_of_get h)).1
  · intro h
    exact get_of_mem hn' (List.mem_filter.2 ⟨mem_of_get h, by simpa using ht⟩)

end Axon.Bans
