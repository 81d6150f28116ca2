/-!
# IP addresses
-/

namespace Axon

/-- `std::net::IpAddr` as a number of 32 or 128 bits. -/
inductive Ip where
  | v4 (n : Nat)
  | v6 (n : Nat)
deriving DecidableEq, Repr

/-- `IpAddr::is_loopback`: 127.0.0.0/8 or ::1. -/
def Ip.loopback : Ip → Bool
  | .v4 n => decide (n / 2 ^ 24 = 127)
  | .v6 n => decide (n = 1)

/-- `IpAddr::is_unspecified`: 0.0.0.0 or ::. -/
def Ip.unspecified : Ip → Bool
  | .v4 n => decide (n = 0)
  | .v6 n => decide (n = 0)

end Axon
