/-!
# Outcomes of Rust functions

A Rust function that returns a `Result`/`Option` and that may also panic (index out of range,
arithmetic overflow with `overflow-checks = true`, `unwrap`, `unreachable!`).
-/

namespace Axon

/-- `ok`: returned normally; `err`: returned an error value; `panic`: the thread panicked. -/
inductive Outcome (α : Type) where
  | ok (a : α)
  | err
  | panic
deriving DecidableEq, Repr

namespace Outcome

def ofOption {α : Type} : Option α → Outcome α
  | some a => .ok a
  | none => .err

/-- A missing value is a panic (`unwrap`, checked arithmetic). -/
def orPanic {α : Type} : Option α → Outcome α
  | some a => .ok a
  | none => .panic

def bind {α β : Type} (x : Outcome α) (f : α → Outcome β) : Outcome β :=
  match x with
  | .ok a => f a
  | .err => .err
  | .panic => .panic

instance : Monad Outcome where
  pure := .ok
  bind := bind

end Outcome
end Axon
