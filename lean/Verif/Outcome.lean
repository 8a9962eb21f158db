import Verif.Prob
import Mathlib.Data.Real.Basic

/-!
# Calls that may raise

`Outcome α` is the result of a Python call: a value or an exception; only the class of the exception
is modelled.
-/

namespace Verif

/-- Python exception classes raised by the modelled code. -/
inductive PyErr where
  | valueError
  | indexError
  | typeError
  | attributeError
  | keyError
  | floatingPointError
  | recursionError
  | unboundLocalError
  | notImplementedError
  | linAlgError
deriving DecidableEq, Repr

/-- Result of a call that may raise. -/
inductive Outcome (α : Type*) where
  | ok (a : α)
  | raise (e : PyErr)
deriving DecidableEq

namespace Outcome

/-- `raise ValueError` -/
abbrev valueError {α : Type*} : Outcome α := raise .valueError
/-- `raise IndexError` -/
abbrev indexError {α : Type*} : Outcome α := raise .indexError

/-- apply a function to the value -/
def map {α β : Type*} (f : α → β) : Outcome α → Outcome β
  | ok a => ok (f a)
  | raise e => raise e

end Outcome

namespace Dist
variable {R : Type*} {α β : Type*}

/-- sequencing of random programs that may raise: an exception aborts the rest -/
def andThen [Mul R] [One R] (d : Dist R (Outcome α)) (k : α → Dist R (Outcome β)) :
    Dist R (Outcome β) :=
  d.bind fun o => match o with
    | .ok a => k a
    | .raise e => ret (.raise e)

open Classical in
/-- `rng.choice(l, p=[w(a) for a in l])` of numpy: raises `ValueError` when the list is empty, when a
weight is negative, or when the weights do not sum to one (numpy tests the sum up to `1e-8`; exact
here). -/
noncomputable def npChoice [Field R] [LinearOrder R] (l : List α) (w : α → R) :
    Dist R (Outcome α) :=
  if l ≠ [] ∧ (∀ a ∈ l, 0 ≤ w a) ∧ (l.map w).sum = 1 then
    l.map fun a => (Outcome.ok a, w a)
  else ret Outcome.valueError

end Dist
end Verif
