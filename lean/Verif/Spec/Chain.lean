import Verif.Spec.Det
import Verif.Outcome
import Mathlib.Order.SymmDiff
import Mathlib.Data.Finset.SymmDiff

/-!
Specification of the MCMC properties: valid states, elementary moves, laws of finite chains.
-/

namespace Verif.Spec
open Verif

variable {ι : Type*} [DecidableEq ι]

/-- A list of items is a valid state for the kernel `K`: no repetition and positive determinant. -/
def ValidState (K : Matrix ι ι ℝ) (S : List ι) : Prop := S.Nodup ∧ 0 < minor K S.toFinset

/-- nothing, one addition, or one deletion -/
inductive AddDeleteMove : Finset ι → Finset ι → Prop
  | stay (S) : AddDeleteMove S S
  | add (S) (t) (ht : t ∉ S) : AddDeleteMove S (insert t S)
  | delete (S) (s) (hs : s ∈ S) : AddDeleteMove S (S.erase s)

/-- nothing, or one item replaced by a new one -/
inductive ExchangeMove : Finset ι → Finset ι → Prop
  | stay (S) : ExchangeMove S S
  | exchange (S) (s t) (hs : s ∈ S) (ht : t ∉ S) : ExchangeMove S (insert t (S.erase s))

/-- probability that a call returns a value satisfying `p` -/
noncomputable def probOk {α : Type*} (d : Dist ℝ (Outcome α)) (p : α → Prop) : ℝ :=
  d.prob fun r => ∃ a, r = .ok a ∧ p a

end Verif.Spec

namespace Verif.Spec
open Verif
variable {N : ℕ}

/-- the returned chain has at position `j` a list of the items of `T` -/
def Visits (j : ℕ) (T : Finset (Fin N)) (chain : List (List (Fin N))) : Prop :=
  ∃ S, chain[j]? = some S ∧ S.toFinset = T

end Verif.Spec
