import Verif.Discrete
import Verif.Spec.Det
import Mathlib.LinearAlgebra.Matrix.PosDef
import Mathlib.Data.Real.Star

/-!
Independent specification of a correct sampler of finite DPPs given by their likelihood kernel.
-/

namespace Verif.Spec
open Verif
open scoped ENNReal

/-- `o` is a successful call that returned the items of `S` (in some order). -/
def Returns {m : ℕ} (S : Finset (Fin m)) (o : Outcome (List (Fin m))) : Prop :=
  ∃ l, o = .ok l ∧ l.toFinset = S

/-- `o` is a successful call that returned the items of `S` (in some order) together with other data. -/
def Draws {m : ℕ} {β : Type*} (S : Finset (Fin m)) (o : Outcome (List (Fin m) × β)) : Prop :=
  ∃ l b, o = .ok (l, b) ∧ l.toFinset = S

/-- `o` is a successful call. -/
def Succeeds {α : Type*} (o : Outcome α) : Prop := ∃ a, o = .ok a

/-- A successful call of `p` returns the set `T` with probability `w T`: `P(T) = P(success) w(T)`. -/
def LawIs {m : ℕ} {β : Type*} (p : PMF (Outcome (List (Fin m) × β))) (w : Finset (Fin m) → ℝ) : Prop :=
  ∀ T, PP p (Draws T) = PP p Succeeds * ENNReal.ofReal (w T)

/-- `inner m M` samples exactly the DPP with likelihood kernel `M`, for all positive semi-definite `M` of all sizes:
it never raises, never repeats an item, and returns `S` with probability `det M_S / det (I + M)`. -/
structure InnerSpec (inner : (m : ℕ) → Matrix (Fin m) (Fin m) ℝ → PMF (Outcome (List (Fin m)))) : Prop where
  nodup : ∀ m M, M.PosSemidef → ∀ o ∈ (inner m M).support, ∃ l, o = .ok l ∧ l.Nodup
  law : ∀ m M, M.PosSemidef → ∀ S, PP (inner m M) (Returns S) = ENNReal.ofReal (lDppProb M S)

end Verif.Spec
