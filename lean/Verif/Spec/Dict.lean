import Verif.Model.Bless

/-!
Independent specification of the dictionaries returned by BLESS.
-/

namespace Verif.Spec
open Verif Verif.Model

/-- A non-empty list of strictly increasing indices of data points with a positive similarity, each with an inclusion
probability in `(0, 1]`. -/
structure ValidDict {n : ℕ} (L : Matrix (Fin n) (Fin n) ℝ) (D : Centers n) : Prop where
  nonempty : D.items ≠ []
  increasing : (D.items.map Prod.fst).Pairwise (· < ·)
  pos : ∀ p ∈ D.items, 0 < p.2
  le_one : ∀ p ∈ D.items, p.2 ≤ 1
  diag : ∀ p ∈ D.items, 0 < L p.1 p.1

end Verif.Spec
