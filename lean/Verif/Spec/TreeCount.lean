import Verif.Spec.Tree

/-! Number of spanning trees of a graph. -/

namespace Verif.Spec

/-- number of the trees on all the nodes whose edges are edges of `G` -/
noncomputable def numSpanningTrees {n : ℕ} (G : SimpleGraph (Fin n)) : ℕ :=
  Nat.card {H : SimpleGraph (Fin n) // H ≤ G ∧ H.IsTree}

end Verif.Spec
