import Verif.Spec.Tableau
import Mathlib.Analysis.Convex.Segment
import Mathlib.Data.Real.Basic

/-!
Independent specification: the Young diagram of a partition as a set of boxes, in the Russian convention.
-/

namespace Verif.Spec

/-- row `i`, column `j` (from zero) is a cell of the diagram of `lam` -/
def IsCell (lam : List ℕ) (i j : ℕ) : Prop := ∃ h : i < lam.length, j < lam[i]

/-- the boundary of the box of row `i` and column `j`: the unit square `[j, j + 1] × [i, i + 1]` -/
def boxBoundary (i j : ℕ) : Set (ℝ × ℝ) :=
  {p | (j : ℝ) ≤ p.1 ∧ p.1 ≤ j + 1 ∧ (i : ℝ) ≤ p.2 ∧ p.2 ≤ i + 1 ∧ (p.1 = j ∨ p.1 = j + 1 ∨ p.2 = i ∨ p.2 = i + 1)}

/-- Russian convention: rotation by 45 degrees (and scaling by `√2`) -/
def russian (p : ℝ × ℝ) : ℝ × ℝ := (p.1 - p.2, p.1 + p.2)

/-- the outlines of the boxes of `lam` (Russian convention), magnified by `c` -/
def boxesOutline (c : ℝ) (lam : List ℕ) : Set (ℝ × ℝ) :=
  {p | ∃ i j q, IsCell lam i j ∧ q ∈ boxBoundary i j ∧ p = c • russian q}

/-- the wedge `v = |u|` up to `|u| ≤ w` -/
def wedgeSet (w : ℝ) : Set (ℝ × ℝ) := {p | |p.1| ≤ w ∧ p.2 = |p.1|}

/-- union of line segments -/
def unionSegments (l : List ((ℝ × ℝ) × (ℝ × ℝ))) : Set (ℝ × ℝ) := {p | ∃ s ∈ l, p ∈ segment ℝ s.1 s.2}

/-- A descending edge of the surface of `lam` (Russian convention): the right edge of the last box of a row, from its left (upper)
end `A` to its right (lower) end `B`. -/
def DescendingEdge (lam : List ℕ) (A B : ℝ × ℝ) : Prop :=
  ∃ i j : ℕ, IsCell lam i j ∧ ¬ IsCell lam i (j + 1) ∧ A = russian ((j : ℝ) + 1, (i : ℝ) + 1) ∧ B = russian ((j : ℝ) + 1, (i : ℝ))

end Verif.Spec
