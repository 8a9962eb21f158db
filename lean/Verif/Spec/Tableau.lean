import Mathlib.Order.Defs.LinearOrder
import Mathlib.Data.List.Basic
import Mathlib.Data.List.Perm.Basic

/-!
Independent specification of Young tableaux (lists of rows) and of subsequences.
-/

namespace Verif.Spec

/-- lengths of the rows -/
def shape {α : Type*} (T : List (List α)) : List ℕ := T.map List.length

/-- A partition: positive and non-increasing. -/
def IsPartition (l : List ℕ) : Prop := (∀ k ∈ l, 0 < k) ∧ l.Pairwise (· ≥ ·)

/-- Every entry of a row is `<` the entry below it. -/
def ColumnsStrict {α : Type*} [LT α] (T : List (List α)) : Prop :=
  ∀ (i j : ℕ) (a b : α), (T[i]?.bind (·[j]?)) = some a → (T[i+1]?.bind (·[j]?)) = some b → a < b

/-- Semistandard tableau: shape a partition, rows weakly and columns strictly increasing. -/
structure Semistandard {α : Type*} [LinearOrder α] (T : List (List α)) : Prop where
  shape : IsPartition (shape T)
  rows : ∀ r ∈ T, r.Pairwise (· ≤ ·)
  cols : ColumnsStrict T

/-- Standard tableau of size `n`: rows and columns strictly increasing, entries exactly `1..n`. -/
structure Standard (n : ℕ) (T : List (List ℕ)) : Prop where
  shape : IsPartition (shape T)
  rows : ∀ r ∈ T, r.Pairwise (· < ·)
  cols : ColumnsStrict T
  entries : T.flatten.Perm ((List.range n).map (· + 1))

/-- `u` is a non-decreasing subsequence of `l`. -/
def NondecSub {α : Type*} [LE α] (u l : List α) : Prop := u.Sublist l ∧ u.Pairwise (· ≤ ·)

end Verif.Spec
