import Verif.Lemmas.Gibbs
import Mathlib.Algebra.Polynomial.AlgebraMap
import Mathlib.Analysis.Calculus.Deriv.Polynomial
import Mathlib.Data.List.GetD
import Mathlib.Tactic.LinearCombination
import Mathlib.Analysis.SpecialFunctions.Pow.Real

/-!
The conditionals of the Gibbs sampler: derivative of `Tr V(J)` in one diagonal entry, and in one off-diagonal entry.
-/

namespace Verif.Lemmas
open Verif Verif.Model Matrix Polynomial

variable {N : ℕ}

theorem trace_aeval (V : ℝ[X]) (hV : V.natDegree ≤ 6) (J : Matrix (Fin N) (Fin N) ℝ) :
    (aeval J V).trace = ∑ n ∈ Finset.range 7, V.coeff n * (J ^ n).trace := by
  rw [aeval_eq_sum_range' (by omega : V.natDegree < 7), Matrix.trace_sum]
  simp [Matrix.trace_smul]

theorem hasDerivAt_traceV (V : ℝ[X]) (hV : V.natDegree ≤ 6) (A E : Matrix (Fin N) (Fin N) ℝ) (x : ℝ) :
    HasDerivAt (fun x : ℝ => (aeval (A + x • E) V).trace)
      (∑ n ∈ Finset.range 7, V.coeff n * (n * ((A + x • E) ^ (n - 1) * E).trace)) x := by
  simp only [trace_aeval V hV]
  exact HasDerivAt.fun_sum fun n _ => (hasDerivAt_trace_pow A E n x).const_mul _

/-- two functions with the same derivative differ by a constant -/
theorem exists_const_of_deriv {f g : ℝ → ℝ} {d : ℝ → ℝ} (hf : ∀ x, HasDerivAt f (d x) x)
    (hg : ∀ x, HasDerivAt g (d x) x) : ∃ c, ∀ x, f x = c + g x := by
  refine ⟨f 0 - g 0, fun x => ?_⟩
  have h : ∀ x, HasDerivAt (fun x => f x - g x) 0 x := fun x => by
    exact ((hf x).fun_sub (hg x)).congr_deriv (sub_self _)
  have := is_const_of_deriv_eq_zero (fun x => (h x).differentiableAt) (fun x => (h x).deriv) x 0
  linarith

theorem trace_mul_single (M : Matrix (Fin N) (Fin N) ℝ) (p q : Fin N) :
    (M * Matrix.single p q (1 : ℝ)).trace = M q p := by
  rw [Matrix.trace_mul_single]; simp

/-- `α` with its value at `i` replaced -/
def upd (α : ℤ → ℝ) (i : ℤ) (x : ℝ) : ℤ → ℝ := fun z => if z = i then x else α z

theorem triMat_upd_diag (α s : ℤ → ℝ) (p : Fin N) (x : ℝ) :
    triMat N (upd α (p + 1) x) s = triMat N (upd α (p + 1) 0) s + x • Matrix.single p p 1 := by
  ext u v
  simp only [triMat, upd, Matrix.of_apply, Matrix.add_apply, Matrix.smul_apply, Matrix.single_apply, smul_eq_mul]
  by_cases h : u = v
  · subst h
    by_cases h2 : u = p
    · subst h2; simp
    · have : (u : ℕ) ≠ p := fun h => h2 (Fin.ext h)
      rw [if_pos rfl, if_pos rfl, if_neg (by omega), if_neg (by omega), if_neg (by rintro ⟨h, _⟩; exact h2 h.symm)]
      simp
  · rw [if_neg h, if_neg h, if_neg (show ¬ (p = u ∧ p = v) from fun hh => h (hh.1.symm.trans hh.2))]
    simp

theorem triMat_upd_off (α s : ℤ → ℝ) (p q : Fin N) (hq : (q : ℕ) = p + 1) (x : ℝ) :
    triMat N α (upd s (p + 1) x)
      = triMat N α (upd s (p + 1) 0) + x • (Matrix.single p q 1 + Matrix.single q p 1) := by
  ext u v
  simp only [triMat, upd, Matrix.of_apply, Matrix.add_apply, Matrix.smul_apply, Matrix.single_apply, smul_eq_mul,
    Fin.ext_iff]
  by_cases h : (u : ℕ) = v
  · rw [if_pos h, if_pos h, if_neg (by omega), if_neg (by omega)]; simp
  · rw [if_neg h, if_neg h]
    by_cases h1 : (v : ℕ) = u + 1
    · rw [if_pos h1, if_pos h1, if_neg (by omega : ¬ ((q : ℕ) = u ∧ (p : ℕ) = v))]
      by_cases h2 : (u : ℕ) = p
      · rw [if_pos (by omega), if_pos (by omega), if_pos (by omega)]; simp
      · rw [if_neg (by omega), if_neg (by omega), if_neg (by omega)]; simp
    · rw [if_neg h1, if_neg h1, if_neg (by omega : ¬ ((p : ℕ) = u ∧ (q : ℕ) = v))]
      by_cases h2 : (u : ℕ) = v + 1
      · rw [if_pos h2, if_pos h2]
        by_cases h3 : (v : ℕ) = p
        · rw [if_pos (by omega), if_pos (by omega), if_pos (by omega)]; simp
        · rw [if_neg (by omega), if_neg (by omega), if_neg (by omega)]; simp
      · rw [if_neg h2, if_neg h2, if_neg (by omega)]; simp

/-- the derivative of `Tr V(J)` in the diagonal entry -/
noncomputable def dA (V : ℝ[X]) (A S : ℤ → ℝ) : ℝ :=
  ∑ n ∈ Finset.range 7, V.coeff n * (n * walk A S 0 (n - 1) 0)

noncomputable def dB (V : ℝ[X]) (A S : ℤ → ℝ) : ℝ :=
  ∑ n ∈ Finset.range 7, V.coeff n * (n * (walk A S 0 (n - 1) 1 + walk A S 1 (n - 1) 0))

theorem dA_eq (V : ℝ[X]) (A S : ℤ → ℝ) : dA V A S = 
    V.coeff 1 + 2 * V.coeff 2 * A 0 + 3 * V.coeff 3 * (A 0 ^ 2 + S 0 ^ 2 + S (-1) ^ 2)
    + V.coeff 4 * (4 * A 0 ^ 3 + 8 * (S 0 ^ 2 + S (-1) ^ 2) * A 0 + 4 * (A (-1) * S (-1) ^ 2 + A 1 * S 0 ^ 2))
    + V.coeff 5 * (5 * A 0 ^ 4 + 15 * (S 0 ^ 2 + S (-1) ^ 2) * A 0 ^ 2
      + 10 * (A (-1) * S (-1) ^ 2 + A 1 * S 0 ^ 2) * A 0
      + 5 * (S (-1) ^ 2 * (A (-1) ^ 2 + S (-2) ^ 2) + (S 0 ^ 2 + S (-1) ^ 2) ^ 2 + S 0 ^ 2 * (A 1 ^ 2 + S 1 ^ 2)))
    + V.coeff 6 * (6 * A 0 ^ 5 + 24 * (S 0 ^ 2 + S (-1) ^ 2) * A 0 ^ 3
      + 18 * (A (-1) * S (-1) ^ 2 + A 1 * S 0 ^ 2) * A 0 ^ 2
      + 6 * (2 * S (-1) ^ 2 * (A (-1) ^ 2 + S (-2) ^ 2) + 3 * (S (-1) ^ 2 + S 0 ^ 2) ^ 2
          + 2 * S 0 ^ 2 * (A 1 ^ 2 + S 1 ^ 2)) * A 0
      + 6 * (A (-2) * S (-2) ^ 2 * S (-1) ^ 2
          + A (-1) * S (-1) ^ 2 * (A (-1) ^ 2 + 2 * (S (-2) ^ 2 + S (-1) ^ 2 + S 0 ^ 2))
          + A 1 * S 0 ^ 2 * (A 1 ^ 2 + 2 * (S (-1) ^ 2 + S 0 ^ 2 + S 1 ^ 2))
          + A 2 * S 0 ^ 2 * S 1 ^ 2)) := by
  simp only [dA, Finset.sum_range_succ, Finset.sum_range_zero, Nat.reduceSub, walk]
  norm_num
  ring

theorem dB_eq (V : ℝ[X]) (A S : ℤ → ℝ) : dB V A S = 2 * S 0 * (
    2 * V.coeff 2 + 3 * V.coeff 3 * (A 0 + A 1)
    + V.coeff 4 * (4 * S 0 ^ 2 + 4 * (A 0 ^ 2 + A 0 * A 1 + A 1 ^ 2 + S (-1) ^ 2 + S 1 ^ 2))
    + V.coeff 5 * (10 * (A 0 + A 1) * S 0 ^ 2
      + 5 * (A 0 ^ 3 + A 0 ^ 2 * A 1 + A 0 * A 1 ^ 2 + A 1 ^ 3
        + S (-1) ^ 2 * (A (-1) + 2 * A 0 + A 1) + S 1 ^ 2 * (A 0 + 2 * A 1 + A 2)))
    + V.coeff 6 * (6 * S 0 ^ 4
      + 6 * (3 * A 0 ^ 2 + 4 * A 0 * A 1 + 3 * A 1 ^ 2 + 2 * (S (-1) ^ 2 + S 1 ^ 2)) * S 0 ^ 2
      + 6 * (A 0 ^ 4 + A 0 ^ 3 * A 1 + A 0 ^ 2 * A 1 ^ 2 + A 0 * A 1 ^ 3 + A 1 ^ 4
          + S (-1) ^ 2 * (A (-1) ^ 2 + A (-1) * A 1 + A 1 ^ 2 + A 0 * (2 * A (-1) + 3 * A 0 + 2 * A 1)
            + S (-2) ^ 2 + S (-1) ^ 2 + S 1 ^ 2)
          + S 1 ^ 2 * (A 0 ^ 2 + A 0 * A 2 + A 2 ^ 2 + A 1 * (2 * A 0 + 3 * A 1 + 2 * A 2)
            + S 1 ^ 2 + S 2 ^ 2)))) := by
  simp only [dB, Finset.sum_range_succ, Finset.sum_range_zero, Nat.reduceSub, walk]
  norm_num
  ring

end Verif.Lemmas
