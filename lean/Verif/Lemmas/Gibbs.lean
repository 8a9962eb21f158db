import Verif.Model.PolyPotential
import Mathlib.Analysis.Calculus.Deriv.Mul
import Mathlib.Analysis.Calculus.Deriv.Comp
import Mathlib.Analysis.Calculus.MeanValue
import Mathlib.Analysis.Calculus.Deriv.Add
import Mathlib.Data.Matrix.Basis

/-!
Powers of tridiagonal matrices, and the derivative of their traces.
-/

namespace Verif.Lemmas
open Verif Verif.Model Matrix

/-- tridiagonal matrix with diagonal `α 1, ..., α N` and off-diagonal `s 1, ..., s (N-1)` -/
def triMat (N : ℕ) (α s : ℤ → ℝ) : Matrix (Fin N) (Fin N) ℝ := Matrix.of fun p q =>
  if p = q then α (p + 1) else if (q : ℕ) = p + 1 then s (p + 1) else if (p : ℕ) = q + 1 then s (q + 1) else 0

/-- entries of the powers: closed walks -/
def walk (α s : ℤ → ℝ) (j : ℤ) : ℕ → ℤ → ℝ
  | 0, z => if z = j then 1 else 0
  | k + 1, z => α z * walk α s j k z + s z * walk α s j k (z + 1) + s (z - 1) * walk α s j k (z - 1)

theorem sum_fin_eq {N : ℕ} (f : ℤ → ℝ) {n : ℤ} (h0 : n < 0 → f n = 0) (hN : (N : ℤ) ≤ n → f n = 0) :
    (∑ r : Fin N, if ((r : ℕ) : ℤ) = n then f n else 0) = f n := by
  by_cases h1 : n < 0
  · rw [h0 h1]; simp
  · by_cases h2 : (N : ℤ) ≤ n
    · rw [hN h2]; simp
    · push Not at h1 h2
      rw [Finset.sum_eq_single ⟨n.toNat, by omega⟩]
      · rw [if_pos]; simp; omega
      · intro r _ hr
        rw [if_neg]
        intro h
        apply hr
        ext
        simp; omega
      · intro h; exact absurd (Finset.mem_univ _) h

theorem pow_entry {N : ℕ} {α s : ℤ → ℝ} (h0 : s 0 = 0) (hN : s N = 0) (k : ℕ) (p q : Fin N) :
    (triMat N α s ^ k) p q = walk α s (q + 1) k (p + 1) := by
  induction k generalizing p with
  | zero =>
    rw [pow_zero, walk, Matrix.one_apply]
    congr 1
    simp [Fin.ext_iff]
  | succ k ih =>
    rw [pow_succ', Matrix.mul_apply, walk]
    have hsplit : ∀ r : Fin N, triMat N α s p r * (triMat N α s ^ k) r q
        = (if ((r : ℕ) : ℤ) = (p : ℤ) then α (p + 1) * walk α s (q + 1) k (p + 1) else 0)
          + (if ((r : ℕ) : ℤ) = (p : ℤ) + 1 then s (p + 1) * walk α s (q + 1) k (p + 1 + 1) else 0)
          + (if ((r : ℕ) : ℤ) = (p : ℤ) - 1 then s (p + 1 - 1) * walk α s (q + 1) k (p + 1 - 1) else 0) := by
      intro r
      rw [ih, triMat, Matrix.of_apply]
      rcases eq_or_ne p r with h | h
      · subst h; rw [if_pos rfl, if_pos rfl, if_neg (by omega), if_neg (by omega)]; ring
      · have hne : (p : ℕ) ≠ r := fun h' => h (Fin.ext h')
        rw [if_neg h, if_neg (by omega : ¬ ((r : ℕ) : ℤ) = (p : ℤ))]
        by_cases h1 : (r : ℕ) = p + 1
        · rw [if_pos h1, if_pos (by omega), if_neg (by omega)]
          rw [h1]; push_cast; ring
        · rw [if_neg h1, if_neg (by omega : ¬ ((r : ℕ) : ℤ) = (p : ℤ) + 1)]
          by_cases h2 : (p : ℕ) = r + 1
          · rw [if_pos h2, if_pos (by omega), h2]; push_cast; ring_nf
          · rw [if_neg h2, if_neg (by omega)]; ring
    rw [Finset.sum_congr rfl fun r _ => hsplit r, Finset.sum_add_distrib, Finset.sum_add_distrib]
    have hp := p.2
    rw [sum_fin_eq (fun n => α (n + 1) * walk α s (q + 1) k (n + 1)) (n := (p : ℤ)) (by omega) (by omega)]
    have e2 := sum_fin_eq (N := N) (fun n => s n * walk α s (q + 1) k (n + 1)) (n := (p : ℤ) + 1) (by omega) (by
      intro h
      have : ((p : ℕ) : ℤ) + 1 = N := by omega
      simp only [this, hN, zero_mul])
    have e3 := sum_fin_eq (N := N) (fun n => s (n + 1) * walk α s (q + 1) k (n + 1)) (n := (p : ℤ) - 1) (by
      intro h
      have : ((p : ℕ) : ℤ) = 0 := by omega
      simp [this, h0]) (by omega)
    rw [e2]
    rw [show (p : ℤ) + 1 - 1 = (p : ℤ) - 1 + 1 by ring, e3]

theorem walk_shift (α s : ℤ → ℝ) (i j : ℤ) (k : ℕ) (z : ℤ) :
    walk α s (i + j) k (i + z) = walk (fun c => α (i + c)) (fun c => s (i + c)) j k z := by
  induction k generalizing z with
  | zero => simp [walk]
  | succ k ih =>
    simp only [walk, ← ih]
    rw [show i + z + 1 = i + (z + 1) by ring, show i + z - 1 = i + (z - 1) by ring]

/-! ### Derivative of the trace of a power -/

section deriv

variable {N : ℕ}

theorem hasDerivAt_pow (A E : Matrix (Fin N) (Fin N) ℝ) (n : ℕ) (x : ℝ) (p q : Fin N) :
    HasDerivAt (fun x : ℝ => ((A + x • E) ^ n) p q)
      ((∑ k ∈ Finset.range n, (A + x • E) ^ k * E * (A + x • E) ^ (n - 1 - k)) p q) x := by
  induction n generalizing p q with
  | zero => simpa using hasDerivAt_const x ((1 : Matrix (Fin N) (Fin N) ℝ) p q)
  | succ n ih =>
    have h1 : ∀ r, HasDerivAt (fun x : ℝ => (A + x • E) r q) (E r q) x := by
      intro r
      simp only [Matrix.add_apply, Matrix.smul_apply, smul_eq_mul]
      simpa using ((hasDerivAt_id x).mul_const (E r q)).const_add (A r q)
    have h2 := HasDerivAt.fun_sum (u := Finset.univ) (fun r _ => (ih p r).mul (h1 r))
    have he : (fun x : ℝ => ((A + x • E) ^ (n + 1)) p q)
        = (fun x => ∑ r, ((A + x • E) ^ n) p r * (A + x • E) r q) := by
      funext y; rw [pow_succ, Matrix.mul_apply]
    rw [he]
    refine h2.congr_deriv ?_
    rw [Finset.sum_add_distrib, ← Matrix.mul_apply, ← Matrix.mul_apply, ← Matrix.add_apply]
    rw [Finset.sum_range_succ, Finset.sum_mul]
    have e1 : ∀ k ∈ Finset.range n, (A + x • E) ^ k * E * (A + x • E) ^ (n - 1 - k) * (A + x • E)
        = (A + x • E) ^ k * E * (A + x • E) ^ (n + 1 - 1 - k) := by
      intro k hk
      have hk' := Finset.mem_range.1 hk
      rw [mul_assoc, ← pow_succ]
      congr 2
      omega
    rw [Finset.sum_congr rfl e1]
    simp

theorem hasDerivAt_trace_pow (A E : Matrix (Fin N) (Fin N) ℝ) (n : ℕ) (x : ℝ) :
    HasDerivAt (fun x : ℝ => ((A + x • E) ^ n).trace) (n * ((A + x • E) ^ (n - 1) * E).trace) x := by
  have h := HasDerivAt.fun_sum (u := Finset.univ) (fun p _ => hasDerivAt_pow A E n x p p)
  refine HasDerivAt.congr_deriv (f := fun x : ℝ => ((A + x • E) ^ n).trace) h ?_
  change Matrix.trace (∑ k ∈ Finset.range n, (A + x • E) ^ k * E * (A + x • E) ^ (n - 1 - k)) = _
  rw [Matrix.trace_sum]
  rw [Finset.sum_congr rfl (g := fun _ => ((A + x • E) ^ (n - 1) * E).trace), Finset.sum_const, Finset.card_range,
    nsmul_eq_mul]
  intro k hk
  have hk' := Finset.mem_range.1 hk
  rw [Matrix.trace_mul_cycle, ← pow_add]
  congr 3
  omega

end deriv

end Verif.Lemmas
