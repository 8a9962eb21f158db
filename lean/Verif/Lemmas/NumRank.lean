import Verif.Lemmas.FiniteKDpp3
import Verif.Spec.History
import Mathlib.Algebra.Polynomial.Roots
import Mathlib.Algebra.Polynomial.BigOperators

namespace Verif.Model
open Verif Verif.Spec Matrix Polynomial

variable {N : ℕ} {Info : Type} {env : Env N Info}

theorem charpoly_ker {M : ℕ} {U : Fin N → Fin M → ℝ} {v : Fin M → ℝ} (h : OrthOn U v) :
    (ker U v).charpoly * X ^ M = X ^ N * ∏ a, (X - C (v a)) := by
  have key : ∀ x : ℝ, x ≠ 0 → ((ker U v).charpoly * X ^ M).eval x
      = (X ^ N * ∏ a, (X - C (v a))).eval x := by
    intro x hx
    simp only [eval_mul, eval_pow, eval_X, eval_prod, eval_sub, eval_C]
    rw [Matrix.eval_charpoly]
    have h1 : OrthOn U (fun a => v a / x) := h.congr (fun a ha => by simp [ha])
    have e : Matrix.scalar (Fin N) x - ker U v = x • (1 - ker U (fun a => v a / x)) := by
      ext i j
      simp only [Matrix.sub_apply, Matrix.smul_apply, ker, Matrix.of_apply, smul_eq_mul, mul_sub,
        Finset.mul_sum, Matrix.scalar_apply, Matrix.diagonal_apply, Matrix.one_apply]
      congr 1
      · split <;> simp
      · refine Finset.sum_congr rfl (fun a _ => ?_)
        field_simp
    rw [e, Matrix.det_smul, det_one_sub_ker h1, Fintype.card_fin, mul_assoc]
    congr 1
    have : ∏ a, (x - v a) = ∏ a : Fin M, (x * (1 - v a / x)) :=
      Finset.prod_congr rfl (fun a _ => by field_simp)
    rw [this, Finset.prod_mul_distrib]
    simp [mul_comm]
  have hz : ((ker U v).charpoly * X ^ M - X ^ N * ∏ a, (X - C (v a))) * X = 0 := by
    apply Polynomial.funext
    intro x
    by_cases hx : x = 0
    · simp [hx]
    · have := key x hx
      simp only [eval_mul, eval_sub, eval_zero] at this ⊢
      simp only [eval_X]
      rw [this]; ring
  rcases mul_eq_zero.1 hz with h0 | h0
  · exact sub_eq_zero.1 h0
  · exact absurd h0 X_ne_zero

theorem roots_ker {M : ℕ} {U : Fin N → Fin M → ℝ} {v : Fin M → ℝ} (h : OrthOn U v) :
    (ker U v).charpoly.roots + M • ({0} : Multiset ℝ)
      = N • ({0} : Multiset ℝ) + (Finset.univ : Finset (Fin M)).val.map v := by
  have h1 := congrArg Polynomial.roots (charpoly_ker h)
  rw [Polynomial.roots_mul, Polynomial.roots_mul, Polynomial.roots_X_pow, Polynomial.roots_X_pow] at h1
  · rw [h1]
    congr 1
    have := Polynomial.roots_multiset_prod_X_sub_C ((Finset.univ : Finset (Fin M)).val.map v)
    rw [← this, Multiset.map_map]
    rfl
  · refine mul_ne_zero (pow_ne_zero _ X_ne_zero) (Finset.prod_ne_zero_iff.2 (fun a _ => X_sub_C_ne_zero _))
  · exact mul_ne_zero (Matrix.charpoly_monic _).ne_zero (pow_ne_zero _ X_ne_zero)

theorem fold_max_zero (n : ℕ) (s : Multiset ℝ) :
    (n • ({0} : Multiset ℝ) + s).fold max 0 = s.fold max 0 := by
  have hp : ∀ s : Multiset ℝ, 0 ≤ s.fold max 0 := by
    intro s
    induction s using Multiset.induction with
    | empty => simp
    | cons a s ih => rw [Multiset.fold_cons_left]; exact le_max_of_le_right ih
  induction n with
  | zero => simp
  | succ n ih =>
    rw [succ_nsmul, add_right_comm, add_comm, Multiset.singleton_add, Multiset.fold_cons_left, ih]
    exact max_eq_right (hp s)

theorem filter_zero (n : ℕ) (s : Multiset ℝ) {t : ℝ} (ht : 0 ≤ t) :
    (n • ({0} : Multiset ℝ) + s).filter (fun x => t < x) = s.filter (fun x => t < x) := by
  rw [Multiset.filter_add]
  have : (n • ({0} : Multiset ℝ)).filter (fun x => t < x) = 0 := by
    rw [Multiset.filter_eq_nil]
    intro a ha
    rw [Multiset.nsmul_singleton] at ha
    have := Multiset.eq_of_mem_replicate ha
    subst this; exact not_lt.2 ht
  rw [this, zero_add]

theorem rankOf_numRank (heps : 0 ≤ env.eps) {E : EigVecs N} {v : ℕ → ℝ} (h : EigOK E v) :
    rankOf E v (rankTol env v E.M) = numRank env.eps (kerOf E v) := by
  have hr := roots_ker h.orth
  have hf : (kerOf E v).charpoly.roots.fold max 0 = ((List.range E.M).map v).foldr max 0 := by
    have h1 := congrArg (Multiset.fold max 0) hr
    rw [add_comm, fold_max_zero, fold_max_zero] at h1
    rw [h1]
    have h2 : (Finset.univ : Finset (Fin E.M)).val.map (fun a => v a.val)
        = (((List.range E.M).map v : List ℝ) : Multiset ℝ) := by
      have : (Finset.univ : Finset (Fin E.M)).val = ((List.finRange E.M : List (Fin E.M)) : Multiset _) := rfl
      rw [this, Multiset.map_coe, ← List.map_coe_finRange_eq_range, List.map_map]
      rfl
    rw [h2, Multiset.coe_fold_r]
  have h0 := rankTol_nonneg heps v E.M
  rw [numRank, hf]
  change _ = ((kerOf E v).charpoly.roots.filter fun x => rankTol env v E.M < x).card
  have h3 := congrArg (Multiset.filter (fun x => rankTol env v E.M < x)) hr
  rw [add_comm, filter_zero _ _ h0, filter_zero _ _ h0] at h3
  rw [h3, rankOf, Multiset.filter_map, Multiset.card_map]
  rfl

end Verif.Model
