import Verif.Lemmas.JacChange
import Verif.Lemmas.RandMat
import Mathlib.Analysis.Matrix.Spectrum
import Mathlib.Data.Fin.Tuple.Sort
import Mathlib.Data.List.Sort

/-!
# Spectral measures of Jacobi matrices
-/

namespace Verif.Lemmas
open Finset Matrix Polynomial Verif.Model

variable {N : ℕ}

/-- term below the diagonal -/
def prv (e V : ℕ → ℝ) (p : ℕ) : ℝ := if p = 0 then 0 else e (p - 1) * V (p - 1)

theorem tridiag_mulVec (d e : ℕ → ℝ) (v : Fin N → ℝ) (p : Fin N) :
    (tridiag N d e *ᵥ v) p = d p * pad v p + e p * pad v (p + 1) + prv e (pad v) p := by
  obtain ⟨p, hp⟩ := p
  have h : (tridiag N d e *ᵥ v) ⟨p, hp⟩ = ∑ q ∈ range N,
      (if p = q then d p else if q = p + 1 then e p else if p = q + 1 then e q else 0) * pad v q := by
    rw [← Fin.sum_univ_eq_sum_range (fun q => (if p = q then d p else if q = p + 1 then e p else if p = q + 1 then e q else 0)
      * pad v q), Matrix.mulVec, dotProduct]
    refine sum_congr rfl fun q _ => ?_
    rw [pad_fin, tridiag, Matrix.of_apply]
    simp only [Fin.ext_iff]
  rw [h]
  have h2 : ∀ q ∈ range N, (if p = q then d p else if q = p + 1 then e p else if p = q + 1 then e q else 0) * pad v q
      = (if q = p then d p * pad v p else 0) + (if q = p + 1 then e p * pad v (p + 1) else 0)
        + (if q + 1 = p then prv e (pad v) p else 0) := by
    intro q _
    rcases Nat.lt_trichotomy p q with h1 | h1 | h1
    · by_cases h2 : q = p + 1
      · subst h2; simp; intro h; omega
      · have e1 : ¬ p = q := by omega
        have e2 : ¬ p = q + 1 := by omega
        have e3 : ¬ q = p := by omega
        have e4 : ¬ q + 1 = p := by omega
        simp [e1, e2, e3, e4, h2]
    · subst h1; simp
    · by_cases h2 : q + 1 = p
      · subst h2
        have e4 : ¬ q = q + 1 + 1 := by omega
        simp [prv, e4]
      · have e1 : ¬ p = q := by omega
        have e2 : ¬ p = q + 1 := by omega
        have e3 : ¬ q = p := by omega
        have e4 : ¬ q = p + 1 := by omega
        simp [e1, e2, e3, e4, h2]
  rw [sum_congr rfl h2, sum_add_distrib, sum_add_distrib, sum_ite_eq', sum_ite_eq', if_pos (mem_range.2 hp)]
  congr 1
  · congr 1
    split_ifs with h3
    · rfl
    · rw [pad, dif_neg (by simpa using h3), mul_zero]
  · rcases p with _ | p
    · simp [prv]
    · simp only [Nat.add_right_cancel_iff]
      rw [sum_ite_eq', if_pos (mem_range.2 (by omega))]

/-- first column of the powers -/
theorem pow_col {a B : ℕ → ℝ} (hB : ∀ i < N, 0 ≤ B (i + 1)) (hBN : B (N + 1) = 0) (k : ℕ) (p : Fin (N + 1)) :
    (tridiag (N + 1) a (fun i => √(B (i + 1))) ^ k) p 0 = kry a B k p * ∏ i ∈ range p, √(B (i + 1)) := by
  induction k generalizing p with
  | zero =>
    rw [pow_zero, Matrix.one_apply, kry]
    by_cases h : p = 0
    · subst h; simp
    · rw [if_neg h, if_neg (fun e : (p : ℕ) = 0 => h (Fin.ext e)), zero_mul]
  | succ k ih =>
    have hpad : ∀ i ≤ N + 1, √(B i) * pad (fun q : Fin (N + 1) => (tridiag (N + 1) a (fun i => √(B (i + 1))) ^ k) q 0) i
        = √(B i) * (kry a B k i * ∏ j ∈ range i, √(B (j + 1))) := by
      intro i hi
      rcases Nat.lt_or_ge i (N + 1) with h | h
      · rw [pad_lt h, ih]
      · rw [show i = N + 1 by omega, hBN]; simp
    have hpad' : ∀ i < N + 1, pad (fun q : Fin (N + 1) => (tridiag (N + 1) a (fun i => √(B (i + 1))) ^ k) q 0) i
        = kry a B k i * ∏ j ∈ range i, √(B (j + 1)) := by
      intro i h
      rw [pad_lt h, ih]
    rw [pow_succ', Matrix.mul_apply]
    have hmv := tridiag_mulVec a (fun i => √(B (i + 1))) (fun q : Fin (N + 1) => (tridiag (N + 1) a (fun i => √(B (i + 1))) ^ k) q 0) p
    rw [Matrix.mulVec, dotProduct] at hmv
    rw [hmv]
    obtain ⟨p, hp⟩ := p
    simp only
    rw [hpad (p + 1) (by omega), hpad' p hp, prod_range_succ]
    have hsq : √(B (p + 1)) * √(B (p + 1)) = B (p + 1) := by
      rcases Nat.lt_or_ge p N with h | h
      · exact Real.mul_self_sqrt (hB p h)
      · rw [show p = N by omega, hBN]; simp
    rcases p with _ | p
    · rw [kry]
      simp only [prv, if_true, prod_range_zero]
      linear_combination kry a B k 1 * hsq
    · rw [kry]
      simp only [prv, Nat.add_one_ne_zero, if_false, Nat.add_sub_cancel]
      rw [hpad' p (by omega), prod_range_succ]
      linear_combination (kry a B k (p + 2) * (∏ i ∈ range p, √(B (i + 1))) * √(B (p + 1))) * hsq

theorem pow_00 {a B : ℕ → ℝ} (hB : ∀ i < N, 0 ≤ B (i + 1)) (hBN : B (N + 1) = 0) (k : ℕ) :
    (tridiag (N + 1) a (fun i => √(B (i + 1))) ^ k) 0 0 = kry a B k 0 := by
  rw [pow_col hB hBN]; simp

/-- an eigenvector whose first component is zero vanishes -/
theorem eigvec_zero {d e : ℕ → ℝ} (he : ∀ i < N, e i ≠ 0) {v : Fin (N + 1) → ℝ} {m : ℝ}
    (hv : tridiag (N + 1) d e *ᵥ v = m • v) (h0 : v 0 = 0) : v = 0 := by
  have hpad : ∀ i ≤ N, pad v i = 0 := by
    intro i
    induction i using Nat.strong_induction_on with
    | _ i ih =>
      intro hi
      rcases i with _ | i
      · rw [pad_lt (by omega)]; exact h0
      · have h := congrFun hv ⟨i, by omega⟩
        rw [tridiag_mulVec] at h
        simp only [Pi.smul_apply, smul_eq_mul] at h
        rw [← pad_lt (f := v) (show i < N + 1 by omega), ih i (by omega) (by omega)] at h
        have hp : prv e (pad v) i = 0 := by
          rw [prv]
          split_ifs with h
          · rfl
          · rw [ih (i - 1) (by omega) (by omega), mul_zero]
        rw [hp, mul_zero, mul_zero, zero_add, add_zero] at h
        exact (mul_eq_zero.1 h).resolve_left (he i (by omega))
  funext i
  have := hpad i (by omega)
  rwa [pad_fin] at this

theorem tridiag_symm (d e : ℕ → ℝ) : (tridiag N d e).IsHermitian := by
  ext p q
  simp only [Matrix.conjTranspose_apply, tridiag, Matrix.of_apply, star_trivial]
  by_cases h : p = q
  · subst h; simp
  · have h' : ¬ q = p := fun e => h e.symm
    simp only [h, h', if_false]
    split_ifs <;> first | rfl | omega

/-- spectral data of a Jacobi matrix -/
theorem exists_spec {a B : ℕ → ℝ} (hB : ∀ i < N, 0 < B i) (hBN : B N = 0) :
    ∃ lam w : Fin N → ℝ, StrictMono lam ∧ (∀ j, 0 < w j) ∧ (∀ k, ∑ j, w j * lam j ^ k = mom a B k) ∧
      (tridiag N a (fun i => √(B (i + 1)))).charpoly = ∏ j, (X - C (lam j)) ∧
      ∀ k, (tridiag N a (fun i => √(B (i + 1))) ^ k).trace = ∑ j, lam j ^ k := by
  rcases N with _ | N
  · refine ⟨fun j => j.elim0, fun j => j.elim0, fun j => j.elim0, fun j => j.elim0, fun k => ?_, ?_, fun k => ?_⟩
    · simp [mom, hBN]
    · simp [Matrix.charpoly]
    · simp [Matrix.trace]
  set T := tridiag (N + 1) a (fun i => √(B (i + 1))) with hT
  have hH : T.IsHermitian := tridiag_symm _ _
  set b := hH.eigenvectorBasis
  set ev := hH.eigenvalues
  set u : Fin (N + 1) → Fin (N + 1) → ℝ := fun j i => b j i with hu
  have hTu : ∀ j, T *ᵥ u j = ev j • u j := fun j => hH.mulVec_eigenvectorBasis j
  have hon : ∀ i j, ∑ l, u i l * u j l = if i = j then 1 else 0 := by
    intro i j
    have := (orthonormal_iff_ite.1 b.orthonormal) i j
    rw [← this]
    simp [PiLp.inner_apply, hu, mul_comm]
  set U : Matrix (Fin (N + 1)) (Fin (N + 1)) ℝ := Matrix.of fun i j => u j i with hU
  have hUU : Uᵀ * U = 1 := by
    ext i j
    rw [Matrix.mul_apply, Matrix.one_apply, ← hon i j]; rfl
  have hUU' : U * Uᵀ = 1 := mul_eq_one_comm.1 hUU
  have he : ∀ i < N, (fun i => √(B (i + 1))) i ≠ 0 := fun i hi => (Real.sqrt_pos.2 (hB _ (by omega))).ne'
  have hu0 : ∀ j, u j 0 ≠ 0 := by
    intro j h
    have hz := eigvec_zero he (hTu j) h
    have := hon j j
    rw [hz] at this
    simp at this
  have hinj : Function.Injective ev := by
    intro i j hij
    by_contra hne
    set v : Fin (N + 1) → ℝ := u j 0 • u i - u i 0 • u j with hv
    have hTv : T *ᵥ v = ev i • v := by
      rw [hv, Matrix.mulVec_sub, Matrix.mulVec_smul, Matrix.mulVec_smul, hTu, hTu, ← hij, smul_sub, smul_comm, smul_comm (u i 0)]
    have hz := eigvec_zero he hTv (by simp [hv]; ring)
    have h1 : ∑ l, v l * u i l = u j 0 := by
      simp only [hv, Pi.sub_apply, Pi.smul_apply, smul_eq_mul, sub_mul, mul_assoc, sum_sub_distrib, ← mul_sum, hon]
      have hne' : ¬ j = i := fun h => hne h.symm
      simp [hne']
    rw [hz] at h1
    simp at h1
    exact hu0 j h1.symm
  have hpow : ∀ k : ℕ, T ^ k * U = U * diagonal (fun j => ev j ^ k) := by
    intro k
    induction k with
    | zero => simp
    | succ k ih =>
      have h1 : T * U = U * diagonal ev := by
        ext i j
        rw [Matrix.mul_diagonal]
        have := congrFun (hTu j) i
        rw [Matrix.mulVec, dotProduct] at this
        rw [Matrix.mul_apply]
        simpa [hU, mul_comm] using this
      rw [pow_succ, Matrix.mul_assoc, h1, ← Matrix.mul_assoc, ih, Matrix.mul_assoc, Matrix.diagonal_mul_diagonal]
      congr 2
  have h00 : ∀ k : ℕ, (T ^ k) 0 0 = ∑ j, u j 0 ^ 2 * ev j ^ k := by
    intro k
    have : T ^ k = U * diagonal (fun j => ev j ^ k) * Uᵀ := by
      rw [← hpow, Matrix.mul_assoc, hUU', Matrix.mul_one]
    rw [this, Matrix.mul_apply]
    refine sum_congr rfl fun j _ => ?_
    rw [Matrix.mul_diagonal, Matrix.transpose_apply, hU, Matrix.of_apply]
    ring
  set σ := Tuple.sort ev
  have hmono : Monotone (ev ∘ σ) := Tuple.monotone_sort ev
  refine ⟨ev ∘ σ, fun j => B 0 * u (σ j) 0 ^ 2, hmono.strictMono_of_injective (hinj.comp σ.injective), fun j => ?_, fun k => ?_, ?_, fun k => ?_⟩
  · have := hu0 (σ j)
    have := hB 0 (by omega)
    positivity
  · rw [mom, ← pow_00 (fun i hi => (hB (i + 1) (by omega)).le) hBN k, ← hT, h00, mul_sum, ← Equiv.sum_comp σ (fun j => B 0 * (u j 0 ^ 2 * ev j ^ k))]
    exact sum_congr rfl fun j _ => by simp only [Function.comp]; ring
  · rw [hH.charpoly_eq, ← Equiv.prod_comp σ]
    rfl
  · have : T ^ k = U * diagonal (fun j => ev j ^ k) * Uᵀ := by
      rw [← hpow, Matrix.mul_assoc, hUU', Matrix.mul_one]
    rw [this, Matrix.trace_mul_comm, ← Matrix.mul_assoc, hUU, Matrix.one_mul, Matrix.trace_diagonal,
      ← Equiv.sum_comp σ]
    rfl

theorem roots_list (l : List ℝ) : (l.map fun x : ℝ => (X - C (x : ℂ) : ℂ[X])).prod.roots
    = ((l.map (fun x : ℝ => (x : ℂ)) : List ℂ) : Multiset ℂ) := by
  rw [← Multiset.prod_coe, ← Multiset.map_coe, ← Multiset.map_coe,
    show (Multiset.map (fun x : ℝ => (X - C (x : ℂ) : ℂ[X])) (l : Multiset ℝ))
      = Multiset.map (fun z : ℂ => X - C z) (Multiset.map (fun x : ℝ => (x : ℂ)) (l : Multiset ℝ)) by
      rw [Multiset.map_map]; rfl, Polynomial.roots_multiset_prod_X_sub_C]

/-- the solver returns the strictly increasing roots -/
theorem eigTridiag_eq {la : LA} (hla : LAOK la) {d e : ℕ → ℝ} {lam : Fin N → ℝ} (hl : StrictMono lam)
    (h : (tridiag N d e).charpoly = ∏ j, (X - C (lam j))) : eigTridiag la N d e = List.ofFn lam := by
  have h1 := hla.eigvalsh_char _ (tridiag_isHermitian N d e)
  rw [show (tridiag N d e).map (fun x : ℝ => (x : ℂ)) = (tridiag N d e).map (Complex.ofRealHom) from rfl,
    Matrix.charpoly_map, h, Polynomial.map_prod, ← List.prod_ofFn] at h1
  have h0 : List.ofFn (fun i => Polynomial.map Complex.ofRealHom (X - C (lam i)))
      = (List.ofFn lam).map fun x : ℝ => (X - C (x : ℂ) : ℂ[X]) := by
    rw [List.map_ofFn]
    congr 1
    funext i
    simp
  rw [h0] at h1
  have h2 := congrArg Polynomial.roots h1
  rw [roots_list, roots_list] at h2
  have h3 := (List.map_perm_map_iff Complex.ofReal_injective).1 (Multiset.coe_eq_coe.1 h2)
  refine h3.eq_of_pairwise' (hla.eigvalsh_sorted _ (tridiag_isHermitian N d e)) ?_
  rw [List.pairwise_ofFn]
  exact fun i j hij => (hl hij).le

end Verif.Lemmas
