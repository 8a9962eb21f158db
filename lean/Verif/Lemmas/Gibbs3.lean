import Verif.Lemmas.Gibbs2
import Verif.Spec.PolyPotential

namespace Verif.Lemmas
open Verif Verif.Model Matrix Polynomial

/-- the padded arrays of the Gibbs sampler -/
structure Padded (N : ℕ) (a b : List ℝ) : Prop where
  la : a.length = N + 3
  lb : b.length = N + 3
  a0 : a.getD 0 0 = 0
  b0 : b.getD 0 0 = 0
  bN : b.getD N 0 = 0
  aT : a.getD (N + 1) 0 = 0 ∧ a.getD (N + 2) 0 = 0
  bT : b.getD (N + 1) 0 = 0 ∧ b.getD (N + 2) 0 = 0
  bpos : ∀ j, 0 ≤ b.getD j 0

noncomputable def zα (a : List ℝ) (z : ℤ) : ℝ := a.getD z.toNat 0
noncomputable def zs (b : List ℝ) (z : ℤ) : ℝ := √(b.getD z.toNat 0)

theorem jacobiMat_eq (N : ℕ) (α s : ℤ → ℝ) (a b : ℕ → ℝ) (ha : ∀ j : ℕ, α j = a j) (hb : ∀ j : ℕ, s j = √(b j)) :
    Spec.jacobiMat N a b = triMat N α s := by
  ext p q
  simp only [Spec.jacobiMat, triMat, Matrix.of_apply]
  have h1 := ha (p + 1); have h2 := hb (p + 1); have h3 := hb (q + 1)
  push_cast at h1 h2 h3
  rw [h1, h2, h3]

theorem pyGet_nonneg (l : List ℝ) {z : ℤ} (hz : 0 ≤ z) : pyGet l z = l.getD z.toNat 0 := by
  rw [pyGet, if_neg (by omega)]

theorem zs_sq {N : ℕ} {a b : List ℝ} (h : Padded N a b) (z : ℤ) : zs b z ^ 2 = b.getD z.toNat 0 :=
  Real.sq_sqrt (h.bpos _)

theorem condA {N : ℕ} {a b : List ℝ} (h : Padded N a b) (V : ℝ[X]) (hV : V.natDegree ≤ 6) {i : ℕ} (h1 : 1 ≤ i)
    (hi : i ≤ N) : ∃ c, ∀ x : ℝ,
      (aeval (Spec.jacobiMat N (Function.update (fun j => a.getD j 0) i x) (fun j => b.getD j 0)) V).trace
        = c + (condPolyA i a b V).eval x := by
  have hmat : ∀ x : ℝ, Spec.jacobiMat N (Function.update (fun j => a.getD j 0) i x) (fun j => b.getD j 0)
      = triMat N (upd (zα a) i 0) (zs b) + x • Matrix.single ⟨i - 1, by omega⟩ ⟨i - 1, by omega⟩ 1 := by
    intro x
    have hcast : ((⟨i - 1, by omega⟩ : Fin N) : ℕ) + (1 : ℤ) = i := by simp; omega
    have := triMat_upd_diag (zα a) (zs b) (⟨i - 1, by omega⟩ : Fin N) x
    rw [hcast] at this
    rw [← this]
    refine jacobiMat_eq N _ _ _ _ (fun j => ?_) (fun j => by simp [zs])
    simp only [upd, zα, Function.update_apply, Nat.cast_inj, Int.toNat_natCast]
  have hpow : ∀ (x : ℝ) (k : ℕ), ((triMat N (upd (zα a) i 0) (zs b)
      + x • Matrix.single (⟨i - 1, by omega⟩ : Fin N) (⟨i - 1, by omega⟩ : Fin N) (1 : ℝ) : Matrix (Fin N) (Fin N) ℝ) ^ k) ⟨i - 1, by omega⟩ ⟨i - 1, by omega⟩
      = walk (fun c => upd (zα a) i x (i + c)) (fun c => zs b (i + c)) 0 k 0 := by
    intro x k
    have hcast : ((⟨i - 1, by omega⟩ : Fin N) : ℕ) + (1 : ℤ) = i := by simp; omega
    have := triMat_upd_diag (zα a) (zs b) (⟨i - 1, by omega⟩ : Fin N) x
    rw [hcast] at this
    rw [← this, pow_entry (by simp only [zs, Int.toNat_zero, h.b0, Real.sqrt_zero])
      (by simp only [zs, Int.toNat_natCast, h.bN, Real.sqrt_zero]), hcast, ← walk_shift, add_zero]
  simp only [hmat]
  refine exists_const_of_deriv (fun x => hasDerivAt_traceV V hV _ _ x) (fun x => ?_)
  refine ((condPolyA i a b V).hasDerivAt x).congr_deriv ?_
  simp only [trace_mul_single, hpow]
  rw [show (∑ n ∈ Finset.range 7, V.coeff n * ((n : ℝ) * walk (fun c => upd (zα a) i x (i + c))
    (fun c => zs b (i + c)) 0 (n - 1) 0)) = dA V (fun c => upd (zα a) i x (i + c)) (fun c => zs b (i + c)) from rfl, dA_eq]
  simp only [zs_sq h]
  have u0 : upd (zα a) i x (i + 0) = x := by simp [upd]
  have u1 : upd (zα a) i x (i + 1) = pyGet a (i + 1) := by
    rw [upd, if_neg (by omega), zα, pyGet_nonneg _ (by omega)]
  have u2 : upd (zα a) i x (i + 2) = pyGet a (i + 2) := by
    rw [upd, if_neg (by omega), zα, pyGet_nonneg _ (by omega)]
  have u3 : upd (zα a) i x (i + -1) = pyGet a (i - 1) := by
    rw [upd, if_neg (by omega), zα, pyGet_nonneg _ (by omega)]; rfl
  have u4 : upd (zα a) i x (i + -2) = pyGet a (max 0 (i - 2)) := by
    rw [upd, if_neg (by omega), zα, pyGet_nonneg _ (by omega)]; congr 1; omega
  have v0 : b.getD ((i : ℤ) + 0).toNat 0 = pyGet b i := by
    rw [pyGet_nonneg _ (by omega)]; simp
  have v1 : b.getD ((i : ℤ) + 1).toNat 0 = pyGet b (i + 1) := by
    rw [pyGet_nonneg _ (by omega)]
  have v3 : b.getD ((i : ℤ) + -1).toNat 0 = pyGet b (i - 1) := by
    rw [pyGet_nonneg _ (by omega)]; rfl
  have v4 : b.getD ((i : ℤ) + -2).toNat 0 = pyGet b (max 0 (i - 2)) := by
    rw [pyGet_nonneg _ (by omega)]; congr 1; omega
  rw [u0, u1, u2, u3, u4, v0, v1, v3, v4]
  simp only [condPolyA]
  generalize pyGet b i = b0
  generalize pyGet b (i + 1) = b1
  generalize pyGet b (i - 1) = bm
  generalize pyGet b (max 0 (i - 2)) = bmm
  generalize pyGet a (i - 1) = am
  generalize pyGet a (i + 1) = a1
  generalize pyGet a (i + 2) = a2
  generalize pyGet a (max 0 (i - 2)) = amm
  simp only [derivative_add, derivative_mul, derivative_C, derivative_X, derivative_X_pow, eval_add, eval_mul, eval_C,
    eval_X, eval_pow, eval_zero, eval_one, map_natCast, eval_natCast]
  norm_num
  ring

theorem condB {N : ℕ} {a b : List ℝ} (h : Padded N a b) (V : ℝ[X]) (hV : V.natDegree ≤ 6) {i : ℕ} (h1 : 1 ≤ i)
    (hi : i < N) : ∃ c, ∀ x : ℝ, 0 ≤ x →
      (aeval (Spec.jacobiMat N (fun j => a.getD j 0) (Function.update (fun j => b.getD j 0) i x)) V).trace
        = c + (condPolyB i a b V).eval x := by
  have hcast : ((⟨i - 1, by omega⟩ : Fin N) : ℕ) + (1 : ℤ) = i := by simp; omega
  have hcast2 : ((⟨i, by omega⟩ : Fin N) : ℕ) + (1 : ℤ) = i + 1 := by simp
  have hupd : ∀ t : ℝ, triMat N (zα a) (upd (zs b) i t) = triMat N (zα a) (upd (zs b) i 0)
      + t • (Matrix.single ⟨i - 1, by omega⟩ ⟨i, by omega⟩ 1 + Matrix.single ⟨i, by omega⟩ ⟨i - 1, by omega⟩ 1) := by
    intro t
    have := triMat_upd_off (zα a) (zs b) (⟨i - 1, by omega⟩ : Fin N) ⟨i, by omega⟩ (by simp; omega) t
    rw [hcast] at this
    exact this
  have hmat : ∀ x : ℝ, Spec.jacobiMat N (fun j => a.getD j 0) (Function.update (fun j => b.getD j 0) i x)
      = triMat N (zα a) (upd (zs b) i √x) := by
    intro x
    refine jacobiMat_eq N _ _ _ _ (fun j => by simp [zα]) (fun j => ?_)
    simp only [upd, zs, Function.update_apply, Nat.cast_inj, Int.toNat_natCast]
    split <;> rfl
  have hz : ∀ t, upd (zs b) i t 0 = 0 ∧ upd (zs b) i t N = 0 := fun t => by
    constructor
    · rw [upd, if_neg (by omega)]; simp only [zs, Int.toNat_zero, h.b0, Real.sqrt_zero]
    · rw [upd, if_neg (by omega)]; simp only [zs, Int.toNat_natCast, h.bN, Real.sqrt_zero]
  have hp1 : ∀ (t : ℝ) (k : ℕ), (triMat N (zα a) (upd (zs b) i t) ^ k) ⟨i, by omega⟩ ⟨i - 1, by omega⟩
      = walk (fun c => zα a (i + c)) (fun c => upd (zs b) i t (i + c)) 0 k 1 := by
    intro t k
    rw [pow_entry (hz t).1 (hz t).2, hcast, hcast2, ← walk_shift, add_zero]
  have hp2 : ∀ (t : ℝ) (k : ℕ), (triMat N (zα a) (upd (zs b) i t) ^ k) ⟨i - 1, by omega⟩ ⟨i, by omega⟩
      = walk (fun c => zα a (i + c)) (fun c => upd (zs b) i t (i + c)) 1 k 0 := by
    intro t k
    rw [pow_entry (hz t).1 (hz t).2, hcast, hcast2, ← walk_shift, add_zero]
  suffices hs : ∃ c, ∀ t : ℝ, (aeval (triMat N (zα a) (upd (zs b) i t)) V).trace
      = c + (condPolyB i a b V).eval (t ^ 2) by
    obtain ⟨c, hc⟩ := hs
    refine ⟨c, fun x hx => ?_⟩
    rw [hmat, hc, Real.sq_sqrt hx]
  refine exists_const_of_deriv
    (d := fun t => dB V (fun c => zα a (i + c)) (fun c => upd (zs b) i t (i + c))) (fun t => ?_) (fun t => ?_)
  · have := hasDerivAt_traceV V hV (triMat N (zα a) (upd (zs b) i 0))
      (Matrix.single ⟨i - 1, by omega⟩ ⟨i, by omega⟩ 1 + Matrix.single ⟨i, by omega⟩ ⟨i - 1, by omega⟩ 1) t
    simp only [← hupd, Matrix.mul_add, Matrix.trace_add, trace_mul_single, hp1, hp2] at this
    exact this
  · have hd := ((condPolyB i a b V).hasDerivAt (t ^ 2)).comp t (_root_.hasDerivAt_pow 2 t)
    refine hd.congr_deriv ?_
    rw [dB_eq]
    have s0 : upd (zs b) i t (i + 0) = t := by simp [upd]
    have sq : ∀ z : ℤ, z ≠ i → upd (zs b) i t z ^ 2 = b.getD z.toNat 0 := by
      intro z hz
      rw [upd, if_neg hz, zs_sq h]
    rw [sq (i + 1) (by omega), sq (i + 2) (by omega), sq (i + -1) (by omega), sq (i + -2) (by omega), s0]
    have u0 : zα a (i + 0) = pyGet a i := by rw [zα, pyGet_nonneg _ (by omega)]; simp
    have u1 : zα a (i + 1) = pyGet a (i + 1) := by rw [zα, pyGet_nonneg _ (by omega)]
    have u2 : zα a (i + 2) = pyGet a (i + 2) := by rw [zα, pyGet_nonneg _ (by omega)]
    have u3 : zα a (i + -1) = pyGet a (i - 1) := by rw [zα, pyGet_nonneg _ (by omega)]; rfl
    have v1 : b.getD ((i : ℤ) + 1).toNat 0 = pyGet b (i + 1) := by
      rw [pyGet_nonneg _ (by omega)]
    have v2 : b.getD ((i : ℤ) + 2).toNat 0 = pyGet b (i + 2) := by
      rw [pyGet_nonneg _ (by omega)]
    have v3 : b.getD ((i : ℤ) + -1).toNat 0 = pyGet b (i - 1) := by
      rw [pyGet_nonneg _ (by omega)]; rfl
    have v4 : b.getD ((i : ℤ) + -2).toNat 0 = pyGet b (i - 2) := by
      by_cases h2 : i = 1
      · subst h2
        have e1 : pyGet b ((1 : ℕ) - 2 : ℤ) = 0 := by
          rw [pyGet, if_pos (by norm_num), h.lb]
          rw [show ((((N + 3 : ℕ) : ℤ) + (((1 : ℕ) : ℤ) - 2)).toNat) = N + 2 by omega]
          exact h.bT.2
        rw [e1, show ((((1 : ℕ) : ℤ) + -2).toNat) = 0 by omega]
        exact h.b0
      · rw [pyGet_nonneg _ (by omega)]; rfl
    rw [u0, u1, u2, u3, v1, v2, v3, v4]
    simp only [condPolyB]
    generalize pyGet a i = a0
    generalize pyGet b (i + 1) = b1
    generalize pyGet b (i - 1) = bm
    generalize pyGet b (i + 2) = b2
    generalize pyGet b (i - 2) = bmm
    generalize pyGet a (i - 1) = am
    generalize pyGet a (i + 1) = a1
    generalize pyGet a (i + 2) = a2
    simp only [derivative_add, derivative_mul, derivative_C, derivative_X, derivative_X_pow, eval_add, eval_mul, eval_C,
      eval_X, eval_pow, eval_zero, eval_one, map_natCast, eval_natCast]
    norm_num
    ring

end Verif.Lemmas
