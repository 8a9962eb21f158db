import Verif.Spec.ExampleKernels
import Verif.Spec.Det
import Verif.Lemmas.KerAlg
import Mathlib.LinearAlgebra.Matrix.Block
import Mathlib.MeasureTheory.Integral.Bochner.Set
import Mathlib.MeasureTheory.Measure.Lebesgue.Basic

/-! Lemmas for the example likelihood functions. -/

namespace Verif.Lemmas.ExKer
open Verif Verif.Spec Verif.Model Verif.Model.ExKer Matrix

/-! ### laws from the correlation and from the likelihood kernel -/

theorem exactProb_eq_lDppProb {N : ℕ} {L K : Matrix (Fin N) (Fin N) ℝ} (h : LikelihoodOf L K) (S : Finset (Fin N)) :
    exactProb K S = lDppProb L S := by
  have hne : (1 + L).det ≠ 0 := by
    intro h0
    have := congrArg Matrix.det h.inv
    rw [det_mul, h0, mul_zero, det_one] at this
    exact zero_ne_one this
  rw [lDppProb, eq_div_iff hne, exactProb, mul_assoc, ← det_mul, sub_mul, h.rel]
  set M := L - diagonal (fun i => if i ∈ S then (0 : ℝ) else 1) * (1 + L) with hM
  have hMe : ∀ i j, M i j = if i ∈ S then L i j else if i = j then -1 else 0 := by
    intro i j
    simp only [hM, Matrix.sub_apply, Matrix.diagonal_mul, Matrix.add_apply, Matrix.one_apply]
    split <;> split <;> simp
  rw [Matrix.twoBlockTriangular_det M (fun i => i ∈ S)]
  · have e1 : (Matrix.toSquareBlockProp M (fun i => i ∈ S)).det = minor L S := by
      rw [minor]
      have : Matrix.toSquareBlockProp M (fun i => i ∈ S)
          = (L.submatrix (Subtype.val : S → Fin N) (Subtype.val : S → Fin N)) := by
        ext i j
        have e : Matrix.toSquareBlockProp M (fun i => i ∈ S) i j = M i.1 j.1 := rfl
        rw [e, hMe]
        exact if_pos i.2
      exact congrArg Matrix.det this
    have e2 : (Matrix.toSquareBlockProp M (fun i => ¬ i ∈ S)).det = (-1) ^ (Sᶜ).card := by
      have : Matrix.toSquareBlockProp M (fun i => ¬ i ∈ S) = -1 := by
        ext i j
        have e : Matrix.toSquareBlockProp M (fun i => ¬ i ∈ S) i j = M i.1 j.1 := rfl
        rw [e, hMe, if_neg i.2, Matrix.neg_apply, Matrix.one_apply]
        simp only [Subtype.ext_iff]
        split <;> simp
      rw [this, Matrix.det_neg, Matrix.det_one, mul_one]
      congr 1
      rw [Fintype.card_subtype]
      congr 1
      ext i; simp
    have e3 : ∀ a b : ℝ, a = minor L S → b = (-1) ^ (Sᶜ).card → (-1) ^ (Sᶜ).card * (a * b) = minor L S := by
      rintro a b rfl rfl
      have : ((-1 : ℝ) ^ (Sᶜ).card) * (-1) ^ (Sᶜ).card = 1 := by
        rw [← mul_pow]; simp
      rw [mul_comm (minor L S), ← mul_assoc, this, one_mul]
    exact e3 _ _ (by convert e1) (by convert e2)
  · intro i hi j hj
    rw [hMe, if_neg hi, if_neg]
    rintro rfl; exact hi hj

/-- every likelihood kernel is that of a correlation kernel -/
theorem exists_corr {N : ℕ} {L : Matrix (Fin N) (Fin N) ℝ} (hL : IsLikelihood L) :
    ∃ K, IsCorrelation K ∧ LikelihoodOf L K := by
  obtain ⟨eigh, he⟩ := exists_EighSpec
  obtain ⟨h1, h2⟩ := he N L hL.symm
  have hk : L = ker (eigh N L).2 (eigh N L).1 := by ext i j; exact h2 i j
  have ho : OrthOn (eigh N L).2 (eigh N L).1 := fun a b _ _ => h1 a b
  have hv : ∀ a, 0 ≤ (eigh N L).1 a := eigval_nonneg ho fun x => by rw [← hk]; exact hL.nonneg x
  refine ⟨ker (eigh N L).2 fun a => (eigh N L).1 a / (1 + (eigh N L).1 a), ?_, ?_⟩
  · refine isCorrelation_ker (ho.congr fun a ha => by rw [ha]; simp) fun a => ?_
    have := hv a
    exact ⟨by positivity, by rw [div_le_one (by positivity)]; linarith⟩
  · have := likelihoodOf_ker ho hv
    rwa [← hk] at this

/-! ### positivity of the kernels -/

theorem isLikelihood_linear {n d : ℕ} (X : Fin n → Fin d → ℝ) :
    IsLikelihood (Matrix.of fun i j => ∑ k, X i k * X j k) := by
  refine ⟨fun i j => by simp only [Matrix.of_apply]; exact Finset.sum_congr rfl fun _ _ => mul_comm _ _, fun c => ?_⟩
  have : ∑ i, ∑ j, c i * (Matrix.of fun i j => ∑ k, X i k * X j k) i j * c j = ∑ k, (∑ i, c i * X i k) ^ 2 := by
    simp only [Matrix.of_apply, Finset.mul_sum, Finset.sum_mul, sq]
    rw [Finset.sum_comm_cycle]
    exact Finset.sum_congr rfl fun _ _ => Finset.sum_congr rfl fun _ _ => Finset.sum_congr rfl fun _ _ => by ring
  rw [this]
  positivity

theorem isLikelihood_poly (p : ℕ) {n d : ℕ} (X : Fin n → Fin d → ℝ) :
    IsLikelihood (Matrix.of fun i j => (∑ k, X i k * X j k) ^ p) := by
  have he : ∀ i j, (∑ k, X i k * X j k) ^ p
      = ∑ f : Fin p → Fin d, (∏ a, X i (f a)) * ∏ a, X j (f a) := by
    intro i j
    have : (∑ k, X i k * X j k) ^ p = ∏ _a : Fin p, ∑ k, X i k * X j k := by simp
    rw [this, Finset.prod_univ_sum, Fintype.piFinset_univ]
    exact Finset.sum_congr rfl fun f _ => Finset.prod_mul_distrib
  refine ⟨fun i j => ?_, fun c => ?_⟩
  · simp only [Matrix.of_apply]
    congr 1
    exact Finset.sum_congr rfl fun _ _ => mul_comm _ _
  · have : ∑ i, ∑ j, c i * (Matrix.of fun i j => (∑ k, X i k * X j k) ^ p) i j * c j
        = ∑ f : Fin p → Fin d, (∑ i, c i * ∏ a, X i (f a)) ^ 2 := by
      simp only [Matrix.of_apply, he, Finset.mul_sum, Finset.sum_mul, sq]
      rw [Finset.sum_comm_cycle]
      exact Finset.sum_congr rfl fun _ _ => Finset.sum_congr rfl fun _ _ => Finset.sum_congr rfl fun _ _ => by ring
    rw [this]
    positivity

open MeasureTheory in
theorem min_integral {x y : ℝ} (hx : 0 ≤ x) (hy : 0 ≤ y) :
    ∫ t : ℝ, (Set.Ioc 0 x).indicator (fun _ => (1 : ℝ)) t * (Set.Ioc 0 y).indicator (fun _ => 1) t = min x y := by
  have : (fun t : ℝ => (Set.Ioc 0 x).indicator (fun _ => (1 : ℝ)) t * (Set.Ioc 0 y).indicator (fun _ => 1) t)
      = (Set.Ioc 0 (min x y)).indicator fun _ => 1 := by
    funext t
    simp only [Set.indicator_apply, Set.mem_Ioc, le_min_iff]
    by_cases h0 : 0 < t <;> by_cases h1 : t ≤ x <;> by_cases h2 : t ≤ y <;> simp [h0, h1, h2]
  rw [this, integral_indicator measurableSet_Ioc]
  simp only [integral_const, smul_eq_mul, mul_one, measureReal_restrict_apply_univ, Real.volume_real_Ioc, sub_zero]
  exact max_eq_left (le_min hx hy)

open MeasureTheory in
theorem isLikelihood_min {n : ℕ} (x : Fin n → ℝ) (hx : ∀ i, 0 ≤ x i) :
    IsLikelihood (Matrix.of fun i j => min (x i) (x j)) := by
  refine ⟨fun i j => min_comm _ _, fun c => ?_⟩
  have hint : ∀ i j, Integrable (fun t : ℝ =>
      (Set.Ioc 0 (x i)).indicator (fun _ => (1 : ℝ)) t * (Set.Ioc 0 (x j)).indicator (fun _ => 1) t) := by
    intro i j
    have : (fun t : ℝ => (Set.Ioc 0 (x i)).indicator (fun _ => (1 : ℝ)) t * (Set.Ioc 0 (x j)).indicator (fun _ => 1) t)
        = (Set.Ioc 0 (x i)).indicator ((Set.Ioc 0 (x j)).indicator fun _ => 1) := by
      funext t
      simp only [Set.indicator_apply]
      split <;> simp
    rw [this, integrable_indicator_iff measurableSet_Ioc]
    refine IntegrableOn.indicator ?_ measurableSet_Ioc
    exact integrableOn_const (by simp)
  have : ∑ i, ∑ j, c i * (Matrix.of fun i j => min (x i) (x j)) i j * c j
      = ∫ t : ℝ, (∑ i, c i * (Set.Ioc 0 (x i)).indicator (fun _ => (1 : ℝ)) t) ^ 2 := by
    have e : ∀ t : ℝ, (∑ i, c i * (Set.Ioc 0 (x i)).indicator (fun _ => (1 : ℝ)) t) ^ 2
        = ∑ i, ∑ j, (c i * c j) * ((Set.Ioc 0 (x i)).indicator (fun _ => (1 : ℝ)) t *
          (Set.Ioc 0 (x j)).indicator (fun _ => 1) t) := by
      intro t
      rw [sq, Finset.sum_mul_sum]
      exact Finset.sum_congr rfl fun _ _ => Finset.sum_congr rfl fun _ _ => by ring
    simp only [e]
    rw [integral_finsetSum _ fun i _ => integrable_finsetSum _ fun j _ => (hint i j).const_mul _]
    refine Finset.sum_congr rfl fun i _ => ?_
    rw [integral_finsetSum _ fun j _ => (hint i j).const_mul _]
    refine Finset.sum_congr rfl fun j _ => ?_
    rw [integral_const_mul, min_integral (hx i) (hx j), Matrix.of_apply]
    ring
  rw [this]
  exact integral_nonneg fun t => sq_nonneg _

/-! ### `apply_along_axis` -/

theorem mapM_ok {α β ε : Type} (f : α → Except ε β) (g : α → β) (l : List α) (h : ∀ a ∈ l, f a = .ok (g a)) :
    l.mapM f = .ok (l.map g) := by
  induction l with
  | nil => rfl
  | cons a l ih =>
    rw [List.mapM_cons, h a (by simp), ih fun b hb => h b (by simp [hb])]
    rfl

theorem applyRows_one {f : Arr → Option Arr → Except KErr Tab} {n d : ℕ} (X : Fin n → Fin d → ℝ) (hn : 0 < n)
    (v : (Fin d → ℝ) → ℝ) (h : ∀ i, f (.one d (X i)) none = .ok ⟨1, 1, fun _ _ => v (X i)⟩) :
    applyRows f (.two n d X) = .ok (List.ofFn fun i => v (X i)) := by
  obtain ⟨n, rfl⟩ : ∃ m, n = m + 1 := ⟨n - 1, by omega⟩
  have hm : (List.ofFn X).mapM (fun r => f (.one d r) none)
      = .ok ((List.ofFn X).map fun r => (⟨1, 1, fun _ _ => v r⟩ : Tab)) :=
    mapM_ok _ _ _ fun a ha => by
      obtain ⟨i, rfl⟩ := (List.mem_ofFn' _ _).1 ha
      exact h i
  rw [applyRows, hm]
  have e : (List.ofFn X).map (fun r => (⟨1, 1, fun _ _ => v r⟩ : Tab))
      = ⟨1, 1, fun _ _ => v (X 0)⟩ :: (List.ofFn fun i : Fin n => X i.succ).map fun r => ⟨1, 1, fun _ _ => v r⟩ := by
    rw [List.ofFn_succ, List.map_cons]
  rw [e]
  change (if _ then _ else _) = _
  rw [if_pos]
  · rw [← e]
    congr 1
    have e2 : ∀ l : List (Fin d → ℝ), (l.map fun r => (⟨1, 1, fun _ _ => v r⟩ : Tab)).flatMap
        (fun s => (List.ofFn fun i => List.ofFn fun j => s.a i j).flatten) = l.map v := by
      intro l
      induction l with
      | nil => rfl
      | cons a l ih =>
        rw [List.map_cons, List.flatMap_cons, ih]
        simp
    rw [e2, List.map_ofFn]
    rfl
  · simp

end Verif.Lemmas.ExKer
