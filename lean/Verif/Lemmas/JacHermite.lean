import Verif.Lemmas.JacLaw
import Mathlib.Probability.Distributions.Gaussian.Real

/-!
# Law of the eigenvalues of the banded Hermite model
-/

namespace Verif.Lemmas
open Finset Matrix MeasureTheory Verif.Model ProbabilityTheory Polynomial

variable {N : ℕ}

/-- the Jacobi matrix with coefficients `y` -/
noncomputable def jacT (y : Cd N) : Matrix (Fin N) (Fin N) ℝ :=
  tridiag N (pad fun i => y (.inl i)) (fun i => √(pad (fun i => y (.inr i)) (i + 1)))

theorem exists_specMap {y : Cd N} (hy : y ∈ specR N) : ∃ x ∈ specS N, momF x = momG y ∧
    (jacT y).charpoly = ∏ j, (X - C (x (.inl j))) ∧ ∀ k, (jacT y ^ k).trace = ∑ j, x (.inl j) ^ k := by
  obtain ⟨lam, w, h1, h2, h3, h4, h5⟩ := exists_spec (a := pad fun i => y (.inl i)) (B := pad fun i => y (.inr i)) (N := N)
    (fun i hi => by rw [pad_lt hi]; exact hy _) (by rw [pad, dif_neg (lt_irrefl N)])
  refine ⟨Sum.elim lam w, ⟨h1, h2⟩, ?_, h4, h5⟩
  funext r
  exact h3 _

open Classical in
/-- eigenvalues and weights of a Jacobi matrix -/
noncomputable def specMap (y : Cd N) : Cd N := if h : y ∈ specR N then (exists_specMap h).choose else 0

theorem specMap_mem {y : Cd N} (hy : y ∈ specR N) : specMap y ∈ specS N := by
  rw [specMap, dif_pos hy]; exact (exists_specMap hy).choose_spec.1

theorem specMap_mom {y : Cd N} (hy : y ∈ specR N) : momF (specMap y) = momG y := by
  rw [specMap, dif_pos hy]; exact (exists_specMap hy).choose_spec.2.1

theorem specMap_char {y : Cd N} (hy : y ∈ specR N) : (jacT y).charpoly = ∏ j, (X - C (specMap y (.inl j))) := by
  rw [specMap, dif_pos hy]; exact (exists_specMap hy).choose_spec.2.2.1

theorem specMap_trace {y : Cd N} (hy : y ∈ specR N) (k : ℕ) : (jacT y ^ k).trace = ∑ j, specMap y (.inl j) ^ k := by
  rw [specMap, dif_pos hy]; exact (exists_specMap hy).choose_spec.2.2.2 k

theorem specMap_ok : ∀ y ∈ specR N, specMap y ∈ specS N ∧ momF (specMap y) = momG y :=
  fun _ hy => ⟨specMap_mem hy, specMap_mom hy⟩

theorem measurable_specMap : Measurable (specMap (N := N)) := by
  have h := measurable_spec (specMap_ok (N := N))
  have : (specR N).indicator specMap = specMap := by
    funext y
    by_cases hy : y ∈ specR N
    · rw [Set.indicator_of_mem hy]
    · rw [Set.indicator_of_notMem hy, specMap, dif_neg hy]
  rwa [this] at h

theorem tridiag_congr {d d' e e' : ℕ → ℝ} (hd : ∀ i < N, d i = d' i) (he : ∀ i, i + 1 < N → e i = e' i) :
    tridiag N d e = tridiag N d' e' := by
  ext p q
  have := p.2
  have := q.2
  simp only [tridiag, Matrix.of_apply]
  split_ifs with h1 h2 h3
  · exact hd _ p.2
  · exact he _ (by omega)
  · exact he _ (by omega)
  · rfl

/-- the list returned by the solver -/
theorem eig_specMap {la : LA} (hla : LAOK la) {d e : ℕ → ℝ} {y : Cd N} (hy : y ∈ specR N)
    (hd : ∀ i < N, d i = pad (fun i => y (.inl i)) i) (he : ∀ i, i + 1 < N → e i = √(pad (fun i => y (.inr i)) (i + 1))) :
    eigTridiag la N d e = List.ofFn fun j => specMap y (.inl j) := by
  refine eigTridiag_eq hla (specMap_mem hy).1 ?_
  rw [tridiag_congr hd he]
  exact specMap_char hy

/-- the eigenvalues do not depend on the mass -/
theorem specMap_congr {y y' : Cd N} (hy : y ∈ specR N) (hy' : y' ∈ specR N) (h : jacT y = jacT y') (j : Fin N) :
    specMap y (.inl j) = specMap y' (.inl j) := by
  have h1 := specMap_char hy
  rw [h, specMap_char hy'] at h1
  have h2 := congrArg Polynomial.roots h1
  have hr : ∀ f : Fin N → ℝ, (∏ j, (X - C (f j))).roots = ((List.ofFn f : List ℝ) : Multiset ℝ) := by
    intro f
    rw [show ∏ j, (X - C (f j)) = (Multiset.map (fun a => X - C a) (Multiset.map f univ.val)).prod by
      rw [Multiset.map_map]; rfl, Polynomial.roots_multiset_prod_X_sub_C]
    exact Fin.univ_val_map f
  rw [hr, hr] at h2
  have h3 := (Multiset.coe_eq_coe.1 h2).eq_of_pairwise' (r := (· ≤ ·))
    (List.pairwise_ofFn.2 fun i j hij => ((specMap_mem hy').1 hij).le)
    (List.pairwise_ofFn.2 fun i j hij => ((specMap_mem hy).1 hij).le)
  exact (congrFun (List.ofFn_injective h3) j).symm

/-! ### Traces -/

theorem trace_tridiag (d e : ℕ → ℝ) : (tridiag N d e).trace = ∑ p : Fin N, d p := by
  rw [Matrix.trace]; exact sum_congr rfl fun p _ => by simp [tridiag]

theorem trace_tridiag_sq (d e : ℕ → ℝ) : (tridiag N d e ^ 2).trace = ∑ p : Fin N, d p ^ 2 + 2 * ∑ p ∈ range (N - 1), e p ^ 2 := by
  have h : ∀ p : Fin N, (tridiag N d e ^ 2) p p = d p ^ 2 + (if (p : ℕ) + 1 < N then e p ^ 2 else 0)
      + (if (p : ℕ) = 0 then 0 else e (p - 1) ^ 2) := by
    intro p
    have hmv := tridiag_mulVec d e (fun q : Fin N => tridiag N d e q p) p
    rw [Matrix.mulVec, dotProduct] at hmv
    rw [sq, Matrix.mul_apply, hmv]
    congr 1
    · congr 1
      · rw [pad_fin]; simp [tridiag, sq]
      · rw [pad]
        split_ifs with h
        · simp [tridiag, Fin.ext_iff, sq]
          intro h'; omega
        · simp
    · rw [prv]
      split_ifs with h
      · rfl
      · have := p.2
        rw [pad_lt (show (p : ℕ) - 1 < N by omega)]
        have h1 : ¬ (p : ℕ) - 1 = p := by omega
        have h2 : (p : ℕ) = p - 1 + 1 := by omega
        simp only [tridiag, Matrix.of_apply, Fin.ext_iff, h1, if_false, if_pos h2]
        ring
  rw [Matrix.trace]
  simp only [Matrix.diag_apply, h, sum_add_distrib]
  rw [two_mul, ← add_assoc]
  congr 1
  · congr 1
    rw [Fin.sum_univ_eq_sum_range (fun p => if p + 1 < N then e p ^ 2 else 0), ← sum_filter]
    refine sum_congr ?_ fun _ _ => rfl
    ext p; simp; omega
  · rw [Fin.sum_univ_eq_sum_range (fun p => if p = 0 then 0 else e (p - 1) ^ 2)]
    rcases N with _ | N
    · simp
    · rw [sum_range_succ']; simp

/-! ### Two independent draws -/

/-- law of a function of two independent draws, as produced by two nested `bind` -/
theorem bind_two {X Y Z : Type} [MeasurableSpace X] [MeasurableSpace Y] [MeasurableSpace Z] (μ : Measure X) (ν : Measure Y)
    [SFinite μ] [SFinite ν] {F : X → Y → Z} {F' : X × Y → Z} (hF' : Measurable F') (h : ∀ x, ∀ᵐ y ∂ν, F x y = F' (x, y)) :
    μ.bind (fun x => ν.bind fun y => Measure.dirac (F x y)) = (μ.prod ν).map F' := by
  have h1 : (fun x => ν.bind fun y => Measure.dirac (F x y)) = fun x => ν.map fun y => F' (x, y) := by
    funext x
    have hm : Measurable fun y => F' (x, y) := hF'.comp measurable_prodMk_left
    rw [← Measure.bind_dirac_eq_map _ hm]
    rw [Measure.bind, Measure.bind]
    congr 1
    refine Measure.map_congr ?_
    filter_upwards [h x] with y hy
    rw [hy]
  rw [h1]
  have hmm : Measurable fun x => ν.map fun y => F' (x, y) := by
    refine Measure.measurable_of_measurable_coe _ fun s hs => ?_
    have : (fun x => (ν.map fun y => F' (x, y)) s) = fun x => ν (Prod.mk x ⁻¹' (F' ⁻¹' s)) := by
      funext x
      rw [Measure.map_apply (f := fun y => F' (x, y)) (hF'.comp measurable_prodMk_left) hs]; rfl
    rw [this]
    exact measurable_measure_prodMk_left (hF' hs)
  ext s hs
  rw [Measure.bind_apply hs hmm.aemeasurable, Measure.map_apply hF' hs, Measure.prod_apply (hF' hs)]
  refine lintegral_congr fun x => ?_
  rw [Measure.map_apply (f := fun y => F' (x, y)) (hF'.comp measurable_prodMk_left) hs]; rfl

end Verif.Lemmas
