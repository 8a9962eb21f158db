import Verif.Lemmas.Haar1
import Mathlib.LinearAlgebra.Matrix.Block

/-!
# The unitary factor of a matrix
-/

namespace Verif.Lemmas
open Finset Matrix MeasureTheory ProbabilityTheory Verif.Model

variable {n : ℕ}

/-- `A = U R` with `U` unitary and `R` upper triangular with a positive diagonal -/
structure IsGS (A U : Matrix (Fin n) (Fin n) ℂ) : Prop where
  uni : U ∈ unitaryGroup (Fin n) ℂ
  upper : (Uᴴ * A).BlockTriangular id
  pos : ∀ i, ∃ r : ℝ, 0 < r ∧ (Uᴴ * A) i i = r

theorem uni_conj_mul {U : Matrix (Fin n) (Fin n) ℂ} (h : U ∈ unitaryGroup (Fin n) ℂ) : Uᴴ * U = 1 := by
  simpa [star_eq_conjTranspose] using mem_unitaryGroup_iff'.1 h

theorem uni_mul_conj {U : Matrix (Fin n) (Fin n) ℂ} (h : U ∈ unitaryGroup (Fin n) ℂ) : U * Uᴴ = 1 := by
  simpa [star_eq_conjTranspose] using mem_unitaryGroup_iff.1 h

theorem uni_of {U : Matrix (Fin n) (Fin n) ℂ} (h : Uᴴ * U = 1) : U ∈ unitaryGroup (Fin n) ℂ :=
  mem_unitaryGroup_iff'.2 (by rw [star_eq_conjTranspose, h])

theorem uni_mul {U V : Matrix (Fin n) (Fin n) ℂ} (hU : U ∈ unitaryGroup (Fin n) ℂ) (hV : V ∈ unitaryGroup (Fin n) ℂ) :
    U * V ∈ unitaryGroup (Fin n) ℂ := mul_mem hU hV

theorem det_upper_pos {R : Matrix (Fin n) (Fin n) ℂ} (hR : R.BlockTriangular id) (hp : ∀ i, ∃ r : ℝ, 0 < r ∧ R i i = r) : R.det ≠ 0 := by
  rw [Matrix.det_of_upperTriangular hR]
  refine Finset.prod_ne_zero_iff.2 fun i _ => ?_
  obtain ⟨r, h1, h2⟩ := hp i
  rw [h2]
  exact_mod_cast h1.ne'

/-- uniqueness of the factor -/
theorem gs_core {T R R' : Matrix (Fin n) (Fin n) ℂ} (hT : Tᴴ * T = 1) (hR : R.BlockTriangular id) (hR' : R'.BlockTriangular id)
    (hp : ∀ i, ∃ r : ℝ, 0 < r ∧ R i i = r) (hp' : ∀ i, ∃ r : ℝ, 0 < r ∧ R' i i = r) (h : T * R = R') : T = 1 := by
  have hd := det_upper_pos hR hp
  have hd' := det_upper_pos hR' hp'
  have hu : IsUnit R.det := isUnit_iff_ne_zero.2 hd
  have hu' : IsUnit R'.det := isUnit_iff_ne_zero.2 hd'
  have := invertibleOfIsUnitDet R hu
  have := invertibleOfIsUnitDet R' hu'
  have e1 : T = R' * R⁻¹ := by rw [← h, Matrix.mul_assoc, Matrix.mul_nonsing_inv _ hu, Matrix.mul_one]
  have hTT : T * Tᴴ = 1 := mul_eq_one_comm.1 hT
  have e2 : Tᴴ = R * R'⁻¹ := by
    have : Tᴴ * R' = R := by rw [← h, ← Matrix.mul_assoc, hT, Matrix.one_mul]
    rw [← this, Matrix.mul_assoc, Matrix.mul_nonsing_inv _ hu', Matrix.mul_one]
  have u1 : T.BlockTriangular id := by
    rw [e1]; exact hR'.mul (Matrix.blockTriangular_inv_of_blockTriangular hR)
  have u2 : (Tᴴ).BlockTriangular id := by
    rw [e2]; exact hR.mul (Matrix.blockTriangular_inv_of_blockTriangular hR')
  have hoff : ∀ i j, i ≠ j → T i j = 0 := by
    intro i j hij
    rcases lt_or_gt_of_ne hij with hl | hl
    · have h2 : Tᴴ j i = 0 := u2 (show id i < id j from hl)
      rw [conjTranspose_apply, star_eq_zero] at h2
      exact h2
    · exact u1 (show id j < id i from hl)
  ext i j
  by_cases hij : i = j
  · subst hij
    obtain ⟨r, r0, hr⟩ := hp i
    obtain ⟨r', r0', hr'⟩ := hp' i
    have h3 : T i i * R i i = R' i i := by
      rw [← h, Matrix.mul_apply, Finset.sum_eq_single i]
      · intro k _ hk
        rw [hoff i k (Ne.symm hk), zero_mul]
      · simp
    have h4 : star (T i i) * T i i = 1 := by
      have := congrFun (congrFun hT i) i
      rw [Matrix.mul_apply, Finset.sum_eq_single i, Matrix.one_apply_eq, conjTranspose_apply] at this
      · exact this
      · intro k _ hk
        rw [hoff k i hk, mul_zero]
      · simp
    have h5 : T i i = ((r' / r : ℝ) : ℂ) := by
      rw [hr, hr'] at h3
      have : (r : ℂ) ≠ 0 := by exact_mod_cast r0.ne'
      push_cast
      exact (eq_div_iff this).2 h3
    rw [h5] at h4 ⊢
    have h6 : (r' / r) * (r' / r) = 1 := by
      have h7 : star ((r' / r : ℝ) : ℂ) = ((r' / r : ℝ) : ℂ) := Complex.conj_ofReal _
      rw [h7] at h4
      exact_mod_cast h4
    have h8 : r' / r = 1 := by
      have h9 : 0 < r' / r := div_pos r0' r0
      nlinarith [sq_nonneg (r' / r - 1)]
    rw [h8]; simp
  · rw [hoff i j hij, Matrix.one_apply_ne hij]

theorem IsGS.unique {A U U' : Matrix (Fin n) (Fin n) ℂ} (h : IsGS A U) (h' : IsGS A U') : U = U' := by
  have h1 : (U'ᴴ * U)ᴴ * (U'ᴴ * U) = 1 := by
    rw [conjTranspose_mul, conjTranspose_conjTranspose, Matrix.mul_assoc, ← Matrix.mul_assoc U', uni_mul_conj h'.uni, Matrix.one_mul, uni_conj_mul h.uni]
  have h2 : (U'ᴴ * U) * (Uᴴ * A) = U'ᴴ * A := by
    rw [Matrix.mul_assoc, ← Matrix.mul_assoc U, uni_mul_conj h.uni, Matrix.one_mul]
  have h3 := gs_core h1 h.upper h'.upper h.pos h'.pos h2
  calc U = U' * (U'ᴴ * U) := by rw [← Matrix.mul_assoc, uni_mul_conj h'.uni, Matrix.one_mul]
    _ = U' := by rw [h3, Matrix.mul_one]

theorem IsGS.left {A U V : Matrix (Fin n) (Fin n) ℂ} (h : IsGS A U) (hV : V ∈ unitaryGroup (Fin n) ℂ) : IsGS (V * A) (V * U) := by
  have e : (V * U)ᴴ * (V * A) = Uᴴ * A := by
    rw [conjTranspose_mul, Matrix.mul_assoc, ← Matrix.mul_assoc Vᴴ, uni_conj_mul hV, Matrix.one_mul]
  exact ⟨uni_mul hV h.uni, by rw [e]; exact h.upper, by rw [e]; exact h.pos⟩

open Classical in
/-- the unitary factor (the identity when there is none) -/
noncomputable def gsU (x : Fin n × Fin n → ℂ) : Fin n × Fin n → ℂ :=
  if h : ∃ U, IsGS (mat x) U then unmat h.choose else unmat (1 : Matrix (Fin n) (Fin n) ℂ)

theorem gsU_eq {x : Fin n × Fin n → ℂ} {U : Matrix (Fin n) (Fin n) ℂ} (h : IsGS (mat x) U) : gsU x = unmat U := by
  have hx : ∃ U, IsGS (mat x) U := ⟨U, h⟩
  rw [gsU, dif_pos hx, hx.choose_spec.unique h]

/-- pairs of factors -/
def gsSet (n : ℕ) : Set ((Fin n × Fin n → ℂ) × (Fin n × Fin n → ℂ)) :=
  {p | (mat p.1)ᴴ * mat p.1 = 1 ∧ (mat p.2).BlockTriangular id ∧ ∀ i, 0 < (p.2 (i, i)).re ∧ (p.2 (i, i)).im = 0}

theorem measurableSet_gsSet : MeasurableSet (gsSet n) := by
  have e : gsSet n = {p | ∀ i j, ((mat p.1)ᴴ * mat p.1) i j = (1 : Matrix (Fin n) (Fin n) ℂ) i j} ∩
      ({p | ∀ i j, j < i → p.2 (i, j) = 0} ∩ {p | ∀ i, 0 < (p.2 (i, i)).re ∧ (p.2 (i, i)).im = 0}) := by
    ext p
    simp only [gsSet, Set.mem_setOf_eq, Set.mem_inter_iff]
    refine and_congr (by rw [← Matrix.ext_iff]) (and_congr ⟨fun h i j hij => h hij, fun h i j hij => h i j hij⟩ Iff.rfl)
  rw [e]
  refine MeasurableSet.inter ?_ (MeasurableSet.inter ?_ ?_)
  · simp only [Set.setOf_forall]
    refine MeasurableSet.iInter fun i => MeasurableSet.iInter fun j => ?_
    exact measurableSet_eq_fun (measurable_matmul (measurable_conjT fun i j => (measurable_mat i j).comp measurable_fst)
      (fun i j => (measurable_mat i j).comp measurable_fst) i j) measurable_const
  · simp only [Set.setOf_forall]
    refine MeasurableSet.iInter fun i => MeasurableSet.iInter fun j => MeasurableSet.iInter fun _ => ?_
    exact measurableSet_eq_fun (by fun_prop) measurable_const
  · simp only [Set.setOf_forall]
    refine MeasurableSet.iInter fun i => MeasurableSet.inter ?_ ?_
    · exact measurableSet_lt measurable_const (Complex.measurable_re.comp (by fun_prop))
    · exact measurableSet_eq_fun (Complex.measurable_im.comp (by fun_prop)) measurable_const

/-- the product of the factors -/
noncomputable def gsMul (p : (Fin n × Fin n → ℂ) × (Fin n × Fin n → ℂ)) : Fin n × Fin n → ℂ := unmat (mat p.1 * mat p.2)

theorem measurable_gsMul : Measurable (gsMul (n := n)) :=
  measurable_unmat (measurable_matmul (fun i j => (measurable_mat i j).comp measurable_fst) (fun i j => (measurable_mat i j).comp measurable_snd))

theorem gsMul_spec {p : (Fin n × Fin n → ℂ) × (Fin n × Fin n → ℂ)} (hp : p ∈ gsSet n) : IsGS (mat (gsMul p)) (mat p.1) := by
  have e : (mat p.1)ᴴ * mat (gsMul p) = mat p.2 := by
    rw [gsMul, mat_unmat, ← Matrix.mul_assoc, hp.1, Matrix.one_mul]
  refine ⟨uni_of hp.1, by rw [e]; exact hp.2.1, fun i => ⟨(p.2 (i, i)).re, (hp.2.2 i).1, ?_⟩⟩
  rw [e]
  exact Complex.ext rfl (by simpa [mat] using (hp.2.2 i).2)

theorem gsMul_inj : Set.InjOn (gsMul (n := n)) (gsSet n) := by
  intro p hp q hq h
  have h1 := gsMul_spec hp
  rw [h] at h1
  have h2 := h1.unique (gsMul_spec hq)
  have h3 : p.1 = q.1 := by
    funext i; exact congrFun (congrFun h2 i.1) i.2
  have h4 : mat p.2 = mat q.2 := by
    have e : ∀ p ∈ gsSet n, (mat p.1)ᴴ * mat (gsMul p) = mat p.2 := fun p hp => by
      rw [gsMul, mat_unmat, ← Matrix.mul_assoc, hp.1, Matrix.one_mul]
    rw [← e p hp, ← e q hq, h, h3]
  refine Prod.ext h3 ?_
  funext i; exact congrFun (congrFun h4 i.1) i.2

theorem gsMul_range (x : Fin n × Fin n → ℂ) : x ∈ gsMul '' gsSet n ↔ ∃ U, IsGS (mat x) U := by
  constructor
  · rintro ⟨p, hp, rfl⟩
    exact ⟨_, gsMul_spec hp⟩
  · rintro ⟨U, h⟩
    refine ⟨(unmat U, unmat (Uᴴ * mat x)), ⟨uni_conj_mul h.uni, h.upper, fun i => ?_⟩, ?_⟩
    · obtain ⟨r, h1, h2⟩ := h.pos i
      simp only [unmat]
      rw [h2]
      exact ⟨by simpa using h1, by simp⟩
    · rw [gsMul]
      simp only [mat_unmat]
      rw [← Matrix.mul_assoc, uni_mul_conj h.uni, Matrix.one_mul]
      rfl

theorem measurable_gsU : Measurable (gsU (n := n)) := by
  intro t ht
  have h1 : MeasurableSet (gsMul '' (gsSet n ∩ Prod.fst ⁻¹' t)) :=
    (measurableSet_gsSet.inter (measurable_fst ht)).image_of_measurable_injOn measurable_gsMul (gsMul_inj.mono Set.inter_subset_left)
  have h2 : MeasurableSet (gsMul '' gsSet n) := measurableSet_gsSet.image_of_measurable_injOn measurable_gsMul gsMul_inj
  have e : gsU ⁻¹' t = gsMul '' (gsSet n ∩ Prod.fst ⁻¹' t) ∪ ((gsMul '' gsSet n)ᶜ ∩ {_x | unmat (1 : Matrix (Fin n) (Fin n) ℂ) ∈ t}) := by
    ext x
    simp only [Set.mem_preimage, Set.mem_union, Set.mem_inter_iff, Set.mem_compl_iff, Set.mem_setOf_eq]
    by_cases hx : x ∈ gsMul '' gsSet n
    · obtain ⟨p, hp, rfl⟩ := hx
      rw [gsU_eq (gsMul_spec hp)]
      constructor
      · intro h; exact Or.inl ⟨p, ⟨hp, h⟩, rfl⟩
      · rintro (⟨q, ⟨hq, hqt⟩, h⟩ | ⟨h, -⟩)
        · have := gsMul_inj hq hp h
          subst this; exact hqt
        · exact absurd ⟨p, hp, rfl⟩ h
    · have hx' := hx
      rw [gsMul_range] at hx'
      rw [gsU, dif_neg hx']
      constructor
      · intro h; exact Or.inr ⟨hx, h⟩
      · rintro (⟨q, ⟨hq, hqt⟩, h⟩ | ⟨-, h⟩)
        · exact absurd ⟨q, hq, h⟩ hx
        · exact h
  rw [e]
  exact h1.union (h2.compl.inter (MeasurableSet.const _))

end Verif.Lemmas
