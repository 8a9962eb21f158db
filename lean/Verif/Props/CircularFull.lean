import Verif.Lemmas.Haar7
import Verif.Props.CircularLaw
import Mathlib.MeasureTheory.Measure.Lebesgue.EqHaar
import Mathlib.Analysis.Complex.Polynomial.Basic

/-!
# C89: the full circular model
-/

namespace Verif.Spec
open MeasureTheory Matrix

/-- `μ` is the Haar probability measure of the group of unitary matrices with entries in `E` (`E = ℂ`: the unitary group, `E = ℝ`: the
orthogonal group): a probability measure on the group, invariant under the multiplication by elements of the group on either side -/
structure IsHaarOn (N : ℕ) (E : Set ℂ) (μ : Measure (Fin N × Fin N → ℂ)) : Prop where
  prob : IsProbabilityMeasure μ
  mem : ∀ᵐ x ∂μ, (Matrix.of fun i j => x (i, j)) ∈ unitaryGroup (Fin N) ℂ ∧ ∀ p, x p ∈ E
  left : ∀ V ∈ unitaryGroup (Fin N) ℂ, (∀ i j, V i j ∈ E) → μ.map (fun x p => ∑ k, V p.1 k * x (k, p.2)) = μ
  right : ∀ V ∈ unitaryGroup (Fin N) ℂ, (∀ i j, V i j ∈ E) → μ.map (fun x p => ∑ k, x (p.1, k) * V k p.2) = μ

end Verif.Spec

namespace Verif.Lemmas
open Finset Matrix MeasureTheory ProbabilityTheory Verif.Model Verif.Spec
open scoped ComplexConjugate

variable {n N : ℕ}

theorem isHaarOn_of {K : StarSubalgebra ℝ ℂ} {μ : Measure (Fin N × Fin N → ℂ)} (h : IsHaar K N μ) {E : Set ℂ} (hE : ∀ z, z ∈ E ↔ z ∈ K) :
    IsHaarOn N E μ := by
  refine ⟨h.prob, ?_, fun V hV hVE => ?_, fun V hV hVE => ?_⟩
  · filter_upwards [h.mem] with x hx
    exact ⟨hx.uni, fun p => (hE _).2 (hx.mem p.1 p.2)⟩
  · exact h.left V ⟨hV, fun i j => (hE _).1 (hVE i j)⟩
  · exact h.right ⟨hV, fun i j => (hE _).1 (hVE i j)⟩

/-- a hyperplane of angles is negligible -/
theorem hyper_null {N : ℕ} (f : (Fin N → ℝ) →ₗ[ℝ] ℝ) (hf : f ≠ 0) (c : ℝ) : volume {th : Fin N → ℝ | f th = c} = 0 := by
  let s : AffineSubspace ℝ (Fin N → ℝ) :=
    { carrier := {th | f th = c}
      smul_vsub_vadd_mem' := fun t p q r hp hq hr => by
        simp only [Set.mem_ofPred_eq, vsub_eq_sub, vadd_eq_add, map_add, map_smul, map_sub] at *
        rw [hp, hq, hr]; simp }
  refine Measure.addHaar_affineSubspace volume s fun h => hf ?_
  have hall : ∀ x : Fin N → ℝ, f x = c := fun x => by
    have : x ∈ s := h ▸ AffineSubspace.mem_top ℝ _ x
    exact this
  have hc : c = 0 := by rw [← hall 0, map_zero]
  ext x
  simp [hall, hc]

theorem hypers_null {N : ℕ} (f : (Fin N → ℝ) →ₗ[ℝ] ℝ) (hf : f ≠ 0) : volume {th : Fin N → ℝ | ∃ k : ℤ, f th = 2 * Real.pi * k} = 0 := by
  have e : {th : Fin N → ℝ | ∃ k : ℤ, f th = 2 * Real.pi * k} = ⋃ k : ℤ, {th | f th = 2 * Real.pi * k} := by ext; simp
  rw [e, measure_iUnion_null_iff]
  exact fun k => hyper_null f hf _

theorem circular_null {N : ℕ} {μ : Measure (Fin N → ℝ)} {beta : ℝ} (h : IsCircularEnsemble μ beta) {s : Set (Fin N → ℝ)}
    (hs : volume s = 0) : μ s = 0 := by
  obtain ⟨-, K, -, rfl⟩ := h
  exact (withDensity_absolutelyContinuous _ _).trans Measure.absolutelyContinuous_restrict hs

theorem exp_eq_one_iff {t : ℝ} : Complex.exp (t * Complex.I) = 1 ↔ ∃ k : ℤ, t = 2 * Real.pi * k := by
  rw [Complex.exp_eq_one_iff]
  refine exists_congr fun k => ?_
  constructor
  · intro h
    have h2 : (t : ℂ) = ((2 * Real.pi * k : ℝ) : ℂ) := by
      refine mul_right_cancel₀ Complex.I_ne_zero ?_
      rw [h]; push_cast; ring
    exact_mod_cast h2
  · intro h
    rw [h]; push_cast; ring

/-- the polynomial with roots of given angles is determined by its values at the integers -/
theorem circProd_poly {z z' : Fin N → ℂ} (e : ∀ t : ℕ, ∏ j, ((t : ℂ) - z j) = ∏ j, ((t : ℂ) - z' j)) (w : ℂ) :
    ∏ j, (w - z j) = ∏ j, (w - z' j) := by
  have hp : ∏ i, (Polynomial.X - Polynomial.C (z i)) = ∏ i, (Polynomial.X - Polynomial.C (z' i)) := by
    refine Polynomial.eq_of_infinite_eval_eq _ _ (Set.Infinite.mono (s := Set.range fun t : ℕ => (t : ℂ)) ?_
      (Set.infinite_range_of_injective Nat.cast_injective))
    rintro _ ⟨t, rfl⟩
    simp only [Set.mem_ofPred_eq, Polynomial.eval_prod, Polynomial.eval_sub, Polynomial.eval_X, Polynomial.eval_C]
    exact e t
  have := congrArg (Polynomial.eval w) hp
  simpa only [Polynomial.eval_prod, Polynomial.eval_sub, Polynomial.eval_X, Polynomial.eval_C] using this

/-- the eigenvalues of a real matrix come in conjugate pairs -/
theorem real_angles {la : LA} (hla : LAOK la) {U : Matrix (Fin (n + 1)) (Fin (n + 1)) ℂ} (hU : U ∈ unitaryGroup (Fin (n + 1)) ℂ)
    (hr : ∀ i j, (U i j).im = 0) : ∃ (j : Fin (n + 1)) (k : ℤ),
      sortedAngles (n + 1) (la.eigvals U) 0 + sortedAngles (n + 1) (la.eigvals U) j = 2 * Real.pi * k := by
  obtain ⟨-, h2⟩ := circ_eig hla hU
  set th := sortedAngles (n + 1) (la.eigvals U) with hth
  have hre : ∀ t : ℕ, conj (cpU (unmat U) t) = cpU (unmat U) t := by
    intro t
    rw [cpU, mat_unmat, chd, RingHom.map_det]
    congr 1
    ext i j
    simp only [RingHom.mapMatrix_apply, Matrix.map_apply, Matrix.sub_apply, Matrix.smul_apply, smul_eq_mul, map_sub, map_mul, map_natCast]
    rw [Complex.conj_eq_iff_im.2 (hr i j), Matrix.one_apply]
    split_ifs <;> simp
  have e : ∀ t : ℕ, ∏ j, ((t : ℂ) - conj (Complex.exp (th j * Complex.I))) = ∏ j, ((t : ℂ) - Complex.exp (th j * Complex.I)) := by
    intro t
    have h3 := hre t
    rw [← h2, circProd, map_prod] at h3
    simpa using h3
  have h4 := circProd_poly e (conj (Complex.exp (th 0 * Complex.I)))
  rw [Finset.prod_eq_zero (mem_univ 0) (sub_self _)] at h4
  obtain ⟨j, -, hj⟩ := Finset.prod_eq_zero_iff.1 h4.symm
  rw [sub_eq_zero] at hj
  refine ⟨j, exp_eq_one_iff.1 ?_⟩
  push_cast
  rw [add_mul, Complex.exp_add, ← hj, Complex.mul_conj, Complex.normSq_eq_norm_sq, Complex.norm_exp_ofReal_mul_I]
  simp

/-- sum of two coordinates -/
def projL (i j : Fin (n + 1)) : (Fin (n + 1) → ℝ) →ₗ[ℝ] ℝ :=
  LinearMap.proj (R := ℝ) (φ := fun _ => ℝ) i + LinearMap.proj (R := ℝ) (φ := fun _ => ℝ) j

/-- a sum of two angles is a multiple of a turn: a negligible event -/
theorem pair_null : volume {th : Fin (n + 1) → ℝ | ∃ (j : Fin (n + 1)) (k : ℤ), th 0 + th j = 2 * Real.pi * k} = 0 := by
  have e : {th : Fin (n + 1) → ℝ | ∃ (j : Fin (n + 1)) (k : ℤ), th 0 + th j = 2 * Real.pi * k}
      = ⋃ j : Fin (n + 1), {th | ∃ k : ℤ, projL 0 j th = 2 * Real.pi * k} := by
    ext; simp [projL]
  rw [e, measure_iUnion_null_iff]
  refine fun j => hypers_null _ fun h => ?_
  have := LinearMap.congr_fun h (fun _ => 1)
  norm_num [projL] at this

/-- the sum of the angles is a multiple of a turn: a negligible event -/
theorem sum_null : volume {th : Fin (n + 1) → ℝ | ∃ k : ℤ, ∑ j, th j = 2 * Real.pi * k} = 0 := by
  have e : {th : Fin (n + 1) → ℝ | ∃ k : ℤ, ∑ j, th j = 2 * Real.pi * k}
      = {th | ∃ k : ℤ, (∑ j, LinearMap.proj j : (Fin (n + 1) → ℝ) →ₗ[ℝ] ℝ) th = 2 * Real.pi * k} := by
    ext; simp
  rw [e]
  refine hypers_null _ fun h => ?_
  have := LinearMap.congr_fun h (fun _ => 1)
  simp at this
  norm_cast at this

/-- a mixture of laws carried by a measurable set is carried by it -/
theorem bind_carried {X Z : Type} [MeasurableSpace X] [MeasurableSpace Z] {m : Measure X} {L : X → Measure Z} {s : Set Z}
    (hs : MeasurableSet s) (h : ∀ᵐ x ∂m, L x s = 0) : (m.bind L) s = 0 := by
  by_cases hL : AEMeasurable L m
  · rw [Measure.bind_apply hs hL, lintegral_congr_ae h]; simp
  · rw [Measure.bind, Measure.map_of_not_aemeasurable hL]; simp

theorem not_circular_of {N : ℕ} {μ : Measure (Fin N → ℝ)} {beta : ℝ} {B : Set (Fin N → ℝ)} (hB : volume B = 0)
    (h : ∀ B', MeasurableSet B' → B ⊆ B' → μ B'ᶜ = 0) : ¬ IsCircularEnsemble μ beta := by
  intro hc
  have h1 := circular_null hc (s := toMeasurable volume B) (by rw [measure_toMeasurable, hB])
  have h2 := h _ (measurableSet_toMeasurable volume B) (subset_toMeasurable volume B)
  have := hc.1
  have h3 : μ Set.univ ≤ 0 := by
    rw [← Set.union_compl_self (toMeasurable volume B)]
    exact (measure_union_le _ _).trans (by rw [h1, h2, add_zero])
  rw [measure_univ] at h3
  exact absurd h3 (by norm_num)

/-- a solver whose matrices of eigenvectors have determinant one -/
theorem exists_LAOK_det : ∃ la : LA, LAOK la ∧ ∀ {ι : Type} [Fintype ι] [DecidableEq ι] [Nonempty ι] (A : Matrix ι ι ℂ), A.IsHermitian →
    (la.eighVec A).det = 1 := by
  obtain ⟨la, hla⟩ := exists_LAOK
  have hroot : ∀ (k : ℕ) (w : ℂ), ∃ c : ℂ, k ≠ 0 → c ^ k * w = 1 ∨ w = 0 := by
    intro k w
    by_cases hk : k = 0
    · exact ⟨0, fun h => absurd hk h⟩
    · obtain ⟨c, hc⟩ := IsAlgClosed.exists_pow_nat_eq w⁻¹ (Nat.pos_of_ne_zero hk)
      refine ⟨c, fun _ => ?_⟩
      by_cases hw : w = 0
      · exact .inr hw
      · left; rw [hc, inv_mul_cancel₀ hw]
  choose rt hrt using hroot
  let la' : LA :=
    { eigvalsh := la.eigvalsh
      eigvals := la.eigvals
      eighVec := fun {ι} _ _ A => if Fintype.card ι = 0 then la.eighVec A
        else rt (Fintype.card ι) (la.eighVec A).det • la.eighVec A
      qr := la.qr }
  have hdet : ∀ {ι : Type} [Fintype ι] [DecidableEq ι] (A : Matrix ι ι ℂ), A.IsHermitian → (la.eighVec A).det ≠ 0 := by
    intro ι _ _ A hA h0
    have := hla.eigh_unitary A hA
    rw [mem_unitaryGroup_iff] at this
    have h1 := congrArg Matrix.det this
    rw [Matrix.det_mul, h0, zero_mul, Matrix.det_one] at h1
    exact zero_ne_one h1
  have hnd : ∀ {ι : Type} [Fintype ι] [DecidableEq ι] (A : Matrix ι ι ℂ), A.IsHermitian → ‖(la.eighVec A).det‖ = 1 := by
    intro ι _ _ A hA
    have := hla.eigh_unitary A hA
    rw [mem_unitaryGroup_iff] at this
    have h1 := congrArg Matrix.det this
    rw [Matrix.det_mul, star_eq_conjTranspose, Matrix.det_conjTranspose, Matrix.det_one] at h1
    have h2 := congrArg norm h1
    rw [norm_mul, norm_star, norm_one] at h2
    nlinarith [norm_nonneg (la.eighVec A).det]
  have hc : ∀ {ι : Type} [Fintype ι] [DecidableEq ι] (A : Matrix ι ι ℂ), A.IsHermitian → Fintype.card ι ≠ 0 →
      rt (Fintype.card ι) (la.eighVec A).det ^ Fintype.card ι * (la.eighVec A).det = 1 := by
    intro ι _ _ A hA h
    exact (hrt _ _ h).resolve_right (hdet A hA)
  have hcn : ∀ {ι : Type} [Fintype ι] [DecidableEq ι] (A : Matrix ι ι ℂ), A.IsHermitian → Fintype.card ι ≠ 0 →
      ‖rt (Fintype.card ι) (la.eighVec A).det‖ = 1 := by
    intro ι _ _ A hA h
    have h1 := congrArg norm (hc A hA h)
    rw [norm_mul, hnd A hA, mul_one, norm_pow, norm_one] at h1
    exact (pow_eq_one_iff_of_nonneg (norm_nonneg _) h).1 h1
  have hcs : ∀ {ι : Type} [Fintype ι] [DecidableEq ι] (A : Matrix ι ι ℂ), A.IsHermitian → Fintype.card ι ≠ 0 →
      star (rt (Fintype.card ι) (la.eighVec A).det) * rt (Fintype.card ι) (la.eighVec A).det = 1 := by
    intro ι _ _ A hA h
    have := Complex.normSq_eq_conj_mul_self (z := rt (Fintype.card ι) (la.eighVec A).det)
    rw [Complex.normSq_eq_norm_sq, hcn A hA h] at this
    simpa using this.symm
  have hok : LAOK la' :=
    { eigvalsh_sorted := hla.eigvalsh_sorted
      eigvalsh_char := hla.eigvalsh_char
      eigvals_char := hla.eigvals_char
      eigh_unitary := fun {ι} _ _ A hA => by
        show (if Fintype.card ι = 0 then la.eighVec A else rt (Fintype.card ι) (la.eighVec A).det • la.eighVec A) ∈ _
        split_ifs with h
        · exact hla.eigh_unitary A hA
        · have := hla.eigh_unitary A hA
          rw [mem_unitaryGroup_iff'] at this ⊢
          rw [star_smul, Matrix.smul_mul, Matrix.mul_smul, smul_smul, this, hcs A hA h, one_smul]
      eigh_diag := fun {ι} _ _ A hA => by
        show ((if Fintype.card ι = 0 then la.eighVec A else rt (Fintype.card ι) (la.eighVec A).det • la.eighVec A)ᴴ * A *
          (if Fintype.card ι = 0 then la.eighVec A else rt (Fintype.card ι) (la.eighVec A).det • la.eighVec A)).IsDiag
        split_ifs with h
        · exact hla.eigh_diag A hA
        · rw [Matrix.conjTranspose_smul, Matrix.smul_mul, Matrix.smul_mul, Matrix.mul_smul]
          exact ((hla.eigh_diag A hA).smul _).smul _
      qr_mul := hla.qr_mul
      qr_unitary := hla.qr_unitary
      qr_upper := hla.qr_upper }
  refine ⟨la', hok, fun {ι} _ _ _ A hA => ?_⟩
  have hcard : Fintype.card ι ≠ 0 := Fintype.card_ne_zero
  show (if Fintype.card ι = 0 then la.eighVec A else rt (Fintype.card ι) (la.eighVec A).det • la.eighVec A).det = 1
  rw [if_neg hcard, Matrix.det_smul]
  exact hc A hA hcard

/-- product of the eigenvalues -/
theorem prod_eigvals {la : LA} (hla : LAOK la) (A : Matrix (Fin N) (Fin N) ℂ) : (la.eigvals A).prod = A.det := by
  have h := hla.eigvals_char A
  have h1 := Matrix.det_eq_sign_charpoly_coeff A
  rw [← h, Polynomial.coeff_zero_eq_eval_zero, Polynomial.eval_list_prod, List.map_map] at h1
  have hlen := (eigen_eigvals hla A).1
  rw [Fintype.card_fin] at hlen
  rw [h1, Fintype.card_fin]
  generalize la.eigvals A = l at hlen ⊢
  subst hlen
  have e : (Polynomial.eval 0 ∘ fun z : ℂ => (Polynomial.X - Polynomial.C z : Polynomial ℂ)) = fun z : ℂ => -1 * z := by
    funext z; simp
  rw [e, List.prod_map_mul, List.map_const', List.prod_replicate, List.map_id', ← mul_assoc, ← mul_pow]
  simp

/-- angles of points whose product is one -/
theorem angles_sum {l : List ℂ} (hl : l.length = N) (h1 : ∀ z ∈ l, ‖z‖ = 1) (hp : l.prod = 1) :
    ∃ k : ℤ, ∑ j, sortedAngles N l j = 2 * Real.pi * k := by
  have h := circProd_sorted hl h1 0
  rw [circProd] at h
  have e : (fun z : ℂ => ((0 : ℕ) : ℂ) - z) = fun z : ℂ => -1 * z := by funext z; simp
  have e2 : ∀ j, ((0 : ℕ) : ℂ) - Complex.exp (sortedAngles N l j * Complex.I) = -1 * Complex.exp (sortedAngles N l j * Complex.I) := fun j => by
    simp
  rw [e, List.prod_map_mul, List.map_const', List.prod_replicate, List.map_id', hp, hl, mul_one, prod_congr rfl fun j _ => e2 j,
    prod_mul_distrib, prod_const, card_univ, Fintype.card_fin, ← Complex.exp_sum, ← Finset.sum_mul] at h
  have h2 : Complex.exp ((∑ j, (sortedAngles N l j : ℂ)) * Complex.I) = 1 := by
    have h3 : ((-1 : ℂ)) ^ N ≠ 0 := pow_ne_zero _ (by norm_num)
    exact mul_left_cancel₀ h3 (by rw [h, mul_one])
  rw [← Complex.ofReal_sum] at h2
  exact exp_eq_one_iff.1 h2

end Verif.Lemmas

namespace Verif.Props
open Finset Matrix MeasureTheory ProbabilityTheory Verif.Model Verif.Spec Verif.Lemmas

/-- **C89** (full circular model, QR mode, `beta = 2`): the sorted angles of the returned points follow the circular ensemble with
`beta = 2`, for every number of points and whatever exact QR and eigenvalue solvers are used. -/
theorem C89_circular_qr_law {la : LA} (hla : LAOK la) {N : ℕ} (hN : 1 ≤ N) :
    IsCircularEnsemble ((circularSamplerFull la N 2 .qr).map (sortedAngles N)).law 2 := by
  obtain ⟨n, rfl⟩ : ∃ n, N = n + 1 := ⟨N - 1, by omega⟩
  rw [circularFull_law_two hla]
  have h := law_angF (n := n) (b := 2) (by norm_num)
  exact_mod_cast h

/-- **C89**: the full model in the QR mode and the banded model with `beta = 2` have the same law -/
theorem C89_circular_qr_eq_banded {la : LA} (hla : LAOK la) {N : ℕ} (hN : 1 ≤ N) :
    ((circularSamplerFull la N 2 .qr).map (sortedAngles N)).law = ((unifQuindiag la 2 N).map (sortedAngles N)).law := by
  obtain ⟨n, rfl⟩ : ∃ n, N = n + 1 := ⟨N - 1, by omega⟩
  rw [circularFull_law_two hla, law_quindiag hla (by norm_num)]
  rfl

/-- **C89** for `CircularEnsemble(2).sample_full_model(size_N, haar_mode='QR')`, whatever calls were made before on the object -/
theorem C89_circular_qr_method {la : LA} (hla : LAOK la) {st : EnsSt} (hk : st.kind = .circular) (hz : st.beta = .int 2)
    {N : ℕ} (hN : 1 ≤ N) (M1 M2 : ℕ) :
    ∃ st' prog, ensPrep la st (.full N M1 M2 .qr) = some (st', prog) ∧ IsCircularEnsemble (prog.map (sortedAngles N)).law 2 := by
  have hb : st.b = 2 := by rw [EnsSt.b, hz]; simp [BetaVal.val]
  refine ⟨_, _, by simp only [ensPrep, hk, circularFullPrep]; rfl, ?_⟩
  rw [if_neg (by rw [hb]; norm_num), hb]
  exact C89_circular_qr_law hla hN

/-- **C89** (QR mode, `beta = 2`): the returned points are the eigenvalues of a matrix with the Haar law of the unitary group. -/
theorem C89_circular_qr_haar_unitary {la : LA} (hla : LAOK la) (N : ℕ) :
    ∃ (k : (Fin (N * N) → ℝ) → (Fin (N * N) → ℝ) → RP (List ℂ)) (U : (Fin (N * N) → ℝ) × (Fin (N * N) → ℝ) → Fin N × Fin N → ℂ),
      circularSamplerFull la N 2 .qr = .normal (N * N) 0 1 (fun x => .normal (N * N) 0 1 fun y => k x y) ∧ Measurable U ∧
      (∀ᵐ p ∂((Measure.pi fun _ : Fin (N * N) => gaussianReal 0 1).prod (Measure.pi fun _ : Fin (N * N) => gaussianReal 0 1)),
        k p.1 p.2 = .ret (la.eigvals (Matrix.of fun i j => U p (i, j)))) ∧
      IsHaarOn N Set.univ
        (((Measure.pi fun _ : Fin (N * N) => gaussianReal 0 1).prod (Measure.pi fun _ : Fin (N * N) => gaussianReal 0 1)).map U) := by
  refine ⟨fun x y => qrFinish la (cplxMat N N x y), fun p => gsU (unmat (cplxMat N N p.1 p.2)), ?_,
    measurable_gsU.comp (measurable_cplxMat N N), ?_, ?_⟩
  · rw [circularSamplerFull, ginDraw, if_neg (by norm_num), if_pos rfl]
  · have hae := ae_good_gs gaussK_two N
    rw [← law_cplxMat] at hae
    filter_upwards [ae_of_ae_map (measurable_cplxMat _ _).aemeasurable hae] with p hp
    exact qrFinish_good hla hp
  · have h := haarM_isHaar gaussK_two N
    have e : haarM gam2 N = ((Measure.pi fun _ : Fin (N * N) => gaussianReal 0 1).prod
        (Measure.pi fun _ : Fin (N * N) => gaussianReal 0 1)).map fun p => gsU (unmat (cplxMat N N p.1 p.2)) := by
      rw [haarM, ← law_cplxMat, Measure.map_map measurable_gsU (measurable_cplxMat N N)]; rfl
    rw [e] at h
    exact isHaarOn_of h fun z => by simp

/-- **C89** (QR mode, `beta = 1`): the returned points are the eigenvalues of a matrix with the Haar law of the orthogonal group. -/
theorem C89_circular_qr_haar_orthogonal {la : LA} (hla : LAOK la) (N : ℕ) :
    ∃ (k : (Fin (N * N) → ℝ) → RP (List ℂ)) (U : (Fin (N * N) → ℝ) → Fin N × Fin N → ℂ),
      circularSamplerFull la N 1 .qr = .normal (N * N) 0 1 k ∧ Measurable U ∧
      (∀ᵐ x ∂(Measure.pi fun _ : Fin (N * N) => gaussianReal 0 1), k x = .ret (la.eigvals (Matrix.of fun i j => U x (i, j)))) ∧
      IsHaarOn N {z | z.im = 0} ((Measure.pi fun _ : Fin (N * N) => gaussianReal 0 1).map U) := by
  refine ⟨fun x => qrFinish la (asMat N N x), fun x => gsU (unmat (asMat N N x)), ?_,
    measurable_gsU.comp (measurable_asMat N N), ?_, ?_⟩
  · rw [circularSamplerFull, ginDraw, if_pos rfl]
  · have hae := ae_good_gs gaussK_one N
    rw [← law_asMat] at hae
    filter_upwards [ae_of_ae_map (measurable_asMat _ _).aemeasurable hae] with p hp
    exact qrFinish_good hla hp
  · have h := haarM_isHaar gaussK_one N
    have e : haarM gam1 N = (Measure.pi fun _ : Fin (N * N) => gaussianReal 0 1).map fun p => gsU (unmat (asMat N N p)) := by
      rw [haarM, ← law_asMat, Measure.map_map measurable_gsU (measurable_asMat N N)]; rfl
    rw [e] at h
    exact isHaarOn_of h fun z => by rw [mem_realK]; rfl

/-- **C89** (refuted part): in the QR mode with `beta = 1` the points are never those of the circular ensemble with `beta = 1`, for any
number of points: they are closed under conjugation (so `N = 1` always gives `1` or `-1`). -/
theorem C89_circular_qr_beta1_refuted {la : LA} (hla : LAOK la) {N : ℕ} (hN : 1 ≤ N) :
    ¬ IsCircularEnsemble ((circularSamplerFull la N 1 .qr).map (sortedAngles N)).law 1 := by
  obtain ⟨n, rfl⟩ : ∃ n, N = n + 1 := ⟨N - 1, by omega⟩
  refine not_circular_of pair_null fun B' hB' hsub => ?_
  rw [circularSamplerFull, ginDraw, if_pos rfl]
  simp only [RP.map, RP.law, if_neg (show ¬ (1 : ℝ) < 0 by norm_num), one_pow, Real.toNNReal_one]
  refine bind_carried hB'.compl ?_
  have hae := ae_good_gs gaussK_one (n + 1)
  rw [← law_asMat] at hae
  filter_upwards [ae_of_ae_map (measurable_asMat _ _).aemeasurable hae] with p hp
  have h := qrFinish_good hla hp
  rw [mat_unmat] at h
  rw [h]
  simp only [RP.map, RP.law]
  rw [Measure.dirac_apply' _ hB'.compl, Set.indicator_of_notMem]
  exact fun hc => hc (hsub (real_angles hla hp.spec.2.uni fun i j => mem_realK.1 (hp.spec.2.mem i j)))

/-- **C89** (refuted part, default mode): in the Hermite mode the law depends on how the eigenvectors are normalised, which an exact
Hermitian eigensolver is free to choose.  There is an exact solver with which every output of the Hermite mode has points whose product
is one, so that the points are never those of the circular ensemble, for any number of points and `beta = 1, 2`. -/
theorem C89_circular_hermite_refuted : ∃ la : LA, LAOK la ∧ ∀ N : ℕ, 1 ≤ N →
    (∃ l : (Fin (N * N) → ℝ) → (Fin (N * N) → ℝ) → List ℂ, (∀ x y, (l x y).prod = 1) ∧
      circularSamplerFull la N 2 .hermite = .normal (N * N) 0 1 fun x => .normal (N * N) 0 1 fun y => .ret (l x y)) ∧
    ¬ IsCircularEnsemble ((circularSamplerFull la N 1 .hermite).map (sortedAngles N)).law 1 ∧
    ¬ IsCircularEnsemble ((circularSamplerFull la N 2 .hermite).map (sortedAngles N)).law 2 := by
  obtain ⟨la, hla, hdet⟩ := exists_LAOK_det
  refine ⟨la, hla, fun N hN => ?_⟩
  obtain ⟨n, rfl⟩ : ∃ n, N = n + 1 := ⟨N - 1, by omega⟩
  have key : ∀ A : Matrix (Fin (n + 1)) (Fin (n + 1)) ℂ, (la.eigvals (la.eighVec (A + Aᴴ))).prod = 1 ∧
      ∃ k : ℤ, ∑ j, sortedAngles (n + 1) (la.eigvals (la.eighVec (A + Aᴴ))) j = 2 * Real.pi * k := by
    intro A
    have hA : (A + Aᴴ).IsHermitian := by
      rw [Matrix.IsHermitian, Matrix.conjTranspose_add, Matrix.conjTranspose_conjTranspose]
      exact add_comm Aᴴ A
    have hp : (la.eigvals (la.eighVec (A + Aᴴ))).prod = 1 := by rw [prod_eigvals hla, hdet _ hA]
    obtain ⟨h1, h2⟩ := eigen_eigvals hla (la.eighVec (A + Aᴴ))
    rw [Fintype.card_fin] at h1
    exact ⟨hp, angles_sum h1 (fun z hz => by
      obtain ⟨v, hv, h⟩ := h2 z hz; exact eigen_unitary (hla.eigh_unitary _ hA) hv h) hp⟩
  refine ⟨⟨fun x y => la.eigvals (la.eighVec (cplxMat (n + 1) (n + 1) x y + (cplxMat (n + 1) (n + 1) x y)ᴴ)), fun x y => (key _).1, ?_⟩, ?_, ?_⟩
  · rw [circularSamplerFull, ginDraw, if_neg (by norm_num), if_pos rfl]
  · refine not_circular_of sum_null fun B' hB' hsub => ?_
    rw [circularSamplerFull, ginDraw, if_pos rfl]
    simp only [RP.map, RP.law, if_neg (show ¬ (1 : ℝ) < 0 by norm_num)]
    refine bind_carried hB'.compl (Filter.Eventually.of_forall fun x => ?_)
    rw [Measure.dirac_apply' _ hB'.compl, Set.indicator_of_notMem]
    exact fun hc => hc (hsub (key _).2)
  · refine not_circular_of sum_null fun B' hB' hsub => ?_
    rw [circularSamplerFull, ginDraw, if_neg (by norm_num), if_pos rfl]
    simp only [RP.map, RP.law, if_neg (show ¬ (1 : ℝ) < 0 by norm_num)]
    refine bind_carried hB'.compl (Filter.Eventually.of_forall fun x => bind_carried hB'.compl (Filter.Eventually.of_forall fun y => ?_))
    rw [Measure.dirac_apply' _ hB'.compl, Set.indicator_of_notMem]
    exact fun hc => hc (hsub (key _).2)

/-- the hypotheses can be met: an exact solver exists; three points of the circular unitary ensemble, from the object that the
constructor returns -/
example : ∃ la : LA, LAOK la ∧ IsCircularEnsemble ((circularSamplerFull la 3 2 .qr).map (sortedAngles 3)).law 2 ∧
    ensInit .circular (.int 2) = .ok (ensNew .circular (.int 2)) := by
  obtain ⟨la, hla⟩ := exists_LAOK
  exact ⟨la, hla, C89_circular_qr_law hla (by norm_num), by simp [ensInit, ensInitBase]⟩

end Verif.Props
