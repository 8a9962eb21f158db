import Verif.Lemmas.Haar6
import Verif.Lemmas.JacHermite
import Mathlib.MeasureTheory.Constructions.BorelSpace.Complex

/-!
# Angles of the eigenvalues of a Haar unitary matrix
-/

namespace Verif.Lemmas
open Finset Matrix MeasureTheory ProbabilityTheory Verif.Model Verif.Spec
open scoped ComplexConjugate

variable {n N : ℕ}

/-- values at the integers of the monic polynomial whose roots have given angles -/
noncomputable def circProd (th : Fin N → ℝ) (t : ℕ) : ℂ := ∏ j, ((t : ℂ) - Complex.exp (th j * Complex.I))

/-- increasing vectors of angles -/
def angW (N : ℕ) : Set (Fin N → ℝ) := {th | Monotone th ∧ ∀ j, 0 ≤ th j ∧ th j < 2 * Real.pi}

theorem circProd_inj {th th' : Fin N → ℝ} (h : th ∈ angW N) (h' : th' ∈ angW N) (e : circProd th = circProd th') : th = th' := by
  have hp : ∏ i, (Polynomial.X - Polynomial.C (Complex.exp (th i * Complex.I)))
      = ∏ i, (Polynomial.X - Polynomial.C (Complex.exp (th' i * Complex.I))) := by
    refine Polynomial.eq_of_infinite_eval_eq _ _ (Set.Infinite.mono (s := Set.range fun t : ℕ => (t : ℂ)) ?_
      (Set.infinite_range_of_injective Nat.cast_injective))
    rintro _ ⟨t, rfl⟩
    have := congrFun e t
    simp only [circProd] at this
    simp only [Set.mem_setOf_eq, Polynomial.eval_prod, Polynomial.eval_sub, Polynomial.eval_X, Polynomial.eval_C]
    exact this
  have hr : ∀ f : Fin N → ℂ, (∏ i, (Polynomial.X - Polynomial.C (f i))).roots = ((List.ofFn f : List ℂ) : Multiset ℂ) := fun f => by
    have : ∏ i, (Polynomial.X - Polynomial.C (f i)) = (Multiset.map (fun x => Polynomial.X - Polynomial.C x) ((List.ofFn f : List ℂ) : Multiset ℂ)).prod := by
      rw [Multiset.map_coe, Multiset.prod_coe, List.map_ofFn, List.prod_ofFn]; rfl
    rw [this, Polynomial.roots_multiset_prod_X_sub_C]
  have h2 := congrArg Polynomial.roots hp
  rw [hr, hr] at h2
  have h3 := (Multiset.coe_eq_coe.1 h2).map angle
  rw [List.map_ofFn, List.map_ofFn] at h3
  have e1 : (angle ∘ fun i => Complex.exp (th i * Complex.I)) = th := funext fun i => angle_exp (h.2 i)
  have e2 : (angle ∘ fun i => Complex.exp (th' i * Complex.I)) = th' := funext fun i => angle_exp (h'.2 i)
  rw [e1, e2] at h3
  have h4 := h3.eq_of_pairwise' (by rw [List.pairwise_ofFn]; exact fun i j hij => h.1 hij.le)
    (by rw [List.pairwise_ofFn]; exact fun i j hij => h'.1 hij.le)
  exact List.ofFn_injective h4

theorem measurableSet_angW (N : ℕ) : MeasurableSet (angW N) := by
  refine (measurableSet_mono N).inter ?_
  change MeasurableSet {th : Fin N → ℝ | ∀ j, 0 ≤ th j ∧ th j < 2 * Real.pi}
  rw [Set.setOf_forall]
  exact MeasurableSet.iInter fun j => (measurableSet_le measurable_const (measurable_pi_apply j)).inter
    (measurableSet_lt (measurable_pi_apply j) measurable_const)

theorem measurable_circProd : Measurable (circProd (N := N)) := by
  refine measurable_pi_lambda _ fun t => ?_
  simp only [circProd]
  fun_prop

theorem embedding_circProd (N : ℕ) : MeasurableEmbedding fun l : angW N => circProd l.1 := by
  have : StandardBorelSpace (angW N) := (measurableSet_angW N).standardBorel
  exact Measurable.measurableEmbedding (measurable_circProd.comp measurable_subtype_coe)
    fun a b h => Subtype.ext (circProd_inj a.2 b.2 h)

/-- a measurable inverse of the previous map -/
theorem exists_circInv (N : ℕ) : ∃ psi : (ℕ → ℂ) → (Fin N → ℝ), Measurable psi ∧ ∀ th ∈ angW N, psi (circProd th) = th := by
  have : Nonempty (Fin N → ℝ) := ⟨0⟩
  obtain ⟨psi, h1, h2⟩ := (embedding_circProd N).exists_measurable_extend (g := fun l : angW N => l.1) measurable_subtype_coe
    (fun _ => inferInstance)
  exact ⟨psi, h1, fun th hth => congrFun h2 ⟨th, hth⟩⟩

/-- values at the integers of the characteristic polynomial -/
noncomputable def cpU (x : Fin N × Fin N → ℂ) (t : ℕ) : ℂ := chd t (mat x)

theorem measurable_cpU : Measurable (cpU (N := N)) := by
  refine measurable_pi_lambda _ fun t => ?_
  simp only [cpU, chd]
  simp only [Matrix.det_apply']
  refine Finset.measurable_sum _ fun s _ => Measurable.const_mul (Finset.measurable_prod _ fun i _ => ?_) _
  simp only [Matrix.sub_apply, mat, Matrix.of_apply]
  fun_prop

theorem cpU_conj (W X : Matrix (Fin N) (Fin N) ℂ) (hW : W ∈ unitaryGroup (Fin N) ℂ) : cpU (unmat (W * X * Wᴴ)) = cpU (unmat X) := by
  funext t
  have h2 : Wᴴ ∈ unitaryGroup (Fin N) ℂ := uni_of (by rw [conjTranspose_conjTranspose, uni_mul_conj hW])
  have := det_conj h2 X t
  rw [conjTranspose_conjTranspose] at this
  exact this

theorem cpU_inv : ConjInv (n := n) (cpU (N := n + 1)) := by
  intro W X hW
  refine cpU_conj _ _ (uni_of ?_)
  rw [oneAdd_conj, ← oneAdd_mul, uni_conj_mul hW, oneAdd_one]

theorem cpU_hess {a : Fin (n + 1) → ℂ} (h : GoodA a) : cpU (unmat (hess n a)) = circProd (angF a) ∧ angF a ∈ angW (n + 1) := by
  have hs := spX_spec (goodC_toCd h)
  have hmem := hs.mem
  rw [angF_good h]
  refine ⟨?_, hmem.1.monotone, fun j => hmem.2.1 j⟩
  funext t
  have h1 : ∀ i, ‖a i‖ ≤ 1 := by
    intro i
    by_cases hi : (i : ℕ) < n
    · exact (h.1 i hi).le
    · have hl : i = Fin.last n := Fin.ext (by simp; omega)
      rw [hl, h.2]
  rw [cpU, mat_unmat, chd_hess_szP (t : ℂ) (al := alC (toCd a)) (fun i => (alC_toCd h i).symm) h1,
    szP_eq_prod (zC_inj hmem) hs.root, Polynomial.eval_prod]
  simp only [Polynomial.eval_sub, Polynomial.eval_X, Polynomial.eval_C]
  rfl

/-- sorted angles of a list of points of the circle -/
theorem sortedAngles_mem {l : List ℂ} (hl : l.length = N) : sortedAngles N l ∈ angW N := by
  have hlen : ((l.map angle).insertionSort (· ≤ ·)).length = N := by simp [hl]
  constructor
  · intro i j hij
    have hi : (i : ℕ) < ((l.map angle).insertionSort (· ≤ ·)).length := by rw [hlen]; exact i.2
    have hj : (j : ℕ) < ((l.map angle).insertionSort (· ≤ ·)).length := by rw [hlen]; exact j.2
    rw [sortedAngles, sortedAngles, List.getD_eq_getElem _ _ hi, List.getD_eq_getElem _ _ hj]
    rcases eq_or_lt_of_le hij with h | h
    · subst h; exact le_rfl
    · exact List.pairwise_iff_getElem.1 (List.pairwise_insertionSort (· ≤ ·) _) _ _ hi hj h
  · intro j
    have hj : (j : ℕ) < ((l.map angle).insertionSort (· ≤ ·)).length := by rw [hlen]; exact j.2
    rw [sortedAngles, List.getD_eq_getElem _ _ hj]
    have := List.getElem_mem hj
    rw [List.mem_insertionSort, List.mem_map] at this
    obtain ⟨z, -, hz⟩ := this
    rw [← hz]
    exact angle_mem z

theorem circProd_sorted {l : List ℂ} (hl : l.length = N) (h1 : ∀ z ∈ l, ‖z‖ = 1) (t : ℕ) :
    circProd (sortedAngles N l) t = (l.map fun z => (t : ℂ) - z).prod := by
  have hlen : ((l.map angle).insertionSort (· ≤ ·)).length = N := by simp [hl]
  have e : circProd (sortedAngles N l) t
      = (((l.map angle).insertionSort (· ≤ ·)).map fun s : ℝ => (t : ℂ) - Complex.exp (s * Complex.I)).prod := by
    rw [circProd, ← List.prod_ofFn]
    congr 1
    refine List.ext_getElem (by simp [hl]) fun i h1 h2 => ?_
    simp only [List.getElem_ofFn, List.getElem_map, sortedAngles]
    rw [List.getD_eq_getElem _ _ (by rw [hlen]; simpa using h1)]
  rw [e, ((List.perm_insertionSort (· ≤ ·) (l.map angle)).map _).prod_eq, List.map_map]
  congr 1
  refine List.map_congr_left fun z hz => ?_
  simp only [Function.comp_apply]
  rw [exp_angle (h1 z hz)]

/-- eigenvalues of a unitary matrix -/
theorem circ_eig {la : LA} (hla : LAOK la) {U : Matrix (Fin N) (Fin N) ℂ} (hU : U ∈ unitaryGroup (Fin N) ℂ) :
    sortedAngles N (la.eigvals U) ∈ angW N ∧ circProd (sortedAngles N (la.eigvals U)) = cpU (unmat U) := by
  obtain ⟨h1, h2⟩ := eigen_eigvals hla U
  rw [Fintype.card_fin] at h1
  refine ⟨sortedAngles_mem h1, funext fun t => ?_⟩
  rw [circProd_sorted h1 fun z hz => by obtain ⟨v, hv, h⟩ := h2 z hz; exact eigen_unitary hU hv h]
  have h := congrArg (Polynomial.eval (t : ℂ)) (hla.eigvals_char U)
  rw [Matrix.eval_charpoly, Polynomial.eval_list_prod, List.map_map] at h
  have e : (Matrix.scalar (Fin N)) (t : ℂ) - U = (t : ℂ) • (1 : Matrix (Fin N) (Fin N) ℂ) - U := by
    rw [Matrix.scalar_apply, ← Matrix.smul_one_eq_diagonal]
  rw [e] at h
  rw [cpU, mat_unmat, chd, ← h]
  congr 1
  refine List.map_congr_left fun z _ => ?_
  simp

/-! ### The program -/

/-- the matrix whose eigenvalues are returned in the QR mode is the unitary factor -/
theorem qr_isGS {la : LA} (hla : LAOK la) {A V : Matrix (Fin N) (Fin N) ℂ} (hV : IsGS A V) :
    (¬ ∃ i, (la.qr A).2 i i = 0) ∧ (Matrix.of fun i j => (la.qr A).1 i j * ((la.qr A).2 j j / ((‖(la.qr A).2 j j‖ : ℝ) : ℂ))) = V := by
  set Q := (la.qr A).1 with hQ
  set R := (la.qr A).2 with hR
  have hmul : Q * R = A := hla.qr_mul A
  have hu : Q ∈ unitaryGroup (Fin N) ℂ := hla.qr_unitary A
  have hup : R.BlockTriangular id := hla.qr_upper A
  have hd : R.det ≠ 0 := by
    have h1 := det_upper_pos hV.upper hV.pos
    rw [← hmul, Matrix.det_mul, Matrix.det_mul] at h1
    exact right_ne_zero_of_mul (right_ne_zero_of_mul h1)
  rw [Matrix.det_of_isUpperTriangular hup] at hd
  have hne : ∀ i, R i i ≠ 0 := fun i => (Finset.prod_ne_zero_iff.1 hd) i (mem_univ i)
  refine ⟨fun ⟨i, hi⟩ => hne i hi, ?_⟩
  set P : Matrix (Fin N) (Fin N) ℂ := Matrix.diagonal fun j => R j j / ((‖R j j‖ : ℝ) : ℂ) with hP
  have e0 : (Matrix.of fun i j => Q i j * (R j j / ((‖R j j‖ : ℝ) : ℂ))) = Q * P := by
    ext i j
    rw [hP, Matrix.mul_diagonal, Matrix.of_apply]
  have hnorm : ∀ j, ((‖R j j‖ : ℝ) : ℂ) ≠ 0 := fun j => by exact_mod_cast (norm_pos_iff.2 (hne j)).ne'
  have hcc : ∀ j, conj (R j j) * R j j = ((‖R j j‖ : ℝ) : ℂ) * ((‖R j j‖ : ℝ) : ℂ) := fun j => by
    rw [mul_comm, Complex.mul_conj, Complex.normSq_eq_norm_sq]; push_cast; ring
  have hPu : Pᴴ * P = 1 := by
    rw [hP, Matrix.diagonal_conjTranspose, Matrix.diagonal_mul_diagonal, ← Matrix.diagonal_one]
    congr 1
    funext j
    simp only [Pi.star_apply, RCLike.star_def, map_div₀, Complex.conj_ofReal]
    have := hnorm j
    have := hcc j
    field_simp
    rw [this]; ring
  have hg : IsGS A (Q * P) := by
    have e : (Q * P)ᴴ * A = Pᴴ * R := by
      rw [← hmul, conjTranspose_mul, Matrix.mul_assoc, ← Matrix.mul_assoc Qᴴ, uni_conj_mul hu, Matrix.one_mul]
    have hPt : (Pᴴ).BlockTriangular id := by
      rw [hP, Matrix.diagonal_conjTranspose]; exact Matrix.blockTriangular_diagonal _
    refine ⟨uni_mul hu (uni_of hPu), by rw [e]; exact hPt.mul hup, fun i => ⟨‖R i i‖, norm_pos_iff.2 (hne i), ?_⟩⟩
    rw [e, hP, Matrix.diagonal_conjTranspose, Matrix.diagonal_mul]
    simp only [Pi.star_apply, RCLike.star_def, map_div₀, Complex.conj_ofReal]
    have := hnorm i
    have := hcc i
    field_simp
    rw [this]; ring
  rw [e0]
  exact hg.unique hV

theorem qrFinish_good {la : LA} (hla : LAOK la) {x : Fin N × Fin N → ℂ} {K : StarSubalgebra ℝ ℂ} (hx : GoodX K x) :
    qrFinish la (mat x) = .ret (la.eigvals (mat (gsU x))) := by
  obtain ⟨h1, h2⟩ := qr_isGS hla hx.spec.1
  rw [qrFinish, if_neg h1, h2]

theorem bind_two_law {X Y Z : Type} [MeasurableSpace X] [MeasurableSpace Y] [MeasurableSpace Z] (μ : Measure X) (ν : Measure Y)
    [SFinite μ] [SFinite ν] {L : X → Y → Measure Z} {F : X × Y → Z} (hF : Measurable F)
    (h : ∀ᵐ p ∂(μ.prod ν), L p.1 p.2 = Measure.dirac (F p)) :
    μ.bind (fun x => ν.bind (L x)) = (μ.prod ν).map F := by
  rw [← bind_two μ ν (F := fun x y => F (x, y)) hF fun x => Filter.Eventually.of_forall fun y => rfl, Measure.bind, Measure.bind]
  congr 1
  refine Measure.map_congr ?_
  filter_upwards [Measure.ae_ae_of_ae_prod h] with x hx
  rw [Measure.bind, Measure.bind]
  congr 1
  exact Measure.map_congr hx

/-- law of the sorted angles of the eigenvalues of a Haar matrix -/
theorem haar_angles {la : LA} (hla : LAOK la) : ∃ F : (Fin (n + 1) × Fin (n + 1) → ℂ) → Fin (n + 1) → ℝ, Measurable F ∧
    (∀ x, mat x ∈ unitaryGroup (Fin (n + 1)) ℂ → F x = sortedAngles (n + 1) (la.eigvals (mat x))) ∧
    (haarM gam2 (n + 1)).map F = (Measure.pi (nuV 2 (n + 1))).map angF := by
  obtain ⟨psi, hpsi, hinv⟩ := exists_circInv (n + 1)
  refine ⟨fun x => psi (cpU x), hpsi.comp measurable_cpU, fun x hx => ?_, ?_⟩
  · obtain ⟨h1, h2⟩ := circ_eig hla hx
    change psi (cpU (unmat (mat x))) = _
    rw [← h2, hinv _ h1]
  · have hci : ConjInv (n := n) fun x => psi (cpU x) := fun W X hW => congrArg psi (cpU_inv W X hW)
    rw [haar_hess n (G := fun x => psi (cpU x)) (hpsi.comp measurable_cpU) hci]
    refine Measure.map_congr ?_
    filter_upwards [ae_good (n := n) (b := 2) (by norm_num)] with a ha
    obtain ⟨h1, h2⟩ := cpU_hess ha
    rw [h1, hinv _ h2]

/-- law of the full model in the QR mode -/
theorem circularFull_law_two {la : LA} (hla : LAOK la) :
    ((circularSamplerFull la (n + 1) 2 .qr).map (sortedAngles (n + 1))).law = (Measure.pi (nuV 2 (n + 1))).map angF := by
  obtain ⟨F, hF, hF1, hF2⟩ := haar_angles (n := n) hla
  have hprob := prob_gam2
  rw [circularSamplerFull, ginDraw, if_neg (by norm_num), if_pos rfl]
  simp only [RP.map, RP.law, if_neg (show ¬ (1 : ℝ) < 0 by norm_num)]
  have hFm : Measurable (F ∘ gsU (n := n + 1)) := hF.comp measurable_gsU
  have hae := ae_good_gs gaussK_two (n + 1)
  rw [← law_cplxMat] at hae
  replace hae := ae_of_ae_map (measurable_cplxMat _ _).aemeasurable hae
  rw [← hF2, haarM, Measure.map_map hF measurable_gsU, ← law_cplxMat,
    Measure.map_map hFm (measurable_cplxMat _ _), one_pow, Real.toNNReal_one]
  refine bind_two_law _ _ (hFm.comp (measurable_cplxMat _ _)) ?_
  filter_upwards [hae] with p hp
  have h := qrFinish_good hla hp
  rw [mat_unmat] at h
  rw [h]
  simp only [RP.map, RP.law, Function.comp_apply]
  rw [hF1 _ hp.spec.2.uni]

end Verif.Lemmas
