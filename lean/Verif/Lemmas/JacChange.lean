import Verif.Lemmas.JacDet
import Mathlib.MeasureTheory.Function.Jacobian
import Mathlib.Analysis.Calculus.FDeriv.Pi
import Mathlib.Analysis.Calculus.FDeriv.Pow
import Mathlib.Analysis.Calculus.LineDeriv.Basic
import Mathlib.MeasureTheory.Constructions.Polish.Basic
import Mathlib.LinearAlgebra.Matrix.ToLin
import Mathlib.MeasureTheory.Measure.Lebesgue.EqHaar
import Mathlib.Analysis.SpecialFunctions.Pow.NNReal

/-!
# The two moment maps and the change of variables between spectral data and Jacobi coefficients
-/

namespace Verif.Lemmas
open Finset Matrix MeasureTheory Polynomial

/-- coordinates: `inl` for nodes or diagonal coefficients, `inr` for weights or squared off-diagonal coefficients -/
abbrev Cd (N : ℕ) : Type := Fin N ⊕ Fin N → ℝ

variable {N : ℕ}

/-- moments of the measure with nodes `x (inl j)` and weights `x (inr j)` -/
def momF (x : Cd N) : Cd N := fun r => ∑ j, x (.inr j) * x (.inl j) ^ (rk N r : ℕ)

/-- pad by zeros -/
def pad (f : Fin N → ℝ) (i : ℕ) : ℝ := if h : i < N then f ⟨i, h⟩ else 0

/-- moments of the Jacobi matrix -/
def momG (y : Cd N) : Cd N := fun r => mom (pad fun i => y (.inl i)) (pad fun i => y (.inr i)) (rk N r)

/-- spectral side -/
def specS (N : ℕ) : Set (Cd N) := {x | StrictMono (fun j => x (.inl j)) ∧ ∀ j, 0 < x (.inr j)}

/-- coefficient side -/
def specR (N : ℕ) : Set (Cd N) := {y | ∀ j, 0 < y (.inr j)}

theorem pad_lt {f : Fin N → ℝ} {i : ℕ} (h : i < N) : pad f i = f ⟨i, h⟩ := by rw [pad, dif_pos h]

theorem pad_fin (f : Fin N → ℝ) (i : Fin N) : pad f i = f i := by rw [pad_lt i.2]

theorem momF_rk (x : Cd N) {k : ℕ} (hk : k < 2 * N) : ∃ r, (rk N r : ℕ) = k := by
  obtain ⟨r, hr⟩ := (rk_bij N).2 ⟨k, hk⟩
  exact ⟨r, by rw [hr]⟩

theorem momF_eq_momG {x y : Cd N} (h : momF x = momG y) {k : ℕ} (hk : k < 2 * N) :
    ∑ j, x (.inr j) * x (.inl j) ^ k = mom (pad fun i => y (.inl i)) (pad fun i => y (.inr i)) k := by
  obtain ⟨r, rfl⟩ := momF_rk x hk
  exact congrFun h r

theorem momF_poly {x x' : Cd N} (h : momF x = momF x') {p : ℝ[X]} (hp : p.natDegree < 2 * N) :
    ∑ j, x (.inr j) * p.eval (x (.inl j)) = ∑ j, x' (.inr j) * p.eval (x' (.inl j)) := by
  have e : ∀ z : Cd N, ∑ j, z (.inr j) * p.eval (z (.inl j))
      = ∑ k ∈ range (2 * N), p.coeff k * ∑ j, z (.inr j) * z (.inl j) ^ k := by
    intro z
    simp only [eval_eq_sum_range' hp, mul_sum]
    rw [sum_comm]
    exact sum_congr rfl fun k _ => sum_congr rfl fun j _ => by ring
  rw [e, e]
  refine sum_congr rfl fun k hk => ?_
  obtain ⟨r, rfl⟩ := momF_rk x (mem_range.1 hk)
  rw [show ∑ j, x (.inr j) * x (.inl j) ^ (rk N r : ℕ) = ∑ j, x' (.inr j) * x' (.inl j) ^ (rk N r : ℕ) from congrFun h r]

theorem momF_injOn : Set.InjOn (momF (N := N)) (specS N) := by
  classical
  rintro x ⟨hx, hxw⟩ x' ⟨hx', hxw'⟩ h
  have sub : ∀ {z z' : Cd N}, StrictMono (fun j => z (.inl j)) → (∀ j, 0 < z (.inr j)) → momF z = momF z' →
      ∀ i, ∃ j, z (.inl i) = z' (.inl j) := by
    intro z z' hz hzw hzz i
    set p : ℝ[X] := (∏ j, (X - C (z' (.inl j)))) * ∏ j ∈ univ.erase i, (X - C (z (.inl j))) with hp
    have hd : p.natDegree < 2 * N := by
      have := i.2
      refine lt_of_le_of_lt natDegree_mul_le ?_
      rw [natDegree_prod_of_monic _ _ fun j _ => monic_X_sub_C _, natDegree_prod_of_monic _ _ fun j _ => monic_X_sub_C _]
      simp only [natDegree_X_sub_C, sum_const, smul_eq_mul, mul_one, card_univ, Fintype.card_fin, card_erase_of_mem (mem_univ i)]
      omega
    have e := momF_poly hzz hd
    rw [sum_eq_single i, sum_eq_zero (s := univ) (f := fun j => z' (.inr j) * p.eval (z' (.inl j)))] at e
    · rw [hp, eval_mul, eval_prod, eval_prod] at e
      rcases mul_eq_zero.1 e with e | e
      · exact absurd e (hzw i).ne'
      rcases mul_eq_zero.1 e with e | e
      · obtain ⟨j, _, hj⟩ := prod_eq_zero_iff.1 e
        exact ⟨j, by simpa [sub_eq_zero] using hj⟩
      · obtain ⟨j, hj, hj'⟩ := prod_eq_zero_iff.1 e
        have hne := (mem_erase.1 hj).1
        have : z (.inl i) = z (.inl j) := by simpa [sub_eq_zero] using hj'
        exact absurd (hz.injective this).symm hne
    · intro j _
      rw [hp, eval_mul, eval_prod, prod_eq_zero (mem_univ j) (by simp)]
      simp
    · intro j _ hj
      rw [hp, eval_mul, eval_prod, eval_prod, prod_eq_zero (s := univ.erase i) (i := j) (by simp [hj]) (by simp)]
      simp
    · simp
  have hl : (fun j => x (.inl j)) = fun j => x' (.inl j) := by
    refine (hx.range_inj hx').1 ?_
    apply Set.Subset.antisymm
    · rintro _ ⟨i, rfl⟩; obtain ⟨j, hj⟩ := sub hx hxw h i; exact ⟨j, hj.symm⟩
    · rintro _ ⟨i, rfl⟩; obtain ⟨j, hj⟩ := sub hx' hxw' h.symm i; exact ⟨j, hj.symm⟩
  have hw : ∀ i, x (.inr i) = x' (.inr i) := by
    intro i
    set p : ℝ[X] := ∏ j ∈ univ.erase i, (X - C (x (.inl j))) with hp
    have hd : p.natDegree < 2 * N := by
      have := i.2
      rw [hp, natDegree_prod_of_monic _ _ fun j _ => monic_X_sub_C _]
      simp only [natDegree_X_sub_C, sum_const, smul_eq_mul, mul_one, card_univ, Fintype.card_fin, card_erase_of_mem (mem_univ i)]
      omega
    have e := momF_poly h hd
    have hz : ∀ j, j ≠ i → p.eval (x (.inl j)) = 0 := fun j hj => by
      rw [hp, eval_prod, prod_eq_zero (s := univ.erase i) (i := j) (by simp [hj]) (by simp)]
    have hl' : ∀ j, x' (.inl j) = x (.inl j) := fun j => (congrFun hl j).symm
    simp only [hl'] at e
    rw [sum_eq_single i (fun j _ hj => by rw [hz j hj, mul_zero]) (by simp),
      sum_eq_single i (fun j _ hj => by rw [hz j hj, mul_zero]) (by simp)] at e
    refine mul_right_cancel₀ ?_ e
    rw [hp, eval_prod]
    refine prod_ne_zero_iff.2 fun j hj => ?_
    simp only [eval_sub, eval_X, eval_C]
    exact sub_ne_zero.2 fun h => (mem_erase.1 hj).1 (hx.injective h).symm
  funext c
  rcases c with j | j
  · exact congrFun hl j
  · exact hw j

theorem momG_injOn : Set.InjOn (momG (N := N)) (specR N) := by
  intro y hy y' hy' h
  have := mom_inj (a := pad fun i => y (.inl i)) (B := pad fun i => y (.inr i)) (a' := pad fun i => y' (.inl i))
    (B' := pad fun i => y' (.inr i)) (N := N) (fun i hi => by rw [pad_lt hi]; exact hy _) (fun i hi => by rw [pad_lt hi]; exact hy' _)
    (fun k hk => by obtain ⟨r, rfl⟩ := momF_rk y hk; exact congrFun h r) N le_rfl
  funext c
  rcases c with j | j
  · have := this.1 j j.2; rwa [pad_fin, pad_fin] at this
  · have := this.2 j j.2; rwa [pad_fin, pad_fin] at this

/-- from spectral data to coefficients -/
theorem exists_coef {x : Cd N} (hx : x ∈ specS N) : ∃ y ∈ specR N, momG y = momF x := by
  set lam : Fin N → ℝ := fun j => x (.inl j)
  set w : Fin N → ℝ := fun j => x (.inr j)
  refine ⟨Sum.elim (fun i => stjA lam w i) (fun i => stjB lam w i), fun j => ?_, ?_⟩
  · exact stjB_pos hx.1.injective hx.2 j.2
  · funext r
    rw [momG, momF, ← mom_stj hx.1.injective hx.2 (rk N r).2]
    exact mom_congr (rk N r).2 (fun i hi => by rw [pad_lt hi]; rfl) (fun i hi => by rw [pad_lt hi]; rfl)

/-! ### Derivatives -/

theorem hasDerivAt_pad (y v : Cd N) (s : Fin N → Fin N ⊕ Fin N) (i : ℕ) : Differentiable ℝ fun z : Cd N => pad (fun k => z (s k)) i := by
  unfold pad
  split_ifs with h
  · fun_prop
  · fun_prop

theorem diff_kry : ∀ k i : ℕ, Differentiable ℝ fun y : Cd N => kry (pad fun i => y (.inl i)) (pad fun i => y (.inr i)) k i
  | 0, i => by simp only [kry]; fun_prop
  | k + 1, 0 => by
    simp only [kry]
    exact ((hasDerivAt_pad 0 0 _ _).mul (diff_kry k _)).add ((hasDerivAt_pad 0 0 _ _).mul (diff_kry k _))
  | k + 1, i + 1 => by
    simp only [kry]
    exact ((diff_kry k _).add ((hasDerivAt_pad 0 0 _ _).mul (diff_kry k _))).add ((hasDerivAt_pad 0 0 _ _).mul (diff_kry k _))

theorem diff_momG : Differentiable ℝ (momG (N := N)) := by
  rw [differentiable_pi]
  intro r
  exact (hasDerivAt_pad 0 0 _ _).mul (diff_kry _ _)

theorem diff_momF : Differentiable ℝ (momF (N := N)) := by
  rw [differentiable_pi]
  intro r
  unfold momF
  fun_prop

/-- Jacobian matrix -/
noncomputable def jacM (F : Cd N → Cd N) (y : Cd N) : Matrix (Fin N ⊕ Fin N) (Fin N ⊕ Fin N) ℝ :=
  LinearMap.toMatrix' (fderiv ℝ F y : Cd N →ₗ[ℝ] Cd N)

theorem det_fderiv (F : Cd N → Cd N) (y : Cd N) : (fderiv ℝ F y).det = (jacM F y).det := by
  rw [jacM, LinearMap.det_toMatrix']

theorem jacM_eq {F : Cd N → Cd N} {y : Cd N} (hF : DifferentiableAt ℝ F y) {r c : Fin N ⊕ Fin N} {K : ℝ}
    (h : HasDerivAt (fun t : ℝ => F (y + t • Pi.single c 1) r) K 0) : jacM F y r c = K := by
  have h1 : HasFDerivAt (fun z => F z r) ((ContinuousLinearMap.proj r).comp (fderiv ℝ F y)) y :=
    (hasFDerivAt_pi'.1 hF.hasFDerivAt) r
  have h2 := (h1.hasLineDerivAt (Pi.single c 1))
  have h3 := HasDerivAt.unique h h2
  rw [h3, jacM, LinearMap.toMatrix'_apply]
  rfl

theorem add_smul_single (y : Cd N) (t : ℝ) (c d : Fin N ⊕ Fin N) :
    ((y + t • Pi.single c (1 : ℝ) : Cd N) d) = y d + if d = c then t else 0 := by
  by_cases h : d = c
  · subst h; simp
  · simp [h]

theorem jacM_momF (x : Cd N) : jacM momF x = confl (fun j => x (.inl j)) * fromBlocks (diagonal fun j => x (.inr j)) 0 0 1 := by
  ext r (c | c)
  · have e : (confl (fun j => x (.inl j)) * fromBlocks (diagonal fun j => x (.inr j)) 0 0 1 :
        Matrix (Fin N ⊕ Fin N) (Fin N ⊕ Fin N) ℝ) r (.inl c)
        = x (.inr c) * (((rk N r : ℕ) : ℝ) * x (.inl c) ^ ((rk N r : ℕ) - 1)) := by
      rw [Matrix.mul_apply, Fintype.sum_sum_type]
      simp [Matrix.diagonal_apply, confl, mul_comm]
    rw [e]
    refine jacM_eq diff_momF.differentiableAt ?_
    simp only [momF, add_smul_single, Sum.inl.injEq, reduceCtorEq, if_false, add_zero]
    have : ∀ j ∈ univ, HasDerivAt (fun t : ℝ => x (.inr j) * (x (.inl j) + if j = c then t else 0) ^ (rk N r : ℕ))
        (if j = c then x (.inr c) * (((rk N r : ℕ) : ℝ) * x (.inl c) ^ ((rk N r : ℕ) - 1)) else 0) 0 := by
      intro j _
      split_ifs with h
      · subst h
        have := (((hasDerivAt_id (0 : ℝ)).const_add (x (.inl j))).pow (rk N r : ℕ)).const_mul (x (.inr j))
        simpa using this
      · exact hasDerivAt_const _ _
    have := HasDerivAt.fun_sum this
    simpa using this
  · have e : (confl (fun j => x (.inl j)) * fromBlocks (diagonal fun j => x (.inr j)) 0 0 1 :
        Matrix (Fin N ⊕ Fin N) (Fin N ⊕ Fin N) ℝ) r (.inr c)
        = x (.inl c) ^ (rk N r : ℕ) := by
      rw [Matrix.mul_apply, Fintype.sum_sum_type]
      simp [Matrix.one_apply, confl]
    rw [e]
    refine jacM_eq diff_momF.differentiableAt ?_
    simp only [momF, add_smul_single, Sum.inr.injEq, reduceCtorEq, if_false, add_zero]
    have : ∀ j ∈ univ, HasDerivAt (fun t : ℝ => (x (.inr j) + if j = c then t else 0) * x (.inl j) ^ (rk N r : ℕ))
        (if j = c then x (.inl c) ^ (rk N r : ℕ) else 0) 0 := by
      intro j _
      split_ifs with h
      · subst h
        have := ((hasDerivAt_id (0 : ℝ)).const_add (x (.inr j))).mul_const (x (.inl j) ^ (rk N r : ℕ))
        simpa using this
      · exact hasDerivAt_const _ _
    have := HasDerivAt.fun_sum this
    simpa using this

theorem det_momF (x : Cd N) : |(fderiv ℝ momF x).det| = vdm (fun j => x (.inl j)) ^ 4 * |∏ j, x (.inr j)| := by
  rw [det_fderiv, jacM_momF, Matrix.det_mul, abs_mul, abs_det_confl, det_fromBlocks_zero₁₂, Matrix.det_diagonal, Matrix.det_one,
    mul_one]

theorem hasDerivAt_line {F : ℝ → ℝ} {K : ℝ} (h : ∀ t, F t = F 0 + t * K) : HasDerivAt F K 0 := by
  have : F = fun t => F 0 + t * K := funext h
  rw [this]
  simpa using ((hasDerivAt_id (0 : ℝ)).mul_const K).const_add (F 0)

theorem mom_congr2 {a B a' B' : ℕ → ℝ} {k : ℕ} (ha : ∀ i, 2 * i + 1 ≤ k → a i = a' i) (hB : ∀ i, 2 * i ≤ k → B i = B' i) :
    mom a B k = mom a' B' k := by
  rcases Nat.even_or_odd' k with ⟨m, rfl | rfl⟩
  · rw [mom_even', mom_even', kryH_congr fun i hi => hB i (by omega),
      evRem_congr (fun i hi => ha i (by omega)) (fun i hi => hB i (by omega))]
  · rw [mom_odd', mom_odd', kryH_congr fun i hi => hB i (by omega), ha m (by omega),
      odRem_congr (fun i hi => ha i (by omega)) (fun i hi => hB i (by omega))]

theorem pad_line (y : Cd N) (t : ℝ) (c : Fin N ⊕ Fin N) (s : Fin N → Fin N ⊕ Fin N) (i : ℕ) (h : ∀ h : i < N, s ⟨i, h⟩ ≠ c) :
    pad (fun k => (y + t • Pi.single c (1 : ℝ) : Cd N) (s k)) i = pad (fun k => y (s k)) i := by
  unfold pad
  split_ifs with hi
  · change (y + t • Pi.single c (1 : ℝ) : Cd N) (s ⟨i, hi⟩) = y (s ⟨i, hi⟩)
    rw [add_smul_single, if_neg (h hi), add_zero]
  · rfl

theorem jacM_momG_lt (y : Cd N) {r c : Fin N ⊕ Fin N} (h : rk N r < rk N c) : jacM momG y r c = 0 := by
  refine jacM_eq diff_momG.differentiableAt (hasDerivAt_line fun t => ?_)
  rw [mul_zero, add_zero, zero_smul, add_zero]
  have h' : (rk N r : ℕ) < rk N c := h
  refine mom_congr2 (fun i hi => pad_line y t c Sum.inl i ?_) (fun i hi => pad_line y t c Sum.inr i ?_)
  · rintro hN rfl
    rw [rk] at h'
    change _ < _ at h'
    simp only at h'
    omega
  · rintro hN rfl
    rw [rk] at h'
    change _ < _ at h'
    simp only at h'
    omega

theorem jacM_momG_inl (y : Cd N) (k : Fin N) : jacM momG y (.inl k) (.inl k) = kryH (pad fun i => y (.inr i)) k := by
  refine jacM_eq diff_momG.differentiableAt (hasDerivAt_line fun t => ?_)
  rw [zero_smul, add_zero]
  simp only [momG, rk]
  rw [mom_odd', mom_odd', pad_fin, pad_fin, add_smul_single, if_pos rfl,
    kryH_congr (fun i hi => pad_line y t (.inl k) Sum.inr i (by simp)),
    odRem_congr (fun i hi => pad_line y t (.inl k) Sum.inl i (fun h e => by
      have := congrArg Fin.val (Sum.inl.inj e); simp at this; omega))
      (fun i hi => pad_line y t (.inl k) Sum.inr i (by simp))]
  ring

theorem jacM_momG_inr (y : Cd N) (k : Fin N) :
    jacM momG y (.inr k) (.inr k) = ∏ i ∈ range k, pad (fun i => y (.inr i)) i := by
  refine jacM_eq diff_momG.differentiableAt (hasDerivAt_line fun t => ?_)
  rw [zero_smul, add_zero]
  simp only [momG, rk]
  have hne : ∀ i < (k : ℕ), ∀ h : i < N, Sum.inr (⟨i, h⟩ : Fin N) ≠ (Sum.inr k : Fin N ⊕ Fin N) := fun i hi h e => by
    have := congrArg Fin.val (Sum.inr.inj e); simp at this; omega
  rw [mom_even', mom_even',
    evRem_congr (fun i hi => pad_line y t (.inr k) Sum.inl i (by simp))
      (fun i hi => pad_line y t (.inr k) Sum.inr i (hne i hi)),
    kryH, kryH, prod_range_succ, prod_range_succ, pad_fin, pad_fin, add_smul_single, if_pos rfl,
    prod_congr rfl (fun i hi => pad_line y t (.inr k) Sum.inr i (hne i (mem_range.1 hi)))]
  ring

theorem det_momG (y : Cd N) : (fderiv ℝ momG y).det
    = (∏ k : Fin N, kryH (pad fun i => y (.inr i)) k) * ∏ k : Fin N, ∏ i ∈ range k, pad (fun i => y (.inr i)) i := by
  rw [det_fderiv, ← Matrix.det_submatrix_equiv_self (rkE N).symm, Matrix.det_of_isLowerTriangular]
  · refine (Fintype.prod_equiv (rkE N).symm _ (fun c => jacM momG y c c) (fun _ => rfl)).trans ?_
    rw [Fintype.prod_sum_type]
    simp only [jacM_momG_inl, jacM_momG_inr]
  · intro i j hij
    rw [Matrix.submatrix_apply]
    refine jacM_momG_lt y ?_
    rw [← rkE_apply, ← rkE_apply, Equiv.apply_symm_apply, Equiv.apply_symm_apply]
    exact hij

/-- the Jacobian on the positive orthant -/
theorem det_momG_pos {y : Cd N} (hy : y ∈ specR N) :
    |(fderiv ℝ momG y).det| = (∏ k ∈ range N, kryH (pad fun i => y (.inr i)) k) ^ 2 / ∏ j, y (.inr j) := by
  set B := pad fun i => y (.inr i) with hB
  have hpos : ∀ i < N, 0 < B i := fun i hi => by rw [hB, pad_lt hi]; exact hy _
  have h1 : ∏ k : Fin N, kryH B k = ∏ k ∈ range N, kryH B k := Fin.prod_univ_eq_prod_range (fun k => kryH B k) N
  have h2 : (∏ k : Fin N, ∏ i ∈ range k, B i) * ∏ j, y (.inr j) = ∏ k ∈ range N, kryH B k := by
    rw [← prod_mul_distrib, ← h1]
    refine prod_congr rfl fun k _ => ?_
    rw [kryH, prod_range_succ, hB, pad_fin]
  have hp : 0 < ∏ j, y (.inr j) := prod_pos fun j _ => hy j
  have hk : 0 < ∏ k ∈ range N, kryH B k := prod_pos fun k hk => kryH_pos fun i hi => hpos i (by simp at hk; omega)
  rw [det_momG, h1, eq_div_iff hp.ne', abs_of_pos, mul_assoc, h2, sq]
  refine mul_pos hk (prod_pos fun k _ => prod_pos fun i hi => hpos i ?_)
  have := k.2
  simp at hi; omega

theorem measurableSet_specR : MeasurableSet (specR N) := by
  have : specR N = ⋂ j : Fin N, {y | 0 < y (.inr j)} := by ext y; simp [specR]
  rw [this]
  exact MeasurableSet.iInter fun j => measurableSet_lt measurable_const (measurable_pi_apply _)

theorem measurableSet_specS : MeasurableSet (specS N) := by
  have : specS N = (⋂ i : Fin N, ⋂ j : Fin N, {y | i < j → y (.inl i) < y (.inl j)}) ∩ ⋂ j : Fin N, {y | 0 < y (.inr j)} := by
    ext y; simp [specS, StrictMono]
  rw [this]
  refine MeasurableSet.inter (MeasurableSet.iInter fun i => MeasurableSet.iInter fun j => ?_)
    (MeasurableSet.iInter fun j => measurableSet_lt measurable_const (measurable_pi_apply _))
  by_cases h : i < j
  · simp only [h, true_imp_iff]
    exact measurableSet_lt (measurable_pi_apply _) (measurable_pi_apply _)
  · simp [h]

/-- **change of variables** between spectral data and coefficients -/
theorem spec_change {Φ : Cd N → Cd N} (hΦ : ∀ y ∈ specR N, Φ y ∈ specS N ∧ momF (Φ y) = momG y) (H : Cd N → ENNReal) :
    (∫⁻ x in specS N, ENNReal.ofReal (vdm (fun j => x (.inl j)) ^ 4 * ∏ j, x (.inr j)) * H x)
      = ∫⁻ y in specR N, ENNReal.ofReal ((∏ k ∈ range N, kryH (pad fun i => y (.inr i)) k) ^ 2 / ∏ j, y (.inr j)) * H (Φ y) := by
  have himg : momF '' specS N = momG '' specR N := by
    ext z
    constructor
    · rintro ⟨x, hx, rfl⟩
      obtain ⟨y, hy, e⟩ := exists_coef hx
      exact ⟨y, hy, e⟩
    · rintro ⟨y, hy, rfl⟩
      exact ⟨Φ y, (hΦ y hy).1, (hΦ y hy).2⟩
  set inv := Function.invFunOn (momF (N := N)) (specS N) with hinv
  have hinvF : ∀ x ∈ specS N, inv (momF x) = x := fun x hx =>
    momF_injOn (Function.invFunOn_mem ⟨x, hx, rfl⟩) hx (Function.invFunOn_eq ⟨x, hx, rfl⟩)
  have hF := lintegral_image_eq_lintegral_abs_det_fderiv_mul volume (measurableSet_specS (N := N))
    (fun x _ => (diff_momF.differentiableAt (x := x)).hasFDerivAt.hasFDerivWithinAt) momF_injOn (fun z => H (inv z))
  have hG := lintegral_image_eq_lintegral_abs_det_fderiv_mul volume (measurableSet_specR (N := N))
    (fun x _ => (diff_momG.differentiableAt (x := x)).hasFDerivAt.hasFDerivWithinAt) momG_injOn (fun z => H (inv z))
  rw [himg, hG] at hF
  rw [setLIntegral_congr_fun measurableSet_specR (g := fun y => ENNReal.ofReal |(fderiv ℝ momG y).det| * H (inv (momG y))),
    hF]
  · refine setLIntegral_congr_fun measurableSet_specS fun x hx => ?_
    rw [hinvF x hx, det_momF, abs_of_pos (prod_pos fun j _ => hx.2 j)]
  · intro y hy
    beta_reduce
    rw [det_momG_pos hy, ← (hΦ y hy).2, hinvF _ (hΦ y hy).1]

/-- the spectral map is measurable -/
theorem measurable_spec {Φ : Cd N → Cd N} (hΦ : ∀ y ∈ specR N, Φ y ∈ specS N ∧ momF (Φ y) = momG y) :
    Measurable ((specR N).indicator Φ) := by
  intro t ht
  rw [Set.indicator_preimage]
  have h1 : Φ ⁻¹' t ∩ specR N = momG ⁻¹' (momF '' (specS N ∩ t)) ∩ specR N := by
    ext y
    simp only [Set.mem_inter_iff, Set.mem_preimage, Set.mem_image]
    refine and_congr_left fun hy => ⟨fun h => ⟨Φ y, ⟨(hΦ y hy).1, h⟩, (hΦ y hy).2⟩, ?_⟩
    rintro ⟨x, ⟨hx, hxt⟩, e⟩
    rw [← momF_injOn hx (hΦ y hy).1 (e.trans (hΦ y hy).2.symm)]
    exact hxt
  have h2 : MeasurableSet (Φ ⁻¹' t ∩ specR N) := by
    rw [h1]
    refine MeasurableSet.inter ?_ measurableSet_specR
    refine diff_momG.continuous.measurable ?_
    exact MeasurableSet.image_of_continuousOn_injOn (measurableSet_specS.inter ht) diff_momF.continuous.continuousOn
      (momF_injOn.mono Set.inter_subset_left)
  rw [Set.ite]
  exact h2.union ((measurable_const ht).diff measurableSet_specR)

end Verif.Lemmas
