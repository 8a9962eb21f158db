import Verif.Lemmas.Circ5
import Verif.Spec.Circular
import Mathlib.MeasureTheory.Group.FundamentalDomain
import Mathlib.Data.Fin.Tuple.Sort
import Mathlib.Analysis.SpecialFunctions.Complex.Log

/-!
# The bijection between measures on the circle and coefficients
-/

namespace Verif.Lemmas
open Finset Polynomial Verif.Spec MeasureTheory
open scoped ComplexConjugate

variable {n : ℕ}

theorem angle_mem (z : ℂ) : 0 ≤ angle z ∧ angle z < 2 * Real.pi := by
  have h1 := Complex.arg_le_pi z
  have h2 := Complex.neg_pi_lt_arg z
  have h3 := Real.pi_pos
  rw [angle]
  split_ifs with h
  · exact ⟨h, by linarith⟩
  · push Not at h
    exact ⟨by linarith, by linarith⟩

theorem exp_angle {z : ℂ} (hz : ‖z‖ = 1) : Complex.exp (angle z * Complex.I) = z := by
  have h := Complex.norm_mul_exp_arg_mul_I z
  rw [hz, Complex.ofReal_one, one_mul] at h
  rw [angle]
  split_ifs
  · exact h
  · push_cast
    rw [add_mul, Complex.exp_add, h, Complex.exp_two_pi_mul_I, mul_one]

theorem exp_angle_inj {s t : ℝ} (hs : 0 ≤ s ∧ s < 2 * Real.pi) (ht : 0 ≤ t ∧ t < 2 * Real.pi)
    (h : Complex.exp (s * Complex.I) = Complex.exp (t * Complex.I)) : s = t := by
  obtain ⟨k, hk⟩ := Complex.exp_eq_exp_iff_exists_int.1 h
  have h1 : s = t + k * (2 * Real.pi) := by
    have : (s : ℂ) * Complex.I = (t + k * (2 * Real.pi)) * Complex.I := by rw [hk]; ring
    have := mul_right_cancel₀ Complex.I_ne_zero this
    exact_mod_cast this
  have hpi := Real.pi_pos
  have hk1 : (k : ℝ) < 1 := by
    by_contra hc
    push Not at hc
    nlinarith [hs.2, ht.1]
  have hk2 : (-1 : ℝ) < k := by
    by_contra hc
    push Not at hc
    nlinarith [hs.1, ht.2]
  have hk1' : k < 1 := by exact_mod_cast hk1
  have hk2' : -1 < k := by exact_mod_cast hk2
  have : k = 0 := by omega
  rw [h1, this]; simp

theorem angle_exp {t : ℝ} (ht : 0 ≤ t ∧ t < 2 * Real.pi) : angle (Complex.exp (t * Complex.I)) = t :=
  exp_angle_inj (angle_mem _) ht (exp_angle (Complex.norm_exp_ofReal_mul_I t))

/-- measures: sorted angles, positive weights -/
def specC (n : ℕ) : Set (Cd (n + 1)) := {x | StrictMono (fun j => x (.inl j)) ∧ (∀ j, 0 ≤ x (.inl j) ∧ x (.inl j) < 2 * Real.pi)
  ∧ ∀ j, 0 < x (.inr j)}

/-- coefficients -/
def goodC (n : ℕ) : Set (Cd (n + 1)) := {y | 0 < massC y ∧ ∀ k < n, ‖alC y k‖ < 1}

theorem zC_inj {x : Cd (n + 1)} (hx : x ∈ specC n) : Function.Injective (zC x) := fun i j hij =>
  hx.1.injective (exp_angle_inj (hx.2.1 i) (hx.2.1 j) hij)

/-- the measure of mass `m` with coefficients `al` -/
structure IsSpec (al : ℕ → ℂ) (m : ℝ) (x : Cd (n + 1)) : Prop where
  mem : x ∈ specC n
  mass : ∑ j, x (.inr j) = m
  szM : SzM (zC x) (fun j => x (.inr j)) al (n + 1)
  root : ∀ j, (szP al (n + 1)).eval (zC x j) = 0

theorem exists_specC {al : ℕ → ℂ} {m : ℝ} (hm : 0 < m) (h : ∀ k < n, ‖al k‖ < 1) (hl : ‖al n‖ = 1) :
    ∃ x : Cd (n + 1), IsSpec al m x := by
  obtain ⟨z, hinj, h0⟩ := exists_roots h hl
  have hR : ∀ k ≤ n, 0 < szR al k := fun k hk => szR_pos h hk
  have hz : ∀ j, ‖z j‖ = 1 := fun j => sz_root_norm hR hl (h0 j)
  set f : Fin (n + 1) → ℝ := fun j => angle (z j) with hf
  have hfi : Function.Injective f := fun i j hij => hinj (by
    have : Complex.exp (angle (z i) * Complex.I) = Complex.exp (angle (z j) * Complex.I) := by
      rw [show angle (z i) = angle (z j) from hij]
    rwa [exp_angle (hz i), exp_angle (hz j)] at this)
  set σ := Tuple.sort f with hσ
  have hmono : StrictMono fun j => f (σ j) := (Tuple.monotone_sort f).strictMono_of_injective (hfi.comp σ.injective)
  set z' : Fin (n + 1) → ℂ := fun j => z (σ j) with hz'
  have hinj' : Function.Injective z' := hinj.comp σ.injective
  have h0' : ∀ j, (szP al (n + 1)).eval (z' j) = 0 := fun j => h0 _
  obtain ⟨hs, hM⟩ := forward_szM hR hl hinj' h0' hm
  have hzC : zC (Sum.elim (fun j => f (σ j)) (fun j => m / szKr al n (z' j)) : Cd (n + 1)) = z' := by
    funext j
    rw [zC]
    exact exp_angle (hz _)
  refine ⟨Sum.elim (fun j => f (σ j)) (fun j => m / szKr al n (z' j)), ⟨hmono, fun j => angle_mem _, fun j => ?_⟩, hs, ?_, ?_⟩
  · exact div_pos hm (szKr_pos hR _)
  · rw [hzC]; exact hM
  · rw [hzC]; exact h0'

theorem root_subset {x x' : Cd (n + 1)} {al : ℕ → ℂ} (hx : x ∈ specC n) (hx' : x' ∈ specC n)
    (h : ∀ j, (szP al (n + 1)).eval (zC x j) = 0) (h' : ∀ j, (szP al (n + 1)).eval (zC x' j) = 0) (j : Fin (n + 1)) :
    ∃ i, x (.inl i) = x' (.inl j) := by
  have h1 := h' j
  rw [szP_eq_prod (zC_inj hx) h, eval_prod, prod_eq_zero_iff] at h1
  obtain ⟨i, _, hi⟩ := h1
  rw [eval_sub, eval_X, eval_C, sub_eq_zero] at hi
  exact ⟨i, (exp_angle_inj (hx'.2.1 j) (hx.2.1 i) hi).symm⟩

theorem root_unique {x x' : Cd (n + 1)} {al : ℕ → ℂ} (hx : x ∈ specC n) (hx' : x' ∈ specC n)
    (h : ∀ j, (szP al (n + 1)).eval (zC x j) = 0) (h' : ∀ j, (szP al (n + 1)).eval (zC x' j) = 0) :
    (fun j => x (.inl j)) = fun j => x' (.inl j) := by
  rw [← hx.1.range_inj hx'.1]
  refine Set.Subset.antisymm ?_ ?_
  · rintro _ ⟨j, rfl⟩
    exact root_subset hx' hx h' h j
  · rintro _ ⟨j, rfl⟩
    exact root_subset hx hx' h h' j

theorem spec_unique {al : ℕ → ℂ} {m : ℝ} (hm : 0 < m) (h : ∀ k < n, ‖al k‖ < 1) {x x' : Cd (n + 1)}
    (hx : IsSpec al m x) (hx' : IsSpec al m x') : x = x' := by
  have hR : ∀ k ≤ n, 0 < szR al k := fun k hk => szR_pos h hk
  have h1 := root_unique hx.mem hx'.mem hx.root hx'.root
  have hz : zC x = zC x' := by
    funext j; rw [zC, zC, show x (.inl j) = x' (.inl j) from congrFun h1 j]
  funext r
  rcases r with j | j
  · exact congrFun h1 j
  · have e1 := weight_eq (zC_norm x) hx.szM hR (by rw [hx.mass]; exact hm) j
    have e2 := weight_eq (zC_norm x') hx'.szM hR (by rw [hx'.mass]; exact hm) j
    rw [hx.mass, hz] at e1
    rw [hx'.mass] at e2
    exact mul_right_cancel₀ (szKr_pos hR _).ne' (e1.trans e2.symm)

open Classical in
/-- the measure of mass `m` with coefficients `al` -/
noncomputable def specX (n : ℕ) (al : ℕ → ℂ) (m : ℝ) : Cd (n + 1) := if h : ∃ x, IsSpec al m x then h.choose else 0

theorem specX_spec {al : ℕ → ℂ} {m : ℝ} (hm : 0 < m) (h : ∀ k < n, ‖al k‖ < 1) (hl : ‖al n‖ = 1) : IsSpec al m (specX n al m) := by
  have he := exists_specC hm h hl
  rw [specX, dif_pos he]
  exact he.choose_spec

/-- the measure with coordinates `y` -/
noncomputable def spX (y : Cd (n + 1)) : Cd (n + 1) := specX n (alC y) (massC y)

theorem spX_spec {y : Cd (n + 1)} (hy : y ∈ goodC n) : IsSpec (alC y) (massC y) (spX y) := specX_spec hy.1 hy.2 (alC_last_norm y)

/-- the coordinates of a measure -/
noncomputable def coX (x : Cd (n + 1)) : Cd (n + 1)
  | .inl k => if (k : ℕ) < n then (mAl (zC x) (fun j => x (.inr j)) k).re else ∑ j, x (.inl j)
  | .inr k => if (k : ℕ) = 0 then ∑ j, x (.inr j) else (mAl (zC x) (fun j => x (.inr j)) (k - 1)).im

theorem prod_zC (x : Cd (n + 1)) : ∏ j, zC x j = Complex.exp (((∑ j, x (.inl j) : ℝ) : ℂ) * Complex.I) := by
  simp only [zC]
  rw [← Complex.exp_sum, ← sum_mul]
  push_cast; rfl

theorem alC_coX {x : Cd (n + 1)} (hx : x ∈ specC n) {k : ℕ} (hk : k ≤ n) : alC (coX x) k = mAl (zC x) (fun j => x (.inr j)) k := by
  rcases Nat.lt_or_eq_of_le hk with hk | rfl
  · rw [alC_lt _ hk]
    simp only [coX, if_pos hk, if_neg (Nat.succ_ne_zero k), Nat.add_sub_cancel]
    exact Complex.re_add_im _
  · have h := (exists_al (w := fun j => x (.inr j)) (zC_norm x) (zC_inj hx) hx.2.2).2.2
    rw [alC_last]
    apply (starRingEnd ℂ).injective
    rw [Complex.conj_conj, h, prod_zC]
    simp [coX]

theorem coX_spec {x : Cd (n + 1)} (hx : x ∈ specC n) : coX x ∈ goodC n ∧ IsSpec (alC (coX x)) (massC (coX x)) x
    ∧ coX x (.inl (Fin.last n)) = ∑ j, x (.inl j) := by
  obtain ⟨h1, h2, h3⟩ := exists_al (w := fun j => x (.inr j)) (zC_norm x) (zC_inj hx) hx.2.2
  have hm : massC (coX x) = ∑ j, x (.inr j) := by simp [massC, coX]
  have hcg : ∀ k ≤ n + 1, szP (alC (coX x)) k = szP (mAl (zC x) (fun j => x (.inr j))) k := fun k hk =>
    congrArg Prod.fst (szP_congr fun i hi => alC_coX hx (by omega))
  have hM : SzM (zC x) (fun j => x (.inr j)) (alC (coX x)) (n + 1) := by
    intro k hk
    rw [hcg k hk.le, alC_coX hx (by omega), h1 k hk]
    congr 3
    exact prod_congr rfl fun i hi => by rw [alC_coX hx (by have := mem_range.1 hi; omega)]
  refine ⟨⟨?_, fun k hk => ?_⟩, ⟨hx, hm.symm, hM, ?_⟩, by simp [coX]⟩
  · rw [hm]; exact sum_pos (fun j _ => hx.2.2 j) ⟨0, mem_univ _⟩
  · rw [alC_coX hx hk.le]; exact h2 k hk
  · exact hM.vanish (zC_norm x) (zC_inj hx) hx.2.2

/-- coordinates whose angle is the sum of the angles -/
def domE (n : ℕ) : Set (Cd (n + 1)) := {y | y ∈ goodC n ∧ ∑ j, spX y (.inl j) = y (.inl (Fin.last n))}

theorem IsSpec.cmom {y x : Cd (n + 1)} (h : IsSpec (alC y) (massC y) x) {k : ℕ} (hk : k ≤ n) :
    cmom x k = szMom (alC y) (massC y) k := by
  have := szM_iff.1 h.szM k (by omega)
  rw [h.mass] at this
  exact this

theorem momE_spX {y : Cd (n + 1)} (hy : y ∈ domE n) : momE (spX y) = momH y :=
  momE_eq_momH.2 ⟨hy.2, fun k hk => (spX_spec hy.1).cmom hk⟩

theorem coX_domE {x : Cd (n + 1)} (hx : x ∈ specC n) : coX x ∈ domE n ∧ spX (coX x) = x ∧ momH (coX x) = momE x := by
  obtain ⟨h1, h2, h3⟩ := coX_spec hx
  have e : spX (coX x) = x := spec_unique h1.1 h1.2 (spX_spec h1) h2
  have hd : coX x ∈ domE n := ⟨h1, by rw [e, h3]⟩
  exact ⟨hd, e, by rw [← momE_spX hd, e]⟩

theorem momH_injOn : Set.InjOn (momH (n := n)) (goodC n) := by
  intro y hy y' hy' h
  have hh : ∀ k ≤ n, szMom (alC y) (massC y) k = szMom (alC y') (massC y') k := by
    intro k hk
    rcases k with _ | k
    · have := congrFun h (.inr 0)
      simp only [momH, Fin.val_zero, if_true] at this
      rw [szMom, szMom, this]
    · refine Complex.ext ?_ ?_
      · have := congrFun h (.inl ⟨k, by omega⟩)
        simpa only [momH, if_pos (show k < n by omega)] using this
      · have := congrFun h (.inr ⟨k + 1, by omega⟩)
        simpa only [momH, if_neg (Nat.succ_ne_zero k)] using this
  obtain ⟨hm, ha⟩ := szMom_inj hy.1 (fun k hk => szR_pos hy.2 hk.le) hh
  funext r
  revert r
  refine row_cases (fun k hk => ?_) ?_ (fun k hk => ?_) hm
  · have := congrArg Complex.re (ha k hk)
    rw [alC_lt _ hk, alC_lt _ hk] at this
    simpa using this
  · have := congrFun h (.inl (Fin.last n))
    simpa [momH] using this
  · have := congrArg Complex.im (ha k hk)
    rw [alC_lt _ hk, alC_lt _ hk] at this
    simpa using this

theorem momE_injOn : Set.InjOn (momE (n := n)) (specC n) := by
  intro x hx x' hx' h
  obtain ⟨h1, h2, h3⟩ := coX_domE hx
  obtain ⟨h1', h2', h3'⟩ := coX_domE hx'
  rw [← h3, ← h3'] at h
  rw [← h2, ← h2', momH_injOn h1.1 h1'.1 h]

theorem image_eq : momE '' specC n = momH '' domE n := by
  ext v
  constructor
  · rintro ⟨x, hx, rfl⟩
    obtain ⟨h1, h2, h3⟩ := coX_domE hx
    exact ⟨_, h1, h3⟩
  · rintro ⟨y, hy, rfl⟩
    exact ⟨_, (spX_spec hy.1).mem, momE_spX hy⟩

theorem measurableSet_specC : MeasurableSet (specC n) := by
  have : specC n = specS (n + 1) ∩ ⋂ j : Fin (n + 1), ({y | 0 ≤ y (.inl j)} ∩ {y | y (.inl j) < 2 * Real.pi}) := by
    ext y
    simp only [specC, specS, Set.mem_inter_iff, Set.mem_iInter]
    exact ⟨fun h => ⟨⟨h.1, h.2.2⟩, fun j => h.2.1 j⟩, fun h => ⟨h.1.1, fun j => h.2 j, h.1.2⟩⟩
  rw [this]
  refine measurableSet_specS.inter (MeasurableSet.iInter fun j => ?_)
  exact (measurableSet_le measurable_const (measurable_pi_apply _)).inter (measurableSet_lt (measurable_pi_apply _) measurable_const)

theorem measurable_alC (k : ℕ) : Measurable fun y : Cd (n + 1) => alC y k := (diff_alC k).continuous.measurable

theorem measurableSet_goodC : MeasurableSet (goodC n) := by
  have : goodC n = {y | 0 < massC y} ∩ ⋂ k : Fin n, {y | ‖alC y k‖ < 1} := by
    ext y
    simp only [goodC, Set.mem_inter_iff, Set.mem_iInter]
    exact ⟨fun h => ⟨h.1, fun k => h.2 k k.2⟩, fun h => ⟨h.1, fun k hk => h.2 ⟨k, hk⟩⟩⟩
  rw [this]
  refine MeasurableSet.inter (measurableSet_lt measurable_const (measurable_pi_apply _)) (MeasurableSet.iInter fun k => ?_)
  exact measurableSet_lt (measurable_alC k).norm measurable_const

theorem domE_eq : domE n = goodC n ∩ momH ⁻¹' (momE '' specC n) := by
  rw [image_eq]
  ext y
  constructor
  · intro hy
    exact ⟨hy.1, y, hy, rfl⟩
  · rintro ⟨hy, y', hy', e⟩
    rwa [momH_injOn hy'.1 hy e] at hy'

theorem measurableSet_domE : MeasurableSet (domE n) := by
  rw [domE_eq]
  refine measurableSet_goodC.inter (diff_momH.continuous.measurable ?_)
  exact MeasurableSet.image_of_continuousOn_injOn measurableSet_specC diff_momE.continuous.continuousOn momE_injOn

/-- **change of variables** -/
theorem circ_change0 (f : Cd (n + 1) → ENNReal) :
    ∫⁻ x in specC n, ENNReal.ofReal |(fderiv ℝ momE x).det| * f x
      = ∫⁻ y in domE n, ENNReal.ofReal |(fderiv ℝ momH y).det| * f (spX y) := by
  set inv := Function.invFunOn (momE (n := n)) (specC n) with hinv
  have hinvF : ∀ x ∈ specC n, inv (momE x) = x := fun x hx =>
    momE_injOn (Function.invFunOn_mem ⟨x, hx, rfl⟩) hx (Function.invFunOn_eq ⟨x, hx, rfl⟩)
  have hF := lintegral_image_eq_lintegral_abs_det_fderiv_mul volume (measurableSet_specC (n := n))
    (fun x _ => (diff_momE.differentiableAt (x := x)).hasFDerivAt.hasFDerivWithinAt) momE_injOn (fun z => f (inv z))
  have hG := lintegral_image_eq_lintegral_abs_det_fderiv_mul volume (measurableSet_domE (n := n))
    (fun x _ => (diff_momH.differentiableAt (x := x)).hasFDerivAt.hasFDerivWithinAt) (momH_injOn.mono fun y hy => hy.1)
    (fun z => f (inv z))
  rw [image_eq, hG] at hF
  rw [setLIntegral_congr_fun measurableSet_domE (g := fun y => ENNReal.ofReal |(fderiv ℝ momH y).det| * f (inv (momH y))), hF]
  · refine setLIntegral_congr_fun measurableSet_specC fun x hx => ?_
    rw [hinvF x hx]
  · intro y hy
    beta_reduce
    rw [← momE_spX hy, hinvF _ (spX_spec hy.1).mem]

end Verif.Lemmas
