import Verif.Lemmas.Circ6
import Mathlib.MeasureTheory.Integral.Lebesgue.Map

/-!
# The angle of the last coefficient
-/

namespace Verif.Lemmas
open Finset Polynomial Verif.Spec MeasureTheory
open scoped ComplexConjugate

variable {n : ℕ}

/-- a full turn of the last angle -/
noncomputable def turn (n : ℕ) : Cd (n + 1) := Pi.single (.inl (Fin.last n)) (2 * Real.pi)

theorem turn_apply (y : Cd (n + 1)) (k : ℤ) (c : Fin (n + 1) ⊕ Fin (n + 1)) :
    (k • turn n + y) c = y c + if c = .inl (Fin.last n) then k * (2 * Real.pi) else 0 := by
  rw [Pi.add_apply, Pi.smul_apply, turn]
  by_cases h : c = .inl (Fin.last n)
  · subst h; simp; ring
  · simp [h]

theorem massC_turn (y : Cd (n + 1)) (k : ℤ) : massC (k • turn n + y) = massC y := by
  rw [massC, massC, turn_apply, if_neg (by simp), add_zero]

theorem alC_turn (y : Cd (n + 1)) (k : ℤ) : alC (k • turn n + y) = alC y := by
  funext i
  by_cases hi : i < n
  · rw [alC_lt _ hi, alC_lt _ hi, turn_apply, turn_apply, if_neg (by simp [Fin.ext_iff]; omega), if_neg (by simp), add_zero,
      add_zero]
  · rw [alC, alC, if_neg hi, if_neg hi, turn_apply, if_pos rfl]
    congr 2
    push_cast
    rw [add_mul, Complex.exp_add]
    have : Complex.exp (k * (2 * Real.pi) * Complex.I) = 1 := Complex.exp_eq_one_iff.2 ⟨k, by ring⟩
    rw [this, mul_one]

theorem spX_turn (y : Cd (n + 1)) (k : ℤ) : spX (k • turn n + y) = spX y := by rw [spX, spX, alC_turn, massC_turn]

theorem goodC_turn (y : Cd (n + 1)) (k : ℤ) : k • turn n + y ∈ goodC n ↔ y ∈ goodC n := by
  simp only [goodC, Set.mem_setOf_eq, alC_turn, massC_turn]

/-- the last angle lies in `[0, 2 pi)` -/
def domT (n : ℕ) : Set (Cd (n + 1)) := {y | y (.inl (Fin.last n)) ∈ Set.Ico 0 (2 * Real.pi)}

theorem measurableSet_domT : MeasurableSet (domT n) := measurable_pi_apply _ measurableSet_Ico

theorem fd_of {s : Set (Cd (n + 1))} (hs : MeasurableSet s) (h : ∀ y, ∃! k : ℤ, k • turn n + y ∈ s) :
    IsAddFundamentalDomain (AddSubgroup.zmultiples (turn n)) s volume := by
  refine IsAddFundamentalDomain.mk' hs.nullMeasurableSet fun y => ?_
  obtain ⟨k, hk, hu⟩ := h y
  have ht : ∀ a b : ℤ, a • turn n = b • turn n → a = b := by
    intro a b hab
    have := congrFun hab (.inl (Fin.last n))
    simp only [Pi.smul_apply, turn, Pi.single_eq_same, zsmul_eq_mul] at this
    have h2 := mul_right_cancel₀ (by have := Real.pi_pos; positivity) this
    exact_mod_cast h2
  refine ⟨⟨k • turn n, k, rfl⟩, hk, ?_⟩
  rintro ⟨g, k', rfl⟩ hg
  have := hu k' hg
  subst this
  rfl

theorem fd_domT : IsAddFundamentalDomain (AddSubgroup.zmultiples (turn n)) (domT n) volume := by
  refine fd_of measurableSet_domT fun y => ?_
  have h := existsUnique_add_zsmul_mem_Ico (show (0 : ℝ) < 2 * Real.pi by have := Real.pi_pos; positivity)
    (y (.inl (Fin.last n))) 0
  refine (existsUnique_congr fun k => ?_).1 h
  rw [domT, Set.mem_setOf_eq, turn_apply, if_pos rfl, zero_add, zsmul_eq_mul]

theorem exists_turn {y : Cd (n + 1)} (hy : y ∈ goodC n) :
    ∃ k : ℤ, ∑ j, spX y (.inl j) = y (.inl (Fin.last n)) + k * (2 * Real.pi) := by
  have h := spX_spec hy
  have h1 := last_coeff (zC_inj h.mem) h.root
  rw [alC_last, Complex.conj_conj, prod_zC] at h1
  have h2 := mul_left_cancel₀ (pow_ne_zero n (by norm_num : (-1 : ℂ) ≠ 0)) h1
  obtain ⟨k, hk⟩ := Complex.exp_eq_exp_iff_exists_int.1 h2.symm
  refine ⟨k, ?_⟩
  have : ((∑ j, spX y (.inl j) : ℝ) : ℂ) * Complex.I = (y (.inl (Fin.last n)) + k * (2 * Real.pi)) * Complex.I := by rw [hk]; ring
  have := mul_right_cancel₀ Complex.I_ne_zero this
  exact_mod_cast this

theorem fd_domE : IsAddFundamentalDomain (AddSubgroup.zmultiples (turn n)) (domE n ∪ (domT n \ goodC n)) volume := by
  refine fd_of (measurableSet_domE.union (measurableSet_domT.diff measurableSet_goodC)) fun y => ?_
  have hpi : (2 * Real.pi) ≠ 0 := by have := Real.pi_pos; positivity
  by_cases hy : y ∈ goodC n
  · obtain ⟨k, hk⟩ := exists_turn hy
    have hiff : ∀ a : ℤ, a • turn n + y ∈ domE n ∪ (domT n \ goodC n) ↔ a = k := by
      intro a
      rw [Set.mem_union, Set.mem_diff, goodC_turn, domE, Set.mem_setOf_eq, goodC_turn, spX_turn, turn_apply, if_pos rfl, hk]
      simp only [hy, true_and, not_true_eq_false, and_false, or_false]
      constructor
      · intro h
        have := mul_right_cancel₀ hpi (add_left_cancel h)
        exact_mod_cast this.symm
      · rintro rfl; rfl
    exact ⟨k, (hiff k).2 rfl, fun a ha => (hiff a).1 ha⟩
  · have h := existsUnique_add_zsmul_mem_Ico (show (0 : ℝ) < 2 * Real.pi by have := Real.pi_pos; positivity)
      (y (.inl (Fin.last n))) 0
    refine (existsUnique_congr fun k => ?_).1 h
    rw [Set.mem_union, Set.mem_diff, goodC_turn, domE, Set.mem_setOf_eq, goodC_turn, domT, Set.mem_setOf_eq, turn_apply,
      if_pos rfl, zero_add, zsmul_eq_mul]
    simp [hy]

theorem lintegral_domE {f : Cd (n + 1) → ENNReal} (hf : ∀ (k : ℤ) y, f (k • turn n + y) = f y) :
    ∫⁻ y in domE n, f y = ∫⁻ y in goodC n ∩ domT n, f y := by
  have h := fd_domE.setLIntegral_eq fd_domT ((goodC n).indicator f) (by
    rintro ⟨g, k, rfl⟩ y
    change (goodC n).indicator f (k • turn n + y) = _
    by_cases hy : y ∈ goodC n
    · rw [Set.indicator_of_mem hy, Set.indicator_of_mem ((goodC_turn y k).2 hy), hf]
    · rw [Set.indicator_of_notMem hy, Set.indicator_of_notMem (fun h => hy ((goodC_turn y k).1 h))])
  rw [setLIntegral_indicator measurableSet_goodC, setLIntegral_indicator measurableSet_goodC] at h
  rw [← h]
  congr 2
  ext y
  simp only [Set.mem_inter_iff, Set.mem_union, Set.mem_diff]
  constructor
  · intro hy; exact ⟨hy.1, Or.inl hy⟩
  · rintro ⟨h1, h2 | h2⟩
    · exact h2
    · exact absurd h1 h2.2

/-- the spectral map is measurable on the good coordinates -/
theorem measurable_spX : Measurable ((goodC n).indicator (spX (n := n))) := by
  have hk : ∀ t : Set (Cd (n + 1)), MeasurableSet t → MeasurableSet (spX ⁻¹' t ∩ goodC n) := by
    intro t ht
    have e : spX ⁻¹' t ∩ goodC n = goodC n ∩ ⋃ k : ℤ, (fun y => k • turn n + y) ⁻¹' (momH ⁻¹' (momE '' (specC n ∩ t))) := by
      ext y
      simp only [Set.mem_inter_iff, Set.mem_preimage, Set.mem_iUnion]
      constructor
      · rintro ⟨h1, h2⟩
        refine ⟨h2, ?_⟩
        obtain ⟨k, hk⟩ := exists_turn h2
        have hd : k • turn n + y ∈ domE n := ⟨(goodC_turn y k).2 h2, by rw [spX_turn, hk, turn_apply, if_pos rfl]⟩
        refine ⟨k, spX y, ⟨(spX_spec h2).mem, h1⟩, ?_⟩
        rw [← spX_turn y k, momE_spX hd]
      · rintro ⟨h2, k, x, ⟨hx, hxt⟩, e⟩
        obtain ⟨h1, h3, h4⟩ := coX_domE hx
        rw [← h4] at e
        have := momH_injOn h1.1 ((goodC_turn y k).2 h2) e
        refine ⟨?_, h2⟩
        rw [← spX_turn y k, ← this, h3]
        exact hxt
    rw [e]
    refine measurableSet_goodC.inter (MeasurableSet.iUnion fun k => ?_)
    refine (measurable_const.add measurable_id) (diff_momH.continuous.measurable ?_)
    exact MeasurableSet.image_of_continuousOn_injOn (measurableSet_specC.inter ht) diff_momE.continuous.continuousOn
      (momE_injOn.mono Set.inter_subset_left)
  intro t ht
  rw [Set.indicator_preimage, Set.ite]
  exact (hk t ht).union ((measurable_const ht).diff measurableSet_goodC)

/-- density of the coefficients -/
noncomputable def coefC (n : ℕ) (beta : ℝ) (al : ℕ → ℂ) : ℝ := ∏ k ∈ range n, (1 - ‖al k‖ ^ 2) ^ (beta / 2 * ((n : ℝ) - k) - 1)

theorem prod_szR (al : ℕ → ℂ) (n : ℕ) : ∏ k ∈ range (n + 1), szR al k = ∏ k ∈ range n, (1 - ‖al k‖ ^ 2) ^ (n - k) := by
  induction n with
  | zero => simp [szR_zero]
  | succ n ih =>
    rw [prod_range_succ, ih, prod_range_succ (fun k => (1 - ‖al k‖ ^ 2) ^ (n + 1 - k)), szR, prod_range_succ, ← mul_assoc,
      ← prod_mul_distrib, show n + 1 - n = 1 by omega, pow_one]
    congr 1
    refine prod_congr rfl fun k hk => ?_
    rw [← pow_succ]; congr 1
    have := mem_range.1 hk; omega

theorem coefC_eq {al : ℕ → ℂ} (h : ∀ k < n, ‖al k‖ < 1) (beta : ℝ) : coefC n beta al
    = (∏ k ∈ range (n + 1), szR al k) ^ (beta / 2) / szR al n := by
  have hpos : ∀ k ∈ range n, 0 < 1 - ‖al k‖ ^ 2 := fun k hk => by
    have h1 := h k (mem_range.1 hk)
    have h2 := norm_nonneg (al k)
    nlinarith
  rw [prod_szR, ← Real.finsetProd_rpow _ _ (fun k hk => pow_nonneg (hpos k hk).le _), szR, ← prod_div_distrib, coefC]
  refine prod_congr rfl fun k hk => ?_
  rw [Real.rpow_sub_one (hpos k hk).ne', ← Real.rpow_natCast (1 - ‖al k‖ ^ 2), ← Real.rpow_mul (hpos k hk).le,
    Nat.cast_sub (mem_range.1 hk).le, mul_comm]

/-- **change of variables with densities** -/
theorem circ_change (beta : ℝ) (f : Cd (n + 1) → ENNReal) :
    ∫⁻ x in specC n, ENNReal.ofReal (vdmC (zC x) ^ beta * ∏ j, x (.inr j) ^ (beta / 2 - 1)) * f x
      = ∫⁻ y in goodC n ∩ domT n, ENNReal.ofReal (circK n * (coefC n beta (alC y) * massC y ^ ((n + 1 : ℕ) * (beta / 2) - 1)))
        * f (spX y) := by
  set D : Cd (n + 1) → ℝ := fun x => |(fderiv ℝ momE x).det| with hD
  set g : Cd (n + 1) → ℝ := fun x => vdmC (zC x) ^ beta * ∏ j, x (.inr j) ^ (beta / 2 - 1) with hg
  have hvpos : ∀ x ∈ specC n, 0 < vdmC (zC x) := fun x hx => prod_pos fun i _ => prod_pos fun j hj =>
    norm_pos_iff.2 (sub_ne_zero.2 fun h => (mem_Ioi.1 hj).ne' (zC_inj hx h))
  have key : ∀ y ∈ goodC n, massC y * szR (alC y) n * (circK n * D (spX y))
      = vdmC (zC (spX y)) ^ 4 * ∏ j, spX y (.inr j) := by
    intro y hy
    have h := spX_spec hy
    have := det_momE h.mem.2.2 h.szM (fun k hk => szR_pos hy.2 hk) (alC_last_norm y) h.root
    rwa [h.mass] at this
  have hDpos : ∀ y ∈ goodC n, 0 < D (spX y) := by
    intro y hy
    have h := spX_spec hy
    refine lt_of_le_of_ne (abs_nonneg _) fun h0 => ?_
    have k1 := key y hy
    rw [show D (spX y) = 0 from h0.symm, mul_zero, mul_zero] at k1
    have h5 : 0 < ∏ j, spX y (.inr j) := prod_pos fun j _ => h.mem.2.2 j
    have := mul_pos (pow_pos (hvpos _ h.mem) 4) h5
    linarith
  have hL : ∀ x ∈ specC n, ENNReal.ofReal (g x) * f x = ENNReal.ofReal (D x) * (ENNReal.ofReal (g x / D x) * f x) := by
    intro x hx
    obtain ⟨h1, h2, h3⟩ := coX_domE hx
    have := hDpos _ h1.1
    rw [h2] at this
    rw [← mul_assoc, ← ENNReal.ofReal_mul this.le, mul_div_cancel₀ _ this.ne']
  rw [setLIntegral_congr_fun measurableSet_specC hL, circ_change0 fun x => ENNReal.ofReal (g x / D x) * f x]
  have hR : ∀ y ∈ domE n, ENNReal.ofReal |(fderiv ℝ momH y).det| * (ENNReal.ofReal (g (spX y) / D (spX y)) * f (spX y))
      = ENNReal.ofReal (circK n * (coefC n beta (alC y) * massC y ^ ((n + 1 : ℕ) * (beta / 2) - 1))) * f (spX y) := by
    intro y hy
    have hs := spX_spec hy.1
    have hm := hy.1.1
    rw [← mul_assoc, ← ENNReal.ofReal_mul (abs_nonneg _)]
    congr 2
    rw [det_momH, coefC_eq hy.1.2]
    have hRp : ∀ k ≤ n, 0 < szR (alC y) k := fun k hk => szR_pos hy.1.2 hk
    have hank := circ_hankel (zC_norm (spX y)) hs.mem.2.2 hs.szM (fun k hk => by
      rw [hs.mass]; exact mul_pos hm (hRp k (by omega)))
    rw [hs.mass] at hank
    have hv := hvpos _ hs.mem
    have hW : 0 < ∏ j, spX y (.inr j) := prod_pos fun j _ => hs.mem.2.2 j
    have hgy : g (spX y) = (vdmC (zC (spX y)) ^ 2 * ∏ j, spX y (.inr j)) ^ (beta / 2) / ∏ j, spX y (.inr j) := by
      rw [hg, Real.mul_rpow (by positivity) hW.le, ← Real.rpow_natCast (vdmC (zC (spX y))) 2, ← Real.rpow_mul hv.le,
        ← Real.finsetProd_rpow _ _ (fun j _ => (hs.mem.2.2 j).le), mul_div_assoc, ← prod_div_distrib]
      refine congrArg₂ _ ?_ ?_
      · congr 1; push_cast; ring
      · exact prod_congr rfl fun j _ => Real.rpow_sub_one (hs.mem.2.2 j).ne' _
    have hk := key y hy.1
    have hKp := circK_pos (n := n)
    have hRn := hRp n le_rfl
    have hDp := hDpos y hy.1
    have hP : 0 < ∏ k ∈ range n, (massC y * szR (alC y) k) := prod_pos fun k hk => mul_pos hm (hRp k (mem_range.1 hk).le)
    rw [hgy, hank]
    rw [prod_range_succ] at hank ⊢
    have hexp : ((∏ k ∈ range n, (massC y * szR (alC y) k)) * (massC y * szR (alC y) n)) ^ (beta / 2)
        = massC y ^ ((n + 1 : ℕ) * (beta / 2)) * (∏ k ∈ range (n + 1), szR (alC y) k) ^ (beta / 2) := by
      rw [← prod_range_succ (fun k => massC y * szR (alC y) k), prod_mul_distrib, prod_const, card_range,
        Real.mul_rpow (by positivity) (prod_nonneg fun k hk => (hRp k (by have := mem_range.1 hk; omega)).le),
        ← Real.rpow_natCast, ← Real.rpow_mul hm.le]
    rw [hexp, Real.rpow_sub_one hm.ne']
    set A := massC y ^ ((n + 1 : ℕ) * (beta / 2)) with hA
    set B := (∏ k ∈ range (n + 1), szR (alC y) k) ^ (beta / 2) with hB
    set P := ∏ k ∈ range n, (massC y * szR (alC y) k) with hPd
    have hDe : D (spX y) = vdmC (zC (spX y)) ^ 4 * (∏ j, spX y (.inr j)) / (massC y * szR (alC y) n * circK n) := by
      rw [← hk]; field_simp
    have hvv : vdmC (zC (spX y)) ^ 4 * (∏ j, spX y (.inr j)) ^ 2 = P ^ 2 * (massC y * szR (alC y) n) ^ 2 := by
      rw [← mul_pow, ← hank]; ring
    rw [hDe]
    field_simp
    linear_combination (-(A * B)) * hvv
  rw [setLIntegral_congr_fun measurableSet_domE hR]
  exact lintegral_domE (f := fun y => ENNReal.ofReal (circK n * (coefC n beta (alC y)
    * massC y ^ ((n + 1 : ℕ) * (beta / 2) - 1))) * f (spX y)) fun k y => by rw [alC_turn, massC_turn, spX_turn]

end Verif.Lemmas
