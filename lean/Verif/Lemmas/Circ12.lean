import Verif.Lemmas.Circ11

/-!
# Law of the angles of the banded circular model
-/

namespace Verif.Lemmas
open Finset MeasureTheory Verif Verif.Model Verif.Spec ProbabilityTheory
open scoped ComplexConjugate

variable {n : ℕ}

/-- coordinates of a vector of coefficients, with mass one -/
noncomputable def toCd (a : Fin (n + 1) → ℂ) : Cd (n + 1)
  | .inl k => if (k : ℕ) < n then (a k).re else angle ((-1) ^ n * conj (a k))
  | .inr k => if h : (k : ℕ) = 0 then 1 else (a ⟨k - 1, by omega⟩).im

/-- the sorted angles, from the coefficients -/
noncomputable def angF (a : Fin (n + 1) → ℂ) : Fin (n + 1) → ℝ := fun j => (goodC n).indicator spX (toCd a) (.inl j)

theorem measurable_angle : Measurable angle := by
  unfold angle
  exact Measurable.ite (measurableSet_le measurable_const Complex.measurable_arg) Complex.measurable_arg
    (Complex.measurable_arg.add measurable_const)

theorem measurable_toCd : Measurable (toCd (n := n)) := by
  refine measurable_pi_lambda _ fun c => ?_
  rcases c with k | k
  · simp only [toCd]
    split_ifs
    · exact Complex.measurable_re.comp (measurable_pi_apply _)
    · exact measurable_angle.comp (by fun_prop)
  · simp only [toCd]
    split_ifs
    · exact measurable_const
    · exact Complex.measurable_im.comp (measurable_pi_apply _)

theorem measurable_angF : Measurable (angF (n := n)) :=
  measurable_pi_lambda _ fun _ => (measurable_pi_apply _).comp (measurable_spX.comp measurable_toCd)

/-- coefficients of a measure with `n + 1` atoms -/
def GoodA (a : Fin (n + 1) → ℂ) : Prop := (∀ i : Fin (n + 1), (i : ℕ) < n → ‖a i‖ < 1) ∧ ‖a (Fin.last n)‖ = 1

theorem alC_toCd {a : Fin (n + 1) → ℂ} (h : GoodA a) (i : Fin (n + 1)) : alC (toCd a) i = a i := by
  by_cases hi : (i : ℕ) < n
  · rw [alC_lt _ hi]
    simp only [toCd, hi, if_true]
    rw [dif_neg (by omega)]
    exact Complex.re_add_im (a i)
  · have hl : i = Fin.last n := Fin.ext (by simp; omega)
    subst hl
    rw [show ((Fin.last n : Fin (n + 1)) : ℕ) = n from rfl, alC_last]
    simp only [toCd, Fin.val_last, lt_irrefl, if_false]
    rw [exp_angle (by rw [norm_mul, RCLike.norm_conj, h.2]; simp), ← mul_assoc, ← mul_pow]
    simp

theorem goodC_toCd {a : Fin (n + 1) → ℂ} (h : GoodA a) : toCd a ∈ goodC n := by
  refine ⟨?_, fun k hk => ?_⟩
  · rw [massC]; simp [toCd]
  · have := alC_toCd h ⟨k, by omega⟩
    rw [show alC (toCd a) k = a ⟨k, by omega⟩ from this]
    exact h.1 _ hk

theorem angF_good {a : Fin (n + 1) → ℂ} (h : GoodA a) : angF a = fun j => spX (toCd a) (.inl j) := by
  funext j
  rw [angF, Set.indicator_of_mem (goodC_toCd h)]

/-- the angles depend only on the coefficients -/
theorem angF_eq {a : Fin (n + 1) → ℂ} {y : Cd (n + 1)} (hy : y ∈ goodC n) (h : ∀ i : Fin (n + 1), a i = alC y i) :
    angF a = fun j => spX y (.inl j) := by
  have hg : GoodA a := by
    refine ⟨fun i hi => by rw [h]; exact hy.2 _ hi, ?_⟩
    rw [h]; exact alC_last_norm y
  rw [angF_good hg]
  have h1 := spX_spec (goodC_toCd hg)
  have h2 := spX_spec hy
  have e : szP (alC (toCd a)) (n + 1) = szP (alC y) (n + 1) := by
    have : szego (alC (toCd a)) (n + 1) = szego (alC y) (n + 1) := szP_congr fun i hi => by
      have e1 := alC_toCd hg ⟨i, hi⟩
      have e2 := h ⟨i, hi⟩
      exact e1.trans e2
    rw [szP, szP, this]
  refine root_unique h1.mem h2.mem (al := alC y) (fun j => ?_) h2.root
  rw [← e]; exact h1.root j

/-- what the program returns for given coefficients -/
theorem cmv_program {la : LA} (hla : LAOK la) {a : Fin (n + 1) → ℂ} (h : GoodA a) :
    RP.map (sortedAngles (n + 1)) (match (List.ofFn a).getLast? with
      | none => .fail .valueError
      | some z => cmvFinish la (cmvBlocks (List.ofFn a).dropLast z)) = .ret (angF a) := by
  have e : List.ofFn a = alL (alC (toCd a)) n ++ [alC (toCd a) n] := by
    rw [List.ofFn_succ', List.concat_eq_append, alL]
    have e1 : (fun i : Fin n => a i.castSucc) = fun i : Fin n => alC (toCd a) i := by
      funext i; exact (alC_toCd h i.castSucc).symm
    rw [e1]
    have e2 := alC_toCd h (Fin.last n)
    rw [← e2]; rfl
  have hg := goodC_toCd h
  obtain ⟨l, h1, h2⟩ := cmv_angles hla (fun k hk => szR_pos hg.2 hk) (spX_spec hg)
  rw [e, List.getLast?_concat, List.dropLast_concat]
  simp only []
  rw [h1, RP.map, h2, angF_good h]

theorem ae_good {b : ℕ} (hb : 1 ≤ b) : ∀ᵐ a ∂(Measure.pi (nuV b (n + 1))), GoodA a := by
  have h1 : ∀ i : Fin (n + 1), ∀ᵐ a ∂(Measure.pi (nuV b (n + 1))), (i : ℕ) < n → ‖a i‖ < 1 := by
    intro i
    by_cases hi : (i : ℕ) < n
    · have hp := measurePreserving_eval (nuV b (n + 1)) i
      have h0 : ∀ᵐ z ∂(nuV b (n + 1) i), ‖z‖ < 1 := by
        have he : 1 ≤ b * (n + 1 - 1 - i) := Nat.mul_pos hb (by omega)
        obtain ⟨C, -, -, hC⟩ := nuC_density he
        rw [nuV, show 1 + b * (n + 1 - 1 - i) + 1 = 2 + b * (n + 1 - 1 - i) by omega, hC,
          ae_withDensity_iff ((measurable_discD _).const_mul _)]
        refine Filter.Eventually.of_forall fun z hz => ?_
        by_contra hc
        rw [discD, if_neg hc, mul_zero] at hz
        exact hz rfl
      rw [← hp.map_eq] at h0
      filter_upwards [ae_of_ae_map hp.measurable.aemeasurable h0] with a ha _
      exact ha
    · exact Filter.Eventually.of_forall fun a h => absurd h hi
  have h2 : ∀ᵐ a ∂(Measure.pi (nuV b (n + 1))), ‖a (Fin.last n)‖ = 1 := by
    have hp := measurePreserving_eval (nuV b (n + 1)) (Fin.last n)
    have h0 : ∀ᵐ z ∂(nuV b (n + 1) (Fin.last n)), ‖z‖ = 1 := by
      obtain ⟨C, -, -, hC⟩ := nuC_two n
      rw [nuV, show 1 + b * (n + 1 - 1 - ((Fin.last n : Fin (n + 1)) : ℕ)) + 1 = 2 by simp, hC]
      refine (ae_map_iff (measurable_lastC n).aemeasurable (measurableSet_eq_fun measurable_norm measurable_const)).2 ?_
      refine Filter.Eventually.of_forall fun s => ?_
      rw [lastC, RCLike.norm_conj, norm_mul, Complex.norm_exp_ofReal_mul_I]; simp
    rw [← hp.map_eq] at h0
    exact ae_of_ae_map hp.measurable.aemeasurable h0
  filter_upwards [ae_all_iff.2 h1, h2] with a ha hb
  exact ⟨ha, hb⟩

/-- law of the sorted angles as a function of the coefficients -/
theorem law_quindiag {la : LA} (hla : LAOK la) {beta : ℤ} (hb : 0 < beta) :
    ((unifQuindiag la beta (n + 1)).map (sortedAngles (n + 1))).law = (Measure.pi (nuV beta.toNat (n + 1))).map angF := by
  have hb1 : 1 ≤ beta.toNat := by omega
  rw [unifQuindiag, if_neg (by omega), map_verblunsky]
  refine law_verblunsky _ _ _ _ _ measurable_angF ?_
  filter_upwards [ae_good hb1] with a ha
  rw [List.reverse_nil, List.nil_append]
  exact congrArg RP.law (cmv_program hla ha)

end Verif.Lemmas
