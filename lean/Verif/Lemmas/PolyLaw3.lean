import Verif.Lemmas.PolyLaw2
import Verif.Lemmas.Gibbs3
import Verif.Model.GibbsChain

/-!
The joint density of the Jacobi coefficients, and its conditionals.
-/

namespace Verif.Lemmas.PL
open Finset MeasureTheory Verif.Model Verif.Spec Verif.Lemmas Polynomial

variable {n : ℕ}

theorem gS_a (p : (Fin (n + 1) → ℝ) × (Fin n → ℝ)) (j : ℕ) :
    (gState p).a.getD j 0 = if h : 1 ≤ j ∧ j ≤ n + 1 then p.1 ⟨j - 1, by omega⟩ else 0 := by
  rcases j with _ | j
  · simp [gState]
  · simp only [gState, List.getD_cons_succ]
    split
    · rename_i h
      rw [List.getD_append _ _ _ _ (by simp; omega), List.getD_eq_getElem _ _ (by simp; omega), List.getElem_ofFn]
      rfl
    · rename_i h
      rw [List.getD_append_right _ _ _ _ (by simp; omega)]
      rcases h3 : j - (List.ofFn p.1).length with _ | _ | _ <;> simp

theorem gS_b (p : (Fin (n + 1) → ℝ) × (Fin n → ℝ)) (j : ℕ) :
    (gState p).b.getD j 0 = if h : 1 ≤ j ∧ j ≤ n then p.2 ⟨j - 1, by omega⟩ else 0 := by
  rcases j with _ | j
  · simp [gState]
  · simp only [gState, List.getD_cons_succ]
    split
    · rename_i h
      rw [List.getD_append _ _ _ _ (by simp; omega), List.getD_eq_getElem _ _ (by simp; omega)]
      simp
    · rename_i h
      rw [List.getD_append_right _ _ _ _ (by simp; omega)]
      rcases h3 : j - (List.ofFn p.2).length with _ | _ | _ | _ <;> simp

theorem gS_padded {p : (Fin (n + 1) → ℝ) × (Fin n → ℝ)} (hp : ∀ i, 0 < p.2 i) : Padded (n + 1) (gState p).a (gState p).b where
  la := by simp [gState]
  lb := by simp [gState]
  a0 := by rw [gS_a, dif_neg (by omega)]
  b0 := by rw [gS_b, dif_neg (by omega)]
  bN := by rw [gS_b, dif_neg (by omega)]
  aT := by rw [gS_a, gS_a, dif_neg (by omega), dif_neg (by omega)]; exact ⟨rfl, rfl⟩
  bT := by rw [gS_b, gS_b, dif_neg (by omega), dif_neg (by omega)]; exact ⟨rfl, rfl⟩
  bpos := fun j => by
    rw [gS_b]
    split
    · exact (hp _).le
    · exact le_rfl

theorem gS_setA (p : (Fin (n + 1) → ℝ) × (Fin n → ℝ)) (i : Fin (n + 1)) (x : ℝ) :
    (gState p).a.set (i + 1) x = (gState (Function.update p.1 i x, p.2)).a := by
  refine List.ext_getElem (by simp [gState]) fun j h1 h2 => ?_
  rw [← List.getD_eq_getElem _ 0 h2, gS_a, List.getElem_set, ← List.getD_eq_getElem (gState p).a 0 (by simpa using h1), gS_a]
  by_cases hj : (i : ℕ) + 1 = j
  · subst hj
    rw [if_pos rfl, dif_pos (by omega)]
    simp
  · rw [if_neg hj]
    split
    · rename_i h
      refine (Function.update_of_ne ?_ _ _).symm
      intro hc
      have := congrArg Fin.val hc
      simp only at this
      omega
    · rfl

theorem gS_setB (p : (Fin (n + 1) → ℝ) × (Fin n → ℝ)) (i : Fin n) (x : ℝ) :
    (gState p).b.set (i + 1) x = (gState (p.1, Function.update p.2 i x)).b := by
  refine List.ext_getElem (by simp [gState]) fun j h1 h2 => ?_
  rw [← List.getD_eq_getElem _ 0 h2, gS_b, List.getElem_set, ← List.getD_eq_getElem (gState p).b 0 (by simpa using h1), gS_b]
  by_cases hj : (i : ℕ) + 1 = j
  · subst hj
    rw [if_pos rfl, dif_pos (by omega)]
    simp
  · rw [if_neg hj]
    split
    · rename_i h
      refine (Function.update_of_ne ?_ _ _).symm
      intro hc
      have := congrArg Fin.val hc
      simp only at this
      omega
    · rfl

theorem gS_updA (p : (Fin (n + 1) → ℝ) × (Fin n → ℝ)) (i : Fin (n + 1)) (x : ℝ) :
    Function.update (fun j => (gState p).a.getD j 0) (i + 1) x
      = fun j => (gState (Function.update p.1 i x, p.2)).a.getD j 0 := by
  funext j
  rw [← gS_setA, List.getD_eq_getElem?_getD, List.getElem?_set]
  by_cases hj : j = i + 1
  · subst hj
    rw [Function.update_self, if_pos rfl, if_pos (by simp [gState]; omega)]
    rfl
  · rw [Function.update_of_ne hj, if_neg (Ne.symm hj), List.getD_eq_getElem?_getD]

theorem gS_updB (p : (Fin (n + 1) → ℝ) × (Fin n → ℝ)) (i : Fin n) (x : ℝ) :
    Function.update (fun j => (gState p).b.getD j 0) (i + 1) x
      = fun j => (gState (p.1, Function.update p.2 i x)).b.getD j 0 := by
  funext j
  rw [← gS_setB, List.getD_eq_getElem?_getD, List.getElem?_set]
  by_cases hj : j = i + 1
  · subst hj
    rw [Function.update_self, if_pos rfl, if_pos (by simp [gState]; omega)]
    rfl
  · rw [Function.update_of_ne hj, if_neg (Ne.symm hj), List.getD_eq_getElem?_getD]

/-- the density of the coefficients, without normalisation -/
noncomputable def jacD (beta : ℝ) (V : ℝ[X]) (p : (Fin (n + 1) → ℝ) × (Fin n → ℝ)) : ENNReal :=
  coefB beta p.2 * ENNReal.ofReal (Real.exp (-(beta * (n + 1 : ℕ) / 2 * ∑ i, V.eval (eigF p i))))

theorem measurable_jacD (beta : ℝ) (V : ℝ[X]) : Measurable (jacD (n := n) beta V) := by
  refine ((measurable_coefB beta).comp measurable_snd).mul ?_
  refine Measurable.ennreal_ofReal ?_
  refine Real.measurable_exp.comp (Measurable.neg (Measurable.const_mul (Finset.measurable_sum _ fun i _ => ?_) _))
  exact V.continuous.measurable.comp ((measurable_pi_apply i).comp measurable_eigF)

theorem jacD_zero {beta : ℝ} {V : ℝ[X]} {p : (Fin (n + 1) → ℝ) × (Fin n → ℝ)} (h : ¬ ∀ i, 0 < p.2 i) : jacD beta V p = 0 := by
  rw [jacD, coefB, if_neg h, zero_mul]

theorem jac_mat {p : (Fin (n + 1) → ℝ) × (Fin n → ℝ)} :
    jacobiMat (n + 1) (fun j => (gState p).a.getD j 0) (fun j => (gState p).b.getD j 0)
      = jacT (Sum.elim p.1 (Fin.cons 1 p.2) : Cd (n + 1)) := by
  have e : jacobiMat (n + 1) (fun j => (gState p).a.getD j 0) (fun j => (gState p).b.getD j 0)
    = tridiag (n + 1) (fun i => (gState p).a.getD (i + 1) 0) (fun i => √((gState p).b.getD (i + 1) 0)) := rfl
  rw [e, jacT]
  refine tridiag_congr (fun i hi => ?_) (fun i hi => ?_)
  · rw [gS_a, dif_pos (by omega), pad_lt hi]; rfl
  · rw [gS_b, dif_pos (by omega), pad_lt hi]; rfl

theorem jac_trace {p : (Fin (n + 1) → ℝ) × (Fin n → ℝ)} (hp : ∀ i, 0 < p.2 i) (V : ℝ[X]) :
    (aeval (jacobiMat (n + 1) (fun j => (gState p).a.getD j 0) (fun j => (gState p).b.getD j 0)) V).trace
      = ∑ i, V.eval (eigF p i) := by
  rw [jac_mat, aeval_eq_sum_range, Matrix.trace_sum]
  simp only [Matrix.trace_smul, specMap_trace (cons_mem_specR hp), smul_eq_mul, eval_eq_sum_range]
  rw [sum_comm]
  refine sum_congr rfl fun k _ => ?_
  rw [mul_sum]
  rfl

theorem jacD_eq {beta : ℝ} {V : ℝ[X]} {p : (Fin (n + 1) → ℝ) × (Fin n → ℝ)} (hp : ∀ i, 0 < p.2 i) :
    jacD beta V p = ENNReal.ofReal (Real.exp (jacobiLogDensity beta (n + 1) V (fun j => (gState p).a.getD j 0)
      (fun j => (gState p).b.getD j 0))) := by
  rw [jacD, coefB, if_pos hp, jacobiLogDensity, jac_trace hp, sub_eq_add_neg, Real.exp_add,
    ENNReal.ofReal_mul (Real.exp_pos _).le]
  congr 2
  rw [Real.exp_sum, Finset.prod_Ico_eq_prod_range, Nat.add_sub_cancel, ← Fin.prod_univ_eq_prod_range
    (fun k => Real.exp ((beta / 2 * (((n + 1 : ℕ) : ℝ) - ((1 + k : ℕ) : ℝ)) - 1) * Real.log ((gState p).b.getD (1 + k) 0)))]
  refine prod_congr rfl fun i _ => ?_
  rw [gS_b, dif_pos (by omega), Real.rpow_def_of_pos (hp i), mul_comm]
  have : (⟨1 + (i : ℕ) - 1, by omega⟩ : Fin n) = i := Fin.ext (by simp)
  rw [this]
  congr 3
  push_cast
  ring

theorem condA_dens {beta : ℝ} {V : ℝ[X]} (hV : V.natDegree ≤ 6) {p : (Fin (n + 1) → ℝ) × (Fin n → ℝ)} (hp : ∀ i, 0 < p.2 i)
    (i : Fin (n + 1)) : ∃ K : ℝ, 0 < K ∧ ∀ x, jacD beta V (Function.update p.1 i x, p.2)
      = ENNReal.ofReal K * ENNReal.ofReal (Real.exp (-(C (1 / 2 * beta * (n + 1 : ℕ))
        * condPolyA ((i + 1 : ℕ) : ℤ) (gState p).a (gState p).b V).eval x)) := by
  obtain ⟨c, hc⟩ := condA (gS_padded hp) V hV (i := i + 1) (by omega) (by omega)
  refine ⟨Real.exp ((∑ j ∈ Finset.Ico 1 (n + 1), (beta / 2 * (((n + 1 : ℕ) : ℝ) - j) - 1) * Real.log ((gState p).b.getD j 0))
    - beta * (n + 1 : ℕ) / 2 * c), Real.exp_pos _, fun x => ?_⟩
  have hb : ∀ j, (gState (Function.update p.1 i x, p.2)).b.getD j 0 = (gState p).b.getD j 0 := fun j => rfl
  rw [jacD_eq (p := (Function.update p.1 i x, p.2)) hp, ← ENNReal.ofReal_mul (Real.exp_pos _).le, ← Real.exp_add]
  congr 2
  have h := hc x
  rw [gS_updA] at h
  rw [jacobiLogDensity]
  simp only [hb] at h ⊢
  rw [h, eval_mul, eval_C]
  ring

theorem condB_dens {beta : ℝ} {V : ℝ[X]} (hV : V.natDegree ≤ 6) {p : (Fin (n + 1) → ℝ) × (Fin n → ℝ)} (hp : ∀ i, 0 < p.2 i)
    (i : Fin n) : ∃ K : ℝ, 0 < K ∧ ∀ x, 0 < x → jacD beta V (p.1, Function.update p.2 i x)
      = ENNReal.ofReal K * ENNReal.ofReal (x ^ (1 / 2 * beta * (((n + 1 : ℕ) : ℝ) - ((i + 1 : ℕ) : ℝ)) - 1)
        * Real.exp (-(C (1 / 2 * beta * (n + 1 : ℕ))
        * condPolyB ((i + 1 : ℕ) : ℤ) (gState p).a (gState p).b V).eval x)) := by
  obtain ⟨c, hc⟩ := condB (gS_padded hp) V hV (i := i + 1) (by omega) (by omega)
  refine ⟨Real.exp ((∑ j ∈ (Finset.Ico 1 (n + 1)).erase (i + 1), (beta / 2 * (((n + 1 : ℕ) : ℝ) - j) - 1)
    * Real.log ((gState p).b.getD j 0)) - beta * (n + 1 : ℕ) / 2 * c), Real.exp_pos _, fun x hx => ?_⟩
  have ha : ∀ j, (gState (p.1, Function.update p.2 i x)).a.getD j 0 = (gState p).a.getD j 0 := fun j => rfl
  have hp' : ∀ j, 0 < Function.update p.2 i x j := by
    intro j
    by_cases hj : j = i
    · subst hj; rw [Function.update_self]; exact hx
    · rw [Function.update_of_ne hj]; exact hp j
  rw [jacD_eq (p := (p.1, Function.update p.2 i x)) hp', ← ENNReal.ofReal_mul (Real.exp_pos _).le, Real.rpow_def_of_pos hx,
    ← Real.exp_add, ← Real.exp_add]
  congr 2
  have h := hc x hx.le
  rw [gS_updB] at h
  rw [jacobiLogDensity, ← Finset.add_sum_erase _ _ (Finset.mem_Ico.2 (show 1 ≤ (i : ℕ) + 1 ∧ (i : ℕ) + 1 < n + 1 by omega))]
  simp only [ha] at h ⊢
  have hu : ∀ j, (gState (p.1, Function.update p.2 i x)).b.getD j 0
      = Function.update (fun j => (gState p).b.getD j 0) (i + 1) x j := fun j => (congrFun (gS_updB p i x) j).symm
  rw [h, eval_mul, eval_C, hu, Function.update_self, Finset.sum_congr rfl fun j hj => by
        rw [hu, Function.update_of_ne (Finset.ne_of_mem_erase hj)]]
  push_cast
  ring

end Verif.Lemmas.PL
