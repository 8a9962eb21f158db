import Verif.Lemmas.Boo8
import Mathlib.LinearAlgebra.Matrix.Hermitian

/-!
# The Poissonised Plancherel sample is determinantal with the discrete Bessel kernel
-/

set_option linter.unusedVariables false

namespace Verif.Props
open Verif Verif.Spec Verif.Model Verif.Lemmas
open scoped NNReal ENNReal

/-! ## C96 The discrete Bessel process -/

/-- C96: let `lam` be the Young diagram recorded by `PoissonizedPlancherel(theta).sample()`.  For every finite set `A` of
sites of `ℤ + 1/2` (the integer `a` stands for the site `a + 1/2`) the probability that every site of `A` is one of the
points `lam_i - i + 1/2`, `i ≥ 1` (`lam_i = 0` past the last row), is the determinant of the discrete Bessel kernel on `A`. -/
theorem C96_discrete_bessel_process (theta : ℝ≥0) (A : Finset ℤ) :
    PP (plancherelSample theta) (fun o => ∃ lam sampl, o = some (lam, sampl) ∧
        ∀ a ∈ A, ∃ i : ℕ, 1 ≤ i ∧ (lam.getD (i - 1) 0 : ℚ) - (i : ℚ) + 1 / 2 = (a : ℚ) + 1 / 2)
      = ENNReal.ofReal (Matrix.of fun x y : A => discreteBessel theta x y).det := by
  rw [← kerOn_shift, ← PP_occ]
  refine PP_congr fun o ho => ?_
  unfold Occ
  refine exists_congr fun lam => exists_congr fun s => and_congr Iff.rfl ?_
  have hq : ∀ (a : ℤ) (i : ℕ), (lam.getD i 0 : ℚ) - ((i + 1 : ℕ) : ℚ) + 1 / 2 = (a : ℚ) + 1 / 2 ↔ (lam.getD i 0 : ℤ) - (i : ℤ) = a + 1 := by
    intro a i
    constructor
    · intro h
      have : (((lam.getD i 0 : ℤ) - (i : ℤ) : ℤ) : ℚ) = ((a + 1 + 1 - 1 : ℤ) : ℚ) := by push_cast at h ⊢; linarith
      have := Int.cast_injective this
      omega
    · intro h
      have := congrArg (fun z : ℤ => (z : ℚ)) h
      push_cast at this ⊢
      linarith
  constructor
  · intro h a ha
    obtain ⟨c, hc, rfl⟩ := Finset.mem_map.1 ha
    obtain ⟨i, hi, e⟩ := h c hc
    obtain ⟨k, rfl⟩ : ∃ k, i = k + 1 := ⟨i - 1, by omega⟩
    rw [Nat.add_sub_cancel] at e
    exact ⟨k, (hq c k).1 e⟩
  · intro h a ha
    obtain ⟨i, e⟩ := h (a + 1) (Finset.mem_map.2 ⟨a, ha, rfl⟩)
    refine ⟨i + 1, by omega, ?_⟩
    rw [Nat.add_sub_cancel]
    exact (hq a i).2 e

/-- C96: read on the recorded list `sampl` itself: the sites of `sampl`, completed by every site below `-len(sampl)`, form a
determinantal process with the discrete Bessel kernel. -/
theorem C96_completed_sample_dpp (theta : ℝ≥0) (A : Finset ℤ) :
    PP (plancherelSample theta) (fun o => ∃ lam sampl, o = some (lam, sampl) ∧
        ∀ a ∈ A, (a : ℚ) + 1 / 2 ∈ sampl ∨ (a : ℚ) + 1 / 2 < -(sampl.length : ℚ))
      = ENNReal.ofReal (Matrix.of fun x y : A => discreteBessel theta x y).det := by
  rw [← kerOn_shift, ← PP_occ]
  refine PP_congr fun o ho => ?_
  obtain ⟨lam, rfl, -⟩ := plancherel_support' theta ho
  unfold Occ
  constructor
  · rintro ⟨lam', s', e, h⟩
    simp only [Option.some.injEq, Prod.mk.injEq] at e
    obtain ⟨rfl, rfl⟩ := e
    refine ⟨_, _, rfl, fun a ha => ?_⟩
    obtain ⟨c, hc, rfl⟩ := Finset.mem_map.1 ha
    refine (occ_iff lam c).2 ?_
    have := h c hc
    rwa [List.length_mapIdx] at this
  · rintro ⟨lam', s', e, h⟩
    simp only [Option.some.injEq, Prod.mk.injEq] at e
    obtain ⟨rfl, rfl⟩ := e
    refine ⟨_, _, rfl, fun a ha => ?_⟩
    rw [List.length_mapIdx]
    exact (occ_iff lam a).1 (h (a + 1) (Finset.mem_map.2 ⟨a, ha, rfl⟩))

/-- C96: closed form of the kernel: with `J_k = J_k(2 √theta)`,
`K(a + 1/2, b + 1/2) = √theta (J_a J_{b+1} - J_{a+1} J_b) / (a - b)` for `a ≠ b`. -/
theorem C96_kernel_closed_form (theta : ℝ≥0) (a b : ℤ) (hab : a ≠ b) :
    discreteBessel theta a b = Real.sqrt theta *
      (besselJ a (2 * Real.sqrt theta) * besselJ (b + 1) (2 * Real.sqrt theta) -
        besselJ (a + 1) (2 * Real.sqrt theta) * besselJ b (2 * Real.sqrt theta)) / ((a : ℝ) - b) := by
  have h := besK_cd (Real.sqrt theta) (a + 1) (b + 1)
  rw [discreteBessel_eq, besselJ_eq, besselJ_eq, besselJ_eq, besselJ_eq]
  have hne : (a : ℝ) - b ≠ 0 := sub_ne_zero.2 (by exact_mod_cast hab)
  rw [eq_div_iff hne, mul_comm]
  rw [add_sub_cancel_right, add_sub_cancel_right] at h
  push_cast at h
  rw [← h]
  ring

/-- the number of tableaux of the shape of a permutation is not zero -/
theorem numSYT_pos {lam σ : List ℕ} {s : List ℚ} (hp : σ.Perm (List.range lam.sum)) (h : plancherelOf σ = some (lam, s)) : 1 ≤ numSYT lam := by
  classical
  have e := card_shape lam
  have hm : σ ∈ (List.range lam.sum).permutations.toFinset.filter (fun σ => ∃ s, plancherelOf σ = some (lam, s)) := by
    rw [Finset.mem_filter, List.mem_toFinset, List.mem_permutations]
    exact ⟨hp, s, h⟩
  have h0 := Finset.card_pos.2 ⟨_, hm⟩
  rw [e] at h0
  by_contra hc
  rw [show numSYT lam = 0 by omega] at h0
  simp at h0

theorem young_ge (theta : ℝ≥0) {lam σ : List ℕ} {s : List ℚ} (hp : σ.Perm (List.range lam.sum)) (h : plancherelOf σ = some (lam, s)) :
    Real.exp (-theta) * (theta : ℝ) ^ lam.sum / (lam.sum.factorial : ℝ) ^ 2
      ≤ (PP (plancherelSample theta) (fun o => ∃ sampl, o = some (lam, sampl))).toReal := by
  have h1 := numSYT_pos hp h
  have h2 : (1 : ℝ) ≤ (numSYT lam : ℝ) ^ 2 := by
    have : (1 : ℝ) ≤ (numSYT lam : ℝ) := by exact_mod_cast h1
    nlinarith
  rw [PP_young, ENNReal.toReal_ofReal (by positivity)]
  have h3 : (0 : ℝ) < (lam.sum.factorial : ℝ) := by exact_mod_cast Nat.factorial_pos _
  rw [div_mul_div_comm, ← sq]
  exact div_le_div_of_nonneg_right (le_mul_of_one_le_right (by positivity) h2) (by positivity)

open Classical in
/-- C96: the recorded list alone is *not* determinantal: for `0 < theta ≤ 1/8` the sites `1/2` and `-1/2` of `sampl` are
positively correlated, so no Hermitian kernel gives the probabilities that `sampl` contains a
given set of sites. -/
theorem C96_recorded_list_alone_not_dpp (theta : ℝ≥0) (h0 : 0 < theta) (h1 : theta ≤ 1 / 8) :
    ¬ ∃ K : ℤ → ℤ → ℂ, (∀ x y, K y x = star (K x y)) ∧ ∀ A : Finset ℤ,
      (((PP (plancherelSample theta) (fun o => ∃ lam sampl, o = some (lam, sampl) ∧ ∀ a ∈ A, (a : ℚ) + 1 / 2 ∈ sampl)).toReal : ℝ) : ℂ)
        = (Matrix.of fun x y : A => K x y).det := by
  rintro ⟨K, hK, hdet⟩
  obtain ⟨Q, hQ⟩ : ∃ Q : Finset ℤ → ℝ, Q = fun A => (PP (plancherelSample theta) (fun o => ∃ lam sampl, o = some (lam, sampl) ∧
    ∀ a : ℤ, a ∈ A → (a : ℚ) + 1 / 2 ∈ sampl)).toReal := ⟨_, rfl⟩
  have hQd : ∀ A, ((Q A : ℝ) : ℂ) = (Matrix.of fun x y : A => K x y).det := fun A => by rw [hQ]; exact hdet A
  -- one and two points
  have hone : ∀ a : ℤ, ((Q {a} : ℝ) : ℂ) = K a a := fun a => by
    rw [hQd]
    have : Unique ({a} : Finset ℤ) := ⟨⟨⟨a, by simp⟩⟩, fun x => Subtype.ext (Finset.mem_singleton.1 x.2)⟩
    rw [Matrix.det_unique]
    have hd : ((default : ({a} : Finset ℤ)) : ℤ) = a := Finset.mem_singleton.1 (default : ({a} : Finset ℤ)).2
    rw [Matrix.of_apply, hd]
  have htwo : ((Q {0, -1} : ℝ) : ℂ) = K 0 0 * K (-1) (-1) - K 0 (-1) * K (-1) 0 := by
    rw [hQd]
    obtain ⟨w, hw0, hw1⟩ : ∃ w : Fin 2 ≃ ({0, -1} : Finset ℤ), ((w 0 : ℤ)) = 0 ∧ ((w 1 : ℤ)) = -1 := by
      refine ⟨Equiv.ofBijective ![⟨0, by simp⟩, ⟨-1, by simp⟩] ⟨?_, ?_⟩, rfl, rfl⟩
      · intro i j; fin_cases i <;> fin_cases j <;> simp
      · rintro ⟨x, hx⟩
        rcases Finset.mem_insert.1 hx with rfl | hx'
        · exact ⟨0, rfl⟩
        · rw [Finset.mem_singleton] at hx'; subst hx'; exact ⟨1, rfl⟩
    rw [← Matrix.det_submatrix_equiv_self w, Matrix.det_fin_two]
    simp only [Matrix.submatrix_apply, Matrix.of_apply, hw0, hw1]
  have hneg : Q {0, -1} ≤ Q {0} * Q {-1} := by
    have h2 : ((Q {0, -1} : ℝ) : ℂ) = ((Q {0} * Q {-1} - Complex.normSq (K 0 (-1)) : ℝ) : ℂ) := by
      rw [htwo, hK 0 (-1), ← hone, ← hone]
      push_cast
      rw [Complex.star_def, Complex.mul_conj]
    have := Complex.ofReal_injective h2
    rw [this]
    linarith [Complex.normSq_nonneg (K 0 (-1))]
  -- bounds on the three probabilities
  have hlt : ∀ ev, PP (plancherelSample theta) ev ≠ ⊤ := fun ev => ne_top_of_le_ne_top ENNReal.one_ne_top (PP_le_one _ _)
  have ht : (0 : ℝ) < theta := by exact_mod_cast h0
  have ht8 : (theta : ℝ) ≤ 1 / 8 := by exact_mod_cast h1
  have e0 : Real.exp (-theta) ≤ (PP (plancherelSample theta) (fun o => ∃ sampl, o = some ([], sampl))).toReal := by
    have h : plancherelOf [] = some ([], []) := by decide +kernel
    have := young_ge theta (lam := []) (List.Perm.refl []) h
    simpa using this
  have e1 : Real.exp (-theta) * theta ≤ (PP (plancherelSample theta) (fun o => ∃ sampl, o = some ([1], sampl))).toReal := by
    have h : plancherelOf [0] = some ([1], [1 / 2]) := by decide +kernel
    have := young_ge theta (lam := [1]) (List.Perm.refl _) h
    simpa using this
  have e2 : Real.exp (-theta) * theta ^ 2 / 4 ≤ (PP (plancherelSample theta) (fun o => ∃ sampl, o = some ([1, 1], sampl))).toReal := by
    have h : plancherelOf [1, 0] = some ([1, 1], [1 / 2, -1 / 2]) := by decide +kernel
    have := young_ge theta (lam := [1, 1]) (by decide) h
    norm_num at this
    norm_num
    exact this
  have b2 : Real.exp (-theta) * theta ^ 2 / 4 ≤ Q {0, -1} := by
    refine e2.trans ?_
    rw [hQ]
    refine ENNReal.toReal_mono (hlt _) ?_
    unfold PP
    refine PE_mono fun o ho => ?_
    obtain ⟨lam, rfl, -⟩ := plancherel_support' theta ho
    by_cases hl : ∃ sampl, some (lam, lam.mapIdx fun (i l : ℕ) => (l : ℚ) - ((i : ℚ) + 1 / 2)) = some ([1, 1], sampl)
    · rw [if_pos hl, if_pos]
      obtain ⟨s, hs⟩ := hl
      simp only [Option.some.injEq, Prod.mk.injEq] at hs
      obtain ⟨rfl, -⟩ := hs
      refine ⟨_, _, rfl, ?_⟩
      intro a ha
      rcases Finset.mem_insert.1 ha with rfl | ha'
      · norm_num [List.mapIdx_cons]
      · rw [Finset.mem_singleton] at ha'; subst ha'
        norm_num [List.mapIdx_cons]
    · rw [if_neg hl]; exact zero_le
  have b0 : Q {0} + Real.exp (-theta) ≤ 1 := by
    refine (add_le_add le_rfl e0).trans ?_
    rw [hQ, ← ENNReal.toReal_add (hlt _) (hlt _)]
    refine ENNReal.toReal_le_of_le_ofReal zero_le_one ?_
    rw [ENNReal.ofReal_one]
    unfold PP
    rw [← PE_add]
    refine (PE_mono fun o ho => ?_).trans (PE_const (plancherelSample theta) 1).le
    by_cases hl : ∃ sampl, o = some (([] : List ℕ), sampl)
    · rw [if_pos hl, if_neg, zero_add]
      rintro ⟨lam, s, e, h⟩
      obtain ⟨lam', e', -⟩ := plancherel_support' theta ho
      obtain ⟨s', e2⟩ := hl
      rw [e2] at e e'
      simp only [Option.some.injEq, Prod.mk.injEq] at e e'
      obtain ⟨rfl, rfl⟩ := e'
      obtain ⟨rfl, rfl⟩ := e
      have := h 0 (by simp)
      simp at this
    · rw [if_neg hl, add_zero]; split_ifs <;> simp
  have b1 : Q {-1} + Real.exp (-theta) + Real.exp (-theta) * theta ≤ 1 := by
    refine (add_le_add (add_le_add le_rfl e0) e1).trans ?_
    rw [hQ, ← ENNReal.toReal_add (hlt _) (hlt _), ← ENNReal.toReal_add (ENNReal.add_ne_top.2 ⟨hlt _, hlt _⟩) (hlt _)]
    refine ENNReal.toReal_le_of_le_ofReal zero_le_one ?_
    rw [ENNReal.ofReal_one]
    unfold PP
    rw [← PE_add, ← PE_add]
    refine (PE_mono fun o ho => ?_).trans (PE_const (plancherelSample theta) 1).le
    obtain ⟨lam, rfl, -⟩ := plancherel_support' theta ho
    simp only [Option.some.injEq, Prod.mk.injEq]
    by_cases hl : lam = []
    · subst hl
      rw [if_neg, if_pos ⟨_, rfl, rfl⟩, if_neg]
      · simp
      · rintro ⟨_, h, -⟩; simp at h
      · rintro ⟨lam, s, ⟨rfl, rfl⟩, h⟩
        have := h (-1) (by simp)
        simp at this
    · by_cases hl1 : lam = [1]
      · subst hl1
        rw [if_neg, if_neg, if_pos ⟨_, rfl, rfl⟩]
        · simp
        · rintro ⟨_, h, -⟩; simp at h
        · rintro ⟨lam, s, ⟨rfl, rfl⟩, h⟩
          have := h (-1) (by simp)
          norm_num [List.mapIdx_cons] at this
      · rw [if_neg (c := ∃ sampl, lam = [] ∧ _) (by rintro ⟨_, h, -⟩; exact hl h), if_neg (c := ∃ sampl, lam = [1] ∧ _) (by rintro ⟨_, h, -⟩; exact hl1 h),
          add_zero, add_zero]
        split_ifs <;> simp
  have he : 1 - (theta : ℝ) ≤ Real.exp (-theta) := by linarith [Real.add_one_le_exp (-(theta : ℝ))]
  have c0 : Q {0} ≤ theta := by linarith
  have c1 : Q {-1} ≤ (theta : ℝ) ^ 2 := by nlinarith
  have q0 : 0 ≤ Q {0} := by rw [hQ]; exact ENNReal.toReal_nonneg
  have q1 : 0 ≤ Q {-1} := by rw [hQ]; exact ENNReal.toReal_nonneg
  have m : Q {0} * Q {-1} ≤ theta * (theta : ℝ) ^ 2 := mul_le_mul c0 c1 q1 ht.le
  have m2 : (1 - (theta : ℝ)) * theta ^ 2 / 4 ≤ theta * (theta : ℝ) ^ 2 := by
    have : (1 - (theta : ℝ)) * theta ^ 2 ≤ Real.exp (-theta) * theta ^ 2 := mul_le_mul_of_nonneg_right he (by positivity)
    linarith
  have : (theta : ℝ) ^ 2 * ((1 - (theta : ℝ)) / 4 - theta) ≤ 0 := by linarith
  have p : 0 < (theta : ℝ) ^ 2 * ((1 - (theta : ℝ)) / 4 - theta) := mul_pos (by positivity) (by linarith)
  linarith

/-- A concrete case: the density of the process is a sum of squares of Bessel functions. -/
example (theta : ℝ≥0) : PP (plancherelSample theta) (fun o => ∃ lam sampl, o = some (lam, sampl) ∧
        ∀ a ∈ ({2} : Finset ℤ), (a : ℚ) + 1 / 2 ∈ sampl ∨ (a : ℚ) + 1 / 2 < -(sampl.length : ℚ))
      = ENNReal.ofReal (Matrix.of fun x y : ({2} : Finset ℤ) => discreteBessel theta x y).det := C96_completed_sample_dpp theta {2}

end Verif.Props
