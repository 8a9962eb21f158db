import Verif.Lemmas.Boo7
import Verif.Spec.Plancherel

/-!
The discrete Bessel kernel in its usual form; occupation of a site read on the recorded sample.
-/

set_option linter.unusedVariables false

namespace Verif.Lemmas
open Verif Verif.Spec Verif.Model
open scoped Topology NNReal ENNReal
open Filter Finset

theorem besselJ_eq (r : ℝ) (k : ℤ) : besselJ k (2 * r) = besJ r k := by
  unfold besselJ besJ
  refine tsum_congr fun m => ?_
  unfold pw ifac
  by_cases h : 0 ≤ k + m
  · rw [if_pos h, if_pos h, mul_div_cancel_left₀ r (two_ne_zero), show (2 * (m : ℤ) + k).toNat = m + (k + m).toNat by omega, neg_pow r m, pow_add]
    have := Nat.factorial_ne_zero m
    have := Nat.factorial_ne_zero (k + m).toNat
    field_simp
  · rw [if_neg h, if_neg h, mul_zero, mul_zero]

theorem discreteBessel_eq (θ : ℝ) (a c : ℤ) : discreteBessel θ a c = besK (Real.sqrt θ) (a + 1) (c + 1) := by
  unfold discreteBessel besK
  refine tsum_congr fun j => ?_
  rw [besselJ_eq, besselJ_eq]
  congr 2 <;> ring

theorem hasSum_besJ (r : ℝ) (k : ℤ) : HasSum (fun m : ℕ => (-r) ^ m / (m.factorial : ℝ) * pw r (k + m)) (besJ r k) := by
  obtain b : HilbertBasis ℤ ℝ (lp (fun _ : ℤ => ℝ) 2) := default
  have h := hasSum_inner_uu b r k 0
  have e := inner_uu b r k 0
  simp only [Nat.cast_zero, add_zero] at h e
  rw [e] at h
  exact h

theorem mul_pw (r : ℝ) (k : ℤ) : (k : ℝ) * pw r k = r * pw r (k - 1) := by
  unfold pw
  rcases lt_trichotomy k 0 with h | h | h
  · rw [ifac_neg h, ifac_neg (by omega)]; ring
  · subst h; rw [ifac_neg (by omega : (0 : ℤ) - 1 < 0)]; simp
  · rw [← mul_assoc, mul_comm (k : ℝ), mul_assoc, mul_ifac, show k.toNat = (k - 1).toNat + 1 by omega, pow_succ]; ring

/-- three-term recurrence of the Bessel functions -/
theorem besJ_rec (r : ℝ) (k : ℤ) : (k : ℝ) * besJ r k = r * (besJ r (k - 1) + besJ r (k + 1)) := by
  have h0 := (hasSum_besJ r k).mul_left (k : ℝ)
  have h1 := (hasSum_besJ r (k - 1)).mul_left r
  have h2 := (hasSum_besJ r (k + 1)).mul_left r
  -- the shifted series
  have h3 : HasSum (fun m : ℕ => -((m : ℝ) * ((-r) ^ m / (m.factorial : ℝ) * pw r (k + m)))) (r * besJ r (k + 1)) := by
    rw [← hasSum_nat_add_iff' 1]
    simp only [sum_range_one, Nat.cast_zero, zero_mul, neg_zero, sub_zero]
    refine h2.congr_fun ?_ |> fun x => x
    intro m
    have := Nat.cast_add_one_ne_zero (R := ℝ) m
    have := Nat.factorial_ne_zero m
    rw [Nat.factorial_succ, pow_succ, show k + ((m + 1 : ℕ) : ℤ) = k + 1 + m by push_cast; ring]
    push_cast
    field_simp
  have h4 := h1.add h3
  rw [← mul_add] at h4
  refine h0.unique (h4.congr_fun ?_ |> fun x => x)
  intro m
  have e := mul_pw r (k + m)
  rw [show k - 1 + (m : ℤ) = k + m - 1 by ring]
  push_cast at e
  have : r * ((-r) ^ m / (m.factorial : ℝ) * pw r (k + m - 1)) = (-r) ^ m / (m.factorial : ℝ) * (r * pw r (k + m - 1)) := by ring
  rw [this, ← e]
  ring

theorem besJ_tendsto (r : ℝ) (x : ℤ) : Tendsto (fun j : ℕ => besJ r (x + j)) atTop (𝓝 0) := by
  have h := (summable_besJ r x x).tendsto_atTop_zero
  have h2 : Tendsto (fun j : ℕ => Real.sqrt (besJ r (x + j) * besJ r (x + j))) atTop (𝓝 (Real.sqrt 0)) :=
    (Real.continuous_sqrt.tendsto 0).comp h
  simp_rw [Real.sqrt_mul_self_eq_abs, Real.sqrt_zero] at h2
  exact (tendsto_zero_iff_abs_tendsto_zero _).2 h2

/-- Christoffel-Darboux form -/
theorem besK_cd (r : ℝ) (x y : ℤ) :
    ((x : ℝ) - y) * besK r x y = r * (besJ r (x - 1) * besJ r y - besJ r x * besJ r (y - 1)) := by
  obtain ⟨F, hF⟩ : ∃ F : ℕ → ℝ, F = fun j : ℕ => r * (besJ r (x - 1 + j) * besJ r (y + j) - besJ r (x + j) * besJ r (y - 1 + j)) := ⟨_, rfl⟩
  have hstep : ∀ j : ℕ, ((x : ℝ) - y) * (besJ r (x + j) * besJ r (y + j)) = F j - F (j + 1) := fun j => by
    have h1 := besJ_rec r (x + j)
    have h2 := besJ_rec r (y + j)
    subst hF
    simp only
    rw [show x - 1 + (j : ℤ) = x + j - 1 by ring, show y - 1 + (j : ℤ) = y + j - 1 by ring,
      show x - 1 + ((j + 1 : ℕ) : ℤ) = x + j by push_cast; ring, show y - 1 + ((j + 1 : ℕ) : ℤ) = y + j by push_cast; ring,
      show x + ((j + 1 : ℕ) : ℤ) = x + j + 1 by push_cast; ring, show y + ((j + 1 : ℕ) : ℤ) = y + j + 1 by push_cast; ring]
    push_cast at h1 h2
    linear_combination besJ r (y + j) * h1 - besJ r (x + j) * h2
  have hs := ((summable_besJ r x y).hasSum.mul_left ((x : ℝ) - y)).tendsto_sum_nat
  have hF0 : Tendsto F atTop (𝓝 0) := by
    subst hF
    have a := (besJ_tendsto r (x - 1)).mul (besJ_tendsto r y)
    have c := (besJ_tendsto r x).mul (besJ_tendsto r (y - 1))
    have d := (a.sub c).const_mul r
    simpa using d
  have ht : ∀ n, ∑ j ∈ range n, ((x : ℝ) - y) * (besJ r (x + j) * besJ r (y + j)) = F 0 - F n := fun n => by
    rw [sum_congr rfl fun j _ => hstep j, sum_range_sub']
  simp_rw [ht] at hs
  have h5 : Tendsto (fun n => F 0 - F n) atTop (𝓝 (F 0 - 0)) := hF0.const_sub _ |> fun h => h
  have h6 := tendsto_nhds_unique hs h5
  refine h6.trans ?_
  subst hF
  simp

theorem plancherel_support' (theta : ℝ≥0) {o : Option (List ℕ × List ℚ)} (h : o ∈ (plancherelSample theta).support) :
    ∃ lam, o = some (lam, lam.mapIdx fun (i l : ℕ) => (l : ℚ) - ((i : ℚ) + 1 / 2)) ∧ IsPartition lam := by
  unfold plancherelSample at h
  rw [PMF.mem_support_bind_iff] at h
  obtain ⟨N, -, h⟩ := h
  rw [PMF.mem_support_map_iff] at h
  obtain ⟨σ, -, rfl⟩ := h
  obtain ⟨P, Q, h1, h2, h3, h4, h5⟩ := rsk_spec' σ
  simp only [plancherelOf, h1]
  exact ⟨_, rfl, h3.shape⟩

/-- a site is a row coordinate iff it is in the recorded list, or below all of it -/
theorem occ_iff (lam : List ℕ) (a : ℤ) :
    (∃ i : ℕ, (lam.getD i 0 : ℤ) - (i : ℤ) = a + 1) ↔
      ((a : ℚ) + 1 / 2 ∈ lam.mapIdx fun (i l : ℕ) => (l : ℚ) - ((i : ℚ) + 1 / 2)) ∨ (a : ℚ) + 1 / 2 < -(lam.length : ℚ) := by
  rw [List.mem_mapIdx]
  constructor
  · rintro ⟨i, hi⟩
    by_cases h : i < lam.length
    · left
      refine ⟨i, h, ?_⟩
      rw [List.getD_eq_getElem _ _ h] at hi
      have := congrArg (fun z : ℤ => (z : ℚ)) hi
      push_cast at this
      linarith
    · right
      rw [List.getD_eq_default _ _ (by omega)] at hi
      have h2 : a + 1 ≤ -(lam.length : ℤ) := by push_cast at hi; omega
      have h3 : ((a + 1 : ℤ) : ℚ) ≤ ((-(lam.length : ℤ) : ℤ) : ℚ) := by exact_mod_cast h2
      push_cast at h3
      linarith
  · rintro (⟨i, h, hi⟩ | h)
    · refine ⟨i, ?_⟩
      rw [List.getD_eq_getElem _ _ h]
      have : ((lam[i] : ℤ) - (i : ℤ) : ℚ) = ((a + 1 : ℤ) : ℚ) := by push_cast; linarith
      exact_mod_cast this
    · have h2 : a + 1 ≤ -(lam.length : ℤ) := by
        by_contra hc
        have : -(lam.length : ℤ) ≤ a := by omega
        have : ((-(lam.length : ℤ) : ℤ) : ℚ) ≤ (a : ℚ) := by exact_mod_cast this
        push_cast at this
        linarith
      refine ⟨(-(a + 1)).toNat, ?_⟩
      rw [List.getD_eq_default _ _ (by omega)]
      push_cast
      omega

/-- the kernel on a finite set of sites -/
theorem kerOn_shift (θ : ℝ) (A : Finset ℤ) :
    (kerOn (Real.sqrt θ) (A.map (addRightEmbedding (1 : ℤ)))).det = (Matrix.of fun x y : A => discreteBessel θ x y).det := by
  obtain ⟨w, hw⟩ : ∃ w : A ≃ (A.map (addRightEmbedding (1 : ℤ))), ∀ x, ((w x : ℤ)) = (x : ℤ) + 1 :=
    ⟨Equiv.ofBijective (fun x => ⟨(x : ℤ) + 1, mem_map.2 ⟨x, x.2, rfl⟩⟩) ⟨fun x y h => Subtype.ext (by simpa using h),
      fun ⟨y, hy⟩ => by
        obtain ⟨z, hz, rfl⟩ := mem_map.1 hy
        exact ⟨⟨z, hz⟩, rfl⟩⟩, fun x => rfl⟩
  rw [← Matrix.det_submatrix_equiv_self w]
  congr 1
  ext x y
  simp only [Matrix.submatrix_apply, kerOn, Matrix.of_apply, hw, discreteBessel_eq]

end Verif.Lemmas
