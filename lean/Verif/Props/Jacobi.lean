import Verif.Lemmas.Jacobi3
import Mathlib.MeasureTheory.Integral.Pi
import Mathlib.Analysis.SpecialFunctions.Integrals.Basic
import Mathlib.Tactic.NormNum

/-!
# Multivariate Jacobi ensemble: ordering (C09), degrees (C10), chain rule (C57), kernel (C71), densities (C72)
-/

namespace Verif.Props
open Verif Verif.Spec Verif.Model Verif.Lemmas Matrix

/-! ## C09 -/

/-- C09 for the list computed from any value of `layer_max` whose layers hold `N` multi-indices (so that a root
rounded down at a perfect power is covered): `N` multi-indices of length `d`, strictly increasing for the graded
order (hence distinct, maximal degree never decreasing), and closed under predecessors (so every multi-index of
smaller maximal degree has appeared before). -/
theorem C09_ordering_rounded_partial {m : ℤ} {N d : ℕ} (hd : 1 ≤ d) (h : N ≤ (m + 1).toNat ^ d) :
    (orderingWith m N d).length = N ∧ (orderingWith m N d).Nodup ∧
    (∀ k ∈ orderingWith m N d, k.length = d) ∧
    (orderingWith m N d).Pairwise (fun k l => maxDeg k ≤ maxDeg l) ∧
    (orderingWith m N d).Pairwise Before ∧
    (∀ k ∈ orderingWith m N d, ∀ l : List ℕ, l.length = d → Before l k → l ∈ orderingWith m N d) := by
  refine ⟨orderingWith_length hd h, nodup_of_before (orderingWith_sorted hd), fun k hk => orderingWith_mem hd hk,
    (orderingWith_sorted hd).imp ?_, orderingWith_sorted hd, fun k hk l hl hb => orderingWith_downset hd hk hl hb⟩
  rintro k l (h | ⟨h, -⟩)
  · exact h.le
  · exact h.le

/-- C09: `compute_ordering(N, d)` for `N < 32768^d` (the range where the cast to `int16` is harmless).
Missing: larger `N`, for which the property is false, see `C09_ordering_int16_refuted`. -/
theorem C09_ordering_partial {N d : ℕ} (hd : 1 ≤ d) (hN : N < 32768 ^ d) :
    (computeOrdering N d).length = N ∧ (computeOrdering N d).Nodup ∧
    (∀ k ∈ computeOrdering N d, k.length = d) ∧
    (computeOrdering N d).Pairwise (fun k l => maxDeg k ≤ maxDeg l) ∧
    (computeOrdering N d).Pairwise Before ∧
    (∀ k ∈ computeOrdering N d, ∀ l : List ℕ, l.length = d → Before l k → l ∈ computeOrdering N d) :=
  C09_ordering_rounded_partial hd (layerMaxOf_cover hd hN)

/-- C09: before any index of maximal degree `m`, every multi-index of smaller maximal degree has appeared. -/
theorem C09_layers_complete_partial {N d : ℕ} (hd : 1 ≤ d) (hN : N < 32768 ^ d) {i : ℕ}
    (hi : i < (computeOrdering N d).length) {l : List ℕ} (hl : l.length = d)
    (hlt : maxDeg l < maxDeg ((computeOrdering N d)[i])) :
    ∃ j, ∃ hj : j < (computeOrdering N d).length, j < i ∧ (computeOrdering N d)[j] = l := by
  obtain ⟨-, -, -, -, hs, hdown⟩ := C09_ordering_partial hd hN
  obtain ⟨j, hj, he⟩ := List.getElem_of_mem (hdown _ (List.getElem_mem hi) l hl (Or.inl hlt))
  refine ⟨j, hj, ?_, he⟩
  by_contra hn
  rcases (not_lt.1 hn).lt_or_eq with h | h
  · have := List.pairwise_iff_getElem.1 hs i j hi hj h
    rw [he] at this
    exact Before.asymm this (Or.inl hlt)
  · subst h
    rw [he] at hlt
    exact lt_irrefl _ hlt

/-- C09: the list for `N` is a prefix of the list for `N' >= N`. -/
theorem C09_prefix_partial {N N' d : ℕ} (hd : 1 ≤ d) (hle : N ≤ N') (hN : N' < 32768 ^ d) :
    computeOrdering N d <+: computeOrdering N' d :=
  orderingWith_prefix hd hle (layerMaxOf_cover hd (hle.trans_lt hN)) (layerMaxOf_cover hd hN)

/-- The documented example `N = 12, d = 2`. -/
example : orderingWith 3 12 2 = [[0, 0], [0, 1], [1, 0], [1, 1], [0, 2], [1, 2], [2, 0], [2, 1], [2, 2], [0, 3],
    [1, 3], [2, 3]] := by decide

example : (12 : ℕ) < 32768 ^ 2 ∧ (12 : ℕ) ≤ ((3 : ℤ) + 1).toNat ^ 2 := by decide

theorem layerMaxOf_overflow {N d : ℕ} (hd : 1 ≤ d) (h1 : 32768 ^ d ≤ N) (h2 : N < 65536 ^ d) : layerMaxOf N d < 0 := by
  have hd0 : (d : ℝ) ≠ 0 := by positivity
  have hr0 : (0 : ℝ) ≤ (N : ℝ) ^ (1 / (d : ℝ)) := by positivity
  have hpow : ((N : ℝ) ^ (1 / (d : ℝ))) ^ d = N := by
    rw [← Real.rpow_natCast, ← Real.rpow_mul (by positivity), one_div, inv_mul_cancel₀ hd0, Real.rpow_one]
  have hlt : (N : ℝ) ^ (1 / (d : ℝ)) < 65536 := by
    by_contra hn
    push Not at hn
    have := pow_le_pow_left₀ (by norm_num) hn d
    rw [hpow] at this
    exact absurd h2 (not_lt.2 (by exact_mod_cast this))
  have hge : 32768 ≤ (N : ℝ) ^ (1 / (d : ℝ)) := by
    by_contra hn
    push Not at hn
    have := pow_lt_pow_left₀ hn hr0 (by omega : d ≠ 0)
    rw [hpow] at this
    exact absurd h1 (not_le.2 (by exact_mod_cast this))
  have hf0 : 32768 ≤ ⌊(N : ℝ) ^ (1 / (d : ℝ))⌋ := Int.le_floor.2 (by exact_mod_cast hge)
  have hf1 : ⌊(N : ℝ) ^ (1 / (d : ℝ))⌋ < 65536 := Int.floor_lt.2 (by exact_mod_cast hlt)
  rw [layerMaxOf, toInt16, Int.bmod_def, Int.emod_eq_of_lt (by omega) (by omega)]
  simp only [Nat.cast_ofNat]
  omega

/-- C09 refuted for large `N`: when the root needs 16 bits, the cast to `int16` makes `layer_max` negative and the list
is empty instead of having `N` elements. -/
theorem C09_ordering_int16_refuted {N d : ℕ} (hd : 1 ≤ d) (h1 : 32768 ^ d ≤ N) (h2 : N < 65536 ^ d) :
    computeOrdering N d = [] := by
  have h := layerMaxOf_overflow hd h1 h2
  rw [computeOrdering, orderingWith, show (layerMaxOf N d + 1).toNat = 0 by omega]
  simp

/-- C09 refuted, as seen by the user: `MultivariateJacobiOPE(40000, [[0, 0]])` raises `ValueError` although all its
arguments are legal, while `N = 30000` is accepted. -/
theorem C09_constructor_int16_refuted :
    jacobiInit 40000 [(0, 0)] = .valueError ∧ ∃ J, jacobiInit 30000 [(0, 0)] = .ok J ∧ J.ordering.length = 30000 := by
  constructor
  · rw [jacobiInit, if_neg (by norm_num), if_neg (by norm_num), if_neg (by norm_num),
      if_pos (show computeOrdering (40000 : ℤ).toNat ([((0 : ℝ), (0 : ℝ))].length) = [] from
        C09_ordering_int16_refuted (N := 40000) (d := 1) le_rfl (by norm_num) (by norm_num))]
  · have hl := (C09_ordering_partial (N := 30000) (d := 1) le_rfl (by norm_num)).1
    have hne : ¬ computeOrdering (30000 : ℤ).toNat ([((0 : ℝ), (0 : ℝ))].length) = [] := by
      intro h0
      have h0' : computeOrdering 30000 1 = [] := h0
      rw [h0'] at hl
      simp at hl
    rw [jacobiInit, if_neg (by norm_num), if_neg (by norm_num), if_neg (by norm_num), if_neg hne]
    exact ⟨_, rfl, hl⟩

/-- legal Jacobi parameters as documented -/
def LegalParams (params : List (ℝ × ℝ)) : Prop :=
  (params.length = 1 → ∀ p ∈ params, -1 < p.1 ∧ -1 < p.2) ∧
  (2 ≤ params.length → ∀ p ∈ params, |p.1| ≤ 1 / 2 ∧ |p.2| ≤ 1 / 2)

/-- The constructor accepts exactly the documented arguments (for `N < 32768^d`), records `N` and the ordering of `N`
multi-indices, and raises `ValueError` otherwise. -/
theorem C09_constructor_partial {N : ℤ} {params : List (ℝ × ℝ)} (hp : params ≠ []) (hN : N < 32768 ^ params.length) :
    (1 ≤ N ∧ LegalParams params →
      ∃ J, jacobiInit N params = .ok J ∧ (J.N : ℤ) = N ∧ J.dim = params.length ∧
        J.ordering = computeOrdering J.N J.dim ∧ J.ordering.length = J.N ∧
        (J.degMax, J.degrees) = computeDegrees (colMax J.ordering)) ∧
    (¬ (1 ≤ N ∧ LegalParams params) → jacobiInit N params = .valueError) := by
  have hd : 1 ≤ params.length := List.length_pos_iff.2 hp
  constructor
  · rintro ⟨h1, h2, h3⟩
    have hlt : N.toNat < 32768 ^ params.length := by
      have : ((N.toNat : ℕ) : ℤ) < ((32768 ^ params.length : ℕ) : ℤ) := by
        rw [Int.toNat_of_nonneg (by omega)]; exact_mod_cast hN
      exact_mod_cast this
    have hl := (C09_ordering_partial hd hlt).1
    have hne : ¬ computeOrdering N.toNat params.length = [] := by
      intro h0; rw [h0] at hl; simp at hl; omega
    rw [jacobiInit, if_neg (by omega), if_neg (fun h => h.2 (h2 h.1)), if_neg (fun h => h.2 (h3 h.1)), if_neg hne]
    refine ⟨_, rfl, ?_, rfl, rfl, hl, rfl⟩
    exact Int.toNat_of_nonneg (by omega)
  · intro h
    rw [jacobiInit]
    by_cases h1 : N < 1
    · rw [if_pos h1]
    · rw [if_neg h1]
      split_ifs with h2 h3 h4
      · rfl
      · rfl
      · rfl
      · exfalso
        refine h ⟨by omega, fun hl => ?_, fun hl => ?_⟩
        · by_contra hn; exact h2 ⟨hl, hn⟩
        · by_contra hn; exact h3 ⟨hl, hn⟩

/-! ## C10 -/

/-- C10: for every non-empty list of multi-indices of length `d >= 1` — rows and columns exist for all of them, the table
entry at `[k_j, j]` is the degree `k_j`, the recorded maximal degree is attained, and no column is evaluated at a degree
that some multi-index does not reach. -/
theorem C10_degrees_cover {L : List (List ℕ)} {d : ℕ} (hd : 1 ≤ d) (hL : ∀ k ∈ L, k.length = d) (hne : L ≠ []) :
    (computeDegrees (colMax L)).2.length = (computeDegrees (colMax L)).1 + 1 ∧
    (∀ row ∈ (computeDegrees (colMax L)).2, row.length = d) ∧
    (∀ k ∈ L, ∀ j < d, k.getD j 0 ≤ (computeDegrees (colMax L)).1 ∧
      entry2 (computeDegrees (colMax L)).2 (k.getD j 0) j = k.getD j 0) ∧
    (∃ k ∈ L, maxDeg k = (computeDegrees (colMax L)).1) ∧
    (∀ k ∈ L, maxDeg k ≤ (computeDegrees (colMax L)).1) ∧
    (∀ i ≤ (computeDegrees (colMax L)).1, ∀ j < d, ∃ k ∈ L, entry2 (computeDegrees (colMax L)).2 i j ≤ k.getD j 0) := by
  have hlen := colMax_length hL hne
  have hle : ∀ k ∈ L, ∀ j < d, k.getD j 0 ≤ (computeDegrees (colMax L)).1 := fun k hk j hj =>
    (le_colMax hL hk hj).trans (le_maxDeg (getD_mem (hlen.symm ▸ hj)))
  have hmax : ∀ k ∈ L, maxDeg k ≤ (computeDegrees (colMax L)).1 := by
    intro k hk
    refine maxDeg_le fun a ha => ?_
    obtain ⟨j, hj, rfl⟩ := List.getElem_of_mem ha
    rw [← List.getD_eq_getElem k 0 hj]
    exact hle k hk j (hL k hk ▸ hj)
  refine ⟨by simp [computeDegrees], ?_, ?_, ?_, hmax, ?_⟩
  · intro row hrow
    obtain ⟨i, -, rfl⟩ := List.mem_map.1 hrow
    simpa using hlen
  · intro k hk j hj
    refine ⟨hle k hk j hj, ?_⟩
    rw [computeDegrees_entry (hle k hk j hj) (hlen.symm ▸ hj), if_neg (not_lt.2 (le_colMax hL hk hj))]
  · have hm : (computeDegrees (colMax L)).1 ∈ colMax L :=
      maxDeg_mem (by intro h; rw [h] at hlen; simp at hlen; omega)
    obtain ⟨j, hj, he⟩ := List.getElem_of_mem hm
    obtain ⟨k, hk, hk'⟩ := colMax_attained hL hne (hlen ▸ hj)
    refine ⟨k, hk, le_antisymm (hmax k hk) ?_⟩
    rw [← he, ← List.getD_eq_getElem _ 0 hj, ← hk']
    exact le_maxDeg (getD_mem (by rw [hL k hk, ← hlen]; exact hj))
  · intro i hi j hj
    obtain ⟨k, hk, hk'⟩ := colMax_attained hL hne hj
    refine ⟨k, hk, ?_⟩
    rw [computeDegrees_entry hi (hlen.symm ▸ hj), hk']
    split_ifs with h <;> omega

/-- C10: consequently the features are the products of the normalised univariate polynomials of the right degrees. -/
theorem C10_features {L : List (List ℕ)} {d : ℕ} (hd : 1 ≤ d) (hL : ∀ k ∈ L, k.length = d)
    (P : ℕ → Fin d → ℝ → ℝ) (norms : ℕ → Fin d → ℝ) (x : Fin d → ℝ) (n : Fin L.length) :
    evalMulti P norms L (computeDegrees (colMax L)).2 x n
      = ∏ j : Fin d, P ((L.get n).getD j 0) j (x j) / norms ((L.get n).getD j 0) j := by
  have hne : L ≠ [] := by rintro rfl; exact n.elim0
  rw [evalMulti]
  refine Finset.prod_congr rfl fun j _ => ?_
  have he : entry2 L n j = (L.get n).getD j 0 := by
    rw [entry2, List.getD_eq_getElem _ _ n.2]; rfl
  rw [he, ((C10_degrees_cover hd hL hne).2.2.1 _ (List.get_mem L n) j j.2).2]

/-- `N = 4, d = 2` would need degrees up to one; `N = 5` one degree more in the second coordinate only. -/
example : computeDegrees (colMax (orderingWith 2 5 2)) = (2, [[0, 0], [1, 1], [0, 2]]) := by decide

/-! ## C57 -/

variable {X : Type*} {m : ℕ} {phi : X → Fin m → ℝ}

theorem jacSample_chain {tape : List (List (X × ℝ))} {st : JacSt X m} (h : jacSample phi tape = .ok st)
    (hacc : ∀ b ∈ st.flags, b = true) : GSChain (st.pts.map phi) st.rows :=
  jacLoop_chain h hacc GSChain.nil

theorem jacSample_unit {tape : List (List (X × ℝ))} {st : JacSt X m} (h : jacSample phi tape = .ok st)
    (hacc : ∀ b ∈ st.flags, b = true) (hu : ∀ ts ∈ tape, ∀ t ∈ ts, 0 ≤ t.2) : ∀ p ∈ st.rows, p ⬝ᵥ p = 1 :=
  jacLoop_unit h hacc hu (by simp)

/-- C57: when every earlier point was accepted, the acceptance ratio of any further proposal is in `[0, 1]`.
Missing: histories where the trials of an earlier point were exhausted, for which the property is false, see
`C57_ratio_exhausted_refuted`. -/
theorem C57_acceptance_is_probability_partial {tape : List (List (X × ℝ))} {st : JacSt X m}
    (h : jacSample phi tape = .ok st) (hacc : ∀ b ∈ st.flags, b = true) (x : X) :
    0 ≤ jacRatio st.rows (phi x) ∧ jacRatio st.rows (phi x) ≤ 1 :=
  jacRatio_mem (jacSample_chain h hacc).ortho (phi x)

/-- C57: the number compared with the uniform is the right one: with all earlier points accepted it is
`det K(Y + x) / (det K(Y) K(x, x))`, the Schur complement of the points drawn so far over `K(x, x)`; the determinant of
the points drawn is positive, so they are pairwise distinct. -/
theorem C57_ratio_is_schur_partial {tape : List (List (X × ℝ))} {st : JacSt X m}
    (h : jacSample phi tape = .ok st) (hacc : ∀ b ∈ st.flags, b = true) (hu : ∀ ts ∈ tape, ∀ t ∈ ts, 0 ≤ t.2) :
    st.pts.length = tape.length ∧ 0 < kernelDet (featKernel phi) st.pts ∧ st.pts.Nodup ∧
    ∀ x, jacRatio st.rows (phi x)
      = kernelDet (featKernel phi) (st.pts ++ [x]) / kernelDet (featKernel phi) st.pts / featKernel phi x x := by
  have hc := jacSample_chain h hacc
  have hpos : 0 < kernelDet (featKernel phi) st.pts := by
    rw [kernelDet_eq]; exact gramDet_pos hc (jacSample_unit h hacc hu)
  refine ⟨?_, hpos, ?_, fun x => ?_⟩
  · have := (jacLoop_flags h).2.2
    simpa using this
  · by_contra hn
    rw [kernelDet_eq_zero_of_not_nodup hn] at hpos
    exact lt_irrefl _ hpos
  · have hx : kernelDet (featKernel phi) (st.pts ++ [x])
        = kernelDet (featKernel phi) st.pts * (jacResid st.rows (phi x) ⬝ᵥ jacResid st.rows (phi x)) := by
      rw [kernelDet_eq, kernelDet_eq, List.map_append, List.map_singleton, gramDet_snoc hc]
    rw [hx, mul_div_cancel_left₀ _ hpos.ne', jacRatio, featKernel_eq]

/-- Every uniform number below the ratio accepts, the others reject: one trial of step `n`. -/
theorem C57_trial (rows : List (Fin m → ℝ)) (x : X) (u : ℝ) (ts : List (X × ℝ)) :
    (u < jacRatio rows (phi x) → ∃ w, jacTrials phi rows none ((x, u) :: ts) = .ok (x, w, true)) ∧
    (¬ u < jacRatio rows (phi x) →
      jacTrials phi rows none ((x, u) :: ts) = jacTrials phi rows (some x) ts) := by
  constructor
  · intro h; rw [jacTrials, if_pos h]; exact ⟨_, rfl⟩
  · intro h; rw [jacTrials, if_neg h]

/-- Orthonormal Legendre polynomials of degree 0, 1, 2: the features for `N = 3`, `jacobi_params = [[0, 0]]`. -/
noncomputable def legendre3 (x : ℝ) : Fin 3 → ℝ :=
  ![Real.sqrt (1 / 2), Real.sqrt (3 / 2) * x, Real.sqrt (5 / 2) * ((3 * x ^ 2 - 1) / 2)]

theorem legendre3_dot (x y : ℝ) : legendre3 x ⬝ᵥ legendre3 y
    = 1 / 2 + 3 / 2 * (x * y) + 5 / 8 * ((3 * x ^ 2 - 1) * (3 * y ^ 2 - 1)) := by
  have h1 := Real.mul_self_sqrt (show (0 : ℝ) ≤ 1 / 2 by norm_num)
  have h2 := Real.mul_self_sqrt (show (0 : ℝ) ≤ 3 / 2 by norm_num)
  have h3 := Real.mul_self_sqrt (show (0 : ℝ) ≤ 5 / 2 by norm_num)
  simp only [dotProduct, Fin.sum_univ_three, legendre3, Matrix.cons_val]
  calc _ = Real.sqrt (1 / 2) * Real.sqrt (1 / 2) + Real.sqrt (3 / 2) * Real.sqrt (3 / 2) * (x * y)
      + Real.sqrt (5 / 2) * Real.sqrt (5 / 2) * ((3 * x ^ 2 - 1) / 2 * ((3 * y ^ 2 - 1) / 2)) := by ring
    _ = _ := by rw [h1, h2, h3]; ring

theorem jacResid_nil (v : Fin m → ℝ) : jacResid [] v = v := by simp [jacResid]

theorem legendre3_ratio0 : jacRatio [] (legendre3 0) = 1 := by
  rw [jacRatio, jacResid_nil, legendre3_dot]; norm_num

/-- the row of the first point, `x_0 = 0` -/
noncomputable def leg0 : Fin 3 → ℝ := (Real.sqrt (9 / 8))⁻¹ • legendre3 0

theorem leg0_dot (x : ℝ) : leg0 ⬝ᵥ legendre3 x = (Real.sqrt (9 / 8))⁻¹ * (1 / 2 - 5 / 8 * (3 * x ^ 2 - 1)) := by
  rw [leg0, smul_dotProduct, legendre3_dot, smul_eq_mul]; ring

theorem leg0_sq : (Real.sqrt (9 / 8))⁻¹ * (Real.sqrt (9 / 8))⁻¹ = 8 / 9 := by
  rw [← mul_inv, Real.mul_self_sqrt (by norm_num)]; norm_num

/-- the row left after the rejected second point, `x_1 = 1` -/
noncomputable def leg1 : Fin 3 → ℝ := jacResid [leg0] (legendre3 1)

theorem leg1_eq : leg1 = legendre3 1 - (leg0 ⬝ᵥ legendre3 1) • leg0 := by simp [leg1, jacResid]

theorem leg0_leg0 : leg0 ⬝ᵥ leg0 = 1 := by
  rw [leg0, smul_dotProduct, dotProduct_smul, legendre3_dot, smul_eq_mul, smul_eq_mul, ← mul_assoc, leg0_sq]; norm_num

theorem leg1_leg1 : leg1 ⬝ᵥ leg1 = 4 := by
  rw [leg1_eq, sub_dotProduct, dotProduct_sub, dotProduct_sub, smul_dotProduct, smul_dotProduct, dotProduct_smul,
    dotProduct_smul, legendre3_dot, dotProduct_comm (legendre3 1) leg0, leg0_leg0, leg0_dot]
  simp only [smul_eq_mul]
  have h := leg0_sq
  set c := (Real.sqrt (9 / 8))⁻¹ with hc
  clear_value c
  clear hc
  linear_combination (-9 / 16) * h

theorem leg0_leg1 : leg0 ⬝ᵥ leg1 = 0 := by
  rw [leg1_eq, dotProduct_sub, dotProduct_smul, leg0_leg0]; simp

theorem leg1_dot : leg1 ⬝ᵥ legendre3 (-1) = 1 := by
  rw [leg1_eq, sub_dotProduct, smul_dotProduct, legendre3_dot, leg0_dot, leg0_dot]
  simp only [smul_eq_mul]
  have h := leg0_sq
  set c := (Real.sqrt (9 / 8))⁻¹ with hc
  clear_value c
  clear hc
  linear_combination (-9 / 16) * h

theorem legendre3_ratio1 : jacRatio [leg0] (legendre3 1) = 8 / 9 := by
  rw [jacRatio, show jacResid [leg0] (legendre3 1) = leg1 from rfl, leg1_leg1, legendre3_dot]; norm_num

theorem legendre3_ratio2 : jacRatio [leg0, leg1] (legendre3 (-1)) = 4 / 3 := by
  have he : jacResid [leg0, leg1] (legendre3 (-1))
      = legendre3 (-1) - ((leg0 ⬝ᵥ legendre3 (-1)) • leg0 + (1 : ℝ) • leg1) := by
    simp [jacResid, leg1_dot]
  have hd : jacResid [leg0, leg1] (legendre3 (-1)) ⬝ᵥ jacResid [leg0, leg1] (legendre3 (-1)) = 6 := by
    rw [he]
    simp only [sub_dotProduct, dotProduct_sub, add_dotProduct, dotProduct_add, smul_dotProduct, dotProduct_smul]
    rw [dotProduct_comm (legendre3 (-1)) leg0, dotProduct_comm (legendre3 (-1)) leg1, dotProduct_comm leg1 leg0,
      leg0_leg0, leg0_leg1, leg1_leg1, leg1_dot, legendre3_dot, leg0_dot]
    simp only [smul_eq_mul]
    have h := leg0_sq
    set c := (Real.sqrt (9 / 8))⁻¹ with hc
    clear_value c
    clear hc
    linear_combination (-9 / 16) * h
  rw [jacRatio, hd, legendre3_dot]; norm_num

/-- the state after `x_0 = 0` is accepted and the only trial of `x_1` is rejected -/
noncomputable def legSt : JacSt ℝ 3 where
  pts := [0, 1]
  rows := [leg0, leg1]
  flags := [true, false]

/-- C57 refuted after exhausted trials: with `N = 3`, `jacobi_params = [[0, 0]]`, `nb_trials_max = 1`, `tridiag_1D =
False`, proposals `0` (accepted), `1` (rejected by `u = 9/10`): the rejected row is kept without being normalised, and
the acceptance ratio of the next proposal `-1` is `4/3`. -/
theorem C57_ratio_exhausted_refuted :
    jacSample legendre3 [[(0, 1 / 2)], [(1, 9 / 10)]] = .ok legSt ∧
    1 < jacRatio legSt.rows (legendre3 (-1)) := by
  constructor
  · have h0 : jacTrials legendre3 [] none [((0 : ℝ), (1 / 2 : ℝ))] = .ok (0, leg0, true) := by
      rw [jacTrials, if_pos (by rw [legendre3_ratio0]; norm_num), jacResid_nil, legendre3_dot]
      norm_num [leg0]
    have h1 : jacTrials legendre3 [leg0] none [((1 : ℝ), (9 / 10 : ℝ))] = .ok (1, leg1, false) := by
      rw [jacTrials, if_neg (by rw [legendre3_ratio1]; norm_num), jacTrials]
      rfl
    rw [jacSample, jacLoop, h0]
    simp only [jacPush, jacThen, jacLoop, List.nil_append]
    rw [h1]
    rfl
  · rw [show legSt.rows = [leg0, leg1] from rfl, legendre3_ratio2]; norm_num

/-- `nb_trials_max = 0` with at least one point: `UnboundLocalError` instead of a sample. -/
theorem C57_no_trials (tape : List (List (X × ℝ))) : jacSample phi ([] :: tape) = .raise .unboundLocalError := rfl

/-- The hypotheses of the C57 theorems are met by a run of the ensemble with `N = 3` whose first point is accepted. -/
example : ∃ st, jacSample legendre3 [[(0, 1 / 2)]] = .ok st ∧ (∀ b ∈ st.flags, b = true) ∧ st.pts = [0] := by
  have h0 : jacTrials legendre3 [] none [((0 : ℝ), (1 / 2 : ℝ))] = .ok (0, leg0, true) := by
    rw [jacTrials, if_pos (by rw [legendre3_ratio0]; norm_num), jacResid_nil, legendre3_dot]
    norm_num [leg0]
  refine ⟨{ pts := [0], rows := [leg0], flags := [true] }, ?_, by simp, rfl⟩
  rw [jacSample, jacLoop, h0]
  rfl

/-! ## C71: projection kernel -/
open MeasureTheory

/-- C71: whatever form of the call, the entries returned by `K` are `K(x, y) = sum_k phi_k(x) phi_k(y)`. -/
theorem C71_kernel_values (xs ys : List X) :
    jacobiK phi xs none false = .mat (xs.map fun x => xs.map fun y => featKernel phi x y) ∧
    jacobiK phi xs none true = .vec (xs.map fun x => featKernel phi x x) ∧
    jacobiK phi xs (some ys) false = .mat (xs.map fun x => ys.map fun y => featKernel phi x y) ∧
    jacobiK phi xs (some ys) true = .vec (List.zipWith (featKernel phi) xs ys) := by
  have h1 : ((xs ++ ys).map phi).take xs.length = xs.map phi := by
    rw [List.map_append, List.take_left' (by simp)]
  have h2 : ((xs ++ ys).map phi).drop xs.length = ys.map phi := by
    rw [List.map_append, List.drop_left' (by simp)]
  refine ⟨?_, ?_, ?_, ?_⟩
  · simp [jacobiK, dotT, featKernel_eq, Function.comp_def]
  · simp [jacobiK, inner1dRows, featKernel_eq, List.zipWith_map, List.zipWith_self]
  · rw [jacobiK, h1, h2]; simp [dotT, featKernel_eq, Function.comp_def]
  · rw [jacobiK, h1, h2, inner1dRows, List.zipWith_map]; rfl

/-- Contract of `scipy.special.eval_jacobi` and of the table of norms: up to degree `D`, the normalised univariate
polynomials are orthonormal for the univariate base measures `nu j`. -/
structure Spec1D {d : ℕ} (nu : Fin d → Measure ℝ) (P : ℕ → Fin d → ℝ → ℝ) (norms : ℕ → Fin d → ℝ) (D : ℕ) : Prop where
  integrable : ∀ j, ∀ k ≤ D, ∀ l ≤ D, Integrable (fun u => P k j u / norms k j * (P l j u / norms l j)) (nu j)
  integral : ∀ j, ∀ k ≤ D, ∀ l ≤ D,
    ∫ u, P k j u / norms k j * (P l j u / norms l j) ∂(nu j) = if k = l then 1 else 0

/-- C71: the features are orthonormal for the product measure, for every nodup list of multi-indices. -/
theorem C71_features_orthonormal {L : List (List ℕ)} {d : ℕ} (hd : 1 ≤ d) (hL : ∀ k ∈ L, k.length = d) (hnd : L.Nodup)
    {nu : Fin d → Measure ℝ} [∀ j, SigmaFinite (nu j)] {P : ℕ → Fin d → ℝ → ℝ} {norms : ℕ → Fin d → ℝ}
    (hP : Spec1D nu P norms (computeDegrees (colMax L)).1) :
    OrthonormalIn (Measure.pi nu) (evalMulti P norms L (computeDegrees (colMax L)).2) := by
  have hle : ∀ n : Fin L.length, ∀ j : Fin d, (L.get n).getD j 0 ≤ (computeDegrees (colMax L)).1 := fun n j =>
    ((C10_degrees_cover hd hL (by rintro rfl; exact n.elim0)).2.2.1 _ (List.get_mem L n) j j.2).1
  have he : ∀ n l : Fin L.length, (fun x : Fin d → ℝ => evalMulti P norms L (computeDegrees (colMax L)).2 x n
      * evalMulti P norms L (computeDegrees (colMax L)).2 x l)
      = fun x => ∏ j : Fin d, (fun u => P ((L.get n).getD j 0) j u / norms ((L.get n).getD j 0) j
        * (P ((L.get l).getD j 0) j u / norms ((L.get l).getD j 0) j)) (x j) := by
    intro n l
    funext x
    rw [C10_features hd hL, C10_features hd hL, ← Finset.prod_mul_distrib]
  constructor
  · intro n l
    rw [he]
    exact Integrable.fintype_prod_dep fun j => hP.integrable j _ (hle n j) _ (hle l j)
  · intro n l
    rw [he, integral_fintype_prod_eq_prod (f := fun (j : Fin d) u => P ((L.get n).getD j 0) j u / norms ((L.get n).getD j 0) j
        * (P ((L.get l).getD j 0) j u / norms ((L.get l).getD j 0) j))]
    simp only [fun j => hP.integral j _ (hle n j) _ (hle l j)]
    split_ifs with h
    · subst h; simp
    · have hne : L.get n ≠ L.get l := fun h' => h (List.nodup_iff_injective_get.1 hnd h')
      have : ∃ j : Fin d, (L.get n).getD j 0 ≠ (L.get l).getD j 0 := by
        by_contra hall
        push Not at hall
        refine hne (List.ext_getElem (by rw [hL _ (List.get_mem L n), hL _ (List.get_mem L l)]) fun j h1 h2 => ?_)
        have := hall ⟨j, by rw [← hL _ (List.get_mem L n)]; exact h1⟩
        rw [List.getD_eq_getElem _ _ h1, List.getD_eq_getElem _ _ h2] at this
        exact this
      obtain ⟨j, hj⟩ := this
      exact Finset.prod_eq_zero (Finset.mem_univ j) (if_neg hj)

/-- C71: the kernel is the kernel of a projection of rank `N`: it reproduces itself and has trace `N`. -/
theorem C71_kernel_projection [MeasurableSpace X] {mu : Measure X} (h : OrthonormalIn mu phi) :
    (∀ x z, ∫ y, featKernel phi x y * featKernel phi y z ∂mu = featKernel phi x z) ∧
    ∫ x, featKernel phi x x ∂mu = m := by
  refine ⟨fun x z => ?_, (integral_self h).2⟩
  have he : (fun y => featKernel phi x y * featKernel phi y z)
      = fun y => ∑ k, ∑ l, phi x k * phi z l * (phi y k * phi y l) := by
    funext y
    rw [featKernel, featKernel, Finset.sum_mul_sum]
    exact Finset.sum_congr rfl fun k _ => Finset.sum_congr rfl fun l _ => by ring
  have hi : ∀ k l, Integrable (fun y => phi x k * phi z l * (phi y k * phi y l)) mu := fun k l =>
    (h.integrable k l).const_mul _
  rw [he, integral_finsetSum _ fun k _ => integrable_finsetSum _ fun l _ => hi k l, featKernel]
  refine Finset.sum_congr rfl fun k _ => ?_
  rw [integral_finsetSum _ fun l _ => hi k l]
  simp only [integral_const_mul, h.integral]
  simp

/-- C71, for the constructed object: with legal arguments the `N` features of the object are orthonormal, so its kernel is
a projection kernel of rank `N` on `[-1, 1]^d`. -/
theorem C71_object_projection_partial {N : ℤ} {params : List (ℝ × ℝ)} (hp : params ≠ []) (hN : N < 32768 ^ params.length)
    (h1 : 1 ≤ N) (hleg : LegalParams params) {J : JacobiOPE} (hJ : jacobiInit N params = .ok J)
    {nu : Fin params.length → Measure ℝ} [∀ j, SigmaFinite (nu j)] {P : ℕ → Fin params.length → ℝ → ℝ}
    {norms : ℕ → Fin params.length → ℝ} (hP : Spec1D nu P norms J.degMax) :
    OrthonormalIn (Measure.pi nu) (evalMulti P norms J.ordering J.degrees) ∧
    (∀ x z, ∫ y, featKernel (evalMulti P norms J.ordering J.degrees) x y
        * featKernel (evalMulti P norms J.ordering J.degrees) y z ∂(Measure.pi nu)
      = featKernel (evalMulti P norms J.ordering J.degrees) x z) ∧
    ∫ x, featKernel (evalMulti P norms J.ordering J.degrees) x x ∂(Measure.pi nu) = (N : ℝ) := by
  have hd : 1 ≤ params.length := List.length_pos_iff.2 hp
  obtain ⟨J', hJ', hJN, hJd, hJo, hJl, hJdeg⟩ := (C09_constructor_partial hp hN).1 ⟨h1, hleg⟩
  rw [hJ] at hJ'
  obtain rfl : J = J' := by simpa using hJ'
  have hlt : J.N < 32768 ^ J.dim := by
    have : ((J.N : ℕ) : ℤ) < ((32768 ^ J.dim : ℕ) : ℤ) := by rw [hJN, hJd]; exact_mod_cast hN
    exact_mod_cast this
  obtain ⟨-, hnd, hlen, -⟩ := C09_ordering_partial (hJd ▸ hd) hlt
  rw [← hJo] at hnd hlen
  rw [hJd] at hlen
  have hdm : J.degMax = (computeDegrees (colMax J.ordering)).1 := congrArg Prod.fst hJdeg
  have hdd : J.degrees = (computeDegrees (colMax J.ordering)).2 := congrArg Prod.snd hJdeg
  rw [hdm] at hP
  have ho := C71_features_orthonormal hd hlen hnd hP
  rw [← hdd] at ho
  refine ⟨ho, (C71_kernel_projection ho).1, ?_⟩
  rw [(C71_kernel_projection ho).2, hJl, ← hJN]
  simp

/-- The contract is met: Legendre polynomials of degree at most one on `[-1, 1]`, in every dimension. -/
theorem spec1D_legendre (d : ℕ) : Spec1D (fun _ : Fin d => volume.restrict (Set.Ioc (-1 : ℝ) 1))
    (fun k _ u => if k = 0 then 1 else u) (fun k _ => Real.sqrt (2 / (2 * k + 1))) 1 := by
  have hs : ∀ k : ℕ, Real.sqrt (2 / (2 * k + 1)) * Real.sqrt (2 / (2 * k + 1)) = 2 / (2 * k + 1) := fun k =>
    Real.mul_self_sqrt (by positivity)
  have hc : ∀ k l : ℕ, (fun u : ℝ => (if k = 0 then 1 else u) / Real.sqrt (2 / (2 * k + 1))
      * ((if l = 0 then 1 else u) / Real.sqrt (2 / (2 * l + 1))))
      = fun u => (Real.sqrt (2 / (2 * k + 1)) * Real.sqrt (2 / (2 * l + 1)))⁻¹
        * ((if k = 0 then 1 else u) * (if l = 0 then 1 else u)) := by
    intro k l; funext u; rw [div_mul_div_comm, div_eq_inv_mul]
  constructor
  · intro j k _ l _
    rw [hc]
    refine (Continuous.intervalIntegrable ?_ (-1) 1).1
    split_ifs <;> fun_prop
  · intro j k hk l hl
    rw [hc, ← intervalIntegral.integral_of_le (by norm_num), intervalIntegral.integral_const_mul]
    interval_cases k <;> interval_cases l
    · rw [hs]; norm_num
    · simp
    · simp
    · rw [hs]
      have : ∫ u in (-1 : ℝ)..1, u * u = 2 / 3 := by
        simp only [← sq]; rw [integral_pow]; norm_num
      norm_num [this]

/-- The hypotheses of `C71_object_projection_partial` are met by `N = 3`, `jacobi_params = [[0, 0], [0, 0]]`. -/
example : ∃ J, jacobiInit 3 [(0, 0), (0, 0)] = .ok J ∧ J.degMax = 1 := by
  have hl : LegalParams [((0 : ℝ), (0 : ℝ)), (0, 0)] := by constructor <;> simp
  obtain ⟨J, h1, h2, h3, h4, h5, h6⟩ := (C09_constructor_partial (N := 3) (params := [(0, 0), (0, 0)]) (by simp)
    (by norm_num)).1 ⟨by norm_num, hl⟩
  refine ⟨J, h1, ?_⟩
  have hfl : ⌊(3 : ℝ) ^ (1 / 2 : ℝ)⌋ = 1 := by
    rw [← Real.sqrt_eq_rpow, Int.floor_eq_iff]
    constructor
    · rw [show (((1 : ℤ) : ℝ)) = 1 by norm_num]; exact Real.one_le_sqrt.2 (by norm_num)
    · rw [show (((1 : ℤ) : ℝ) + 1) = 2 by norm_num, Real.sqrt_lt' (by norm_num)]; norm_num
  have hN : J.N = 3 := by exact_mod_cast h2
  have ho : J.ordering = orderingWith 1 3 2 := by
    rw [h4, hN, h3, computeOrdering, layerMaxOf]
    simp only [List.length_cons, List.length_nil, zero_add, Nat.cast_ofNat, Nat.reduceAdd]
    rw [hfl]; rfl
  have : J.degMax = (computeDegrees (colMax (orderingWith 1 3 2))).1 := by rw [← ho]; exact congrArg Prod.fst h6
  rw [this]; decide

/-! ## C72: conditional densities of the chain rule -/

/-- C72: after `n` accepted points `Y`, the function `det K(Y + x) / det K(Y)` (the numerator of the conditional density
of the next point) integrates to `N - n`; with proposals of density `K(x, x) / N`, the probability that a proposal is
accepted and falls in `A` is `(N - n) / N` times the mass of `A` under the conditional density: a proposal is accepted with
probability `(N - n) / N` and an accepted point has the conditional density of the determinantal process. -/
theorem C72_conditional_density [MeasurableSpace X] {mu : Measure X} (ho : OrthonormalIn mu phi)
    {tape : List (List (X × ℝ))} {st : JacSt X m} (h : jacSample phi tape = .ok st)
    (hacc : ∀ b ∈ st.flags, b = true) (hu : ∀ ts ∈ tape, ∀ t ∈ ts, 0 ≤ t.2) (hlt : tape.length < m) :
    ∫ x, kernelDet (featKernel phi) (st.pts ++ [x]) / kernelDet (featKernel phi) st.pts ∂mu = (m : ℝ) - tape.length ∧
    ∀ A : Set X, ∫ x in A, featKernel phi x x / m * jacRatio st.rows (phi x) ∂mu
      = ((m : ℝ) - tape.length) / m *
        ∫ x in A, kernelDet (featKernel phi) (st.pts ++ [x]) / kernelDet (featKernel phi) st.pts
          / ((m : ℝ) - tape.length) ∂mu := by
  have hc := jacSample_chain h hacc
  have hun := jacSample_unit h hacc hu
  obtain ⟨hlen, hpos, -, hr⟩ := C57_ratio_is_schur_partial h hacc hu
  have hrl : st.rows.length = tape.length := by rw [hc.length, List.length_map, hlen]
  have hx : ∀ x, kernelDet (featKernel phi) (st.pts ++ [x]) / kernelDet (featKernel phi) st.pts
      = jacResid st.rows (phi x) ⬝ᵥ jacResid st.rows (phi x) := by
    intro x
    rw [kernelDet_eq (st.pts ++ [x]), kernelDet_eq st.pts, List.map_append, List.map_singleton, gramDet_snoc hc,
      mul_div_cancel_left₀ _ (by rw [← kernelDet_eq]; exact hpos.ne')]
  have hm : (0 : ℝ) < m := by exact_mod_cast (Nat.zero_le _).trans_lt hlt
  have hmn : (0 : ℝ) < (m : ℝ) - tape.length := by
    have : (tape.length : ℝ) < m := by exact_mod_cast hlt
    linarith
  refine ⟨?_, fun A => ?_⟩
  · simp only [hx]
    rw [(integral_schur ho hc.ortho hun).2, hrl]
  · rw [← integral_const_mul]
    congr 1
    funext x
    rw [hx, jacRatio, featKernel_eq]
    by_cases h0 : phi x ⬝ᵥ phi x = 0
    · have : jacResid st.rows (phi x) ⬝ᵥ jacResid st.rows (phi x) = 0 :=
        le_antisymm (h0 ▸ schur_le hc.ortho (phi x)) (dot_self_nonneg _)
      rw [this]; simp
    · field_simp

/-- C72: the product over the `N` steps of the conditional densities is `det K(x_i, x_j) / N!`, the density of the
ordered points of the determinantal process. -/
theorem C72_joint_density {tape : List (List (X × ℝ))} {st : JacSt X m} (h : jacSample phi tape = .ok st)
    (hacc : ∀ b ∈ st.flags, b = true) (hu : ∀ ts ∈ tape, ∀ t ∈ ts, 0 ≤ t.2) (hN : tape.length = m) :
    ∏ n ∈ Finset.range m, (kernelDet (featKernel phi) (st.pts.take (n + 1)) / kernelDet (featKernel phi) (st.pts.take n)
        / ((m : ℝ) - n))
      = kernelDet (featKernel phi) st.pts / (Nat.factorial m : ℝ) := by
  have hc := jacSample_chain h hacc
  have hun := jacSample_unit h hacc hu
  obtain ⟨hlen, hpos, -, -⟩ := C57_ratio_is_schur_partial h hacc hu
  have htake : ∀ n, GSChain ((st.pts.take n).map phi) (st.rows.take n) := by
    intro n
    rw [List.map_take]
    exact hc.take n
  have hp : ∀ n, 0 < kernelDet (featKernel phi) (st.pts.take n) := fun n => by
    rw [kernelDet_eq]
    exact gramDet_pos (htake n) fun p hp' => hun p (List.mem_of_mem_take hp')
  have hfac : ∏ n ∈ Finset.range m, ((m : ℝ) - n) = (Nat.factorial m : ℝ) := by
    rw [← Finset.prod_range_reflect, ← Finset.prod_range_add_one_eq_factorial]
    push_cast
    refine Finset.prod_congr rfl fun n hn => ?_
    have hn' := Finset.mem_range.1 hn
    rw [Nat.cast_sub (by omega), Nat.cast_sub (by omega)]
    push_cast; ring
  have htel : ∀ n, ∏ i ∈ Finset.range n, (kernelDet (featKernel phi) (st.pts.take (i + 1))
      / kernelDet (featKernel phi) (st.pts.take i)) = kernelDet (featKernel phi) (st.pts.take n) := by
    intro n
    induction n with
    | zero =>
      rw [Finset.prod_range_zero, List.take_zero, kernelDet]
      exact (Matrix.det_fin_zero).symm
    | succ n ih => rw [Finset.prod_range_succ, ih, mul_div_cancel₀ _ (hp n).ne']
  rw [Finset.prod_div_distrib, htel, hfac,
    List.take_of_length_le (hlen.trans hN).le]

end Verif.Props
