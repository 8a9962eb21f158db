import Verif.Lemmas.Jaco1
import Verif.Lemmas.Haar6

/-!
# Reflections that keep a set of coordinates
-/

namespace Verif.Lemmas
open Finset Matrix MeasureTheory ProbabilityTheory Verif.Model
open scoped ComplexConjugate

variable {n M : ℕ} {γ : Measure ℂ} {K : StarSubalgebra ℝ ℂ} {beta : ℝ}

/-- the projection on the coordinates selected by `q` -/
def dg {ι : Type} [DecidableEq ι] (q : ι → Bool) : Matrix ι ι ℂ := diagonal fun i => if q i then 1 else 0

theorem dg_apply {ι : Type} [DecidableEq ι] (q : ι → Bool) (i j : ι) : dg q i j = if i = j then (if q i then 1 else 0) else 0 := by
  rw [dg, Matrix.diagonal_apply]

theorem dg_conj {ι : Type} [DecidableEq ι] (q : ι → Bool) : (dg q)ᴴ = dg q := by
  rw [dg, diagonal_conjTranspose]
  congr 1
  funext i
  simp only [Pi.star_apply]
  split_ifs <;> simp

theorem dg_mul_self {ι : Type} [Fintype ι] [DecidableEq ι] (q : ι → Bool) : dg q * dg q = dg q := by
  rw [dg, diagonal_mul_diagonal]
  congr 1
  funext i
  split_ifs <;> simp

theorem dg_mul_not {ι : Type} [Fintype ι] [DecidableEq ι] (q : ι → Bool) : dg q * dg (fun i => !q i) = 0 := by
  rw [dg, dg, diagonal_mul_diagonal, ← diagonal_zero]
  congr 1
  funext i
  cases q i <;> simp

theorem dg_not_mul {ι : Type} [Fintype ι] [DecidableEq ι] (q : ι → Bool) : dg (fun i => !q i) * dg q = 0 := by
  rw [dg, dg, diagonal_mul_diagonal, ← diagonal_zero]
  congr 1
  funext i
  cases q i <;> simp

theorem dg_add_not {ι : Type} [DecidableEq ι] (q : ι → Bool) : dg q + dg (fun i => !q i) = 1 := by
  rw [dg, dg, diagonal_add, ← diagonal_one]
  congr 1
  funext i
  cases q i <;> simp

theorem dg_mulVec {ι : Type} [Fintype ι] [DecidableEq ι] (q : ι → Bool) (x : ι → ℂ) : dg q *ᵥ x = fun i => if q i then x i else 0 := by
  funext i
  rw [dg, mulVec_diagonal]
  split_ifs <;> simp

theorem dg_mem {ι : Type} [DecidableEq ι] (q : ι → Bool) (i j : ι) : dg q i j ∈ K := by
  rw [dg_apply]
  split_ifs
  · exact one_mem K
  · exact zero_mem K
  · exact zero_mem K

theorem real_mem (r : ℝ) : (r : ℂ) ∈ K := K.algebraMap_mem r

theorem single_mem {i0 : Fin M} {z : ℂ} (hz : z ∈ K) (i : Fin M) : (Pi.single i0 z : Fin M → ℂ) i ∈ K := by
  by_cases h : i = i0
  · subst h; simpa using hz
  · simp only [Pi.single_eq_of_ne h]; exact zero_mem K

/-- a reflection that sends a coordinate to a given vector and keeps the selected coordinates -/
theorem exists_reflection {x : Fin M → ℂ} (hx : ∀ i, x i ∈ K) {i0 : Fin M} (h0 : x i0 ≠ 0) {q : Fin M → Bool} (hq : ∀ i, q i = false → x i = 0) :
    ∃ R : Matrix (Fin M) (Fin M) ℂ, InG K R ∧ R * dg q = dg q * R ∧
      R *ᵥ (Pi.single i0 ((√(∑ i, Complex.normSq (x i)) : ℝ) : ℂ)) = x := by
  obtain ⟨s, hs⟩ : ∃ s, s = ∑ i, Complex.normSq (x i) := ⟨_, rfl⟩
  have hspos : 0 < s := by
    rw [hs]
    refine lt_of_lt_of_le (Complex.normSq_pos.2 h0) ?_
    exact Finset.single_le_sum (f := fun i => Complex.normSq (x i)) (fun i _ => Complex.normSq_nonneg _) (mem_univ i0)
  obtain ⟨r, hr⟩ : ∃ r, r = √s := ⟨_, rfl⟩
  have hrpos : 0 < r := by rw [hr]; exact Real.sqrt_pos.2 hspos
  have hrr : r * r = s := by rw [hr]; exact Real.mul_self_sqrt hspos.le
  rw [← hs, ← hr]
  have hn : (0 : ℝ) < ‖x i0‖ := norm_pos_iff.2 h0
  obtain ⟨ph, hph⟩ : ∃ ph : ℂ, ph = ((‖x i0‖⁻¹ : ℝ) : ℂ) * x i0 := ⟨_, rfl⟩
  have hphK : ph ∈ K := by rw [hph]; exact mul_mem (real_mem _) (hx i0)
  have hxx : x i0 * conj (x i0) = ((‖x i0‖ * ‖x i0‖ : ℝ) : ℂ) := by
    rw [Complex.mul_conj, Complex.normSq_eq_norm_sq, sq]
  have hph1 : ph * conj ph = 1 := by
    rw [hph, map_mul, Complex.conj_ofReal]
    have : ((‖x i0‖⁻¹ : ℝ) : ℂ) * x i0 * (((‖x i0‖⁻¹ : ℝ) : ℂ) * conj (x i0)) = ((‖x i0‖⁻¹ * ‖x i0‖⁻¹ : ℝ) : ℂ) * (x i0 * conj (x i0)) := by
      push_cast; ring
    rw [this, hxx, ← Complex.ofReal_mul]
    have : ‖x i0‖⁻¹ * ‖x i0‖⁻¹ * (‖x i0‖ * ‖x i0‖) = 1 := by field_simp
    rw [this, Complex.ofReal_one]
  have hpx : conj ph * x i0 = ((‖x i0‖ : ℝ) : ℂ) := by
    rw [hph, map_mul, Complex.conj_ofReal, mul_assoc, mul_comm (conj _), hxx, ← Complex.ofReal_mul]
    congr 1
    field_simp
  have hpx' : conj (x i0) * ph = ((‖x i0‖ : ℝ) : ℂ) := by
    have := congrArg conj hpx
    rw [map_mul, Complex.conj_conj, Complex.conj_ofReal] at this
    rw [mul_comm]; exact this
  obtain ⟨w, hw⟩ : ∃ w : Fin M → ℂ, w = Pi.single i0 (ph * r) := ⟨_, rfl⟩
  obtain ⟨v, hv⟩ : ∃ v : Fin M → ℂ, v = x + w := ⟨_, rfl⟩
  obtain ⟨N, hN⟩ : ∃ N : ℝ, N = 2 * (s + r * ‖x i0‖) := ⟨_, rfl⟩
  have hNpos : 0 < N := by rw [hN]; positivity
  have hsw : star w = Pi.single i0 (conj ph * r) := by
    rw [hw]
    funext i
    by_cases hi : i = i0
    · subst hi; simp
    · simp [hi]
  have d1 : star x ⬝ᵥ x = (s : ℂ) := by
    rw [hs, dotProduct, Complex.ofReal_sum]
    refine sum_congr rfl fun i _ => ?_
    rw [Pi.star_apply, mul_comm]
    exact Complex.mul_conj (x i)
  have d2 : star w ⬝ᵥ x = ((r * ‖x i0‖ : ℝ) : ℂ) := by
    rw [hsw, single_dotProduct]
    rw [mul_right_comm, hpx]; push_cast; ring
  have d3 : star x ⬝ᵥ w = ((r * ‖x i0‖ : ℝ) : ℂ) := by
    rw [hw, dotProduct_single, Pi.star_apply]
    change conj (x i0) * (ph * r) = _
    rw [← mul_assoc, hpx']; push_cast; ring
  have d4 : star w ⬝ᵥ w = (s : ℂ) := by
    rw [hsw, hw, single_dotProduct, Pi.single_eq_same]
    have : conj ph * (r : ℂ) * (ph * r) = (ph * conj ph) * ((r * r : ℝ) : ℂ) := by push_cast; ring
    rw [this, hph1, hrr, one_mul]
  have dvv : star v ⬝ᵥ v = (N : ℂ) := by
    rw [hv, star_add, add_dotProduct, dotProduct_add, dotProduct_add, d1, d2, d3, d4, hN]; push_cast; ring
  have dvx : star v ⬝ᵥ x = ((N / 2 : ℝ) : ℂ) := by
    rw [hv, star_add, add_dotProduct, d1, d2, hN]; push_cast; ring
  obtain ⟨c, hc⟩ : ∃ c : ℝ, c = 2 / N := ⟨_, rfl⟩
  have hcN : c * N = 2 := by rw [hc]; field_simp
  obtain ⟨Pv, hPv⟩ : ∃ Pv : Matrix (Fin M) (Fin M) ℂ, Pv = vecMulVec v (star v) := ⟨_, rfl⟩
  obtain ⟨H, hH⟩ : ∃ H : Matrix (Fin M) (Fin M) ℂ, H = 1 - (c : ℂ) • Pv := ⟨_, rfl⟩
  have hPP : Pv * Pv = (N : ℂ) • Pv := by
    rw [hPv]
    ext i j
    rw [Matrix.mul_apply, Matrix.smul_apply, vecMulVec_apply, ← dvv, dotProduct, smul_eq_mul, Finset.sum_mul]
    refine sum_congr rfl fun k _ => ?_
    rw [vecMulVec_apply, vecMulVec_apply]
    ring
  have hPc : Pvᴴ = Pv := by
    rw [hPv]; ext i j; simp [vecMulVec_apply, mul_comm]
  have hHc : Hᴴ = H := by
    rw [hH, conjTranspose_sub, conjTranspose_one, conjTranspose_smul, hPc]
    congr 2
    exact Complex.conj_ofReal c
  have hHH : H * H = 1 := by
    rw [hH, sub_mul, mul_sub, mul_one, one_mul, Matrix.smul_mul, Matrix.mul_sub, Matrix.mul_one, Matrix.mul_smul, hPP, smul_sub, smul_smul, smul_smul]
    have : (c : ℂ) * (c : ℂ) * (N : ℂ) = c + c := by
      have : (c : ℂ) * (N : ℂ) = 2 := by exact_mod_cast hcN
      rw [mul_assoc, this]; ring
    rw [this, add_smul]
    abel
  have hPmul : ∀ y, Pv *ᵥ y = (star v ⬝ᵥ y) • v := fun y => by
    rw [hPv, vecMulVec_mulVec]
    funext i; simp [mul_comm]
  have hHx : H *ᵥ x = -w := by
    rw [hH, sub_mulVec, one_mulVec, smul_mulVec, hPmul, dvx, smul_smul, ← Complex.ofReal_mul]
    have : c * (N / 2) = 1 := by rw [← mul_div_assoc, hcN]; norm_num
    rw [this, Complex.ofReal_one, one_smul, hv]
    abel
  have hHw : H *ᵥ w = -x := by
    have h1 := congrArg (fun y => H *ᵥ y) hHx
    simp only [mulVec_mulVec, hHH, one_mulVec, mulVec_neg] at h1
    rw [h1, neg_neg]
  have hvK : ∀ i, v i ∈ K := fun i => by
    rw [hv, hw]
    exact add_mem (hx i) (single_mem (mul_mem hphK (real_mem r)) i)
  have hHK : ∀ i j, H i j ∈ K := fun i j => by
    rw [hH, Matrix.sub_apply, Matrix.smul_apply, hPv, vecMulVec_apply]
    refine sub_mem (InG.one.mem i j) (mul_mem (real_mem c) (mul_mem (hvK i) ?_))
    exact star_mem (hvK j)
  have hq0 : q i0 = true := by
    by_contra h
    exact h0 (hq i0 (by simpa using h))
  have hvq : ∀ i, q i = false → v i = 0 := fun i hi => by
    have : i ≠ i0 := fun h => by rw [h, hq0] at hi; cases hi
    rw [hv, hw, Pi.add_apply, hq i hi, Pi.single_eq_of_ne this, add_zero]
  refine ⟨-ph • H, ⟨?_, fun i j => ?_⟩, ?_, ?_⟩
  · refine uni_of ?_
    rw [conjTranspose_smul, hHc, Matrix.smul_mul, Matrix.mul_smul, hHH, smul_smul, star_neg]
    have : -star ph * -ph = 1 := by rw [neg_mul_neg, mul_comm]; exact hph1
    rw [this, one_smul]
  · rw [Matrix.smul_apply]; exact mul_mem (neg_mem hphK) (hHK i j)
  · rw [Matrix.smul_mul, Matrix.mul_smul]
    congr 1
    have hp1 : Pv * dg q = Pv := by
      rw [hPv]
      ext i j
      rw [dg, mul_diagonal, vecMulVec_apply]
      split_ifs with h
      · rw [mul_one]
      · rw [Pi.star_apply, hvq j (by simpa using h)]; simp
    have hp2 : dg q * Pv = Pv := by
      rw [hPv]
      ext i j
      rw [dg, diagonal_mul, vecMulVec_apply]
      split_ifs with h
      · rw [one_mul]
      · rw [hvq i (by simpa using h)]; simp
    rw [hH, Matrix.sub_mul, Matrix.mul_sub, Matrix.one_mul, Matrix.mul_one, Matrix.smul_mul, Matrix.mul_smul, hp1, hp2]
  · have : (Pi.single i0 (r : ℂ) : Fin M → ℂ) = conj ph • w := by
      rw [hw]
      funext i
      by_cases hi : i = i0
      · subst hi
        rw [Pi.smul_apply, Pi.single_eq_same, Pi.single_eq_same, smul_eq_mul, ← mul_assoc, mul_comm (conj ph), hph1, one_mul]
      · simp [hi]
    rw [this, mulVec_smul, smul_mulVec, hHw, smul_smul]
    have : conj ph * -ph = -1 := by rw [mul_neg, mul_comm, hph1]
    rw [this, neg_one_smul, neg_neg]

/-- a unitary matrix that keeps the selected coordinates and gathers each part of a vector on one coordinate -/
theorem exists_gather {a : Fin M → ℂ} (ha : ∀ i, a i ∈ K) {q : Fin M → Bool} {i0 i1 : Fin M} (q0 : q i0 = true) (q1 : q i1 = false)
    (h0 : a i0 ≠ 0) (h1 : a i1 ≠ 0) :
    ∃ R : Matrix (Fin M) (Fin M) ℂ, InG K R ∧ R * dg q = dg q * R ∧
      R *ᵥ (Pi.single i0 ((√(selN q a) : ℝ) : ℂ) + Pi.single i1 ((√(selN (fun i => !q i) a) : ℝ) : ℂ)) = a := by
  have hs : ∀ (q : Fin M → Bool), ∑ i, Complex.normSq (if q i then a i else 0) = selN q a := fun q => by
    rw [selN]
    refine sum_congr rfl fun i _ => ?_
    split_ifs <;> simp
  obtain ⟨R1, g1, c1, e1⟩ := exists_reflection (K := K) (x := fun i => if q i then a i else 0) (q := q) (i0 := i0)
    (fun i => by split_ifs; exacts [ha i, zero_mem K]) (by simpa [q0] using h0) (fun i hi => by simp [hi])
  obtain ⟨R2, g2, c2, e2⟩ := exists_reflection (K := K) (x := fun i => if !q i then a i else 0) (q := fun i => !q i) (i0 := i1)
    (fun i => by split_ifs; exacts [ha i, zero_mem K]) (by simpa [q1] using h1) (fun i hi => by simp at hi; simp [hi])
  rw [hs] at e1
  rw [hs (fun i => !q i)] at e2
  set P := dg q with hP
  set Q := dg (fun i => !q i) with hQ
  have hPP : P * P = P := dg_mul_self q
  have hQQ : Q * Q = Q := dg_mul_self _
  have hPQ : P * Q = 0 := dg_mul_not q
  have hQP : Q * P = 0 := dg_not_mul q
  have hsum : P + Q = 1 := dg_add_not q
  have hPc : Pᴴ = P := dg_conj q
  have hQc : Qᴴ = Q := dg_conj _
  have c1' : R1ᴴ * P = P * R1ᴴ := by
    have := congrArg conjTranspose c1
    rw [conjTranspose_mul, conjTranspose_mul, hPc] at this
    exact this.symm
  have c2' : R2ᴴ * Q = Q * R2ᴴ := by
    have := congrArg conjTranspose c2
    rw [conjTranspose_mul, conjTranspose_mul, hQc] at this
    exact this.symm
  refine ⟨P * R1 + Q * R2, ⟨uni_of ?_, fun i j => ?_⟩, ?_, ?_⟩
  · rw [conjTranspose_add, conjTranspose_mul, conjTranspose_mul, hPc, hQc, Matrix.add_mul, Matrix.mul_add, Matrix.mul_add]
    have t1 : R1ᴴ * P * (P * R1) = P := by
      rw [Matrix.mul_assoc, ← Matrix.mul_assoc P, hPP, ← Matrix.mul_assoc, c1', Matrix.mul_assoc, g1.conj_mul, Matrix.mul_one]
    have t2 : R2ᴴ * Q * (Q * R2) = Q := by
      rw [Matrix.mul_assoc, ← Matrix.mul_assoc Q, hQQ, ← Matrix.mul_assoc, c2', Matrix.mul_assoc, g2.conj_mul, Matrix.mul_one]
    have t3 : R1ᴴ * P * (Q * R2) = 0 := by
      rw [Matrix.mul_assoc, ← Matrix.mul_assoc P, hPQ, Matrix.zero_mul, Matrix.mul_zero]
    have t4 : R2ᴴ * Q * (P * R1) = 0 := by
      rw [Matrix.mul_assoc, ← Matrix.mul_assoc Q, hQP, Matrix.zero_mul, Matrix.mul_zero]
    rw [t1, t2, t3, t4, add_zero, zero_add, hsum]
  · rw [Matrix.add_apply, Matrix.mul_apply, Matrix.mul_apply]
    exact add_mem (sum_mem fun k _ => mul_mem (dg_mem q i k) (g1.mem k j)) (sum_mem fun k _ => mul_mem (dg_mem _ i k) (g2.mem k j))
  · have hR2P : R2 * P = P * R2 := by
      have : P = 1 - Q := by rw [← hsum]; abel
      rw [this, Matrix.mul_sub, Matrix.sub_mul, c2, Matrix.mul_one, Matrix.one_mul]
    rw [Matrix.add_mul, Matrix.mul_add, Matrix.mul_assoc, c1, Matrix.mul_assoc, hR2P]
    rw [← Matrix.mul_assoc Q, hQP, ← Matrix.mul_assoc P Q, hPQ]
  · have p0 : P *ᵥ (Pi.single i0 ((√(selN q a) : ℝ) : ℂ)) = Pi.single i0 ((√(selN q a) : ℝ) : ℂ) := by
      rw [hP, dg_mulVec]
      funext i
      by_cases hi : i = i0
      · subst hi; simp [q0]
      · simp [hi]
    have p1 : P *ᵥ (Pi.single i1 ((√(selN (fun i => !q i) a) : ℝ) : ℂ)) = 0 := by
      rw [hP, dg_mulVec]
      funext i
      by_cases hi : i = i1
      · subst hi; simp [q1]
      · simp [hi]
    have k0 : Q *ᵥ (Pi.single i0 ((√(selN q a) : ℝ) : ℂ)) = 0 := by
      rw [hQ, dg_mulVec]
      funext i
      by_cases hi : i = i0
      · subst hi; simp [q0]
      · simp [hi]
    have k1 : Q *ᵥ (Pi.single i1 ((√(selN (fun i => !q i) a) : ℝ) : ℂ)) = Pi.single i1 ((√(selN (fun i => !q i) a) : ℝ) : ℂ) := by
      rw [hQ, dg_mulVec]
      funext i
      by_cases hi : i = i1
      · subst hi; simp [q1]
      · simp [hi]
    rw [← c1, ← c2, Matrix.add_mulVec, Matrix.mulVec_add, Matrix.mulVec_add, ← Matrix.mulVec_mulVec, ← Matrix.mulVec_mulVec, ← Matrix.mulVec_mulVec,
      ← Matrix.mulVec_mulVec, p0, p1, k0, k1, Matrix.mulVec_zero, Matrix.mulVec_zero, add_zero, zero_add, e1, e2]
    funext i
    rw [Pi.add_apply]
    cases q i <;> simp

end Verif.Lemmas
