import Verif.Lemmas.Circ1
import Mathlib.LinearAlgebra.Lagrange
import Mathlib.Analysis.Complex.Polynomial.Basic

/-!
# Measures on the unit circle with finitely many atoms and the Szego recursion

`SzM z w al K` says that the measure with atoms `z j` and weights `w j` has the coefficients `al 0, ..., al (K - 1)`.
-/

namespace Verif.Lemmas
open Finset Polynomial
open scoped ComplexConjugate

variable {N : ℕ} {z : Fin N → ℂ} {w : Fin N → ℝ} {al : ℕ → ℂ}

/-- the first `K` coefficients of the measure are `al 0, ..., al (K - 1)` -/
def SzM (z : Fin N → ℂ) (w : Fin N → ℝ) (al : ℕ → ℂ) (K : ℕ) : Prop :=
  ∀ k < K, ∑ j, (w j : ℂ) * (z j * (szP al k).eval (z j)) = conj (al k) * (((∑ j, w j) * szR al k : ℝ) : ℂ)

theorem conj_sum_w (f : Fin N → ℂ) : conj (∑ j, (w j : ℂ) * f j) = ∑ j, (w j : ℂ) * conj (f j) := by
  rw [map_sum]
  exact sum_congr rfl fun j _ => by rw [map_mul, Complex.conj_ofReal]

theorem SzM.orth (hz : ∀ j, ‖z j‖ = 1) {K : ℕ} (h : SzM z w al K) : ∀ k ≤ K,
    (∀ i < k, ∑ j, (w j : ℂ) * (conj (z j) ^ i * (szP al k).eval (z j)) = 0)
      ∧ ∑ j, (w j : ℂ) * (conj (z j) ^ k * (szP al k).eval (z j)) = (((∑ j, w j) * szR al k : ℝ) : ℂ) := by
  have hu := fun j => conj_mul_self_unit (hz j)
  intro k
  induction k with
  | zero => intro _; simp [szP_zero, szR_zero]
  | succ k ih =>
    intro hk
    obtain ⟨h1, h2⟩ := ih (by omega)
    have h0 := h k (by omega)
    set r : ℝ := (∑ j, w j) * szR al k with hr
    have hQ0 : ∑ j, (w j : ℂ) * (szQ al k).eval (z j) = (r : ℂ) := by
      have := congrArg conj h2
      rw [conj_sum_w, Complex.conj_ofReal] at this
      rw [← this]
      refine sum_congr rfl fun j _ => ?_
      rw [szQ_unit (hz j), map_mul, map_pow, Complex.conj_conj]
    have hQi : ∀ i, 1 ≤ i → i ≤ k → ∑ j, (w j : ℂ) * (conj (z j) ^ i * (szQ al k).eval (z j)) = 0 := by
      intro i hi1 hi
      have := congrArg conj (h1 (k - i) (by omega))
      rw [conj_sum_w, map_zero] at this
      rw [← this]
      refine sum_congr rfl fun j _ => ?_
      rw [szQ_unit (hz j), map_mul, map_pow, Complex.conj_conj]
      have e : z j ^ k = z j ^ (k - i) * z j ^ i := by rw [← pow_add]; congr 1; omega
      have e2 : conj (z j) ^ i * z j ^ i = 1 := by rw [← mul_pow, hu, one_pow]
      rw [e]
      linear_combination (w j : ℂ) * z j ^ (k - i) * conj ((szP al k).eval (z j)) * e2
    have hQl : ∑ j, (w j : ℂ) * (conj (z j) ^ (k + 1) * (szQ al k).eval (z j)) = al k * (r : ℂ) := by
      have := congrArg conj h0
      rw [conj_sum_w, map_mul, Complex.conj_conj, Complex.conj_ofReal] at this
      rw [← this]
      refine sum_congr rfl fun j _ => ?_
      rw [szQ_unit (hz j), map_mul]
      have e2 : conj (z j) ^ k * z j ^ k = 1 := by rw [← mul_pow, hu, one_pow]
      linear_combination (w j : ℂ) * conj (z j) * conj ((szP al k).eval (z j)) * e2
    have hexp : ∀ i, ∑ j, (w j : ℂ) * (conj (z j) ^ i * (szP al (k + 1)).eval (z j))
        = ∑ j, (w j : ℂ) * (conj (z j) ^ i * (z j * (szP al k).eval (z j)))
          - conj (al k) * ∑ j, (w j : ℂ) * (conj (z j) ^ i * (szQ al k).eval (z j)) := by
      intro i
      rw [mul_sum, ← sum_sub_distrib]
      refine sum_congr rfl fun j _ => ?_
      rw [szP_succ, eval_sub, eval_mul, eval_mul, eval_X, eval_C]; ring
    have hsh : ∀ i, ∑ j, (w j : ℂ) * (conj (z j) ^ (i + 1) * (z j * (szP al k).eval (z j)))
        = ∑ j, (w j : ℂ) * (conj (z j) ^ i * (szP al k).eval (z j)) := by
      intro i
      refine sum_congr rfl fun j _ => ?_
      linear_combination (w j : ℂ) * conj (z j) ^ i * (szP al k).eval (z j) * hu j
    refine ⟨fun i hi => ?_, ?_⟩
    · rw [hexp]
      rcases i with _ | i
      · simp only [pow_zero, one_mul]
        rw [h0, hQ0, sub_self]
      · rw [hsh, h1 i (by omega), hQi (i + 1) (by omega) (by omega), mul_zero, sub_zero]
    · rw [hexp, hsh, h2, hQl, szR_succ]
      have := conj_mul_eq (al k)
      rw [hr]
      push_cast at this ⊢
      linear_combination (-(∑ j, (w j : ℂ)) * (szR al k : ℂ)) * this

/-- squared norms -/
theorem SzM.norm (hz : ∀ j, ‖z j‖ = 1) {K : ℕ} (h : SzM z w al K) {k : ℕ} (hk : k ≤ K) :
    ∑ j, w j * ‖(szP al k).eval (z j)‖ ^ 2 = (∑ j, w j) * szR al k := by
  obtain ⟨h1, h2⟩ := h.orth hz k hk
  have e : (((∑ j, w j * ‖(szP al k).eval (z j)‖ ^ 2 : ℝ)) : ℂ)
      = ∑ i ∈ range (k + 1), conj ((szP al k).coeff i) * ∑ j, (w j : ℂ) * (conj (z j) ^ i * (szP al k).eval (z j)) := by
    simp only [mul_sum]
    rw [sum_comm]
    push_cast
    refine sum_congr rfl fun j _ => ?_
    have e1 : conj ((szP al k).eval (z j)) = ∑ i ∈ range (k + 1), conj ((szP al k).coeff i) * conj (z j) ^ i := by
      rw [eval_eq_sum_range' (n := k + 1) (by rw [szP_deg]; omega), map_sum]
      exact sum_congr rfl fun i _ => by rw [map_mul, map_pow]
    have e2 := conj_mul_eq ((szP al k).eval (z j))
    push_cast at e2
    rw [← e2, e1, sum_mul, mul_sum]
    exact sum_congr rfl fun i _ => by ring
  have hc : (szP al k).coeff k = 1 := by
    have := szP_monic al k
    rw [Monic, leadingCoeff, szP_deg] at this
    exact this
  rw [sum_range_succ, sum_eq_zero (s := range k) fun i hi => by rw [h1 i (mem_range.1 hi), mul_zero], h2, hc, map_one, one_mul, zero_add] at e
  exact_mod_cast e

/-- moments -/
theorem SzM.zero_orth (hz : ∀ j, ‖z j‖ = 1) {K : ℕ} (h : SzM z w al K) {k : ℕ} (hk : k ≤ K) (h0 : k ≠ 0) :
    ∑ j, (w j : ℂ) * (szP al k).eval (z j) = 0 := by
  have := (h.orth hz k hk).1 0 (by omega)
  simpa using this

theorem SzM.pos (hz : ∀ j, ‖z j‖ = 1) (hinj : Function.Injective z) (hw : ∀ j, 0 < w j) {K : ℕ} (h : SzM z w al K) {k : ℕ}
    (hk : k ≤ K) (hkN : k < N) : 0 < (∑ j, w j) * szR al k := by
  rw [← h.norm hz hk]
  obtain ⟨j, hj⟩ : ∃ j, (szP al k).eval (z j) ≠ 0 := by
    by_contra hcon
    push Not at hcon
    have := Polynomial.eq_zero_of_natDegree_lt_card_of_eval_eq_zero (szP al k) hinj hcon (by rw [szP_deg]; simpa using hkN)
    exact (szP_monic al k).ne_zero this
  refine sum_pos' (fun j _ => by have := hw j; positivity) ⟨j, mem_univ _, ?_⟩
  have := hw j
  have := norm_pos_iff.2 hj
  positivity

theorem SzM.vanish (hz : ∀ j, ‖z j‖ = 1) (hinj : Function.Injective z) (hw : ∀ j, 0 < w j) (h : SzM z w al N) (j : Fin N) :
    (szP al N).eval (z j) = 0 := by
  have h1 := (h.orth hz N le_rfl).1
  have hinj' : Function.Injective fun j => conj (z j) := fun a b hab => hinj ((starRingEnd ℂ).injective hab)
  have := Matrix.eq_zero_of_forall_pow_sum_mul_pow_eq_zero (f := fun j => conj (z j))
    (v := fun j => (w j : ℂ) * (szP al N).eval (z j)) hinj' (fun i => by
      rw [← h1 i i.2]
      exact sum_congr rfl fun j _ => by ring)
  have h2 := congrFun this j
  simp only [Pi.zero_apply, mul_eq_zero, Complex.ofReal_eq_zero] at h2
  exact h2.resolve_left (hw j).ne'

theorem szP_eq_prod (hinj : Function.Injective z) (h : ∀ j, (szP al N).eval (z j) = 0) : szP al N = ∏ j, (X - C (z j)) := by
  have hm : (∏ j, (X - C (z j))).Monic := monic_prod_of_monic _ _ fun j _ => monic_X_sub_C _
  have hd : (∏ j, (X - C (z j))).natDegree = N := by
    rw [natDegree_prod_of_monic _ _ fun j _ => monic_X_sub_C _]; simp
  by_contra hne
  have hlt : (szP al N - ∏ j, (X - C (z j))).natDegree < N := by
    rcases Nat.eq_zero_or_pos N with h0 | h0
    · subst h0; exfalso; apply hne; simp [szP_zero]
    · have := degree_sub_lt (p := szP al N) (q := ∏ j, (X - C (z j)))
        (by rw [degree_eq_natDegree (szP_monic _ _).ne_zero, degree_eq_natDegree hm.ne_zero, szP_deg, hd])
        (szP_monic _ _).ne_zero (by rw [(szP_monic _ _).leadingCoeff, hm.leadingCoeff])
      rw [degree_eq_natDegree (sub_ne_zero.2 hne), degree_eq_natDegree (szP_monic _ _).ne_zero, szP_deg] at this
      exact_mod_cast this
  refine hne (sub_eq_zero.1 (Polynomial.eq_zero_of_natDegree_lt_card_of_eval_eq_zero _ hinj (fun j => ?_) (by simpa using hlt)))
  rw [eval_sub, h j, eval_prod, prod_eq_zero (mem_univ j) (by simp), sub_zero]

theorem last_coeff {n : ℕ} {z : Fin (n + 1) → ℂ} (hinj : Function.Injective z) (h : ∀ j, (szP al (n + 1)).eval (z j) = 0) :
    conj (al n) = (-1) ^ n * ∏ j, z j := by
  have h1 := (szP_coeff_zero al n).2
  rw [szP_eq_prod hinj h, coeff_zero_eq_eval_zero, eval_prod] at h1
  simp only [eval_sub, eval_X, eval_C, zero_sub, prod_neg, card_univ, Fintype.card_fin] at h1
  rw [pow_succ] at h1
  linear_combination h1

/-! ## Existence of the coefficients -/

/-- the next coefficient -/
noncomputable def nextA (z : Fin N → ℂ) (w : Fin N → ℝ) (st : ℂ[X] × ℂ[X] × ℝ) : ℂ :=
  conj (∑ j, (w j : ℂ) * (z j * st.1.eval (z j))) / st.2.2

/-- the recursion on a measure -/
noncomputable def mS (z : Fin N → ℂ) (w : Fin N → ℝ) : ℕ → ℂ[X] × ℂ[X] × ℝ
  | 0 => (1, 1, ∑ j, w j)
  | k + 1 => (X * (mS z w k).1 - C (conj (nextA z w (mS z w k))) * (mS z w k).2.1,
      (mS z w k).2.1 - C (nextA z w (mS z w k)) * (X * (mS z w k).1), (mS z w k).2.2 * (1 - ‖nextA z w (mS z w k)‖ ^ 2))

/-- the coefficients of a measure -/
noncomputable def mAl (z : Fin N → ℂ) (w : Fin N → ℝ) (k : ℕ) : ℂ := nextA z w (mS z w k)

theorem mS_eq (k : ℕ) : mS z w k = (szP (mAl z w) k, szQ (mAl z w) k, (∑ j, w j) * szR (mAl z w) k) := by
  induction k with
  | zero => simp [mS, szP_zero, szQ_zero, szR_zero]
  | succ k ih =>
    rw [mS, szP_succ, szQ_succ, szR_succ, mAl, ih]
    simp only [Prod.mk.injEq, true_and]
    rw [mul_assoc]

theorem mAl_szM (hz : ∀ j, ‖z j‖ = 1) (hinj : Function.Injective z) (hw : ∀ j, 0 < w j) : ∀ K ≤ N, SzM z w (mAl z w) K := by
  intro K
  induction K with
  | zero => intro _ k hk; omega
  | succ K ih =>
    intro hK k hk
    have h := ih (by omega)
    rcases Nat.lt_succ_iff_lt_or_eq.1 hk with hk | rfl
    · exact h k hk
    · have hp := h.pos hz hinj hw le_rfl (by omega)
      rw [mAl, nextA, mS_eq]
      simp only [map_div₀, Complex.conj_conj, Complex.conj_ofReal]
      rw [div_mul_cancel₀]
      exact_mod_cast hp.ne'

theorem szR_sq {k : ℕ} (h : szR al k ≠ 0) : ‖al k‖ ^ 2 = 1 - szR al (k + 1) / szR al k := by
  rw [szR_succ]; field_simp; ring

/-- **existence of the coefficients** -/
theorem exists_al {n : ℕ} {z : Fin (n + 1) → ℂ} {w : Fin (n + 1) → ℝ} (hz : ∀ j, ‖z j‖ = 1) (hinj : Function.Injective z)
    (hw : ∀ j, 0 < w j) : SzM z w (mAl z w) (n + 1) ∧ (∀ k < n, ‖mAl z w k‖ < 1) ∧ conj (mAl z w n) = (-1) ^ n * ∏ j, z j := by
  have h := mAl_szM hz hinj hw (n + 1) le_rfl
  have hm : 0 < ∑ j, w j := sum_pos (fun j _ => hw j) ⟨0, mem_univ _⟩
  have hR : ∀ k ≤ n, 0 < szR (mAl z w) k := fun k hk =>
    pos_of_mul_pos_right (h.pos hz hinj hw (by omega) (by omega)) hm.le
  refine ⟨h, fun k hk => ?_, last_coeff hinj (h.vanish hz hinj hw)⟩
  have h1 := hR k hk.le
  have h2 := hR (k + 1) hk
  rw [szR_succ] at h2
  have := pos_of_mul_pos_right h2 h1.le
  have hn := norm_nonneg (mAl z w k)
  nlinarith

/-! ## Existence of the measure -/

theorem szR_pos {n : ℕ} (h : ∀ k < n, ‖al k‖ < 1) {k : ℕ} (hk : k ≤ n) : 0 < szR al k := by
  refine prod_pos fun j hj => ?_
  have h1 := h j (by have := mem_range.1 hj; omega)
  have h2 := norm_nonneg (al j)
  nlinarith

theorem exists_roots {n : ℕ} (h : ∀ k < n, ‖al k‖ < 1) (hl : ‖al n‖ = 1) :
    ∃ z : Fin (n + 1) → ℂ, Function.Injective z ∧ ∀ j, (szP al (n + 1)).eval (z j) = 0 := by
  have hR : ∀ k ≤ n, 0 < szR al k := fun k hk => szR_pos h hk
  set p := szP al (n + 1) with hp
  have hp0 : p ≠ 0 := (szP_monic al (n + 1)).ne_zero
  have hcard : p.roots.card = n + 1 := by
    rw [← (IsAlgClosed.splits p).natDegree_eq_card_roots, szP_deg]
  have hnd : p.roots.Nodup := by
    rw [Multiset.nodup_iff_count_le_one]
    intro x
    rw [count_roots]
    by_cases hx : x ∈ p.roots
    · have hx' := (mem_roots hp0).1 hx
      have := sz_root_simple hR hl hx'
      by_contra hgt
      push Not at hgt
      have h2 := (one_lt_rootMultiplicity_iff_isRoot hp0).1 hgt
      exact this h2.2
    · rw [mem_roots hp0] at hx
      rw [rootMultiplicity_eq_zero hx]; omega
  have hc : p.roots.toFinset.card = n + 1 := by rw [Multiset.toFinset_card_of_nodup hnd, hcard]
  let e := p.roots.toFinset.equivFinOfCardEq hc
  refine ⟨fun j => (e.symm j : ℂ), fun a b hab => e.symm.injective (Subtype.ext hab), fun j => ?_⟩
  have := (e.symm j).2
  rw [Multiset.mem_toFinset, mem_roots hp0] at this
  exact this

section forward
variable {n : ℕ} {z : Fin (n + 1) → ℂ} (hR : ∀ k ≤ n, 0 < szR al k) (hl : ‖al n‖ = 1) (hinj : Function.Injective z)
  (h0 : ∀ j, (szP al (n + 1)).eval (z j) = 0)
include hR hl hinj h0

theorem szK_off {i j : Fin (n + 1)} (hij : i ≠ j) : szK al n (z i) (z j) = 0 := by
  have h := szK_zero hR hl (h0 i) (z j)
  rw [h0 j, mul_zero, zero_div, mul_eq_zero] at h
  refine h.resolve_left fun h1 => hij (hinj ?_)
  have hu := conj_mul_self_unit (sz_root_norm hR hl (h0 i))
  linear_combination (z i) * h1 + (z j) * hu

theorem dual_orth {m : ℝ} (hm : 0 < m) {k l : ℕ} (hk : k ≤ n) (hl' : l ≤ n) :
    ∑ j, ((m / szKr al n (z j) : ℝ) : ℂ) * (conj ((szP al k).eval (z j)) * (szP al l).eval (z j))
      = if k = l then ((m * szR al k : ℝ) : ℂ) else 0 := by
  set B : Matrix (Fin (n + 1)) (Fin (n + 1)) ℂ := Matrix.of fun j k => (szP al k).eval (z j) with hB
  set Bh : Matrix (Fin (n + 1)) (Fin (n + 1)) ℂ := Matrix.of fun k j => conj ((szP al k).eval (z j)) with hBh
  set D : Fin (n + 1) → ℂ := fun k => ((szR al k : ℝ) : ℂ) with hD
  set W : Fin (n + 1) → ℂ := fun j => ((1 / szKr al n (z j) : ℝ) : ℂ) with hW
  have hDne : ∀ k, D k ≠ 0 := fun k => Complex.ofReal_ne_zero.2 (hR k (by omega)).ne'
  have h1 : (Matrix.diagonal W * (B * Matrix.diagonal fun k => (D k)⁻¹)) * Bh = 1 := by
    ext j i
    rw [Matrix.mul_assoc, Matrix.diagonal_mul, Matrix.mul_apply]
    have e : ∑ k, (B * Matrix.diagonal fun k => (D k)⁻¹) j k * Bh k i = szK al n (z i) (z j) := by
      rw [szK, ← Fin.sum_univ_eq_sum_range (fun k => (szP al k).eval (z j) * conj ((szP al k).eval (z i)) / szR al k)]
      refine sum_congr rfl fun k _ => ?_
      rw [Matrix.mul_diagonal, hB, hBh, Matrix.of_apply, Matrix.of_apply, hD]
      ring
    rw [e, Matrix.one_apply]
    split_ifs with hij
    · subst hij
      rw [szK_self, hW, ← Complex.ofReal_mul, ← szKr]
      have := (szKr_pos hR (z j)).ne'
      rw [one_div, inv_mul_cancel₀ this, Complex.ofReal_one]
    · rw [szK_off hR hl hinj h0 (Ne.symm hij), mul_zero]
  have h2 := mul_eq_one_comm.1 h1
  have h3 := congrFun (congrFun h2 ⟨k, by omega⟩) ⟨l, by omega⟩
  rw [← Matrix.mul_assoc, ← Matrix.mul_assoc, Matrix.mul_diagonal, Matrix.mul_apply, Matrix.one_apply] at h3
  have h4 : ∑ j, ((m / szKr al n (z j) : ℝ) : ℂ) * (conj ((szP al k).eval (z j)) * (szP al l).eval (z j))
      = m * ∑ j, (Bh * Matrix.diagonal W) ⟨k, by omega⟩ j * B j ⟨l, by omega⟩ := by
    rw [mul_sum]
    refine sum_congr rfl fun j _ => ?_
    rw [Matrix.mul_diagonal, hB, hBh, hW, Matrix.of_apply, Matrix.of_apply]
    push_cast
    ring
  rw [h4]
  have h5 : ∑ j, (Bh * Matrix.diagonal W) ⟨k, by omega⟩ j * B j ⟨l, by omega⟩
      = (if (⟨k, by omega⟩ : Fin (n + 1)) = ⟨l, by omega⟩ then 1 else 0) * D ⟨l, by omega⟩ := by
    rw [← h3, mul_assoc, inv_mul_cancel₀ (hDne _), mul_one]
  rw [h5]
  simp only [Fin.mk.injEq]
  split_ifs with hkl
  · subst hkl; rw [hD]; push_cast; ring
  · ring

/-- **existence of the measure** -/
theorem forward_szM {m : ℝ} (hm : 0 < m) :
    (∑ j, m / szKr al n (z j)) = m ∧ SzM z (fun j => m / szKr al n (z j)) al (n + 1) := by
  have hs : (∑ j, m / szKr al n (z j)) = m := by
    have := dual_orth hR hl hinj h0 hm (k := 0) (l := 0) (by omega) (by omega)
    simp only [szP_zero, eval_one, map_one, mul_one, if_true, szR_zero] at this
    exact_mod_cast this
  have hP : ∀ k < n, ∑ j, ((m / szKr al n (z j) : ℝ) : ℂ) * (szP al (k + 1)).eval (z j) = 0 := by
    intro k hk
    have := dual_orth hR hl hinj h0 hm (k := 0) (l := k + 1) (by omega) (by omega)
    simpa only [szP_zero, eval_one, map_one, one_mul, if_neg (show ¬ (0 = k + 1) by omega)] using this
  have hQ : ∀ k ≤ n, ∑ j, ((m / szKr al n (z j) : ℝ) : ℂ) * (szQ al k).eval (z j) = ((m * szR al k : ℝ) : ℂ) := by
    intro k
    induction k with
    | zero =>
      intro _
      simp only [szQ_zero, eval_one, mul_one, szR_zero]
      exact_mod_cast hs
    | succ k ih =>
      intro hk
      have e : ∀ j, (szQ al (k + 1)).eval (z j) = (1 - conj (al k) * al k) * (szQ al k).eval (z j)
          - al k * (szP al (k + 1)).eval (z j) := by
        intro j
        rw [szQ_succ, szP_succ]
        simp only [eval_sub, eval_mul, eval_X, eval_C]
        ring
      have e2 : ∑ j, ((m / szKr al n (z j) : ℝ) : ℂ) * (szQ al (k + 1)).eval (z j)
          = (1 - conj (al k) * al k) * (∑ j, ((m / szKr al n (z j) : ℝ) : ℂ) * (szQ al k).eval (z j))
            - al k * ∑ j, ((m / szKr al n (z j) : ℝ) : ℂ) * (szP al (k + 1)).eval (z j) := by
        rw [mul_sum, mul_sum, ← sum_sub_distrib]
        exact sum_congr rfl fun j _ => by rw [e j]; ring
      rw [e2, hP k (by omega), ih (by omega), szR_succ, conj_mul_eq]
      push_cast
      ring
  refine ⟨hs, fun k hk => ?_⟩
  have hP' : ∑ j, ((m / szKr al n (z j) : ℝ) : ℂ) * (szP al (k + 1)).eval (z j) = 0 := by
    rcases Nat.lt_succ_iff_lt_or_eq.1 hk with hk | rfl
    · exact hP k hk
    · exact sum_eq_zero fun j _ => by rw [h0 j, mul_zero]
  have e : ∀ j, z j * (szP al k).eval (z j) = (szP al (k + 1)).eval (z j) + conj (al k) * (szQ al k).eval (z j) := by
    intro j
    rw [szP_succ]
    simp only [eval_sub, eval_mul, eval_X, eval_C]
    ring
  have e2 : ∑ j, ((m / szKr al n (z j) : ℝ) : ℂ) * (z j * (szP al k).eval (z j))
      = (∑ j, ((m / szKr al n (z j) : ℝ) : ℂ) * (szP al (k + 1)).eval (z j))
        + conj (al k) * ∑ j, ((m / szKr al n (z j) : ℝ) : ℂ) * (szQ al k).eval (z j) := by
    rw [mul_sum, ← sum_add_distrib]
    exact sum_congr rfl fun j _ => by rw [e j]; ring
  rw [e2, hP', hQ k (by omega), zero_add, hs]

end forward

end Verif.Lemmas
