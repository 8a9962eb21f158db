import Mathlib.Algebra.BigOperators.Intervals
import Mathlib.Algebra.BigOperators.Ring.Finset
import Mathlib.Data.Real.Basic
import Mathlib.Tactic.Ring
import Mathlib.Tactic.Linarith
import Mathlib.Tactic.LinearCombination
import Mathlib.Tactic.FieldSimp
import Mathlib.Algebra.Polynomial.Roots
import Mathlib.Algebra.Polynomial.Monic
import Mathlib.Algebra.Polynomial.Degree.Lemmas

/-!
# Moments of Jacobi matrices

`a 0, a 1, …` are the diagonal coefficients, `B 1, B 2, …` the squares of the off-diagonal ones and `B 0` the mass of the spectral
measure.
-/

namespace Verif.Lemmas
open Finset

/-- `u k i`: component `i` of the `k`-th Krylov vector -/
def kry (a B : ℕ → ℝ) : ℕ → ℕ → ℝ
  | 0, i => if i = 0 then 1 else 0
  | k + 1, 0 => a 0 * kry a B k 0 + B 1 * kry a B k 1
  | k + 1, i + 1 => kry a B k i + a (i + 1) * kry a B k (i + 1) + B (i + 2) * kry a B k (i + 2)

/-- products `B 0 ⋯ B l` -/
def kryH (B : ℕ → ℝ) (l : ℕ) : ℝ := ∏ i ∈ range (l + 1), B i

/-- moments -/
def mom (a B : ℕ → ℝ) (k : ℕ) : ℝ := B 0 * kry a B k 0

variable {a B : ℕ → ℝ}

theorem kryH_succ (l : ℕ) : kryH B (l + 1) = kryH B l * B (l + 1) := by
  rw [kryH, prod_range_succ, kryH]

theorem kry_zero_of_lt : ∀ {k i : ℕ}, k < i → kry a B k i = 0
  | 0, i, h => by rw [kry, if_neg (by omega)]
  | k + 1, 0, h => by omega
  | k + 1, i + 1, h => by
    rw [kry, kry_zero_of_lt (by omega : k < i), kry_zero_of_lt (by omega : k < i + 1), kry_zero_of_lt (by omega : k < i + 2)]
    ring

theorem kry_diag : ∀ k : ℕ, kry a B k k = 1
  | 0 => by rw [kry, if_pos rfl]
  | k + 1 => by
    rw [kry, kry_diag k, kry_zero_of_lt (by omega : k < k + 1), kry_zero_of_lt (by omega : k < k + 2)]
    ring

/-- the Jacobi matrix is symmetric for the weights `kryH` -/
theorem kry_selfadj (i j n : ℕ) (hi : i < n + 1) (hj : j < n + 1) :
    ∑ l ∈ range (n + 1), kry a B (i + 1) l * kry a B j l * kryH B l
      = ∑ l ∈ range (n + 1), kry a B i l * kry a B (j + 1) l * kryH B l := by
  have key : ∀ x y : ℕ, x < n + 1 → y < n + 1 → ∑ l ∈ range (n + 1), kry a B (x + 1) l * kry a B y l * kryH B l
      = ∑ l ∈ range (n + 1), a l * kry a B x l * kry a B y l * kryH B l
        + ∑ l ∈ range n, kry a B x l * kry a B y (l + 1) * kryH B (l + 1)
        + ∑ l ∈ range n, kry a B x (l + 1) * kry a B y l * kryH B (l + 1) := by
    intro x y hx hy
    have h1 : ∑ l ∈ range n, kry a B x (l + 1) * kry a B y l * kryH B (l + 1)
        = ∑ l ∈ range (n + 1), kry a B x (l + 1) * kry a B y l * kryH B (l + 1) := by
      rw [sum_range_succ, kry_zero_of_lt hx]; ring
    rw [h1, sum_range_succ' (fun l => kry a B (x + 1) l * kry a B y l * kryH B l),
      sum_range_succ' (fun l => a l * kry a B x l * kry a B y l * kryH B l),
      sum_range_succ' (fun l => kry a B x (l + 1) * kry a B y l * kryH B (l + 1))]
    have h2 : ∑ l ∈ range n, kry a B (x + 1) (l + 1) * kry a B y (l + 1) * kryH B (l + 1)
        = ∑ l ∈ range n, a (l + 1) * kry a B x (l + 1) * kry a B y (l + 1) * kryH B (l + 1)
          + ∑ l ∈ range n, kry a B x l * kry a B y (l + 1) * kryH B (l + 1)
          + ∑ l ∈ range n, kry a B x (l + 1 + 1) * kry a B y (l + 1) * kryH B (l + 1 + 1) := by
      rw [← sum_add_distrib, ← sum_add_distrib]
      apply sum_congr rfl
      intro l _
      rw [kry, kryH_succ (l + 1)]
      ring
    rw [h2, kry, kryH_succ 0]
    ring
  have h1 := key i j hi hj
  have h2 := key j i hj hi
  rw [h1]
  have h3 : ∑ l ∈ range (n + 1), kry a B i l * kry a B (j + 1) l * kryH B l
      = ∑ l ∈ range (n + 1), kry a B (j + 1) l * kry a B i l * kryH B l :=
    sum_congr rfl fun l _ => by ring
  rw [h3, h2]
  have e1 : ∑ l ∈ range (n + 1), a l * kry a B i l * kry a B j l * kryH B l
      = ∑ l ∈ range (n + 1), a l * kry a B j l * kry a B i l * kryH B l := sum_congr rfl fun l _ => by ring
  have e2 : ∑ l ∈ range n, kry a B i l * kry a B j (l + 1) * kryH B (l + 1)
      = ∑ l ∈ range n, kry a B j (l + 1) * kry a B i l * kryH B (l + 1) := sum_congr rfl fun l _ => by ring
  have e3 : ∑ l ∈ range n, kry a B i (l + 1) * kry a B j l * kryH B (l + 1)
      = ∑ l ∈ range n, kry a B j l * kry a B i (l + 1) * kryH B (l + 1) := sum_congr rfl fun l _ => by ring
  rw [e1, e2, e3]
  ring

theorem mom_add_aux : ∀ (i j n : ℕ), i + j < n + 1 →
    ∑ l ∈ range (n + 1), kry a B i l * kry a B j l * kryH B l = mom a B (i + j)
  | 0, j, n, h => by
    rw [sum_eq_single 0]
    · rw [kry, if_pos rfl, mom, kryH, zero_add]; simp; ring
    · intro l _ hl; rw [kry, if_neg hl]; ring
    · simp
  | i + 1, j, n, h => by
    rw [kry_selfadj i j n (by omega) (by omega), mom_add_aux i (j + 1) n (by omega)]
    congr 1; omega

/-- Hankel matrix of the moments -/
theorem mom_add {i j n : ℕ} (h : i ≤ n) : mom a B (i + j) = ∑ l ∈ range (n + 1), kry a B i l * kry a B j l * kryH B l := by
  rw [← mom_add_aux i j (i + j + n) (by omega)]
  refine (sum_subset (range_subset_range.2 (by omega)) ?_).symm
  intro l _ hl
  rw [kry_zero_of_lt (by simp at hl; omega : i < l)]; ring

theorem mom_even (k : ℕ) : mom a B (2 * k) = kryH B k + ∑ l ∈ range k, kry a B k l ^ 2 * kryH B l := by
  rw [two_mul, mom_add le_rfl, sum_range_succ, kry_diag, add_comm]
  congr 1
  · ring
  · exact sum_congr rfl fun l _ => by ring

theorem mom_odd (k : ℕ) : mom a B (2 * k + 1) = kry a B (k + 1) k * kryH B k
    + ∑ l ∈ range k, kry a B k l * kry a B (k + 1) l * kryH B l := by
  rw [show 2 * k + 1 = k + (k + 1) by ring, mom_add le_rfl, sum_range_succ, kry_diag, add_comm]
  congr 1
  ring

/-- remainder of the odd moment -/
def oddRem (a B : ℕ → ℝ) : ℕ → ℝ
  | 0 => 0
  | k + 1 => kry a B (k + 1) k

theorem kry_succ_diag (k : ℕ) : kry a B (k + 1) k = a k + oddRem a B k := by
  cases k with
  | zero => simp [kry, oddRem]
  | succ k => rw [kry, kry_diag, kry_zero_of_lt (by omega : k + 1 < k + 2), oddRem]; ring

variable {a' B' : ℕ → ℝ}

theorem kry_congr : ∀ {k : ℕ}, (∀ i < k, a i = a' i) → (∀ i < k, B i = B' i) → ∀ i, kry a B k i = kry a' B' k i
  | 0, _, _, i => by rw [kry, kry]
  | k + 1, ha, hB, 0 => by
    have ih := kry_congr (fun i hi => ha i (Nat.lt_succ_of_lt hi)) (fun i hi => hB i (Nat.lt_succ_of_lt hi))
    rw [kry, kry, ih, ih, ha 0 (by omega)]
    rcases Nat.lt_or_ge k 1 with hk | hk
    · rw [kry_zero_of_lt hk]; ring
    · rw [hB 1 (by omega)]
  | k + 1, ha, hB, i + 1 => by
    have ih := kry_congr (fun i hi => ha i (Nat.lt_succ_of_lt hi)) (fun i hi => hB i (Nat.lt_succ_of_lt hi))
    rw [kry, kry, ih, ih, ih]
    rcases Nat.lt_or_ge k (i + 1) with hk | hk
    · rw [kry_zero_of_lt hk, kry_zero_of_lt (by omega : k < i + 2)]; ring
    · rw [ha (i + 1) (by omega)]
      rcases Nat.lt_or_ge k (i + 2) with hk | hk
      · rw [kry_zero_of_lt hk]; ring
      · rw [hB (i + 2) (by omega)]

theorem kryH_congr {k : ℕ} (hB : ∀ i ≤ k, B i = B' i) : kryH B k = kryH B' k :=
  prod_congr rfl fun i hi => hB i (by simp at hi; omega)

/-- remainder of the even moments: depends on the coefficients of index `< k` only -/
def evRem (a B : ℕ → ℝ) (k : ℕ) : ℝ := ∑ l ∈ range k, kry a B k l ^ 2 * kryH B l

theorem evRem_congr {k : ℕ} (ha : ∀ i < k, a i = a' i) (hB : ∀ i < k, B i = B' i) : evRem a B k = evRem a' B' k := by
  refine sum_congr rfl fun l hl => ?_
  have hl' := mem_range.1 hl
  rw [kry_congr ha hB, kryH_congr fun i hi => hB i (by omega)]

/-- remainder of the odd moments: depends on `a i`, `i < k` and `B i`, `i ≤ k` only -/
def odRem (a B : ℕ → ℝ) (k : ℕ) : ℝ :=
  oddRem a B k * kryH B k + ∑ l ∈ range k, kry a B k l * kry a B (k + 1) l * kryH B l

theorem odRem_congr {k : ℕ} (ha : ∀ i < k, a i = a' i) (hB : ∀ i ≤ k, B i = B' i) : odRem a B k = odRem a' B' k := by
  have hB' : ∀ i < k, B i = B' i := fun i hi => hB i hi.le
  rw [odRem, odRem, kryH_congr hB]
  congr 1
  · congr 1
    cases k with
    | zero => rfl
    | succ k => rw [oddRem, oddRem, kry_congr ha hB']
  · refine sum_congr rfl fun l hl => ?_
    have hl' := mem_range.1 hl
    rw [kry_congr ha hB', kryH_congr fun i hi => hB' i (by omega)]
    congr 2
    cases l with
    | zero => rw [kry, kry, kry_congr ha hB', kry_congr ha hB', ha 0 (by omega), hB 1 (by omega)]
    | succ l =>
      rw [kry, kry, kry_congr ha hB', kry_congr ha hB', kry_congr ha hB', ha (l + 1) (by omega), hB (l + 2) (by omega)]

theorem mom_even' (k : ℕ) : mom a B (2 * k) = kryH B k + evRem a B k := mom_even k

theorem mom_odd' (k : ℕ) : mom a B (2 * k + 1) = kryH B k * a k + odRem a B k := by
  rw [mom_odd, kry_succ_diag, odRem]; ring

theorem kryH_pos {k : ℕ} (h : ∀ i ≤ k, 0 < B i) : 0 < kryH B k :=
  prod_pos fun i hi => h i (by simp at hi; omega)

/-- moments of order `< 2 N` only depend on the first `N` coefficients -/
theorem mom_congr {N k : ℕ} (hk : k < 2 * N) (ha : ∀ i < N, a i = a' i) (hB : ∀ i < N, B i = B' i) :
    mom a B k = mom a' B' k := by
  rcases Nat.even_or_odd' k with ⟨m, rfl | rfl⟩
  · rw [mom_even', mom_even', kryH_congr fun i hi => hB i (by omega),
      evRem_congr (fun i hi => ha i (by omega)) (fun i hi => hB i (by omega))]
  · rw [mom_odd', mom_odd', kryH_congr fun i hi => hB i (by omega), ha m (by omega),
      odRem_congr (fun i hi => ha i (by omega)) (fun i hi => hB i (by omega))]

/-- the moments determine the coefficients -/
theorem mom_inj {N : ℕ} (hB : ∀ i < N, 0 < B i) (hB' : ∀ i < N, 0 < B' i) (h : ∀ k < 2 * N, mom a B k = mom a' B' k) :
    ∀ k ≤ N, (∀ i < k, a i = a' i) ∧ ∀ i < k, B i = B' i := by
  intro k
  induction k with
  | zero => intro _; exact ⟨fun i hi => by omega, fun i hi => by omega⟩
  | succ k ih =>
    intro hk
    obtain ⟨iha, ihB⟩ := ih (by omega)
    have e := h (2 * k) (by omega)
    rw [mom_even', mom_even', evRem_congr iha ihB] at e
    have hH : kryH B k = kryH B' k := by linarith
    have hBk : B k = B' k := by
      cases k with
      | zero => simpa [kryH] using hH
      | succ k =>
        rw [kryH_succ, kryH_succ, kryH_congr (fun i hi => ihB i (by omega))] at hH
        exact mul_left_cancel₀ (kryH_pos fun i hi => hB' i (by omega)).ne' hH
    have hB1 : ∀ i ≤ k, B i = B' i := fun i hi => by
      rcases Nat.lt_or_ge i k with h | h
      · exact ihB i h
      · rw [show i = k by omega]; exact hBk
    have o := h (2 * k + 1) (by omega)
    rw [mom_odd', mom_odd', odRem_congr iha hB1, hH] at o
    have hak : a k = a' k := mul_left_cancel₀ (kryH_pos fun i hi => hB' i (by omega)).ne' (add_right_cancel o)
    refine ⟨fun i hi => ?_, fun i hi => hB1 i (by omega)⟩
    rcases Nat.lt_or_ge i k with h | h
    · exact iha i h
    · rw [show i = k by omega]; exact hak

/-! ### Orthogonal polynomials of a measure with finite support -/

open Polynomial

variable {N : ℕ}

/-- inner product of polynomials -/
noncomputable def dip (lam w : Fin N → ℝ) (p q : ℝ[X]) : ℝ := ∑ j, w j * p.eval (lam j) * q.eval (lam j)

theorem dip_comm (lam w : Fin N → ℝ) (p q : ℝ[X]) : dip lam w p q = dip lam w q p :=
  sum_congr rfl fun j _ => by ring

theorem dip_add (lam w : Fin N → ℝ) (p q r : ℝ[X]) : dip lam w (p + q) r = dip lam w p r + dip lam w q r := by
  rw [dip, dip, dip, ← sum_add_distrib]; exact sum_congr rfl fun j _ => by rw [eval_add]; ring

theorem dip_smul (lam w : Fin N → ℝ) (c : ℝ) (p r : ℝ[X]) : dip lam w (C c * p) r = c * dip lam w p r := by
  rw [dip, dip, mul_sum]; exact sum_congr rfl fun j _ => by rw [eval_mul, eval_C]; ring

theorem dip_X (lam w : Fin N → ℝ) (p r : ℝ[X]) : dip lam w (X * p) r = dip lam w p (X * r) :=
  sum_congr rfl fun j _ => by rw [eval_mul, eval_mul, eval_X]; ring

/-- the pair `(P_{k-1}, P_k)` of the Stieltjes procedure -/
noncomputable def stj (lam w : Fin N → ℝ) : ℕ → ℝ[X] × ℝ[X]
  | 0 => (0, 1)
  | k + 1 => ((stj lam w k).2,
      (X - C (dip lam w (X * (stj lam w k).2) (stj lam w k).2 / dip lam w (stj lam w k).2 (stj lam w k).2)) * (stj lam w k).2
        - C (dip lam w (stj lam w k).2 (stj lam w k).2 / dip lam w (stj lam w k).1 (stj lam w k).1) * (stj lam w k).1)

/-- orthogonal polynomials -/
noncomputable def opl (lam w : Fin N → ℝ) (k : ℕ) : ℝ[X] := (stj lam w k).2

/-- recurrence coefficients -/
noncomputable def stjA (lam w : Fin N → ℝ) (k : ℕ) : ℝ :=
  dip lam w (X * opl lam w k) (opl lam w k) / dip lam w (opl lam w k) (opl lam w k)

/-- recurrence coefficients -/
noncomputable def stjB (lam w : Fin N → ℝ) : ℕ → ℝ
  | 0 => dip lam w 1 1
  | k + 1 => dip lam w (opl lam w (k + 1)) (opl lam w (k + 1)) / dip lam w (opl lam w k) (opl lam w k)

variable (lam w : Fin N → ℝ)

theorem opl_zero : opl lam w 0 = 1 := rfl

theorem opl_one : opl lam w 1 = (X - C (stjA lam w 0)) := by
  rw [opl, stj]
  simp only [stj, mul_zero, sub_zero, mul_one, stjA, opl]

theorem opl_succ (k : ℕ) : opl lam w (k + 2) = (X - C (stjA lam w (k + 1))) * opl lam w (k + 1)
    - C (stjB lam w (k + 1)) * opl lam w k := rfl

theorem X_opl_zero : X * opl lam w 0 = opl lam w 1 + C (stjA lam w 0) * opl lam w 0 := by
  rw [opl_one, opl_zero]; ring

theorem X_opl (k : ℕ) : X * opl lam w (k + 1) = opl lam w (k + 2) + C (stjA lam w (k + 1)) * opl lam w (k + 1)
    + C (stjB lam w (k + 1)) * opl lam w k := by rw [opl_succ]; ring

theorem opl_monic : ∀ k, (opl lam w k).Monic ∧ (opl lam w k).natDegree = k
  | 0 => ⟨monic_one, natDegree_one⟩
  | 1 => by rw [opl_one]; exact ⟨monic_X_sub_C _, natDegree_X_sub_C _⟩
  | k + 2 => by
    obtain ⟨m1, d1⟩ := opl_monic k
    obtain ⟨m2, d2⟩ := opl_monic (k + 1)
    have hm : ((X - C (stjA lam w (k + 1))) * opl lam w (k + 1)).Monic := (monic_X_sub_C _).mul m2
    have hd : ((X - C (stjA lam w (k + 1))) * opl lam w (k + 1)).natDegree = k + 2 := by
      rw [(monic_X_sub_C _).natDegree_mul m2, natDegree_X_sub_C, d2]; ring
    have hlt : (C (stjB lam w (k + 1)) * opl lam w k).natDegree
        < ((X - C (stjA lam w (k + 1))) * opl lam w (k + 1)).natDegree := by
      rw [hd]
      refine lt_of_le_of_lt (natDegree_C_mul_le _ _) ?_
      rw [d1]; omega
    rw [opl_succ]
    refine ⟨hm.sub_of_left (degree_lt_degree hlt), ?_⟩
    rw [natDegree_sub_eq_left_of_natDegree_lt hlt, hd]

variable {lam w}

theorem dip_self_pos (hl : Function.Injective lam) (hw : ∀ j, 0 < w j) {p : ℝ[X]} (hp : p ≠ 0) (hd : p.natDegree < N) :
    0 < dip lam w p p := by
  have h0 : ∀ j ∈ univ, 0 ≤ w j * p.eval (lam j) * p.eval (lam j) := fun j _ => by
    rw [mul_assoc]; exact mul_nonneg (hw j).le (mul_self_nonneg _)
  refine lt_of_le_of_ne (sum_nonneg h0) fun h => hp ?_
  have hz := (sum_eq_zero_iff_of_nonneg h0).1 h.symm
  refine eq_zero_of_natDegree_lt_card_of_eval_eq_zero p hl (fun j => ?_) (by simpa using hd)
  have := hz j (mem_univ j)
  rw [mul_assoc] at this
  rcases mul_eq_zero.1 this with h | h
  · exact absurd h (hw j).ne'
  · exact mul_self_eq_zero.1 h

theorem opl_pos (hl : Function.Injective lam) (hw : ∀ j, 0 < w j) {k : ℕ} (hk : k < N) :
    0 < dip lam w (opl lam w k) (opl lam w k) :=
  dip_self_pos hl hw (opl_monic lam w k).1.ne_zero (by rw [(opl_monic lam w k).2]; exact hk)

theorem dip_sub (lam w : Fin N → ℝ) (p q r : ℝ[X]) : dip lam w (p - q) r = dip lam w p r - dip lam w q r := by
  rw [dip, dip, dip, ← sum_sub_distrib]; exact sum_congr rfl fun j _ => by rw [eval_sub]; ring

theorem opl_orth (hl : Function.Injective lam) (hw : ∀ j, 0 < w j) : ∀ {k i : ℕ}, k ≤ N → i < k →
    dip lam w (opl lam w k) (opl lam w i) = 0
  | 1, i, hk, hi => by
    obtain rfl : i = 0 := by omega
    have h := X_opl_zero lam w
    have h1 : opl lam w 1 = X * opl lam w 0 - C (stjA lam w 0) * opl lam w 0 := by rw [h]; ring
    rw [h1, dip_sub, dip_smul, stjA, div_mul_cancel₀ _ (opl_pos hl hw (by omega)).ne', sub_self]
  | k + 2, i, hk, hi => by
    have h1 : opl lam w (k + 2) = X * opl lam w (k + 1) - C (stjA lam w (k + 1)) * opl lam w (k + 1)
        - C (stjB lam w (k + 1)) * opl lam w k := by rw [opl_succ]; ring
    have ih := fun {j : ℕ} (hj : j < k + 1) => opl_orth hl hw (k := k + 1) (i := j) (by omega) hj
    rw [h1, dip_sub, dip_sub, dip_smul, dip_smul]
    rcases Nat.lt_trichotomy i k with h | h | h
    · -- i < k
      rw [dip_X]
      have hX : dip lam w (opl lam w (k + 1)) (X * opl lam w i) = 0 := by
        cases i with
        | zero =>
          rw [X_opl_zero, dip_comm, dip_add, dip_smul, dip_comm _ _ (opl lam w 1), dip_comm _ _ (opl lam w 0), ih (by omega),
            ih (by omega)]
          ring
        | succ i =>
          rw [X_opl, dip_comm, dip_add, dip_add, dip_smul, dip_smul, dip_comm _ _ (opl lam w (i + 2)),
            dip_comm _ _ (opl lam w (i + 1)), dip_comm _ _ (opl lam w i), ih (by omega), ih (by omega), ih (by omega)]
          ring
      have hk' : dip lam w (opl lam w k) (opl lam w i) = 0 := opl_orth hl hw (by omega) h
      rw [hX, ih (by omega), hk']
      ring
    · subst h
      rw [dip_X]
      have hX : dip lam w (opl lam w (i + 1)) (X * opl lam w i) = dip lam w (opl lam w (i + 1)) (opl lam w (i + 1)) := by
        cases i with
        | zero =>
          rw [X_opl_zero, dip_comm, dip_add, dip_smul, dip_comm _ _ (opl lam w 0), ih (j := 0) (by omega)]
          ring
        | succ i =>
          rw [X_opl, dip_comm, dip_add, dip_add, dip_smul, dip_smul, dip_comm _ _ (opl lam w (i + 1)),
            dip_comm _ _ (opl lam w i), ih (j := i + 1) (by omega), ih (j := i) (by omega)]
          ring
      rw [hX, ih (j := i) (by omega), stjB, div_mul_cancel₀ _ (opl_pos hl hw (by omega)).ne']
      ring
    · obtain rfl : i = k + 1 := by omega
      have hk' : dip lam w (opl lam w k) (opl lam w (k + 1)) = 0 := by rw [dip_comm]; exact ih (by omega)
      rw [hk', stjA, div_mul_cancel₀ _ (opl_pos hl hw (by omega)).ne']
      ring

theorem opl_orth_ne (hl : Function.Injective lam) (hw : ∀ j, 0 < w j) {k i : ℕ} (hk : k ≤ N) (hi : i ≤ N) (hne : k ≠ i) :
    dip lam w (opl lam w k) (opl lam w i) = 0 := by
  rcases Nat.lt_or_gt_of_ne hne with h | h
  · rw [dip_comm]; exact opl_orth hl hw hi h
  · exact opl_orth hl hw hk h

theorem stjB_pos (hl : Function.Injective lam) (hw : ∀ j, 0 < w j) {k : ℕ} (hk : k < N) : 0 < stjB lam w k := by
  cases k with
  | zero => exact opl_pos hl hw (k := 0) hk
  | succ k => exact div_pos (opl_pos hl hw hk) (opl_pos hl hw (by omega))

theorem kryH_stj (hl : Function.Injective lam) (hw : ∀ j, 0 < w j) : ∀ {k : ℕ}, k < N →
    kryH (stjB lam w) k = dip lam w (opl lam w k) (opl lam w k)
  | 0, _ => by simp [kryH, stjB, opl_zero]
  | k + 1, hk => by
    rw [kryH_succ, kryH_stj hl hw (by omega), stjB, mul_div_cancel₀ _ (opl_pos hl hw (by omega)).ne']

/-- expansion of the monomials -/
theorem X_pow_opl : ∀ k n : ℕ, k ≤ n →
    (X ^ k : ℝ[X]) = ∑ i ∈ range (n + 1), C (kry (stjA lam w) (stjB lam w) k i) * opl lam w i
  | 0, n, _ => by
    rw [sum_eq_single 0]
    · simp [kry, opl_zero]
    · intro i _ hi; rw [kry, if_neg hi]; simp
    · simp
  | k + 1, n, h => by
    obtain ⟨n, rfl⟩ : ∃ m, n = m + 1 := ⟨n - 1, by omega⟩
    set a := stjA lam w
    set B := stjB lam w
    rw [pow_succ', X_pow_opl k n (by omega), mul_sum]
    have h1 : ∑ i ∈ range (n + 1), X * (C (kry a B k i) * opl lam w i)
        = ∑ i ∈ range (n + 1), C (kry a B k i) * opl lam w (i + 1)
          + ∑ i ∈ range (n + 1), C (kry a B k i * a i) * opl lam w i
          + ∑ i ∈ range n, C (kry a B k (i + 1) * B (i + 1)) * opl lam w i := by
      rw [sum_range_succ' (fun i => X * (C (kry a B k i) * opl lam w i)),
        sum_range_succ' (fun i => C (kry a B k i) * opl lam w (i + 1)),
        sum_range_succ' (fun i => C (kry a B k i * a i) * opl lam w i)]
      have : ∑ i ∈ range n, X * (C (kry a B k (i + 1)) * opl lam w (i + 1))
          = ∑ i ∈ range n, C (kry a B k (i + 1)) * opl lam w (i + 1 + 1)
            + ∑ i ∈ range n, C (kry a B k (i + 1) * a (i + 1)) * opl lam w (i + 1)
            + ∑ i ∈ range n, C (kry a B k (i + 1) * B (i + 1)) * opl lam w i := by
        rw [← sum_add_distrib, ← sum_add_distrib]
        refine sum_congr rfl fun i _ => ?_
        rw [show X * (C (kry a B k (i + 1)) * opl lam w (i + 1)) = C (kry a B k (i + 1)) * (X * opl lam w (i + 1)) by ring,
          X_opl, C_mul, C_mul]
        ring
      rw [this, show X * (C (kry a B k 0) * opl lam w 0) = C (kry a B k 0) * (X * opl lam w 0) by ring, X_opl_zero, C_mul]
      ring
    have h2 : ∑ i ∈ range (n + 1 + 1), C (kry a B (k + 1) i) * opl lam w i
        = ∑ i ∈ range (n + 1), C (kry a B k i) * opl lam w (i + 1)
          + ∑ i ∈ range (n + 1 + 1), C (kry a B k i * a i) * opl lam w i
          + ∑ i ∈ range (n + 1 + 1), C (kry a B k (i + 1) * B (i + 1)) * opl lam w i := by
      rw [sum_range_succ' (fun i => C (kry a B (k + 1) i) * opl lam w i),
        sum_range_succ' (fun i => C (kry a B k i * a i) * opl lam w i),
        sum_range_succ' (fun i => C (kry a B k (i + 1) * B (i + 1)) * opl lam w i)]
      have : ∑ i ∈ range (n + 1), C (kry a B (k + 1) (i + 1)) * opl lam w (i + 1)
          = ∑ i ∈ range (n + 1), C (kry a B k i) * opl lam w (i + 1)
            + ∑ i ∈ range (n + 1), C (kry a B k (i + 1) * a (i + 1)) * opl lam w (i + 1)
            + ∑ i ∈ range (n + 1), C (kry a B k (i + 1 + 1) * B (i + 1 + 1)) * opl lam w (i + 1) := by
        rw [← sum_add_distrib, ← sum_add_distrib]
        refine sum_congr rfl fun i _ => ?_
        rw [kry]
        simp only [C_add, C_mul]
        ring
      rw [this, kry]
      simp only [C_add, C_mul]
      ring
    rw [h1, h2]
    congr 1
    · congr 1
      rw [sum_range_succ _ (n + 1), kry_zero_of_lt (by omega : k < n + 1)]
      simp
    · rw [sum_range_succ _ (n + 1), sum_range_succ _ n, kry_zero_of_lt (by omega : k < n + 1),
        kry_zero_of_lt (by omega : k < n + 1 + 1)]
      simp

theorem dip_sum_left (s : Finset ℕ) (c : ℕ → ℝ) (f : ℕ → ℝ[X]) (r : ℝ[X]) :
    dip lam w (∑ i ∈ s, C (c i) * f i) r = ∑ i ∈ s, c i * dip lam w (f i) r := by
  classical
  induction s using Finset.induction_on with
  | empty => simp [dip]
  | insert i s hi ih => rw [sum_insert hi, sum_insert hi, dip_add, dip_smul, ih]

/-- the Stieltjes procedure inverts the moment map -/
theorem mom_stj (hl : Function.Injective lam) (hw : ∀ j, 0 < w j) {k : ℕ} (hk : k < 2 * N) :
    mom (stjA lam w) (stjB lam w) k = ∑ j, w j * lam j ^ k := by
  obtain ⟨i, j, hi, hj, rfl⟩ : ∃ i j, i < N ∧ j ≤ N ∧ k = i + j := by
    rcases Nat.lt_or_ge k N with h | h
    · exact ⟨k, 0, h, by omega, by omega⟩
    · exact ⟨N - 1, k - (N - 1), by omega, by omega, by omega⟩
  set a := stjA lam w
  set B := stjB lam w
  have h1 : dip lam w (X ^ i) (X ^ j) = ∑ l, w l * lam l ^ (i + j) := by
    rw [dip]; exact sum_congr rfl fun l _ => by rw [eval_pow, eval_pow, eval_X, pow_add]; ring
  rw [← h1, X_pow_opl (lam := lam) (w := w) i i le_rfl, dip_sum_left, mom_add le_rfl]
  refine sum_congr rfl fun l hl' => ?_
  have hl'' : l ≤ i := by simp at hl'; omega
  rw [dip_comm, X_pow_opl (lam := lam) (w := w) j N hj, dip_sum_left, sum_eq_single l]
  · rw [kryH_stj hl hw (by omega)]; ring
  · intro l' hl' hne
    rw [opl_orth_ne hl hw (by simp at hl'; omega) (by omega) hne, mul_zero]
  · intro h; simp at h; omega

end Verif.Lemmas
