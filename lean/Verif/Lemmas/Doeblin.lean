import Mathlib.Data.Matrix.Mul
import Mathlib.LinearAlgebra.Matrix.DotProduct
import Mathlib.Data.Real.Basic
import Mathlib.Logic.Relation
import Mathlib.Tactic.Linarith
import Mathlib.Tactic.Ring
import Mathlib.Tactic.Positivity

/-!
Convergence of finite Markov chains: a lazy chain from which a fixed state can be reached forgets its initial state
geometrically fast (Doeblin's condition).
-/

namespace Verif.Lemmas.Doeblin
open Matrix Relation

variable {X : Type*} [Fintype X] [DecidableEq X]

/-- `P` is a transition matrix on the states `V` -/
structure Chain (P : Matrix X X ℝ) (V : X → Prop) : Prop where
  nonneg : ∀ x y, V x → 0 ≤ P x y
  one : ∀ x, V x → ∑ y, P x y = 1
  closed : ∀ x y, V x → ¬ V y → P x y = 0

variable {P Q : Matrix X X ℝ} {V : X → Prop}

theorem Chain.id : Chain (1 : Matrix X X ℝ) V := by
  refine ⟨fun x y _ => ?_, fun x _ => ?_, fun x y hx hy => ?_⟩
  · rw [Matrix.one_apply]; split <;> norm_num
  · simp [Matrix.one_apply]
  · rw [Matrix.one_apply, if_neg]; rintro rfl; exact hy hx

theorem Chain.mul (hP : Chain P V) (hQ : Chain Q V) : Chain (P * Q) V := by
  refine ⟨fun x y hx => ?_, fun x hx => ?_, fun x y hx hy => ?_⟩
  · rw [Matrix.mul_apply]
    refine Finset.sum_nonneg fun w _ => ?_
    by_cases hw : V w
    · exact mul_nonneg (hP.nonneg x w hx) (hQ.nonneg w y hw)
    · rw [hP.closed x w hx hw, zero_mul]
  · simp only [Matrix.mul_apply]
    rw [Finset.sum_comm]
    simp only [← Finset.mul_sum]
    rw [← hP.one x hx]
    refine Finset.sum_congr rfl fun w _ => ?_
    by_cases hw : V w
    · rw [hQ.one w hw, mul_one]
    · rw [hP.closed x w hx hw, zero_mul]
  · rw [Matrix.mul_apply]
    refine Finset.sum_eq_zero fun w _ => ?_
    by_cases hw : V w
    · rw [hQ.closed w y hw hy, mul_zero]
    · rw [hP.closed x w hx hw, zero_mul]

theorem Chain.pow (hP : Chain P V) : ∀ n : ℕ, Chain (P ^ n) V
  | 0 => by rw [pow_zero]; exact Chain.id
  | n + 1 => by rw [pow_succ]; exact (hP.pow n).mul hP

theorem Chain.mul_pos (hP : Chain P V) (hQ : Chain Q V) {x y z : X} (hx : V x) (h1 : 0 < P x y) (h2 : 0 < Q y z) :
    0 < (P * Q) x z := by
  rw [Matrix.mul_apply]
  refine Finset.sum_pos' (fun w _ => ?_) ⟨y, Finset.mem_univ y, _root_.mul_pos h1 h2⟩
  by_cases hw : V w
  · exact mul_nonneg (hP.nonneg x w hx) (hQ.nonneg w z hw)
  · rw [hP.closed x w hx hw, zero_mul]

theorem Chain.mem (hP : Chain P V) {x y : X} (hx : V x) (h : 0 < P x y) : V y := by
  by_contra hy
  rw [hP.closed x y hx hy] at h
  exact lt_irrefl _ h

theorem Chain.reach (hP : Chain P V) {x z : X} (hx : V x) (h : ReflTransGen (fun a b => 0 < P a b) x z) :
    V z ∧ ∃ n, 0 < (P ^ n) x z := by
  induction h with
  | refl => exact ⟨hx, 0, by simp⟩
  | tail _ h ih =>
    obtain ⟨hb, n, hn⟩ := ih
    exact ⟨hP.mem hb h, n + 1, by rw [pow_succ]; exact (hP.pow n).mul_pos hP hx hn h⟩

theorem Chain.stay (hP : Chain P V) {z : X} (hz : V z) (h : 0 < P z z) : ∀ n : ℕ, 0 < (P ^ n) z z
  | 0 => by simp
  | n + 1 => by rw [pow_succ]; exact (hP.pow n).mul_pos hP hz (hP.stay hz h n) h

/-- after `m` steps the state `z` has probability at least `c`, wherever the chain starts -/
theorem Chain.minorize (hP : Chain P V) {z : X} (hzz : 0 < P z z)
    (hr : ∀ x, V x → ReflTransGen (fun a b => 0 < P a b) x z) :
    ∃ m : ℕ, 0 < m ∧ ∃ c : ℝ, 0 < c ∧ c ≤ 1 ∧ ∀ x, V x → c ≤ (P ^ m) x z := by
  classical
  have h1 : ∀ x, ∃ n : ℕ, V x → 0 < (P ^ n) x z := by
    intro x
    by_cases hx : V x
    · obtain ⟨_, n, hn⟩ := hP.reach hx (hr x hx)
      exact ⟨n, fun _ => hn⟩
    · exact ⟨0, fun h => absurd h hx⟩
  choose n hn using h1
  obtain ⟨m, hm⟩ : ∃ m, m = 1 + ∑ x, n x := ⟨_, rfl⟩
  have h2 : ∀ x, V x → 0 < (P ^ m) x z := by
    intro x hx
    have h3 : n x ≤ ∑ x, n x := Finset.single_le_sum (f := n) (fun _ _ => Nat.zero_le _) (Finset.mem_univ x)
    have hz := (hP.reach hx (hr x hx)).1
    rw [show m = n x + (m - n x) by omega, pow_add]
    exact (hP.pow _).mul_pos (hP.pow _) hx (hn x hx) (hP.stay hz hzz _)
  refine ⟨m, by omega, ?_⟩
  rcases (Finset.univ.filter V).eq_empty_or_nonempty with he | he
  · refine ⟨1, one_pos, le_rfl, fun x hx => ?_⟩
    have : x ∈ Finset.univ.filter V := by simp [hx]
    rw [he] at this
    simp at this
  · obtain ⟨x, hx, hmin⟩ := Finset.exists_min_image (Finset.univ.filter V) (fun x => (P ^ m) x z) he
    have hx : V x := by simpa using hx
    refine ⟨(P ^ m) x z, h2 x hx, ?_, fun y hy => hmin y (by simp [hy])⟩
    rw [← (hP.pow m).one x hx]
    exact Finset.single_le_sum (f := fun y => (P ^ m) x y) (fun y _ => (hP.pow m).nonneg x y hx) (Finset.mem_univ z)

/-- signed measures of mass zero on `V` -/
structure Null (V : X → Prop) (u : X → ℝ) : Prop where
  sum : ∑ x, u x = 0
  supp : ∀ x, ¬ V x → u x = 0

theorem Null.vecMul {u : X → ℝ} (hu : Null V u) (hQ : Chain Q V) : Null V (u ᵥ* Q) := by
  refine ⟨?_, fun y hy => ?_⟩
  · simp only [Matrix.vecMul, dotProduct]
    rw [Finset.sum_comm]
    simp only [← Finset.mul_sum]
    rw [← hu.sum]
    refine Finset.sum_congr rfl fun w _ => ?_
    by_cases hw : V w
    · rw [hQ.one w hw, mul_one]
    · rw [hu.supp w hw, zero_mul]
  · simp only [Matrix.vecMul, dotProduct]
    refine Finset.sum_eq_zero fun w _ => ?_
    by_cases hw : V w
    · rw [hQ.closed w y hw hy, mul_zero]
    · rw [hu.supp w hw, zero_mul]

/-- a step contracts -/
theorem Null.contract {u : X → ℝ} (hu : Null V u) (hQ : Chain Q V) (z : X) {c : ℝ} (hc0 : 0 ≤ c)
    (hc : ∀ x, V x → c ≤ Q x z) : ∑ y, |(u ᵥ* Q) y| ≤ (1 - c) * ∑ x, |u x| := by
  have h1 : ∀ y, (u ᵥ* Q) y = ∑ w, u w * (Q w y - c * if y = z then 1 else 0) := by
    intro y
    simp only [Matrix.vecMul, dotProduct, mul_sub, Finset.sum_sub_distrib, ← Finset.sum_mul, hu.sum, zero_mul, sub_zero]
  have h2 : ∀ w y, V w → 0 ≤ Q w y - c * if y = z then 1 else 0 := by
    intro w y hw
    split
    · rename_i h; subst h; rw [mul_one]; linarith [hc w hw]
    · rw [mul_zero, sub_zero]; exact hQ.nonneg w y hw
  calc ∑ y, |(u ᵥ* Q) y| ≤ ∑ y, ∑ w, |u w| * (Q w y - c * if y = z then 1 else 0) := by
        refine Finset.sum_le_sum fun y _ => ?_
        rw [h1]
        refine (Finset.abs_sum_le_sum_abs _ _).trans (Finset.sum_le_sum fun w _ => ?_)
        by_cases hw : V w
        · rw [abs_mul, abs_of_nonneg (h2 w y hw)]
        · rw [hu.supp w hw]; simp
    _ = ∑ w, |u w| * ∑ y, (Q w y - c * if y = z then 1 else 0) := by
        rw [Finset.sum_comm]
        simp only [Finset.mul_sum]
    _ = ∑ w, |u w| * (1 - c) := by
        refine Finset.sum_congr rfl fun w _ => ?_
        by_cases hw : V w
        · rw [Finset.sum_sub_distrib, hQ.one w hw]
          simp
        · rw [hu.supp w hw]; simp
    _ = (1 - c) * ∑ x, |u x| := by rw [← Finset.sum_mul, mul_comm]

theorem Null.pow {u : X → ℝ} (hu : Null V u) (hQ : Chain Q V) (z : X) {c : ℝ} (hc0 : 0 ≤ c) (hc1 : c ≤ 1)
    (hc : ∀ x, V x → c ≤ Q x z) : ∀ q : ℕ, ∑ y, |(u ᵥ* Q ^ q) y| ≤ (1 - c) ^ q * ∑ x, |u x|
  | 0 => by simp
  | q + 1 => by
    rw [pow_succ, ← Matrix.vecMul_vecMul]
    refine ((hu.vecMul (hQ.pow q)).contract hQ z hc0 hc).trans ?_
    rw [pow_succ', mul_assoc]
    exact mul_le_mul_of_nonneg_left (hu.pow hQ z hc0 hc1 hc q) (by linarith)

/-- the law of a lazy chain that can reach `z` from everywhere converges geometrically, whatever the initial state, to
its invariant law -/
theorem Chain.converge (hP : Chain P V) {z : X} (hzz : 0 < P z z)
    (hr : ∀ x, V x → ReflTransGen (fun a b => 0 < P a b) x z) (p : X → ℝ) (hp0 : ∀ x, 0 ≤ p x)
    (hp1 : ∑ x, p x = 1) (hpV : ∀ x, ¬ V x → p x = 0) (hinv : p ᵥ* P = p) :
    ∃ m : ℕ, 0 < m ∧ ∃ c : ℝ, 0 < c ∧ c ≤ 1 ∧ ∀ x, V x → ∀ j : ℕ,
      ∑ y, |(P ^ j) x y - p y| ≤ 2 * (1 - c) ^ (j / m) := by
  obtain ⟨m, hm, c, hc0, hc1, hc⟩ := hP.minorize hzz hr
  refine ⟨m, hm, c, hc0, hc1, fun x hx j => ?_⟩
  have hinvj : ∀ j : ℕ, p ᵥ* P ^ j = p := by
    intro j
    induction j with
    | zero => simp
    | succ j ih => rw [pow_succ, ← Matrix.vecMul_vecMul, ih, hinv]
  have hu : Null V (Pi.single x 1 - p) := by
    refine ⟨?_, fun y hy => ?_⟩
    · simp [Finset.sum_sub_distrib, hp1]
    · have : y ≠ x := by rintro rfl; exact hy hx
      simp [hpV y hy, this]
  have hn : ∑ y, |(Pi.single x 1 - p : X → ℝ) y| ≤ 2 := by
    calc ∑ y, |(Pi.single x 1 - p : X → ℝ) y| ≤ ∑ y, ((Pi.single x 1 : X → ℝ) y + p y) := by
          refine Finset.sum_le_sum fun y _ => ?_
          have h0 : (0 : ℝ) ≤ (Pi.single x 1 : X → ℝ) y := by
            rw [Pi.single_apply]; split <;> norm_num
          rw [Pi.sub_apply, abs_le]
          constructor <;> linarith [hp0 y]
      _ = 2 := by rw [Finset.sum_add_distrib, hp1]; simp; norm_num
  have he : ∀ y, (P ^ j) x y - p y = ((Pi.single x 1 - p) ᵥ* P ^ j) y := by
    intro y
    rw [Matrix.sub_vecMul, hinvj, Pi.sub_apply, Matrix.single_one_vecMul]
    rfl
  simp only [he]
  have hj : P ^ j = (P ^ m) ^ (j / m) * P ^ (j % m) := by
    rw [← pow_mul, ← pow_add, Nat.div_add_mod]
  rw [hj, ← Matrix.vecMul_vecMul]
  have h1 := (hu.vecMul ((hP.pow m).pow (j / m))).contract (hP.pow (j % m)) z le_rfl
    fun y hy => (hP.pow (j % m)).nonneg y z hy
  have h2 := hu.pow (hP.pow m) z hc0.le hc1 hc (j / m)
  rw [sub_zero, one_mul] at h1
  refine h1.trans (h2.trans ?_)
  rw [mul_comm]
  exact mul_le_mul_of_nonneg_right hn (pow_nonneg (by linarith) _)

end Verif.Lemmas.Doeblin
