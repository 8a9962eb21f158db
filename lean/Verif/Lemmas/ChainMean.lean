import Verif.Lemmas.McmcConverge
import Verif.Lemmas.WilsonLim
import Verif.Props.MCMC

/-!
Means along the add-delete and exchange chains: the mean square error decreases like the inverse of the number of
iterations.
-/

namespace Verif.Lemmas.ChainMean
open Verif Verif.Spec Verif.Model Verif.Dist Matrix

variable {N : ℕ} {K : Matrix (Fin N) (Fin N) ℝ}

/-! ### geometric sums -/

theorem geom_block {q : ℝ} {m : ℕ} (hm : 0 < m) (n : ℕ) :
    ∑ j ∈ Finset.range (m * n), q ^ (j / m) = m * ∑ i ∈ Finset.range n, q ^ i := by
  induction n with
  | zero => simp
  | succ n ih =>
    rw [Nat.mul_succ, Finset.sum_range_add, ih, Finset.sum_range_succ, mul_add]
    congr 1
    rw [Finset.sum_congr rfl fun r hr => by
      rw [Nat.mul_add_div hm, Nat.div_eq_of_lt (Finset.mem_range.1 hr), add_zero]]
    simp

theorem geom_le {c : ℝ} (h0 : 0 < c) (h1 : c ≤ 1) {m : ℕ} (hm : 0 < m) (n : ℕ) :
    ∑ j ∈ Finset.range n, (1 - c) ^ (j / m) ≤ m / c := by
  have hq : 0 ≤ 1 - c := by linarith
  have h2 : ∑ j ∈ Finset.range n, (1 - c) ^ (j / m) ≤ ∑ j ∈ Finset.range (m * n), (1 - c) ^ (j / m) :=
    Finset.sum_le_sum_of_subset_of_nonneg
      (Finset.range_subset_range.2 (Nat.le_mul_of_pos_left n hm)) fun _ _ _ => pow_nonneg hq _
  refine h2.trans ?_
  rw [geom_block hm, div_eq_mul_inv]
  refine mul_le_mul_of_nonneg_left ?_ (Nat.cast_nonneg m)
  have h3 : (∑ i ∈ Finset.range n, (1 - c) ^ i) * c = 1 - (1 - c) ^ n := by
    have := geom_sum_mul (1 - c) n
    linarith
  have h4 : 0 ≤ (1 - c) ^ n := pow_nonneg hq n
  rw [← one_div, le_div_iff₀ h0, h3]
  linarith

/-! ### a loop -/

section loop
variable {σ : Type*} {st : σ → Finset (Fin N)} {step : σ → Dist ℝ (Outcome σ)} {I : σ → Prop}
variable {M : Matrix (Finset (Fin N)) (Finset (Fin N)) ℝ}

/-- the loop without stopping -/
noncomputable def loop (step : σ → Dist ℝ (Outcome σ)) (it n : ℕ) (s : σ) : Dist ℝ (Outcome (List σ)) :=
  mcmcLoop step (fun _ => false) it n s

theorem E_loop_succ (it n : ℕ) (s : σ) (F : List σ → ℝ) :
    E (loop step it (n + 1) s) (lift F) = E (step s) (lift fun s' => E (loop step (it + 1) n s') (lift fun l => F (s' :: l))) := by
  rw [loop, mcmcLoop, E_andThen]
  simp only [Bool.false_eq_true, if_false, E_andThen, E_ret]
  rfl

theorem loop_nonneg (h : ∀ s, Nonneg (step s)) : ∀ n it s, Nonneg (loop step it n s) := by
  intro n
  induction n with
  | zero => intro it s; exact Nonneg.ret _
  | succ n ih =>
    intro it s
    rw [loop, mcmcLoop]
    refine Verif.Model.andThen_nonneg (h s) fun s' => ?_
    simp only [Bool.false_eq_true, if_false]
    exact Verif.Model.andThen_nonneg (ih _ _) fun _ => Nonneg.ret _

theorem E_lift_congr {α : Type*} {d : Dist ℝ (Outcome α)} {F G : α → ℝ} (h : ∀ a, F a = G a) :
    E d (lift F) = E d (lift G) := by
  refine E_congr fun x _ _ => ?_
  cases x <;> simp [lift, h]

theorem E_lift_add {α : Type*} (d : Dist ℝ (Outcome α)) (F G : α → ℝ) :
    E d (lift fun a => F a + G a) = E d (lift F) + E d (lift G) := by
  rw [← E_add]
  refine E_congr fun x _ _ => ?_
  cases x <;> simp [lift]

theorem E_lift_mul {α : Type*} (d : Dist ℝ (Outcome α)) (c : ℝ) (F : α → ℝ) :
    E d (lift fun a => c * F a) = c * E d (lift F) := by
  rw [← E_const_mul]
  refine E_congr fun x _ _ => ?_
  cases x <;> simp [lift]

variable (hn : ∀ s, Nonneg (step s)) (hI : ∀ s s', I s → (step s).Possible (.ok s') → I s')
  (hM : ∀ s, I s → ∀ F : Finset (Fin N) → ℝ, E (step s) (lift fun s' => F (st s')) = (M *ᵥ F) (st s))
  (hM1 : ∀ s, I s → (M *ᵥ fun _ => 1) (st s) = 1)

include hI hM hM1 in
theorem loop_one : ∀ n it s, I s → E (loop step it n s) (lift fun _ => 1) = 1 := fun n it s hs =>
  loop_mass (step := step) hI (fun s hs => (hM s hs fun _ => 1).trans (hM1 s hs)) n it s hs

include hI hM hM1 in
/-- the mean of the sum -/
theorem E_sum (g : Finset (Fin N) → ℝ) : ∀ n it s, I s →
    E (loop step it n s) (lift fun l => (l.map fun s' => g (st s')).sum)
      = ∑ j ∈ Finset.range n, ((M ^ (j + 1)) *ᵥ g) (st s) := by
  intro n
  induction n with
  | zero => intro it s _; simp [loop, mcmcLoop, lift]
  | succ n ih =>
    intro it s hs
    rw [E_loop_succ]
    have h1 : E (step s) (lift fun s' => E (loop step (it + 1) n s') (lift fun l => ((s' :: l).map fun s' => g (st s')).sum))
        = E (step s) (lift fun s' => (fun T => g T + ∑ j ∈ Finset.range n, ((M ^ (j + 1)) *ᵥ g) T) (st s')) := by
      refine Dist.E_congr_possible fun x hx => ?_
      cases x with
      | raise e => rfl
      | ok s' =>
        have hs' := hI _ _ hs hx
        simp only [lift, List.map_cons, List.sum_cons]
        rw [E_lift_add, ih _ _ hs']
        congr 1
        have := E_lift_mul (loop step (it + 1) n s') (g (st s')) fun _ => 1
        simp only [mul_one] at this
        rw [this, loop_one hI hM hM1 _ _ _ hs', mul_one]
    have h0 := hM s hs (fun T => g T + ∑ j ∈ Finset.range n, ((M ^ (j + 1)) *ᵥ g) T)
    beta_reduce at h0
    rw [h1]
    refine h0.trans ?_
    have h2 : (fun T => g T + ∑ j ∈ Finset.range n, ((M ^ (j + 1)) *ᵥ g) T)
        = g + ∑ j ∈ Finset.range n, ((M ^ (j + 1)) *ᵥ g) := by
      funext T; simp [Finset.sum_apply]
    rw [h2, Matrix.mulVec_add, Matrix.mulVec_sum, Finset.sum_range_succ', zero_add, pow_one, Pi.add_apply,
      Finset.sum_apply, add_comm]
    congr 1
    refine Finset.sum_congr rfl fun j _ => ?_
    rw [Matrix.mulVec_mulVec, ← pow_succ']

include hI hM hM1 in
/-- one more term -/
theorem E_sq_cons {g : Finset (Fin N) → ℝ} {B R D : ℝ} (hg : ∀ T, |g T| ≤ B) {n it : ℕ} {s : σ} (hs : I s) (T : Finset (Fin N))
    (hR : |∑ j ∈ Finset.range n, ((M ^ (j + 1)) *ᵥ g) (st s)| ≤ R)
    (hD : E (loop step it n s) (lift fun l => (l.map fun s' => g (st s')).sum ^ 2) ≤ D) :
    E (loop step it n s) (lift fun l => (g T + (l.map fun s' => g (st s')).sum) ^ 2) ≤ B ^ 2 + 2 * B * R + D := by
  have h1 : E (loop step it n s) (lift fun l => (g T + (l.map fun s' => g (st s')).sum) ^ 2)
      = E (loop step it n s) (lift fun l => (g T ^ 2 * 1 + (2 * g T) * (l.map fun s' => g (st s')).sum)
        + (l.map fun s' => g (st s')).sum ^ 2) := E_lift_congr fun l => by ring
  rw [h1, E_lift_add, E_lift_add, E_lift_mul, E_lift_mul, loop_one hI hM hM1 _ _ _ hs, E_sum hI hM hM1 g _ _ _ hs]
  have h2 : g T ^ 2 ≤ B ^ 2 := sq_le_sq' (neg_le_of_abs_le (hg T)) (le_of_abs_le (hg T))
  have h3 : g T * (∑ j ∈ Finset.range n, ((M ^ (j + 1)) *ᵥ g) (st s)) ≤ B * R := by
    refine (le_abs_self _).trans ?_
    rw [abs_mul]
    exact mul_le_mul (hg T) hR (abs_nonneg _) ((abs_nonneg _).trans (hg T))
  linarith

include hn hI hM hM1 in
/-- the mean square of the sum -/
theorem E_sq {g : Finset (Fin N) → ℝ} {B R : ℝ} (hg : ∀ T, |g T| ≤ B)
    (hR : ∀ s, I s → ∀ n, |∑ j ∈ Finset.range n, ((M ^ (j + 1)) *ᵥ g) (st s)| ≤ R) : ∀ n it s, I s →
    E (loop step it n s) (lift fun l => (l.map fun s' => g (st s')).sum ^ 2) ≤ n * (B ^ 2 + 2 * B * R) := by
  intro n
  induction n with
  | zero => intro it s _; simp [loop, mcmcLoop, lift]
  | succ n ih =>
    intro it s hs
    rw [E_loop_succ]
    have h1 : E (step s) (lift fun s' => E (loop step (it + 1) n s')
          (lift fun l => ((s' :: l).map fun s' => g (st s')).sum ^ 2))
        ≤ E (step s) (lift fun _ => ((n + 1 : ℕ) : ℝ) * (B ^ 2 + 2 * B * R) * 1) := by
      refine E_mono_possible (hn s) fun x hx => ?_
      cases x with
      | raise e => exact le_rfl
      | ok s' =>
        have hs' := hI _ _ hs hx
        simp only [lift, List.map_cons, List.sum_cons]
        refine (E_sq_cons hI hM hM1 hg hs' (st s') (hR s' hs' n) (ih (it + 1) s' hs')).trans (le_of_eq ?_)
        push_cast
        ring
    refine h1.trans (le_of_eq ?_)
    rw [E_lift_mul, hM s hs fun _ => 1, hM1 s hs, mul_one]

/-- the sums of the powers are bounded -/
theorem sum_pow_bound {p : Finset (Fin N) → ℝ} {m : ℕ} (hm : 0 < m) {c : ℝ} (h0 : 0 < c) (h1 : c ≤ 1) {S : Finset (Fin N)}
    (hc : ∀ j : ℕ, ∑ T, |(M ^ j) S T - p T| ≤ 2 * (1 - c) ^ (j / m)) {g : Finset (Fin N) → ℝ} {B : ℝ}
    (hg : ∀ T, |g T| ≤ B) (hp : ∑ T, p T * g T = 0) (n : ℕ) :
    |∑ j ∈ Finset.range n, ((M ^ (j + 1)) *ᵥ g) S| ≤ B * (2 * (m / c)) := by
  have hB : 0 ≤ B := (abs_nonneg _).trans (hg ∅)
  have h2 : ∀ j : ℕ, |((M ^ j) *ᵥ g) S| ≤ B * (2 * (1 - c) ^ (j / m)) := by
    intro j
    have h3 : ((M ^ j) *ᵥ g) S = ∑ T, ((M ^ j) S T - p T) * g T := by
      simp only [sub_mul, Finset.sum_sub_distrib, hp, sub_zero, Matrix.mulVec, dotProduct]
    rw [h3]
    refine (Finset.abs_sum_le_sum_abs _ _).trans ?_
    refine le_trans ?_ (mul_le_mul_of_nonneg_left (hc j) hB)
    rw [Finset.mul_sum]
    refine Finset.sum_le_sum fun T _ => ?_
    rw [abs_mul, mul_comm]
    exact mul_le_mul_of_nonneg_right (hg T) (abs_nonneg _)
  refine (Finset.abs_sum_le_sum_abs _ _).trans ((Finset.sum_le_sum fun j _ => h2 (j + 1)).trans ?_)
  rw [← Finset.mul_sum, ← Finset.mul_sum]
  refine mul_le_mul_of_nonneg_left (mul_le_mul_of_nonneg_left ?_ (by norm_num)) hB
  have h4 := geom_le h0 h1 hm (n + 1)
  rw [Finset.sum_range_succ'] at h4
  have h5 : (0 : ℝ) ≤ (1 - c) ^ (0 / m) := pow_nonneg (by linarith) _
  linarith

end loop

/-! ### the chains -/

theorem moveTo_nonneg (s : St N) (S1 : List (Fin N)) (a : ℝ) : Nonneg (moveTo K s S1 a) := by
  rw [moveTo, acceptMove]
  refine Nonneg.map ?_
  split
  · exact Nonneg.ret _
  · exact Nonneg.bern _

theorem adStep_nonneg (s : St N) : Nonneg (adStep K s) := by
  rw [adStep]
  refine Nonneg.bind (Nonneg.bern _) fun b => ?_
  split
  · exact Verif.Model.andThen_nonneg (choiceO_nonneg _) fun _ => moveTo_nonneg _ _ _
  · exact Nonneg.ret _

theorem exStep_nonneg (k : ℕ) (s : St N) : Nonneg (exStep K k s) := by
  rw [exStep]
  refine Nonneg.bind (Nonneg.bern _) fun b => ?_
  split
  · refine Verif.Model.andThen_nonneg (choiceO_nonneg _) fun _ => Verif.Model.andThen_nonneg (choiceO_nonneg _) fun _ => ?_
    split
    · exact moveTo_nonneg _ _ _
    · exact Nonneg.ret _
  · exact Nonneg.ret _

open Verif.Lemmas.McmcConverge

/-- Chebyshev's inequality for the mean of a centred function over a list of `n + 1` items -/
theorem chebyshev {α : Type*} {d : Dist ℝ (Outcome α)} (hd : Nonneg d) {X : α → ℝ} {D ε : ℝ} (hε : 0 < ε)
    (h : E d (lift fun a => X a ^ 2) ≤ D) : probOk d (fun a => ε ≤ |X a|) ≤ D / ε ^ 2 := by
  classical
  rw [probOk_eq, le_div_iff₀ (by positivity)]
  refine le_trans ?_ h
  rw [← E_mul_right]
  refine E_mono_possible hd fun x _ => ?_
  cases x with
  | raise e => simp [lift]
  | ok a =>
    simp only [lift]
    split
    · rename_i ha
      rw [one_mul, ← sq_abs (X a)]
      exact pow_le_pow_left₀ hε.le ha 2
    · rw [zero_mul]; positivity

end Verif.Lemmas.ChainMean
