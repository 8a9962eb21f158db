import Verif.Lemmas.Gibbs3
import Mathlib.Algebra.Polynomial.Roots

/-!
Polynomial potentials: polynomial shift (C49), Gibbs conditionals (C50).
-/

namespace Verif.Props
open Verif Verif.Model Verif.Lemmas Matrix Polynomial

/-! ## C49 -/

/-- **C49** `shift_pol(P, x0)` is `P` translated: its value at `x` is the value of `P` at `x - x0`. -/
theorem C49_shift_polynomial (P : ℝ[X]) (x0 x : ℝ) : (shiftPol P x0).eval x = P.eval (x - x0) := by
  rw [shiftPol, eval_finset_sum, eval_eq_sum_range]
  exact Finset.sum_congr rfl fun n _ => by simp [mul_comm]

/-- ... in particular shifting by `-m` puts the value at `m` at the origin and keeps the degree and the leading
coefficient -/
theorem C49_shift_degree (P : ℝ[X]) (x0 : ℝ) :
    shiftPol P x0 = P.comp (X - C x0) ∧ (shiftPol P x0).natDegree = P.natDegree
      ∧ (shiftPol P x0).leadingCoeff = P.leadingCoeff := by
  have h : shiftPol P x0 = P.comp (X - C x0) := by
    apply Polynomial.funext
    intro x
    rw [C49_shift_polynomial, eval_comp]; simp
  refine ⟨h, ?_, ?_⟩
  · rw [h, natDegree_comp]; simp
  · rw [h, leadingCoeff_comp (by simp)]; simp

/-! ## C50 -/

theorem getD_set' (l : List ℝ) {i : ℕ} (hi : i < l.length) (x : ℝ) :
    (fun j => (l.set i x).getD j 0) = Function.update (fun j => l.getD j 0) i x := by
  funext j
  rw [Function.update_apply]
  by_cases h : j = i
  · subst h; rw [if_pos rfl, List.getD_eq_getElem _ _ (by simpa using hi)]; simp
  · rw [if_neg h, List.getD_eq_getElem?_getD, List.getD_eq_getElem?_getD, List.getElem?_set_ne (Ne.symm h)]

theorem padded_init (N : ℕ) : Padded N (gibbsInit N).a (gibbsInit N).b := by
  have h : ∀ j, (List.replicate (N + 3) (0 : ℝ)).getD j 0 = 0 := by
    intro j
    rw [List.getD_eq_getElem?_getD, List.getElem?_replicate]
    split <;> rfl
  exact ⟨by simp [gibbsInit], by simp [gibbsInit], h _, h _, h _, ⟨h _, h _⟩, ⟨h _, h _⟩, fun j => (h j).ge⟩

theorem padded_step {N : ℕ} {st : GibbsSt} (h : Padded N st.a st.b) (beta : ℝ) (V : ℝ[X]) (drawA drawB : ℝ[X] → ℝ → ℝ)
    (hB : ∀ P x, 0 ≤ drawB P x) {i : ℕ} (h1 : 1 ≤ i) (hi : i ≤ N) :
    Padded N (gibbsStep beta N V drawA drawB i st).a (gibbsStep beta N V drawA drawB i st).b := by
  have ha := fun x j => congrFun (getD_set' st.a (i := i) (by rw [h.la]; omega) x) j
  have hb := fun x j => congrFun (getD_set' st.b (i := i) (by rw [h.lb]; omega) x) j
  simp only [Function.update_apply] at ha hb
  simp only [gibbsStep]
  refine ⟨by simp [h.la], ?_, ?_, ?_, ?_, ⟨?_, ?_⟩, ⟨?_, ?_⟩, ?_⟩
  · split
    · simp [h.lb]
    · exact h.lb
  · rw [ha, if_neg (by omega), h.a0]
  · split
    · rw [hb, if_neg (by omega), h.b0]
    · exact h.b0
  · split
    · rw [hb, if_neg (by omega), h.bN]
    · exact h.bN
  · rw [ha, if_neg (by omega), h.aT.1]
  · rw [ha, if_neg (by omega), h.aT.2]
  · split
    · rw [hb, if_neg (by omega), h.bT.1]
    · exact h.bT.1
  · split
    · rw [hb, if_neg (by omega), h.bT.2]
    · exact h.bT.2
  · intro j
    split
    · rw [hb]
      split
      · exact hB _ _
      · exact h.bpos j
    · exact h.bpos j

theorem padded_after {N : ℕ} (hN : 0 < N) (beta : ℝ) (V : ℝ[X]) (drawA drawB : ℕ → ℝ[X] → ℝ → ℝ)
    (hB : ∀ t P x, 0 ≤ drawB t P x) (t : ℕ) :
    Padded N (gibbsAfter beta N V drawA drawB t).a (gibbsAfter beta N V drawA drawB t).b := by
  induction t with
  | zero => exact padded_init N
  | succ t ih => exact padded_step ih _ _ _ _ (hB t) (by omega) (by have := Nat.mod_lt t hN; omega)

/-- **C50** At every iteration of the Gibbs sampler, in every history (whatever the samplers of the conditionals have
returned before, the `b` being non-negative), for every size and every potential of degree at most six: the diagonal
coefficient `a_i` is replaced by a draw from a density proportional to `exp(-P)`, where `-P` is, up to a constant, the joint
log-density of the Jacobi coefficients seen as a function of `a_i` alone; then for `i < N` the coefficient `b_i` is replaced
by a draw from a density proportional to `x^(shape-1) exp(-Q(x))` where, up to a constant, `(shape-1) log x - Q(x)` is the
joint log-density seen as a function of `b_i` alone, the `a` being already updated.  Nothing else changes. -/
theorem C50_gibbs_conditionals {N : ℕ} (hN : 0 < N) (beta : ℝ) (V : ℝ[X]) (hV : V.natDegree ≤ 6)
    (drawA drawB : ℕ → ℝ[X] → ℝ → ℝ) (hB : ∀ t P x, 0 ≤ drawB t P x) (t : ℕ) :
    let i := t % N + 1
    let st := gibbsAfter beta N V drawA drawB t
    let st' := gibbsAfter beta N V drawA drawB (t + 1)
    (∃ P : ℝ[X],
      (∃ c, ∀ x, Spec.jacobiLogDensity beta N V (Function.update (fun j => st.a.getD j 0) i x) (fun j => st.b.getD j 0)
        = c - P.eval x)
      ∧ st'.a = st.a.set i (drawA t P (st.a.getD i 0)))
    ∧ (i < N → ∃ Q : ℝ[X],
      (∃ c, ∀ x, 0 < x →
        Spec.jacobiLogDensity beta N V (fun j => st'.a.getD j 0) (Function.update (fun j => st.b.getD j 0) i x)
          = c + (beta / 2 * ((N : ℝ) - i) - 1) * Real.log x - Q.eval x)
      ∧ st'.b = st.b.set i (drawB t Q (beta / 2 * ((N : ℝ) - i))))
    ∧ (i = N → st'.b = st.b) := by
  intro i st st'
  have hi1 : 1 ≤ i := by omega
  have hiN : i ≤ N := by have := Nat.mod_lt t hN; omega
  have hp : Padded N st.a st.b := padded_after hN beta V drawA drawB hB t
  have hp' : Padded N st'.a st'.b := padded_after hN beta V drawA drawB hB (t + 1)
  have hst' : st' = gibbsStep beta N V (drawA t) (drawB t) i st := rfl
  refine ⟨⟨C (1 / 2 * beta * N) * condPolyA i st.a st.b V, ?_, ?_⟩, ?_, ?_⟩
  · obtain ⟨c, hc⟩ := condA hp V hV hi1 hiN
    refine ⟨(∑ j ∈ Finset.Ico 1 N, (beta / 2 * ((N : ℝ) - j) - 1) * Real.log (st.b.getD j 0)) - beta * N / 2 * c,
      fun x => ?_⟩
    rw [Spec.jacobiLogDensity, hc x, eval_mul, eval_C]
    ring
  · rw [hst', gibbsStep, pyGet_nonneg _ (by omega)]
    rfl
  · intro hlt
    have hpb : Padded N st'.a st.b := ⟨hp'.la, hp.lb, hp'.a0, hp.b0, hp.bN, hp'.aT, hp.bT, hp.bpos⟩
    refine ⟨C (1 / 2 * beta * N) * condPolyB i st'.a st.b V, ?_, ?_⟩
    · obtain ⟨c, hc⟩ := condB hpb V hV hi1 hlt
      refine ⟨(∑ j ∈ (Finset.Ico 1 N).erase i, (beta / 2 * ((N : ℝ) - j) - 1) * Real.log (st.b.getD j 0))
        - beta * N / 2 * c, fun x hx => ?_⟩
      rw [Spec.jacobiLogDensity, hc x hx.le, eval_mul, eval_C,
        ← Finset.add_sum_erase _ _ (Finset.mem_Ico.2 ⟨hi1, hlt⟩), Function.update_self]
      rw [Finset.sum_congr rfl fun j hj => by
        rw [Function.update_of_ne (Finset.ne_of_mem_erase hj)]]
      ring
    · rw [hst', gibbsStep]
      simp only [if_pos hlt]
      rw [show (1 : ℝ) / 2 * beta * ((N : ℝ) - i) = beta / 2 * ((N : ℝ) - i) by ring]
  · intro h
    rw [hst', gibbsStep]
    simp only [if_neg (show ¬ i < N by omega)]

/-- **C50** The matrix whose eigenvalues are returned is the Jacobi matrix of the current coefficients. -/
theorem C50_returned_matrix (N : ℕ) (st : GibbsSt) :
    gibbsMatrix N st = Spec.jacobiMat N (fun j => st.a.getD j 0) (fun j => st.b.getD j 0) := rfl

end Verif.Props
