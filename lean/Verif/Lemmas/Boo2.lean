import Verif.Lemmas.Boo1
import Mathlib.LinearAlgebra.Matrix.Determinant.Basic
import Mathlib.LinearAlgebra.Matrix.Block
import Mathlib.Data.Real.Basic
import Mathlib.Data.Nat.Factorial.Basic
import Mathlib.Tactic.FieldSimp
import Mathlib.Tactic.Ring

/-!
The determinantal formula for the number of standard tableaux.
-/

set_option linter.unusedVariables false

namespace Verif.Lemmas
open Verif.Spec Finset

variable {M : ℕ}

/-- `1 / k!`, zero for negative `k` -/
noncomputable def ifac (k : ℤ) : ℝ := if 0 ≤ k then 1 / (k.toNat.factorial : ℝ) else 0

theorem ifac_neg {k : ℤ} (h : k < 0) : ifac k = 0 := if_neg (not_le.2 h)

theorem ifac_zero : ifac 0 = 1 := by simp [ifac]

theorem mul_ifac (k : ℤ) : (k : ℝ) * ifac k = ifac (k - 1) := by
  unfold ifac
  rcases lt_trichotomy k 0 with h | h | h
  · rw [if_neg (by omega), if_neg (by omega), mul_zero]
  · subst h; simp
  · rw [if_pos h.le, if_pos (by omega)]
    obtain ⟨m, rfl⟩ : ∃ m : ℕ, k = (m : ℤ) + 1 := ⟨(k - 1).toNat, by omega⟩
    have e1 : ((m : ℤ) + 1).toNat = m + 1 := by omega
    have e2 : ((m : ℤ) + 1 - 1).toNat = m := by omega
    rw [e1, e2, Nat.factorial_succ]
    push_cast
    have : ((m : ℝ) + 1) ≠ 0 := by positivity
    have : (m.factorial : ℝ) ≠ 0 := by positivity
    field_simp

/-- the determinant -/
noncomputable def facDet (c : Fin M → ℤ) : ℝ := (Matrix.of fun i j : Fin M => ifac (c i + (j : ℤ))).det

theorem facDet_apply (c : Fin M → ℤ) :
    facDet c = ∑ σ : Equiv.Perm (Fin M), ((Equiv.Perm.sign σ : ℤ) : ℝ) * ∏ i, ifac (c i + ((σ i : Fin M) : ℤ)) := by
  rw [facDet, ← Matrix.det_transpose, Matrix.det_apply']
  rfl

theorem sum_facDet_update (c : Fin M → ℤ) :
    ∑ i, facDet (Function.update c i (c i - 1)) = ((∑ i, c i + ∑ j : Fin M, (j : ℤ) : ℤ) : ℝ) * facDet c := by
  simp_rw [facDet_apply]
  rw [sum_comm, mul_sum]
  refine sum_congr rfl fun σ _ => ?_
  rw [← mul_sum]
  have h : ∀ i, ∏ k, ifac (Function.update c i (c i - 1) k + ((σ k : Fin M) : ℤ))
      = ((c i + ((σ i : Fin M) : ℤ) : ℤ) : ℝ) * ∏ k, ifac (c k + ((σ k : Fin M) : ℤ)) := fun i => by
    rw [← mul_prod_erase _ _ (mem_univ i), ← mul_prod_erase _ (fun k => ifac (c k + ((σ k : Fin M) : ℤ))) (mem_univ i), Function.update_self, ← mul_assoc, mul_ifac]
    congr 1
    · congr 1; ring
    · exact prod_congr rfl fun k hk => by rw [Function.update_of_ne (ne_of_mem_erase hk)]
  simp_rw [h]
  rw [← sum_mul]
  have h2 : ∑ i, ((c i + ((σ i : Fin M) : ℤ) : ℤ) : ℝ) = ((∑ i, c i + ∑ j : Fin M, (j : ℤ) : ℤ) : ℝ) := by
    rw [← Int.cast_sum, sum_add_distrib, Equiv.sum_comp σ (fun j : Fin M => (j : ℤ))]
  rw [h2]; ring

theorem facDet_eq_zero_of_eq {c : Fin M → ℤ} {i j : Fin M} (hij : i ≠ j) (h : c i = c j) : facDet c = 0 :=
  Matrix.det_zero_of_row_eq hij (by funext k; simp [h])

theorem facDet_eq_zero_of_neg {c : Fin M → ℤ} {i : Fin M} (h : c i ≤ -(M : ℤ)) : facDet c = 0 :=
  Matrix.det_eq_zero_of_row_eq_zero i fun j => ifac_neg (by have := j.2; omega)

theorem facDet_zero : facDet (fun i : Fin M => -(i : ℤ)) = 1 := by
  rw [facDet, Matrix.det_of_upperTriangular]
  · refine prod_eq_one fun i _ => ?_
    simp [ifac_zero]
  · intro i j hij
    have : (j : ℕ) < (i : ℕ) := hij
    exact ifac_neg (by omega)

theorem numF_eq_det : ∀ (n : ℕ) (lam : Fin M → ℕ), Antitone lam → ∑ i, lam i = n →
    (numF n lam : ℝ) = (n.factorial : ℝ) * facDet (fun i => (lam i : ℤ) - (i : ℤ))
  | 0, lam, ha, hs => by
    have h0 : lam = fun _ => 0 := by
      funext i
      exact Finset.sum_eq_zero_iff.1 hs i (mem_univ i)
    subst h0
    rw [numF_zero]
    have : (fun i : Fin M => ((0 : ℕ) : ℤ) - (i : ℤ)) = fun i : Fin M => -(i : ℤ) := by funext i; simp
    rw [this, facDet_zero]; simp
  | n + 1, lam, ha, hs => by
    classical
    rw [numF_succ]
    push_cast
    have hc : ∀ i, (if Corner lam i then (numF n (Function.update lam i (lam i - 1)) : ℝ) else 0)
        = (n.factorial : ℝ) * facDet (Function.update (fun i => (lam i : ℤ) - (i : ℤ)) i ((lam i : ℤ) - (i : ℤ) - 1)) := fun i => by
      by_cases h : Corner lam i
      · rw [if_pos h, numF_eq_det n]
        · congr 2
          funext k
          by_cases hk : k = i
          · subst hk
            rw [Function.update_self, Function.update_self]
            have := h.1
            omega
          · rw [Function.update_of_ne hk, Function.update_of_ne hk]
        · intro a b hab
          by_cases hb : b = i
          · subst hb
            rw [Function.update_self]
            by_cases hab' : a = b
            · subst hab'; rw [Function.update_self]
            · rw [Function.update_of_ne hab']
              have := ha hab
              omega
          · rw [Function.update_of_ne hb]
            by_cases hai : a = i
            · subst hai
              rw [Function.update_self]
              have hlt : a.val < b.val := lt_of_le_of_ne hab fun hc => hb (Fin.ext hc.symm)
              have h1 := h.2 ⟨a.val + 1, by have := b.2; omega⟩ rfl
              have h2 : lam b ≤ lam ⟨a.val + 1, by have := b.2; omega⟩ := ha (by rw [Fin.le_def]; exact hlt)
              omega
            · rw [Function.update_of_ne hai]; exact ha hab
        · have hs' : lam i + ∑ k ∈ univ.erase i, lam k = n + 1 := by rw [add_sum_erase _ _ (mem_univ i)]; exact hs
          rw [← add_sum_erase _ _ (mem_univ i)]
          rw [Function.update_self, sum_congr rfl fun k hk => by rw [Function.update_of_ne (ne_of_mem_erase hk)]]
          have := h.1
          have hs2 : lam i - 1 + ∑ k ∈ univ.erase i, lam k = n := by omega
          exact hs2
      · rw [if_neg h]
        symm
        rw [mul_eq_zero]
        right
        unfold Corner at h
        by_cases hlast : i.val + 1 < M
        · have heq : lam ⟨i.val + 1, hlast⟩ = lam i := by
            have hle : lam ⟨i.val + 1, hlast⟩ ≤ lam i := ha (by rw [Fin.le_def]; simp)
            by_contra hne
            apply h
            refine ⟨by omega, fun i' hi' => ?_⟩
            have : i' = ⟨i.val + 1, hlast⟩ := Fin.ext hi'
            rw [this]; omega
          have hne : i ≠ ⟨i.val + 1, hlast⟩ := fun hc => by have := congrArg Fin.val hc; simp at this
          refine facDet_eq_zero_of_eq hne ?_
          rw [Function.update_self, Function.update_of_ne hne.symm, heq]
          push_cast; ring
        · have h0 : lam i = 0 := by
            by_contra hne
            exact h ⟨by omega, fun i' hi' => by have := i'.2; omega⟩
          refine facDet_eq_zero_of_neg (i := i) ?_
          rw [Function.update_self, h0]
          have := i.2
          push_cast
          omega
    have hsum : (∑ i, ((if Corner lam i then numF n (Function.update lam i (lam i - 1)) else 0 : ℕ) : ℝ))
        = ∑ i, (n.factorial : ℝ) * facDet (Function.update (fun i => (lam i : ℤ) - (i : ℤ)) i ((lam i : ℤ) - (i : ℤ) - 1)) :=
      sum_congr rfl fun i _ => by rw [← hc i]; push_cast; rfl
    refine (Eq.trans (by push_cast; rfl) hsum).trans ?_
    rw [← mul_sum, sum_facDet_update (fun i => (lam i : ℤ) - (i : ℤ))]
    have e : (∑ i : Fin M, ((lam i : ℤ) - (i : ℤ)) + ∑ j : Fin M, (j : ℤ)) = ((n + 1 : ℕ) : ℤ) := by
      rw [sum_sub_distrib, sub_add_cancel, ← hs]; push_cast; rfl
    rw [e, Nat.factorial_succ]
    push_cast
    ring

/-- the determinantal formula for `f_lam`, with any number of rows -/
theorem numSYT_eq_det (lam : List ℕ) (hlam : IsPartition lam) (M : ℕ) (hM : lam.length ≤ M) :
    (numSYT lam : ℝ) = (lam.sum.factorial : ℝ) * facDet (fun i : Fin M => (lam.getD i 0 : ℤ) - (i : ℤ)) := by
  rw [numSYT_eq_numF lam hlam M hM]
  refine numF_eq_det _ _ ?_ ?_
  · intro a b hab
    rcases Nat.lt_or_ge b.val lam.length with h | h
    · rcases Nat.eq_or_lt_of_le (Fin.le_def.1 hab) with h2 | h2
      · simp [h2]
      · change lam.getD b.val 0 ≤ lam.getD a.val 0
        rw [List.getD_eq_getElem _ _ h, List.getD_eq_getElem _ _ (by omega)]
        exact List.pairwise_iff_getElem.1 hlam.2 _ _ _ _ h2
    · simp only
      rw [List.getD_eq_default _ _ h]; exact Nat.zero_le _
  · clear hlam
    induction lam generalizing M with
    | nil => simp
    | cons a l ih =>
      obtain ⟨M, rfl⟩ : ∃ M', M = M' + 1 := ⟨M - 1, by simp at hM; omega⟩
      rw [Fin.sum_univ_succ, List.sum_cons, ← ih M (by simpa using hM)]
      simp

end Verif.Lemmas
