import Verif.Lemmas.McmcConverge
import Verif.Lemmas.MCMCAed
import Verif.Lemmas.MCMC

/-!
The add-exchange-delete chain reaches the full ground set, from which the next step raises.
-/

namespace Verif.Lemmas.AedDies
open Verif Verif.Spec Verif.Model Verif.Lemmas.McmcConverge Matrix

variable {N : ℕ} {K : Matrix (Fin N) (Fin N) ℝ}

/-- one step; nothing is left from the full set -/
noncomputable def aedSub (K : Matrix (Fin N) (Fin N) ℝ) (F : Finset (Fin N) → ℝ) (S : Finset (Fin N)) : ℝ :=
  if S.card < N then aedKer K F S else 0

theorem prop_one (c : ℝ) (S T : Finset (Fin N)) : prop K c (fun _ => 1) S T = 1 := by unfold prop; ring

theorem prop_nonneg {F : Finset (Fin N) → ℝ} (hF : ∀ S, 0 ≤ F S) (c : ℝ) (S T : Finset (Fin N)) : 0 ≤ prop K c F S T :=
  add_nonneg (mul_nonneg (accP_nonneg _ _ _) (hF T)) (mul_nonneg (sub_nonneg.2 (accP_le_one _ _ _)) (hF S))

theorem prop_add (c : ℝ) (F G : Finset (Fin N) → ℝ) (S T : Finset (Fin N)) :
    prop K c (F + G) S T = prop K c F S T + prop K c G S T := by
  simp only [prop, Pi.add_apply]; ring

theorem prop_smul (c a : ℝ) (F : Finset (Fin N) → ℝ) (S T : Finset (Fin N)) :
    prop K c (a • F) S T = a * prop K c F S T := by
  simp only [prop, Pi.smul_apply, smul_eq_mul]; ring

theorem aedKer_one {S : Finset (Fin N)} (hS : S.card < N) : aedKer K (fun _ => 1) S = 1 := by
  have h1 : (0 : ℝ) < N - S.card := by
    have : (S.card : ℝ) < N := by exact_mod_cast hS
    linarith
  have h2 : ((Sᶜ.card : ℕ) : ℝ) = N - S.card := by
    rw [Finset.card_compl, Fintype.card_fin]; push_cast [hS.le]; ring
  unfold aedKer
  simp only [prop_one, Finset.sum_const, nsmul_eq_mul, mul_one, h2, one_div_mul_cancel h1.ne']
  rcases Nat.eq_zero_or_pos S.card with h0 | h0
  · simp [h0]
  · have h3 : (S.card : ℝ) ≠ 0 := by positivity
    rw [one_div_mul_cancel h3]
    ring

theorem aedKer_nonneg {F : Finset (Fin N) → ℝ} (hF : ∀ S, 0 ≤ F S) {S : Finset (Fin N)} (hS : S.card < N) :
    0 ≤ aedKer K F S := by
  have h1 : (0 : ℝ) < N - S.card := by
    have : (S.card : ℝ) < N := by exact_mod_cast hS
    linarith
  have h0 : (0 : ℝ) ≤ S.card := by positivity
  have hN : (0 : ℝ) < N := by linarith
  have h2 : (S.card : ℝ) / N ≤ 1 := by rw [div_le_one hN]; linarith
  have h3 : (0 : ℝ) ≤ (S.card : ℝ) / N := by positivity
  unfold aedKer
  have n1 := fun c => Finset.sum_nonneg fun (t : Fin N) (_ : t ∈ Sᶜ) => prop_nonneg (K := K) hF c S (insert t S)
  have n2 := Finset.sum_nonneg fun (s : Fin N) (_ : s ∈ S) => mul_nonneg (one_div_nonneg.2 h1.le)
    (Finset.sum_nonneg fun (t : Fin N) (_ : t ∈ Sᶜ) => prop_nonneg (K := K) hF 1 S (insert t (S.erase s)))
  have n3 := fun c => Finset.sum_nonneg fun (s : Fin N) (_ : s ∈ S) => prop_nonneg (K := K) hF c S (S.erase s)
  have n4 := hF S
  refine add_nonneg (add_nonneg (add_nonneg ?_ ?_) ?_) ?_
  · exact mul_nonneg (by positivity) (mul_nonneg (one_div_nonneg.2 h1.le) (n1 _))
  · exact mul_nonneg (mul_nonneg (by norm_num) (mul_nonneg h3 (by linarith)))
      (mul_nonneg (one_div_nonneg.2 h0) n2)
  · exact mul_nonneg (by positivity) (mul_nonneg (one_div_nonneg.2 h0) (n3 _))
  · exact mul_nonneg (by nlinarith) n4

/-- the step as a linear map -/
noncomputable def aedLin (K : Matrix (Fin N) (Fin N) ℝ) : (Finset (Fin N) → ℝ) →ₗ[ℝ] (Finset (Fin N) → ℝ) where
  toFun := aedSub K
  map_add' F G := by
    funext S
    simp only [aedSub, Pi.add_apply]
    split
    · simp only [aedKer, prop_add, Finset.sum_add_distrib, mul_add, Pi.add_apply]; ring
    · ring
  map_smul' a F := by
    funext S
    simp only [aedSub, Pi.smul_apply, smul_eq_mul, RingHom.id_apply]
    split
    · simp only [aedKer, prop_smul, Pi.smul_apply, smul_eq_mul, ← Finset.mul_sum]
      simp only [Finset.mul_sum, mul_add]
      congr 1
      · congr 1
        · congr 1
          · exact Finset.sum_congr rfl fun t _ => by ring
          · exact Finset.sum_congr rfl fun s _ => Finset.sum_congr rfl fun t _ => by ring
        · exact Finset.sum_congr rfl fun t _ => by ring
      · ring
    · ring

/-- its matrix -/
noncomputable def aedMat (K : Matrix (Fin N) (Fin N) ℝ) : Matrix (Finset (Fin N)) (Finset (Fin N)) ℝ :=
  LinearMap.toMatrix' (aedLin K)

theorem aedMat_mulVec (F : Finset (Fin N) → ℝ) : aedSub K F = aedMat K *ᵥ F := by
  rw [aedMat, LinearMap.toMatrix'_mulVec]; rfl

theorem aedMat_apply (S T : Finset (Fin N)) : aedMat K S T = aedSub K (fun A => if A = T then 1 else 0) S := by
  rw [aedMat_mulVec, mulVec_ind]

theorem sub_eq (F : Finset (Fin N) → ℝ) (S : Finset (Fin N)) : aedSub K F S = ∑ T, aedMat K S T * F T :=
  congrFun (aedMat_mulVec F) S

theorem aedMat_nonneg (S T : Finset (Fin N)) : 0 ≤ aedMat K S T := by
  rw [aedMat_apply, aedSub]
  split
  · rename_i h; exact aedKer_nonneg (ind_nonneg T) h
  · exact le_rfl

theorem sub_mono {F G : Finset (Fin N) → ℝ} (h : ∀ S, F S ≤ G S) (S : Finset (Fin N)) : aedSub K F S ≤ aedSub K G S := by
  rw [sub_eq, sub_eq]
  exact Finset.sum_le_sum fun T _ => mul_le_mul_of_nonneg_left (h T) (aedMat_nonneg S T)

theorem iter_mono {F G : Finset (Fin N) → ℝ} (h : ∀ S, F S ≤ G S) : ∀ (n : ℕ) (S : Finset (Fin N)),
    (aedSub K)^[n] F S ≤ (aedSub K)^[n] G S := by
  intro n
  induction n with
  | zero => exact h
  | succ n ih => intro S; rw [Function.iterate_succ_apply', Function.iterate_succ_apply']; exact sub_mono ih S

theorem sub_one_le (S : Finset (Fin N)) : aedSub K (fun _ => 1) S ≤ 1 := by
  rw [aedSub]; split
  · rename_i h; rw [aedKer_one h]
  · exact zero_le_one

/-- survival probability -/
noncomputable def surv (K : Matrix (Fin N) (Fin N) ℝ) (n : ℕ) : Finset (Fin N) → ℝ := (aedSub K)^[n] fun _ => 1

theorem surv_succ (n : ℕ) (S : Finset (Fin N)) : surv K (n + 1) S = aedSub K (surv K n) S := by
  rw [surv, Function.iterate_succ_apply']; rfl

theorem surv_anti (n : ℕ) (S : Finset (Fin N)) : surv K (n + 1) S ≤ surv K n S := by
  rw [surv, surv, Function.iterate_succ_apply]
  exact iter_mono sub_one_le n S

theorem surv_le_of_le {n m : ℕ} (h : n ≤ m) (S : Finset (Fin N)) : surv K m S ≤ surv K n S := by
  induction h with
  | refl => exact le_rfl
  | step _ ih => exact (surv_anti _ S).trans ih

theorem surv_le_one (n : ℕ) (S : Finset (Fin N)) : surv K n S ≤ 1 := surv_le_of_le (Nat.zero_le n) S

theorem surv_nonneg (n : ℕ) (S : Finset (Fin N)) : 0 ≤ surv K n S := by
  cases n with
  | zero => exact zero_le_one
  | succ n =>
    rw [surv_succ, sub_eq]
    induction n generalizing S with
    | zero => exact Finset.sum_nonneg fun T _ => mul_nonneg (aedMat_nonneg S T) zero_le_one
    | succ n ih =>
      refine Finset.sum_nonneg fun T _ => mul_nonneg (aedMat_nonneg S T) ?_
      rw [surv_succ, sub_eq]
      exact ih T

/-- all sets are valid: from a set with `d` items left outside the chain may die within `d + 1` steps -/
theorem surv_lt (hpos : ∀ S, 0 < minor K S) : ∀ (d : ℕ) (S : Finset (Fin N)), S.card + d = N → surv K (d + 1) S < 1 := by
  intro d
  induction d with
  | zero =>
    intro S h
    rw [surv_succ, aedSub, if_neg (by omega)]
    exact zero_lt_one
  | succ d ih =>
    intro S h
    have hlt : S.card < N := by omega
    obtain ⟨t, ht⟩ := Finset.card_pos.1 (show 0 < Sᶜ.card by rw [Finset.card_compl, Fintype.card_fin]; omega)
    rw [Finset.mem_compl] at ht
    have h1 := ih (insert t S) (by rw [Finset.card_insert_of_notMem ht]; omega)
    have hrow : ∑ T, aedMat K S T * 1 = 1 := by
      have := congrFun (aedMat_mulVec (K := K) fun _ => 1) S
      rw [aedSub, if_pos hlt, aedKer_one hlt] at this
      exact this.symm
    have hNk : (0 : ℝ) < N - S.card := by
      have : (S.card : ℝ) < N := by exact_mod_cast hlt
      linarith
    have hN : (0 : ℝ) < N := by
      have : (0 : ℝ) ≤ S.card := by positivity
      linarith
    have hp : 0 < aedMat K S (insert t S) := by
      rw [aedMat_apply, aedSub, if_pos hlt, aedKer_add ht, accP_eq (hpos S).ne']
      have h4 : (0 : ℝ) < 1 - (S.card : ℝ) / N := by
        rw [sub_pos, div_lt_one hN]; linarith
      have h5 : 0 < min (1 : ℝ) (max 0 (minor K (insert t S) / minor K S * ((S.card + 1) / (N - S.card)))) := by
        refine lt_min one_pos (lt_max_of_lt_right ?_)
        have := hpos S; have := hpos (insert t S)
        positivity
      positivity
    rw [surv_succ, sub_eq, ← hrow]
    refine Finset.sum_lt_sum (fun T _ => mul_le_mul_of_nonneg_left (surv_le_one _ T) (aedMat_nonneg S T))
      ⟨insert t S, Finset.mem_univ _, mul_lt_mul_of_pos_left h1 hp⟩

theorem surv_geometric (hpos : ∀ S, 0 < minor K S) : ∃ q : ℝ, 0 ≤ q ∧ q < 1 ∧ ∀ (n : ℕ) (S : Finset (Fin N)),
    surv K n S ≤ q ^ (n / (N + 1)) := by
  obtain ⟨A, -, hA⟩ := Finset.exists_max_image (Finset.univ : Finset (Finset (Fin N))) (surv K (N + 1)) ⟨∅, Finset.mem_univ _⟩
  have hlt : surv K (N + 1) A < 1 := by
    have hc : A.card ≤ N := by simpa using Finset.card_le_univ A
    exact (surv_le_of_le (by omega) A).trans_lt (surv_lt hpos (N - A.card) A (by omega))
  refine ⟨surv K (N + 1) A, surv_nonneg _ _, hlt, ?_⟩
  have hq : ∀ j S, surv K ((N + 1) * j) S ≤ surv K (N + 1) A ^ j := by
    intro j
    induction j with
    | zero => intro S; simp [surv]
    | succ j ih =>
      intro S
      have e : surv K ((N + 1) * (j + 1)) S = (aedSub K)^[(N + 1) * j] (surv K (N + 1)) S := by
        rw [surv, surv, Nat.mul_succ, Function.iterate_add_apply]
      have hc : ∀ (n : ℕ) (q : ℝ), (aedSub K)^[n] (fun _ => q) = fun S => q * surv K n S := by
        intro n q
        induction n with
        | zero => funext S; simp [surv]
        | succ n ihn =>
          rw [Function.iterate_succ_apply', ihn]
          funext S
          rw [surv_succ]
          exact congrFun ((aedLin K).map_smul q (surv K n)) S
      rw [e, pow_succ']
      refine (iter_mono (G := fun _ => surv K (N + 1) A) (fun S => hA S (Finset.mem_univ _)) _ S).trans ?_
      rw [hc]
      exact mul_le_mul_of_nonneg_left (ih S) (surv_nonneg _ _)
  intro n S
  exact (surv_le_of_le (Nat.mul_div_le n (N + 1)) S).trans (hq _ S)

theorem step_full {s : AedSt N} (h0 : s.S.Nodup) (hf : s.S.length = N) {x}
    (hx : (aedStep K s).Possible x) : x = .raise .valueError := by
  rw [aedStep, possible_andThen] at hx
  rcases hx with ⟨i, -, hx⟩ | ⟨e, he, rfl⟩
  · have : outside s.S = [] := (outside_ne_nil h0).2 hf
    have hnil : (choiceO ([] : List (Fin N))) = Dist.ret .valueError := by simp [choiceO]
    simp only [this, hnil] at hx
    rw [possible_andThen] at hx
    rcases hx with ⟨t, ht, -⟩ | ⟨e, he, rfl⟩
    · rw [Dist.Possible.ret_iff] at ht; cases ht
    · rw [Dist.Possible.ret_iff] at he; cases he; rfl
  · rw [possible_choiceO_raise] at he; rw [he.2]

/-- the loop -/
theorem loop_survives : ∀ (n it : ℕ) (s : AedSt N), GoodA K s →
    Dist.E (mcmcLoop (aedStep K) (fun _ => false) it n s) (lift fun _ => 1) = surv K n s.S.toFinset := by
  intro n
  induction n with
  | zero => intro it s _; simp [mcmcLoop, lift, surv]
  | succ n ih =>
    intro it s hs
    rw [mcmcLoop, E_andThen, surv_succ, aedSub, List.toFinset_card_of_nodup hs.1.1]
    simp only [Bool.false_eq_true, if_false, E_andThen, Dist.E_ret]
    split
    · rename_i hlt
      rw [← E_aedStep ⟨hs.1.1, hs.2⟩ hlt]
      refine Dist.E_congr_possible fun x hx => ?_
      cases x with
      | raise e => rfl
      | ok s' => exact ih _ _ (aedStep_good hs hx).1
    · rename_i hlt
      have hle : s.S.length ≤ N := by simpa using hs.1.1.length_le_card
      rw [← Dist.E_zero (aedStep K s)]
      refine Dist.E_congr_possible fun x hx => ?_
      rw [step_full hs.1.1 (by omega) hx]
      rfl

end Verif.Lemmas.AedDies
