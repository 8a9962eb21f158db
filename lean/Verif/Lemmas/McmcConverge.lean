import Verif.Lemmas.Doeblin
import Verif.Lemmas.MCMCRev
import Verif.Lemmas.Tilde
import Mathlib.Analysis.InnerProductSpace.GramMatrix
import Mathlib.Analysis.InnerProductSpace.Positive
import Mathlib.LinearAlgebra.Matrix.ToLin

/-!
The add-delete and exchange chains can reach every valid state from every valid state.
-/

namespace Verif.Lemmas.McmcConverge
open Verif Verif.Spec Verif.Model Verif.Lemmas.Doeblin Matrix Relation

variable {N : ℕ} {K : Matrix (Fin N) (Fin N) ℝ}

/-! ### minors of a positive semi-definite matrix -/

theorem exists_gram (hK : K.PosSemidef) : ∃ (d : ℕ) (u : Fin N → EuclideanSpace ℝ (Fin d)), K = Matrix.gram ℝ u := by
  obtain ⟨d, v, hv⟩ := Matrix.posSemidef_iff_eq_sum_vecMulVec.1 hK
  refine ⟨d, fun a => WithLp.toLp 2 fun i => v i a, ?_⟩
  ext a b
  rw [hv, Matrix.gram_apply, Matrix.sum_apply]
  simp [vecMulVec, PiLp.inner_apply, mul_comm]

theorem minor_gram {E : Type*} [NormedAddCommGroup E] [InnerProductSpace ℝ E] (u : Fin N → E) (S : Finset (Fin N)) :
    0 < minor (Matrix.gram ℝ u) S ↔ LinearIndepOn ℝ u (S : Set (Fin N)) := by
  have h1 : minor (Matrix.gram ℝ u) S = (Matrix.gram ℝ (fun i : S => u i)).det := rfl
  have h2 : LinearIndepOn ℝ u (S : Set (Fin N)) ↔ LinearIndependent ℝ (fun i : S => u i) := Iff.rfl
  rw [h2, h1, ← Matrix.det_gram_ne_zero_iff_linearIndependent]
  have h3 := (Matrix.posSemidef_gram ℝ (fun i : S => u i)).det_nonneg
  exact ⟨fun h => h.ne', fun h => lt_of_le_of_ne h3 (Ne.symm h)⟩

theorem minor_pos_subset (hK : K.PosSemidef) {S T : Finset (Fin N)} (h : S ⊆ T) (hT : 0 < minor K T) : 0 < minor K S := by
  obtain ⟨d, u, rfl⟩ := exists_gram hK
  rw [minor_gram] at hT ⊢
  exact hT.mono (by exact_mod_cast h)

/-- the exchange property of the valid sets -/
theorem exchange_exists (hK : K.PosSemidef) {S T : Finset (Fin N)} (hc : S.card = T.card) (hS : 0 < minor K S)
    (hT : 0 < minor K T) {s : Fin N} (hs : s ∈ S) (hsT : s ∉ T) :
    ∃ t ∈ T, t ∉ S ∧ 0 < minor K (insert t (S.erase s)) := by
  obtain ⟨d, u, rfl⟩ := exists_gram hK
  simp only [minor_gram] at hS hT ⊢
  have he : LinearIndepOn ℝ u ((S.erase s : Finset (Fin N)) : Set (Fin N)) :=
    hS.mono (by exact_mod_cast Finset.erase_subset s S)
  have hex : ∃ t ∈ T, u t ∉ Submodule.span ℝ (u '' ((S.erase s : Finset (Fin N)) : Set (Fin N))) := by
    by_contra hno
    push Not at hno
    have h1 : Submodule.span ℝ (Set.range fun i : T => u i) ≤
        Submodule.span ℝ (Set.range fun i : (S.erase s : Finset (Fin N)) => u i) := by
      rw [Submodule.span_le]
      rintro _ ⟨i, rfl⟩
      have hr : (Set.range fun i : (S.erase s : Finset (Fin N)) => u i) =
          u '' ((S.erase s : Finset (Fin N)) : Set (Fin N)) := by
        ext y
        constructor
        · rintro ⟨i, rfl⟩; exact ⟨i, i.2, rfl⟩
        · rintro ⟨i, hi, rfl⟩; exact ⟨⟨i, by exact_mod_cast hi⟩, rfl⟩
      rw [hr]
      exact hno i i.2
    have h2 := Submodule.finrank_mono h1
    have h3 : LinearIndependent ℝ (fun i : T => u i) := hT
    have h4 : LinearIndependent ℝ (fun i : (S.erase s : Finset (Fin N)) => u i) := he
    rw [finrank_span_eq_card h3, finrank_span_eq_card h4, Fintype.card_coe, Fintype.card_coe,
      Finset.card_erase_of_mem hs, hc] at h2
    have := Finset.card_pos.2 ⟨s, hs⟩
    omega
  obtain ⟨t, ht, hspan⟩ := hex
  have hte : t ∉ S.erase s := fun h => hspan (Submodule.subset_span ⟨t, by exact_mod_cast h, rfl⟩)
  refine ⟨t, ht, ?_, ?_⟩
  · intro h
    refine hte (Finset.mem_erase.2 ⟨?_, h⟩)
    rintro rfl
    exact hsT ht
  · rw [Finset.coe_insert]
    exact he.insert hspan

/-! ### operators and matrices -/

section operators
variable {X : Type*} [Fintype X] [DecidableEq X]

theorem iter_mat {A : (X → ℝ) → X → ℝ} {M : Matrix X X ℝ} (h : ∀ F, A F = M *ᵥ F) (j : ℕ) (F : X → ℝ) :
    A^[j] F = M ^ j *ᵥ F := by
  induction j with
  | zero => simp
  | succ j ih => rw [Function.iterate_succ_apply', ih, h, Matrix.mulVec_mulVec, ← pow_succ']

theorem mulVec_ind (M : Matrix X X ℝ) (x y : X) : (M *ᵥ fun z => if z = y then 1 else 0) x = M x y := by
  simp [Matrix.mulVec, dotProduct]

end operators

theorem acc_eq_zero {S T : Finset (Fin N)} (hS : 0 < minor K S) (hT : ¬ 0 < minor K T) : acc K S T = 0 := by
  rw [acc, accP_eq hS.ne', mul_one, max_eq_left (div_nonpos_of_nonpos_of_nonneg (not_lt.1 hT) hS.le)]
  simp

theorem acc_pos {S T : Finset (Fin N)} (hS : 0 < minor K S) (hT : 0 < minor K T) : 0 < acc K S T := by
  rw [acc, accP_eq hS.ne', mul_one]
  exact lt_min one_pos (lt_max_of_lt_right (div_pos hT hS))

/-! ### add-delete -/

/-- the step as a linear map -/
noncomputable def adLin (K : Matrix (Fin N) (Fin N) ℝ) : (Finset (Fin N) → ℝ) →ₗ[ℝ] (Finset (Fin N) → ℝ) where
  toFun := adKer K
  map_add' F G := by
    funext S
    simp only [adKer, Pi.add_apply, mul_add, Finset.sum_add_distrib]
    ring
  map_smul' a F := by
    funext S
    simp only [adKer, Pi.smul_apply, smul_eq_mul, RingHom.id_apply]
    have : ∀ T, acc K S T * (a * F T) + (1 - acc K S T) * (a * F S) = a * (acc K S T * F T + (1 - acc K S T) * F S) :=
      fun T => by ring
    simp only [this, ← Finset.mul_sum]
    ring

/-- its matrix -/
noncomputable def adMat (K : Matrix (Fin N) (Fin N) ℝ) : Matrix (Finset (Fin N)) (Finset (Fin N)) ℝ :=
  LinearMap.toMatrix' (adLin K)

theorem adMat_mulVec (F : Finset (Fin N) → ℝ) : adKer K F = adMat K *ᵥ F := by
  rw [adMat, LinearMap.toMatrix'_mulVec]; rfl

theorem adMat_apply (S T : Finset (Fin N)) : adMat K S T = adKer K (fun A => if A = T then 1 else 0) S := by
  rw [adMat_mulVec, mulVec_ind]

theorem adKer_nonneg {F : Finset (Fin N) → ℝ} (hF : ∀ S, 0 ≤ F S) (S : Finset (Fin N)) : 0 ≤ adKer K F S := by
  unfold adKer
  have : ∀ T, 0 ≤ acc K S T * F T + (1 - acc K S T) * F S := fun T =>
    add_nonneg (mul_nonneg (accP_nonneg _ _ _) (hF T))
      (mul_nonneg (sub_nonneg.2 (accP_le_one _ _ _)) (hF S))
  have h2 := hF S
  have h3 : 0 ≤ ∑ i, (acc K S (symmDiff S {i}) * F (symmDiff S {i}) + (1 - acc K S (symmDiff S {i})) * F S) :=
    Finset.sum_nonneg fun i _ => this _
  positivity

theorem ind_nonneg (T S : Finset (Fin N)) : (0 : ℝ) ≤ if S = T then 1 else 0 := by split <;> norm_num

theorem adChain (hN : 0 < N) : Chain (adMat K) fun S => 0 < minor K S := by
  refine ⟨fun S T _ => ?_, fun S _ => ?_, fun S T hS hT => ?_⟩
  · rw [adMat_apply]; exact adKer_nonneg (ind_nonneg T) S
  · have := congrFun (adMat_mulVec (K := K) fun _ => 1) S
    rw [adKer_one hN] at this
    rw [this]; simp [Matrix.mulVec, dotProduct]
  · rw [adMat_apply, adKer]
    have hST : S ≠ T := by rintro rfl; exact hT hS
    rw [if_neg hST]
    have : ∀ i, acc K S (symmDiff S {i}) * (if symmDiff S {i} = T then (1 : ℝ) else 0) +
        (1 - acc K S (symmDiff S {i})) * 0 = 0 := by
      intro i
      split
      · rename_i h; rw [h, acc_eq_zero hS hT]; ring
      · ring
    rw [Finset.sum_eq_zero fun i _ => this i]
    ring

theorem adMat_pos (hN : 0 < N) {S : Finset (Fin N)} {i : Fin N} (hS : 0 < minor K S)
    (hT : 0 < minor K (symmDiff S {i})) : 0 < adMat K S (symmDiff S {i}) := by
  rw [adMat_apply, adKer]
  have h1 : ∀ j, 0 ≤ acc K S (symmDiff S {j}) * (if symmDiff S {j} = symmDiff S {i} then (1 : ℝ) else 0) +
      (1 - acc K S (symmDiff S {j})) * (if S = symmDiff S {i} then 1 else 0) := fun j =>
    add_nonneg (mul_nonneg (accP_nonneg _ _ _) (by split <;> norm_num))
      (mul_nonneg (sub_nonneg.2 (accP_le_one _ _ _)) (by split <;> norm_num))
  have h2 := Finset.sum_pos' (s := Finset.univ) (fun j _ => h1 j) ⟨i, Finset.mem_univ i, by
    rw [if_pos rfl, mul_one]
    exact add_pos_of_pos_of_nonneg (acc_pos hS hT)
      (mul_nonneg (sub_nonneg.2 (accP_le_one _ _ _)) (by split <;> norm_num))⟩
  have h3 : (0 : ℝ) < N := by exact_mod_cast hN
  have h4 : (0 : ℝ) ≤ if S = symmDiff S {i} then 1 else 0 := by split <;> norm_num
  positivity

theorem adMat_diag (S : Finset (Fin N)) : 0 < adMat K S S := by
  rw [adMat_apply, adKer, if_pos rfl]
  have h1 : ∀ j, 0 ≤ acc K S (symmDiff S {j}) * (if symmDiff S {j} = S then (1 : ℝ) else 0) +
      (1 - acc K S (symmDiff S {j})) * 1 := fun j =>
    add_nonneg (mul_nonneg (accP_nonneg _ _ _) (by split <;> norm_num))
      (mul_nonneg (sub_nonneg.2 (accP_le_one _ _ _)) zero_le_one)
  have h2 := Finset.sum_nonneg (s := Finset.univ) (fun j _ => h1 j)
  positivity

theorem symmDiff_mem {S : Finset (Fin N)} {i : Fin N} (hi : i ∈ S) : symmDiff S {i} = S.erase i := by
  ext x
  simp only [Finset.mem_symmDiff, Finset.mem_singleton, Finset.mem_erase]
  by_cases h : x = i
  · subst h; simp [hi]
  · simp [h]

/-- the items can be removed one after the other -/
theorem ad_reach (hN : 0 < N) (hK : K.PosSemidef) : ∀ (n : ℕ) (S : Finset (Fin N)), S.card = n → 0 < minor K S →
    ReflTransGen (fun a b => 0 < adMat K a b) S ∅ := by
  intro n
  induction n with
  | zero => intro S h _; rw [Finset.card_eq_zero.1 h]
  | succ n ih =>
    intro S h hS
    obtain ⟨i, hi⟩ := Finset.card_pos.1 (show 0 < S.card by omega)
    have he : 0 < minor K (S.erase i) := minor_pos_subset hK (Finset.erase_subset i S) hS
    refine .head (b := S.erase i) ?_ (ih _ ?_ he)
    · rw [← symmDiff_mem hi] at he ⊢
      exact adMat_pos hN hS he
    · rw [Finset.card_erase_of_mem hi, h]; rfl

theorem ad_inv (hN : 0 < N) (hK : K.PosSemidef) : (lDppProb K) ᵥ* adMat K = lDppProb K := by
  funext T
  have h := adKer_reversible (K := K) (minor_nonneg hK) (fun A => if A = T then 1 else 0) (fun _ => 1)
  simp only [mul_one, adKer_one hN] at h
  simp only [Matrix.vecMul, dotProduct, adMat_apply, lDppProb, div_mul_eq_mul_div, ← Finset.sum_div]
  rw [h]
  simp

theorem ad_converge (hN : 0 < N) (hK : K.PosSemidef) : ∃ m : ℕ, 0 < m ∧ ∃ c : ℝ, 0 < c ∧ c ≤ 1 ∧
    ∀ S, 0 < minor K S → ∀ j : ℕ, ∑ T, |((adKer K)^[j] fun A => if A = T then 1 else 0) S - lDppProb K T|
      ≤ 2 * (1 - c) ^ (j / m) := by
  have hD := det_one_add_pos hK
  obtain ⟨m, hm, c, h0, h1, h⟩ := (adChain (K := K) hN).converge (adMat_diag ∅)
    (fun S hS => ad_reach hN hK _ S rfl hS) (lDppProb K) (fun S => div_nonneg (minor_nonneg hK S) hD.le)
    (by simp only [lDppProb, ← Finset.sum_div]; rw [sum_lDppProb hK, div_self hD.ne'])
    (fun S hS => by rw [lDppProb, le_antisymm (not_lt.1 hS) (minor_nonneg hK S), zero_div]) (ad_inv hN hK)
  refine ⟨m, hm, c, h0, h1, fun S hS j => ?_⟩
  refine le_of_eq_of_le (Finset.sum_congr rfl fun T _ => ?_) (h S hS j)
  rw [iter_mat adMat_mulVec, mulVec_ind]

end Verif.Lemmas.McmcConverge

namespace Verif.Lemmas.McmcConverge
open Verif Verif.Spec Verif.Model Verif.Lemmas.Doeblin Matrix Relation

variable {N : ℕ} {K : Matrix (Fin N) (Fin N) ℝ} {k : ℕ}

/-! ### exchange -/

/-- the step as a linear map -/
noncomputable def exLin (K : Matrix (Fin N) (Fin N) ℝ) (k : ℕ) :
    (Finset (Fin N) → ℝ) →ₗ[ℝ] (Finset (Fin N) → ℝ) where
  toFun := exKer K k
  map_add' F G := by
    funext S
    have : ∀ T, acc K S T * (F T + G T) + (1 - acc K S T) * (F S + G S) =
        (acc K S T * F T + (1 - acc K S T) * F S) + (acc K S T * G T + (1 - acc K S T) * G S) := fun T => by ring
    simp only [exKer, Pi.add_apply]
    simp only [this, Finset.sum_add_distrib, mul_add]
    ring
  map_smul' a F := by
    funext S
    simp only [exKer, Pi.smul_apply, smul_eq_mul, RingHom.id_apply]
    have : ∀ T, acc K S T * (a * F T) + (1 - acc K S T) * (a * F S) = a * (acc K S T * F T + (1 - acc K S T) * F S) :=
      fun T => by ring
    simp only [this, Finset.mul_sum, mul_add]
    congr 1
    · exact Finset.sum_congr rfl fun s _ => Finset.sum_congr rfl fun t _ => by ring
    · ring

/-- its matrix -/
noncomputable def exMat (K : Matrix (Fin N) (Fin N) ℝ) (k : ℕ) : Matrix (Finset (Fin N)) (Finset (Fin N)) ℝ :=
  LinearMap.toMatrix' (exLin K k)

theorem exMat_mulVec (F : Finset (Fin N) → ℝ) : exKer K k F = exMat K k *ᵥ F := by
  rw [exMat, LinearMap.toMatrix'_mulVec]; rfl

theorem exMat_apply (S T : Finset (Fin N)) : exMat K k S T = exKer K k (fun A => if A = T then 1 else 0) S := by
  rw [exMat_mulVec, mulVec_ind]

theorem term_nonneg {F : Finset (Fin N) → ℝ} (hF : ∀ S, 0 ≤ F S) (S T : Finset (Fin N)) :
    0 ≤ acc K S T * F T + (1 - acc K S T) * F S :=
  add_nonneg (mul_nonneg (accP_nonneg _ _ _) (hF T)) (mul_nonneg (sub_nonneg.2 (accP_le_one _ _ _)) (hF S))

theorem inner_nonneg {F : Finset (Fin N) → ℝ} (hF : ∀ S, 0 ≤ F S) (S : Finset (Fin N)) (s : Fin N) :
    0 ≤ 1 / ((N - k : ℕ) : ℝ) * ∑ t ∈ Sᶜ, (acc K S (insert t (S.erase s)) * F (insert t (S.erase s))
      + (1 - acc K S (insert t (S.erase s))) * F S) :=
  mul_nonneg (by positivity) (Finset.sum_nonneg fun _ _ => term_nonneg hF _ _)

theorem outer_nonneg {F : Finset (Fin N) → ℝ} (hF : ∀ S, 0 ≤ F S) (S : Finset (Fin N)) :
    0 ≤ 1 / 2 * (1 / (k : ℝ) * ∑ s ∈ S, (1 / ((N - k : ℕ) : ℝ) * ∑ t ∈ Sᶜ,
      (acc K S (insert t (S.erase s)) * F (insert t (S.erase s)) + (1 - acc K S (insert t (S.erase s))) * F S))) :=
  mul_nonneg (by norm_num) (mul_nonneg (by positivity) (Finset.sum_nonneg fun s _ => inner_nonneg hF S s))

theorem exKer_nonneg {F : Finset (Fin N) → ℝ} (hF : ∀ S, 0 ≤ F S) (S : Finset (Fin N)) : 0 ≤ exKer K k F S :=
  add_nonneg (outer_nonneg hF S) (mul_nonneg (by norm_num) (hF S))

/-- the states of the exchange chain -/
def ExState (K : Matrix (Fin N) (Fin N) ℝ) (k : ℕ) (S : Finset (Fin N)) : Prop := S.card = k ∧ 0 < minor K S

theorem exChain (h0 : 0 < k) (hkN : k < N) : Chain (exMat K k) (ExState K k) := by
  refine ⟨fun S T _ => ?_, fun S hS => ?_, fun S T hS hT => ?_⟩
  · rw [exMat_apply]; exact exKer_nonneg (ind_nonneg T) S
  · have := congrFun (exMat_mulVec (K := K) (k := k) fun _ => 1) S
    rw [exKer_one h0 hkN hS.1] at this
    rw [this]; simp [Matrix.mulVec, dotProduct]
  · rw [exMat_apply, exKer]
    have hST : S ≠ T := by rintro rfl; exact hT hS
    rw [if_neg hST]
    have : ∀ s ∈ S, ∀ t ∈ Sᶜ, acc K S (insert t (S.erase s)) * (if insert t (S.erase s) = T then (1 : ℝ) else 0) +
        (1 - acc K S (insert t (S.erase s))) * 0 = 0 := by
      intro s hs t ht
      split
      · rename_i h
        rw [h, acc_eq_zero hS.2]; · ring
        intro hp
        refine hT ⟨?_, hp⟩
        rw [← h, exchange_card hs (Finset.mem_compl.1 ht), hS.1]
      · ring
    rw [Finset.sum_eq_zero fun s hs => by rw [Finset.sum_eq_zero fun t ht => this s hs t ht, mul_zero]]
    ring

theorem exMat_pos (h0 : 0 < k) (hkN : k < N) {S : Finset (Fin N)} {s t : Fin N} (hs : s ∈ S) (ht : t ∉ S)
    (hS : 0 < minor K S) (hT : 0 < minor K (insert t (S.erase s))) :
    0 < exMat K k S (insert t (S.erase s)) := by
  rw [exMat_apply, exKer]
  have hF := ind_nonneg (insert t (S.erase s))
  have hk : (0 : ℝ) < k := by exact_mod_cast h0
  have hNk : (0 : ℝ) < ((N - k : ℕ) : ℝ) := by
    have : 0 < N - k := by omega
    exact_mod_cast this
  refine add_pos_of_pos_of_nonneg ?_ (mul_nonneg (by norm_num) (hF S))
  refine mul_pos (by norm_num) (mul_pos (by positivity) ?_)
  refine Finset.sum_pos' (fun s _ => inner_nonneg hF S s) ⟨s, hs, mul_pos (by positivity) ?_⟩
  refine Finset.sum_pos' (fun t _ => term_nonneg hF _ _) ⟨t, Finset.mem_compl.2 ht, ?_⟩
  rw [if_pos rfl, mul_one]
  exact add_pos_of_pos_of_nonneg (acc_pos hS hT) (mul_nonneg (sub_nonneg.2 (accP_le_one _ _ _)) (hF S))

theorem exMat_diag (S : Finset (Fin N)) : 0 < exMat K k S S := by
  rw [exMat_apply, exKer, if_pos rfl]
  have := outer_nonneg (K := K) (k := k) (F := fun A => if A = S then 1 else 0) (fun A => ind_nonneg S A) S
  simp only [if_true] at this
  linarith

/-- the items outside `T` can be replaced one after the other -/
theorem ex_reach (h0 : 0 < k) (hkN : k < N) (hK : K.PosSemidef) {T : Finset (Fin N)} (hT : ExState K k T) :
    ∀ (n : ℕ) (S : Finset (Fin N)), (S \ T).card = n → ExState K k S →
    ReflTransGen (fun a b => 0 < exMat K k a b) S T := by
  intro n
  induction n with
  | zero =>
    intro S h hS
    have h1 : S ⊆ T := Finset.sdiff_eq_empty_iff_subset.1 (Finset.card_eq_zero.1 h)
    rw [Finset.eq_of_subset_of_card_le h1 (by rw [hS.1, hT.1])]
  | succ n ih =>
    intro S h hS
    obtain ⟨s, hs⟩ := Finset.card_pos.1 (show 0 < (S \ T).card by omega)
    obtain ⟨hsS, hsT⟩ := Finset.mem_sdiff.1 hs
    obtain ⟨t, htT, htS, hp⟩ := exchange_exists hK (hS.1.trans hT.1.symm) hS.2 hT.2 hsS hsT
    refine .head (exMat_pos h0 hkN hsS htS hS.2 hp) (ih _ ?_ ⟨by rw [exchange_card hsS htS, hS.1], hp⟩)
    have : insert t (S.erase s) \ T = (S \ T).erase s := by
      ext x
      simp only [Finset.mem_sdiff, Finset.mem_insert, Finset.mem_erase]
      constructor
      · rintro ⟨rfl | ⟨h1, h2⟩, h3⟩
        · exact absurd htT h3
        · exact ⟨h1, h2, h3⟩
      · rintro ⟨h1, h2, h3⟩; exact ⟨.inr ⟨h1, h2⟩, h3⟩
    rw [this, Finset.card_erase_of_mem hs, h]; rfl

theorem ex_inv (h0 : 0 < k) (hkN : k < N) (hK : K.PosSemidef) : (kDppProb K k) ᵥ* exMat K k = kDppProb K k := by
  funext T
  have h := exKer_reversible (K := K) (minor_nonneg hK) k (fun A => if A = T then 1 else 0) (fun _ => 1)
  simp only [mul_one] at h
  have h1 : ∑ S ∈ (Finset.univ : Finset (Fin N)).powersetCard k, minor K S * (if S = T then 1 else 0) * exKer K k (fun _ => 1) S
      = if T.card = k then minor K T else 0 := by
    rw [Finset.sum_congr rfl fun S hS => by rw [exKer_one h0 hkN (Finset.mem_powersetCard.1 hS).2, mul_one]]
    simp
  rw [h1] at h
  have h2 : ∀ S, kDppProb K k S * exMat K k S T =
      (if S.card = k then minor K S * exKer K k (fun A => if A = T then 1 else 0) S else 0) /
        ∑ S' ∈ (Finset.univ : Finset (Fin N)).powersetCard k, minor K S' := by
    intro S
    rw [kDppProb, exMat_apply]
    split <;> ring
  simp only [Matrix.vecMul, dotProduct, h2]
  have h3 : (Finset.univ.filter fun S : Finset (Fin N) => S.card = k) = (Finset.univ : Finset (Fin N)).powersetCard k := by
    ext S; simp [Finset.mem_powersetCard]
  rw [← Finset.sum_div, ← Finset.sum_filter, h3, h]
  rw [kDppProb]
  split <;> simp

theorem ex_converge (h0 : 0 < k) (hkN : k < N) (hK : K.PosSemidef) : ∃ m : ℕ, 0 < m ∧ ∃ c : ℝ, 0 < c ∧ c ≤ 1 ∧
    ∀ S, ExState K k S → ∀ j : ℕ, ∑ T, |((exKer K k)^[j] fun A => if A = T then 1 else 0) S - kDppProb K k T|
      ≤ 2 * (1 - c) ^ (j / m) := by
  by_cases hex : ∃ T, ExState K k T
  · obtain ⟨T0, hT0⟩ := hex
    have hD : 0 < ∑ S' ∈ (Finset.univ : Finset (Fin N)).powersetCard k, minor K S' :=
      Finset.sum_pos' (fun S _ => minor_nonneg hK S) ⟨T0, Finset.mem_powersetCard.2 ⟨Finset.subset_univ _, hT0.1⟩, hT0.2⟩
    have hp : ∀ S, 0 ≤ kDppProb K k S := fun S => by
      rw [kDppProb]; split
      · exact div_nonneg (minor_nonneg hK S) hD.le
      · exact le_rfl
    obtain ⟨m, hm, c, hc0, hc1, h⟩ := (exChain (K := K) h0 hkN).converge (exMat_diag T0)
      (fun S hS => ex_reach h0 hkN hK hT0 _ S rfl hS) (kDppProb K k) hp
      (by
        simp only [kDppProb]
        rw [← Finset.sum_filter, ← Finset.sum_div]
        have : (Finset.univ.filter fun S : Finset (Fin N) => S.card = k) = (Finset.univ : Finset (Fin N)).powersetCard k := by
          ext S; simp [Finset.mem_powersetCard]
        rw [this, div_self hD.ne'])
      (fun S hS => by
        rw [kDppProb]; split
        · rename_i hc
          rw [le_antisymm (not_lt.1 fun h => hS ⟨hc, h⟩) (minor_nonneg hK S), zero_div]
        · rfl) (ex_inv h0 hkN hK)
    refine ⟨m, hm, c, hc0, hc1, fun S hS j => ?_⟩
    refine le_of_eq_of_le (Finset.sum_congr rfl fun T _ => ?_) (h S hS j)
    rw [iter_mat exMat_mulVec, mulVec_ind]
  · exact ⟨1, one_pos, 1, one_pos, le_rfl, fun S hS => absurd ⟨S, hS⟩ hex⟩

end Verif.Lemmas.McmcConverge
