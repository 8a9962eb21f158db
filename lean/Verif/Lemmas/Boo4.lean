import Verif.Lemmas.Boo2
import Verif.Lemmas.Boo3
import Verif.Lemmas.Planch2
import Mathlib.Analysis.SpecialFunctions.Sqrt
import Mathlib.Order.Interval.Finset.Basic
import Mathlib.Data.Int.Interval

/-!
Gap probabilities of the Young diagrams inside a box.
-/

set_option linter.unusedVariables false

namespace Verif.Lemmas
open Verif Verif.Spec Verif.Model Finset
open scoped NNReal ENNReal

variable {M : ℕ}

/-- `sqrt(theta)^k / k!`, zero for negative `k` -/
noncomputable def pa (θ : ℝ) (k : ℤ) : ℝ := Real.sqrt θ ^ k.toNat * ifac k

theorem det_pa (θ : ℝ) (c : Fin M → ℤ) (n : ℕ) (hn : ∑ i, c i + ∑ j : Fin M, (j : ℤ) = n) :
    (Matrix.of fun i j : Fin M => pa θ (c i + (j : ℤ))).det = Real.sqrt θ ^ n * facDet c := by
  rw [facDet_apply, ← Matrix.det_transpose, Matrix.det_apply', mul_sum]
  refine sum_congr rfl fun σ _ => ?_
  simp only [Matrix.transpose_apply, Matrix.of_apply, pa, prod_mul_distrib]
  by_cases h : ∀ i, 0 ≤ c i + ((σ i : Fin M) : ℤ)
  · rw [prod_pow_eq_pow_sum]
    have : ∑ i, (c i + ((σ i : Fin M) : ℤ)).toNat = n := by
      zify
      rw [sum_congr rfl fun i _ => Int.toNat_of_nonneg (h i), sum_add_distrib, Equiv.sum_comp σ (fun j : Fin M => (j : ℤ)), hn]
    rw [this]; ring
  · push Not at h
    obtain ⟨i, hi⟩ := h
    rw [prod_eq_zero (f := fun i => ifac (c i + ((σ i : Fin M) : ℤ))) (mem_univ i) (ifac_neg hi)]
    ring

/-! ### partitions and decreasing sequences -/

theorem getD_takeWhile : ∀ (l : List ℕ), l.Pairwise (· ≥ ·) → ∀ i, (l.takeWhile (fun k => decide (0 < k))).getD i 0 = l.getD i 0
  | [], _, i => by simp
  | a :: l, h, i => by
    rw [List.pairwise_cons] at h
    by_cases ha : 0 < a
    · rw [List.takeWhile_cons_of_pos (by simpa using ha)]
      cases i with
      | zero => simp
      | succ i => rw [List.getD_cons_succ, List.getD_cons_succ, getD_takeWhile l h.2 i]
    · rw [List.takeWhile_cons_of_neg (by simpa using ha)]
      have h0 : a = 0 := by omega
      cases i with
      | zero => simp [h0]
      | succ i =>
        rw [List.getD_cons_succ, List.getD_nil]
        rcases Nat.lt_or_ge i l.length with hi | hi
        · rw [List.getD_eq_getElem _ _ hi]
          have := h.1 _ (List.getElem_mem hi)
          omega
        · rw [List.getD_eq_default _ _ hi]

theorem partition_ext {l l' : List ℕ} (h : IsPartition l) (h' : IsPartition l') (he : ∀ i, l.getD i 0 = l'.getD i 0) : l = l' := by
  have key : ∀ {l l' : List ℕ}, IsPartition l' → (∀ i, l.getD i 0 = l'.getD i 0) → l'.length ≤ l.length := by
    intro l l' h' he
    by_contra hc
    have e := he l.length
    rw [List.getD_eq_default _ _ le_rfl, List.getD_eq_getElem _ _ (by omega)] at e
    have := h'.1 _ (List.getElem_mem (by omega : l.length < l'.length))
    omega
  refine List.ext_getElem (le_antisymm (key h fun i => (he i).symm) (key h' he)) fun i h1 h2 => ?_
  have := he i
  rwa [List.getD_eq_getElem _ _ h1, List.getD_eq_getElem _ _ h2] at this

theorem partition_antitone {l : List ℕ} (h : IsPartition l) {i j : ℕ} (hij : i ≤ j) : l.getD j 0 ≤ l.getD i 0 := by
  rcases Nat.lt_or_ge j l.length with hj | hj
  · rcases Nat.eq_or_lt_of_le hij with h2 | h2
    · rw [h2]
    · rw [List.getD_eq_getElem _ _ hj, List.getD_eq_getElem _ _ (by omega)]
      exact List.pairwise_iff_getElem.1 h.2 _ _ _ _ h2
  · rw [List.getD_eq_default _ _ hj]; exact Nat.zero_le _

/-- the first `M` points of a diagram -/
def tOf (M : ℕ) (lam : List ℕ) : Fin M → ℤ := fun i => (lam.getD i 0 : ℤ) - (i : ℤ)

theorem tOf_strictAnti {lam : List ℕ} (h : IsPartition lam) : StrictAnti (tOf M lam) := by
  intro i j hij
  have h1 := partition_antitone h (le_of_lt (Fin.lt_def.1 hij))
  have h2 := Fin.lt_def.1 hij
  unfold tOf
  omega

theorem tOf_inj {lam lam' : List ℕ} (h : IsPartition lam) (h' : IsPartition lam') (hl : lam.length ≤ M) (hl' : lam'.length ≤ M)
    (he : tOf M lam = tOf M lam') : lam = lam' := by
  refine partition_ext h h' fun i => ?_
  rcases Nat.lt_or_ge i M with hi | hi
  · have := congrFun he ⟨i, hi⟩
    simp only [tOf] at this
    omega
  · rw [List.getD_eq_default _ _ (hl.trans hi), List.getD_eq_default _ _ (hl'.trans hi)]

theorem exists_partition {t : Fin M → ℤ} (ht : StrictAnti t) (h0 : ∀ i, 1 - (M : ℤ) ≤ t i) :
    ∃ lam, IsPartition lam ∧ lam.length ≤ M ∧ tOf M lam = t := by
  have hstep : ∀ i j : Fin M, i ≤ j → t j + (j : ℤ) ≤ t i + (i : ℤ) := by
    intro i j hij
    obtain ⟨d, hd⟩ := Nat.exists_eq_add_of_le (Fin.le_def.1 hij)
    induction d generalizing j with
    | zero => have : j = i := Fin.ext (by omega); subst this; exact le_rfl
    | succ d ih =>
      have hj : i.val + d < M := by have := j.2; omega
      have h1 := ih ⟨i.val + d, hj⟩ (by rw [Fin.le_def]; simp) rfl
      have h2 := ht (show (⟨i.val + d, hj⟩ : Fin M) < j by rw [Fin.lt_def]; simp; omega)
      simp only at h1
      omega
  have hnn : ∀ i : Fin M, 0 ≤ t i + (i : ℤ) := fun i => by
    have hM : M - 1 < M := by have := i.2; omega
    have h1 := hstep i ⟨M - 1, hM⟩ (by rw [Fin.le_def]; simp; omega)
    have h2 := h0 ⟨M - 1, hM⟩
    simp only at h1
    omega
  have hanti : (List.ofFn fun i : Fin M => (t i + (i : ℤ)).toNat).Pairwise (· ≥ ·) := by
    rw [List.pairwise_ofFn]
    intro i j hij
    have := hstep i j hij.le
    simp only [ge_iff_le]
    omega
  refine ⟨(List.ofFn fun i : Fin M => (t i + (i : ℤ)).toNat).takeWhile (fun k => decide (0 < k)), ⟨?_, ?_⟩, ?_, ?_⟩
  · intro k hk
    have := List.all_takeWhile (p := fun k => decide (0 < k)) (l := List.ofFn fun i : Fin M => (t i + (i : ℤ)).toNat)
    rw [List.all_eq_true] at this
    simpa using this k hk
  · exact hanti.sublist (List.takeWhile_sublist _)
  · exact (List.takeWhile_sublist _).length_le.trans (by simp)
  · funext i
    rw [tOf, getD_takeWhile _ hanti, List.getD_eq_getElem _ _ (by simp), List.getElem_ofFn]
    have := hnn i
    simp only [Fin.eta]
    omega

/-! ### probabilities -/

theorem sum_getD (lam : List ℕ) : ∀ (M : ℕ), lam.length ≤ M → ∑ i : Fin M, lam.getD i 0 = lam.sum := by
  induction lam with
  | nil => simp
  | cons a l ih =>
    intro M hM
    obtain ⟨M, rfl⟩ : ∃ M', M = M' + 1 := ⟨M - 1, by simp at hM; omega⟩
    rw [Fin.sum_univ_succ, List.sum_cons, ← ih M (by simpa using hM)]
    simp

/-- probability of a diagram with at most `M` rows -/
theorem PP_young_det (θ : ℝ≥0) {lam : List ℕ} (h : IsPartition lam) (hl : lam.length ≤ M) :
    PP (plancherelSample θ) (fun o => ∃ s, o = some (lam, s))
      = ENNReal.ofReal (Real.exp (-θ) * (Matrix.of fun i j : Fin M => pa θ (tOf M lam i + (j : ℤ))).det ^ 2) := by
  rw [PP_young, det_pa θ (tOf M lam) lam.sum, numSYT_eq_det lam h M hl]
  · congr 1
    have h1 : (lam.sum.factorial : ℝ) ≠ 0 := by positivity
    have h2 : Real.sqrt (θ : ℝ) ^ lam.sum * Real.sqrt (θ : ℝ) ^ lam.sum = (θ : ℝ) ^ lam.sum := by
      rw [← mul_pow, Real.mul_self_sqrt θ.coe_nonneg]
    rw [← h2]
    unfold tOf
    field_simp
  · unfold tOf
    rw [sum_sub_distrib, sub_add_cancel, ← sum_getD lam M hl]
    push_cast; rfl

/-- the diagram has at most `M` rows, first row at most `L`, and none of its points is in `B` -/
def GapBox (M L : ℕ) (B : Finset ℤ) (o : Option (List ℕ × List ℚ)) : Prop :=
  ∃ lam s, o = some (lam, s) ∧ lam.length ≤ M ∧ lam.getD 0 0 ≤ L ∧ ∀ i : ℕ, (lam.getD i 0 : ℤ) - (i : ℤ) ∉ B

theorem PP_gapBox (θ : ℝ≥0) (M L : ℕ) (B : Finset ℤ) (hB : ∀ b ∈ B, 1 - (M : ℤ) ≤ b) :
    PP (plancherelSample θ) (GapBox M L B) = ENNReal.ofReal (Real.exp (-θ) *
      (Matrix.of fun j k : Fin M => ∑ s ∈ Icc (1 - (M : ℤ)) L, (if s ∈ B then 0 else 1) * pa θ (s + (j : ℤ)) * pa θ (s + (k : ℤ))).det) := by
  classical
  obtain ⟨S, hS⟩ : ∃ S, S = (antiSeqs M (Icc (1 - (M : ℤ)) L)).filter fun t => ∀ i, t i ∉ B := ⟨_, rfl⟩
  -- decomposition of the event
  have hdec : PP (plancherelSample θ) (GapBox M L B)
      = ∑ t ∈ S, PP (plancherelSample θ) (fun o => ∃ lam s, o = some (lam, s) ∧ lam.length ≤ M ∧ tOf M lam = t) := by
    unfold PP
    rw [← PE_sum]
    refine PE_congr fun o ho => ?_
    obtain ⟨lam, s, rfl, hp⟩ := plancherel_support θ ho
    have h1 : ∀ t : Fin M → ℤ, (∃ lam' s', some (lam, s) = some (lam', s') ∧ lam'.length ≤ M ∧ tOf M lam' = t) ↔
        lam.length ≤ M ∧ tOf M lam = t := fun t => by
      constructor
      · rintro ⟨lam', s', e, h⟩
        obtain ⟨rfl, rfl⟩ : lam = lam' ∧ s = s' := by simpa using e
        exact h
      · intro h; exact ⟨lam, s, rfl, h⟩
    have h2 : GapBox M L B (some (lam, s)) ↔ lam.length ≤ M ∧ tOf M lam ∈ S := by
      unfold GapBox
      constructor
      · rintro ⟨lam', s', e, a1, a2, a3⟩
        obtain ⟨rfl, rfl⟩ : lam = lam' ∧ s = s' := by simpa using e
        refine ⟨a1, ?_⟩
        rw [hS, mem_filter, mem_antiSeqs]
        refine ⟨⟨fun i => ?_, tOf_strictAnti hp⟩, fun i => a3 i⟩
        have := partition_antitone hp (Nat.zero_le i.val)
        have := i.2
        rw [mem_Icc]
        unfold tOf
        omega
      · rintro ⟨a1, a2⟩
        rw [hS, mem_filter, mem_antiSeqs] at a2
        refine ⟨lam, s, rfl, a1, ?_, fun i => ?_⟩
        · rcases Nat.eq_zero_or_pos M with hM | hM
          · subst hM
            rw [List.length_eq_zero_iff.1 (Nat.le_zero.1 a1)]; simp
          · have := mem_Icc.1 (a2.1.1 ⟨0, hM⟩)
            simp only [tOf] at this
            omega
        · rcases Nat.lt_or_ge i M with hi | hi
          · exact a2.2 ⟨i, hi⟩
          · rw [List.getD_eq_default _ _ (a1.trans hi)]
            intro hc
            have := hB _ hc
            simp at this
            omega
    rw [if_congr h2 rfl rfl]
    rw [sum_congr rfl fun t _ => if_congr (h1 t) rfl rfl]
    by_cases hl : lam.length ≤ M
    · simp only [hl, true_and]
      rw [sum_ite_eq]
    · simp [hl]
  rw [hdec]
  have hterm : ∀ t ∈ S, PP (plancherelSample θ) (fun o => ∃ lam s, o = some (lam, s) ∧ lam.length ≤ M ∧ tOf M lam = t)
      = ENNReal.ofReal (Real.exp (-θ) * (Matrix.of fun i j : Fin M => pa θ (t i + (j : ℤ))).det ^ 2) := fun t ht => by
    rw [hS, mem_filter, mem_antiSeqs] at ht
    obtain ⟨lam, hp, hl, rfl⟩ := exists_partition ht.1.2 fun i => (mem_Icc.1 (ht.1.1 i)).1
    rw [← PP_young_det θ hp hl]
    refine PP_congr fun o ho => ?_
    obtain ⟨lam', s', rfl, hp'⟩ := plancherel_support θ ho
    constructor
    · rintro ⟨l, s, e, hl', ht'⟩
      obtain ⟨rfl, rfl⟩ : lam' = l ∧ s' = s := by simpa using e
      exact ⟨s', by rw [tOf_inj hp' hp hl' hl ht']⟩
    · rintro ⟨s, e⟩
      exact ⟨lam, s, e, hl, rfl⟩
  rw [sum_congr rfl hterm, ← ENNReal.ofReal_sum_of_nonneg fun t _ => by positivity]
  congr 1
  rw [← mul_sum]
  congr 1
  rw [← andreief (Icc (1 - (M : ℤ)) (L : ℤ)) (fun s => if s ∈ B then (0 : ℝ) else 1) (fun j s => pa θ (s + (j : ℤ))), hS, sum_filter]
  refine sum_congr rfl fun t _ => ?_
  by_cases h : ∀ i, t i ∉ B
  · rw [if_pos h, prod_eq_one fun i _ => if_neg (h i), one_mul]
  · rw [if_neg h]
    push Not at h
    obtain ⟨i, hi⟩ := h
    have h0 : ∏ i, (if t i ∈ B then (0 : ℝ) else 1) = 0 := prod_eq_zero (mem_univ i) (if_pos hi)
    rw [h0, zero_mul]

end Verif.Lemmas
