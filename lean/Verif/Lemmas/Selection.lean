import Verif.Model.Exact
import Verif.Lemmas.Descent
import Verif.Lemmas.GenericLaw
import Mathlib.Data.Finset.Powerset
import Mathlib.Data.Finset.Sort
import Mathlib.Algebra.BigOperators.Ring.Finset
import Mathlib.Algebra.Order.BigOperators.Group.Finset
import Mathlib.Algebra.Order.BigOperators.Ring.Finset

set_option linter.unusedSectionVars false

namespace Verif.Model
open Verif

section esp
variable {R : Type*} [Field R] [LinearOrder R]

/-- sum over `k`-subsets of products -/
def esum (lam : ℕ → R) (k n : ℕ) : R :=
  ∑ J ∈ (Finset.range n).powersetCard k, ∏ j ∈ J, lam j

theorem esum_zero (lam : ℕ → R) (n : ℕ) : esum lam 0 n = 1 := by simp [esum]

theorem esum_succ_zero (lam : ℕ → R) (k : ℕ) : esum lam (k+1) 0 = 0 := by
  unfold esum
  rw [Finset.powersetCard_eq_empty.2 (by simp)]
  simp

theorem esum_succ_succ (lam : ℕ → R) (k n : ℕ) :
    esum lam (k+1) (n+1) = esum lam (k+1) n + lam n * esum lam k n := by
  unfold esum
  rw [Finset.range_add_one, Finset.powersetCard_succ_insert Finset.notMem_range_self,
    Finset.sum_union]
  · congr 1
    rw [Finset.sum_image, Finset.mul_sum]
    · apply Finset.sum_congr rfl
      intro J hJ
      rw [Finset.prod_insert]
      intro hn
      exact Finset.notMem_range_self ((Finset.mem_powersetCard.1 hJ).1 hn)
    · intro J hJ J' hJ' h
      have h1 : n ∉ J := fun hn => Finset.notMem_range_self ((Finset.mem_powersetCard.1 hJ).1 hn)
      have h2 : n ∉ J' := fun hn => Finset.notMem_range_self ((Finset.mem_powersetCard.1 hJ').1 hn)
      rw [← Finset.erase_insert h1, ← Finset.erase_insert h2, h]
  · rw [Finset.disjoint_left]
    intro J hJ hJ'
    obtain ⟨J', hJ'', rfl⟩ := Finset.mem_image.1 hJ'
    exact Finset.notMem_range_self ((Finset.mem_powersetCard.1 hJ).1 (Finset.mem_insert_self _ _))

/-- the row being filled by the inner loop -/
theorem espRow (lam : ℕ → R) (k N : ℕ) (E : ℕ → ℕ → R) (h0 : E (k+1) 0 = 0)
    (hk : ∀ n ≤ N, E k n = esum lam k n) :
    ∀ M ≤ N, ∀ k' n', ((List.range M).foldl (fun (E : ℕ → ℕ → R) (n : ℕ) =>
        updCell E (k + 1) (n + 1) (E (k + 1) n + lam n * E k n)) E) k' n'
      = if k' = k + 1 ∧ n' ≤ M then esum lam (k+1) n' else E k' n' := by
  intro M
  induction M with
  | zero =>
    intro _ k' n'
    simp only [List.range_zero, List.foldl_nil]
    split
    · rename_i h
      obtain ⟨rfl, h⟩ := h
      have : n' = 0 := by omega
      subst this
      rw [h0, esum_succ_zero]
    · rfl
  | succ M ih =>
    intro hM k' n'
    rw [List.range_succ, List.foldl_append, List.foldl_cons, List.foldl_nil]
    unfold updCell
    have ih' := ih (by omega)
    by_cases h1 : k' = k + 1 ∧ n' = M + 1
    · rw [if_pos h1, if_pos ⟨h1.1, h1.2.le⟩, h1.2]
      have e1 := ih' (k+1) M
      have e2 := ih' k M
      unfold updCell at e1 e2
      rw [e1, e2, if_pos ⟨rfl, le_rfl⟩, if_neg (by omega), hk M (by omega), esum_succ_succ]
    · rw [if_neg h1]
      have e1 := ih' k' n'
      unfold updCell at e1
      rw [e1]
      by_cases h2 : k' = k + 1 ∧ n' ≤ M
      · rw [if_pos h2, if_pos ⟨h2.1, by omega⟩]
      · rw [if_neg h2, if_neg]
        rintro ⟨h3, h4⟩
        apply h2
        refine ⟨h3, ?_⟩
        by_contra h5
        exact h1 ⟨h3, by omega⟩

theorem espFill_eq (N : ℕ) (lam : ℕ → R) (size : ℕ) :
    ∀ k n, n ≤ N → espFill N lam size k n = if k ≤ size then esum lam k n else 0 := by
  unfold espFill
  induction size with
  | zero =>
    intro k n _
    simp only [List.range_zero, List.foldl_nil]
    by_cases h : k = 0
    · subst h; simp [esum_zero]
    · simp [h]
  | succ size ih =>
    intro k n hn
    rw [List.range_succ, List.foldl_append, List.foldl_cons, List.foldl_nil]
    rw [espRow lam size N _ _ _ N le_rfl]
    · by_cases h : k = size + 1
      · subst h; rw [if_pos ⟨rfl, hn⟩, if_pos le_rfl]
      · rw [if_neg (fun hc => h hc.1), ih k n hn]
        by_cases h2 : k ≤ size
        · rw [if_pos h2, if_pos (by omega)]
        · rw [if_neg h2, if_neg (by omega)]
    · rw [ih _ _ (Nat.zero_le _), if_neg (by omega)]
    · intro n hn
      rw [ih _ _ hn, if_pos le_rfl]

theorem esp_eq (N : ℕ) (lam : ℕ → R) (size k n : ℕ) (hk : k ≤ size) (hn : n ≤ N) :
    elementarySymmetricPolynomials N lam size k n = some (esum lam k n) := by
  unfold elementarySymmetricPolynomials
  rw [if_pos ⟨hk, hn⟩, espFill_eq N lam size k n hn, if_pos hk]

variable [IsStrictOrderedRing R]

theorem esum_nonneg {lam : ℕ → R} {n : ℕ} (h : ∀ i < n, 0 ≤ lam i) (k : ℕ) : 0 ≤ esum lam k n := by
  apply Finset.sum_nonneg
  intro J hJ
  apply Finset.prod_nonneg
  intro j hj
  exact h j (Finset.mem_range.1 ((Finset.mem_powersetCard.1 hJ).1 hj))

theorem prod_zero_of_esum {lam : ℕ → R} {n k : ℕ} (h : ∀ i < n, 0 ≤ lam i)
    (h0 : esum lam k n = 0) (J : Finset ℕ) (hJ : J ⊆ Finset.range n) (hc : J.card = k) :
    ∏ j ∈ J, lam j = 0 := by
  refine (Finset.sum_eq_zero_iff_of_nonneg ?_).1 h0 J (Finset.mem_powersetCard.2 ⟨hJ, hc⟩)
  intro J hJ
  apply Finset.prod_nonneg
  intro j hj
  exact h j (Finset.mem_range.1 ((Finset.mem_powersetCard.1 hJ).1 hj))

/-- increasing enumeration of a finite set of naturals -/
theorem esum_pos_iff {lam : ℕ → R} {n k : ℕ} (h : ∀ i < n, 0 ≤ lam i) :
    0 < esum lam k n ↔ k ≤ ((List.range n).filter fun i => decide (0 < lam i)).length := by
  induction n generalizing k with
  | zero =>
    cases k with
    | zero => simp [esum_zero]
    | succ k => simp [esum_succ_zero]
  | succ n ih =>
    have hn : ∀ i < n, 0 ≤ lam i := fun i hi => h i (by omega)
    rw [List.range_succ, List.filter_append, List.length_append]
    cases k with
    | zero => simp [esum_zero]
    | succ k =>
      rw [esum_succ_succ]
      have h1 := esum_nonneg hn (k+1)
      have h2 := esum_nonneg hn k
      have h3 := h n (by omega)
      rcases h3.lt_or_eq with hpos | hz
      · have e : (List.filter (fun i => decide (0 < lam i)) [n]).length = 1 := by simp [hpos]
        rw [e, Nat.add_le_add_iff_right, ← ih hn]
        constructor
        · intro hp
          by_contra hc
          have hz : esum lam k n = 0 := le_antisymm (not_lt.1 hc) h2
          rw [hz, mul_zero, add_zero] at hp
          have h4 := (ih hn).1 hp
          have h5 := (ih (k := k) hn).2 (by omega)
          exact hc h5
        · intro hp
          have := mul_pos hpos hp
          linarith
      · have e : (List.filter (fun i => decide (0 < lam i)) [n]).length = 0 := by simp [← hz]
        rw [e, ← hz, zero_mul, add_zero, add_zero]
        exact ih hn

end esp

section law
variable {R : Type*} [Field R] [LinearOrder R] [IsStrictOrderedRing R]

/-- the sorted list of a finite set -/
abbrev sl (J : Finset ℕ) : List ℕ := J.sort (· ≤ ·)

theorem sl_insert_last {J : Finset ℕ} {n : ℕ} (h : J ⊆ Finset.range n) :
    sl (insert n J) = sl J ++ [n] := by
  have hn : n ∉ J := fun hh => Finset.notMem_range_self (h hh)
  apply List.Perm.eq_of_pairwise (le := (· ≤ ·))
  · intro a b _ _ h1 h2; exact le_antisymm h1 h2
  · exact Finset.pairwise_sort _ _
  · rw [List.pairwise_append]
    refine ⟨Finset.pairwise_sort _ _, by simp, ?_⟩
    intro a ha b hb
    simp only [List.mem_singleton] at hb
    subst hb
    exact (Finset.mem_range.1 (h ((Finset.mem_sort _).1 ha))).le
  · rw [List.perm_ext_iff_of_nodup (Finset.sort_nodup _ _)]
    · intro a; simp [or_comm]
    · rw [List.nodup_append]
      refine ⟨Finset.sort_nodup _ _, by simp, ?_⟩
      intro a ha b hb
      simp only [List.mem_singleton] at hb
      subst hb
      rintro rfl
      exact hn ((Finset.mem_sort _).1 ha)

theorem sum_powersetCard_succ (lam : ℕ → R) (k n : ℕ) (f : Finset ℕ → R) :
    ∑ J ∈ (Finset.range (n+1)).powersetCard (k+1), (∏ j ∈ J, lam j) * f J
      = lam n * ∑ J ∈ (Finset.range n).powersetCard k, (∏ j ∈ J, lam j) * f (insert n J)
        + ∑ J ∈ (Finset.range n).powersetCard (k+1), (∏ j ∈ J, lam j) * f J := by
  rw [Finset.range_add_one, Finset.powersetCard_succ_insert Finset.notMem_range_self,
    Finset.sum_union, add_comm]
  · congr 1
    rw [Finset.sum_image, Finset.mul_sum]
    · apply Finset.sum_congr rfl
      intro J hJ
      rw [Finset.prod_insert, mul_assoc]
      intro hn
      exact Finset.notMem_range_self ((Finset.mem_powersetCard.1 hJ).1 hn)
    · intro J hJ J' hJ' h
      have h1 : n ∉ J := fun hn => Finset.notMem_range_self ((Finset.mem_powersetCard.1 hJ).1 hn)
      have h2 : n ∉ J' := fun hn => Finset.notMem_range_self ((Finset.mem_powersetCard.1 hJ').1 hn)
      rw [← Finset.erase_insert h1, ← Finset.erase_insert h2, h]
  · rw [Finset.disjoint_left]
    intro J hJ hJ'
    obtain ⟨J', hJ'', rfl⟩ := Finset.mem_image.1 hJ'
    exact Finset.notMem_range_self ((Finset.mem_powersetCard.1 hJ).1 (Finset.mem_insert_self _ _))

theorem sum_zero_of_esum {lam : ℕ → R} {n k : ℕ} (h : ∀ i < n, 0 ≤ lam i)
    (h0 : esum lam k n = 0) (f : Finset ℕ → R) :
    ∑ J ∈ (Finset.range n).powersetCard k, (∏ j ∈ J, lam j) * f J = 0 := by
  apply Finset.sum_eq_zero
  intro J hJ
  obtain ⟨h1, h2⟩ := Finset.mem_powersetCard.1 hJ
  rw [prod_zero_of_esum h h0 J h1 h2, zero_mul]

/-- Expectation of any functional of the outcome of the selection loop started with `k ≥ 1` items to
select; `tail` is the already filled part of `ind_selected`. -/
theorem kSelLoop_E (lam : ℕ → R) (E : Table R) (n k : ℕ) (hk : 1 ≤ k)
    (hE : ∀ k' ≤ k, ∀ n' ≤ n, E k' n' = some (esum lam k' n')) (hlam : ∀ i < n, 0 ≤ lam i)
    (tail pre : List ℕ) (hpre : pre.length = k) (f : Option (List ℕ) → R) :
    esum lam k n * (kSelLoop lam E n k (pre ++ tail)).E f
      = ∑ J ∈ (Finset.range n).powersetCard k, (∏ j ∈ J, lam j) * f (some (sl J ++ tail)) := by
  induction n generalizing k tail pre with
  | zero =>
    obtain ⟨k', rfl⟩ : ∃ k', k = k' + 1 := ⟨k - 1, by omega⟩
    rw [esum_succ_zero, zero_mul, Finset.powersetCard_eq_empty.2 (by simp)]
    simp
  | succ n ih =>
    have hn : ∀ i < n, 0 ≤ lam i := fun i hi => hlam i (by omega)
    have hln := hlam n (by omega)
    obtain ⟨k', rfl⟩ : ∃ k', k = k' + 1 := ⟨k - 1, by omega⟩
    rcases (esum_nonneg hlam (k'+1)).lt_or_eq with hpos | hz
    swap
    · rw [← hz, zero_mul, sum_zero_of_esum hlam hz.symm]
    have hrec := esum_succ_succ lam k' n
    have e1 := esum_nonneg hn (k'+1)
    have e2 := esum_nonneg hn k'
    set p := lam n * esum lam k' n / esum lam (k'+1) (n+1) with hp
    have hp0 : 0 ≤ p := div_nonneg (mul_nonneg hln e2) hpos.le
    have hp1 : p ≤ 1 := by
      rw [hp, div_le_one hpos, hrec]; linarith
    have hp3 : esum lam (k'+1) (n+1) * p = lam n * esum lam k' n := by
      rw [hp, mul_div_cancel₀ _ hpos.ne']
    obtain ⟨pre', x, rfl⟩ : ∃ pre' x, pre = pre' ++ [x] := by
      rcases List.eq_nil_or_concat pre with rfl | ⟨a, b, h⟩
      · simp at hpre
      · exact ⟨a, b, by simpa using h⟩
    have hpre' : pre'.length = k' := by simpa using hpre
    have hset : ((pre' ++ [x]) ++ tail).set k' n = pre' ++ (n :: tail) := by
      rw [List.append_assoc, List.set_append_right _ _ (by omega)]
      simp [hpre']
    have hstep : (kSelLoop lam E (n+1) (k'+1) (pre' ++ [x] ++ tail)).E f
        = p * (if k' = 0 then f (some (pre' ++ n :: tail))
            else (kSelLoop lam E n k' (pre' ++ n :: tail)).E f)
          + (1 - p) * (kSelLoop lam E n (k'+1) (pre' ++ [x] ++ tail)).E f := by
      rw [kSelLoop]
      simp only [Nat.add_sub_cancel, hE k' (by omega) n (by omega), hE (k'+1) le_rfl (n+1) le_rfl]
      rw [Dist.E_bind, ← hp, Dist.E_bern_of_mem hp0 hp1]
      congr 2
      simp only [if_true, Nat.succ_ne_zero, if_false, hset]
      split
      · simp
      · rfl
    have ih2 := ih (k'+1) (by omega) (fun a ha b hb => hE a ha b (by omega)) hn tail (pre' ++ [x]) (by simpa using hpre')
    rw [hstep, sum_powersetCard_succ lam k' n (fun J => f (some (sl J ++ tail))), ← ih2]
    have hins : ∀ J ∈ (Finset.range n).powersetCard k',
        (∏ j ∈ J, lam j) * f (some (sl (insert n J) ++ tail))
          = (∏ j ∈ J, lam j) * f (some (sl J ++ n :: tail)) := by
      intro J hJ
      rw [sl_insert_last (Finset.mem_powersetCard.1 hJ).1]
      simp
    rw [Finset.sum_congr rfl hins]
    have hb : esum lam k' n * (if k' = 0 then f (some (pre' ++ n :: tail))
            else (kSelLoop lam E n k' (pre' ++ n :: tail)).E f)
          = ∑ J ∈ (Finset.range n).powersetCard k', (∏ j ∈ J, lam j) * f (some (sl J ++ n :: tail)) := by
      by_cases h0 : k' = 0
      · subst h0
        have : pre' = [] := List.length_eq_zero_iff.1 hpre'
        subst this
        simp [esum_zero, sl]
      · rw [if_neg h0]
        exact ih k' (by omega) (fun a ha b hb => hE a (by omega) b (by omega)) hn (n :: tail) pre' hpre'
    rw [← hb, mul_add, ← mul_assoc, hp3, ← mul_assoc]
    have : esum lam (k'+1) (n+1) * (1 - p) = esum lam (k'+1) n := by
      rw [mul_sub, hp3, hrec]; ring
    rw [this]
    ring

/-- law of the Bernoulli selection of eigenvectors -/
theorem dppEigVecsSelector_E (lam : ℕ → R) (n : ℕ) (h : ∀ i < n, 0 ≤ lam i ∧ lam i ≤ 1)
    (f : List ℕ → R) :
    (dppEigVecsSelector lam n).E f
      = ∑ J ∈ (Finset.range n).powerset,
          (∏ j ∈ J, lam j) * (∏ j ∈ Finset.range n \ J, (1 - lam j)) * f (sl J) := by
  induction n generalizing f with
  | zero => simp [dppEigVecsSelector, sl]
  | succ n ih =>
    rw [dppEigVecsSelector, Dist.E_bind]
    have hb : ∀ l : List ℕ, ((Dist.bern (lam n)).bind fun b =>
        (Dist.ret (if b then l ++ [n] else l) : Dist R _)).E f
        = lam n * f (l ++ [n]) + (1 - lam n) * f l := by
      intro l
      rw [Dist.E_bind, Dist.E_bern_of_mem (h n (by omega)).1 (h n (by omega)).2]
      simp
    simp only [hb]
    rw [ih (fun i hi => h i (by omega)), Finset.range_add_one,
      sum_insert_powerset Finset.notMem_range_self, add_comm, ← Finset.sum_add_distrib]
    apply Finset.sum_congr rfl
    intro J hJ
    have hJ' := Finset.mem_powerset.1 hJ
    have hn : n ∉ J := fun hn => Finset.notMem_range_self (hJ' hn)
    rw [Finset.prod_insert hn, sl_insert_last hJ', Finset.insert_sdiff_of_notMem _ hn,
      Finset.prod_insert (by simp)]
    have : insert n (Finset.range n) \ insert n J = Finset.range n \ J := by
      ext i; simp only [Finset.mem_sdiff, Finset.mem_insert, Finset.mem_range]
      constructor
      · rintro ⟨h1, h2⟩; push Not at h2; exact ⟨by tauto, h2.2⟩
      · rintro ⟨h1, h2⟩
        refine ⟨Or.inr h1, ?_⟩
        rintro (rfl | h3)
        · omega
        · exact h2 h3
    rw [this]
    ring

end law
end Verif.Model
