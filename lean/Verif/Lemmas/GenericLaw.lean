import Verif.Lemmas.Generic
import Mathlib.Algebra.BigOperators.Field
import Mathlib.Data.Finset.Dedup
import Mathlib.Algebra.Order.Ring.Basic

set_option linter.unusedSectionVars false

namespace Verif.Model
open Verif Verif.Spec

variable {R : Type*} [Field R] [LinearOrder R] [IsStrictOrderedRing R] {N : ℕ}

theorem luLoop_sublist (js : List (Fin N)) (A : Matrix (Fin N) (Fin N) R) (o) (w : R)
    (h : (o, w) ∈ luLoop js A) : o.1.Sublist js := by
  induction js generalizing A o w with
  | nil => simp only [luLoop, Dist.ret, List.mem_singleton, Prod.mk.injEq] at h; simp [h.1]
  | cons j js ih =>
    simp only [luLoop, Dist.bind, Dist.ret, List.mem_flatMap, List.mem_map, Prod.exists,
      List.map_cons, List.map_nil, List.mem_singleton, Prod.mk.injEq] at h
    obtain ⟨b, v, -, o', B, v', ⟨o2, B', v2, h2, ⟨rfl, rfl⟩, -⟩, rfl, -⟩ := h
    have := ih _ _ _ h2
    by_cases hb : b
    · simp only [hb, if_true]; exact this.cons_cons j
    · simp only [hb]; exact this.cons j

theorem luStep_true {A : Matrix (Fin N) (Fin N) R} {j x z : Fin N} (hx : j < x) (hz : j < z) :
    luStep A j true x z = elim A j x z := by
  simp [luStep, elim, hx, hz, hz.ne']
  ring

theorem luStep_false {A : Matrix (Fin N) (Fin N) R} {j x z : Fin N} (hx : j < x) (hz : j < z) :
    luStep A j false x z = elimOut A j x z := by
  simp [luStep, elimOut, hx, hz, hz.ne', hx.ne']
  ring

theorem sum_insert_powerset {ι M : Type*} [DecidableEq ι] [AddCommMonoid M] {j : ι} {U : Finset ι}
    (hj : j ∉ U) (f : Finset ι → M) :
    ∑ S ∈ (insert j U).powerset, f S = ∑ S ∈ U.powerset, f S + ∑ S ∈ U.powerset, f (insert j S) :=
  Finset.sum_powerset_insert hj f

theorem luLoop_prob (js : List (Fin N)) (hjs : js.Pairwise (· < ·))
    (A : Matrix (Fin N) (Fin N) R)
    (hq : ∀ S ⊆ js.toFinset, 0 ≤ minor (mixRows A S) js.toFinset)
    (S : Finset (Fin N)) (hS : S ⊆ js.toFinset) :
    (luLoop js A).prob (fun o => o.1.toFinset = S) = minor (mixRows A S) js.toFinset := by
  induction js generalizing A S with
  | nil =>
    have : S = ∅ := by simpa using hS
    subst this
    simp [Dist.prob, luLoop]
  | cons j js ih =>
    obtain ⟨hj, hjs'⟩ := List.pairwise_cons.1 hjs
    set U := js.toFinset with hU
    have hUe : (j :: js).toFinset = insert j U := by simp [hU]
    have hjU : j ∉ U := by
      intro h; rw [hU, List.mem_toFinset] at h; exact lt_irrefl _ (hj j h)
    have hlt : ∀ x ∈ U, j < x := fun x hx => hj x (List.mem_toFinset.1 hx)
    rw [hUe] at hq hS ⊢
    have hjin : j ∈ insert j U := Finset.mem_insert_self _ _
    have herase : (insert j U).erase j = U := Finset.erase_insert hjU
    -- the pivot is a probability
    have hsum1 : ∑ T ∈ U.powerset, minor (mixRows A (insert j T)) (insert j U) = A j j := by
      have := sum_mixRows A {j} (insert j U) (by simp)
      rw [minor_singleton] at this
      rw [← this]
      have e : insert j U \ {j} = U := by
        rw [← Finset.erase_eq, herase]
      rw [e]
      apply Finset.sum_congr rfl
      intro T _
      rw [Finset.union_comm, Finset.singleton_union]
    have hsum : ∑ T ∈ (insert j U).powerset, minor (mixRows A T) (insert j U) = 1 := by
      have := sum_mixRows A ∅ (insert j U) (by simp)
      simpa using this
    rw [sum_insert_powerset hjU, hsum1] at hsum
    have hsub1 : ∀ T ∈ U.powerset, insert j T ⊆ insert j U := fun T hT =>
      Finset.insert_subset_insert _ (Finset.mem_powerset.1 hT)
    have hsub2 : ∀ T ∈ U.powerset, T ⊆ insert j U := fun T hT =>
      (Finset.mem_powerset.1 hT).trans (Finset.subset_insert _ _)
    have ha0 : 0 ≤ A j j := by
      rw [← hsum1]
      exact Finset.sum_nonneg fun T hT => hq _ (hsub1 T hT)
    have ha1 : A j j ≤ 1 := by
      have : 0 ≤ ∑ T ∈ U.powerset, minor (mixRows A T) (insert j U) :=
        Finset.sum_nonneg fun T hT => hq _ (hsub2 T hT)
      linarith
    classical
    -- unfold one step
    have hstep : (luLoop (j :: js) A).prob (fun o => o.1.toFinset = S)
        = A j j * (luLoop js (luStep A j true)).prob (fun o => insert j o.1.toFinset = S)
          + (1 - A j j) * (luLoop js (luStep A j false)).prob (fun o => o.1.toFinset = S) := by
      simp only [Dist.prob_eq]
      rw [luLoop, Dist.E_bind, Dist.E_bern_of_mem ha0 ha1]
      simp only [Dist.E_bind, Dist.E_ret]
      simp
    rw [hstep]
    have hout : ∀ (B : Matrix (Fin N) (Fin N) R) o w, (o, w) ∈ luLoop js B → o.1.toFinset ⊆ U := by
      intro B o w ho x hx
      rw [List.mem_toFinset] at hx
      exact List.mem_toFinset.2 ((luLoop_sublist js B o w ho).subset hx)
    by_cases hjS : j ∈ S
    · -- second term vanishes
      have hz : (luLoop js (luStep A j false)).prob (fun o => o.1.toFinset = S) = 0 := by
        rw [Dist.prob_eq]
        apply Dist.E_eq_zero
        intro o w ho
        rw [if_neg]
        intro h
        exact hjU (hout _ o w ho (h ▸ hjS))
      rw [hz, mul_zero, add_zero]
      have hSe : S.erase j ⊆ U := by
        intro x hx
        obtain ⟨h1, h2⟩ := Finset.mem_erase.1 hx
        exact (Finset.mem_insert.1 (hS h2)).resolve_left h1
      by_cases hpos : A j j = 0
      · rw [hpos, zero_mul]
        rw [hpos] at hsum1
        have := (Finset.sum_eq_zero_iff_of_nonneg
          (fun T hT => hq _ (hsub1 T hT))).1 hsum1 (S.erase j) (Finset.mem_powerset.2 hSe)
        rw [Finset.insert_erase hjS] at this
        exact this.symm
      · have hpos' : 0 < A j j := lt_of_le_of_ne ha0 (Ne.symm hpos)
        have hcongr : ∀ T, minor (mixRows (luStep A j true) T) U = minor (mixRows (elim A j) T) U :=
          fun T => mixRows_congr fun x hx z hz => luStep_true (hlt x hx) (hlt z hz)
        have hrec : (luLoop js (luStep A j true)).prob (fun o => insert j o.1.toFinset = S)
            = (luLoop js (luStep A j true)).prob (fun o => o.1.toFinset = S.erase j) := by
          simp only [Dist.prob_eq]
          apply Dist.E_congr
          intro o w ho
          have hno : j ∉ o.1.toFinset := fun h => hjU (hout _ o w ho h)
          congr 1
          apply propext
          constructor
          · intro h; rw [← h, Finset.erase_insert hno]
          · intro h; rw [h, Finset.insert_erase hjS]
        rw [hrec, ih hjs' _ _ _ hSe, hcongr, minor_mixRows_mem hjin hjS hpos, herase]
        intro T hT
        rw [hcongr]
        have h1 := hq (insert j T) (hsub1 T (Finset.mem_powerset.2 hT))
        have hjT : j ∉ T := fun h => hjU (hT h)
        rw [minor_mixRows_mem hjin (Finset.mem_insert_self _ _) hpos, herase,
          Finset.erase_insert hjT] at h1
        exact nonneg_of_mul_nonneg_right h1 hpos'
    · have hz : (luLoop js (luStep A j true)).prob (fun o => insert j o.1.toFinset = S) = 0 := by
        rw [Dist.prob_eq]
        apply Dist.E_eq_zero
        intro o w ho
        rw [if_neg]
        intro h
        exact hjS (h ▸ Finset.mem_insert_self _ _)
      rw [hz, mul_zero, zero_add]
      have hSU : S ⊆ U := by
        intro x hx
        refine (Finset.mem_insert.1 (hS hx)).resolve_left ?_
        rintro rfl; exact hjS hx
      by_cases hpos : A j j = 1
      · rw [hpos, sub_self, zero_mul]
        rw [hpos] at hsum
        have h0 : ∑ T ∈ U.powerset, minor (mixRows A T) (insert j U) = 0 := by linarith
        exact ((Finset.sum_eq_zero_iff_of_nonneg
          (fun T hT => hq _ (hsub2 T hT))).1 h0 S (Finset.mem_powerset.2 hSU)).symm
      · have hpos' : 0 < 1 - A j j := sub_pos.2 (lt_of_le_of_ne ha1 hpos)
        have hcongr : ∀ T, minor (mixRows (luStep A j false) T) U
            = minor (mixRows (elimOut A j) T) U :=
          fun T => mixRows_congr fun x hx z hz => luStep_false (hlt x hx) (hlt z hz)
        rw [ih hjs' _ _ _ hSU, hcongr, minor_mixRows_notMem hjin hjS hpos, herase]
        intro T hT
        rw [hcongr]
        have h1 := hq T (hsub2 T (Finset.mem_powerset.2 hT))
        have hjT : j ∉ T := fun h => hjU (hT h)
        rw [minor_mixRows_notMem hjin hjT hpos, herase] at h1
        exact nonneg_of_mul_nonneg_right h1 hpos'

/-- `mixRows` and the specification of the exact probability -/
theorem minor_mixRows_univ {ι : Type*} [DecidableEq ι] [Fintype ι] (K : Matrix ι ι R)
    (S : Finset ι) : minor (mixRows K S) Finset.univ = exactProb K S := by
  rw [minor_univ, exactProb]
  have hdet : mixRows K S = Matrix.diagonal (fun i => if i ∈ S then (1:R) else -1) *
      (K - Matrix.diagonal (fun i => if i ∈ S then 0 else 1)) := by
    ext i j
    rw [Matrix.diagonal_mul]
    simp only [mixRows, Matrix.sub_apply, Matrix.diagonal_apply, Matrix.one_apply]
    rcases eq_or_ne i j with rfl | h2
    · by_cases h : i ∈ S <;> simp [h]
    · by_cases h : i ∈ S <;> simp [h, h2]
  rw [hdet, Matrix.det_mul, Matrix.det_diagonal]
  congr 1
  rw [Finset.prod_ite]
  simp only [Finset.prod_const_one, one_mul, Finset.prod_const]
  congr 2
  ext i; simp

theorem sum_superset_prob {α : Type*} {ι : Type*} [DecidableEq ι] [Fintype ι] (d : Dist R α)
    (g : α → Finset ι) (T : Finset ι) :
    d.prob (fun a => T ⊆ g a)
      = ∑ S ∈ (Finset.univ \ T).powerset, d.prob (fun a => g a = S ∪ T) := by
  classical
  simp only [Dist.prob_eq]
  induction d with
  | nil => simp
  | cons aw d ih =>
    obtain ⟨a, w⟩ := aw
    simp only [Dist.E_cons, Finset.sum_add_distrib, ih]
    congr 1
    rw [← Finset.mul_sum]
    congr 1
    by_cases h : T ⊆ g a
    · rw [if_pos h, Finset.sum_eq_single (g a \ T)]
      · rw [if_pos]; rw [Finset.sdiff_union_of_subset h]
      · intro S hS hne
        rw [if_neg]
        intro hc
        apply hne
        rw [hc]
        rw [Finset.union_sdiff_right]
        rw [Finset.sdiff_eq_self_of_disjoint]
        rw [Finset.mem_powerset] at hS
        exact Finset.disjoint_of_subset_left hS Finset.sdiff_disjoint
      · intro hc
        exfalso; apply hc
        rw [Finset.mem_powerset]
        exact Finset.sdiff_subset_sdiff (Finset.subset_univ _) le_rfl
    · rw [if_neg h, Finset.sum_eq_zero]
      intro S _
      rw [if_neg]
      intro hc
      apply h; rw [hc]; exact Finset.subset_union_right

/-! ### symmetric contractions -/

/-- quadratic form of `A` on `U` -/
def quad {ι : Type*} (A : Matrix ι ι R) (U : Finset ι) (x : ι → R) : R :=
  ∑ i ∈ U, ∑ k ∈ U, x i * A i k * x k

theorem quad_insert {ι : Type*} [DecidableEq ι] {A : Matrix ι ι R} {U : Finset ι} {j : ι}
    (hj : j ∉ U) (hs : ∀ i k, A i k = A k i) (x : ι → R) :
    quad A (insert j U) x
      = x j * A j j * x j + 2 * x j * (∑ k ∈ U, A j k * x k) + quad A U x := by
  unfold quad
  rw [Finset.sum_insert hj, Finset.sum_insert hj]
  have : ∑ i ∈ U, ∑ k ∈ insert j U, x i * A i k * x k
      = ∑ i ∈ U, x i * A i j * x j + ∑ i ∈ U, ∑ k ∈ U, x i * A i k * x k := by
    rw [← Finset.sum_add_distrib]
    apply Finset.sum_congr rfl
    intro i _
    rw [Finset.sum_insert hj]
  rw [this]
  have e1 : ∑ i ∈ U, x i * A i j * x j = x j * ∑ k ∈ U, A j k * x k := by
    rw [Finset.mul_sum]
    apply Finset.sum_congr rfl
    intro i _
    rw [hs i j]; ring
  have e2 : ∑ k ∈ U, x j * A j k * x k = x j * ∑ k ∈ U, A j k * x k := by
    rw [Finset.mul_sum]
    apply Finset.sum_congr rfl
    intro i _
    ring
  rw [e1, e2]; ring

theorem quad_congr {ι : Type*} {A : Matrix ι ι R} {U : Finset ι} {x y : ι → R}
    (h : ∀ i ∈ U, x i = y i) : quad A U x = quad A U y := by
  unfold quad
  apply Finset.sum_congr rfl
  intro i hi
  apply Finset.sum_congr rfl
  intro k hk
  rw [h i hi, h k hk]

/-- rank-one correction of a quadratic form -/
theorem quad_rank_one {ι : Type*} {A : Matrix ι ι R} {U : Finset ι} {j : ι} (c : R)
    (hs : ∀ i k, A i k = A k i) (x : ι → R) :
    quad (fun a b => A a b - A a j * A j b / c) U x
      = quad A U x - (∑ k ∈ U, A j k * x k) ^ 2 / c := by
  unfold quad
  have : (∑ k ∈ U, A j k * x k) ^ 2 / c
      = ∑ i ∈ U, ∑ k ∈ U, x i * (A i j * A j k / c) * x k := by
    rw [sq, Finset.sum_mul_sum, Finset.sum_div]
    apply Finset.sum_congr rfl
    intro i _
    rw [Finset.sum_div]
    apply Finset.sum_congr rfl
    intro k _
    rw [hs i j]; ring
  rw [this, ← Finset.sum_sub_distrib]
  apply Finset.sum_congr rfl
  intro i _
  rw [← Finset.sum_sub_distrib]
  apply Finset.sum_congr rfl
  intro k _
  ring

theorem quad_one {ι : Type*} [DecidableEq ι] (A : Matrix ι ι R) (U : Finset ι) (x : ι → R) :
    quad (1 - A) U x = ∑ i ∈ U, x i ^ 2 - quad A U x := by
  unfold quad
  rw [← Finset.sum_sub_distrib]
  apply Finset.sum_congr rfl
  intro i hi
  have : ∑ k ∈ U, x i * (1 - A) i k * x k
      = ∑ k ∈ U, x i * (1 : Matrix ι ι R) i k * x k - ∑ k ∈ U, x i * A i k * x k := by
    rw [← Finset.sum_sub_distrib]
    apply Finset.sum_congr rfl
    intro k _
    rw [Matrix.sub_apply]; ring
  rw [this]
  congr 1
  rw [Finset.sum_eq_single i]
  · simp; ring
  · intro k _ hk; simp [Matrix.one_apply_ne hk.symm]
  · intro h; exact absurd hi h

/-- Schur complement of a positive form -/
theorem quad_elim_nonneg {ι : Type*} [DecidableEq ι] {A : Matrix ι ι R} {U : Finset ι} {j : ι}
    (hj : j ∉ U) (hs : ∀ i k, A i k = A k i) (ha : A j j ≠ 0)
    (h : ∀ x, 0 ≤ quad A (insert j U) x) (x : ι → R) : 0 ≤ quad (elim A j) U x := by
  have h1 := h (fun i => if i = j then -(∑ k ∈ U, A j k * x k) / A j j else x i)
  rw [quad_insert hj hs] at h1
  have hU : ∀ i ∈ U, (if i = j then -(∑ k ∈ U, A j k * x k) / A j j else x i) = x i := by
    intro i hi
    rw [if_neg]; rintro rfl; exact hj hi
  rw [quad_congr hU] at h1
  have hsum : ∑ k ∈ U, A j k * (if k = j then -(∑ k ∈ U, A j k * x k) / A j j else x k)
      = ∑ k ∈ U, A j k * x k := by
    apply Finset.sum_congr rfl
    intro k hk; rw [hU k hk]
  rw [hsum] at h1
  simp only [if_true] at h1
  show 0 ≤ quad (fun a b => A a b - A a j * A j b / A j j) U x
  rw [quad_rank_one _ hs]
  refine h1.trans (le_of_eq ?_)
  field_simp
  ring

/-- a zero diagonal entry of a positive form kills its row -/
theorem row_zero_of_quad {ι : Type*} [DecidableEq ι] {A : Matrix ι ι R} {U : Finset ι} {j : ι}
    (hj : j ∉ U) (hs : ∀ i k, A i k = A k i) (ha : A j j = 0)
    (h : ∀ x, 0 ≤ quad A (insert j U) x) : ∀ k ∈ U, A j k = 0 := by
  intro k hk
  by_contra hne
  have hjk : k ≠ j := by rintro rfl; exact hj hk
  have key : ∀ t : R, 0 ≤ 2 * t * A j k + A k k := by
    intro t
    have h1 := h (fun i => if i = j then t else if i = k then 1 else 0)
    rw [quad_insert hj hs] at h1
    have e1 : ∑ l ∈ U, A j l * (if l = j then t else if l = k then 1 else 0) = A j k := by
      rw [Finset.sum_eq_single k]
      · simp [hjk]
      · intro l hl hlk
        have : l ≠ j := by rintro rfl; exact hj hl
        simp [this, hlk]
      · intro hc; exact absurd hk hc
    have e2 : quad A U (fun i => if i = j then t else if i = k then 1 else 0) = A k k := by
      unfold quad
      rw [Finset.sum_eq_single k]
      · rw [Finset.sum_eq_single k]
        · simp [hjk]
        · intro l hl hlk
          have : l ≠ j := by rintro rfl; exact hj hl
          simp [this, hlk]
        · intro hc; exact absurd hk hc
      · intro l hl hlk
        have : l ≠ j := by rintro rfl; exact hj hl
        simp [this, hlk]
      · intro hc; exact absurd hk hc
    rw [e1, e2] at h1
    simp only [if_true, ha] at h1
    linarith
  have h1 := key (-(A k k + 1) / (2 * A j k))
  have h2 : 2 * (-(A k k + 1) / (2 * A j k)) * A j k = -(A k k + 1) := by
    field_simp
  rw [h2] at h1
  linarith

theorem mixRows_nonneg {ι : Type*} [DecidableEq ι] (U : Finset ι) : ∀ (A : Matrix ι ι R)
    (_ : ∀ i k, A i k = A k i) (_ : ∀ x, 0 ≤ quad A U x) (_ : ∀ x, 0 ≤ quad (1 - A) U x)
    (S : Finset ι), 0 ≤ minor (mixRows A S) U := by
  induction U using Finset.induction_on with
  | empty => intro A _ _ _ S; simp
  | insert j U hj ih =>
    intro A hs h0 h1 S
    have hjin : j ∈ insert j U := Finset.mem_insert_self _ _
    have herase : (insert j U).erase j = U := Finset.erase_insert hj
    have hs1 : ∀ i k, (1 - A) i k = (1 - A) k i := by
      intro i k
      simp only [Matrix.sub_apply, hs i k, Matrix.one_apply, eq_comm]
    have hdiag : ∀ (B : Matrix ι ι R), (∀ x, 0 ≤ quad B (insert j U) x) → 0 ≤ B j j := by
      intro B hB
      have := hB (fun i => if i = j then 1 else 0)
      unfold quad at this
      rw [Finset.sum_eq_single j, Finset.sum_eq_single j] at this
      · simpa using this
      · intro k _ hk; simp [hk]
      · intro hc; exact absurd hjin hc
      · intro k _ hk; simp [hk]
      · intro hc; exact absurd hjin hc
    have ha0 := hdiag A h0
    have ha1 := hdiag (1 - A) h1
    simp only [Matrix.sub_apply, Matrix.one_apply_eq] at ha1
    by_cases hjS : j ∈ S
    · by_cases ha : A j j = 0
      · have := row_zero_of_quad hj hs ha h0
        rw [minor_row_zero hjin]
        intro x hx
        simp only [mixRows, hjS, if_true]
        rcases Finset.mem_insert.1 hx with rfl | hx
        · exact ha
        · exact this x hx
      · rw [minor_mixRows_mem hjin hjS ha, herase]
        apply mul_nonneg ha0
        apply ih
        · intro i k; simp only [elim, hs i k, hs i j, hs j k]; ring
        · exact quad_elim_nonneg hj hs ha h0
        · intro x
          rw [quad_one]
          show 0 ≤ _ - quad (fun a b => A a b - A a j * A j b / A j j) U x
          rw [quad_rank_one _ hs]
          have h2 := h1 (fun i => if i = j then 0 else x i)
          rw [quad_insert hj hs1] at h2
          simp only [if_true] at h2
          have hU : ∀ i ∈ U, (if i = j then 0 else x i) = x i := by
            intro i hi; rw [if_neg]; rintro rfl; exact hj hi
          rw [quad_congr hU, quad_one] at h2
          have : 0 ≤ (∑ k ∈ U, A j k * x k) ^ 2 / A j j := div_nonneg (sq_nonneg _) ha0
          linarith
    · by_cases ha : A j j = 1
      · have := row_zero_of_quad hj hs1 (by simp [ha]) h1
        rw [minor_row_zero hjin]
        intro x hx
        simp only [mixRows, hjS, if_false]
        rcases Finset.mem_insert.1 hx with rfl | hx
        · simp [ha]
        · simpa using this x hx
      · rw [minor_mixRows_notMem hjin hjS ha, herase]
        apply mul_nonneg ha1
        have hne : (1 - A) j j ≠ 0 := by
          simp only [Matrix.sub_apply, Matrix.one_apply_eq]; exact sub_ne_zero.2 (Ne.symm ha)
        apply ih
        · intro i k; simp only [elimOut, hs i k, hs i j, hs j k]; ring
        · intro x
          rw [show quad (elimOut A j) U x = _ from quad_rank_one _ hs x]
          have h2 := h0 (fun i => if i = j then 0 else x i)
          rw [quad_insert hj hs] at h2
          simp only [if_true] at h2
          have hU : ∀ i ∈ U, (if i = j then 0 else x i) = x i := by
            intro i hi; rw [if_neg]; rintro rfl; exact hj hi
          rw [quad_congr hU] at h2
          have : (∑ k ∈ U, A j k * x k) ^ 2 / (A j j - 1) ≤ 0 :=
            div_nonpos_of_nonneg_of_nonpos (sq_nonneg _) (by linarith)
          linarith
        · intro x
          rw [quad_one, show quad (elimOut A j) U x = _ from quad_rank_one _ hs x]
          have h2 := quad_elim_nonneg hj hs1 hne h1 x
          have h3 : quad (elim (1 - A) j) U x
              = quad (1 - A) U x - (∑ k ∈ U, (1 - A) j k * x k) ^ 2 / (1 - A) j j :=
            quad_rank_one _ hs1 x
          rw [h3, quad_one] at h2
          have e : ∑ k ∈ U, (1 - A) j k * x k = - ∑ k ∈ U, A j k * x k := by
            rw [← Finset.sum_neg_distrib]
            apply Finset.sum_congr rfl
            intro k hk
            have : j ≠ k := by rintro rfl; exact hj hk
            simp [Matrix.one_apply_ne this]
          rw [e, neg_sq] at h2
          simp only [Matrix.sub_apply, Matrix.one_apply_eq] at h2
          have e2 : (∑ k ∈ U, A j k * x k) ^ 2 / (A j j - 1)
              = - ((∑ k ∈ U, A j k * x k) ^ 2 / (1 - A j j)) := by
            rw [← div_neg]; congr 1; ring
          rw [e2]
          linarith

end Verif.Model
