import Verif.Spec.ZonoLaw
import Mathlib.MeasureTheory.Measure.Haar.Unique
import Mathlib.MeasureTheory.Measure.Lebesgue.EqHaar

/-!
The points at which `extract_basis` gives `B` form a parallelepiped of sides `A_B`, shrunk by the tolerance.
-/

namespace Verif.Lemmas.ZonoTiles
open Verif Verif.Spec Verif.Model Verif.Props Matrix MeasureTheory

variable {N r : ℕ} {A : Matrix (Fin r) (Fin N) ℝ} {c : Fin N → ℝ}

/-- small moves -/
theorem perturb {x : Fin r → ℝ} {y z : Fin N → ℝ} (hy : y ∈ Feasible A x) (hz : ∀ a, ∑ i, A a i * z i = 0)
    (h1 : ∀ j, 0 < z j → y j < 1) (h2 : ∀ j, z j < 0 → 0 < y j) :
    ∃ δ : ℝ, 0 < δ ∧ (fun j => y j + δ * z j) ∈ Feasible A x := by
  have hev : ∀ᶠ δ in nhdsWithin (0 : ℝ) (Set.Ioi 0), ∀ j, 0 ≤ y j + δ * z j ∧ y j + δ * z j ≤ 1 := by
    refine Filter.eventually_all.2 fun j => ?_
    have hc : Filter.Tendsto (fun δ : ℝ => y j + δ * z j) (nhdsWithin 0 (Set.Ioi 0)) (nhds (y j + 0 * z j)) :=
      ((continuous_const.add (continuous_id.mul continuous_const)).tendsto 0).mono_left nhdsWithin_le_nhds
    rw [zero_mul, add_zero] at hc
    have hpos : ∀ᶠ δ in nhdsWithin (0 : ℝ) (Set.Ioi 0), (0 : ℝ) < δ := self_mem_nhdsWithin
    obtain ⟨b1, b2⟩ := hy.2 j
    rcases lt_trichotomy (z j) 0 with h | h | h
    · filter_upwards [hpos, hc.eventually (lt_mem_nhds (h2 j h))] with δ hδ h3
      exact ⟨h3.le, by nlinarith⟩
    · filter_upwards with δ
      rw [h, mul_zero, add_zero]; exact ⟨b1, b2⟩
    · filter_upwards [hpos, hc.eventually (gt_mem_nhds (h1 j h))] with δ hδ h3
      exact ⟨by nlinarith, h3.le⟩
  have hpos : ∀ᶠ δ in nhdsWithin (0 : ℝ) (Set.Ioi 0), (0 : ℝ) < δ := self_mem_nhdsWithin
  obtain ⟨δ, h3, h4⟩ := (hev.and hpos).exists
  refine ⟨δ, h4, fun a => ?_, h3⟩
  simp only [mul_add, Finset.sum_add_distrib, hy.1 a]
  have : ∑ i, A a i * (δ * z i) = δ * ∑ i, A a i * z i := by
    rw [Finset.mul_sum]; exact Finset.sum_congr rfl fun i _ => by ring
  rw [this, hz, mul_zero, add_zero]

section basis
variable (A c) (e : Fin r → Fin N)

/-- the columns of `A` in the tile -/
def cols : Matrix (Fin r) (Fin r) ℝ := Matrix.of fun a b => A a (e b)

/-- multipliers -/
noncomputable def lam : Fin r → ℝ := (fun b => c (e b)) ᵥ* (cols A e)⁻¹

/-- reduced costs -/
noncomputable def rc (i : Fin N) : ℝ := c i - ∑ a, lam A c e a * A a i

open Classical in
/-- the coordinates outside of the tile -/
noncomputable def upper (i : Fin N) : ℝ := if (∀ b, i ≠ e b) ∧ rc A c e i < 0 then 1 else 0

/-- the corner of the tile -/
noncomputable def shift (a : Fin r) : ℝ := ∑ i, A a i * upper A c e i

open Classical in
/-- the point of the cube -/
noncomputable def lifted (s : Fin r → ℝ) (i : Fin N) : ℝ := upper A c e i + ∑ b, if i = e b then s b else 0

variable {A c e}

theorem rc_col (hdet : (cols A e).det ≠ 0) (b : Fin r) : rc A c e (e b) = 0 := by
  have h1 : lam A c e ᵥ* cols A e = fun b => c (e b) := by
    rw [lam, Matrix.vecMul_vecMul, Matrix.nonsing_inv_mul _ (Ne.isUnit hdet), Matrix.vecMul_one]
  have := congrFun h1 b
  simp only [Matrix.vecMul, dotProduct, cols, Matrix.of_apply] at this
  rw [rc, this, sub_self]

theorem cost_eq (x : Fin r → ℝ) {y : Fin N → ℝ} (hy : ∀ a, ∑ i, A a i * y i = x a) :
    ∑ i, c i * y i = ∑ i, rc A c e i * y i + ∑ a, lam A c e a * x a := by
  simp only [rc, sub_mul, Finset.sum_sub_distrib, Finset.sum_mul]
  have : ∑ a, lam A c e a * x a = ∑ i, ∑ a, lam A c e a * A a i * y i := by
    rw [Finset.sum_comm]
    refine Finset.sum_congr rfl fun a _ => ?_
    rw [← hy a, Finset.mul_sum]
    exact Finset.sum_congr rfl fun i _ => by ring
  rw [this]; ring

theorem lifted_col (he : Function.Injective e) (s : Fin r → ℝ) (b : Fin r) : lifted A c e s (e b) = s b := by
  classical
  rw [lifted, upper, if_neg (fun h => h.1 b rfl), zero_add]
  simp [he.eq_iff]

theorem lifted_out {i : Fin N} (hi : ∀ b, i ≠ e b) (s : Fin r → ℝ) :
    lifted A c e s i = upper A c e i := by
  classical
  rw [lifted, Finset.sum_eq_zero fun b _ => by rw [if_neg (hi b)], add_zero]

theorem upper_col (b : Fin r) : upper A c e (e b) = 0 := by
  classical
  rw [upper, if_neg fun h => h.1 b rfl]

theorem lifted_image (he : Function.Injective e) (s : Fin r → ℝ) (a : Fin r) :
    ∑ i, A a i * lifted A c e s i = (cols A e *ᵥ s) a + shift A c e a := by
  classical
  simp only [lifted, mul_add, Finset.sum_add_distrib]
  rw [add_comm, shift]
  congr 1
  simp only [Matrix.mulVec, dotProduct, cols, Matrix.of_apply, Finset.mul_sum, mul_ite, mul_zero]
  rw [Finset.sum_comm]
  simp

theorem upper_mem (i : Fin N) : upper A c e i = 0 ∨ upper A c e i = 1 := by
  classical
  rw [upper]; split <;> simp

theorem lifted_optimal (he : Function.Injective e) (hdet : (cols A e).det ≠ 0) {s : Fin r → ℝ}
    (hs : ∀ b, 0 ≤ s b ∧ s b ≤ 1) : Optimal A c (fun a => (cols A e *ᵥ s) a + shift A c e a) (lifted A c e s) := by
  classical
  have hout : ∀ i, (∃ b, i = e b) ∨ ∀ b, i ≠ e b := fun i => by
    by_cases h : ∃ b, i = e b
    · exact .inl h
    · exact .inr fun b hb => h ⟨b, hb⟩
  refine ⟨⟨lifted_image he s, fun i => ?_⟩, fun z hz => ?_⟩
  · rcases hout i with ⟨b, rfl⟩ | h
    · rw [lifted_col he]; exact hs b
    · rw [lifted_out h]
      rcases upper_mem (A := A) (c := c) (e := e) i with h | h <;> rw [h] <;> norm_num
  · rw [cost_eq (e := e) _ (lifted_image he s), cost_eq (e := e) _ hz.1]
    refine add_le_add_left (Finset.sum_le_sum fun i _ => ?_) _
    rcases hout i with ⟨b, rfl⟩ | h
    · rw [rc_col hdet, zero_mul, zero_mul]
    · rw [lifted_out h, upper]
      obtain ⟨b1, b2⟩ := hz.2 i
      split
      · rename_i h2; nlinarith [h2.2]
      · rename_i h2
        have : 0 ≤ rc A c e i := by
          by_contra hneg
          exact h2 ⟨h, not_le.1 hneg⟩
        rw [mul_zero]
        positivity

/-- the circuit of an item with the tile -/
theorem circuit (he : Function.Injective e) (hdet : (cols A e).det ≠ 0) {i : Fin N} (hi : ∀ b, i ≠ e b) :
    ∃ z : Fin N → ℝ, (∀ a, ∑ j, A a j * z j = 0) ∧ z i = 1 ∧ (∀ j, j ≠ i → (∀ b, j ≠ e b) → z j = 0) ∧
      ∑ j, c j * z j = rc A c e i := by
  classical
  obtain ⟨t, ht⟩ : ∃ t : Fin r → ℝ, t = (cols A e)⁻¹ *ᵥ fun a => A a i := ⟨_, rfl⟩
  have ht' : cols A e *ᵥ t = fun a => A a i := by
    rw [ht, Matrix.mulVec_mulVec, Matrix.mul_nonsing_inv _ (Ne.isUnit hdet), Matrix.one_mulVec]
  obtain ⟨z, hzd⟩ : ∃ z : Fin N → ℝ, z = fun j => (if j = i then 1 else 0) - ∑ b, if j = e b then t b else 0 := ⟨_, rfl⟩
  have h1 : ∀ a, ∑ j, A a j * z j = 0 := by
    intro a
    have := congrFun ht' a
    simp only [Matrix.mulVec, dotProduct, cols, Matrix.of_apply] at this
    simp only [hzd, mul_sub, Finset.sum_sub_distrib, mul_ite, mul_one, mul_zero, Finset.mul_sum]
    rw [Finset.sum_comm]
    simp [this]
  have h2 : z i = 1 := by
    simp only [hzd, if_true]
    rw [Finset.sum_eq_zero fun b _ => by rw [if_neg (hi b)], sub_zero]
  have h3 : ∀ j, j ≠ i → (∀ b, j ≠ e b) → z j = 0 := by
    intro j hj hb
    simp only [hzd]
    rw [if_neg hj, Finset.sum_eq_zero fun b _ => by rw [if_neg (hb b)], sub_zero]
  refine ⟨z, h1, h2, h3, ?_⟩
  rw [cost_eq (e := e) (fun _ => 0) h1]
  simp only [mul_zero, Finset.sum_const_zero, add_zero]
  rw [Finset.sum_eq_single i, h2, mul_one]
  · intro j _ hj
    by_cases hb : ∃ b, j = e b
    · obtain ⟨b, rfl⟩ := hb
      rw [rc_col hdet, zero_mul]
    · rw [h3 j hj fun b h => hb ⟨b, h⟩, mul_zero]
  · intro h; exact absurd (Finset.mem_univ i) h

/-- a solution in the interior of the tile -/
theorem eq_lifted (hu : UniqueOptimum A c) (he : Function.Injective e) (hdet : (cols A e).det ≠ 0) {x : Fin r → ℝ}
    {y : Fin N → ℝ} (hy : Optimal A c x y) (hin : ∀ b, 0 < y (e b) ∧ y (e b) < 1) :
    y = lifted A c e fun b => y (e b) := by
  classical
  funext i
  by_cases hb : ∃ b, i = e b
  · obtain ⟨b, rfl⟩ := hb
    rw [lifted_col he]
  have hi : ∀ b, i ≠ e b := fun b h => hb ⟨b, h⟩
  rw [lifted_out hi]
  obtain ⟨z, hz1, hz2, hz3, hz4⟩ := circuit (c := c) he hdet hi
  have hcost : ∀ δ : ℝ, ∑ j, c j * (y j + δ * z j) = ∑ j, c j * y j + δ * rc A c e i := by
    intro δ
    rw [← hz4, Finset.mul_sum, ← Finset.sum_add_distrib]
    exact Finset.sum_congr rfl fun j _ => by ring
  have hmove : ∀ sg : ℝ, (0 < sg → y i < 1) → (sg < 0 → 0 < y i) → sg ≠ 0 → 0 < sg * rc A c e i := by
    intro sg s1 s2 s0
    have hcase : ∀ j, z j ≠ 0 → j ≠ i → 0 < y j ∧ y j < 1 := by
      intro j hj hji
      by_cases h : ∃ b, j = e b
      · obtain ⟨b, rfl⟩ := h; exact hin b
      · exact absurd (hz3 j hji fun b hb => h ⟨b, hb⟩) hj
    obtain ⟨δ, hδ, hf⟩ := perturb (z := fun j => sg * z j) hy.1
      (fun a => by
        have : ∑ j, A a j * (sg * z j) = sg * ∑ j, A a j * z j := by
          rw [Finset.mul_sum]; exact Finset.sum_congr rfl fun i _ => by ring
        rw [this, hz1, mul_zero])
      (fun j hj => by
        by_cases hji : j = i
        · subst hji; rw [hz2, mul_one] at hj; exact s1 hj
        · exact (hcase j (by rintro h; rw [h, mul_zero] at hj; exact lt_irrefl _ hj) hji).2)
      (fun j hj => by
        by_cases hji : j = i
        · subst hji; rw [hz2, mul_one] at hj; exact s2 hj
        · exact (hcase j (by rintro h; rw [h, mul_zero] at hj; exact lt_irrefl _ hj) hji).1)
    have hc : ∑ j, c j * (y j + δ * (sg * z j)) = ∑ j, c j * y j + δ * (sg * rc A c e i) := by
      rw [← mul_assoc δ, ← hcost]
      exact Finset.sum_congr rfl fun j _ => by ring
    have h1 := hy.2 _ hf
    rw [hc] at h1
    have h2 : 0 ≤ sg * rc A c e i := by
      by_contra hneg
      nlinarith [mul_pos hδ (neg_pos.2 (not_le.1 hneg))]
    rcases h2.lt_or_eq with h3 | h3
    · exact h3
    exfalso
    have h4 : Optimal A c x fun j => y j + δ * (sg * z j) :=
      ⟨hf, fun w hw => by rw [hc, ← h3, mul_zero, add_zero]; exact hy.2 w hw⟩
    have h5 := congrFun (hu x _ _ hy h4) i
    simp only [hz2, mul_one] at h5
    have : δ * sg = 0 := by linarith
    rcases mul_eq_zero.1 this with h | h
    · exact hδ.ne' h
    · exact s0 h
  obtain ⟨b1, b2⟩ := hy.1.2 i
  rw [upper]
  split
  · rename_i h
    by_contra hne
    have := hmove 1 (fun _ => lt_of_le_of_ne b2 hne) (fun h => absurd h (by norm_num)) one_ne_zero
    linarith [h.2]
  · rename_i h
    by_contra hne
    have := hmove (-1) (fun h => absurd h (by norm_num)) (fun _ => lt_of_le_of_ne b1 (Ne.symm hne)) (by norm_num)
    exact h ⟨hi, by linarith⟩

end basis

end Verif.Lemmas.ZonoTiles
