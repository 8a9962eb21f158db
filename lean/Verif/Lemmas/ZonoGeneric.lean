import Verif.Lemmas.ZonoTiles2
import Mathlib.LinearAlgebra.Dimension.Constructions

/-!
Almost every objective gives a linear program with one solution.
-/

namespace Verif.Lemmas.ZonoTiles
open Verif Verif.Spec Verif.Model Verif.Props Matrix MeasureTheory

variable {N r : ℕ} {A : Matrix (Fin r) (Fin N) ℝ} {c : Fin N → ℝ}

/-- no reduced cost vanishes -/
def Generic (A : Matrix (Fin r) (Fin N) ℝ) (c : Fin N → ℝ) : Prop :=
  ∀ (T : Finset (Fin N)) (hT : T.card = r), (cols A (ec T hT)).det ≠ 0 → ∀ i, i ∉ T → rc A c (ec T hT) i ≠ 0

theorem span_cols (hA : (A * Aᵀ).det ≠ 0) : Submodule.span ℝ (Set.range fun (i : Fin N) (a : Fin r) => A a i) = ⊤ := by
  rw [eq_top_iff]
  intro x _
  have h1 : x = A *ᵥ (Aᵀ *ᵥ ((A * Aᵀ)⁻¹ *ᵥ x)) := by
    rw [Matrix.mulVec_mulVec, Matrix.mulVec_mulVec, Matrix.mul_nonsing_inv _ (Ne.isUnit hA), Matrix.one_mulVec]
  have h2 : x = ∑ i, (Aᵀ *ᵥ ((A * Aᵀ)⁻¹ *ᵥ x)) i • fun a => A a i := by
    funext a
    refine (congrFun h1 a).trans ?_
    simp [Matrix.mulVec, dotProduct, mul_comm]
  rw [h2]
  exact Submodule.sum_mem _ fun i _ => Submodule.smul_mem _ _ (Submodule.subset_span ⟨i, rfl⟩)

theorem unique_of_generic (hA : (A * Aᵀ).det ≠ 0) (hg : Generic A c) : UniqueOptimum A c := by
  classical
  intro x y z hy hz
  by_contra hne
  obtain ⟨v, hv⟩ : ∃ v : Fin N → Fin r → ℝ, v = fun i a => A a i := ⟨_, rfl⟩
  obtain ⟨m, hm⟩ : ∃ m : Fin N → ℝ, m = fun j => (y j + z j) / 2 := ⟨_, rfl⟩
  have hmo : Optimal A c x m := by
    refine ⟨⟨fun a => ?_, fun i => ?_⟩, fun w hw => ?_⟩
    · have : ∑ i, A a i * m i = (∑ i, A a i * y i + ∑ i, A a i * z i) / 2 := by
        rw [hm, ← Finset.sum_add_distrib, Finset.sum_div]
        exact Finset.sum_congr rfl fun i _ => by ring
      rw [this, hy.1.1, hz.1.1]; ring
    · rw [hm]
      have h1 := hy.1.2 i
      have h2 := hz.1.2 i
      constructor
      · simp only; linarith
      · simp only; linarith
    · have : ∑ i, c i * m i = (∑ i, c i * y i + ∑ i, c i * z i) / 2 := by
        rw [hm, ← Finset.sum_add_distrib, Finset.sum_div]
        exact Finset.sum_congr rfl fun i _ => by ring
      rw [this]
      have h1 := hy.2 w hw
      have h2 := hz.2 w hw
      linarith
  obtain ⟨F, hF⟩ : ∃ F : Set (Fin N), F = {j | 0 < m j ∧ m j < 1} := ⟨_, rfl⟩
  have hyz : ∀ j, j ∉ F → y j = z j := by
    intro j hj
    have h1 := hy.1.2 j
    have h2 := hz.1.2 j
    rw [hF, hm] at hj
    by_contra hn
    refine hj ⟨?_, ?_⟩
    · simp only
      rcases lt_or_gt_of_ne hn with h | h <;> linarith
    · simp only
      rcases lt_or_gt_of_ne hn with h | h <;> linarith
  have hdep : ¬ LinearIndepOn ℝ v F := by
    intro hli
    apply hne
    obtain ⟨l, hl⟩ : ∃ l : Fin N →₀ ℝ, l = Finsupp.equivFunOnFinite.symm fun j => y j - z j := ⟨_, rfl⟩
    have hls : l ∈ Finsupp.supported ℝ ℝ F := by
      rw [Finsupp.mem_supported']
      intro j hj
      rw [hl]
      simp [hyz j hj]
    have h0 : Finsupp.linearCombination ℝ v l = 0 := by
      rw [Finsupp.linearCombination_apply, Finsupp.sum_fintype _ _ (by simp)]
      funext a
      rw [Finset.sum_apply, hl, hv]
      simp only [Finsupp.equivFunOnFinite_symm_apply_apply, Pi.smul_apply, smul_eq_mul, sub_mul, Finset.sum_sub_distrib]
      have h1 := hy.1.1 a
      have h2 := hz.1.1 a
      simp only [mul_comm (A a _)] at h1 h2
      rw [h1, h2]; simp
    have := (linearIndepOn_iff.1 hli) l hls h0
    funext j
    have h3 := DFunLike.congr_fun this j
    rw [hl] at h3
    simp at h3
    linarith
  obtain ⟨I, hIF, -, hsp, hI⟩ := exists_linearIndepOn_extension (K := ℝ) (v := v) (linearIndepOn_empty ℝ v) (Set.empty_subset F)
  obtain ⟨i, hiF, hiI⟩ : ∃ i ∈ F, i ∉ I := by
    by_contra hcon
    push Not at hcon
    exact hdep (by rwa [show F = I from Set.Subset.antisymm hcon hIF])
  have hspi : v i ∈ Submodule.span ℝ (v '' I) := hsp ⟨i, hiF, rfl⟩
  obtain ⟨b, -, hIb, hspb, hb⟩ := exists_linearIndepOn_extension hI (Set.subset_univ I)
  have hib : i ∉ b := by
    intro hib
    have := (linearIndepOn_insert hiI).1 (hb.mono (Set.insert_subset hib hIb))
    exact this.2 hspi
  have hcard : b.toFinset.card = r := by
    have h1 : Submodule.span ℝ (Set.range fun j : b => v j) = ⊤ := by
      rw [eq_top_iff, ← span_cols hA, ← hv, Submodule.span_le, ← Set.image_univ]
      have : (Set.range fun j : b => v j) = v '' b := by ext; simp
      rw [this]
      exact hspb
    have h2 := finrank_span_eq_card (R := ℝ) (b := fun j : b => v j) hb
    rw [h1, finrank_top, Module.finrank_fin_fun] at h2
    rw [Set.toFinset_card, ← h2]
  have hdet : (cols A (ec b.toFinset hcard)).det ≠ 0 := by
    rw [← detCols_tl hcard]
    refine detCols_ne_zero ⟨(List.pairwise_lt_finRange N).filter _, tl_length hcard, ?_⟩
    have : {j | j ∈ tl b.toFinset} = b := by ext j; simp [tl]
    rw [this, ← hv]
    exact hb
  obtain ⟨l, hl1, hl2⟩ := (Finsupp.mem_span_image_iff_linearCombination ℝ).1 hspi
  rw [Finsupp.mem_supported'] at hl1
  rw [Finsupp.linearCombination_apply, Finsupp.sum_fintype _ _ (by simp)] at hl2
  obtain ⟨w, hw⟩ : ∃ w : Fin N → ℝ, w = fun j => (if j = i then 1 else 0) - l j := ⟨_, rfl⟩
  have hw0 : ∀ a, ∑ j, A a j * w j = 0 := by
    intro a
    have := congrFun hl2 a
    rw [Finset.sum_apply, hv] at this
    simp only [Pi.smul_apply, smul_eq_mul] at this
    simp only [hw, mul_sub, Finset.sum_sub_distrib, mul_ite, mul_one, mul_zero]
    have hs : ∑ j, A a j * l j = A a i := by
      rw [← this]; exact Finset.sum_congr rfl fun j _ => mul_comm _ _
    rw [hs]
    simp
  have hwF : ∀ j, w j ≠ 0 → j ∈ F := by
    intro j hj
    by_contra hjF
    apply hj
    rw [hw]
    simp only
    rw [if_neg (by rintro rfl; exact hjF hiF), hl1 j (fun h => hjF (hIF h)), sub_zero]
  have hcost : ∑ j, c j * w j = rc A c (ec b.toFinset hcard) i := by
    rw [cost_eq (e := ec b.toFinset hcard) (fun _ => 0) hw0]
    simp only [mul_zero, Finset.sum_const_zero, add_zero]
    rw [Finset.sum_eq_single i]
    · rw [hw]; simp [hl1 i hiI]
    · intro j _ hj
      by_cases hjb : j ∈ b
      · obtain ⟨k, rfl⟩ := ec_surj hcard (Set.mem_toFinset.2 hjb)
        rw [rc_col hdet, zero_mul]
      · have : w j = 0 := by
          rw [hw]; simp only; rw [if_neg hj, hl1 j fun h => hjb (hIb h), sub_zero]
        rw [this, mul_zero]
    · intro h; exact absurd (Finset.mem_univ i) h
  have hsign : ∀ sg : ℝ, 0 ≤ sg * rc A c (ec b.toFinset hcard) i := by
    intro sg
    have hmF : ∀ j, sg * w j ≠ 0 → 0 < m j ∧ m j < 1 := fun j hj => by
      have := hwF j (right_ne_zero_of_mul hj)
      rwa [hF] at this
    obtain ⟨δ, hδ, hf⟩ := perturb (z := fun j => sg * w j) hmo.1
      (fun a => by
        have : ∑ j, A a j * (sg * w j) = sg * ∑ j, A a j * w j := by
          rw [Finset.mul_sum]; exact Finset.sum_congr rfl fun j _ => by ring
        rw [this, hw0, mul_zero])
      (fun j hj => (hmF j hj.ne').2) (fun j hj => (hmF j hj.ne).1)
    have h1 := hmo.2 _ hf
    have h2 : ∑ j, c j * (m j + δ * (sg * w j)) = ∑ j, c j * m j + δ * (sg * ∑ j, c j * w j) := by
      rw [Finset.mul_sum, Finset.mul_sum, ← Finset.sum_add_distrib]
      exact Finset.sum_congr rfl fun j _ => by ring
    rw [h2, hcost] at h1
    by_contra hneg
    nlinarith [mul_pos hδ (neg_pos.2 (not_le.1 hneg))]
  have h1 := hsign 1
  have h2 := hsign (-1)
  exact hg _ hcard hdet i (fun h => hib (Set.mem_toFinset.1 h)) (by linarith)

/-- almost every objective is generic -/
theorem ae_generic (A : Matrix (Fin r) (Fin N) ℝ) : ∀ᵐ c : Fin N → ℝ, Generic A c := by
  unfold Generic
  simp only [ae_all_iff]
  intro T hT hdet i hi
  rw [ae_iff]
  obtain ⟨f, hf⟩ : ∃ f : (Fin N → ℝ) →ₗ[ℝ] ℝ, ∀ c, f c = rc A c (ec T hT) i := by
    refine ⟨{ toFun := fun c => rc A c (ec T hT) i, map_add' := fun c1 c2 => ?_, map_smul' := fun s c => ?_ }, fun c => rfl⟩
    · have : lam A (c1 + c2) (ec T hT) = lam A c1 (ec T hT) + lam A c2 (ec T hT) := by
        rw [lam, lam, lam, ← Matrix.add_vecMul]; rfl
      simp only [rc, this, Pi.add_apply, add_mul, Finset.sum_add_distrib]
      ring
    · have : lam A (s • c) (ec T hT) = s • lam A c (ec T hT) := by
        rw [lam, lam, ← Matrix.smul_vecMul]; rfl
      simp only [rc, this, Pi.smul_apply, smul_eq_mul, RingHom.id_apply, mul_sub, Finset.mul_sum]
      congr 1
      exact Finset.sum_congr rfl fun a _ => by ring
  have hset : {c : Fin N → ℝ | ¬ rc A c (ec T hT) i ≠ 0} = (LinearMap.ker f : Set (Fin N → ℝ)) := by
    ext c; simp [hf]
  rw [hset]
  refine Measure.addHaar_submodule _ _ fun htop => ?_
  have h1 : f (Pi.single i 1) = 0 := by
    rw [← LinearMap.mem_ker, htop]; trivial
  have h2 : lam A (Pi.single i 1) (ec T hT) = 0 := by
    have : (fun b => (Pi.single i (1 : ℝ) : Fin N → ℝ) (ec T hT b)) = 0 := by
      funext b
      refine Pi.single_eq_of_ne (fun h => hi ?_) _
      rw [← h]; exact ec_mem hT b
    rw [lam, this, Matrix.zero_vecMul]
  rw [hf, rc, h2] at h1
  simp at h1

end Verif.Lemmas.ZonoTiles
