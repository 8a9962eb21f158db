import Verif.Lemmas.Gin3

/-!
# Ginibre ensemble: eigenvalue and eigenvector as new variables (2)
-/

namespace Verif.Lemmas
open Finset Matrix MeasureTheory ProbabilityTheory Verif.Model Verif.Spec

variable {n : ℕ}

/-- the matrix with eigenvalue `t`, eigenvector `(1, u)`, first row with tail `w` and lower right block `C` -/
def Amat (u w : Fin n → ℂ) (t : ℂ) (C : Matrix (Fin n) (Fin n) ℂ) : Matrix (Fin (n + 1)) (Fin (n + 1)) ℂ :=
  bord (t - w ⬝ᵥ u) w ((t • 1 - C) *ᵥ u) C

theorem det_rank_one {t : ℂ} {C : Matrix (Fin n) (Fin n) ℂ} (h : (t • 1 - C).det ≠ 0) (u w : Fin n → ℂ) :
    (t • 1 - C).det * (1 + w ⬝ᵥ (rsv C t *ᵥ u)) = (t • 1 - (C - Matrix.vecMulVec u w)).det := by
  have hu : IsUnit (t • 1 - C).det := isUnit_iff_ne_zero.2 h
  have e : t • 1 - (C - Matrix.vecMulVec u w) = (t • 1 - C) + Matrix.replicateCol Unit u * Matrix.replicateRow Unit w := by
    rw [sub_sub_eq_add_sub, add_sub_right_comm]
    congr 1
    ext i j
    simp [Matrix.vecMulVec, Matrix.mul_apply]
  rw [e, Matrix.det_add_replicateCol_mul_replicateRow hu]
  congr 1
  rw [Matrix.mul_assoc]
  simp only [Matrix.det_unique, Matrix.add_apply, Matrix.one_apply_eq, Matrix.mul_apply, Matrix.replicateRow_apply, Matrix.replicateCol_apply,
    rsv, dotProduct, Matrix.mulVec]

open Classical in
/-- the integrand after the change of variables -/
noncomputable def Phi (Ψ : Matrix (Fin (n + 1)) (Fin (n + 1)) ℂ → ENNReal) (t : ℂ) (A : Matrix (Fin (n + 1)) (Fin (n + 1)) ℂ) : ENNReal :=
  if evs A 0 = t then Ψ A else 0

/-- measurable functions of a matrix -/
def MeasM {N : ℕ} (Ψ : Matrix (Fin N) (Fin N) ℂ → ENNReal) : Prop := Measurable fun x : Fin N × Fin N → ℂ => Ψ (mat x)

theorem MeasM.comp {N : ℕ} {Ψ : Matrix (Fin N) (Fin N) ℂ → ENNReal} (h : MeasM Ψ) {X : Type} [MeasurableSpace X] {A : X → Matrix (Fin N) (Fin N) ℂ}
    (hA : ∀ i j, Measurable fun x => A x i j) : Measurable fun x => Ψ (A x) := by
  have := Measurable.comp h (measurable_unmat hA)
  exact this

theorem measurable_Phi {Ψ : Matrix (Fin (n + 1)) (Fin (n + 1)) ℂ → ENNReal} (h : MeasM Ψ) {X : Type} [MeasurableSpace X]
    {A : X → Matrix (Fin (n + 1)) (Fin (n + 1)) ℂ} {t : X → ℂ} (hA : ∀ i j, Measurable fun x => A x i j) (ht : Measurable t) :
    Measurable fun x => Phi Ψ (t x) (A x) := by
  unfold Phi
  exact Measurable.ite (measurableSet_eq_fun ((measurable_pi_apply 0).comp (measurable_evs hA)) ht) (h.comp hA) measurable_const

theorem measurable_mulVec' {X : Type} [MeasurableSpace X] {m : ℕ} {A : X → Matrix (Fin n) (Fin m) ℂ} {u : X → Fin m → ℂ}
    (hA : ∀ i j, Measurable fun x => A x i j) (hu : Measurable u) : Measurable fun x => A x *ᵥ u x := by
  refine measurable_pi_lambda _ fun i => ?_
  simp only [Matrix.mulVec, dotProduct]
  exact Finset.measurable_sum _ fun j _ => (hA i j).mul ((measurable_pi_apply j).comp hu)

theorem measurable_dotG {X : Type} [MeasurableSpace X] {w u : X → Fin n → ℂ} (hw : Measurable w) (hu : Measurable u) :
    Measurable fun x => w x ⬝ᵥ u x := by
  simp only [dotProduct]
  exact Finset.measurable_sum _ fun j _ => ((measurable_pi_apply j).comp hw).mul ((measurable_pi_apply j).comp hu)

theorem measurable_shift {X : Type} [MeasurableSpace X] {t : X → ℂ} {C : X → Matrix (Fin n) (Fin n) ℂ} (ht : Measurable t)
    (hC : ∀ i j, Measurable fun x => C x i j) (i j : Fin n) : Measurable fun x => (t x • 1 - C x) i j := by
  simp only [Matrix.sub_apply, Matrix.smul_apply, smul_eq_mul]
  exact (ht.mul_const _).sub (hC i j)

theorem measurable_Amat {X : Type} [MeasurableSpace X] {u w : X → Fin n → ℂ} {t : X → ℂ} {C : X → Matrix (Fin n) (Fin n) ℂ}
    (hu : Measurable u) (hw : Measurable w) (ht : Measurable t) (hC : ∀ i j, Measurable fun x => C x i j) (i j : Fin (n + 1)) :
    Measurable fun x => Amat (u x) (w x) (t x) (C x) i j :=
  measurable_bordG (ht.sub (measurable_dotG hw hu)) hw (measurable_mulVec' (measurable_shift ht hC) hu) hC i j

theorem ae_det_shift (C : Matrix (Fin n) (Fin n) ℂ) : ∀ᵐ t : ℂ, (t • 1 - C).det ≠ 0 := by
  have hf : (Set.range (evs C)).Finite := Set.finite_range _
  have := hf.measure_zero (volume : Measure ℂ)
  rw [← compl_mem_ae_iff] at this
  filter_upwards [this] with t ht h0
  rw [← evs_det] at h0
  obtain ⟨i, _, hi⟩ := prod_eq_zero_iff.1 h0
  exact ht ⟨i, (sub_eq_zero.1 hi).symm⟩

/-- for a fixed first row and lower right block -/
theorem column_change {w : Fin n → ℂ} {C : Matrix (Fin n) (Fin n) ℂ}
    (hG : ∀ᵐ c : Fin n → ℂ, ∀ a t : ℂ, (t • (1 : Matrix (Fin (n + 1)) (Fin (n + 1)) ℂ) - bord a w c C).det = 0 → (t • 1 - C).det ≠ 0)
    {Ψ : Matrix (Fin (n + 1)) (Fin (n + 1)) ℂ → ENNReal} (hΨ : MeasM Ψ) :
    ∫⁻ c : Fin n → ℂ, ∫⁻ a : ℂ, Ψ (bord a w c C)
      = ∫⁻ t : ℂ, ∫⁻ u : Fin n → ℂ, ENNReal.ofReal (‖(t • 1 - (C - Matrix.vecMulVec u w)).det‖ ^ 2) * Phi Ψ t (Amat u w t C) := by
  classical
  obtain ⟨g, hg⟩ : ∃ g : (Fin n → ℂ) → ℂ → ENNReal, g = fun c t => (Dset w c C).indicator
    (fun t => ENNReal.ofReal (‖1 + w ⬝ᵥ ((rsv C t * rsv C t) *ᵥ c)‖ ^ 2) * Ψ (bord (hcor w c C t) w c C)) t := ⟨_, rfl⟩
  have hgm : Measurable (Function.uncurry g) := by
    have m1 : Measurable fun p : (Fin n → ℂ) × ℂ => p.1 := measurable_fst
    have m2 : Measurable fun p : (Fin n → ℂ) × ℂ => p.2 := measurable_snd
    have mC : ∀ i j, Measurable fun _ : (Fin n → ℂ) × ℂ => C i j := fun i j => measurable_const
    have mw : Measurable fun _ : (Fin n → ℂ) × ℂ => w := measurable_const
    have mD := measurableSet_Dset m2 mw m1 mC
    have mr := measurable_rsv m2 mC
    have e : Function.uncurry g = fun p : (Fin n → ℂ) × ℂ => if p.2 ∈ Dset w p.1 C then
        ENNReal.ofReal (‖1 + w ⬝ᵥ ((rsv C p.2 * rsv C p.2) *ᵥ p.1)‖ ^ 2) * Ψ (bord (hcor w p.1 C p.2) w p.1 C) else 0 := by
      funext p; simp only [Function.uncurry, hg, Set.indicator_apply]
    rw [e]
    refine Measurable.ite mD (Measurable.mul ?_ ?_) measurable_const
    · exact (((measurable_dotG mw (measurable_mulVec' (measurable_matmul mr mr) m1)).const_add 1).norm.pow_const 2).ennreal_ofReal
    · exact hΨ.comp (measurable_bordG (measurable_hcor m2 mw m1 mC) mw m1 mC)
  calc ∫⁻ c : Fin n → ℂ, ∫⁻ a : ℂ, Ψ (bord a w c C) = ∫⁻ c : Fin n → ℂ, ∫⁻ t : ℂ, g c t := by
        refine lintegral_congr_ae ?_
        filter_upwards [hG] with c hc
        rw [line_change hc, hg]
        rw [lintegral_indicator]
        exact measurableSet_Dset (X := ℂ) measurable_id measurable_const measurable_const fun _ _ => measurable_const
    _ = ∫⁻ t : ℂ, ∫⁻ c : Fin n → ℂ, g c t := lintegral_lintegral_swap hgm.aemeasurable
    _ = _ := by
        refine lintegral_congr_ae ?_
        filter_upwards [ae_det_shift C] with t ht
        have hu : IsUnit (t • 1 - C).det := isUnit_iff_ne_zero.2 ht
        have hgt : Measurable fun c => g c t := hgm.comp measurable_prodMk_right
        have hgt' : Measurable fun u => g ((t • 1 - C) *ᵥ u) t := hgt.comp (measurable_mulVec _)
        rw [lin_change ht hgt, ← lintegral_const_mul _ hgt']
        refine lintegral_congr fun u => ?_
        have er : rsv C t *ᵥ ((t • 1 - C) *ᵥ u) = u := by
          rw [Matrix.mulVec_mulVec, rsv, Matrix.nonsing_inv_mul _ hu, Matrix.one_mulVec]
        have eh : hcor w ((t • 1 - C) *ᵥ u) C t = t - w ⬝ᵥ u := by rw [hcor, er]
        have eb : bord (hcor w ((t • 1 - C) *ᵥ u) C t) w ((t • 1 - C) *ᵥ u) C = Amat u w t C := by rw [eh, Amat]
        have ed : t ∈ Dset w ((t • 1 - C) *ᵥ u) C ↔ evs (Amat u w t C) 0 = t := by
          rw [Dset, Set.mem_ofPred_eq, eb]; exact and_iff_right ht
        rw [hg]
        simp only [Set.indicator_apply, ed, Phi, eb]
        by_cases hev : evs (Amat u w t C) 0 = t
        · rw [if_pos hev, if_pos hev, ← mul_assoc, ← ENNReal.ofReal_mul (by positivity), ← mul_pow, ← norm_mul, ← Matrix.mulVec_mulVec, er,
            det_rank_one ht]
        · rw [if_neg hev, if_neg hev, mul_zero, mul_zero]

/-! ### Blocks of a matrix, for the Lebesgue measure -/

theorem volume_split4 (n m : ℕ) : (volume : Measure (Fin (n + 1) × Fin (m + 1) → ℂ)).map split4
      = ((volume : Measure ℂ).prod (volume : Measure (Fin m → ℂ))).prod ((volume : Measure (Fin n → ℂ)).prod (volume : Measure (Fin n × Fin m → ℂ))) := by
  have h : (((volume : Measure ℂ).prod (volume : Measure (Fin m → ℂ))).prod ((volume : Measure (Fin n → ℂ)).prod (volume : Measure (Fin n × Fin m → ℂ)))).map join4
      = (volume : Measure (Fin (n + 1) × Fin (m + 1) → ℂ)) := by
    symm
    refine Measure.pi_eq fun s hs => ?_
    rw [Measure.map_apply measurable_join4 (MeasurableSet.univ_pi hs)]
    have e : join4 ⁻¹' (Set.pi Set.univ s) = (s (0, 0) ×ˢ Set.pi Set.univ fun j : Fin m => s (0, j.succ)) ×ˢ
        ((Set.pi Set.univ fun i : Fin n => s (i.succ, 0)) ×ˢ Set.pi Set.univ fun p : Fin n × Fin m => s (p.1.succ, p.2.succ)) := by
      ext y
      simp only [Set.mem_preimage, Set.mem_pi, Set.mem_univ, true_implies, Set.mem_prod, Prod.forall, join4]
      constructor
      · intro h
        refine ⟨⟨h 0 0, fun j => h 0 j.succ⟩, fun i => h i.succ 0, fun i j => h i.succ j.succ⟩
      · rintro ⟨⟨h1, h2⟩, h3, h4⟩ i j
        induction i using Fin.cases with
        | zero => induction j using Fin.cases with
          | zero => exact h1
          | succ j => exact h2 j
        | succ i => induction j using Fin.cases with
          | zero => exact h3 i
          | succ j => exact h4 i j
    rw [e, Measure.prod_prod, Measure.prod_prod, Measure.prod_prod, volume_pi_pi, volume_pi_pi, volume_pi_pi,
      Fintype.prod_prod_type, Fintype.prod_prod_type, Fin.prod_univ_succ]
    simp only [Fin.prod_univ_succ (n := m), prod_mul_distrib]
  rw [← h, Measure.map_map measurable_split4 measurable_join4]
  have : split4 ∘ join4 = (id : (ℂ × (Fin m → ℂ)) × ((Fin n → ℂ) × (Fin n × Fin m → ℂ)) → _) := funext split4_join4
  rw [this, Measure.map_id]

theorem join4_split4 {α : Type} {n m : ℕ} (x : Fin (n + 1) × Fin (m + 1) → α) : join4 (split4 x) = x := by
  funext ⟨i, j⟩
  induction i using Fin.cases with
  | zero => induction j using Fin.cases with
    | zero => rfl
    | succ j => rfl
  | succ i => induction j using Fin.cases with
    | zero => rfl
    | succ j => rfl

theorem lintegral_blocks {Ψ : Matrix (Fin (n + 1)) (Fin (n + 1)) ℂ → ENNReal} (hΨ : MeasM Ψ) :
    ∫⁻ x : Fin (n + 1) × Fin (n + 1) → ℂ, Ψ (mat x)
      = ∫⁻ x : Fin n × Fin n → ℂ, ∫⁻ w : Fin n → ℂ, ∫⁻ c : Fin n → ℂ, ∫⁻ a : ℂ, Ψ (bord a w c (mat x)) := by
  have m : Measurable fun q : ((ℂ × (Fin n → ℂ)) × ((Fin n → ℂ) × (Fin n × Fin n → ℂ))) => Ψ (bord q.1.1 q.1.2 q.2.1 (mat q.2.2)) :=
    hΨ.comp (measurable_bordG (by fun_prop) (by fun_prop) (by fun_prop) fun i j => (measurable_mat i j).comp (by fun_prop))
  have h1 : ∫⁻ x : Fin (n + 1) × Fin (n + 1) → ℂ, Ψ (mat x)
      = ∫⁻ q, Ψ (bord q.1.1 q.1.2 q.2.1 (mat q.2.2)) ∂(((volume : Measure ℂ).prod (volume : Measure (Fin n → ℂ))).prod
        ((volume : Measure (Fin n → ℂ)).prod (volume : Measure (Fin n × Fin n → ℂ)))) := by
    rw [← volume_split4, lintegral_map m measurable_split4]
    refine lintegral_congr fun x => ?_
    congr 1
    have := join4_split4 x
    conv_lhs => rw [← this]
    rfl
  have m' : Measurable fun q : ((Fin n → ℂ) × (Fin n × Fin n → ℂ)) × (ℂ × (Fin n → ℂ)) => Ψ (bord q.2.1 q.2.2 q.1.1 (mat q.1.2)) :=
    m.comp measurable_swap
  rw [h1, lintegral_prod_symm _ m.aemeasurable]
  have m2 : Measurable fun q : (Fin n → ℂ) × (Fin n × Fin n → ℂ) =>
      ∫⁻ p : ℂ × (Fin n → ℂ), Ψ (bord p.1 p.2 q.1 (mat q.2)) ∂((volume : Measure ℂ).prod volume) := m'.lintegral_prod_right'
  rw [lintegral_prod_symm _ m2.aemeasurable]
  refine lintegral_congr fun x => ?_
  have m3 : ∀ c : Fin n → ℂ, Measurable fun p : ℂ × (Fin n → ℂ) => Ψ (bord p.1 p.2 c (mat x)) := fun c => m'.comp (measurable_prodMk_left (x := (c, x)))
  have e1 : ∀ c : Fin n → ℂ, ∫⁻ p : ℂ × (Fin n → ℂ), Ψ (bord p.1 p.2 c (mat x)) ∂((volume : Measure ℂ).prod volume)
      = ∫⁻ w : Fin n → ℂ, ∫⁻ a : ℂ, Ψ (bord a w c (mat x)) := fun c => lintegral_prod_symm _ (m3 c).aemeasurable
  simp only [e1]
  refine lintegral_lintegral_swap (Measurable.aemeasurable ?_)
  have m4 : Measurable fun q : ((Fin n → ℂ) × (Fin n → ℂ)) × ℂ => Ψ (bord q.2 q.1.2 q.1.1 (mat x)) :=
    hΨ.comp (measurable_bordG (by fun_prop) (by fun_prop) (by fun_prop) fun i j => measurable_const)
  exact m4.lintegral_prod_right'

/-- the matrix with eigenvalue `t`, eigenvector `(1, u)` and other eigenvalues those of `B` -/
def Tmat (u w : Fin n → ℂ) (t : ℂ) (B : Matrix (Fin n) (Fin n) ℂ) : Matrix (Fin (n + 1)) (Fin (n + 1)) ℂ :=
  Amat u w t (B + Matrix.vecMulVec u w)

theorem measurable_Tmat {X : Type} [MeasurableSpace X] {u w : X → Fin n → ℂ} {t : X → ℂ} {C : X → Matrix (Fin n) (Fin n) ℂ}
    (hu : Measurable u) (hw : Measurable w) (ht : Measurable t) (hC : ∀ i j, Measurable fun x => C x i j) (i j : Fin (n + 1)) :
    Measurable fun x => Tmat (u x) (w x) (t x) (C x) i j :=
  measurable_Amat hu hw ht (fun i j => by
    simp only [Matrix.add_apply, Matrix.vecMulVec_apply]
    exact (hC i j).add (((measurable_pi_apply i).comp hu).mul ((measurable_pi_apply j).comp hw))) i j

theorem step_change (hs : ∀ᵐ x : Fin n × Fin n → ℂ, Function.Injective (evs (mat x)))
    {Ψ : Matrix (Fin (n + 1)) (Fin (n + 1)) ℂ → ENNReal} (hΨ : MeasM Ψ) :
    ∫⁻ x : Fin (n + 1) × Fin (n + 1) → ℂ, Ψ (mat x)
      = ∫⁻ u : Fin n → ℂ, ∫⁻ w : Fin n → ℂ, ∫⁻ t : ℂ, ∫⁻ b : Fin n × Fin n → ℂ,
          ENNReal.ofReal (‖(t • 1 - mat b).det‖ ^ 2) * Phi Ψ t (Tmat u w t (mat b)) := by
  obtain ⟨f, hf⟩ : ∃ f : (Fin n → ℂ) → (Fin n → ℂ) → ℂ → (Fin n × Fin n → ℂ) → ENNReal, f = fun u w t x =>
    ENNReal.ofReal (‖(t • 1 - (mat x - Matrix.vecMulVec u w)).det‖ ^ 2) * Phi Ψ t (Amat u w t (mat x)) := ⟨_, rfl⟩
  have hfm : Measurable fun q : (((Fin n → ℂ) × (Fin n → ℂ)) × ℂ) × (Fin n × Fin n → ℂ) => f q.1.1.1 q.1.1.2 q.1.2 q.2 := by
    have mx : ∀ i j, Measurable fun q : (((Fin n → ℂ) × (Fin n → ℂ)) × ℂ) × (Fin n × Fin n → ℂ) => mat q.2 i j :=
      fun i j => (measurable_mat i j).comp (by fun_prop)
    have mu : Measurable fun q : (((Fin n → ℂ) × (Fin n → ℂ)) × ℂ) × (Fin n × Fin n → ℂ) => q.1.1.1 := by fun_prop
    have mw : Measurable fun q : (((Fin n → ℂ) × (Fin n → ℂ)) × ℂ) × (Fin n × Fin n → ℂ) => q.1.1.2 := by fun_prop
    have mt : Measurable fun q : (((Fin n → ℂ) × (Fin n → ℂ)) × ℂ) × (Fin n × Fin n → ℂ) => q.1.2 := by fun_prop
    rw [hf]
    refine Measurable.mul ?_ (measurable_Phi hΨ (measurable_Amat mu mw mt mx) mt)
    refine ((measurable_det_shift mt fun i j => ?_).norm.pow_const 2).ennreal_ofReal
    simp only [Matrix.sub_apply, Matrix.vecMulVec_apply]
    exact (mx i j).sub (((measurable_pi_apply i).comp mu).mul ((measurable_pi_apply j).comp mw))
  -- all orders of integration
  have s1 : ∫⁻ x : Fin (n + 1) × Fin (n + 1) → ℂ, Ψ (mat x) = ∫⁻ x, ∫⁻ w, ∫⁻ t, ∫⁻ u, f u w t x := by
    rw [lintegral_blocks hΨ]
    refine lintegral_congr_ae ?_
    filter_upwards [hs] with x hx
    refine lintegral_congr_ae ?_
    filter_upwards [ae_generic hx] with w hw
    rw [column_change hw hΨ, hf]
  have p1 : Measurable fun q : (((Fin n × Fin n → ℂ) × (Fin n → ℂ)) × ℂ) × (Fin n → ℂ) => f q.2 q.1.1.2 q.1.2 q.1.1.1 :=
    hfm.comp (g := fun q : (((Fin n → ℂ) × (Fin n → ℂ)) × ℂ) × (Fin n × Fin n → ℂ) => f q.1.1.1 q.1.1.2 q.1.2 q.2)
      (f := fun q : (((Fin n × Fin n → ℂ) × (Fin n → ℂ)) × ℂ) × (Fin n → ℂ) => (((q.2, q.1.1.2), q.1.2), q.1.1.1)) (by fun_prop)
  have p2 : Measurable fun q : (((Fin n × Fin n → ℂ) × (Fin n → ℂ)) × (Fin n → ℂ)) × ℂ => f q.1.2 q.1.1.2 q.2 q.1.1.1 :=
    hfm.comp (g := fun q : (((Fin n → ℂ) × (Fin n → ℂ)) × ℂ) × (Fin n × Fin n → ℂ) => f q.1.1.1 q.1.1.2 q.1.2 q.2)
      (f := fun q : (((Fin n × Fin n → ℂ) × (Fin n → ℂ)) × (Fin n → ℂ)) × ℂ => (((q.1.2, q.1.1.2), q.2), q.1.1.1)) (by fun_prop)
  have p3 : Measurable fun q : ((Fin n × Fin n → ℂ) × (Fin n → ℂ)) × (Fin n → ℂ) => ∫⁻ t, f q.2 q.1.2 t q.1.1 := p2.lintegral_prod_right'
  have s2 : ∫⁻ x, ∫⁻ w, ∫⁻ t, ∫⁻ u, f u w t x = ∫⁻ x, ∫⁻ u, ∫⁻ w, ∫⁻ t, f u w t x := by
    refine lintegral_congr fun x => ?_
    have a1 : ∀ w, ∫⁻ t, ∫⁻ u, f u w t x = ∫⁻ u, ∫⁻ t, f u w t x := fun w =>
      lintegral_lintegral_swap (Measurable.aemeasurable (p1.comp
        (f := fun q : ℂ × (Fin n → ℂ) => (((x, w), q.1), q.2)) (by fun_prop)))
    simp only [a1]
    exact lintegral_lintegral_swap (Measurable.aemeasurable (p3.comp
        (f := fun q : (Fin n → ℂ) × (Fin n → ℂ) => ((x, q.1), q.2)) (by fun_prop)))
  have p4 : Measurable fun q : ((Fin n × Fin n → ℂ) × (Fin n → ℂ)) × (Fin n → ℂ) => ∫⁻ t, f q.1.2 q.2 t q.1.1 :=
    p3.comp (g := fun q : ((Fin n × Fin n → ℂ) × (Fin n → ℂ)) × (Fin n → ℂ) => ∫⁻ t, f q.2 q.1.2 t q.1.1)
      (f := fun q : ((Fin n × Fin n → ℂ) × (Fin n → ℂ)) × (Fin n → ℂ) => ((q.1.1, q.2), q.1.2)) (by fun_prop)
  have p5 : Measurable fun q : (Fin n × Fin n → ℂ) × (Fin n → ℂ) => ∫⁻ w, ∫⁻ t, f q.2 w t q.1 := p4.lintegral_prod_right'
  have s3 : ∫⁻ x, ∫⁻ u, ∫⁻ w, ∫⁻ t, f u w t x = ∫⁻ u, ∫⁻ w, ∫⁻ t, ∫⁻ x, f u w t x := by
    rw [lintegral_lintegral_swap p5.aemeasurable]
    refine lintegral_congr fun u => ?_
    refine (lintegral_lintegral_swap (f := fun x w => ∫⁻ t, f u w t x) (Measurable.aemeasurable (p4.comp
        (f := fun q : (Fin n × Fin n → ℂ) × (Fin n → ℂ) => ((q.1, u), q.2)) (by fun_prop)))).trans ?_
    refine lintegral_congr fun w => ?_
    exact lintegral_lintegral_swap (Measurable.aemeasurable (p2.comp
        (f := fun q : (Fin n × Fin n → ℂ) × ℂ => (((q.1, w), u), q.2)) (by fun_prop)))
  rw [s1, s2, s3]
  refine lintegral_congr fun u => lintegral_congr fun w => lintegral_congr fun t => ?_
  rw [← lintegral_add_right_eq_self _ (unmat (Matrix.vecMulVec u w))]
  refine lintegral_congr fun b => ?_
  have e : mat (b + unmat (Matrix.vecMulVec u w)) = mat b + Matrix.vecMulVec u w := rfl
  rw [hf]
  simp only [e, add_sub_cancel_right, Tmat]

end Verif.Lemmas
