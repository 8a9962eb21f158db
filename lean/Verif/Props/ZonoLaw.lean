import Verif.Lemmas.ZonoLaw
import Verif.Spec.ZonoDraws
import Verif.Lemmas.Spectral

/-!
C116: the zonotope sampler keeps the projection DPP law.
-/

namespace Verif.Lemmas.ZonoTiles
open Verif Verif.Spec Verif.Model Verif.Props Matrix MeasureTheory Verif.Lemmas.ZonoRev
open scoped ENNReal

variable {N r : ℕ} {A : Matrix (Fin r) (Fin N) ℝ} {c : Fin N → ℝ} {L : Lp N r}

/-- mean over the draws of `n` iterations -/
noncomputable def runE (A : Matrix (Fin r) (Fin N) ℝ) (L : Lp N r) (γ : Measure (Fin r → ℝ)) (Ψ : ZSt N r → ℝ≥0∞) : ℕ → ZSt N r → ℝ≥0∞
  | 0 => Ψ
  | n + 1 => stepE A L γ (runE A L γ Ψ n)

theorem runE_eq (γ : Measure (Fin r → ℝ)) (Ψ : ZSt N r → ℝ≥0∞) : ∀ n s,
    drawsMean γ n (fun l => Ψ (l.foldl (zonoStep A L) s)) = runE A L γ Ψ n s := by
  intro n
  induction n with
  | zero => intro s; rfl
  | succ n ih =>
    intro s
    rw [drawsMean, runE, stepE]
    refine lintegral_congr fun d => lintegral_congr fun u => lintegral_congr fun v => ?_
    exact ih _

theorem runE_inv (hu : UniqueOptimum A c) (hL : LpExact A c L) {Ψ : ZSt N r → ℝ≥0∞} (hΨ : Measurable (onPts A L Ψ))
    {γ : Measure (Fin r → ℝ)} [IsProbabilityMeasure γ] (hγ : γ {0} = 0) : ∀ n,
    Measurable (onPts A L (runE A L γ Ψ n)) ∧
      ∫⁻ x, wE A L x * onPts A L (runE A L γ Ψ n) x = ∫⁻ x, wE A L x * onPts A L Ψ x
  | 0 => ⟨hΨ, rfl⟩
  | n + 1 => by
    obtain ⟨h1, h2⟩ := runE_inv hu hL hΨ hγ n
    obtain ⟨h3, h4⟩ := step_inv hu hL h1 hγ
    exact ⟨h3, h4.trans h2⟩

theorem drawsMean_congr {γ : Measure (Fin r → ℝ)} : ∀ (n : ℕ) {f g : List (ZDraw r) → ℝ≥0∞},
    (∀ l, l.length = n → f l = g l) → drawsMean γ n f = drawsMean γ n g
  | 0, _, _, h => h [] rfl
  | n + 1, _, _, h => by
    rw [drawsMean, drawsMean]
    refine lintegral_congr fun d => lintegral_congr fun u => lintegral_congr fun v => ?_
    exact drawsMean_congr n fun l hl => h _ (by simp [hl])

theorem loop_get (tape : ℕ → ZDraw r) : ∀ (l : List (ZDraw r)) (t : ZDraw r) (it m : ℕ) (s : ZSt N r), l.length < m →
    (∀ i (h : i < (t :: l).length), tape (it + i) = (t :: l)[i]) →
    (zonoLoop A L (fun _ => false) tape it m s)[l.length]? = some ((t :: l).foldl (zonoStep A L) s)
  | [], t, it, m + 1, s, _, ht => by
    have := ht 0 (by simp)
    rw [add_zero] at this
    rw [zonoLoop, this]
    rfl
  | a :: l, t, it, m + 1, s, hm, ht => by
    have h0 := ht 0 (by simp)
    rw [add_zero] at h0
    rw [zonoLoop, h0]
    change (zonoLoop A L (fun _ => false) tape (it + 1) m (zonoStep A L s t))[l.length]? = _
    refine loop_get tape l a (it + 1) m _ (by simpa using hm) fun i hi => ?_
    have := ht (i + 1) (by simpa using hi)
    rw [show it + 1 + i = it + (i + 1) by omega, this]
    rfl
  | [], _, _, 0, _, hm, _ => absurd hm (by simp)
  | _ :: _, _, _, 0, _, hm, _ => absurd hm (by simp)

/-- the row of the chain -/
theorem row_iff (hr : 0 < r) {x0 : Fin r → ℝ} (h : (extractBasis zEps (L.lp x0)).length = r) {o : McmcOpts} (hT : o.tMax = none)
    (fuel : ℕ) {l : List (ZDraw r)} (hn : l.length < o.nbIter) (T : Finset (Fin N)) :
    RowIs (zonoSampler A L o (tapeOf l) x0 (fuel + 1)) l.length T ↔ (l.foldl (zonoStep A L) (stAt A L x0)).B.toFinset = T := by
  have hi : zonoInit L x0 (fuel + 1) [] = some (extractBasis zEps (L.lp x0)) := by
    rw [zonoInit, if_neg (by simp; omega)]
    change zonoInit L x0 fuel (extractBasis zEps (L.lp x0)) = _
    cases fuel <;> rw [zonoInit, if_pos h]
  have hst : stopAt o = fun _ => false := by
    funext i; rw [stopAt, hT]
  have hval : ∃ chain, zonoSampler A L o (tapeOf l) x0 (fuel + 1) = some (.ok chain) ∧
      chain[l.length]? = some (l.foldl (zonoStep A L) (stAt A L x0)).B := by
    rw [zonoSampler, hi]
    simp only [Option.map_some, if_neg (by omega : ¬ o.nbIter = 0)]
    refine ⟨_, rfl, ?_⟩
    rw [hst]
    cases l with
    | nil => rfl
    | cons t l =>
      have h1 := loop_get (A := A) (L := L) (tapeOf (t :: l)) l t 1 (o.nbIter - 1) (stAt A L x0)
        (by simp at hn; omega) (fun i hi => by
          rw [tapeOf, show 1 + i - 1 = i by omega, List.getD_eq_getElem _ _ hi])
      have h2 := List.getElem?_eq_some_iff.1 h1
      obtain ⟨hlt, -⟩ := h2
      rw [List.cons_append, List.length_cons, List.getElem?_cons_succ, List.getElem?_append_left,
        List.getElem?_map]
      · exact congrArg (Option.map ZSt.B) h1
      · rw [List.length_map]; exact hlt
  obtain ⟨chain, e1, e2⟩ := hval
  constructor
  · rintro ⟨C, B, g1, g2, g3⟩
    rw [e1] at g1
    cases g1
    rw [e2] at g2
    cases g2
    exact g3
  · intro hB
    exact ⟨chain, _, e1, e2, hB⟩

theorem startWeight_eq (x : Fin r → ℝ) : startWeight A L x = wE A L x := by
  classical
  rw [startWeight, wE, wR]
  by_cases h : (Feasible A x).Nonempty
  · rw [if_pos h, if_pos (show x ∈ Zono A from h)]
  · rw [if_neg h, if_neg (show ¬ x ∈ Zono A from h), ENNReal.ofReal_zero]

theorem gauss_zero (hr : 0 < r) : gaussDir r {0} = 0 := by
  have hna : NullSingletonClass (ProbabilityTheory.gaussianReal 0 1) := ProbabilityTheory.nullSingletonClass_gaussianReal one_ne_zero
  rw [gaussDir, Measure.pi_singleton]
  exact Finset.prod_eq_zero (Finset.mem_univ ⟨0, hr⟩) (hna.measure_singleton _)

instance : IsProbabilityMeasure (gaussDir r) := by unfold gaussDir; infer_instance

theorem zono_compact : IsCompact (Zono A) := by
  rw [zono_image]
  refine IsCompact.image (isCompact_univ_pi fun _ => isCompact_Icc) ?_
  fun_prop

theorem feasible_compact (x : Fin r → ℝ) : IsCompact (Feasible A x) := by
  have hcl : IsClosed (Feasible A x) := by
    have : Feasible A x = (⋂ a, {y | ∑ i, A a i * y i = x a}) ∩ ⋂ i, {y | 0 ≤ y i ∧ y i ≤ 1} := by
      ext y; simp [Feasible]
    rw [this]
    refine IsClosed.inter (isClosed_iInter fun a => ?_) (isClosed_iInter fun i => ?_)
    · exact isClosed_eq (by fun_prop) continuous_const
    · exact (isClosed_le continuous_const (continuous_apply i)).inter
        (isClosed_le (continuous_apply i) continuous_const)
  refine (isCompact_univ_pi fun _ : Fin N => isCompact_Icc (a := (0 : ℝ)) (b := 1)).of_isClosed_subset hcl ?_
  intro y hy i _
  exact hy.2 i

theorem section_compact {x d : Fin r → ℝ} (hd : d ≠ 0) : IsCompact {α : ℝ | pt x d α ∈ Zono A} := by
  have hc : Continuous (pt x d) := by
    have : pt x d = fun t => x + t • d := rfl
    rw [this]; fun_prop
  obtain ⟨i, hi⟩ := Function.ne_iff.1 hd
  obtain ⟨R, hR⟩ := (zono_compact (A := A)).isBounded.exists_norm_le
  refine Metric.isCompact_of_isClosed_isBounded (zono_closed.preimage hc) ?_
  refine Metric.isBounded_iff_subset_closedBall 0 |>.2 ⟨(R + |x i|) / |d i|, fun α hα => ?_⟩
  have h1 := hR _ hα
  have h2 : |x i + α * d i| ≤ R := (norm_le_pi_norm (pt x d α) i).trans h1
  rw [Metric.mem_closedBall, Real.dist_eq, sub_zero, le_div_iff₀ (abs_pos.2 hi), ← abs_mul]
  have h3 : α * d i = (x i + α * d i) - x i := by ring
  rw [h3]
  exact (abs_sub _ _).trans (by linarith)

end Verif.Lemmas.ZonoTiles

namespace Verif.Props
open Verif Verif.Spec Verif.Model Matrix MeasureTheory Verif.Lemmas.ZonoTiles
open scoped ENNReal

variable {N r : ℕ} {A : Matrix (Fin r) (Fin N) ℝ} {c : Fin N → ℝ} {L : Lp N r}

/-- C116: directions of any law without mass at zero -/
theorem C116_keeps_the_law (hr : 0 < r) (hu : UniqueOptimum A c) (hL : LpExact A c L) (γ : Measure (Fin r → ℝ))
    [IsProbabilityMeasure γ] (hγ : γ {0} = 0) (o : McmcOpts) (hT : o.tMax = none) (fuel : ℕ) {n : ℕ} (hn : n < o.nbIter)
    (T : Finset (Fin N)) (hc : T.card = r) :
    (∫⁻ x0, startWeight A L x0 * rowProb A L o (fuel + 1) γ n T x0) / (∫⁻ x0, startWeight A L x0)
      = ENNReal.ofReal (kDppProb (Aᵀ * A) r T) := by
  classical
  obtain ⟨Ψ, hΨ⟩ : ∃ Ψ : ZSt N r → ℝ≥0∞, Ψ = fun s => if s.B.toFinset = T then 1 else 0 := ⟨_, rfl⟩
  have hm : Measurable (onPts A L Ψ) := by
    rw [hΨ]; exact tile_fun_meas hu hL fun S => if S = T then 1 else 0
  have h1 : ∀ x0, startWeight A L x0 * rowProb A L o (fuel + 1) γ n T x0 = wE A L x0 * onPts A L (runE A L γ Ψ n) x0 := by
    intro x0
    rw [startWeight_eq]
    by_cases hw : 0 < wR A L x0
    · rw [onPts, if_pos hw, ← runE_eq, rowProb]
      congr 1
      refine drawsMean_congr n fun l hl => ?_
      subst hl
      rw [hΨ]
      simp only [row_iff hr ((wR_pos_iff hu hL).1 hw).2 hT fuel hn T]
    · have : wE A L x0 = 0 := not_not.1 fun h => hw (wE_ne_zero.1 h)
      rw [this, zero_mul, zero_mul]
  have h2 : ∫⁻ x0, startWeight A L x0 = ∫⁻ x0, wE A L x0 := lintegral_congr startWeight_eq
  rw [lintegral_congr h1, h2, (runE_inv hu hL hm hγ n).2, total_mass hu hL, hΨ]
  have h3 := tile_mass hu hL hc
  have he : 0 < (1 - 2 * zEps) ^ r := by unfold zEps; positivity
  have hsub : ∀ S ∈ (Finset.univ : Finset (Fin N)).powersetCard r, 0 ≤ minor (Aᵀ * A) S := fun S hS => by
    rw [gram_det (Finset.mem_powersetCard.1 hS).2]; positivity
  rw [kDppProb, if_pos hc]
  refine (congrArg (fun z => z / ENNReal.ofReal ((∑ T ∈ (Finset.univ : Finset (Fin N)).powersetCard r, minor (Aᵀ * A) T) *
    (1 - 2 * zEps) ^ r)) (a₂ := ENNReal.ofReal (minor (Aᵀ * A) T * (1 - 2 * zEps) ^ r)) ?_).trans ?_
  · rw [← h3]
  · rcases (Finset.sum_nonneg hsub).lt_or_eq with hp | h0
    · rw [← ENNReal.ofReal_div_of_pos (mul_pos hp he), mul_div_mul_right _ _ he.ne']
    · have hT0 : minor (Aᵀ * A) T = 0 :=
        (Finset.sum_eq_zero_iff_of_nonneg hsub).1 h0.symm T (Finset.mem_powersetCard.2 ⟨Finset.subset_univ _, hc⟩)
      rw [hT0]
      simp

/-- C116: `rng.randn` directions, as in the code -/
theorem C116_keeps_the_law_gaussian (hr : 0 < r) (hu : UniqueOptimum A c) (hL : LpExact A c L) (o : McmcOpts)
    (hT : o.tMax = none) (fuel : ℕ) {n : ℕ} (hn : n < o.nbIter) (T : Finset (Fin N)) (hc : T.card = r) :
    (∫⁻ x0, startWeight A L x0 * rowProb A L o (fuel + 1) (gaussDir r) n T x0) / (∫⁻ x0, startWeight A L x0)
      = ENNReal.ofReal (kDppProb (Aᵀ * A) r T) :=
  C116_keeps_the_law hr hu hL _ (gauss_zero hr) o hT fuel hn T hc

/-- C116: the mass of the starting points of a tile: `det(A_T)²`, up to a factor that does not depend on the tile -/
theorem C116_mass_of_a_tile (hu : UniqueOptimum A c) (hL : LpExact A c L) {T : Finset (Fin N)} (hc : T.card = r) :
    ∫⁻ x, startWeight A L x * (if (extractBasis zEps (L.lp x)).toFinset = T then 1 else 0)
      = ENNReal.ofReal (minor (Aᵀ * A) T * (1 - 2 * zEps) ^ r) := by
  classical
  rw [← tile_mass hu hL hc]
  refine lintegral_congr fun x => ?_
  rw [startWeight_eq]
  by_cases hw : 0 < wR A L x
  · rw [onPts, if_pos hw]
    rfl
  · have : wE A L x = 0 := not_not.1 fun h => hw (wE_ne_zero.1 h)
    rw [this, zero_mul, zero_mul]

/-- the kernel of the projection onto the rows of `A` -/
theorem rowProj_isProjection (hA : (A * Aᵀ).det ≠ 0) : IsProjection (Aᵀ * (A * Aᵀ)⁻¹ * A) := by
  have hs : (A * Aᵀ)ᵀ = A * Aᵀ := by rw [Matrix.transpose_mul, Matrix.transpose_transpose]
  constructor
  · rw [Matrix.conjTranspose_eq_transpose_of_trivial, Matrix.transpose_mul, Matrix.transpose_mul, Matrix.transpose_transpose,
      Matrix.transpose_nonsing_inv, hs, Matrix.mul_assoc]
  · have : Aᵀ * (A * Aᵀ)⁻¹ * A * (Aᵀ * (A * Aᵀ)⁻¹ * A) = Aᵀ * ((A * Aᵀ)⁻¹ * (A * Aᵀ)) * (A * Aᵀ)⁻¹ * A := by
      simp only [Matrix.mul_assoc]
    rw [this, Matrix.nonsing_inv_mul _ (Ne.isUnit hA), Matrix.mul_one]

/-- C116: this law is the one of the projection DPP whose kernel is the projection onto the span of the rows of `A` -/
theorem C116_projection_dpp (hA : (A * Aᵀ).det ≠ 0) (T : Finset (Fin N)) :
    kDppProb (Aᵀ * A) r T = exactProb (Aᵀ * (A * Aᵀ)⁻¹ * A) T := by
  have hP := rowProj_isProjection hA
  have ht : (Aᵀ * (A * Aᵀ)⁻¹ * A).trace = (r : ℝ) := by
    rw [Matrix.trace_mul_comm, ← Matrix.mul_assoc, Matrix.mul_nonsing_inv _ (Ne.isUnit hA), Matrix.trace_one, Fintype.card_fin]
  have h1 : ∀ S : Finset (Fin N), S.card = r →
      minor (Aᵀ * (A * Aᵀ)⁻¹ * A) S = minor (Aᵀ * A) S * ((A * Aᵀ).det)⁻¹ := by
    intro S hS
    have hb : Function.Bijective fun b : Fin r => (⟨ec S hS b, ec_mem hS b⟩ : {i // i ∈ S}) := by
      refine ⟨fun a b h => ec_inj hS (congrArg Subtype.val h), fun ⟨i, hi⟩ => ?_⟩
      obtain ⟨b, hb⟩ := ec_surj hS hi
      exact ⟨b, Subtype.ext hb.symm⟩
    have h2 : ((Aᵀ * (A * Aᵀ)⁻¹ * A).submatrix (Subtype.val : S → Fin N) (Subtype.val : S → Fin N)).submatrix
        (Equiv.ofBijective _ hb) (Equiv.ofBijective _ hb)
        = (Lemmas.ZonoTiles.cols A (ec S hS))ᵀ * (A * Aᵀ)⁻¹ * Lemmas.ZonoTiles.cols A (ec S hS) := rfl
    rw [gram_det hS, minor, ← Matrix.det_submatrix_equiv_self (Equiv.ofBijective _ hb), h2, Matrix.det_mul, Matrix.det_mul,
      Matrix.det_transpose, Matrix.det_nonsing_inv, Ring.inverse_eq_inv']
    ring
  have h3 : (∑ S ∈ (Finset.univ : Finset (Fin N)).powersetCard r, minor (Aᵀ * A) S) = (A * Aᵀ).det := by
    have h4 := exactProb_superset (Aᵀ * (A * Aᵀ)⁻¹ * A) ∅
    have h5 : minor (Aᵀ * (A * Aᵀ)⁻¹ * A) ∅ = 1 := by
      rw [minor]; exact Matrix.det_isEmpty
    rw [h5] at h4
    have h6 : ∑ S ∈ (Finset.univ : Finset (Fin N)).powersetCard r, minor (Aᵀ * (A * Aᵀ)⁻¹ * A) S = 1 := by
      have h7 : ∑ S : Finset (Fin N), exactProb (Aᵀ * (A * Aᵀ)⁻¹ * A) S = 1 := by
        rw [← h4, Finset.sdiff_empty, Finset.powerset_univ]
        exact Finset.sum_congr rfl fun S _ => by rw [Finset.union_empty]
      rw [← h7, ← Finset.sum_subset (Finset.subset_univ ((Finset.univ : Finset (Fin N)).powersetCard r))]
      · refine Finset.sum_congr rfl fun S hS => ?_
        rw [exactProb_proj hP ht, if_pos (Finset.mem_powersetCard.1 hS).2]
      · intro S _ hS
        rw [exactProb_proj hP ht, if_neg]
        intro h; exact hS (Finset.mem_powersetCard.2 ⟨Finset.subset_univ _, h⟩)
    rw [Finset.sum_congr rfl fun S hS => h1 S (Finset.mem_powersetCard.1 hS).2, ← Finset.sum_mul] at h6
    exact eq_of_mul_inv_eq_one h6
  rw [exactProb_proj hP ht, kDppProb, h3]
  by_cases hT : T.card = r
  · rw [if_pos hT, if_pos hT, h1 T hT, div_eq_mul_inv]
  · rw [if_neg hT, if_neg hT]

/-- C116: the rows of the chain are samples of the projection DPP -/
theorem C116_rows_are_dpp_samples (hr : 0 < r) (hA : (A * Aᵀ).det ≠ 0) (hu : UniqueOptimum A c) (hL : LpExact A c L)
    (o : McmcOpts) (hT : o.tMax = none) (fuel : ℕ) {n : ℕ} (hn : n < o.nbIter) (T : Finset (Fin N)) (hc : T.card = r) :
    (∫⁻ x0, startWeight A L x0 * rowProb A L o (fuel + 1) (gaussDir r) n T x0) / (∫⁻ x0, startWeight A L x0)
      = ENNReal.ofReal (exactProb (Aᵀ * (A * Aᵀ)⁻¹ * A) T) := by
  rw [← C116_projection_dpp hA]
  exact C116_keeps_the_law_gaussian hr hu hL o hT fuel hn T hc

/-- Some solver meets the contract, for every matrix and every objective. -/
theorem exists_LpExact (A : Matrix (Fin r) (Fin N) ℝ) (c : Fin N → ℝ) : ∃ L : Lp N r, LpExact A c L := by
  classical
  have h1 : ∀ x, (Feasible A x).Nonempty → ∃ y, Optimal A c x y := by
    intro x hx
    obtain ⟨y, hy, hmin⟩ := (feasible_compact x).exists_isMinOn hx
      (f := fun y => ∑ i, c i * y i) (by fun_prop)
    exact ⟨y, hy, fun z hz => hmin hz⟩
  have h2 : ∀ x d : Fin r → ℝ, d ≠ 0 → (Feasible A x).Nonempty → {α : ℝ | (Feasible A fun a => x a + α * d a).Nonempty}.Nonempty := by
    intro x d _ hx
    exact ⟨0, by simpa using hx⟩
  refine ⟨⟨fun x => if h : (Feasible A x).Nonempty then (h1 x h).choose else 0,
    fun x d => (sInf {α : ℝ | (Feasible A fun a => x a + α * d a).Nonempty}, sSup {α : ℝ | (Feasible A fun a => x a + α * d a).Nonempty})⟩,
    fun x hx => ?_, fun x d hd hx => ?_, fun x d hd hx => ?_⟩
  · simp only [dif_pos hx]
    exact (h1 x hx).choose_spec
  · exact (section_compact (A := A) (x := x) hd).isLeast_sInf (h2 x d hd hx)
  · exact (section_compact (A := A) (x := x) hd).isGreatest_sSup (h2 x d hd hx)

/-- Non-vacuity: one row, two columns of lengths 1 and 2, objective `y_0`. -/
example : ∃ (A : Matrix (Fin 1) (Fin 2) ℝ) (c : Fin 2 → ℝ) (L : Lp 2 1), (A * Aᵀ).det ≠ 0 ∧ UniqueOptimum A c ∧ LpExact A c L ∧
    kDppProb (Aᵀ * A) 1 {1} = 4 / 5 := by
  obtain ⟨L, hL⟩ := exists_LpExact (Matrix.of fun (_ : Fin 1) (i : Fin 2) => if i = 0 then (1 : ℝ) else 2) fun i => if i = 0 then 1 else 0
  refine ⟨_, _, L, ?_, fun x y z hy hz => ?_, hL, ?_⟩
  · rw [Matrix.det_unique, Matrix.mul_apply]
    simp [Fin.sum_univ_two]
    norm_num
  · have h1 := hy.2 z hz.1
    have h2 := hz.2 y hy.1
    have e1 := hy.1.1 0
    have e2 := hz.1.1 0
    simp [Fin.sum_univ_two] at h1 h2 e1 e2
    have h0 : y 0 = z 0 := le_antisymm h1 h2
    funext i
    fin_cases i
    · exact h0
    · simp; linarith
  · have hp : (Finset.univ : Finset (Fin 2)).powersetCard 1 = {{0}, {1}} := by decide
    have hmin : ∀ i : Fin 2, ∀ M : Matrix (Fin 2) (Fin 2) ℝ, minor M {i} = M i i := by
      intro i M
      rw [minor]
      let _ : Unique ({i} : Finset (Fin 2)) := ⟨⟨⟨i, by simp⟩⟩, fun ⟨j, hj⟩ => Subtype.ext (by simpa using hj)⟩
      rw [Matrix.det_unique, Matrix.submatrix_apply]
      have h : ((default : ({i} : Finset (Fin 2))) : Fin 2) = i := by
        simp
      rw [h]
    rw [kDppProb, if_pos (by simp), hp, Finset.sum_pair (by decide), hmin, hmin]
    simp [Matrix.mul_apply]
    norm_num

end Verif.Props
