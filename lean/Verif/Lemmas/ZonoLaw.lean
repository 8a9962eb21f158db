import Verif.Lemmas.ZonoTiles2
import Verif.Lemmas.ZonoRev

/-!
The weight `|det A_B|` of the points of the zonotope, and the moves of the sampler.
-/

namespace Verif.Lemmas.ZonoTiles
open Verif Verif.Spec Verif.Model Verif.Props Matrix MeasureTheory Verif.Lemmas.ZonoRev
open scoped ENNReal

variable {N r : ℕ} {A : Matrix (Fin r) (Fin N) ℝ} {c : Fin N → ℝ} {L : Lp N r}

open Classical in
/-- `|det A_B|` for the tile of `x` -/
noncomputable def wR (A : Matrix (Fin r) (Fin N) ℝ) (L : Lp N r) (x : Fin r → ℝ) : ℝ :=
  if x ∈ Zono A then |detCols A (extractBasis zEps (L.lp x))| else 0

theorem wR_nonneg (x : Fin r → ℝ) : 0 ≤ wR A L x := by
  unfold wR; split
  · exact abs_nonneg _
  · rfl

/-- the weight as an extended number -/
noncomputable def wE (A : Matrix (Fin r) (Fin N) ℝ) (L : Lp N r) (x : Fin r → ℝ) : ℝ≥0∞ := ENNReal.ofReal (wR A L x)

theorem wR_pos_iff (hu : UniqueOptimum A c) (hL : LpExact A c L) {x : Fin r → ℝ} : 0 < wR A L x ↔
    x ∈ Zono A ∧ (extractBasis zEps (L.lp x)).length = r := by
  unfold wR
  constructor
  · intro h
    split at h
    · rename_i hx
      refine ⟨hx, ?_⟩
      by_contra hne
      rw [detCols, dif_neg hne, abs_zero] at h
      exact lt_irrefl _ h
    · exact absurd h (lt_irrefl _)
  · rintro ⟨hx, hl⟩
    rw [if_pos hx]
    exact abs_pos.2 (detCols_ne_zero ⟨extractBasis_sorted, hl, C41_extract_basis_independent (by unfold zEps; norm_num)
      (optimal_vertex hu (hL.opt x hx))⟩)

theorem wE_ne_zero {x : Fin r → ℝ} : wE A L x ≠ 0 ↔ 0 < wR A L x := by
  rw [wE, Ne, ENNReal.ofReal_eq_zero, not_le]

/-- the points of weight -/
theorem wR_pos_tile (hu : UniqueOptimum A c) (hL : LpExact A c L) {x : Fin r → ℝ} :
    0 < wR A L x ↔ ∃ (T : Finset (Fin N)) (hT : T.card = r), (cols A (ec T hT)).det ≠ 0 ∧ x ∈ tile A c T hT := by
  rw [wR_pos_iff hu hL]
  constructor
  · rintro ⟨hx, hl⟩
    have hT : (extractBasis zEps (L.lp x)).toFinset.card = r := by
      rw [List.toFinset_card_of_nodup (extractBasis_sorted.imp fun h => h.ne), hl]
    have hdet : (cols A (ec _ hT)).det ≠ 0 := by
      rw [← detCols_tl hT, ← extract_eq_tl]
      exact detCols_ne_zero ⟨extractBasis_sorted, hl, C41_extract_basis_independent (by unfold zEps; norm_num)
        (optimal_vertex hu (hL.opt x hx))⟩
    exact ⟨_, hT, hdet, (mem_tile_iff hu hL hdet).1 ⟨hx, rfl⟩⟩
  · rintro ⟨T, hT, hdet, hx⟩
    obtain ⟨h1, h2⟩ := (mem_tile_iff hu hL hdet).2 hx
    refine ⟨h1, ?_⟩
    rw [← List.toFinset_card_of_nodup (extractBasis_sorted.imp fun h => h.ne), h2, hT]

theorem wR_tile (hu : UniqueOptimum A c) (hL : LpExact A c L) {x : Fin r → ℝ} {T : Finset (Fin N)} (hT : T.card = r)
    (hdet : (cols A (ec T hT)).det ≠ 0) (hx : x ∈ tile A c T hT) : wR A L x = |(cols A (ec T hT)).det| := by
  obtain ⟨h1, h2⟩ := (mem_tile_iff hu hL hdet).2 hx
  rw [wR, if_pos h1, extract_eq_tl, h2, detCols_tl hT]

open Classical in
/-- functions of the tile are sums of indicators -/
theorem tile_sum (hu : UniqueOptimum A c) (hL : LpExact A c L) (f : Finset (Fin N) → ℝ≥0∞) (x : Fin r → ℝ) :
    (if 0 < wR A L x then f (extractBasis zEps (L.lp x)).toFinset else 0)
      = ∑ T : Finset (Fin N), if h : ∃ hT : T.card = r, (cols A (ec T hT)).det ≠ 0 then
          (tile A c T h.1).indicator (fun _ => f T) x else 0 := by
  split
  · rename_i h
    obtain ⟨T, hT, hdet, hx⟩ := (wR_pos_tile hu hL).1 h
    rw [((mem_tile_iff hu hL hdet).2 hx).2, Finset.sum_eq_single T, dif_pos ⟨hT, hdet⟩, Set.indicator_of_mem hx]
    · intro S _ hS
      split
      · rename_i hS2
        refine Set.indicator_of_notMem (fun hx2 => hS ?_) _
        exact ((mem_tile_iff hu hL hS2.2).2 hx2).2.symm.trans ((mem_tile_iff hu hL hdet).2 hx).2
      · rfl
    · intro h; exact absurd (Finset.mem_univ T) h
  · rename_i h
    refine (Finset.sum_eq_zero fun T _ => ?_).symm
    split
    · rename_i hT
      exact Set.indicator_of_notMem (fun hx => h ((wR_pos_tile hu hL).2 ⟨T, hT.1, hT.2, hx⟩)) _
    · rfl

theorem tile_fun_meas (hu : UniqueOptimum A c) (hL : LpExact A c L) (f : Finset (Fin N) → ℝ≥0∞) :
    Measurable fun x => open Classical in if 0 < wR A L x then f (extractBasis zEps (L.lp x)).toFinset else 0 := by
  simp only [tile_sum hu hL f]
  refine Finset.measurable_sum _ fun T _ => ?_
  split
  · exact measurable_const.indicator tile_open.measurableSet
  · exact measurable_const

theorem wE_eq (x : Fin r → ℝ) :
    wE A L x = open Classical in if 0 < wR A L x then ENNReal.ofReal |detCols A (tl (extractBasis zEps (L.lp x)).toFinset)| else 0 := by
  split
  · rename_i h
    rw [wE, ← extract_eq_tl, wR, if_pos]
    by_contra hx
    rw [wR, if_neg hx] at h
    exact lt_irrefl _ h
  · rename_i h
    rw [wE, ENNReal.ofReal_eq_zero]
    exact not_lt.1 h

theorem wE_meas (hu : UniqueOptimum A c) (hL : LpExact A c L) : Measurable (wE A L) := by
  have : wE A L = fun x => open Classical in if 0 < wR A L x then
      (fun T => ENNReal.ofReal |detCols A (tl T)|) (extractBasis zEps (L.lp x)).toFinset else 0 := funext wE_eq
  rw [this]
  exact tile_fun_meas hu hL fun T => ENNReal.ofReal |detCols A (tl T)|

theorem wpos_meas (hu : UniqueOptimum A c) (hL : LpExact A c L) : MeasurableSet {x | 0 < wR A L x} := by
  have : {x | 0 < wR A L x} = {x | wE A L x ≠ 0} := by ext x; simp [← wE_ne_zero]
  rw [this]
  exact (measurableSet_eq_fun (wE_meas hu hL) measurable_const).compl

/-- probability of acceptance -/
noncomputable def acc (A : Matrix (Fin r) (Fin N) ℝ) (L : Lp N r) (x y : Fin r → ℝ) : ℝ≥0∞ := min 1 (wE A L y / wE A L x)

theorem acc_meas (hu : UniqueOptimum A c) (hL : LpExact A c L) : Measurable (Function.uncurry (acc A L)) :=
  measurable_const.min (((wE_meas hu hL).comp measurable_snd).div ((wE_meas hu hL).comp measurable_fst))

theorem acc_le (x y : Fin r → ℝ) : acc A L x y ≤ 1 := min_le_left _ _

theorem acc_bal (x y : Fin r → ℝ) : wE A L x * acc A L x y = min (wE A L x) (wE A L y) := by
  have ht : wE A L x ≠ ⊤ := ENNReal.ofReal_ne_top
  by_cases h0 : wE A L x = 0
  · rw [h0, zero_mul]; exact (min_eq_left bot_le).symm
  · rw [acc, mul_min, mul_one, ENNReal.mul_div_cancel h0 ht]

/-- the section of the zonotope -/
theorem section_eq (hL : LpExact A c L) {x d : Fin r → ℝ} (hd : d ≠ 0) (hx : x ∈ Zono A) (t : ℝ) :
    pt x d t ∈ Zono A ↔ (L.seg x d).1 ≤ t ∧ t ≤ (L.seg x d).2 := by
  have h1 := hL.least x d hd hx
  have h2 := hL.greatest x d hd hx
  constructor
  · intro h; exact ⟨h1.2 h, h2.2 h⟩
  · rintro ⟨a1, a2⟩
    have hc : Convex ℝ {α : ℝ | pt x d α ∈ Zono A} := by
      have : {α : ℝ | pt x d α ∈ Zono A} = (AffineMap.lineMap x (x + d) : ℝ →ᵃ[ℝ] (Fin r → ℝ)) ⁻¹' Zono A := by
        ext α
        simp only [Set.mem_ofPred_eq, Set.mem_preimage, AffineMap.lineMap_apply, pt_eq]
        simp [add_comm]
      rw [this]
      exact zono_convex.affine_preimage _
    exact (hc.ordConnected.out h1.1 h2.1 ⟨a1, a2⟩)

theorem len_eq (hL : LpExact A c L) {x d : Fin r → ℝ} (hd : d ≠ 0) (hx : x ∈ Zono A) :
    len (Zono A) x d = ENNReal.ofReal ((L.seg x d).2 - (L.seg x d).1) := by
  have : ∀ t, (Zono A).indicator (1 : (Fin r → ℝ) → ℝ≥0∞) (pt x d t) = (Set.Icc (L.seg x d).1 (L.seg x d).2).indicator 1 t := by
    intro t
    by_cases h : pt x d t ∈ Zono A
    · rw [Set.indicator_of_mem h, Set.indicator_of_mem (Set.mem_Icc.2 ((section_eq hL hd hx t).1 h))]; rfl
    · rw [Set.indicator_of_notMem h, Set.indicator_of_notMem (s := Set.Icc (L.seg x d).1 (L.seg x d).2) fun h2 => h ((section_eq hL hd hx t).2 h2)]
  simp only [len, this]
  rw [lintegral_indicator_one measurableSet_Icc, Real.volume_Icc]

theorem seg_lt (hu : UniqueOptimum A c) (hL : LpExact A c L) {x d : Fin r → ℝ} (hd : d ≠ 0) (hw : 0 < wR A L x) :
    (L.seg x d).1 < (L.seg x d).2 := by
  obtain ⟨T, hT, hdet, hx⟩ := (wR_pos_tile hu hL).1 hw
  have hZ : x ∈ Zono A := ((mem_tile_iff hu hL hdet).2 hx).1
  have hc : Continuous (pt x d) := by
    have : pt x d = fun t => x + t • d := rfl
    rw [this]; fun_prop
  have ho : IsOpen (pt x d ⁻¹' tile A c T hT) := tile_open.preimage hc
  have h0 : (0 : ℝ) ∈ pt x d ⁻¹' tile A c T hT := by
    have : pt x d 0 = x := by rw [pt_eq]; simp
    rw [Set.mem_preimage, this]; exact hx
  obtain ⟨δ, hδ, hb⟩ := Metric.isOpen_iff.1 ho 0 h0
  have h1 : δ / 2 ∈ Metric.ball (0 : ℝ) δ := by
    rw [Metric.mem_ball, Real.dist_eq, sub_zero, abs_of_pos (by positivity)]; linarith
  have h2 := (section_eq hL hd hZ (δ / 2)).1 ((mem_tile_iff hu hL hdet).2 (hb h1)).1
  have h3 := (section_eq hL hd hZ 0).1 ((mem_tile_iff hu hL hdet).2 h0).1
  have : 0 < δ / 2 := by positivity
  linarith [h3.1, h2.2]

/-- the state of the sampler at a point -/
noncomputable def stAt (A : Matrix (Fin r) (Fin N) ℝ) (L : Lp N r) (x : Fin r → ℝ) : ZSt N r :=
  ⟨x, extractBasis zEps (L.lp x), detCols A (extractBasis zEps (L.lp x))⟩

open Classical in
theorem step_eq (hu : UniqueOptimum A c) (hL : LpExact A c L) {x : Fin r → ℝ} (hw : 0 < wR A L x) {t : ZDraw r}
    (hy : zonoPoint L x t ∈ Zono A) :
    zonoStep A L (stAt A L x) t = if 0 < wR A L (zonoPoint L x t) ∧ t.v < wR A L (zonoPoint L x t) / wR A L x then
      stAt A L (zonoPoint L x t) else stAt A L x := by
  have hx := ((wR_pos_iff hu hL).1 hw).1
  have h1 : |detCols A (extractBasis zEps (L.lp (zonoPoint L x t))) / detCols A (extractBasis zEps (L.lp x))|
      = wR A L (zonoPoint L x t) / wR A L x := by
    rw [abs_div, wR, if_pos hy, wR, if_pos hx]
  have h2 : (extractBasis zEps (L.lp (zonoPoint L x t))).length = r ↔ 0 < wR A L (zonoPoint L x t) := by
    rw [wR_pos_iff hu hL]
    exact ⟨fun h => ⟨hy, h⟩, fun h => h.2⟩
  have h3 : ((extractBasis zEps (L.lp (zonoPoint L x t))).length = r ∧
      t.v < |detCols A (extractBasis zEps (L.lp (zonoPoint L x t))) / detCols A (extractBasis zEps (L.lp x))|) ↔
      (0 < wR A L (zonoPoint L x t) ∧ t.v < wR A L (zonoPoint L x t) / wR A L x) := by rw [h1, h2]
  by_cases h : 0 < wR A L (zonoPoint L x t) ∧ t.v < wR A L (zonoPoint L x t) / wR A L x
  · rw [if_pos h]; exact if_pos (h3.2 h)
  · rw [if_neg h]; exact if_neg fun g => h (h3.1 g)

open Classical in
/-- uniform acceptance -/
theorem accept_lintegral {ρ : ℝ} (hρ : 0 ≤ ρ) (p q : ℝ≥0∞) :
    ∫⁻ v in Set.Icc (0 : ℝ) 1, (if v < ρ then p else q) = min 1 (ENNReal.ofReal ρ) * p + (1 - min 1 (ENNReal.ofReal ρ)) * q := by
  have h1 : ∀ v, (if v < ρ then p else q) = (Set.Iio ρ).indicator (fun _ => p) v + (Set.Ici ρ).indicator (fun _ => q) v := by
    intro v
    by_cases h : v < ρ
    · rw [if_pos h, Set.indicator_of_mem (Set.mem_Iio.2 h), Set.indicator_of_notMem (by simpa using h), add_zero]
    · rw [if_neg h, Set.indicator_of_notMem (by simpa using h), Set.indicator_of_mem (by simpa using h), zero_add]
  simp only [h1]
  rw [lintegral_add_left (measurable_const.indicator measurableSet_Iio),
    lintegral_indicator_const measurableSet_Iio, lintegral_indicator_const measurableSet_Ici,
    Measure.restrict_apply measurableSet_Iio, Measure.restrict_apply measurableSet_Ici, mul_comm p, mul_comm q]
  have e1 : volume (Set.Iio ρ ∩ Set.Icc 0 1) = min 1 (ENNReal.ofReal ρ) := by
    rcases le_total ρ 1 with h | h
    · have : Set.Iio ρ ∩ Set.Icc 0 1 = Set.Ico 0 ρ := by
        ext v; simp only [Set.mem_inter_iff, Set.mem_Iio, Set.mem_Icc, Set.mem_Ico]
        constructor
        · rintro ⟨a, b, _⟩; exact ⟨b, a⟩
        · rintro ⟨a, b⟩; exact ⟨b, a, by linarith⟩
      rw [this, Real.volume_Ico, sub_zero, min_eq_right]
      exact ENNReal.ofReal_le_one.2 h
    · rw [min_eq_left (ENNReal.one_le_ofReal.2 h)]
      refine le_antisymm ?_ ?_
      · refine (measure_mono Set.inter_subset_right).trans ?_
        rw [Real.volume_Icc]; simp
      · have : Set.Ico (0 : ℝ) 1 ⊆ Set.Iio ρ ∩ Set.Icc 0 1 := fun v hv => ⟨lt_of_lt_of_le hv.2 h, hv.1, hv.2.le⟩
        refine le_trans ?_ (measure_mono this)
        rw [Real.volume_Ico]; simp
  have e2 : volume (Set.Ici ρ ∩ Set.Icc 0 1) = 1 - min 1 (ENNReal.ofReal ρ) := by
    have : Set.Ici ρ ∩ Set.Icc 0 1 = Set.Icc ρ 1 := by
      ext v; simp only [Set.mem_inter_iff, Set.mem_Ici, Set.mem_Icc]
      constructor
      · rintro ⟨a, _, b⟩; exact ⟨a, b⟩
      · rintro ⟨a, b⟩; exact ⟨a, by linarith, b⟩
    rw [this, Real.volume_Icc, ENNReal.ofReal_sub _ hρ, ENNReal.ofReal_one]
    rcases le_total (ENNReal.ofReal ρ) 1 with h | h
    · rw [min_eq_right h]
    · rw [min_eq_left h, tsub_self, tsub_eq_zero_of_le h]
  rw [e1, e2]

/-- uniform point of a segment -/
theorem segment_lintegral {m M : ℝ} (h : m < M) {G : ℝ → ℝ≥0∞} (hG : Measurable G) :
    ∫⁻ u in Set.Icc (0 : ℝ) 1, G (m + (M - m) * u) = (ENNReal.ofReal (M - m))⁻¹ * ∫⁻ t in Set.Icc m M, G t := by
  have hpos : 0 < M - m := sub_pos.2 h
  rw [← lintegral_indicator measurableSet_Icc, ← lintegral_indicator measurableSet_Icc]
  obtain ⟨F, hF⟩ : ∃ F : ℝ → ℝ≥0∞, F = (Set.Icc m M).indicator G := ⟨_, rfl⟩
  have hFm : Measurable F := by rw [hF]; exact hG.indicator measurableSet_Icc
  have h1 : ∀ u, (Set.Icc (0 : ℝ) 1).indicator (fun u => G (m + (M - m) * u)) u = F (m + (M - m) * u) := by
    intro u
    have hiff : m + (M - m) * u ∈ Set.Icc m M ↔ u ∈ Set.Icc (0 : ℝ) 1 := by
      simp only [Set.mem_Icc]
      constructor
      · rintro ⟨a, b⟩; constructor <;> by_contra hc <;> nlinarith
      · rintro ⟨a, b⟩; constructor <;> nlinarith
    rw [hF]
    by_cases hu : u ∈ Set.Icc (0 : ℝ) 1
    · rw [Set.indicator_of_mem hu, Set.indicator_of_mem (hiff.2 hu)]
    · rw [Set.indicator_of_notMem hu, Set.indicator_of_notMem fun h => hu (hiff.1 h)]
  simp only [h1]
  rw [← hF]
  have h2 : ∫⁻ u, F (m + (M - m) * u) = ∫⁻ u, F (m + u) ∂(Measure.map ((M - m) * ·) volume) := by
    rw [lintegral_map (by fun_prop) (by fun_prop)]
  rw [h2, Real.map_volume_mul_left hpos.ne', lintegral_smul_measure, lintegral_add_left_eq_self F m, abs_of_pos (inv_pos.2 hpos),
    ENNReal.ofReal_inv_of_pos hpos]
  rfl

/-- mean over the draws of one iteration -/
noncomputable def stepE (A : Matrix (Fin r) (Fin N) ℝ) (L : Lp N r) (γ : Measure (Fin r → ℝ)) (Ψ : ZSt N r → ℝ≥0∞) (s : ZSt N r) : ℝ≥0∞ :=
  ∫⁻ d, (∫⁻ u in Set.Icc (0 : ℝ) 1, ∫⁻ v in Set.Icc (0 : ℝ) 1, Ψ (zonoStep A L s ⟨d, u, v⟩)) ∂γ

open Classical in
/-- a function of the states, as a function of the points -/
noncomputable def onPts (A : Matrix (Fin r) (Fin N) ℝ) (L : Lp N r) (Ψ : ZSt N r → ℝ≥0∞) (x : Fin r → ℝ) : ℝ≥0∞ :=
  if 0 < wR A L x then Ψ (stAt A L x) else 0

theorem step_hop (hu : UniqueOptimum A c) (hL : LpExact A c L) {Ψ : ZSt N r → ℝ≥0∞} (hΨ : Measurable (onPts A L Ψ))
    {x d : Fin r → ℝ} (hd : d ≠ 0) (hw : 0 < wR A L x) :
    ∫⁻ u in Set.Icc (0 : ℝ) 1, ∫⁻ v in Set.Icc (0 : ℝ) 1, Ψ (zonoStep A L (stAt A L x) ⟨d, u, v⟩)
      = hop (Zono A) (acc A L) (onPts A L Ψ) x d := by
  classical
  have hx := ((wR_pos_iff hu hL).1 hw).1
  have hlt := seg_lt hu hL hd hw
  obtain ⟨m, hm⟩ : ∃ m, m = (L.seg x d).1 := ⟨_, rfl⟩
  obtain ⟨M, hM⟩ : ∃ M, M = (L.seg x d).2 := ⟨_, rfl⟩
  rw [← hm, ← hM] at hlt
  obtain ⟨G, hG⟩ : ∃ G : ℝ → ℝ≥0∞, G = fun t => acc A L x (pt x d t) * onPts A L Ψ (pt x d t) +
    (1 - acc A L x (pt x d t)) * onPts A L Ψ x := ⟨_, rfl⟩
  have hpm : Measurable fun t : ℝ => pt x d t := by simp only [pt_eq]; fun_prop
  have ham0 : Measurable (acc A L x) := (acc_meas hu hL).of_uncurry_left
  have ham : Measurable fun t : ℝ => acc A L x (pt x d t) := ham0.comp hpm
  have hGm : Measurable G := by
    rw [hG]; exact (ham.mul (hΨ.comp hpm)).add ((measurable_const.sub ham).mul measurable_const)
  have h1 : ∀ u ∈ Set.Icc (0 : ℝ) 1, ∫⁻ v in Set.Icc (0 : ℝ) 1, Ψ (zonoStep A L (stAt A L x) ⟨d, u, v⟩) = G (m + (M - m) * u) := by
    intro u hu1
    obtain ⟨y, hy⟩ : ∃ y, y = pt x d (m + (M - m) * u) := ⟨_, rfl⟩
    have hyv : ∀ v, zonoPoint L x ⟨d, u, v⟩ = y := by
      intro v; rw [hy, hm, hM]; rfl
    have hyZ : y ∈ Zono A := by
      rw [hy, section_eq hL hd hx, ← hm, ← hM]
      constructor <;> nlinarith [hu1.1, hu1.2]
    have h2 : ∀ v ∈ Set.Icc (0 : ℝ) 1, Ψ (zonoStep A L (stAt A L x) ⟨d, u, v⟩) =
        if v < wR A L y / wR A L x then onPts A L Ψ y else onPts A L Ψ x := by
      intro v hv1
      rw [step_eq hu hL hw (by rw [hyv]; exact hyZ), hyv]
      have ex : onPts A L Ψ x = Ψ (stAt A L x) := if_pos hw
      by_cases h0 : 0 < wR A L y
      · have ey : onPts A L Ψ y = Ψ (stAt A L y) := if_pos h0
        rw [ex, ey]
        by_cases hv : v < wR A L y / wR A L x
        · rw [if_pos ⟨h0, hv⟩, if_pos hv]
        · rw [if_neg fun h => hv h.2, if_neg hv]
      · have h00 : wR A L y = 0 := le_antisymm (not_lt.1 h0) (wR_nonneg y)
        rw [if_neg fun h => h0 h.1, h00, zero_div, if_neg (not_lt.2 hv1.1), ex]
    rw [setLIntegral_congr_fun measurableSet_Icc h2, accept_lintegral (div_nonneg (wR_nonneg _) hw.le), hG]
    simp only
    rw [← hy, acc, wE, wE, ENNReal.ofReal_div_of_pos hw]
  rw [setLIntegral_congr_fun measurableSet_Icc h1, segment_lintegral hlt hGm, hop, len_eq hL hd hx, ← hm, ← hM]
  congr 1
  rw [← lintegral_indicator measurableSet_Icc]
  refine lintegral_congr fun t => ?_
  by_cases ht : pt x d t ∈ Zono A
  · rw [Set.indicator_of_mem ht, Set.indicator_of_mem (by rw [hm, hM]; exact Set.mem_Icc.2 ((section_eq hL hd hx t).1 ht)), hG]
    simp
  · rw [Set.indicator_of_notMem ht, Set.indicator_of_notMem, zero_mul]
    intro h2
    rw [hm, hM] at h2
    exact ht ((section_eq hL hd hx t).2 h2)

/-- one iteration keeps the weight -/
theorem step_inv (hu : UniqueOptimum A c) (hL : LpExact A c L) {Ψ : ZSt N r → ℝ≥0∞} (hΨ : Measurable (onPts A L Ψ))
    {γ : Measure (Fin r → ℝ)} [IsProbabilityMeasure γ] (hγ : γ {0} = 0) :
    Measurable (onPts A L (stepE A L γ Ψ)) ∧
      ∫⁻ x, wE A L x * onPts A L (stepE A L γ Ψ) x = ∫⁻ x, wE A L x * onPts A L Ψ x := by
  classical
  have hne : ∀ᵐ d ∂γ, d ≠ 0 := by
    rw [ae_iff]; simpa using hγ
  have h1 : ∀ x, 0 < wR A L x → onPts A L (stepE A L γ Ψ) x = ∫⁻ d, hop (Zono A) (acc A L) (onPts A L Ψ) x d ∂γ := by
    intro x hw
    rw [onPts, if_pos hw, stepE]
    exact lintegral_congr_ae (hne.mono fun d hd => step_hop hu hL hΨ hd hw)
  have h2 : onPts A L (stepE A L γ Ψ) = {x | 0 < wR A L x}.indicator fun x => ∫⁻ d, hop (Zono A) (acc A L) (onPts A L Ψ) x d ∂γ := by
    funext x
    by_cases hw : 0 < wR A L x
    · rw [Set.indicator_of_mem (by exact hw), h1 x hw]
    · rw [Set.indicator_of_notMem (by exact hw), onPts, if_neg hw]
  constructor
  · rw [h2]
    exact (hop_random_meas zono_meas (acc_meas hu hL) hΨ).indicator (wpos_meas hu hL)
  · rw [← hop_inv_random (γ := γ) zono_meas (wE_meas hu hL) (fun x hx => ((wR_pos_iff hu hL).1 (wE_ne_zero.1 hx)).1)
      (acc_meas hu hL) acc_le acc_bal hΨ]
    · refine lintegral_congr fun x => ?_
      by_cases hw : 0 < wR A L x
      · rw [h1 x hw]
      · have : wE A L x = 0 := not_not.1 fun h => hw (wE_ne_zero.1 h)
        rw [this, zero_mul, zero_mul]
    · refine hne.mono fun d hd x hx => ?_
      have hw := wE_ne_zero.1 hx
      rw [len_eq hL hd ((wR_pos_iff hu hL).1 hw).1]
      refine ⟨?_, ENNReal.ofReal_ne_top⟩
      rw [Ne, ENNReal.ofReal_eq_zero, not_le]
      exact sub_pos.2 (seg_lt hu hL hd hw)

/-- weight of the points of a tile -/
theorem tile_mass (hu : UniqueOptimum A c) (hL : LpExact A c L) {T : Finset (Fin N)} (hT : T.card = r) :
    ∫⁻ x, wE A L x * onPts A L (fun s => open Classical in if s.B.toFinset = T then 1 else 0) x
      = ENNReal.ofReal (minor (Aᵀ * A) T * (1 - 2 * zEps) ^ r) := by
  classical
  have he : 0 ≤ 1 - 2 * zEps := by unfold zEps; norm_num
  by_cases hdet : (cols A (ec T hT)).det = 0
  · rw [gram_det hT, hdet]
    have : ∀ x, wE A L x * onPts A L (fun s => if s.B.toFinset = T then 1 else 0) x = 0 := by
      intro x
      by_cases hw : 0 < wR A L x
      · rw [onPts, if_pos hw, if_neg, mul_zero]
        intro h
        change (extractBasis zEps (L.lp x)).toFinset = T at h
        have h2 := wR_pos_iff hu hL |>.1 hw
        rw [wR, if_pos h2.1, extract_eq_tl, h, detCols_tl hT, hdet, abs_zero] at hw
        exact lt_irrefl _ hw
      · rw [onPts, if_neg hw, mul_zero]
    simp only [this]
    simp
  · have : ∀ x, wE A L x * onPts A L (fun s => if s.B.toFinset = T then 1 else 0) x =
        (tile A c T hT).indicator (fun _ => ENNReal.ofReal |(cols A (ec T hT)).det|) x := by
      intro x
      by_cases hx : x ∈ tile A c T hT
      · have hw := (wR_pos_tile hu hL).2 ⟨T, hT, hdet, hx⟩
        rw [Set.indicator_of_mem hx, wE, wR_tile hu hL hT hdet hx, onPts, if_pos hw, if_pos, mul_one]
        exact ((mem_tile_iff hu hL hdet).2 hx).2
      · rw [Set.indicator_of_notMem hx]
        by_cases hw : 0 < wR A L x
        · rw [onPts, if_pos hw, if_neg, mul_zero]
          intro h
          exact hx ((mem_tile_iff hu hL hdet).1 ⟨((wR_pos_iff hu hL).1 hw).1, h⟩)
        · rw [onPts, if_neg hw, mul_zero]
    simp only [this]
    rw [lintegral_indicator_const tile_open.measurableSet, tile_volume hdet, ← mul_assoc, ← ENNReal.ofReal_mul (abs_nonneg _),
      abs_mul_abs_self, ← ENNReal.ofReal_pow he, ← ENNReal.ofReal_mul (mul_self_nonneg _), gram_det hT, pow_two]

/-- total weight -/
theorem total_mass (hu : UniqueOptimum A c) (hL : LpExact A c L) :
    ∫⁻ x, wE A L x = ENNReal.ofReal ((∑ T ∈ (Finset.univ : Finset (Fin N)).powersetCard r, minor (Aᵀ * A) T) * (1 - 2 * zEps) ^ r) := by
  classical
  have he : 0 ≤ 1 - 2 * zEps := by unfold zEps; norm_num
  have h1 : ∀ x, wE A L x = ∑ T ∈ (Finset.univ : Finset (Fin N)).powersetCard r,
      wE A L x * onPts A L (fun s => if s.B.toFinset = T then 1 else 0) x := by
    intro x
    rw [← Finset.mul_sum]
    by_cases hw : 0 < wR A L x
    · have hl := ((wR_pos_iff hu hL).1 hw).2
      rw [Finset.sum_eq_single (extractBasis zEps (L.lp x)).toFinset, onPts, if_pos hw, if_pos (by rfl), mul_one]
      · intro T _ hT
        rw [onPts, if_pos hw, if_neg fun h => hT h.symm]
      · intro h
        refine absurd (Finset.mem_powersetCard.2 ⟨Finset.subset_univ _, ?_⟩) h
        rw [List.toFinset_card_of_nodup (extractBasis_sorted.imp fun h => h.ne), hl]
    · have : wE A L x = 0 := not_not.1 fun h => hw (wE_ne_zero.1 h)
      rw [this, zero_mul]
  rw [lintegral_congr h1, lintegral_finsetSum]
  · rw [Finset.sum_mul, ENNReal.ofReal_sum_of_nonneg]
    · exact Finset.sum_congr rfl fun T hT => tile_mass hu hL (Finset.mem_powersetCard.1 hT).2
    · intro T hT
      rw [gram_det (Finset.mem_powersetCard.1 hT).2]
      positivity
  · intro T _
    exact (wE_meas hu hL).mul (tile_fun_meas hu hL fun S => if S = T then 1 else 0)

end Verif.Lemmas.ZonoTiles
