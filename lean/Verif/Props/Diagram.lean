import Verif.Lemmas.Diag2
import Verif.Lemmas.Diag3
import Verif.Props.Plancherel

/-!
C100: what `plot_diagram` draws.  C101: the limit shape.
-/

set_option linter.unusedVariables false

namespace Verif.Props
open Verif Verif.Model Verif.Spec Verif.Lemmas
open scoped NNReal

/-- The magnification: `1 / √theta` under normalization. -/
noncomputable def plotScale (theta : ℝ) (normalization : Bool) : ℝ := if normalization then 1 / √theta else 1

theorem normalise_eq (theta : ℝ) (normalization : Bool) (x : ℝ) :
    normalise theta normalization x = plotScale theta normalization * x := by
  unfold normalise plotScale
  cases normalization
  · simp
  · simp only [if_true]
    ring

theorem plotScale_nonneg (theta : ℝ) (normalization : Bool) : 0 ≤ plotScale theta normalization := by
  unfold plotScale
  split_ifs <;> positivity

theorem segment_wedge_right {w : ℝ} (hw : 0 ≤ w) (p : ℝ × ℝ) : p ∈ segment ℝ ((0, 0) : ℝ × ℝ) (w, w) ↔ 0 ≤ p.1 ∧ p.1 ≤ w ∧ p.2 = p.1 := by
  constructor
  · rintro ⟨s, t, hs, ht, hst, rfl⟩
    simp
    exact ⟨by positivity, by nlinarith⟩
  · rintro ⟨h0, h1, h2⟩
    rcases hw.eq_or_lt with rfl | hw
    · have : p.1 = 0 := le_antisymm h1 h0
      refine ⟨1, 0, by norm_num, by norm_num, by norm_num, ?_⟩
      ext <;> simp [this, h2]
    · refine ⟨1 - p.1 / w, p.1 / w, ?_, by positivity, by ring, ?_⟩
      · rw [sub_nonneg, div_le_one hw]
        exact h1
      · ext
        · simp
          field_simp
        · simp [h2]
          field_simp

theorem segment_wedge_left {w : ℝ} (hw : 0 ≤ w) (p : ℝ × ℝ) :
    p ∈ segment ℝ ((-w, w) : ℝ × ℝ) (0, 0) ↔ p.1 ≤ 0 ∧ -w ≤ p.1 ∧ p.2 = -p.1 := by
  constructor
  · rintro ⟨s, t, hs, ht, hst, rfl⟩
    simp
    exact ⟨by positivity, by nlinarith⟩
  · rintro ⟨h0, h1, h2⟩
    rcases hw.eq_or_lt with rfl | hw
    · have : p.1 = 0 := le_antisymm h0 (by linarith)
      refine ⟨1, 0, by norm_num, by norm_num, by norm_num, ?_⟩
      ext <;> simp [this, h2]
    · refine ⟨-p.1 / w, 1 - -p.1 / w, div_nonneg (by linarith) hw.le, ?_, by ring, ?_⟩
      · rw [sub_nonneg, div_le_one hw]
        linarith
      · ext
        · simp
          field_simp
        · simp [h2]
          field_simp

theorem polyline_eq {w : ℝ} (hw : 0 ≤ w) :
    unionSegments (List.zip [(-w, w), (0, 0), (w, w)] [((0 : ℝ), (0 : ℝ)), (w, w)]) = wedgeSet w := by
  ext p
  simp only [unionSegments, wedgeSet, Set.mem_ofPred_eq, List.zip_cons_cons, List.zip_nil_right, List.mem_cons, List.not_mem_nil, or_false]
  constructor
  · rintro ⟨s, rfl | rfl, hp⟩
    · obtain ⟨h0, h1, h2⟩ := (segment_wedge_left hw p).1 hp
      rw [abs_of_nonpos h0]
      exact ⟨by linarith, h2⟩
    · obtain ⟨h0, h1, h2⟩ := (segment_wedge_right hw p).1 hp
      rw [abs_of_nonneg h0]
      exact ⟨by linarith, h2⟩
  · rintro ⟨h1, h2⟩
    rcases le_total 0 p.1 with h | h
    · rw [abs_of_nonneg h] at h1 h2
      exact ⟨_, Or.inr rfl, (segment_wedge_right hw p).2 ⟨h, h1, h2⟩⟩
    · rw [abs_of_nonpos h] at h1 h2
      exact ⟨_, Or.inl rfl, (segment_wedge_left hw p).2 ⟨h, by linarith, h2⟩⟩

/-- C100: after a sample with a nonempty Young diagram `lam`, `plot_diagram` succeeds, and what it draws in black is exactly the
outlines of the boxes of `lam` in the Russian convention together with the wedge `v = |u|`, all magnified by `1 / √theta` when
`normalization=True`; the wedge extends 10% beyond the diagram and the sample is magnified by the same factor.  Under
normalization the limit shape is drawn on the range of the wedge, and otherwise it is not drawn. -/
theorem C100_plot_boxes (theta : ℝ) (normalization : Bool) (hist : List (List ℕ × List ℚ)) (lam : List ℕ) (sampl : List ℚ)
    (hlast : hist.getLast? = some (lam, sampl)) (hp : IsPartition lam) (hne : lam ≠ []) :
    ∃ d, plotDiagram theta normalization hist = .ok d
      ∧ unionSegments d.segments ∪ unionSegments (List.zip d.wedge d.wedge.tail)
          = boxesOutline (plotScale theta normalization) lam
            ∪ wedgeSet (plotScale theta normalization * (11 / 10 * max (lam.length : ℝ) (lam.head hne)))
      ∧ d.sample = sampl.map (fun s : ℚ => plotScale theta normalization * (s : ℝ))
      ∧ (∀ p ∈ d.curve, |p.1| ≤ plotScale theta normalization * (11 / 10 * max (lam.length : ℝ) (lam.head hne))
          ∧ p.2 = limitShape p.1)
      ∧ d.curve.length = if normalization then 100 else 0 := by
  obtain ⟨first, hf⟩ : ∃ f, lam.head? = some f := ⟨_, List.head?_eq_some_head hne⟩
  obtain ⟨last, hl⟩ : ∃ f, lam.getLast? = some f := ⟨_, List.getLast?_eq_some_getLast hne⟩
  have hfe : lam.head hne = first := by
    rw [List.head?_eq_some_head hne] at hf
    simpa using hf
  have hxy : xyYoungRu lam = .ok ((List.zip (youngX lam last) (youngY lam last)).map rot45) := by
    rw [xyYoungRu, hl]
  have hc := plotScale_nonneg theta normalization
  obtain ⟨w, hw⟩ : ∃ w, w = plotScale theta normalization * (11 / 10 * max (lam.length : ℝ) (first : ℝ)) := ⟨_, rfl⟩
  have hw0 : 0 ≤ w := by rw [hw]; positivity
  have hwn : normalise theta normalization (11 / 10 * (max lam.length first : ℕ)) = w := by
    rw [normalise_eq, hw, Nat.cast_max]
  have hplot : plotDiagram theta normalization hist = drawDiagram theta normalization lam first sampl := by
    rw [plotDiagram, hlast]
    simp only [hf]
  rw [hplot, drawDiagram, hxy]
  simp only [hwn]
  refine ⟨_, rfl, ?_, ?_, ?_, ?_⟩
  · rw [hfe, ← hw]
    change unionSegments _ ∪ unionSegments (List.zip [(-w, w), (0, 0), (w, w)] [((0 : ℝ), (0 : ℝ)), (w, w)]) = _
    rw [polyline_eq hw0]
    have e : (((List.zip (youngX lam last) (youngY lam last)).map rot45).map fun p : ℝ × ℝ =>
        (normalise theta normalization p.1, normalise theta normalization p.2))
        = (List.zip (youngX lam last) (youngY lam last)).map (Diag.pt (plotScale theta normalization)) := by
      rw [List.map_map]
      refine List.map_congr_left fun p _ => ?_
      simp only [Function.comp, normalise_eq, rot45, Diag.pt, russian, Prod.smul_mk, smul_eq_mul]
      refine Prod.ext ?_ ?_
      · dsimp only
        ring
      · dsimp only
        ring
    rw [e]
    refine Diag.union_eq hp hf hl hc ?_ ?_
    · rw [hw]
      refine mul_le_mul_of_nonneg_left ?_ hc
      have h1 := le_max_left (lam.length : ℝ) (first : ℝ)
      have h2 : (0 : ℝ) ≤ lam.length := by positivity
      linarith
    · rw [hw]
      refine mul_le_mul_of_nonneg_left ?_ hc
      have h1 := le_max_right (lam.length : ℝ) (first : ℝ)
      have h2 : (0 : ℝ) ≤ first := by positivity
      linarith
  · exact List.map_congr_left fun s _ => normalise_eq _ _ _
  · rw [hfe, ← hw]
    intro p hpc
    cases normalization
    · simp at hpc
    · simp only [if_true, List.mem_map, linspace100, List.mem_range] at hpc
      obtain ⟨x, ⟨k, hk, rfl⟩, rfl⟩ := hpc
      refine ⟨?_, rfl⟩
      have hk' : (k : ℝ) ≤ 99 := by exact_mod_cast (by omega : k ≤ 99)
      have hk0 : (0 : ℝ) ≤ k := by positivity
      rw [abs_le]
      constructor
      · have : 0 ≤ (k : ℝ) * ((w - -w) / 99) := by
          have : 0 ≤ w - -w := by linarith
          positivity
        linarith
      · have : (k : ℝ) * ((w - -w) / 99) ≤ 99 * ((w - -w) / 99) := by
          gcongr
          linarith
        linarith
  · cases normalization <;> simp [linspace100]

/-- C100: the recorded sample is the set of projections onto the real line of (the midpoints of) the descending edges of the
surface of the recorded diagram, which is a partition. -/
theorem C100_sample_projection (sigma : List ℕ) (lam : List ℕ) (sampl : List ℚ) (h : plancherelOf sigma = some (lam, sampl)) :
    IsPartition lam ∧ (∀ A B, DescendingEdge lam A B → B.1 = A.1 + 1 ∧ B.2 = A.2 - 1)
      ∧ ∀ r : ℚ, r ∈ sampl ↔ ∃ A B, DescendingEdge lam A B ∧ (r : ℝ) = (A.1 + B.1) / 2 := by
  obtain ⟨P, Q, e, h1, h2, -⟩ := rsk_spec' sigma
  rw [plancherelOf, e] at h
  obtain ⟨rfl, rfl⟩ : P.map List.length = lam ∧ _ = sampl := by simpa using h
  refine ⟨h2.shape, ?_, ?_⟩
  · rintro A B ⟨i, j, -, -, rfl, rfl⟩
    simp only [russian]
    constructor <;> ring
  · have hpos := h2.shape.1
    change ∀ k ∈ P.map List.length, 0 < k at hpos
    generalize P.map List.length = lam at *
    intro r
    rw [List.mem_iff_getElem]
    simp only [List.length_mapIdx, List.getElem_mapIdx]
    constructor
    · rintro ⟨i, hi, rfl⟩
      have hp := hpos _ (List.getElem_mem hi)
      refine ⟨_, _, ⟨i, lam[i] - 1, ⟨hi, by omega⟩, ?_, rfl, rfl⟩, ?_⟩
      · rintro ⟨_, hh⟩
        omega
      · simp only [russian]
        push_cast [Nat.cast_sub (show 1 ≤ lam[i] from hp)]
        ring
    · rintro ⟨A, B, ⟨i, j, ⟨hi, hj⟩, hn, rfl, rfl⟩, hr⟩
      refine ⟨i, hi, ?_⟩
      have : lam[i] = j + 1 := by
        by_contra hne
        exact hn ⟨hi, by omega⟩
      have hr2 : (r : ℝ) = ((((j + 1 : ℕ) : ℚ) - ((i : ℚ) + 1 / 2) : ℚ) : ℝ) := by
        rw [hr]
        simp only [russian]
        push_cast
        ring
      rw [this]
      have hr3 : r = ((j + 1 : ℕ) : ℚ) - ((i : ℚ) + 1 / 2) := by exact_mod_cast hr2
      rw [hr3]
      norm_num

theorem numSYT_nil : numSYT [] = 1 := by
  rw [numSYT, Nat.card_eq_one_iff_unique]
  refine ⟨⟨fun a b => Subtype.ext ?_⟩, ⟨⟨[], ⟨⟨by simp [shape], by simp [shape]⟩, by simp, ?_, by simp⟩, rfl⟩⟩⟩
  · have ha : a.1 = [] := by simpa [shape] using a.2.2
    have hb : b.1 = [] := by simpa [shape] using b.2.2
    rw [ha, hb]
  · intro i j a b h
    simp at h

/-- C100 (refuted part): "`plot_diagram` can be called after every successful `sample`" is false: whatever the object recorded
before, the call raises an `IndexError` when the last diagram is empty, and `sample` records the empty diagram with probability
`exp(-theta) > 0`. -/
theorem C100_plot_refuted :
    (∀ (theta : ℝ) (normalization : Bool) (hist : List (List ℕ × List ℚ)) (sampl : List ℚ),
      plotDiagram theta normalization (hist ++ [([], sampl)]) = .raise .indexError)
    ∧ ∀ theta : ℝ≥0, PP (plancherelSample theta) (fun o => ∃ sampl, o = some ([], sampl)) = ENNReal.ofReal (Real.exp (-theta)) := by
  refine ⟨fun theta normalization hist sampl => ?_, fun theta => ?_⟩
  · simp [plotDiagram]
  · rw [C95_poissonized_plancherel_law, numSYT_nil]
    simp

/-- C100: the only other failure of `plot_diagram` is a call before any sample. -/
theorem C100_plot_no_sample (theta : ℝ) (normalization : Bool) : plotDiagram theta normalization [] = .raise .indexError := rfl

/-- A concrete case: the diagram `(3, 1)` of two rows, recorded after another one. -/
example : IsPartition [3, 1] ∧ IsCell [3, 1] 0 2 ∧ ¬ IsCell [3, 1] 1 1 := by
  refine ⟨⟨by decide, by decide⟩, ⟨by decide, by decide⟩, ?_⟩
  rintro ⟨h, hh⟩
  simp at hh

/-- A concrete case: the permutation `[1, 0]` gives the diagram `(1, 1)`. -/
example : plancherelOf [1, 0] = some ([1, 1], [1 / 2, -1 / 2]) := by decide +kernel

/-- C101: `limit_shape` is the function of the documentation for every float: `|x|` outside `[-2, 2]` and
`2/π (x arcsin(x/2) + √(4 - x²))` inside; it is even, lies above the wedge `|x|`, its slope is `2/π arcsin(x/2)` at every point
(`arcsin` extended by `± π/2`), it is 1-Lipschitz, as the outlines of Young diagrams are, and the area between it and the wedge is
`2`, the area of `theta` boxes of the diagram normalised by `√theta` (each of area `2 / theta`). -/
theorem C101_limit_shape :
    (∀ x, limitShape x = if 2 ≤ |x| then |x| else 2 / Real.pi * (x * Real.arcsin (x / 2) + √(4 - x ^ 2)))
      ∧ (∀ x, limitShape (-x) = limitShape x) ∧ (∀ x, |x| ≤ limitShape x)
      ∧ (∀ x, HasDerivAt limitShape (2 / Real.pi * Real.arcsin (x / 2)) x) ∧ LipschitzWith 1 limitShape
      ∧ MeasureTheory.Integrable (fun x => limitShape x - |x|) ∧ ∫ x, (limitShape x - |x|) = 2 := by
  have e : limitShape = Diag.shapeF := funext Diag.limitShape_eq
  refine ⟨fun x => ?_, fun x => ?_, fun x => ?_, fun x => ?_, ?_, ?_, ?_⟩
  · rw [e]
    split_ifs with h
    · exact Diag.shapeF_of_ge h
    · rw [Diag.shapeF]
      ring
  · rw [e]; exact Diag.shapeF_neg x
  · rw [e]; exact Diag.abs_le_shapeF x
  · rw [e]; exact Diag.hasDerivAt_shapeF x
  · rw [e]; exact Diag.shapeF_lipschitz
  · rw [e]; exact Diag.integral_shape.1
  · rw [e]; exact Diag.integral_shape.2

/-- C101 at a concrete point: the top of the limit shape. -/
example : limitShape 0 = 4 / Real.pi := by
  rw [C101_limit_shape.1 0, if_neg (by norm_num)]
  have : √(4 - 0 ^ 2 : ℝ) = 2 := by rw [show (4 - 0 ^ 2 : ℝ) = 2 ^ 2 by norm_num, Real.sqrt_sq (by norm_num)]
  rw [this]
  ring

end Verif.Props
