import Verif.Model.PolyPotential
import Mathlib.Analysis.Convex.Function
import Mathlib.MeasureTheory.Function.JacobianOneDim
import Mathlib.MeasureTheory.Measure.Lebesgue.Basic
import Mathlib.Analysis.SpecialFunctions.Log.Deriv
import Mathlib.MeasureTheory.Constructions.BorelSpace.Real
import Mathlib.Tactic.LinearCombination

/-!
The dominating function of the exact sampler, and the law of its proposals.
-/

namespace Verif.Lemmas
open Verif Verif.Model MeasureTheory Set

theorem conc3 {D : Set ℝ} {f : ℝ → ℝ} (hc : ConcaveOn ℝ D f) {p q r : ℝ} (hp : p ∈ D) (hr : r ∈ D) (h1 : p ≤ q)
    (h2 : q ≤ r) : (r - q) * f p + (q - p) * f r ≤ (r - p) * f q := by
  rcases eq_or_lt_of_le (h1.trans h2) with h | h
  · have e1 : p = q := le_antisymm h1 (h ▸ h2)
    have e2 : q = r := le_antisymm h2 (h ▸ h1)
    subst e1; subst e2; simp
  · have hd : 0 < r - p := by linarith
    have := hc.2 hp hr (div_nonneg (by linarith : 0 ≤ r - q) hd.le) (div_nonneg (by linarith : 0 ≤ q - p) hd.le)
      (by field_simp; ring)
    have e : ((r - q) / (r - p)) • p + ((q - p) / (r - p)) • r = q := by
      simp only [smul_eq_mul]; field_simp; ring
    rw [e] at this
    simp only [smul_eq_mul] at this
    have h3 := mul_le_mul_of_nonneg_left this hd.le
    have h4 : (r - p) * ((r - q) / (r - p) * f p + (q - p) / (r - p) * f r) = (r - q) * f p + (q - p) * f r := by
      field_simp
    rw [h4] at h3
    exact h3

/-- the dominating function dominates -/
theorem logf_le_logh {s : DevSt} {D : Set ℝ} (hc : ConcaveOn ℝ D s.logf) (h0 : (0 : ℝ) ∈ D)
    (hmax : ∀ x ∈ D, s.logf x ≤ s.logf 0) (hb : s.b < 0) (ha : 0 < s.a) (h2a : 2 * s.a ∈ D) (h2b : 2 * s.b ∈ D)
    {x : ℝ} (hx : x ∈ D) : s.logf x ≤ s.logh x := by
  have hD := hc.1
  have haD : s.a ∈ D := by
    have := hD h0 h2a (a := 1 / 2) (b := 1 / 2) (by norm_num) (by norm_num) (by norm_num)
    simpa using this
  have hbD : s.b ∈ D := by
    have := hD h0 h2b (a := 1 / 2) (b := 1 / 2) (by norm_num) (by norm_num) (by norm_num)
    simpa using this
  rw [DevSt.logh]
  split
  · rename_i h
    have h3 := conc3 hc hx hbD h.le (by linarith : 2 * s.b ≤ s.b)
    rw [DevSt.fb2b]
    have hne : s.b ≠ 0 := hb.ne
    have e : -s.b * ((s.b - x) * ((s.logf s.b - s.logf (2 * s.b)) / s.b) + s.logf s.b)
        = (s.b - x) * s.logf (2 * s.b) - (2 * s.b - x) * s.logf s.b := by
      field_simp; ring
    nlinarith
  · split
    · rename_i h1 h
      have h3 := conc3 hc hx h0 h.le hb.le
      have h4 := hmax _ hbD
      nlinarith
    · split
      · exact hmax x hx
      · split
        · rename_i h1 h2 h3 h4
          push Not at h3
          have h5 := conc3 hc h0 hx ha.le h3
          have h6 := hmax _ haD
          nlinarith
        · rename_i h1 h2 h3 h
          push Not at h
          have h5 := conc3 hc haD hx (by linarith : s.a ≤ 2 * s.a) h
          rw [DevSt.fa2a]
          have hne : s.a ≠ 0 := ha.ne'
          have e : s.a * ((s.a - x) * ((s.logf s.a - s.logf (2 * s.a)) / s.a) + s.logf s.a)
              = (x - s.a) * s.logf (2 * s.a) - (x - 2 * s.a) * s.logf s.a := by
            field_simp; ring
          nlinarith

/-- one region: the proposal of the region pushes the uniform law to the dominating function -/
theorem region_law {s : DevSt} {f f' g : ℝ → ℝ} {R : Set ℝ} {w : ℝ}
    (hder : ∀ u ∈ Ioo (0 : ℝ) 1, HasDerivAt f (f' u) u)
    (hf : ∀ u ∈ Ioo (0 : ℝ) 1, f u ∈ R ∧ g (f u) = u) (hg : ∀ x ∈ R, g x ∈ Ioo (0 : ℝ) 1 ∧ f (g x) = x)
    (hw : ∀ u ∈ Ioo (0 : ℝ) 1, |f' u| * Real.exp (s.logh (f u)) = w) (φ : ℝ → ENNReal) :
    ∫⁻ x in R, φ x * ENNReal.ofReal (Real.exp (s.logh x)) = ∫⁻ u in Ioo (0 : ℝ) 1, ENNReal.ofReal w * φ (f u) := by
  have himg : f '' Ioo 0 1 = R := by
    ext x
    constructor
    · rintro ⟨u, hu, rfl⟩; exact (hf u hu).1
    · intro hx; exact ⟨g x, (hg x hx).1, (hg x hx).2⟩
  have hinj : InjOn f (Ioo 0 1) := fun u hu v hv h => by
    rw [← (hf u hu).2, h, (hf v hv).2]
  rw [← himg, lintegral_image_eq_lintegral_abs_deriv_mul measurableSet_Ioo (fun u hu => (hder u hu).hasDerivWithinAt)
    hinj]
  refine setLIntegral_congr_fun measurableSet_Ioo fun u hu => ?_
  rw [← hw u hu, ENNReal.ofReal_mul (abs_nonneg _)]
  ring

/-- what the sampler needs of `a`, `b` and the truncation -/
structure DevOk (s : DevSt) (trunc : Option ℝ) : Prop where
  hb : s.b < 0
  ha : 0 < s.a
  fa : 0 < s.fa2a
  fb : 0 < s.fb2b
  ht : ∀ m ∈ trunc, -m < 2 * s.b

variable {s : DevSt} {trunc : Option ℝ}

theorem hasDerivAt_affine (c d u : ℝ) : HasDerivAt (fun u : ℝ => c + d * u) d u := by
  simpa using ((hasDerivAt_id u).const_mul d).const_add c

theorem region0 (h : DevOk s trunc) (φ : ℝ → ENNReal) :
    ∫⁻ x in Ioo s.b s.a, φ x * ENNReal.ofReal (Real.exp (s.logh x))
      = ∫⁻ u in Ioo (0 : ℝ) 1, ENNReal.ofReal ((s.a + |s.b|) * Real.exp (s.logf 0)) * φ (s.propose trunc u 0) := by
  have hb := h.hb; have ha := h.ha
  have hd : 0 < s.a - s.b := by linarith
  refine region_law (f := fun u => s.b + (s.a - s.b) * u) (f' := fun _ => s.a - s.b)
    (g := fun x => (x - s.b) / (s.a - s.b)) (fun u _ => hasDerivAt_affine _ _ _) ?_ ?_ ?_ φ
  · rintro u ⟨h0, h1⟩
    refine ⟨⟨?_, ?_⟩, ?_⟩
    · nlinarith
    · nlinarith
    · field_simp; ring
  · rintro x ⟨h0, h1⟩
    refine ⟨⟨?_, ?_⟩, ?_⟩
    · exact div_pos (by linarith) hd
    · rw [div_lt_one hd]; linarith
    · field_simp; ring
  · rintro u ⟨h0, h1⟩
    have e : s.logh (s.b + (s.a - s.b) * u) = s.logf 0 := by
      rw [DevSt.logh, if_neg (by nlinarith), if_neg (by nlinarith), if_pos (by nlinarith)]
    rw [e, abs_of_pos hd, abs_of_neg hb]; ring

theorem region1 (h : DevOk s trunc) (φ : ℝ → ENNReal) :
    ∫⁻ x in Ioo s.a (2 * s.a), φ x * ENNReal.ofReal (Real.exp (s.logh x))
      = ∫⁻ u in Ioo (0 : ℝ) 1, ENNReal.ofReal (s.a * Real.exp (s.logf s.a)) * φ (s.propose trunc u 1) := by
  have hb := h.hb; have ha := h.ha
  refine region_law (f := fun u => s.a + s.a * u) (f' := fun _ => s.a)
    (g := fun x => (x - s.a) / s.a) (fun u _ => hasDerivAt_affine _ _ _) ?_ ?_ ?_ φ
  · rintro u ⟨h0, h1⟩
    refine ⟨⟨?_, ?_⟩, ?_⟩
    · nlinarith
    · nlinarith
    · field_simp; ring
  · rintro x ⟨h0, h1⟩
    refine ⟨⟨?_, ?_⟩, ?_⟩
    · exact div_pos (by linarith) ha
    · rw [div_lt_one ha]; linarith
    · field_simp; ring
  · rintro u ⟨h0, h1⟩
    have e : s.logh (s.a + s.a * u) = s.logf s.a := by
      rw [DevSt.logh, if_neg (by nlinarith), if_neg (by nlinarith), if_neg (by nlinarith), if_pos (by nlinarith)]
    rw [e, abs_of_pos ha]

theorem region2 (h : DevOk s trunc) (φ : ℝ → ENNReal) :
    ∫⁻ x in Ioo (2 * s.b) s.b, φ x * ENNReal.ofReal (Real.exp (s.logh x))
      = ∫⁻ u in Ioo (0 : ℝ) 1, ENNReal.ofReal (|s.b| * Real.exp (s.logf s.b)) * φ (s.propose trunc u 2) := by
  have hb := h.hb; have ha := h.ha
  have hb' : 0 < -s.b := by linarith
  have hne := hb.ne
  refine region_law (f := fun u => s.b + s.b * u) (f' := fun _ => s.b)
    (g := fun x => (x - s.b) / s.b) (fun u _ => hasDerivAt_affine _ _ _) ?_ ?_ ?_ φ
  · rintro u ⟨h0, h1⟩
    refine ⟨⟨?_, ?_⟩, ?_⟩
    · nlinarith
    · nlinarith
    · field_simp; ring
  · rintro x ⟨h0, h1⟩
    refine ⟨⟨?_, ?_⟩, ?_⟩
    · exact div_pos_of_neg_of_neg (by linarith) hb
    · rw [div_lt_one_of_neg hb]; linarith
    · field_simp; ring
  · rintro u ⟨h0, h1⟩
    have e : s.logh (s.b + s.b * u) = s.logf s.b := by
      rw [DevSt.logh, if_neg (by nlinarith), if_pos (by nlinarith)]
    rw [e]

theorem logh_right (h : DevOk s trunc) {x : ℝ} (hx : 2 * s.a ≤ x) :
    s.logh x = s.logf (2 * s.a) + (2 * s.a - x) / (s.a / s.fa2a) := by
  have hb := h.hb; have ha := h.ha; have hf := h.fa
  rw [DevSt.logh, if_neg (by linarith), if_neg (by linarith), if_neg (by linarith), if_neg (by linarith)]
  have : s.logf s.a = s.logf (2 * s.a) + s.fa2a := by rw [DevSt.fa2a]; ring
  rw [this]; field_simp; ring

theorem logh_left (h : DevOk s trunc) {x : ℝ} (hx : x < 2 * s.b) :
    s.logh x = s.logf (2 * s.b) + (x - 2 * s.b) / (|s.b| / s.fb2b) := by
  have hb := h.hb; have ha := h.ha; have hf := h.fb; have hne := hb.ne
  rw [DevSt.logh, if_pos hx, abs_of_neg hb]
  have : s.logf s.b = s.logf (2 * s.b) + s.fb2b := by rw [DevSt.fb2b]; ring
  rw [this]; field_simp; ring

theorem region3 (h : DevOk s trunc) (φ : ℝ → ENNReal) :
    ∫⁻ x in Ioi (2 * s.a), φ x * ENNReal.ofReal (Real.exp (s.logh x))
      = ∫⁻ u in Ioo (0 : ℝ) 1, ENNReal.ofReal (s.a / s.fa2a * Real.exp (s.logf (2 * s.a)))
          * φ (s.propose trunc u 3) := by
  have hmu : 0 < s.a / s.fa2a := div_pos h.ha h.fa
  simp only [DevSt.propose]
  have hl := fun x hx => logh_right h (x := x) hx
  generalize s.a / s.fa2a = mu at hmu hl
  have hlog : ∀ u ∈ Ioo (0 : ℝ) 1, Real.log u < 0 := fun u hu => Real.log_neg hu.1 hu.2
  refine region_law (f := fun u => 2 * s.a - mu * Real.log u) (f' := fun u => -(mu * u⁻¹))
    (g := fun x => Real.exp ((2 * s.a - x) / mu)) (fun u hu => ?_) ?_ ?_ ?_ φ
  · exact ((Real.hasDerivAt_log hu.1.ne').const_mul mu).const_sub (2 * s.a)
  · intro u hu
    have := hlog u hu
    refine ⟨?_, ?_⟩
    · simp only [mem_Ioi]; nlinarith
    · rw [show (2 * s.a - (2 * s.a - mu * Real.log u)) / mu = Real.log u by field_simp; ring, Real.exp_log hu.1]
  · intro x hx
    simp only [mem_Ioi] at hx
    refine ⟨⟨Real.exp_pos _, ?_⟩, ?_⟩
    · rw [Real.exp_lt_one_iff]; exact div_neg_of_neg_of_pos (by linarith) hmu
    · rw [Real.log_exp]; field_simp; ring
  · intro u hu
    have := hlog u hu
    rw [hl _ (by nlinarith), show (2 * s.a - (2 * s.a - mu * Real.log u)) / mu = Real.log u by field_simp; ring,
      Real.exp_add, Real.exp_log hu.1, abs_neg, abs_of_pos (mul_pos hmu (inv_pos.2 hu.1))]
    have := hu.1.ne'
    field_simp

/-- the left tail -/
def leftTail (s : DevSt) : Option ℝ → Set ℝ
  | none => Iio (2 * s.b)
  | some m => Ioo (-m) (2 * s.b)

/-- the mass of the left tail -/
noncomputable def leftMass (s : DevSt) : Option ℝ → ℝ
  | none => |s.b| / s.fb2b * Real.exp (s.logf (2 * s.b))
  | some mode => |s.b| / s.fb2b * Real.exp (s.logf (2 * s.b))
        + -|s.b| / s.fb2b * Real.exp (s.logf s.b + (1 + mode / s.b) * s.fb2b)

theorem masses_eq (s : DevSt) (trunc : Option ℝ) : s.masses trunc =
    [(s.a + |s.b|) * Real.exp (s.logf 0), s.a * Real.exp (s.logf s.a), |s.b| * Real.exp (s.logf s.b),
      s.a / s.fa2a * Real.exp (s.logf (2 * s.a)), leftMass s trunc] := by
  cases trunc <;> rfl

theorem leftMass_some (h : DevOk s (some m)) :
    leftMass s (some m) = |s.b| / s.fb2b * (1 - Real.exp (-(m + 2 * s.b) / (|s.b| / s.fb2b)))
      * Real.exp (s.logf (2 * s.b)) := by
  have hb := h.hb; have hf := h.fb; have hne := hb.ne
  rw [leftMass, abs_of_neg hb]
  have e1 : s.logf s.b = s.logf (2 * s.b) + s.fb2b := by rw [DevSt.fb2b]; ring
  have e2 : s.logf s.b + (1 + m / s.b) * s.fb2b = -(m + 2 * s.b) / (-s.b / s.fb2b) + s.logf (2 * s.b) := by
    rw [e1]; field_simp; ring
  rw [e2, Real.exp_add]
  ring

theorem region4 (h : DevOk s trunc) (φ : ℝ → ENNReal) :
    ∫⁻ x in leftTail s trunc, φ x * ENNReal.ofReal (Real.exp (s.logh x))
      = ∫⁻ u in Ioo (0 : ℝ) 1, ENNReal.ofReal (leftMass s trunc) * φ (s.propose trunc u 4) := by
  have hmu : 0 < |s.b| / s.fb2b := div_pos (abs_pos.2 h.hb.ne) h.fb
  have hl := fun x hx => logh_left h (x := x) hx
  cases trunc with
  | none =>
    simp only [DevSt.propose, leftTail, leftMass]
    generalize |s.b| / s.fb2b = mu at hmu hl
    have hlog : ∀ u ∈ Ioo (0 : ℝ) 1, Real.log (1 - u) < 0 := fun u hu =>
      Real.log_neg (by linarith [hu.2]) (by linarith [hu.1])
    refine region_law (f := fun u => 2 * s.b + mu * Real.log (1 - u)) (f' := fun u => mu * (-1 / (1 - u)))
      (g := fun x => 1 - Real.exp ((x - 2 * s.b) / mu)) (fun u hu => ?_) ?_ ?_ ?_ φ
    · have h1 : HasDerivAt (fun u : ℝ => 1 - u) (-1) u := by simpa using (hasDerivAt_id u).const_sub 1
      exact ((h1.log (by linarith [hu.2])).const_mul mu).const_add (2 * s.b)
    · intro u hu
      have := hlog u hu
      refine ⟨?_, ?_⟩
      · simp only [mem_Iio]; nlinarith
      · rw [show (2 * s.b + mu * Real.log (1 - u) - 2 * s.b) / mu = Real.log (1 - u) by field_simp; ring,
          Real.exp_log (by linarith [hu.2])]; ring
    · intro x hx
      simp only [mem_Iio] at hx
      have he : Real.exp ((x - 2 * s.b) / mu) < 1 := by
        rw [Real.exp_lt_one_iff]; exact div_neg_of_neg_of_pos (by linarith) hmu
      refine ⟨⟨by linarith, by linarith [Real.exp_pos ((x - 2 * s.b) / mu)]⟩, ?_⟩
      · rw [sub_sub_cancel, Real.log_exp]; field_simp; ring
    · intro u hu
      have := hlog u hu
      have h1 : 0 < 1 - u := by linarith [hu.2]
      rw [hl _ (by nlinarith),
        show (2 * s.b + mu * Real.log (1 - u) - 2 * s.b) / mu = Real.log (1 - u) by field_simp; ring,
        Real.exp_add, Real.exp_log h1, abs_mul, abs_of_pos hmu, abs_div, abs_neg, abs_one, abs_of_pos h1]
      have := h1.ne'
      field_simp
  | some m =>
    rw [leftMass_some h]
    simp only [DevSt.propose, leftTail]
    have hT : 0 < m + 2 * s.b := by linarith [h.ht m rfl]
    generalize |s.b| / s.fb2b = mu at hmu hl
    have hK0 : Real.exp (-(m + 2 * s.b) / mu) < 1 := by
      rw [Real.exp_lt_one_iff]; exact div_neg_of_neg_of_pos (by linarith) hmu
    have hKp := Real.exp_pos (-(m + 2 * s.b) / mu)
    have hKlog : Real.log (Real.exp (-(m + 2 * s.b) / mu)) = -(m + 2 * s.b) / mu := Real.log_exp _
    set E := Real.exp (-(m + 2 * s.b) / mu) with hE
    have hin : ∀ u ∈ Ioo (0 : ℝ) 1, E < 1 - u * (1 - E) ∧ 1 - u * (1 - E) < 1 := fun u hu =>
      ⟨by nlinarith [hu.2], by nlinarith [hu.1]⟩
    have hlog : ∀ u ∈ Ioo (0 : ℝ) 1, Real.log (1 - u * (1 - E)) < 0 := fun u hu =>
      Real.log_neg (hKp.trans (hin u hu).1) (hin u hu).2
    refine region_law (f := fun u => 2 * s.b + mu * Real.log (1 - u * (1 - E)))
      (f' := fun u => mu * (-(1 - E) / (1 - u * (1 - E))))
      (g := fun x => (1 - Real.exp ((x - 2 * s.b) / mu)) / (1 - E)) (fun u hu => ?_) ?_ ?_ ?_ φ
    · have h1 : HasDerivAt (fun u : ℝ => 1 - u * (1 - E)) (-(1 - E)) u := by
        simpa using ((hasDerivAt_id u).mul_const (1 - E)).const_sub 1
      exact ((h1.log (hKp.trans (hin u hu).1).ne').const_mul mu).const_add (2 * s.b)
    · intro u hu
      have h2 := hlog u hu
      have h3 := Real.log_lt_log hKp (hin u hu).1
      rw [hKlog, div_lt_iff₀ hmu] at h3
      refine ⟨⟨by nlinarith, by nlinarith⟩, ?_⟩
      rw [show (2 * s.b + mu * Real.log (1 - u * (1 - E)) - 2 * s.b) / mu = Real.log (1 - u * (1 - E)) by
        field_simp; ring, Real.exp_log (hKp.trans (hin u hu).1)]
      have : (1 - E) ≠ 0 := by linarith
      field_simp; ring
    · rintro x ⟨hx1, hx2⟩
      have he : Real.exp ((x - 2 * s.b) / mu) < 1 := by
        rw [Real.exp_lt_one_iff]; exact div_neg_of_neg_of_pos (by linarith) hmu
      have he2 : E < Real.exp ((x - 2 * s.b) / mu) := by
        rw [hE, Real.exp_lt_exp]
        exact div_lt_div_of_pos_right (by linarith) hmu
      have hE1 : 0 < 1 - E := by linarith
      refine ⟨⟨div_pos (by linarith) hE1, by rw [div_lt_one hE1]; linarith⟩, ?_⟩
      rw [div_mul_cancel₀ _ hE1.ne', sub_sub_cancel, Real.log_exp]; field_simp; ring
    · intro u hu
      have := hlog u hu
      have h1 : 0 < 1 - u * (1 - E) := hKp.trans (hin u hu).1
      rw [hl _ (by nlinarith), show (2 * s.b + mu * Real.log (1 - u * (1 - E)) - 2 * s.b) / mu
        = Real.log (1 - u * (1 - E)) by field_simp; ring,
        Real.exp_add, Real.exp_log h1, abs_mul, abs_of_pos hmu, abs_div, abs_neg, abs_of_pos h1,
        abs_of_pos (by linarith : 0 < 1 - E)]
      generalize 1 - u * (1 - E) = v at h1
      have := h1.ne'
      field_simp

end Verif.Lemmas
