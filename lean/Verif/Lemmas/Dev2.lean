import Verif.Lemmas.Dev
import Verif.Spec.PolyPotential
import Mathlib.MeasureTheory.Measure.Lebesgue.Basic
import Mathlib.MeasureTheory.Constructions.BorelSpace.Order
import Mathlib.MeasureTheory.Function.SpecialFunctions.Basic

/-!
The law of the proposals, of one round, and of the loop of the exact sampler.
-/

namespace Verif.Lemmas
open Verif Verif.Model Verif.Spec MeasureTheory Set

theorem lint_Ioc_split {p q r : ℝ} (h1 : p ≤ q) (h2 : q ≤ r) (f : ℝ → ENNReal) :
    (∫⁻ x in Ioc p r, f x) = (∫⁻ x in Ioc p q, f x) + (∫⁻ x in Ioc q r, f x) := by
  rw [← Ioc_union_Ioc_eq_Ioc h1 h2, lintegral_union measurableSet_Ioc]
  rw [Set.disjoint_left]
  intro x hx hx'
  exact absurd hx.2 (not_le.2 hx'.1)

theorem lint_Ioi_split {p q : ℝ} (h1 : p ≤ q) (f : ℝ → ENNReal) :
    (∫⁻ x in Ioi p, f x) = (∫⁻ x in Ioc p q, f x) + (∫⁻ x in Ioi q, f x) := by
  rw [← Ioc_union_Ioi_eq_Ioi h1, lintegral_union measurableSet_Ioi]
  rw [Set.disjoint_left]
  intro x hx hx'
  exact absurd hx.2 (not_le.2 hx')

theorem lint_univ_split (q : ℝ) (f : ℝ → ENNReal) :
    (∫⁻ x, f x) = (∫⁻ x in Iic q, f x) + (∫⁻ x in Ioi q, f x) := by
  rw [← setLIntegral_univ, ← Iic_union_Ioi (a := q), lintegral_union measurableSet_Ioi]
  rw [Set.disjoint_left]
  intro x hx hx'
  exact absurd (show x ≤ q from hx) (not_le.2 hx')

theorem lint_Ioc_const {p q : ℝ} {f : ℝ → ENNReal} {c : ENNReal} (h : ∀ x ∈ Ioc p q, f x = c) :
    (∫⁻ x in Ioc p q, f x) = ENNReal.ofReal (q - p) * c := by
  rw [setLIntegral_congr_fun measurableSet_Ioc h, setLIntegral_const, Real.volume_Ioc, mul_comm]

/-- the region is chosen with probability proportional to its mass -/
theorem region_choice {w0 w1 w2 w3 w4 : ℝ} (h0 : 0 < w0) (h1 : 0 < w1) (h2 : 0 < w2) (h3 : 0 < w3) (h4 : 0 < w4)
    (G : ℕ → ENNReal) :
    ∫⁻ v in Ioo (0 : ℝ) 1, G (devRegion v [w0, w1, w2, w3, w4])
      = ENNReal.ofReal (1 / (w0 + w1 + w2 + w3 + w4))
        * (ENNReal.ofReal w0 * G 0 + ENNReal.ofReal w1 * G 1 + ENNReal.ofReal w2 * G 2 + ENNReal.ofReal w3 * G 3
          + ENNReal.ofReal w4 * G 4) := by
  set Z := w0 + w1 + w2 + w3 + w4 with hZ
  have hZp : 0 < Z := by positivity
  have hreg : ∀ v, devRegion v [w0, w1, w2, w3, w4]
      = if v * Z ≤ w0 then 0 else if v * Z ≤ w0 + w1 then 1 else if v * Z ≤ w0 + w1 + w2 then 2
        else if v * Z ≤ w0 + w1 + w2 + w3 then 3 else 4 := by
    intro v
    simp only [devRegion, List.sum_cons, List.sum_nil, List.take, hZ]
    simp only [add_zero, add_assoc]
  simp only [hreg]
  have key : ∀ {a b v : ℝ}, v ∈ Ioc (a / Z) (b / Z) ↔ a < v * Z ∧ v * Z ≤ b := by
    intro a b v
    rw [mem_Ioc, div_lt_iff₀ hZp, le_div_iff₀ hZp]
  have hle : ∀ {a b : ℝ}, a ≤ b → a / Z ≤ b / Z := fun h => div_le_div_of_nonneg_right h hZp.le
  have h01 : Ioc (0 : ℝ) 1 = Ioc (0 / Z) ((w0 + w1 + w2 + w3 + w4) / Z) := by
    rw [zero_div, ← hZ, div_self hZp.ne']
  have hw : ∀ w : ℝ, 0 < w → ∀ c : ENNReal, ENNReal.ofReal (1 / Z) * (ENNReal.ofReal w * c) = ENNReal.ofReal (w / Z) * c := by
    intro w hw c
    rw [← mul_assoc, ← ENNReal.ofReal_mul (by positivity)]
    congr 2
    ring
  rw [setLIntegral_congr Ioo_ae_eq_Ioc, h01,
    lint_Ioc_split (q := (w0 + w1 + w2 + w3) / Z) (hle (by positivity)) (hle (by linarith)),
    lint_Ioc_split (p := 0 / Z) (q := (w0 + w1 + w2) / Z) (r := (w0 + w1 + w2 + w3) / Z) (hle (by positivity))
      (hle (by linarith)),
    lint_Ioc_split (p := 0 / Z) (q := (w0 + w1) / Z) (r := (w0 + w1 + w2) / Z) (hle (by positivity)) (hle (by linarith)),
    lint_Ioc_split (p := 0 / Z) (q := w0 / Z) (r := (w0 + w1) / Z) (hle (by positivity)) (hle (by linarith))]
  rw [lint_Ioc_const (p := 0 / Z) (q := w0 / Z) (c := G 0), lint_Ioc_const (p := w0 / Z) (c := G 1),
    lint_Ioc_const (p := (w0 + w1) / Z) (c := G 2), lint_Ioc_const (p := (w0 + w1 + w2) / Z) (c := G 3),
    lint_Ioc_const (p := (w0 + w1 + w2 + w3) / Z) (c := G 4)]
  · simp only [mul_add, hw _ h0, hw _ h1, hw _ h2, hw _ h3, hw _ h4]
    congr 5 <;> · congr 1; ring
  · intro v hv; rw [key] at hv
    rw [if_neg (by linarith [hv.1]), if_neg (by linarith [hv.1]), if_neg (by linarith [hv.1]), if_neg (by linarith [hv.1])]
  · intro v hv; rw [key] at hv
    rw [if_neg (by linarith [hv.1]), if_neg (by linarith [hv.1]), if_neg (by linarith [hv.1]), if_pos (by linarith [hv.2])]
  · intro v hv; rw [key] at hv
    rw [if_neg (by linarith [hv.1]), if_neg (by linarith [hv.1]), if_pos (by linarith [hv.2])]
  · intro v hv; rw [key] at hv
    rw [if_neg (by linarith [hv.1]), if_pos (by linarith [hv.2])]
  · intro v hv; rw [key] at hv
    rw [if_pos (by linarith [hv.2])]

/-- where the target lives -/
def devDomain : Option ℝ → Set ℝ
  | none => univ
  | some m => Ioi (-m)

variable {s : DevSt} {trunc : Option ℝ}

theorem domain_split (h : DevOk s trunc) (f : ℝ → ENNReal) :
    (∫⁻ x in devDomain trunc, f x) = (∫⁻ x in Ioo s.b s.a, f x) + (∫⁻ x in Ioo s.a (2 * s.a), f x)
      + (∫⁻ x in Ioo (2 * s.b) s.b, f x) + (∫⁻ x in Ioi (2 * s.a), f x) + (∫⁻ x in leftTail s trunc, f x) := by
  have hb := h.hb; have ha := h.ha
  have e1 : (∫⁻ x in Ioi (2 * s.b), f x) = (∫⁻ x in Ioo (2 * s.b) s.b, f x) + ((∫⁻ x in Ioo s.b s.a, f x)
      + ((∫⁻ x in Ioo s.a (2 * s.a), f x) + (∫⁻ x in Ioi (2 * s.a), f x))) := by
    rw [lint_Ioi_split (q := s.b) (by linarith), lint_Ioi_split (p := s.b) (q := s.a) (by linarith),
      lint_Ioi_split (p := s.a) (q := 2 * s.a) (by linarith), setLIntegral_congr (Ioo_ae_eq_Ioc (a := 2 * s.b) (b := s.b)),
      setLIntegral_congr (Ioo_ae_eq_Ioc (a := s.b) (b := s.a)),
      setLIntegral_congr (Ioo_ae_eq_Ioc (a := s.a) (b := 2 * s.a))]
  have e2 : (∫⁻ x in devDomain trunc, f x) = (∫⁻ x in leftTail s trunc, f x) + (∫⁻ x in Ioi (2 * s.b), f x) := by
    cases trunc with
    | none =>
      simp only [devDomain, leftTail]
      rw [setLIntegral_univ, lint_univ_split (2 * s.b), setLIntegral_congr (Iio_ae_eq_Iic (a := 2 * s.b))]
    | some m =>
      simp only [devDomain, leftTail]
      rw [lint_Ioi_split (q := 2 * s.b) (h.ht m rfl).le, setLIntegral_congr (Ioo_ae_eq_Ioc (b := 2 * s.b))]
  rw [e2, e1]
  ring

theorem measurable_propose (s : DevSt) (trunc : Option ℝ) (k : ℕ) : Measurable fun u => s.propose trunc u k := by
  match k with
  | 0 => simp only [DevSt.propose]; fun_prop
  | 1 => simp only [DevSt.propose]; fun_prop
  | 2 => simp only [DevSt.propose]; fun_prop
  | 3 => simp only [DevSt.propose]; fun_prop
  | k + 4 =>
    cases trunc with
    | none => simp only [DevSt.propose]; fun_prop
    | some m => simp only [DevSt.propose]; fun_prop

theorem leftMass_pos (h : DevOk s trunc) : 0 < leftMass s trunc := by
  have hmu : 0 < |s.b| / s.fb2b := div_pos (abs_pos.2 h.hb.ne) h.fb
  cases trunc with
  | none => exact mul_pos hmu (Real.exp_pos _)
  | some m =>
    rw [leftMass_some h]
    have hT : 0 < m + 2 * s.b := by linarith [h.ht m rfl]
    have : Real.exp (-(m + 2 * s.b) / (|s.b| / s.fb2b)) < 1 := by
      rw [Real.exp_lt_one_iff]; exact div_neg_of_neg_of_pos (by linarith) hmu
    exact mul_pos (mul_pos hmu (by linarith)) (Real.exp_pos _)

theorem masses_sum_pos (h : DevOk s trunc) : 0 < (s.masses trunc).sum := by
  rw [masses_eq]
  have := leftMass_pos h
  have hb := abs_pos.2 h.hb.ne; have ha := h.ha
  have := Real.exp_pos (s.logf 0); have := Real.exp_pos (s.logf s.a); have := Real.exp_pos (s.logf s.b)
  have := Real.exp_pos (s.logf (2 * s.a)); have := div_pos ha h.fa
  simp only [List.sum_cons, List.sum_nil]
  positivity

/-- the law of the proposals: density proportional to the dominating function on the domain -/
theorem propose_law (h : DevOk s trunc) {φ : ℝ → ENNReal} (hφ : Measurable φ) :
    ∫⁻ u in Ioo (0 : ℝ) 1, ∫⁻ v in Ioo (0 : ℝ) 1, φ (s.propose trunc u (devRegion v (s.masses trunc)))
      = ENNReal.ofReal (1 / (s.masses trunc).sum)
        * ∫⁻ x in devDomain trunc, φ x * ENNReal.ofReal (Real.exp (s.logh x)) := by
  have hb := abs_pos.2 h.hb.ne; have ha := h.ha
  have m0 : 0 < (s.a + |s.b|) * Real.exp (s.logf 0) := mul_pos (by positivity) (Real.exp_pos _)
  have m1 : 0 < s.a * Real.exp (s.logf s.a) := mul_pos ha (Real.exp_pos _)
  have m2 : 0 < |s.b| * Real.exp (s.logf s.b) := mul_pos hb (Real.exp_pos _)
  have m3 : 0 < s.a / s.fa2a * Real.exp (s.logf (2 * s.a)) := mul_pos (div_pos ha h.fa) (Real.exp_pos _)
  have m4 := leftMass_pos h
  have hm : ∀ (c : ENNReal) (k : ℕ), Measurable fun u => c * φ (s.propose trunc u k) := fun c k =>
    (hφ.comp (measurable_propose s trunc k)).const_mul c
  have hc := fun u => region_choice m0 m1 m2 m3 m4 (fun k => φ (s.propose trunc u k))
  rw [domain_split h, region0 h, region1 h, region2 h, region3 h, region4 h, masses_eq, lintegral_congr hc,
    lintegral_const_mul' _ _ ENNReal.ofReal_ne_top,
    lintegral_add_right _ (hm _ _), lintegral_add_right _ (hm _ _), lintegral_add_right _ (hm _ _),
    lintegral_add_right _ (hm _ _)]
  simp only [List.sum_cons, List.sum_nil, add_zero, add_assoc]

open Classical in
theorem measurable_logh (s : DevSt) : Measurable s.logh := by
  unfold DevSt.logh
  refine Measurable.ite measurableSet_Iio (by fun_prop) ?_
  refine Measurable.ite measurableSet_Iio (by fun_prop) ?_
  refine Measurable.ite measurableSet_Iio (by fun_prop) ?_
  exact Measurable.ite measurableSet_Iio (by fun_prop) (by fun_prop)

open Classical in
/-- the acceptance test with a uniform number -/
theorem accept_law (d : ℝ) (A B : ENNReal) :
    ∫⁻ w in Ioo (0 : ℝ) 1, (if Real.log w ≤ d then A else B)
      = ENNReal.ofReal (min 1 (Real.exp d)) * A + ENNReal.ofReal (1 - min 1 (Real.exp d)) * B := by
  set m := min 1 (Real.exp d) with hm
  have hm0 : 0 ≤ m := le_min zero_le_one (Real.exp_pos d).le
  have hm1 : m ≤ 1 := min_le_left _ _
  rw [setLIntegral_congr Ioo_ae_eq_Ioc, lint_Ioc_split hm0 hm1, lint_Ioc_const (c := A), sub_zero]
  · congr 1
    rw [setLIntegral_congr (Ioo_ae_eq_Ioc (a := m) (b := 1)).symm]
    rw [setLIntegral_congr_fun measurableSet_Ioo (g := fun _ => B), setLIntegral_const, Real.volume_Ioo, mul_comm]
    rintro w ⟨h1, h2⟩
    have hw : 0 < w := hm0.trans_lt h1
    have : ¬ Real.log w ≤ d := by
      rw [not_le, Real.lt_log_iff_exp_lt hw]
      rcases min_lt_iff.1 h1 with h | h
      · linarith
      · exact h
    simp only [if_neg this]
  · rintro w ⟨h1, h2⟩
    rw [if_pos]
    rw [Real.log_le_iff_le_exp h1]
    exact h2.trans (min_le_right _ _)

theorem tapeLInt_congr (n : ℕ) {F G : List (ℝ × ℝ × ℝ) → ENNReal} (h : ∀ ts, F ts = G ts) :
    tapeLInt n F = tapeLInt n G := by
  rw [funext h]

theorem tapeLInt_const (n : ℕ) (c : ENNReal) : tapeLInt n (fun _ => c) = c := by
  induction n with
  | zero => rfl
  | succ n ih => simp [tapeLInt, ih, Real.volume_Ioo]

/-- probability of rejection in one round -/
noncomputable def rejProb (s : DevSt) (trunc : Option ℝ) : ENNReal :=
  ENNReal.ofReal (1 / (s.masses trunc).sum) * ∫⁻ x in devDomain trunc,
    ENNReal.ofReal (1 - min 1 (Real.exp (s.logf x - s.logh x))) * ENNReal.ofReal (Real.exp (s.logh x))

/-- the law of the loop, in terms of the target -/
theorem loop_law (h : DevOk s trunc) (hf : Measurable s.logf) (hdom : ∀ x ∈ devDomain trunc, s.logf x ≤ s.logh x)
    (mode : ℝ) {φ : ℝ → ENNReal} (hφ : Measurable φ) (n : ℕ) (last : ℝ) :
    tapeLInt n (fun ts => accObs φ (devLoop s mode trunc last ts))
      = (∑ k ∈ Finset.range n, rejProb s trunc ^ k) * (ENNReal.ofReal (1 / (s.masses trunc).sum)
        * ∫⁻ x in devDomain trunc, φ (x + mode) * ENNReal.ofReal (Real.exp (s.logf x))) := by
  induction n generalizing last with
  | zero => simp [tapeLInt, devLoop, accObs]
  | succ n ih =>
    set c := (∑ k ∈ Finset.range n, rejProb s trunc ^ k) * (ENNReal.ofReal (1 / (s.masses trunc).sum)
        * ∫⁻ x in devDomain trunc, φ (x + mode) * ENNReal.ofReal (Real.exp (s.logf x))) with hc
    have hstep : ∀ u v w, tapeLInt n (fun ts => accObs φ (devLoop s mode trunc last ((u, v, w) :: ts)))
        = if Real.log w ≤ s.logf (s.propose trunc u (devRegion v (s.masses trunc)))
            - s.logh (s.propose trunc u (devRegion v (s.masses trunc)))
          then φ (s.propose trunc u (devRegion v (s.masses trunc)) + mode) else c := by
      intro u v w
      split
      · rename_i hacc
        rw [tapeLInt_congr n (G := fun _ => φ (s.propose trunc u (devRegion v (s.masses trunc)) + mode)), tapeLInt_const]
        intro ts
        simp only [devLoop, if_pos hacc, accObs, if_true]
      · rename_i hacc
        rw [← ih (s.propose trunc u (devRegion v (s.masses trunc)))]
        apply tapeLInt_congr
        intro ts
        simp only [devLoop, if_neg hacc]
    simp only [tapeLInt, hstep, accept_law]
    have hlh := measurable_logh s
    have hA : Measurable fun x => ENNReal.ofReal (min 1 (Real.exp (s.logf x - s.logh x))) * φ (x + mode) := by
      have := hφ.comp (measurable_id.add_const mode)
      fun_prop
    have hB : Measurable fun x => ENNReal.ofReal (1 - min 1 (Real.exp (s.logf x - s.logh x))) * c := by
      fun_prop
    rw [propose_law h (φ := fun x => ENNReal.ofReal (min 1 (Real.exp (s.logf x - s.logh x))) * φ (x + mode)
      + ENNReal.ofReal (1 - min 1 (Real.exp (s.logf x - s.logh x))) * c) (hA.add hB)]
    simp only [add_mul]
    have hA2 : Measurable fun x => ENNReal.ofReal (min 1 (Real.exp (s.logf x - s.logh x))) * φ (x + mode)
        * ENNReal.ofReal (Real.exp (s.logh x)) := Measurable.mul hA (by fun_prop)
    rw [lintegral_add_left hA2, mul_add]
    have hD : MeasurableSet (devDomain trunc) := by
      cases trunc with
      | none => exact MeasurableSet.univ
      | some m => exact measurableSet_Ioi
    have e1 : ∫⁻ x in devDomain trunc, ENNReal.ofReal (min 1 (Real.exp (s.logf x - s.logh x))) * φ (x + mode)
          * ENNReal.ofReal (Real.exp (s.logh x))
        = ∫⁻ x in devDomain trunc, φ (x + mode) * ENNReal.ofReal (Real.exp (s.logf x)) := by
      refine setLIntegral_congr_fun hD fun x hx => ?_
      have hle := hdom x hx
      have : min 1 (Real.exp (s.logf x - s.logh x)) = Real.exp (s.logf x - s.logh x) :=
        min_eq_right (Real.exp_le_one_iff.2 (by linarith))
      simp only [this]
      rw [mul_comm (ENNReal.ofReal _) (φ _), mul_assoc, ← ENNReal.ofReal_mul (Real.exp_pos _).le, ← Real.exp_add,
        sub_add_cancel]
    have e2 : ENNReal.ofReal (1 / (s.masses trunc).sum) * (∫⁻ x in devDomain trunc,
        ENNReal.ofReal (1 - min 1 (Real.exp (s.logf x - s.logh x))) * c * ENNReal.ofReal (Real.exp (s.logh x)))
        = rejProb s trunc * c := by
      rw [rejProb, mul_assoc, ← lintegral_mul_const _ (by fun_prop)]
      congr 1
      refine lintegral_congr fun x => ?_
      ring
    rw [e1, e2, hc, Finset.sum_range_succ']
    rw [pow_zero, add_mul, one_mul, add_comm]
    congr 1
    rw [← mul_assoc, Finset.mul_sum]
    congr 1
    exact Finset.sum_congr rfl fun k _ => by rw [pow_succ, mul_comm]

end Verif.Lemmas
