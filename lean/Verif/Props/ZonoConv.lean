import Verif.Props.ZonoLaw
import Verif.Lemmas.ZonoMix
import Verif.Lemmas.ZonoGeneric

/-!
C117: the zonotope sampler converges to the projection DPP.
-/

namespace Verif.Lemmas.ZonoTiles
open Verif Verif.Spec Verif.Model Verif.Props Matrix MeasureTheory Verif.Lemmas.ZonoRev
open scoped ENNReal

variable {N r : ℕ} {A : Matrix (Fin r) (Fin N) ℝ} {c : Fin N → ℝ} {L : Lp N r}

theorem stepE_hop (hr : 0 < r) (hu : UniqueOptimum A c) (hL : LpExact A c L) {Ψ : ZSt N r → ℝ≥0∞} (hΨ : Measurable (onPts A L Ψ))
    {x : Fin r → ℝ} (hw : 0 < wR A L x) :
    stepE A L (gaussDir r) Ψ (stAt A L x) = ∫⁻ d, hop (Zono A) (acc A L) (onPts A L Ψ) x d ∂(gaussDir r) := by
  have hne : ∀ᵐ d ∂(gaussDir r), d ≠ 0 := by
    rw [ae_iff]; simpa using gauss_zero hr
  rw [stepE]
  exact lintegral_congr_ae (hne.mono fun d hd => step_hop hu hL hΨ hd hw)

theorem onPts_pos {Ψ : ZSt N r → ℝ≥0∞} {x : Fin r → ℝ} (hw : 0 < wR A L x) : onPts A L Ψ x = Ψ (stAt A L x) := if_pos hw

theorem onPts_neg {Ψ : ZSt N r → ℝ≥0∞} {x : Fin r → ℝ} (hw : ¬ 0 < wR A L x) : onPts A L Ψ x = 0 := if_neg hw

theorem onPts_add (Ψ Ψ' : ZSt N r → ℝ≥0∞) : onPts A L (fun s => Ψ s + Ψ' s) = fun x => onPts A L Ψ x + onPts A L Ψ' x := by
  funext x
  by_cases hw : 0 < wR A L x
  · rw [onPts_pos hw, onPts_pos hw, onPts_pos hw]
  · rw [onPts_neg hw, onPts_neg hw, onPts_neg hw, add_zero]

theorem onPts_congr {Ψ Ψ' : ZSt N r → ℝ≥0∞} (h : ∀ x, 0 < wR A L x → Ψ (stAt A L x) = Ψ' (stAt A L x)) : onPts A L Ψ = onPts A L Ψ' := by
  funext x
  by_cases hw : 0 < wR A L x
  · rw [onPts_pos hw, onPts_pos hw, h x hw]
  · rw [onPts_neg hw, onPts_neg hw]

theorem onPts_const (hu : UniqueOptimum A c) (hL : LpExact A c L) (a : ℝ≥0∞) : Measurable (onPts A L fun _ => a) :=
  tile_fun_meas hu hL fun _ => a

theorem stepE_const (a : ℝ≥0∞) (s : ZSt N r) : stepE A L (gaussDir r) (fun _ => a) s = a := by
  simp [stepE]

theorem stepE_add (hr : 0 < r) (hu : UniqueOptimum A c) (hL : LpExact A c L) {Ψ Ψ' : ZSt N r → ℝ≥0∞} (hΨ : Measurable (onPts A L Ψ))
    (hΨ' : Measurable (onPts A L Ψ')) {x : Fin r → ℝ} (hw : 0 < wR A L x) :
    stepE A L (gaussDir r) (fun s => Ψ s + Ψ' s) (stAt A L x)
      = stepE A L (gaussDir r) Ψ (stAt A L x) + stepE A L (gaussDir r) Ψ' (stAt A L x) := by
  have h := onPts_add (A := A) (L := L) Ψ Ψ'
  rw [stepE_hop hr hu hL (by rw [h]; exact hΨ.add hΨ') hw, stepE_hop hr hu hL hΨ hw, stepE_hop hr hu hL hΨ' hw, h,
    ← lintegral_add_left (hop_meas_dir zono_meas (acc_meas hu hL) hΨ x)]
  exact lintegral_congr fun d => hop_add zono_meas (acc_meas hu hL) hΨ x d

theorem stepE_congr (hr : 0 < r) (hu : UniqueOptimum A c) (hL : LpExact A c L) {Ψ Ψ' : ZSt N r → ℝ≥0∞} (hΨ : Measurable (onPts A L Ψ))
    (h : ∀ x, 0 < wR A L x → Ψ (stAt A L x) = Ψ' (stAt A L x)) {x : Fin r → ℝ} (hw : 0 < wR A L x) :
    stepE A L (gaussDir r) Ψ (stAt A L x) = stepE A L (gaussDir r) Ψ' (stAt A L x) := by
  have e := onPts_congr h
  rw [stepE_hop hr hu hL hΨ hw, stepE_hop hr hu hL (by rw [← e]; exact hΨ) hw, e]

theorem runE_add (hr : 0 < r) (hu : UniqueOptimum A c) (hL : LpExact A c L) {Ψ Ψ' : ZSt N r → ℝ≥0∞} (hΨ : Measurable (onPts A L Ψ))
    (hΨ' : Measurable (onPts A L Ψ')) : ∀ n x, 0 < wR A L x →
    runE A L (gaussDir r) (fun s => Ψ s + Ψ' s) n (stAt A L x)
      = runE A L (gaussDir r) Ψ n (stAt A L x) + runE A L (gaussDir r) Ψ' n (stAt A L x)
  | 0, _, _ => rfl
  | n + 1, x, hw => by
    have h1 := (runE_inv hu hL hΨ (gauss_zero hr) n).1
    have h2 := (runE_inv hu hL hΨ' (gauss_zero hr) n).1
    have h3 := onPts_add (A := A) (L := L) (runE A L (gaussDir r) Ψ n) (runE A L (gaussDir r) Ψ' n)
    rw [runE, runE, runE, ← stepE_add hr hu hL h1 h2 hw]
    refine (stepE_congr hr hu hL (by rw [h3]; exact h1.add h2) (fun y hy => ?_) hw).symm
    exact (runE_add hr hu hL hΨ hΨ' n y hy).symm

theorem runE_const (a : ℝ≥0∞) : ∀ n (s : ZSt N r), runE A L (gaussDir r) (fun _ => a) n s = a
  | 0, _ => rfl
  | n + 1, s => by
    have : runE A L (gaussDir r) (fun _ => a) n = fun _ => a := funext fun s => runE_const a n s
    rw [runE, this, stepE_const]

/-- the weight of a constant -/
theorem const_mass (hu : UniqueOptimum A c) (hL : LpExact A c L) (a : ℝ≥0∞) :
    ∫⁻ x, wE A L x * onPts A L (fun _ => a) x = a * ∫⁻ x, wE A L x := by
  rw [← lintegral_const_mul _ (wE_meas hu hL)]
  refine lintegral_congr fun x => ?_
  by_cases hw : 0 < wR A L x
  · rw [onPts_pos hw, mul_comm]
  · have : wE A L x = 0 := not_not.1 fun h => hw (wE_ne_zero.1 h)
    rw [this, zero_mul, mul_zero]

theorem kap_le (hr : 0 < r) (hu : UniqueOptimum A c) (hL : LpExact A c L) {R : ℝ} (hR0 : 0 < R) (hR : ∀ x ∈ Zono A, ‖x‖ ≤ R)
    {s : ℝ} (hS : ∫⁻ x, wE A L x = ENNReal.ofReal s) {x : Fin r → ℝ} (hw : 0 < wR A L x) : kap A R * s ≤ 1 := by
  have h1 := minorize hr hu hL hR0 hR (onPts_const hu hL 1) hw
  rw [const_mass hu hL, one_mul, hS, ← stepE_hop hr hu hL (onPts_const hu hL 1) hw, stepE_const,
    ← ENNReal.ofReal_mul (kap_pos hR0).le] at h1
  exact ENNReal.ofReal_le_one.1 h1

/-- geometric lower bound -/
theorem lower (hr : 0 < r) (hu : UniqueOptimum A c) (hL : LpExact A c L) {R : ℝ} (hR0 : 0 < R) (hR : ∀ x ∈ Zono A, ‖x‖ ≤ R)
    {s i : ℝ} (hs : 0 < s) (hi : 0 ≤ i) (hS : ∫⁻ x, wE A L x = ENNReal.ofReal s) {Ψ : ZSt N r → ℝ≥0∞} (hΨ : Measurable (onPts A L Ψ))
    (hI : ∫⁻ x, wE A L x * onPts A L Ψ x = ENNReal.ofReal i) :
    ∀ n x, 0 < wR A L x → ENNReal.ofReal ((1 - (1 - kap A R * s) ^ n) * (i / s)) ≤ runE A L (gaussDir r) Ψ n (stAt A L x) := by
  intro n
  induction n with
  | zero => intro x hw; simp
  | succ n ih =>
    intro x hw
    have hk0 := kap_pos (A := A) hR0
    have hk := kap_le hr hu hL hR0 hR hS hw
    obtain ⟨δ, hδ⟩ : ∃ δ, δ = 1 - kap A R * s := ⟨_, rfl⟩
    have hδ0 : 0 ≤ δ := by rw [hδ]; linarith
    have hδ1 : δ ≤ 1 := by rw [hδ]; nlinarith
    rw [← hδ] at ih ⊢
    obtain ⟨α, hα⟩ : ∃ α, α = (1 - δ ^ n) * (i / s) := ⟨_, rfl⟩
    have hα0 : 0 ≤ α := by
      rw [hα]; exact mul_nonneg (sub_nonneg.2 (pow_le_one₀ hδ0 hδ1)) (div_nonneg hi hs.le)
    rw [← hα] at ih
    obtain ⟨hgm, hgI⟩ := runE_inv hu hL hΨ (gauss_zero hr) n
    obtain ⟨g, hg⟩ : ∃ g, g = runE A L (gaussDir r) Ψ n := ⟨_, rfl⟩
    rw [← hg] at ih hgm hgI
    obtain ⟨h, hh⟩ : ∃ h : ZSt N r → ℝ≥0∞, h = fun t => g t - ENNReal.ofReal α := ⟨_, rfl⟩
    have hhm : Measurable (onPts A L h) := by
      have : onPts A L h = fun x => onPts A L g x - onPts A L (fun _ => ENNReal.ofReal α) x := by
        funext y
        by_cases hy : 0 < wR A L y
        · rw [onPts_pos hy, onPts_pos hy, onPts_pos hy, hh]
        · rw [onPts_neg hy, onPts_neg hy, onPts_neg hy, tsub_zero]
      rw [this]
      exact hgm.sub (onPts_const hu hL _)
    have hsplit : ∀ y, 0 < wR A L y → g (stAt A L y) = h (stAt A L y) + ENNReal.ofReal α := by
      intro y hy
      rw [hh]
      exact (tsub_add_cancel_of_le (ih y hy)).symm
    have hX : ENNReal.ofReal (i - α * s) = ∫⁻ y, wE A L y * onPts A L h y := by
      have hwm : Measurable fun y => wE A L y * onPts A L h y := (wE_meas hu hL).mul hhm
      have e1 : ∫⁻ y, wE A L y * onPts A L g y = (∫⁻ y, wE A L y * onPts A L h y) + ENNReal.ofReal (α * s) := by
        rw [ENNReal.ofReal_mul hα0, ← hS, ← const_mass hu hL, ← lintegral_add_left hwm]
        refine lintegral_congr fun y => ?_
        rw [← mul_add]
        congr 1
        by_cases hy : 0 < wR A L y
        · rw [onPts_pos hy, onPts_pos hy, onPts_pos hy, hsplit y hy]
        · rw [onPts_neg hy, onPts_neg hy, onPts_neg hy, add_zero]
      rw [hgI, hI] at e1
      rw [ENNReal.ofReal_sub _ (mul_nonneg hα0 hs.le), e1, ENNReal.add_sub_cancel_right ENNReal.ofReal_ne_top]
    have hfin : runE A L (gaussDir r) Ψ (n + 1) (stAt A L x) = stepE A L (gaussDir r) h (stAt A L x) + ENNReal.ofReal α := by
      rw [runE, ← hg, stepE_congr (Ψ' := fun t => h t + ENNReal.ofReal α) hr hu hL hgm hsplit hw, stepE_add hr hu hL hhm (onPts_const hu hL _) hw, stepE_const]
    have hmin := minorize hr hu hL hR0 hR hhm hw
    rw [← stepE_hop hr hu hL hhm hw, ← hX, ← ENNReal.ofReal_mul hk0.le] at hmin
    rw [hfin]
    refine le_trans ?_ (add_le_add_left hmin _)
    have his : 0 ≤ i - α * s := by
      have : α * s = (1 - δ ^ n) * i := by rw [hα]; field_simp
      rw [this]
      have := mul_nonneg (pow_nonneg hδ0 n) hi
      linarith
    rw [← ENNReal.ofReal_add (mul_nonneg hk0.le his) hα0]
    refine ENNReal.ofReal_le_ofReal (le_of_eq ?_)
    have e2 : kap A R * (i - α * s) = kap A R * s * (i / s) - kap A R * s * α := by field_simp
    have e3 : kap A R * s = 1 - δ := by rw [hδ]; ring
    rw [e2, e3, hα]
    ring

end Verif.Lemmas.ZonoTiles

namespace Verif.Props
open Verif Verif.Spec Verif.Model Matrix MeasureTheory Verif.Lemmas.ZonoTiles ProbabilityTheory
open scoped ENNReal

variable {N r : ℕ} {A : Matrix (Fin r) (Fin N) ℝ} {c : Fin N → ℝ} {L : Lp N r}

/-- C117: geometric convergence from every starting point at which the sampler does not loop forever -/
theorem C117_converges (hr : 0 < r) (A : Matrix (Fin r) (Fin N) ℝ) : ∃ ρ : ℝ, 0 ≤ ρ ∧ ρ < 1 ∧
    ∀ (c : Fin N → ℝ) (L : Lp N r), UniqueOptimum A c → LpExact A c L → ∀ (o : McmcOpts), o.tMax = none →
      ∀ (fuel n : ℕ), n < o.nbIter → ∀ x0, (Feasible A x0).Nonempty → (extractBasis zEps (L.lp x0)).length = r →
      ∀ T : Finset (Fin N), T.card = r →
        |(rowProb A L o (fuel + 1) (gaussDir r) n T x0).toReal - kDppProb (Aᵀ * A) r T| ≤ ρ ^ n := by
  classical
  obtain ⟨R', hR'⟩ := (zono_compact (A := A)).isBounded.exists_norm_le
  obtain ⟨R, hRe⟩ : ∃ R, R = max R' 1 := ⟨_, rfl⟩
  have hR0 : 0 < R := by rw [hRe]; exact lt_of_lt_of_le one_pos (le_max_right _ _)
  have hR : ∀ x ∈ Zono A, ‖x‖ ≤ R := fun x hx => (hR' x hx).trans (by rw [hRe]; exact le_max_left _ _)
  have he : 0 < (1 - 2 * zEps) ^ r := by unfold zEps; positivity
  obtain ⟨D, hD⟩ : ∃ D : ℝ, D = ∑ T ∈ (Finset.univ : Finset (Fin N)).powersetCard r, minor (Aᵀ * A) T := ⟨_, rfl⟩
  obtain ⟨s, hs⟩ : ∃ s : ℝ, s = D * (1 - 2 * zEps) ^ r := ⟨_, rfl⟩
  have hnn : ∀ S : Finset (Fin N), S.card = r → 0 ≤ minor (Aᵀ * A) S := fun S hS => by
    rw [gram_det hS]; positivity
  have key : ∀ (c : Fin N → ℝ) (L : Lp N r), UniqueOptimum A c → LpExact A c L → ∀ x0, 0 < wR A L x0 →
      0 < s ∧ kap A R * s ≤ 1 := by
    intro c L hu hL x0 hw
    refine ⟨?_, kap_le hr hu hL hR0 hR (by rw [total_mass hu hL, hs, hD]) hw⟩
    obtain ⟨T, hT, hdet, -⟩ := (wR_pos_tile hu hL).1 hw
    rw [hs, hD]
    refine mul_pos ?_ he
    refine lt_of_lt_of_le ?_ (Finset.single_le_sum (f := fun T => minor (Aᵀ * A) T)
      (fun S hS => hnn S (Finset.mem_powersetCard.1 hS).2) (Finset.mem_powersetCard.2 ⟨Finset.subset_univ T, hT⟩))
    rw [gram_det hT]
    positivity
  have main : ∀ (c : Fin N → ℝ) (L : Lp N r), UniqueOptimum A c → LpExact A c L → ∀ (o : McmcOpts), o.tMax = none →
      ∀ (fuel n : ℕ), n < o.nbIter → ∀ x0, 0 < wR A L x0 → ∀ T : Finset (Fin N), T.card = r →
        |(rowProb A L o (fuel + 1) (gaussDir r) n T x0).toReal - kDppProb (Aᵀ * A) r T| ≤ (1 - kap A R * s) ^ n := by
    intro c L hu hL o hT fuel n hn x0 hw T hc
    obtain ⟨hs0, hks⟩ := key c L hu hL x0 hw
    have hD0 : 0 < D := by
      rw [hs] at hs0; exact pos_of_mul_pos_left hs0 he.le
    have hk0 := kap_pos (A := A) hR0
    have hS : ∫⁻ x, wE A L x = ENNReal.ofReal s := by rw [total_mass hu hL, hs, hD]
    obtain ⟨q, hq⟩ : ∃ q, q = kDppProb (Aᵀ * A) r T := ⟨_, rfl⟩
    obtain ⟨i, hi⟩ : ∃ i, i = minor (Aᵀ * A) T * (1 - 2 * zEps) ^ r := ⟨_, rfl⟩
    have hi0 : 0 ≤ i := by rw [hi]; exact mul_nonneg (hnn T hc) he.le
    have hle : minor (Aᵀ * A) T ≤ D := by
      rw [hD]
      exact Finset.single_le_sum (f := fun T => minor (Aᵀ * A) T)
        (fun S hS => hnn S (Finset.mem_powersetCard.1 hS).2) (Finset.mem_powersetCard.2 ⟨Finset.subset_univ T, hc⟩)
    have hqi : i / s = q := by
      rw [hq, kDppProb, if_pos hc, hi, hs, ← hD, mul_div_mul_right _ _ he.ne']
    have his : i ≤ s := by rw [hi, hs]; exact mul_le_mul_of_nonneg_right hle he.le
    obtain ⟨Ψ, hΨ⟩ : ∃ Ψ : ZSt N r → ℝ≥0∞, Ψ = fun s => if s.B.toFinset = T then 1 else 0 := ⟨_, rfl⟩
    obtain ⟨Ψ', hΨ'⟩ : ∃ Ψ' : ZSt N r → ℝ≥0∞, Ψ' = fun s => if s.B.toFinset = T then 0 else 1 := ⟨_, rfl⟩
    have hm : Measurable (onPts A L Ψ) := by
      rw [hΨ]; exact tile_fun_meas hu hL fun S => if S = T then 1 else 0
    have hm' : Measurable (onPts A L Ψ') := by
      rw [hΨ']; exact tile_fun_meas hu hL fun S => if S = T then 0 else 1
    have hsum : (fun t => Ψ t + Ψ' t) = fun _ : ZSt N r => (1 : ℝ≥0∞) := by
      funext t
      rw [hΨ, hΨ']
      simp only
      by_cases h : t.B.toFinset = T
      · rw [if_pos h, if_pos h, add_zero]
      · rw [if_neg h, if_neg h, zero_add]
    have hI : ∫⁻ x, wE A L x * onPts A L Ψ x = ENNReal.ofReal i := by
      rw [hΨ, tile_mass hu hL hc, hi]
    have hI' : ∫⁻ x, wE A L x * onPts A L Ψ' x = ENNReal.ofReal (s - i) := by
      have h1 := const_mass hu hL 1
      rw [← hsum, onPts_add, one_mul, hS] at h1
      simp only [mul_add] at h1
      have hwm : Measurable fun y => wE A L y * onPts A L Ψ y := (wE_meas hu hL).mul hm
      rw [lintegral_add_left hwm, hI] at h1
      rw [ENNReal.ofReal_sub _ hi0, ← h1, ENNReal.add_sub_cancel_left ENNReal.ofReal_ne_top]
    have hlo := lower hr hu hL hR0 hR hs0 hi0 hS hm hI n x0 hw
    have hlo' := lower hr hu hL hR0 hR hs0 (sub_nonneg.2 his) hS hm' hI' n x0 hw
    have hadd := runE_add hr hu hL hm hm' n x0 hw
    rw [hsum, runE_const] at hadd
    have hrow : rowProb A L o (fuel + 1) (gaussDir r) n T x0 = runE A L (gaussDir r) Ψ n (stAt A L x0) := by
      rw [← runE_eq, rowProb]
      refine drawsMean_congr n fun l hl => ?_
      subst hl
      rw [hΨ]
      simp only [row_iff hr ((wR_pos_iff hu hL).1 hw).2 hT fuel hn T]
    rw [hrow, ← hq]
    obtain ⟨p, hp⟩ : ∃ p, p = runE A L (gaussDir r) Ψ n (stAt A L x0) := ⟨_, rfl⟩
    obtain ⟨p', hp'⟩ : ∃ p', p' = runE A L (gaussDir r) Ψ' n (stAt A L x0) := ⟨_, rfl⟩
    rw [← hp, ← hp'] at hadd
    rw [← hp] at hlo ⊢
    rw [← hp'] at hlo'
    have hpt : p ≠ ⊤ := fun h => by rw [h, top_add] at hadd; exact ENNReal.one_ne_top hadd
    have hpt' : p' ≠ ⊤ := fun h => by rw [h, add_top] at hadd; exact ENNReal.one_ne_top hadd
    have hreal : p.toReal + p'.toReal = 1 := by
      rw [← ENNReal.toReal_add hpt hpt', ← hadd, ENNReal.toReal_one]
    have e1 := (ENNReal.ofReal_le_iff_le_toReal hpt).1 hlo
    have e2 := (ENNReal.ofReal_le_iff_le_toReal hpt').1 hlo'
    have hsi : (s - i) / s = 1 - q := by rw [sub_div, div_self hs0.ne', hqi]
    rw [hqi] at e1
    rw [hsi] at e2
    have hδ : 0 ≤ (1 - kap A R * s) ^ n := pow_nonneg (by linarith) n
    have hq0 : 0 ≤ q := by rw [← hqi]; exact div_nonneg hi0 hs0.le
    have hq1 : q ≤ 1 := by rw [← hqi]; exact (div_le_one hs0).2 his
    rw [abs_le]
    constructor <;> nlinarith
  by_cases hcase : 0 < kap A R * s ∧ kap A R * s ≤ 1
  · refine ⟨1 - kap A R * s, by linarith [hcase.2], by linarith [hcase.1], ?_⟩
    intro c L hu hL o hT fuel n hn x0 hx hl T hc
    exact main c L hu hL o hT fuel n hn x0 ((wR_pos_iff hu hL).2 ⟨hx, hl⟩) T hc
  · refine ⟨0, le_rfl, one_pos, ?_⟩
    intro c L hu hL o hT fuel n hn x0 hx hl T hc
    obtain ⟨h1, h2⟩ := key c L hu hL x0 ((wR_pos_iff hu hL).2 ⟨hx, hl⟩)
    exact absurd ⟨mul_pos (kap_pos hR0) h1, h2⟩ hcase

/-- C117: convergence to the projection DPP -/
theorem C117_limit (hr : 0 < r) (hA : (A * Aᵀ).det ≠ 0) (hu : UniqueOptimum A c) (hL : LpExact A c L) (o : McmcOpts)
    (hT : o.tMax = none) (fuel : ℕ) {x0 : Fin r → ℝ} (hx : (Feasible A x0).Nonempty)
    (hl : (extractBasis zEps (L.lp x0)).length = r) (T : Finset (Fin N)) (hc : T.card = r) :
    Filter.Tendsto (fun n => (rowProb A L { o with nbIter := n + 1 } (fuel + 1) (gaussDir r) n T x0).toReal) Filter.atTop
      (nhds (exactProb (Aᵀ * (A * Aᵀ)⁻¹ * A) T)) := by
  obtain ⟨ρ, h0, h1, h⟩ := C117_converges hr A
  rw [← C116_projection_dpp hA, tendsto_iff_dist_tendsto_zero]
  refine squeeze_zero (fun _ => dist_nonneg) (fun n => ?_) (tendsto_pow_atTop_nhds_zero_of_lt_one h0 h1)
  rw [Real.dist_eq]
  exact h c L hu hL { o with nbIter := n + 1 } hT fuel n (Nat.lt_succ_self n) x0 hx hl T hc

/-- C117: with probability one the default objective `rng.randn(N)` gives linear programs with one solution -/
theorem C117_default_objective (hA : (A * Aᵀ).det ≠ 0) :
    ∀ᵐ c ∂(Measure.pi fun _ : Fin N => gaussianReal 0 1), UniqueOptimum A c := by
  have h1 : (Measure.pi fun _ : Fin N => gaussianReal 0 1) ≪ volume := by
    rw [Lemmas.gauss_pi_density]
    exact withDensity_absolutelyContinuous _ _
  exact h1.ae_le ((ae_generic A).mono fun c hc => unique_of_generic hA hc)

end Verif.Props
