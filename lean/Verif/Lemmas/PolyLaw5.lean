import Verif.Lemmas.PolyLaw4
import Verif.Props.DevSampler

/-!
The Gibbs sampler with the samplers of the conditionals of the code.
-/

namespace Verif.Lemmas.PL
open Finset MeasureTheory Verif.Model Verif.Spec Verif.Lemmas Polynomial Verif.Props

theorem tapeLInt_mono (m : ℕ) {F G : List (ℝ × ℝ × ℝ) → ENNReal} (h : ∀ ts, F ts ≤ G ts) : tapeLInt m F ≤ tapeLInt m G := by
  induction m generalizing F G with
  | zero => exact h []
  | succ m ih =>
    refine lintegral_mono fun u => lintegral_mono fun v => lintegral_mono fun w => ih fun ts => h _

theorem accObs_mono {φ ψ : ℝ → ENNReal} (h : ∀ x, φ x ≤ ψ x) (r : ℝ × Bool) : accObs φ r ≤ accObs ψ r := by
  unfold accObs
  split
  · exact h _
  · exact le_rfl

open Classical in
/-- the law of an observable that is only known on a set of full measure -/
theorem sandwich {I : (ℝ → ENNReal) → ENNReal} (hmono : ∀ φ ψ : ℝ → ENNReal, (∀ x, φ x ≤ ψ x) → I φ ≤ I ψ) {c : ENNReal}
    {ν : Measure ℝ} (hI : ∀ φ : ℝ → ENNReal, Measurable φ → I φ = c * ∫⁻ x, φ x ∂ν)
    {S : Set ℝ} (hS : MeasurableSet S) (hnull : ν Sᶜ = 0) {φ Φ : ℝ → ENNReal} (hΦ : Measurable Φ)
    (hφ : ∀ x ∈ S, φ x = Φ x) : I φ = c * ∫⁻ x, Φ x ∂ν := by
  have hae : ∀ᵐ x ∂ν, x ∈ S := hnull
  refine le_antisymm ?_ ?_
  · refine (hmono φ (fun x => if x ∈ S then Φ x else ⊤) fun x => ?_).trans (le_of_eq ?_)
    · by_cases h : x ∈ S
      · simp only [if_pos h, hφ x h, le_refl]
      · simp only [if_neg h, le_top]
    · rw [hI (fun x => if x ∈ S then Φ x else ⊤) (Measurable.ite hS hΦ measurable_const)]
      congr 1
      refine lintegral_congr_ae ?_
      filter_upwards [hae] with x hx
      rw [if_pos hx]
  · refine (le_of_eq ?_).trans (hmono (fun x => if x ∈ S then Φ x else 0) φ fun x => ?_)
    · rw [hI (fun x => if x ∈ S then Φ x else 0) (Measurable.ite hS hΦ measurable_const)]
      congr 1
      refine lintegral_congr_ae ?_
      filter_upwards [hae] with x hx
      rw [if_pos hx]
    · by_cases h : x ∈ S
      · simp only [if_pos h, hφ x h, le_refl]
      · simp only [if_neg h, zero_le]

variable {n : ℕ}

/-- states that are reached almost surely -/
def Good (p : (Fin (n + 1) → ℝ) × (Fin n → ℝ)) : Prop := (∀ i, 0 < p.2 i) ∧ ∀ i, p.1 i ≠ 0

theorem exactA_eq {beta : ℝ} {V : ℝ[X]} (hV : V.natDegree ≤ 6) (i : Fin (n + 1)) {p : (Fin (n + 1) → ℝ) × (Fin n → ℝ)}
    (hp : ∀ j, 0 < p.2 j) (Φ : (Fin (n + 1) → ℝ) × (Fin n → ℝ) → ENNReal) (x0 : ℝ) :
    exactA (C (1 / 2 * beta * (n + 1 : ℕ)) * condPolyA ((i + 1 : ℕ) : ℤ) (gState p).a (gState p).b V) x0
      (fun x => Φ (Function.update p.1 i x, p.2))
    = (∫⁻ x, Φ (Function.update p.1 i x, p.2) * jacD beta V (Function.update p.1 i x, p.2))
      / ∫⁻ x, jacD beta V (Function.update p.1 i x, p.2) := by
  obtain ⟨K, hK, hc⟩ := condA_dens (beta := beta) hV hp i
  have hK0 : ENNReal.ofReal K ≠ 0 := (ENNReal.ofReal_pos.2 hK).ne'
  simp only [hc]
  have e : ∀ x : ℝ, Φ (Function.update p.1 i x, p.2) * (ENNReal.ofReal K * ENNReal.ofReal (Real.exp (-(C (1 / 2 * beta * (n + 1 : ℕ))
        * condPolyA ((i + 1 : ℕ) : ℤ) (gState p).a (gState p).b V).eval x)))
      = ENNReal.ofReal K * (Φ (Function.update p.1 i x, p.2) * ENNReal.ofReal (Real.exp (-(C (1 / 2 * beta * (n + 1 : ℕ))
        * condPolyA ((i + 1 : ℕ) : ℤ) (gState p).a (gState p).b V).eval x))) := fun x => mul_left_comm _ _ _
  simp only [e]
  rw [lintegral_const_mul' _ _ ENNReal.ofReal_ne_top, lintegral_const_mul' _ _ ENNReal.ofReal_ne_top,
    ENNReal.mul_div_mul_left _ _ hK0 ENNReal.ofReal_ne_top, exactA]

theorem exactB_eq {beta : ℝ} {V : ℝ[X]} (hV : V.natDegree ≤ 6) (i : Fin n) {p : (Fin (n + 1) → ℝ) × (Fin n → ℝ)}
    (hp : ∀ j, 0 < p.2 j) (Φ : (Fin (n + 1) → ℝ) × (Fin n → ℝ) → ENNReal) :
    exactB (C (1 / 2 * beta * (n + 1 : ℕ)) * condPolyB ((i + 1 : ℕ) : ℤ) (gState p).a (gState p).b V)
      (1 / 2 * beta * (((n + 1 : ℕ) : ℝ) - ((i + 1 : ℕ) : ℝ))) (fun x => Φ (p.1, Function.update p.2 i x))
    = (∫⁻ x, Φ (p.1, Function.update p.2 i x) * jacD beta V (p.1, Function.update p.2 i x))
      / ∫⁻ x, jacD beta V (p.1, Function.update p.2 i x) := by
  obtain ⟨K, hK, hc⟩ := condB_dens (beta := beta) hV hp i
  have hK0 : ENNReal.ofReal K ≠ 0 := (ENNReal.ofReal_pos.2 hK).ne'
  have hz : ∀ x, x ∉ Set.Ioi (0 : ℝ) → jacD beta V (p.1, Function.update p.2 i x) = 0 := by
    intro x hx
    refine jacD_zero fun h => hx ?_
    have := h i
    change 0 < Function.update p.2 i x i at this
    rwa [Function.update_self] at this
  have hset : ∀ f : ℝ → ENNReal, (∀ x, x ∉ Set.Ioi (0 : ℝ) → f x = 0) → ∫⁻ x, f x = ∫⁻ x in Set.Ioi (0 : ℝ), f x := by
    intro f hf
    rw [← lintegral_indicator measurableSet_Ioi]
    refine lintegral_congr fun x => ?_
    by_cases hx : x ∈ Set.Ioi (0 : ℝ)
    · rw [Set.indicator_of_mem hx]
    · rw [Set.indicator_of_notMem hx, hf x hx]
  rw [hset _ hz, hset _ fun x hx => by rw [hz x hx, mul_zero], exactB]
  rw [setLIntegral_congr_fun measurableSet_Ioi fun x hx => hc x hx, lintegral_const_mul' _ _ ENNReal.ofReal_ne_top,
    setLIntegral_congr_fun measurableSet_Ioi (f := fun x => Φ (p.1, Function.update p.2 i x)
      * jacD beta V (p.1, Function.update p.2 i x)) (g := fun x => ENNReal.ofReal K * (Φ (p.1, Function.update p.2 i x)
        * ENNReal.ofReal (x ^ (1 / 2 * beta * (((n + 1 : ℕ) : ℝ) - ((i + 1 : ℕ) : ℝ)) - 1)
        * Real.exp (-(C (1 / 2 * beta * (n + 1 : ℕ))
        * condPolyB ((i + 1 : ℕ) : ℤ) (gState p).a (gState p).b V).eval x))))
      (fun x hx => by beta_reduce; rw [hc x hx, mul_left_comm]),
    lintegral_const_mul' _ _ ENNReal.ofReal_ne_top, ENNReal.mul_div_mul_left _ _ hK0 ENNReal.ofReal_ne_top]

theorem devA_eq {r : ℝ[X] → ℝ × ℝ × ℝ} (hr : RootsA r) {P : ℝ[X]} (hE : EvenConvex P) (hpos : 0 < P.coeff 2 + P.coeff 4)
    (x0 : ℝ) {S : Set ℝ} (hS : MeasurableSet S) (hnull : volume Sᶜ = 0) {φ Φ : ℝ → ENNReal} (hΦ : Measurable Φ)
    (hφ : ∀ x ∈ S, φ x = Φ x) : devDrawA r P x0 φ = exactA P x0 Φ := by
  have hq := hr P (C74_quartic_roots_exist hE.deg hE.c3 hE.c2 hE.c4 hpos)
  obtain ⟨c, hc0, hct, hc⟩ := C74_quartic_exact hE.deg hE.c3 hE.c2 hE.c4 hq (show 0 < 100 by norm_num) 0
  have hw : Measurable fun x => ENNReal.ofReal (Real.exp (-P.eval x)) := by
    have : Continuous fun x => Real.exp (-P.eval x) := by fun_prop
    exact this.measurable.ennreal_ofReal
  have hν : ∀ φ : ℝ → ENNReal, Measurable φ → ∫⁻ x, φ x ∂(volume.withDensity fun x => ENNReal.ofReal (Real.exp (-P.eval x)))
      = ∫⁻ x, φ x * ENNReal.ofReal (Real.exp (-P.eval x)) := by
    intro φ hφ
    rw [lintegral_withDensity_eq_lintegral_mul _ hw hφ]
    exact lintegral_congr fun x => mul_comm _ _
  have h := sandwich (I := fun φ => tapeLInt 100 (fun ts => accObs φ
      (devLoop (devState P none (r P).1 (r P).2.1 (r P).2.2) (r P).1 none 0 ts)))
    (fun φ ψ h => tapeLInt_mono _ fun ts => accObs_mono h _) (c := c)
    (ν := volume.withDensity fun x => ENNReal.ofReal (Real.exp (-P.eval x)))
    (fun φ hφ => by rw [hν φ hφ]; exact hc φ hφ) hS (withDensity_absolutelyContinuous _ _ hnull) hΦ hφ
  rw [devDrawA, exactA, hc _ measurable_const]
  refine (congrArg (· / _) h).trans ?_
  rw [hν Φ hΦ, ENNReal.mul_div_mul_left _ _ hc0.ne' hct.ne]
  simp only [one_mul]

theorem devB_eq {r : ℝ[X] → ℝ → ℝ × ℝ × ℝ} (hr : RootsB r) {P : ℝ[X]} (hdeg : P.natDegree ≤ 2) (h0 : P.coeff 0 = 0)
    (h1 : 0 < P.coeff 1) (h2 : 0 ≤ P.coeff 2) (shape : ℝ) {φ Φ : ℝ → ENNReal} (hΦ : Measurable Φ)
    (hφ : ∀ x, 0 < x → φ x = Φ x) : devDrawB r P shape φ = exactB P shape Φ := by
  have e : ∀ y ∈ Set.Ioi (0 : ℝ), Real.exp ((shape - 1) * Real.log y - P.eval y) = y ^ (shape - 1) * Real.exp (-P.eval y) := by
    intro y hy
    rw [Real.rpow_def_of_pos hy, ← Real.exp_add]
    congr 1
    ring
  by_cases hsmall : shape ≤ 1 ∨ P.coeff 2 = 0
  · have hs : ∀ x ∈ Set.Ioi (0 : ℝ), Real.exp ((smallShapeLog P shape x).getD 0) = x ^ (shape - 1) * Real.exp (-P.eval x) := by
      intro x hx
      rw [C74_small_shape_exact hdeg h0 h1 h2 hx hsmall, Option.getD_some, e x hx]
    have hne : devDrawB r P shape φ = (∫⁻ x in Set.Ioi (0 : ℝ), φ x * ENNReal.ofReal (Real.exp ((smallShapeLog P shape x).getD 0)))
        / ∫⁻ x in Set.Ioi (0 : ℝ), ENNReal.ofReal (Real.exp ((smallShapeLog P shape x).getD 0)) := by
      unfold devDrawB
      have hb : devBranch P (some shape) ≠ .dev12 := by
        unfold devBranch
        by_cases hc : P.coeff 2 = 0
        · simp [hc]
        · have hle := hsmall.resolve_right hc
          rcases lt_or_eq_of_le hle with h | h
          · simp [hc, h]
          · simp [hc, h]
      split
      · exact absurd (by assumption) hb
      · rfl
    rw [hne, exactB]
    congr 1
    · exact setLIntegral_congr_fun measurableSet_Ioi fun x hx => by beta_reduce; rw [hs x hx, hφ x hx]
    · exact setLIntegral_congr_fun measurableSet_Ioi fun x hx => by beta_reduce; rw [hs x hx]
  · push Not at hsmall
    obtain ⟨hs1, hc2⟩ := hsmall
    have hp2 : 0 < P.coeff 2 := lt_of_le_of_ne h2 (Ne.symm hc2)
    have hp3 : P.coeff 3 = 0 := coeff_eq_zero_of_natDegree_lt (by omega)
    have hq := hr P shape (C74_gamma_roots_exist (by omega) h2 hp3.ge (by linarith) hs1)
    obtain ⟨c, hc0, hct, hc⟩ := C74_gamma_exact (by omega) h2 hp3.ge hs1 hq (show 0 < 100 by norm_num) 0
    have hw : Measurable fun x => ENNReal.ofReal (Real.exp ((shape - 1) * Real.log x - P.eval x)) := by
      have : Measurable fun x => P.eval x := P.continuous.measurable
      fun_prop
    have hν : ∀ φ : ℝ → ENNReal, Measurable φ → ∫⁻ x, φ x ∂((volume.restrict (Set.Ioi (0 : ℝ))).withDensity
        fun x => ENNReal.ofReal (Real.exp ((shape - 1) * Real.log x - P.eval x)))
        = ∫⁻ x in Set.Ioi (0 : ℝ), φ x * ENNReal.ofReal (Real.exp ((shape - 1) * Real.log x - P.eval x)) := by
      intro φ hφ
      rw [lintegral_withDensity_eq_lintegral_mul _ hw hφ]
      exact lintegral_congr fun x => mul_comm _ _
    have h := sandwich (I := fun φ => tapeLInt 100 (fun ts => accObs φ
        (devLoop (devState P (some shape) (r P shape).1 (r P shape).2.1 (r P shape).2.2) (r P shape).1
          (some (r P shape).1) 0 ts)))
      (fun φ ψ h => tapeLInt_mono _ fun ts => accObs_mono h _) (c := c)
      (ν := (volume.restrict (Set.Ioi (0 : ℝ))).withDensity
        fun x => ENNReal.ofReal (Real.exp ((shape - 1) * Real.log x - P.eval x)))
      (fun φ hφ => by rw [hν φ hφ]; exact hc φ hφ) (measurableSet_Ioi (a := (0 : ℝ)))
      (withDensity_absolutelyContinuous _ _ (by rw [Measure.restrict_apply measurableSet_Ioi.compl, Set.compl_inter_self, measure_empty])) hΦ hφ
    have hb : devBranch P (some shape) = .dev12 := by
      simp only [devBranch]
      rw [if_neg hc2, if_neg (by linarith), if_neg hs1.ne']
    unfold devDrawB
    rw [hb]
    simp only
    rw [hc _ measurable_const]
    refine (congrArg (· / _) h).trans ?_
    beta_reduce
    rw [hν Φ hΦ, ENNReal.mul_div_mul_left _ _ hc0.ne' hct.ne, exactB]
    simp only [one_mul]
    congr 1
    · exact setLIntegral_congr_fun measurableSet_Ioi fun y hy => by beta_reduce; rw [e y hy]
    · exact setLIntegral_congr_fun measurableSet_Ioi fun y hy => by beta_reduce; rw [e y hy]

/-- a transformation of observables that leaves the joint density invariant (on the good states) -/
def InvG (n : ℕ) (beta : ℝ) (V : ℝ[X]) (T : (GibbsSt → ENNReal) → GibbsSt → ENNReal) : Prop :=
  ∀ (k : GibbsSt → ENNReal) (Φ : (Fin (n + 1) → ℝ) × (Fin n → ℝ) → ENNReal), Measurable Φ →
    (∀ p, Good p → k (gState p) = Φ p) →
    ∃ Ψ : (Fin (n + 1) → ℝ) × (Fin n → ℝ) → ENNReal, Measurable Ψ ∧ (∀ p, Good p → T k (gState p) = Ψ p)
      ∧ ∫⁻ p, jacD beta V p * Ψ p = ∫⁻ p, jacD beta V p * Φ p

theorem InvG.id {beta : ℝ} {V : ℝ[X]} : InvG n beta V (fun k => k) :=
  fun _ Φ hΦ h => ⟨Φ, hΦ, h, rfl⟩

theorem InvG.comp {beta : ℝ} {V : ℝ[X]} {T U : (GibbsSt → ENNReal) → GibbsSt → ENNReal} (hT : InvG n beta V T)
    (hU : InvG n beta V U) : InvG n beta V (fun k => T (U k)) := by
  intro k Φ hΦ h
  obtain ⟨Ψ, hΨ, h1, h2⟩ := hU k Φ hΦ h
  obtain ⟨Ψ', hΨ', h1', h2'⟩ := hT (U k) Ψ hΨ h1
  exact ⟨Ψ', hΨ', h1', h2'.trans h2⟩

theorem measurable_updA (p : (Fin (n + 1) → ℝ) × (Fin n → ℝ)) (i : Fin (n + 1)) :
    Measurable fun x : ℝ => ((Function.update p.1 i x, p.2) : (Fin (n + 1) → ℝ) × (Fin n → ℝ)) :=
  (measurable_update p.1).prodMk measurable_const

theorem measurable_updB (p : (Fin (n + 1) → ℝ) × (Fin n → ℝ)) (i : Fin n) :
    Measurable fun x : ℝ => ((p.1, Function.update p.2 i x) : (Fin (n + 1) → ℝ) × (Fin n → ℝ)) :=
  measurable_const.prodMk (measurable_update p.2)

theorem exact_even {V : ℝ[X]} (h : exactCondCheck V = .ok ()) (h2 : 2 ≤ V.natDegree) (he : Even V.natDegree)
    (hl : 0 < V.leadingCoeff) : 0 ≤ V.coeff 2 ∧ 0 ≤ V.coeff 4 ∧ 0 < V.coeff 2 + V.coeff 4 := by
  obtain ⟨h3, hd, hc2, hc4⟩ := exactCondCheck_ok h
  refine ⟨hc2, hc4, ?_⟩
  rw [leadingCoeff] at hl
  have hcase : V.natDegree = 2 ∨ V.natDegree = 4 := by
    obtain ⟨k, hk⟩ := he
    omega
  rcases hcase with h | h
  · rw [h] at hl; linarith
  · rw [h] at hl; linarith

/-- the update of `a_i` with the sampler of the code -/
noncomputable def opAd (r : ℝ[X] → ℝ × ℝ × ℝ) (beta : ℝ) (N : ℕ) (V : ℝ[X]) (i : ℕ) (k : GibbsSt → ENNReal) (st : GibbsSt) :
    ENNReal :=
  devDrawA r (C (1 / 2 * beta * N) * condPolyA i st.a st.b V) (pyGet st.a i) fun x => k { a := st.a.set i x, b := st.b }

/-- the update of `b_i` with the sampler of the code -/
noncomputable def opBd (r : ℝ[X] → ℝ → ℝ × ℝ × ℝ) (beta : ℝ) (N : ℕ) (V : ℝ[X]) (i : ℕ) (k : GibbsSt → ENNReal)
    (st : GibbsSt) : ENNReal :=
  devDrawB r (C (1 / 2 * beta * N) * condPolyB i st.a st.b V) (1 / 2 * beta * ((N : ℝ) - i)) fun z =>
    k { a := st.a, b := st.b.set i z }

theorem condA_coef {V : ℝ[X]} (h : exactCondCheck V = .ok ()) {k : ℝ} (i : ℤ) (a b : List ℝ) :
    (C k * condPolyA i a b V).coeff 2 = k * (V.coeff 2 + V.coeff 4 * (4 * (pyGet b (i - 1) + pyGet b i)))
    ∧ (C k * condPolyA i a b V).coeff 4 = k * V.coeff 4 := by
  obtain ⟨h3, hd, h2, h4⟩ := exactCondCheck_ok h
  have h5 : V.coeff 5 = 0 := coeff_eq_zero_of_natDegree_lt (by omega)
  have h6 : V.coeff 6 = 0 := coeff_eq_zero_of_natDegree_lt (by omega)
  have e : condPolyA i a b V = C (V.coeff 1
        + V.coeff 4 * (4 * (pyGet a (i - 1) * pyGet b (i - 1) + pyGet a (i + 1) * pyGet b i))) * X
      + C (V.coeff 2 + V.coeff 4 * (4 * (pyGet b (i - 1) + pyGet b i))) * X ^ 2 + C (V.coeff 4) * X ^ 4 := by
    simp only [condPolyA, h3, h5, h6, map_zero, zero_mul, add_zero, map_add, map_mul]
    ring
  rw [e]
  generalize V.coeff 1
        + V.coeff 4 * (4 * (pyGet a (i - 1) * pyGet b (i - 1) + pyGet a (i + 1) * pyGet b i)) = p1
  generalize V.coeff 2 + V.coeff 4 * (4 * (pyGet b (i - 1) + pyGet b i)) = p2
  generalize V.coeff 4 = p4
  constructor <;> simp [coeff_X, coeff_X_pow]

theorem condB_coef {V : ℝ[X]} (h : exactCondCheck V = .ok ()) {k : ℝ} (i : ℤ) (a b : List ℝ) :
    (C k * condPolyB i a b V).coeff 0 = 0
    ∧ (C k * condPolyB i a b V).coeff 1 = k * (2 * V.coeff 2 + V.coeff 4 * (4 * (pyGet a i ^ 2 + pyGet a i * pyGet a (i + 1)
        + pyGet a (i + 1) ^ 2 + pyGet b (i - 1) + pyGet b (i + 1)))) := by
  obtain ⟨h3, hd, h2, h4⟩ := exactCondCheck_ok h
  have h5 : V.coeff 5 = 0 := coeff_eq_zero_of_natDegree_lt (by omega)
  have h6 : V.coeff 6 = 0 := coeff_eq_zero_of_natDegree_lt (by omega)
  have e : condPolyB i a b V = C (2 * V.coeff 2 + V.coeff 4 * (4 * (pyGet a i ^ 2 + pyGet a i * pyGet a (i + 1)
        + pyGet a (i + 1) ^ 2 + pyGet b (i - 1) + pyGet b (i + 1)))) * X + C (2 * V.coeff 4) * X ^ 2 := by
    simp only [condPolyB, h3, h5, h6, map_zero, zero_mul, add_zero, map_add, map_mul]
    ring
  rw [e]
  generalize 2 * V.coeff 2 + V.coeff 4 * (4 * (pyGet a i ^ 2 + pyGet a i * pyGet a (i + 1)
        + pyGet a (i + 1) ^ 2 + pyGet b (i - 1) + pyGet b (i + 1))) = p1
  generalize 2 * V.coeff 4 = q
  constructor <;> simp [coeff_X, coeff_X_pow]

theorem inv_opAd {r : ℝ[X] → ℝ × ℝ × ℝ} (hr : RootsA r) {beta : ℝ} (hb : 0 < beta) {V : ℝ[X]} (h : exactCondCheck V = .ok ())
    (hV : 0 < V.coeff 2 + V.coeff 4)
    (hfin : ∫⁻ p, jacD (n := n) beta V p ≠ ⊤) (i : Fin (n + 1)) : InvG n beta V (opAd r beta (n + 1) V (i + 1)) := by
  intro k Φ hΦ hk
  obtain ⟨h3, hd, hc2, hc4⟩ := exactCondCheck_ok h
  obtain ⟨hm, hI⟩ := gibbs_inv (eA i) (eA_mp i) (upd := fun p x => (Function.update p.1 i x, p.2)) (eA_upd i)
    (measurable_jacD beta V) hΦ hfin
  refine ⟨_, hm, fun p hp => ?_, hI⟩
  have hpad := gS_padded hp.1
  have hk0 : 0 < 1 / 2 * beta * ((n + 1 : ℕ) : ℝ) := by positivity
  have hbb : 0 ≤ pyGet (gState p).b (((i + 1 : ℕ) : ℤ) - 1) ∧ 0 ≤ pyGet (gState p).b ((i + 1 : ℕ) : ℤ) :=
    ⟨by rw [pyGet_nonneg _ (by omega)]; exact hpad.bpos _, by rw [pyGet_nonneg _ (by omega)]; exact hpad.bpos _⟩
  have hE := condA_shape h hk0.le ((i + 1 : ℕ) : ℤ) (gState p).a (gState p).b hbb
  obtain ⟨q2, q4⟩ := condA_coef h (k := 1 / 2 * beta * ((n + 1 : ℕ) : ℝ)) ((i + 1 : ℕ) : ℤ) (gState p).a (gState p).b
  rw [← exactA_eq (by omega) i hp.1 Φ (pyGet (gState p).a ((i + 1 : ℕ) : ℤ)), opAd]
  refine devA_eq hr hE ?_ _ (S := {0}ᶜ) (measurableSet_singleton 0).compl (by simp) (hΦ.comp (measurable_updA p i)) fun x hx => ?_
  · rw [q2, q4, ← mul_add]
    refine mul_pos hk0 ?_
    have : 0 ≤ V.coeff 4 * (4 * (pyGet (gState p).b (((i + 1 : ℕ) : ℤ) - 1) + pyGet (gState p).b ((i + 1 : ℕ) : ℤ))) := by
      have := hbb.1; have := hbb.2; positivity
    linarith
  · have hx : x ≠ 0 := hx
    rw [gS_setA]
    refine hk (Function.update p.1 i x, p.2) ⟨hp.1, fun j => ?_⟩
    change Function.update p.1 i x j ≠ 0
    by_cases hj : j = i
    · subst hj; rw [Function.update_self]; exact hx
    · rw [Function.update_of_ne hj]; exact hp.2 j

theorem inv_opBd {r : ℝ[X] → ℝ → ℝ × ℝ × ℝ} (hr : RootsB r) {beta : ℝ} (hb : 0 < beta) {V : ℝ[X]} (h : exactCondCheck V = .ok ())
    (hV : 0 < V.coeff 2 + V.coeff 4)
    (hfin : ∫⁻ p, jacD (n := n) beta V p ≠ ⊤) (i : Fin n) : InvG n beta V (opBd r beta (n + 1) V (i + 1)) := by
  rcases n with _ | m
  · exact i.elim0
  intro k Φ hΦ hk
  obtain ⟨h3, hd, hc2, hc4⟩ := exactCondCheck_ok h
  obtain ⟨hm, hI⟩ := gibbs_inv (eB i) (eB_mp i) (upd := fun p x => (p.1, Function.update p.2 i x)) (eB_upd i)
    (measurable_jacD beta V) hΦ hfin
  refine ⟨_, hm, fun p hp => ?_, hI⟩
  have hpad := gS_padded hp.1
  have hk0 : 0 < 1 / 2 * beta * ((m + 1 + 1 : ℕ) : ℝ) := by positivity
  have hbb : 0 ≤ pyGet (gState p).b (((i + 1 : ℕ) : ℤ) - 1) ∧ 0 ≤ pyGet (gState p).b (((i + 1 : ℕ) : ℤ) + 1) :=
    ⟨by rw [pyGet_nonneg _ (by omega)]; exact hpad.bpos _, by rw [pyGet_nonneg _ (by omega)]; exact hpad.bpos _⟩
  obtain ⟨s1, s2, s3⟩ := condB_shape h hk0.le ((i + 1 : ℕ) : ℤ) (gState p).a (gState p).b
  obtain ⟨q0, q1⟩ := condB_coef h (k := 1 / 2 * beta * ((m + 1 + 1 : ℕ) : ℝ)) ((i + 1 : ℕ) : ℤ) (gState p).a (gState p).b
  have ha : pyGet (gState p).a ((i + 1 : ℕ) : ℤ) ≠ 0 := by
    rw [pyGet_nonneg _ (by omega), Int.toNat_natCast, gS_a, dif_pos (by omega)]
    exact hp.2 _
  rw [← exactB_eq (by omega) i hp.1 Φ, opBd]
  refine devB_eq hr s1 q0 ?_ s3 _ (hΦ.comp (measurable_updB p i)) fun x hx => ?_
  · rw [q1]
    refine mul_pos hk0 ?_
    obtain ⟨u, hu⟩ : ∃ u, u = pyGet (gState p).a ((i + 1 : ℕ) : ℤ) := ⟨_, rfl⟩
    obtain ⟨v, hv⟩ : ∃ v, v = pyGet (gState p).a (((i + 1 : ℕ) : ℤ) + 1) := ⟨_, rfl⟩
    rw [← hu, ← hv]
    rw [← hu] at ha
    have hsq : 0 < u ^ 2 + u * v + v ^ 2 := by
      have : 0 < u ^ 2 := by positivity
      nlinarith [sq_nonneg (u + 2 * v)]
    have hS : 0 < u ^ 2 + u * v + v ^ 2 + pyGet (gState p).b (((i + 1 : ℕ) : ℤ) - 1) + pyGet (gState p).b (((i + 1 : ℕ) : ℤ) + 1) := by
      have := hbb.1; have := hbb.2; linarith
    rcases lt_or_eq_of_le hc4 with h' | h'
    · have := mul_pos h' (mul_pos (show (0 : ℝ) < 4 by norm_num) hS)
      linarith
    · rw [← h', zero_mul, add_zero]; rw [← h', add_zero] at hV; linarith
  · rw [gS_setB]
    refine hk (p.1, Function.update p.2 i x) ⟨fun j => ?_, hp.2⟩
    change 0 < Function.update p.2 i x j
    by_cases hj : j = i
    · subst hj; rw [Function.update_self]; exact hx
    · rw [Function.update_of_ne hj]; exact hp.1 j

theorem step_eq_d (rA : ℝ[X] → ℝ × ℝ × ℝ) (rB : ℝ[X] → ℝ → ℝ × ℝ × ℝ) (beta : ℝ) (N : ℕ) (V : ℝ[X]) (i : ℕ) (st : GibbsSt)
    (k : GibbsSt → ENNReal) :
    gibbsStepE beta N V (devDrawA rA) (devDrawB rB) i st k
      = opAd rA beta N V i (if i < N then opBd rB beta N V i k else k) st := by
  rw [gibbsStepE, opAd]
  congr 1
  funext x
  by_cases h : i < N
  · rw [if_pos h, if_pos h]; rfl
  · rw [if_neg h, if_neg h]

theorem inv_run_d {rA : ℝ[X] → ℝ × ℝ × ℝ} {rB : ℝ[X] → ℝ → ℝ × ℝ × ℝ} (hA : RootsA rA) (hB : RootsB rB) {beta : ℝ}
    (hb : 0 < beta) {V : ℝ[X]} (h : exactCondCheck V = .ok ()) (hV : 0 < V.coeff 2 + V.coeff 4)
    (hfin : ∫⁻ p, jacD (n := n) beta V p ≠ ⊤) (t : ℕ) :
    InvG n beta V (fun k st => gibbsRunE beta (n + 1) V (devDrawA rA) (devDrawB rB) t st k) := by
  have hstep : ∀ i, 1 ≤ i → i ≤ n + 1 →
      InvG n beta V (fun k st => gibbsStepE beta (n + 1) V (devDrawA rA) (devDrawB rB) i st k) := by
    intro i h1 h2
    have hA' : InvG n beta V (opAd rA beta (n + 1) V i) := by
      have := inv_opAd hA hb h hV hfin (⟨i - 1, by omega⟩ : Fin (n + 1))
      rwa [show ((⟨i - 1, by omega⟩ : Fin (n + 1)) : ℕ) + 1 = i by simp; omega] at this
    have hB' : InvG n beta V (fun k => if i < n + 1 then opBd rB beta (n + 1) V i k else k) := by
      by_cases hi : i < n + 1
      · simp only [if_pos hi]
        have := inv_opBd hB hb h hV hfin (⟨i - 1, by omega⟩ : Fin n)
        rwa [show ((⟨i - 1, by omega⟩ : Fin n) : ℕ) + 1 = i by simp; omega] at this
      · simp only [if_neg hi]
        exact InvG.id
    have e : (fun k st => gibbsStepE beta (n + 1) V (devDrawA rA) (devDrawB rB) i st k)
        = fun k => opAd rA beta (n + 1) V i (if i < n + 1 then opBd rB beta (n + 1) V i k else k) := by
      funext k st
      exact step_eq_d rA rB beta (n + 1) V i st k
    rw [e]
    exact hA'.comp hB'
  have hloop : ∀ is : List ℕ, (∀ i ∈ is, 1 ≤ i ∧ i ≤ n + 1) →
      InvG n beta V (fun k st => gibbsLoopE beta (n + 1) V (devDrawA rA) (devDrawB rB) is st k) := by
    intro is
    induction is with
    | nil => intro _; exact InvG.id
    | cons i is ih =>
      intro hi
      exact (hstep i (hi i (by simp)).1 (hi i (by simp)).2).comp (ih fun j hj => hi j (by simp [hj]))
  induction t with
  | zero => exact InvG.id
  | succ t ih =>
    refine InvG.comp (T := fun k st => gibbsPassE beta (n + 1) V (devDrawA rA) (devDrawB rB) st k) ?_ ih
    refine hloop _ fun i hi => ?_
    rw [List.mem_range'_1] at hi
    omega

theorem good_ae : ∀ᵐ p : (Fin (n + 1) → ℝ) × (Fin n → ℝ), ∀ i, p.1 i ≠ 0 := by
  rw [ae_all_iff]
  intro i
  have h1 : ∀ᵐ x : ℝ, x ≠ 0 := by
    rw [ae_iff]; simp
  have h2 : ∀ᵐ a : Fin (n + 1) → ℝ, a i ≠ 0 := (Measure.quasiMeasurePreserving_eval (fun _ : Fin (n + 1) => (volume : Measure ℝ)) i).ae h1
  exact Measure.quasiMeasurePreserving_fst.ae h2

end Verif.Lemmas.PL
