import Verif.Lemmas.PolyLaw3
import Verif.Spec.GibbsChain

/-!
Invariance of the joint density under the steps of the Gibbs sampler with exact draws.
-/

namespace Verif.Lemmas.PL
open Finset MeasureTheory Verif.Model Verif.Spec Verif.Lemmas Polynomial

theorem gibbs_inv {S R : Type} [MeasureSpace S] [MeasureSpace R] [SFinite (volume : Measure R)] (e : S ≃ᵐ ℝ × R)
    (he : MeasurePreserving e volume volume) {upd : S → ℝ → S} (hupd : ∀ p x, upd p x = e.symm (x, (e p).2))
    {D Φ : S → ENNReal} (hD : Measurable D) (hΦ : Measurable Φ) (hfin : ∫⁻ p, D p ≠ ⊤) :
    (Measurable fun p => (∫⁻ x, Φ (upd p x) * D (upd p x)) / ∫⁻ x, D (upd p x))
    ∧ ∫⁻ p, D p * ((∫⁻ x, Φ (upd p x) * D (upd p x)) / ∫⁻ x, D (upd p x)) = ∫⁻ p, D p * Φ p := by
  obtain ⟨D', hD'⟩ : ∃ D' : ℝ × R → ENNReal, D' = fun z => D (e.symm z) := ⟨_, rfl⟩
  obtain ⟨F', hF'⟩ : ∃ F' : ℝ × R → ENNReal, F' = fun z => Φ (e.symm z) := ⟨_, rfl⟩
  have hD'm : Measurable D' := by rw [hD']; exact hD.comp e.symm.measurable
  have hF'm : Measurable F' := by rw [hF']; exact hΦ.comp e.symm.measurable
  have hA : Measurable fun r => ∫⁻ x, F' (x, r) * D' (x, r) := (hF'm.mul hD'm).lintegral_prod_left'
  have hm : Measurable fun r => ∫⁻ x, D' (x, r) := hD'm.lintegral_prod_left'
  have hq : ∀ p, (∫⁻ x, Φ (upd p x) * D (upd p x)) / ∫⁻ x, D (upd p x)
      = (∫⁻ x, F' (x, (e p).2) * D' (x, (e p).2)) / ∫⁻ x, D' (x, (e p).2) := by
    intro p
    simp only [hupd, hD', hF']
  have hint : ∀ G : S → ENNReal, ∫⁻ p, G p = ∫⁻ z, G (e.symm z) := by
    intro G
    rw [← he.lintegral_comp_emb e.measurableEmbedding]
    simp
  refine ⟨?_, ?_⟩
  · simp only [hq]
    exact (hA.comp (measurable_snd.comp e.measurable)).div (hm.comp (measurable_snd.comp e.measurable))
  simp only [hq]
  rw [hint, hint]
  simp only [MeasurableEquiv.apply_symm_apply]
  have h1 : ∫⁻ z, D' z ≠ ⊤ := by rw [hD', ← hint]; exact hfin
  change ∫⁻ z : ℝ × R, D (e.symm z) * ((∫⁻ x, F' (x, z.2) * D' (x, z.2)) / ∫⁻ x, D' (x, z.2)) = ∫⁻ z, D (e.symm z) * Φ (e.symm z)
  have h2 : ∀ z : ℝ × R, D (e.symm z) = D' z := fun z => by rw [hD']
  have h3 : ∀ z : ℝ × R, Φ (e.symm z) = F' z := fun z => by rw [hF']
  simp only [h2, h3]
  rw [Measure.volume_eq_prod] at h1 ⊢
  rw [lintegral_prod_symm _ hD'm.aemeasurable] at h1
  rw [lintegral_prod_symm (fun z : ℝ × R => D' z * ((∫⁻ x, F' (x, z.2) * D' (x, z.2)) / ∫⁻ x, D' (x, z.2)))
      (hD'm.mul ((hA.comp measurable_snd).div (hm.comp measurable_snd))).aemeasurable,
    lintegral_prod_symm (fun z : ℝ × R => D' z * F' z) (hD'm.mul hF'm).aemeasurable]
  refine lintegral_congr_ae ?_
  filter_upwards [ae_lt_top hm h1] with r hr
  have hDr : Measurable fun x => D' (x, r) := hD'm.comp measurable_prodMk_right
  change ∫⁻ x, D' (x, r) * _ = ∫⁻ x, D' (x, r) * F' (x, r)
  rw [lintegral_mul_const _ hDr]
  have hcomm : ∫⁻ x, F' (x, r) * D' (x, r) = ∫⁻ x, D' (x, r) * F' (x, r) := lintegral_congr fun x => mul_comm _ _
  rw [hcomm]
  by_cases h0 : ∫⁻ x, D' (x, r) = 0
  · rw [h0, zero_mul]
    refine (lintegral_eq_zero_of_ae_eq_zero ?_).symm
    filter_upwards [(lintegral_eq_zero_iff hDr).1 h0] with x hx
    have hx : D' (x, r) = 0 := hx
    change D' (x, r) * F' (x, r) = 0
    rw [hx, zero_mul]
  · exact ENNReal.mul_div_cancel h0 hr.ne

variable {n : ℕ}

/-- the coordinate `a_i` and the others -/
def eA (i : Fin (n + 1)) : (Fin (n + 1) → ℝ) × (Fin n → ℝ) ≃ᵐ ℝ × ((Fin n → ℝ) × (Fin n → ℝ)) :=
  (MeasurableEquiv.prodCongr (MeasurableEquiv.piFinSuccAbove (fun _ => ℝ) i) (MeasurableEquiv.refl _)).trans
    MeasurableEquiv.prodAssoc

theorem eA_mp (i : Fin (n + 1)) : MeasurePreserving (eA i) volume volume := by
  have h1 : MeasurePreserving (Prod.map (MeasurableEquiv.piFinSuccAbove (fun _ : Fin (n + 1) => ℝ) i) (id : (Fin n → ℝ) → _))
      (volume.prod volume) ((volume.prod volume).prod volume) :=
    (volume_preserving_piFinSuccAbove (fun _ : Fin (n + 1) => ℝ) i).prod (MeasurePreserving.id volume)
  have h2 := measurePreserving_prodAssoc (volume : Measure ℝ) (volume : Measure (Fin n → ℝ)) (volume : Measure (Fin n → ℝ))
  exact h2.comp h1

theorem eA_upd (i : Fin (n + 1)) (p : (Fin (n + 1) → ℝ) × (Fin n → ℝ)) (x : ℝ) :
    (Function.update p.1 i x, p.2) = (eA i).symm (x, (eA i p).2) := by
  rw [MeasurableEquiv.eq_symm_apply]
  refine Prod.ext ?_ (Prod.ext ?_ rfl)
  · change Function.update p.1 i x i = x
    simp
  · funext j
    change Function.update p.1 i x (i.succAbove j) = p.1 (i.succAbove j)
    rw [Function.update_of_ne (Fin.succAbove_ne i j)]

/-- the coordinate `b_i` and the others -/
def eB (i : Fin (n + 1)) : (Fin (n + 2) → ℝ) × (Fin (n + 1) → ℝ) ≃ᵐ ℝ × ((Fin n → ℝ) × (Fin (n + 2) → ℝ)) :=
  MeasurableEquiv.prodComm.trans
  ((MeasurableEquiv.prodCongr (MeasurableEquiv.piFinSuccAbove (fun _ => ℝ) i) (MeasurableEquiv.refl _)).trans
    MeasurableEquiv.prodAssoc)

theorem eB_mp (i : Fin (n + 1)) : MeasurePreserving (eB i) volume volume := by
  have h1 : MeasurePreserving (Prod.map (MeasurableEquiv.piFinSuccAbove (fun _ : Fin (n + 1) => ℝ) i) (id : (Fin (n + 2) → ℝ) → _))
      (volume.prod volume) ((volume.prod volume).prod volume) :=
    (volume_preserving_piFinSuccAbove (fun _ : Fin (n + 1) => ℝ) i).prod (MeasurePreserving.id volume)
  have h2 := measurePreserving_prodAssoc (volume : Measure ℝ) (volume : Measure (Fin n → ℝ)) (volume : Measure (Fin (n + 2) → ℝ))
  have h3 := Measure.measurePreserving_swap (μ := (volume : Measure (Fin (n + 2) → ℝ))) (ν := (volume : Measure (Fin (n + 1) → ℝ)))
  exact (h2.comp h1).comp h3

theorem eB_upd (i : Fin (n + 1)) (p : (Fin (n + 2) → ℝ) × (Fin (n + 1) → ℝ)) (x : ℝ) :
    (p.1, Function.update p.2 i x) = (eB i).symm (x, (eB i p).2) := by
  rw [MeasurableEquiv.eq_symm_apply]
  refine Prod.ext ?_ (Prod.ext ?_ rfl)
  · change Function.update p.2 i x i = x
    simp
  · funext j
    change Function.update p.2 i x (i.succAbove j) = p.2 (i.succAbove j)
    rw [Function.update_of_ne (Fin.succAbove_ne i j)]

/-- a transformation of observables that leaves the joint density invariant -/
def Inv (n : ℕ) (beta : ℝ) (V : ℝ[X]) (T : (GibbsSt → ENNReal) → GibbsSt → ENNReal) : Prop :=
  ∀ (k : GibbsSt → ENNReal) (Φ : (Fin (n + 1) → ℝ) × (Fin n → ℝ) → ENNReal), Measurable Φ →
    (∀ p, (∀ i, 0 < p.2 i) → k (gState p) = Φ p) →
    ∃ Ψ : (Fin (n + 1) → ℝ) × (Fin n → ℝ) → ENNReal, Measurable Ψ ∧ (∀ p, (∀ i, 0 < p.2 i) → T k (gState p) = Ψ p)
      ∧ ∫⁻ p, jacD beta V p * Ψ p = ∫⁻ p, jacD beta V p * Φ p

theorem Inv.id {beta : ℝ} {V : ℝ[X]} : Inv n beta V (fun k => k) :=
  fun _ Φ hΦ h => ⟨Φ, hΦ, h, rfl⟩

theorem Inv.comp {beta : ℝ} {V : ℝ[X]} {T U : (GibbsSt → ENNReal) → GibbsSt → ENNReal} (hT : Inv n beta V T)
    (hU : Inv n beta V U) : Inv n beta V (fun k => T (U k)) := by
  intro k Φ hΦ h
  obtain ⟨Ψ, hΨ, h1, h2⟩ := hU k Φ hΦ h
  obtain ⟨Ψ', hΨ', h1', h2'⟩ := hT (U k) Ψ hΨ h1
  exact ⟨Ψ', hΨ', h1', h2'.trans h2⟩

/-- the update of `a_i` -/
noncomputable def opA (beta : ℝ) (N : ℕ) (V : ℝ[X]) (i : ℕ) (k : GibbsSt → ENNReal) (st : GibbsSt) : ENNReal :=
  exactA (C (1 / 2 * beta * N) * condPolyA i st.a st.b V) (pyGet st.a i) fun x => k { a := st.a.set i x, b := st.b }

/-- the update of `b_i` -/
noncomputable def opB (beta : ℝ) (N : ℕ) (V : ℝ[X]) (i : ℕ) (k : GibbsSt → ENNReal) (st : GibbsSt) : ENNReal :=
  exactB (C (1 / 2 * beta * N) * condPolyB i st.a st.b V) (1 / 2 * beta * ((N : ℝ) - i)) fun z =>
    k { a := st.a, b := st.b.set i z }

theorem inv_opA {beta : ℝ} {V : ℝ[X]} (hV : V.natDegree ≤ 6)
    (hfin : ∫⁻ p, jacD (n := n) beta V p ≠ ⊤) (i : Fin (n + 1)) : Inv n beta V (opA beta (n + 1) V (i + 1)) := by
  intro k Φ hΦ hk
  obtain ⟨hm, hI⟩ := gibbs_inv (eA i) (eA_mp i) (upd := fun p x => (Function.update p.1 i x, p.2)) (eA_upd i)
    (measurable_jacD beta V) hΦ hfin
  refine ⟨_, hm, fun p hp => ?_, hI⟩
  obtain ⟨K, hK, hc⟩ := condA_dens (beta := beta) hV hp i
  have hK0 : ENNReal.ofReal K ≠ 0 := (ENNReal.ofReal_pos.2 hK).ne'
  rw [opA, exactA]
  have e1 : ∫⁻ x, Φ (Function.update p.1 i x, p.2) * jacD beta V (Function.update p.1 i x, p.2)
      = ENNReal.ofReal K * ∫⁻ x, k { a := (gState p).a.set (i + 1) x, b := (gState p).b }
        * ENNReal.ofReal (Real.exp (-(C (1 / 2 * beta * (n + 1 : ℕ))
        * condPolyA ((i + 1 : ℕ) : ℤ) (gState p).a (gState p).b V).eval x)) := by
    rw [← lintegral_const_mul' _ _ ENNReal.ofReal_ne_top]
    refine lintegral_congr fun x => ?_
    rw [hc x, ← hk (Function.update p.1 i x, p.2) hp, gS_setA, mul_left_comm]
    rfl
  have e2 : ∫⁻ x, jacD beta V (Function.update p.1 i x, p.2)
      = ENNReal.ofReal K * ∫⁻ x, ENNReal.ofReal (Real.exp (-(C (1 / 2 * beta * (n + 1 : ℕ))
        * condPolyA ((i + 1 : ℕ) : ℤ) (gState p).a (gState p).b V).eval x)) := by
    rw [← lintegral_const_mul' _ _ ENNReal.ofReal_ne_top]
    exact lintegral_congr fun x => hc x
  rw [e1, e2, ENNReal.mul_div_mul_left _ _ hK0 ENNReal.ofReal_ne_top]

theorem inv_opB {n : ℕ} {beta : ℝ} {V : ℝ[X]} (hV : V.natDegree ≤ 6)
    (hfin : ∫⁻ p, jacD (n := n) beta V p ≠ ⊤) (i : Fin n) : Inv n beta V (opB beta (n + 1) V (i + 1)) := by
  rcases n with _ | m
  · exact i.elim0
  intro k Φ hΦ hk
  obtain ⟨hm, hI⟩ := gibbs_inv (eB i) (eB_mp i) (upd := fun p x => (p.1, Function.update p.2 i x)) (eB_upd i)
    (measurable_jacD beta V) hΦ hfin
  refine ⟨_, hm, fun p hp => ?_, hI⟩
  obtain ⟨K, hK, hc⟩ := condB_dens (beta := beta) hV hp i
  have hK0 : ENNReal.ofReal K ≠ 0 := (ENNReal.ofReal_pos.2 hK).ne'
  have hz : ∀ x, x ∉ Set.Ioi (0 : ℝ) → jacD beta V (p.1, Function.update p.2 i x) = 0 := by
    intro x hx
    refine jacD_zero fun h => hx ?_
    have := h i
    change 0 < Function.update p.2 i x i at this
    rwa [Function.update_self] at this
  have hp' : ∀ x, 0 < x → ∀ j, 0 < Function.update p.2 i x j := by
    intro x hx j
    by_cases hj : j = i
    · subst hj; rw [Function.update_self]; exact hx
    · rw [Function.update_of_ne hj]; exact hp j
  have hset : ∀ f : ℝ → ENNReal, (∀ x, x ∉ Set.Ioi (0 : ℝ) → f x = 0) → ∫⁻ x, f x = ∫⁻ x in Set.Ioi (0 : ℝ), f x := by
    intro f hf
    rw [← lintegral_indicator measurableSet_Ioi]
    refine lintegral_congr fun x => ?_
    by_cases hx : x ∈ Set.Ioi (0 : ℝ)
    · rw [Set.indicator_of_mem hx]
    · rw [Set.indicator_of_notMem hx, hf x hx]
  rw [opB, exactB]
  have e1 : ∫⁻ x, Φ (p.1, Function.update p.2 i x) * jacD beta V (p.1, Function.update p.2 i x)
      = ENNReal.ofReal K * ∫⁻ x in Set.Ioi (0 : ℝ), k { a := (gState p).a, b := (gState p).b.set (i + 1) x }
        * ENNReal.ofReal (x ^ (1 / 2 * beta * (((m + 1 + 1 : ℕ) : ℝ) - ((i + 1 : ℕ) : ℝ)) - 1)
        * Real.exp (-(C (1 / 2 * beta * (m + 1 + 1 : ℕ))
        * condPolyB ((i + 1 : ℕ) : ℤ) (gState p).a (gState p).b V).eval x)) := by
    rw [hset _ fun x hx => by rw [hz x hx, mul_zero], ← lintegral_const_mul' _ _ ENNReal.ofReal_ne_top]
    refine setLIntegral_congr_fun measurableSet_Ioi fun x hx => ?_
    beta_reduce
    rw [hc x hx, ← hk (p.1, Function.update p.2 i x) (hp' x hx), gS_setB, mul_left_comm]
    rfl
  have e2 : ∫⁻ x, jacD beta V (p.1, Function.update p.2 i x)
      = ENNReal.ofReal K * ∫⁻ x in Set.Ioi (0 : ℝ),
        ENNReal.ofReal (x ^ (1 / 2 * beta * (((m + 1 + 1 : ℕ) : ℝ) - ((i + 1 : ℕ) : ℝ)) - 1)
        * Real.exp (-(C (1 / 2 * beta * (m + 1 + 1 : ℕ))
        * condPolyB ((i + 1 : ℕ) : ℤ) (gState p).a (gState p).b V).eval x)) := by
    rw [hset _ hz, ← lintegral_const_mul' _ _ ENNReal.ofReal_ne_top]
    exact setLIntegral_congr_fun measurableSet_Ioi fun x hx => hc x hx
  rw [e1, e2, ENNReal.mul_div_mul_left _ _ hK0 ENNReal.ofReal_ne_top]

theorem step_eq (beta : ℝ) (N : ℕ) (V : ℝ[X]) (i : ℕ) (st : GibbsSt) (k : GibbsSt → ENNReal) :
    gibbsStepE beta N V exactA exactB i st k = opA beta N V i (if i < N then opB beta N V i k else k) st := by
  rw [gibbsStepE, opA]
  congr 1
  funext x
  by_cases h : i < N
  · rw [if_pos h, if_pos h]; rfl
  · rw [if_neg h, if_neg h]

theorem inv_step {beta : ℝ} {V : ℝ[X]} (hV : V.natDegree ≤ 6) (hfin : ∫⁻ p, jacD (n := n) beta V p ≠ ⊤) {i : ℕ}
    (h1 : 1 ≤ i) (h2 : i ≤ n + 1) : Inv n beta V (fun k st => gibbsStepE beta (n + 1) V exactA exactB i st k) := by
  have hA : Inv n beta V (opA beta (n + 1) V i) := by
    have := inv_opA hV hfin (⟨i - 1, by omega⟩ : Fin (n + 1))
    rwa [show ((⟨i - 1, by omega⟩ : Fin (n + 1)) : ℕ) + 1 = i by simp; omega] at this
  have hB : Inv n beta V (fun k => if i < n + 1 then opB beta (n + 1) V i k else k) := by
    by_cases h : i < n + 1
    · simp only [if_pos h]
      have := inv_opB hV hfin (⟨i - 1, by omega⟩ : Fin n)
      rwa [show ((⟨i - 1, by omega⟩ : Fin n) : ℕ) + 1 = i by simp; omega] at this
    · simp only [if_neg h]
      exact Inv.id
  have := hA.comp hB
  have e : (fun k st => gibbsStepE beta (n + 1) V exactA exactB i st k)
      = fun k => opA beta (n + 1) V i (if i < n + 1 then opB beta (n + 1) V i k else k) := by
    funext k st
    exact step_eq beta (n + 1) V i st k
  rw [e]
  exact this

theorem inv_loop {beta : ℝ} {V : ℝ[X]} (hV : V.natDegree ≤ 6) (hfin : ∫⁻ p, jacD (n := n) beta V p ≠ ⊤) (is : List ℕ)
    (h : ∀ i ∈ is, 1 ≤ i ∧ i ≤ n + 1) : Inv n beta V (fun k st => gibbsLoopE beta (n + 1) V exactA exactB is st k) := by
  induction is with
  | nil => exact Inv.id
  | cons i is ih =>
    exact (inv_step hV hfin (h i (by simp)).1 (h i (by simp)).2).comp (ih fun j hj => h j (by simp [hj]))

theorem inv_run {beta : ℝ} {V : ℝ[X]} (hV : V.natDegree ≤ 6) (hfin : ∫⁻ p, jacD (n := n) beta V p ≠ ⊤) (t : ℕ) :
    Inv n beta V (fun k st => gibbsRunE beta (n + 1) V exactA exactB t st k) := by
  induction t with
  | zero => exact Inv.id
  | succ t ih =>
    refine Inv.comp (T := fun k st => gibbsPassE beta (n + 1) V exactA exactB st k) ?_ ih
    refine inv_loop hV hfin _ fun i hi => ?_
    rw [List.mem_range'_1] at hi
    omega

end Verif.Lemmas.PL
