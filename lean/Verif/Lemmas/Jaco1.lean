import Verif.Lemmas.BetaGamma
import Verif.Lemmas.Haar4
import Verif.Lemmas.GaussMat2

/-!
# Parts of a Gaussian vector; reflections
-/

namespace Verif.Lemmas
open Finset Matrix MeasureTheory ProbabilityTheory Verif.Model
open scoped ComplexConjugate

variable {n : ℕ} {γ : Measure ℂ} {K : StarSubalgebra ℝ ℂ} {beta : ℝ}

/-- squared norm of the coordinates selected by `q` -/
noncomputable def selN {ι : Type} [Fintype ι] (q : ι → Bool) (a : ι → ℂ) : ℝ := ∑ i, if q i then Complex.normSq (a i) else 0

/-- share of the squared norm carried by the coordinates selected by `q` -/
noncomputable def share {ι : Type} [Fintype ι] (q : ι → Bool) (a : ι → ℂ) : ℝ := selN q a / (selN q a + selN (fun i => !q i) a)

theorem measurable_selN {ι : Type} [Fintype ι] (q : ι → Bool) : Measurable (selN q) := by
  unfold selN
  refine Finset.measurable_sum _ fun i _ => ?_
  split_ifs
  · exact Complex.continuous_normSq.measurable.comp (measurable_pi_apply i)
  · exact measurable_const

theorem measurable_share {ι : Type} [Fintype ι] (q : ι → Bool) : Measurable (share q) :=
  (measurable_selN q).div ((measurable_selN q).add (measurable_selN _))

theorem selN_nonneg {ι : Type} [Fintype ι] (q : ι → Bool) (a : ι → ℂ) : 0 ≤ selN q a :=
  Finset.sum_nonneg fun i _ => by split_ifs; exacts [Complex.normSq_nonneg _, le_rfl]

/-- the number of selected coordinates -/
def cnt {ι : Type} [Fintype ι] (q : ι → Bool) : ℕ := (univ.filter fun i => q i = true).card

theorem cnt_not {ι : Type} [Fintype ι] (q : ι → Bool) : cnt q + cnt (fun i => !q i) = Fintype.card ι := by
  classical
  have h := Finset.card_filter_add_card_filter_not (s := (univ : Finset ι)) (fun i => q i = true)
  rw [cnt, cnt]
  simpa using h

theorem norm_sub {ι : Type} [Fintype ι] (hγ : GaussOK γ beta) (p : ι → Prop) [DecidablePred p] {k : ℕ} (hk : Fintype.card {i // p i} = k) :
    (Measure.pi fun _ : {i // p i} => γ).map (fun x => ∑ i, Complex.normSq (x i)) = RP.gammaLaw (beta / 2 * k) 2 := by
  have := hγ.prob
  let e : Fin k ≃ {i // p i} := (Fintype.equivFinOfCardEq hk).symm
  have hm : Measurable fun x : Fin k → ℂ => ∑ i, Complex.normSq (x i) := measurable_sumNormSq k
  rw [← hγ.norm k, ← pi_reindex γ e, Measure.map_map hm (by fun_prop)]
  congr 1
  funext x
  exact (Equiv.sum_comp e fun i => Complex.normSq (x i)).symm

/-- law of the share -/
theorem law_share {ι : Type} [Fintype ι] (hγ : GaussK γ K beta) (q : ι → Bool) (h1 : 1 ≤ cnt q) (h2 : 1 ≤ cnt fun i => !q i) :
    (Measure.pi fun _ : ι => γ).map (share q) = betaMeasure (beta / 2 * cnt q) (beta / 2 * cnt fun i => !q i) := by
  classical
  have := hγ.ok.prob
  have hb := hγ.beta_pos
  have hp := measurePreserving_piEquivPiSubtypeProd (fun _ : ι => γ) (fun i => q i = true)
  have hc1 : Fintype.card {i // q i = true} = cnt q := by rw [Fintype.card_subtype, cnt]
  have hc2 : Fintype.card {i // ¬ q i = true} = cnt fun i => !q i := by
    rw [Fintype.card_subtype, cnt]
    congr 1
    ext i; simp
  have n1 := norm_sub hγ.ok (fun i => q i = true) hc1
  have n2 := norm_sub hγ.ok (fun i => ¬ q i = true) hc2
  have hg : ∀ k : ℕ, 1 ≤ k → RP.gammaLaw (beta / 2 * k) 2 = gammaMeasure (beta / 2 * k) (1 / 2) := fun k hk => by
    have : (0 : ℝ) < k := by exact_mod_cast hk
    rw [RP.gammaLaw, if_neg]
    rintro (h | h)
    · have : 0 < beta / 2 * k := by positivity
      exact this.ne' h
    · norm_num at h
  rw [hg _ h1] at n1
  rw [hg _ h2] at n2
  have hm1 : ∀ (p : ι → Prop) [DecidablePred p], Measurable fun x : {i // p i} → ℂ => ∑ i, Complex.normSq (x i) := fun p _ =>
    Finset.measurable_sum _ fun i _ => Complex.continuous_normSq.measurable.comp (measurable_pi_apply i)
  have e : share q = (fun p : ℝ × ℝ => p.1 / (p.1 + p.2)) ∘ (Prod.map (fun x : {i // q i = true} → ℂ => ∑ i, Complex.normSq (x i))
      fun x : {i // ¬ q i = true} → ℂ => ∑ i, Complex.normSq (x i)) ∘ MeasurableEquiv.piEquivPiSubtypeProd (fun _ : ι => ℂ) (fun i => q i = true) := by
    funext a
    have s1 : selN q a = ∑ i : {i // q i = true}, Complex.normSq (a i) := by
      rw [selN, ← Finset.sum_filter, Finset.sum_subtype (p := fun i => q i = true)]
      intro i; simp
    have s2 : selN (fun i => !q i) a = ∑ i : {i // ¬ q i = true}, Complex.normSq (a i) := by
      rw [selN, ← Finset.sum_filter, Finset.sum_subtype (p := fun i => ¬ q i = true)]
      intro i; simp
    rw [share, s1, s2]
    rfl
  rw [e, ← Measure.map_map (by fun_prop) (((hm1 _).prodMap (hm1 _)).comp (MeasurableEquiv.measurable _)),
    ← Measure.map_map ((hm1 _).prodMap (hm1 _)) (MeasurableEquiv.measurable _), hp.map_eq, ← Measure.map_prod_map _ _ (hm1 _) (hm1 _), n1, n2]
  have p1 : (0 : ℝ) < cnt q := by exact_mod_cast h1
  have p2 : (0 : ℝ) < (cnt fun i => !q i : ℕ) := by exact_mod_cast h2
  exact gamma_ratio (by positivity) (by positivity) (by norm_num)

end Verif.Lemmas
