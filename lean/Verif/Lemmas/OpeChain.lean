import Verif.Lemmas.OpeProp3
import Mathlib.MeasureTheory.Integral.Marginal
import Mathlib.Algebra.BigOperators.Fin

/-!
The chain rule of `MultivariateJacobiOPE.sample`: one point.
-/

namespace Verif.Lemmas
open MeasureTheory ProbabilityTheory Verif Verif.Model Verif.Spec Verif.Props Matrix
open scoped ENNReal

variable {d : ℕ}

theorem resid_rows {N : ℕ} (s : OpeSt d N) (n : ℕ) (v : Fin N → ℝ) :
    jacResid (opeRows s n) v = v - ∑ i : Fin N, if (i : ℕ) < n then (s.2 i ⬝ᵥ v) • s.2 i else 0 := by
  rw [jacResid, opeRows, List.map_take, List.map_ofFn, List.sum_take_ofFn, Finset.sum_filter]
  rfl

theorem measurable_dot {N : ℕ} {S : Type*} [MeasurableSpace S] {f g : S → Fin N → ℝ} (hf : Measurable f) (hg : Measurable g) :
    Measurable fun s => f s ⬝ᵥ g s :=
  Finset.measurable_sum _ fun i _ => ((measurable_pi_apply i).comp hf).mul ((measurable_pi_apply i).comp hg)

theorem measurable_resid {N : ℕ} (n : ℕ) : Measurable fun p : OpeSt d N × (Fin N → ℝ) => jacResid (opeRows p.1 n) p.2 := by
  simp only [resid_rows]
  refine measurable_snd.sub (Finset.measurable_sum _ fun i _ => ?_)
  have h1 : Measurable fun p : OpeSt d N × (Fin N → ℝ) => p.1.2 i :=
    (measurable_pi_apply i).comp (measurable_snd.comp measurable_fst)
  split_ifs
  · exact (measurable_dot h1 measurable_snd).smul h1
  · exact measurable_const

open Classical in
theorem measurable_ite_law {S α : Type} [MeasurableSpace S] [MeasurableSpace α] {ρ : S → ℝ} (hρ : Measurable ρ) {a : S → α} (ha : Measurable a)
    {p : S → RP α} (hp : Measurable fun s => (p s).law) :
    Measurable (Function.uncurry fun (s : S) (u : Fin 1 → ℝ) => (if u 0 < ρ s then RP.ret (a s) else p s).law) := by
  have : (Function.uncurry fun (s : S) (u : Fin 1 → ℝ) => (if u 0 < ρ s then RP.ret (a s) else p s).law)
      = fun z : S × (Fin 1 → ℝ) => if z.2 0 < ρ z.1 then Measure.dirac (a z.1) else (p z.1).law := by
    funext z
    simp only [Function.uncurry]
    split_ifs <;> rfl
  rw [this]
  refine Measurable.ite ?_ ?_ ?_
  · exact measurableSet_lt ((measurable_pi_apply (0 : Fin 1)).comp measurable_snd) (hρ.comp measurable_fst)
  · exact Measure.measurable_dirac.comp (ha.comp measurable_fst)
  · exact hp.comp measurable_fst

section
variable (par : Fin d → ℝ × ℝ) (L : List (List ℕ)) (n : Fin L.length)

/-- `phi[n]` after the projection -/
noncomputable def chRes (s : OpeSt d L.length) (x : Fin d → ℝ) : Fin L.length → ℝ := jacResid (opeRows s n) (opePhi par L x)

/-- `schur` -/
noncomputable def chSchur (s : OpeSt d L.length) (x : Fin d → ℝ) : ℝ := chRes par L n s x ⬝ᵥ chRes par L n s x

/-- acceptance ratio -/
noncomputable def chRatio (s : OpeSt d L.length) (x : Fin d → ℝ) : ℝ := jacRatio (opeRows s n) (opePhi par L x)

/-- state after an acceptance -/
noncomputable def chAcc (s : OpeSt d L.length) (x : Fin d → ℝ) : OpeSt d L.length :=
  (Function.update s.1 n x, Function.update s.2 n ((√(chSchur par L n s x))⁻¹ • chRes par L n s x))

/-- state after a rejection -/
noncomputable def chRej (s : OpeSt d L.length) (x : Fin d → ℝ) : OpeSt d L.length :=
  (Function.update s.1 n x, Function.update s.2 n (chRes par L n s x))

open Classical in
theorem trials_succ (T0 T : ℕ) (s : OpeSt d L.length) : opeTrials par L T0 n (T + 1) s
    = (opeProposal par L T0).bind fun x => .unif 1 fun u =>
      if u 0 < chRatio par L n s x then .ret (chAcc par L n s x) else opeTrials par L T0 n T (chRej par L n s x) := rfl

theorem measurable_chRes : Measurable fun p : OpeSt d L.length × (Fin d → ℝ) => chRes par L n p.1 p.2 :=
  (measurable_resid (d := d) (N := L.length) n).comp (measurable_fst.prodMk ((measurable_opePhi par L).comp measurable_snd))

theorem measurable_chSchur : Measurable fun p : OpeSt d L.length × (Fin d → ℝ) => chSchur par L n p.1 p.2 :=
  measurable_dot (measurable_chRes par L n) (measurable_chRes par L n)

theorem measurable_chRatio : Measurable fun p : OpeSt d L.length × (Fin d → ℝ) => chRatio par L n p.1 p.2 := by
  have h : Measurable fun p : OpeSt d L.length × (Fin d → ℝ) => opePhi par L p.2 := (measurable_opePhi par L).comp measurable_snd
  exact (measurable_chSchur par L n).div (measurable_dot h h)

theorem measurable_chRej : Measurable fun p : OpeSt d L.length × (Fin d → ℝ) => chRej par L n p.1 p.2 := by
  refine Measurable.prodMk ?_ ?_
  · exact measurable_update'.comp ((measurable_fst.comp measurable_fst).prodMk measurable_snd)
  · exact measurable_update'.comp ((measurable_snd.comp measurable_fst).prodMk (measurable_chRes par L n))

theorem measurable_chAcc : Measurable fun p : OpeSt d L.length × (Fin d → ℝ) => chAcc par L n p.1 p.2 := by
  refine Measurable.prodMk ?_ ?_
  · exact measurable_update'.comp ((measurable_fst.comp measurable_fst).prodMk measurable_snd)
  · refine measurable_update'.comp ((measurable_snd.comp measurable_fst).prodMk ?_)
    exact ((measurable_chSchur par L n).sqrt.inv).smul (measurable_chRes par L n)

variable {L}

attribute [local irreducible] chAcc chRej chRes chRatio chSchur

theorem trials_meas {T0 : ℕ} (hT : T0 ≠ 0) (T : ℕ) :
    (Measurable fun s => (opeTrials par L T0 n T s).law) ∧ ∀ s, RPMeas (opeTrials par L T0 n T s) := by
  have hne : L ≠ [] := by rintro rfl; exact n.elim0
  have hprob := proposal_prob par hne hT
  induction T with
  | zero => exact ⟨Measure.measurable_dirac, fun _ => trivial⟩
  | succ T ih =>
    classical
    have hu : Measurable (Function.uncurry fun (p : OpeSt d L.length × (Fin d → ℝ)) (u : Fin 1 → ℝ) =>
        (if u 0 < chRatio par L n p.1 p.2 then RP.ret (chAcc par L n p.1 p.2)
          else opeTrials par L T0 n T (chRej par L n p.1 p.2)).law) := by
      exact measurable_ite_law (measurable_chRatio par L n) (measurable_chAcc par L n) (ih.1.comp (measurable_chRej par L n))
    have hk : Measurable fun p : OpeSt d L.length × (Fin d → ℝ) => (RP.unif 1 fun u =>
        if u 0 < chRatio par L n p.1 p.2 then RP.ret (chAcc par L n p.1 p.2)
          else opeTrials par L T0 n T (chRej par L n p.1 p.2)).law := measurable_bind_param hu
    have hks : ∀ s, Measurable fun x : Fin d → ℝ => (RP.unif 1 fun u =>
        if u 0 < chRatio par L n s x then RP.ret (chAcc par L n s x)
          else opeTrials par L T0 n T (chRej par L n s x)).law := by
      intro s
      have hs : Measurable fun x : Fin d → ℝ => (s, x) := measurable_const.prodMk measurable_id
      exact measurable_bind_param (measurable_ite_law ((measurable_chRatio par L n).comp hs) ((measurable_chAcc par L n).comp hs)
        (ih.1.comp ((measurable_chRej par L n).comp hs)))
    constructor
    · have e : (fun s => (opeTrials par L T0 n (T + 1) s).law) = fun s => (opeProposal par L T0).law.bind fun x => (RP.unif 1 fun u =>
        if u 0 < chRatio par L n s x then RP.ret (chAcc par L n s x)
          else opeTrials par L T0 n T (chRej par L n s x)).law := by
        funext s
        rw [trials_succ]
        exact law_bind (proposal_meas par L T0) (hks s)
      rw [e]
      exact measurable_bind_param hk
    · intro s
      rw [trials_succ]
      refine (proposal_meas par L T0).bind (hks s) fun x => ⟨hu.comp (measurable_prodMk_left (x := (s, x))), fun u => ?_⟩
      beta_reduce
      split_ifs
      · trivial
      · exact ih.2 _

/-- acceptance probability -/
noncomputable def chR (s : OpeSt d L.length) (x : Fin d → ℝ) : ℝ≥0∞ := ENNReal.ofReal (min 1 (max 0 (chRatio par L n s x)))

theorem measurable_chR (s : OpeSt d L.length) : Measurable (chR par n s) := by
  have : Measurable fun x => chRatio par L n s x := (measurable_chRatio par L n).comp (measurable_prodMk_left (x := s))
  exact (measurable_const.min (measurable_const.max this)).ennreal_ofReal

theorem chR_le_one (s : OpeSt d L.length) (x : Fin d → ℝ) : chR par n s x ≤ 1 := by
  rw [chR, ← ENNReal.ofReal_one]
  exact ENNReal.ofReal_le_ofReal (min_le_left _ _)

theorem trials_value {T0 : ℕ} (hT : T0 ≠ 0) (T : ℕ) (s : OpeSt d L.length) {g : OpeSt d L.length → ℝ≥0∞} (hg : Measurable g) :
    ∫⁻ z, g z ∂(opeTrials par L T0 n (T + 1) s).law
      = ∫⁻ x, (chR par n s x * g (chAcc par L n s x)
          + (1 - chR par n s x) * ∫⁻ z, g z ∂(opeTrials par L T0 n T (chRej par L n s x)).law) ∂(opeProposal par L T0).law := by
  classical
  have hm := (trials_meas par n hT T).1
  have hc : ∀ x, MeasurableSet {u : Fin 1 → ℝ | u 0 < chRatio par L n s x} := fun x =>
    measurableSet_lt (measurable_pi_apply 0) measurable_const
  have hv : ∀ x, ∫⁻ z, g z ∂(RP.unif 1 fun u => if u 0 < chRatio par L n s x then RP.ret (chAcc par L n s x)
          else opeTrials par L T0 n T (chRej par L n s x)).law
      = chR par n s x * g (chAcc par L n s x)
          + (1 - chR par n s x) * ∫⁻ z, g z ∂(opeTrials par L T0 n T (chRej par L n s x)).law := by
    intro x
    rw [lintegral_unif_ite (hc x) _ _ hg, unifM_lt]
    rfl
  have hk : Measurable fun x : Fin d → ℝ => (RP.unif 1 fun u => if u 0 < chRatio par L n s x then RP.ret (chAcc par L n s x)
          else opeTrials par L T0 n T (chRej par L n s x)).law := by
    refine measurable_bind_param (f := fun (x : Fin d → ℝ) (u : Fin 1 → ℝ) => (if u 0 < chRatio par L n s x then RP.ret (chAcc par L n s x)
          else opeTrials par L T0 n T (chRej par L n s x)).law) ?_
    have hs : Measurable fun x : Fin d → ℝ => (s, x) := measurable_const.prodMk measurable_id
    exact measurable_ite_law ((measurable_chRatio par L n).comp hs) ((measurable_chAcc par L n).comp hs)
      (hm.comp ((measurable_chRej par L n).comp hs))
  rw [trials_succ, law_bind (proposal_meas par L T0) hk, Measure.lintegral_bind hk.aemeasurable hg.aemeasurable]
  exact lintegral_congr hv

attribute [local semireducible] chAcc chRej chRes chRatio chSchur

theorem rows_update (s : OpeSt d L.length) (a : Fin L.length → Fin d → ℝ) (w : Fin L.length → ℝ) :
    opeRows ((a, Function.update s.2 n w) : OpeSt d L.length) n = opeRows s n := by
  refine List.ext_getElem (by simp [opeRows]) fun i h1 h2 => ?_
  simp only [opeRows, List.getElem_take, List.getElem_ofFn]
  have : i < n := by simp only [opeRows, List.length_take] at h1; omega
  exact Function.update_of_ne (fun h => by rw [← h] at this; exact lt_irrefl _ this) _ _

theorem chRes_rej (s : OpeSt d L.length) (x y : Fin d → ℝ) : chRes par L n (chRej par L n s x) y = chRes par L n s y := by
  rw [chRes, chRej, rows_update, chRes]

theorem chRatio_rej (s : OpeSt d L.length) (x y : Fin d → ℝ) : chRatio par L n (chRej par L n s x) y = chRatio par L n s y := by
  rw [chRatio, chRej, rows_update, chRatio]

theorem chR_rej (s : OpeSt d L.length) (x y : Fin d → ℝ) : chR par n (chRej par L n s x) y = chR par n s y := by
  rw [chR, chRatio_rej, chR]

theorem chAcc_rej (s : OpeSt d L.length) (x y : Fin d → ℝ) : chAcc par L n (chRej par L n s x) y = chAcc par L n s y := by
  rw [chAcc, chSchur, chRes_rej, chAcc, chSchur, chRej]
  simp only [Function.update_idem]

theorem chRej_rej (s : OpeSt d L.length) (x y : Fin d → ℝ) : chRej par L n (chRej par L n s x) y = chRej par L n s y := by
  rw [chRej, chRes_rej, chRej, chRej]
  simp only [Function.update_idem]

/-- the accepted part of the value of the loop over the trials -/
theorem trials_lower {T0 : ℕ} (hT : T0 ≠ 0) (T : ℕ) (s : OpeSt d L.length) {g : OpeSt d L.length → ℝ≥0∞} (hg : Measurable g) :
    (∑ t ∈ Finset.range T, (1 - ∫⁻ y, chR par n s y ∂(opeProposal par L T0).law) ^ t)
        * ∫⁻ y, chR par n s y * g (chAcc par L n s y) ∂(opeProposal par L T0).law
      ≤ ∫⁻ z, g z ∂(opeTrials par L T0 n T s).law := by
  have hne : L ≠ [] := by rintro rfl; exact n.elim0
  have hprob := proposal_prob par hne hT
  have hga : Measurable fun y => g (chAcc par L n s y) :=
    hg.comp ((measurable_chAcc par L n).comp (measurable_prodMk_left (x := s)))
  have key := reject_lower (ν := (opeProposal par L T0).law) (measurable_chR par n s) (chR_le_one par n s) hga
    (V := fun T x => ∫⁻ z, g z ∂(opeTrials par L T0 n T (chRej par L n s x)).law) (fun T x => by
      rw [trials_value par n hT T _ hg]
      simp only [chR_rej, chAcc_rej, chRej_rej]
      exact le_rfl) T 0
  cases T with
  | zero => simp
  | succ T =>
    refine key.trans (le_of_eq ?_)
    rw [trials_value par n hT T _ hg, trials_value par n hT T _ hg]
    simp only [chR_rej, chAcc_rej, chRej_rej]

end

end Verif.Lemmas
