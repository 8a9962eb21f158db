import Verif.Props.BetaEnsembles
import Verif.Props.RandomMatrices
import Mathlib.Data.List.GetD

/-!
# C75 - C78: samples of the beta ensemble objects
-/

namespace Verif.Props
open Verif Verif.Model Verif.Lemmas Matrix
open scoped ComplexOrder

/-! ### C75: recorded samples are not modified -/

/-- **C75** (refuted). `normalize_points` of the Hermite class works in place: after `x = sample_banded_model(loc=1)` with `beta=0`
and `normalize_points(x)`, the recorded sample is no longer the sample that was drawn. -/
theorem C75_recorded_sample_changed_refuted (la : LA) : ∃ (st st' : EnsSt) (h : List (EnsCall × Outcome EnsRet)) (mid : EnsSt),
    ensInit .hermite (.int 0) = .ok st ∧
    EnsRun la st [(.banded 1 (√2) 1 none none, .ok (.array 0))] mid ∧ mid.samples = [0] ∧ mid.heap = [[1]] ∧
    EnsRun la mid h st' ∧ st'.samples = [0] ∧ st'.heap = [[0]] := by
  have hst : ensInit .hermite (.int 0) = .ok (ensNew .hermite (.int 0)) := by simp [ensInit, ensInitBase]
  have hb : (ensNew .hermite (.int 0)).b = 0 := by simp [EnsSt.b, ensNew, BetaVal.val]
  set st := ensNew .hermite (.int 0) with hst0
  set pr := hermiteBandedPrep la st 1 (√2) 1 with hpr
  have hruns : pr.2.Runs (.ok [1]) := by
    rw [hpr, hermiteBandedPrep, if_pos hb]
    simp only [RP.Runs]
    rw [if_neg (not_lt.2 (Real.sqrt_nonneg 2))]
    exact ⟨fun _ => 1, by simp [vecC]⟩
  have hstep : EnsStep la st (.banded 1 (√2) 1 none none) (ensRecord pr.1 (.ok [1])) := by
    apply EnsStep.sample (p := pr.2) _ hruns
    rw [ensPrep, show st.kind = EnsKind.hermite from rfl]
  have hrec : ensRecord pr.1 (.ok [1]) = ((ensRecord pr.1 (.ok [1])).1, .ok (.array 0)) := rfl
  set mid := (ensRecord pr.1 (.ok [1])).1 with hmid
  have hmb : mid.b = 0 := hb
  have hnorm : ensNormalize mid 0 = ({ mid with heap := [[0]] }, .ok (.array 0)) := by
    have hk : mid.kind = .hermite := rfl
    have hh : mid.heap = [[1]] := rfl
    have hv : normValues mid [1] = ([0], true) := by
      rw [normValues, hk]
      simp only [hmb, lt_irrefl, gt_iff_lt, if_false]
      rw [if_pos (show mid.mode = .banded from rfl), show mid.params.loc = 1 from rfl]
      simp
    rw [ensNormalize, hk]
    simp [hh, hv]
  refine ⟨st, { mid with heap := [[0]] }, [(.normalize 0, .ok (.array 0))], mid, hst, ?_, rfl, rfl, ?_, rfl, rfl⟩
  · rw [hrec] at hstep
    exact EnsRun.cons hstep (EnsRun.nil _)
  · refine EnsRun.cons (st' := { mid with heap := [[0]] }) ?_ (EnsRun.nil _)
    rw [← hnorm]
    exact EnsStep.normalize 0 (by show 0 < 1; norm_num)

/-- **C75** (valid part). No call other than `normalize_points` on that very array ever modifies an array that has been returned;
for the Jacobi, circular and Ginibre classes no call at all does. -/
theorem C75_samples_unmodified_partial {la : LA} {st st' : EnsSt} {h : List (EnsCall × Outcome EnsRet)} (hrun : EnsRun la st h st')
    {ref : ℕ} (href : ref < st.heap.length)
    (hsafe : (st.kind = .hermite ∨ st.kind = .laguerre) → ∀ r, (EnsCall.normalize ref, r) ∉ h) :
    ref < st'.heap.length ∧ st'.heap.getD ref [] = st.heap.getD ref [] := by
  induction hrun with
  | nil st => exact ⟨href, rfl⟩
  | @cons st st1 st2 c r h hstep _ ih =>
    have hsafe' : (st.kind = .hermite ∨ st.kind = .laguerre) → ∀ r, (EnsCall.normalize ref, r) ∉ h :=
      fun hk r hr => hsafe hk r (List.mem_cons_of_mem _ hr)
    have hext : ∀ (l : List ℂ), (st.heap ++ [l]).getD ref [] = st.heap.getD ref [] := by
      intro l
      rw [List.getD_append _ _ _ _ href]
    have key : ref < st1.heap.length ∧ st1.heap.getD ref [] = st.heap.getD ref [] ∧ st1.kind = st.kind := by
      generalize hres : (st1, r) = res at hstep
      cases hstep with
      | @sample _ st' p o hp hr =>
        obtain ⟨-, e2, e3, -⟩ := prep_same hp
        cases o with
        | ok pts =>
          obtain ⟨rfl, rfl⟩ := Prod.mk.inj hres
          refine ⟨?_, ?_, e3⟩
          · simp only [e2, List.length_append, List.length_singleton]; omega
          · simp only [e2]; exact hext _
        | raise e =>
          obtain ⟨rfl, rfl⟩ := Prod.mk.inj hres
          exact ⟨by rw [e2]; exact href, by rw [e2], e3⟩
      | normalize q hq =>
        have h1 : st1 = (ensNormalize st q).1 := congrArg Prod.fst hres
        rcases hk : st.kind with _ | _ | _ | _ | _
        · have hne : q ≠ ref := by
            rintro rfl
            exact hsafe (Or.inl hk) r List.mem_cons_self
          rw [h1, ensNormalize, hk]
          simp only [List.length_set, List.getD_eq_getElem?_getD]
          exact ⟨href, by rw [List.getElem?_set_ne hne], trivial⟩
        · have hne : q ≠ ref := by
            rintro rfl
            exact hsafe (Or.inr hk) r List.mem_cons_self
          rw [h1, ensNormalize, hk]
          simp only [List.length_set, List.getD_eq_getElem?_getD]
          exact ⟨href, by rw [List.getElem?_set_ne hne], trivial⟩
        · rw [h1, ensNormalize, hk]
          simp only [normValues, hk]
          refine ⟨by simpa using href, ?_, trivial⟩
          rw [List.getD_eq_getElem _ _ hq, List.set_getElem_self]
        · rw [h1, ensNormalize, hk]
          simp only [normValues, hk]
          refine ⟨by simpa using href, ?_, trivial⟩
          rw [List.getD_eq_getElem _ _ hq, List.set_getElem_self]
        · rw [h1, ensNormalize, hk]
          exact ⟨by simp; omega, hext _, rfl⟩
      | newArray pts =>
        obtain ⟨rfl, rfl⟩ := Prod.mk.inj hres
        exact ⟨by simp; omega, hext _, rfl⟩
      | flush =>
        obtain ⟨rfl, rfl⟩ := Prod.mk.inj hres
        exact ⟨href, rfl, rfl⟩
      | display n =>
        obtain ⟨rfl, rfl⟩ := Prod.mk.inj hres
        exact ⟨href, rfl, rfl⟩
    have := ih key.1 (by rw [key.2.2]; exact hsafe')
    exact ⟨this.1, this.2.trans key.2.1⟩

/-! ### C76: what is displayed -/

theorem normValues_congr {st st' : EnsSt} (h1 : st'.kind = st.kind) (h2 : st'.beta = st.beta) (h3 : st'.mode = st.mode)
    (h4 : st'.params = st.params) (pts : List ℂ) : normValues st' pts = normValues st pts := by
  have hb : st'.b = st.b := by rw [EnsSt.b, EnsSt.b, h2]
  rw [normValues, normValues, h1, h3, h4, hb]

/-- after a successful sampling call the displayed points come from the parameters that call has set -/
theorem display_after {la : LA} {st st' : EnsSt} {c : EnsCall} {x : EnsSt × RP (List ℂ)} {r : ℕ}
    (h : EnsStep la st c (st', .ok (.array r))) (hp : ensPrep la st c = some x) :
    ensDisplay st' true = if (normValues x.1 (st'.heap.getD r [])).2 then .ok (.shown (normValues x.1 (st'.heap.getD r [])).1)
      else .raise .typeError := by
  generalize hres : (st', Outcome.ok (EnsRet.array r)) = res at h
  cases h with
  | @sample _ st1 q o hp' hr =>
    rw [hp] at hp'
    obtain rfl := Option.some.inj hp'
    cases o with
    | raise e => cases hres
    | ok pts =>
      obtain ⟨h1, h2⟩ := Prod.mk.inj hres
      simp only [Outcome.ok.injEq, EnsRet.array.injEq] at h2
      have hc : ∀ pts, normValues st' pts = normValues st1 pts := fun pts => by rw [h1]; exact normValues_congr rfl rfl rfl rfl _
      have hl : st'.samples.getLast? = some r := by rw [h1, h2]; simp
      rw [ensDisplay, hl]
      simp only [if_true, hc]
  | normalize => simp [ensPrep] at hp
  | newArray => simp [ensPrep] at hp
  | flush => simp [ensPrep] at hp
  | display => simp [ensPrep] at hp

theorem sqrt_half : (√0.5 : ℝ) = (√2)⁻¹ := by
  rw [← Real.sqrt_inv]; norm_num

/-- **C76** (Hermite). Right after a successful banded call, `plot`/`hist` with `normalization=True` displays `√2 (x - loc) / scale`,
divided by `√(beta N)` when `beta > 0`; after a full call it displays `x / √(beta N)` (`x` when `beta = 0`). -/
theorem C76_hermite_display {la : LA} {st st' : EnsSt} {r : ℕ} (hk : st.kind = .hermite) :
    (∀ {loc scale : ℝ} {N : ℕ} {M1 M2}, EnsStep la st (.banded loc scale N M1 M2) (st', .ok (.array r)) →
      ensDisplay st' true = .ok (.shown ((st'.heap.getD r []).map fun x =>
        ((√2 : ℝ) : ℂ) * (x - loc) / scale / (if st.b > 0 then ((√(st.b * N) : ℝ) : ℂ) else 1)))) ∧
    (∀ {N M1 M2 : ℕ} {m}, EnsStep la st (.full N M1 M2 m) (st', .ok (.array r)) →
      ensDisplay st' true = .ok (.shown ((st'.heap.getD r []).map fun x =>
        x / (if st.b > 0 then ((√(st.b * N) : ℝ) : ℂ) else 1)))) := by
  constructor
  · intro loc scale N M1 M2 h
    have hp : ensPrep la st (.banded loc scale N M1 M2) = some (hermiteBandedPrep la st loc scale N) := by rw [ensPrep, hk]
    rw [display_after h hp]
    set mid := (hermiteBandedPrep la st loc scale N).1 with hmid
    have hn : ∀ pts, normValues mid pts = (pts.map fun x =>
        ((√2 : ℝ) : ℂ) * (x - loc) / scale / (if st.b > 0 then ((√(st.b * N) : ℝ) : ℂ) else 1), true) := by
      intro pts
      rw [normValues, show mid.kind = .hermite from hk]
      simp only
      rw [if_pos (show mid.mode = .banded from rfl), show mid.b = st.b from rfl, show mid.params.loc = loc from rfl,
        show mid.params.scale = scale from rfl, show mid.params.sizeN = N from rfl, sqrt_half]
      split_ifs
      · rw [List.map_map]
        congr 1
        apply List.map_congr_left
        intro x _
        simp only [Function.comp]
        push_cast
        field_simp
      · congr 1
        apply List.map_congr_left
        intro x _
        push_cast
        field_simp
    rw [hn, if_pos rfl]
  · intro N M1 M2 m h
    have hp : ensPrep la st (.full N M1 M2 m) = some (hermiteFullPrep la st N) := by rw [ensPrep, hk]
    rw [display_after h hp]
    set mid := (hermiteFullPrep la st N).1 with hmid
    have hn : ∀ pts, normValues mid pts = (pts.map fun x =>
        x / (if st.b > 0 then ((√(st.b * N) : ℝ) : ℂ) else 1), true) := by
      intro pts
      rw [normValues, show mid.kind = .hermite from hk]
      simp only
      rw [if_neg (show ¬ mid.mode = .banded from by rw [show mid.mode = .full from rfl]; simp), show mid.b = st.b from rfl,
        show mid.params.sizeN = N from rfl]
      split_ifs
      · rfl
      · simp
    rw [hn, if_pos rfl]

/-- **C76** (Laguerre). Right after a successful banded call with shape `k` and scale `θ` (no `size_M`), the normalised display is
`(2 x / θ) / (beta M)` with `M = 2 k / beta + N - 1`; with a size `M` (banded or full) it is `x / (beta M)`; for `beta = 0` the
points are not divided by `beta M`. -/
theorem C76_laguerre_display {la : LA} {st st' : EnsSt} {r : ℕ} (hk : st.kind = .laguerre) (hb : 0 < st.b) :
    (∀ {k θ : ℝ} {N : ℕ} {M2}, EnsStep la st (.banded k θ N none M2) (st', .ok (.array r)) →
      ensDisplay st' true = .ok (.shown ((st'.heap.getD r []).map fun x =>
        2 * x / θ / ((st.b * (2 * k / st.b + N - 1) : ℝ) : ℂ)))) ∧
    (∀ {k θ : ℝ} {N : ℕ} {M : ℝ} {M2}, M ≠ 0 → EnsStep la st (.banded k θ N (some M) M2) (st', .ok (.array r)) →
      ensDisplay st' true = .ok (.shown ((st'.heap.getD r []).map fun x => x / ((st.b * M : ℝ) : ℂ)))) ∧
    (∀ {N M M2 : ℕ} {m}, EnsStep la st (.full N M M2 m) (st', .ok (.array r)) →
      ensDisplay st' true = .ok (.shown ((st'.heap.getD r []).map fun x => x / ((st.b * M : ℝ) : ℂ)))) := by
  refine ⟨?_, ?_, ?_⟩
  · intro k θ N M2 h
    have hp : ensPrep la st (.banded k θ N none M2) = some (laguerreBandedPrep la st k θ N none) := by rw [ensPrep, hk]
    rw [display_after h hp]
    set mid := (laguerreBandedPrep la st k θ N none).1 with hmid
    have hM : mid.params.sizeM = .num (2 / st.b * k + N - 1) := if_pos hb
    have hn : ∀ pts, normValues mid pts = (pts.map fun x =>
        2 * x / θ / ((st.b * (2 * k / st.b + N - 1) : ℝ) : ℂ), true) := by
      intro pts
      rw [normValues, show mid.kind = .laguerre from hk]
      simp only
      rw [if_pos (show mid.mode = .banded from rfl), show mid.b = st.b from rfl,
        show mid.params.scale = θ from rfl, hM, if_pos hb]
      simp only
      rw [List.map_map]
      congr 1
      apply List.map_congr_left
      intro x _
      simp only [Function.comp]
      rw [show 2 / st.b * k + N - 1 = 2 * k / st.b + N - 1 by ring]
      congr 1
      push_cast
      rw [show (0.5 : ℂ) = 1 / 2 by norm_num]
      field_simp
    rw [hn, if_pos rfl]
  · intro k θ N M M2 hM0 h
    have hp : ensPrep la st (.banded k θ N (some M) M2) = some (laguerreBandedPrep la st k θ N (some M)) := by rw [ensPrep, hk]
    by_cases hNM : (N : ℝ) ≤ M
    · rw [display_after h hp]
      have e : laguerreBandedPrep la st k θ N (some M) = ({ st with
            mode := .banded
            params := { st.params with shape := 0.5 * st.b * (M - N + 1), scale := 2, sizeN := N, sizeM := .num M } },
          laguerreBandedProg la st.b (0.5 * st.b * (M - N + 1)) 2 N) := by
        simp only [laguerreBandedPrep, if_neg hM0, if_pos hNM]
      set mid := (laguerreBandedPrep la st k θ N (some M)).1 with hmid
      have h1 : mid.kind = .laguerre := by rw [hmid, e]; exact hk
      have h2 : mid.mode = .banded := by rw [hmid, e]
      have h3 : mid.b = st.b := by rw [hmid, e]; rfl
      have h4 : mid.params.scale = 2 := by rw [hmid, e]
      have h5 : mid.params.sizeM = .num M := by rw [hmid, e]
      have hn : ∀ pts, normValues mid pts = (pts.map fun x => x / ((st.b * M : ℝ) : ℂ), true) := by
        intro pts
        rw [normValues, h1]
        simp only
        rw [if_pos h2, h3, h4, h5, if_pos hb]
        simp only
        rw [List.map_map]
        congr 1
        apply List.map_congr_left
        intro x _
        simp only [Function.comp]
        norm_num
      rw [hn, if_pos rfl]
    · exfalso
      have e : laguerreBandedPrep la st k θ N (some M) = ({ st with mode := .banded }, .fail .valueError) := by
        simp only [laguerreBandedPrep, if_neg hM0, if_neg hNM]
      rw [e] at hp
      generalize hres : (st', Outcome.ok (EnsRet.array r)) = res at h
      cases h with
      | @sample _ st1 q o hp' hr =>
        rw [hp] at hp'
        obtain ⟨rfl, rfl⟩ := Prod.mk.inj (Option.some.inj hp')
        simp only [RP.Runs] at hr
        subst hr
        cases hres
  · intro N M M2 m h
    have hp : ensPrep la st (.full N M M2 m) = some (laguerreFullPrep la st N M) := by rw [ensPrep, hk]
    by_cases hNM : N ≤ M
    · rw [display_after h hp]
      set mid := (laguerreFullPrep la st N M).1 with hmid
      have e : mid = { st with
            mode := .full
            params := { st.params with shape := 0.5 * st.b * ((M : ℝ) - N + 1), scale := 2, sizeN := N, sizeM := .num M } } := by
        rw [hmid, laguerreFullPrep, if_pos hNM]
      have h1 : mid.kind = .laguerre := by rw [e]; exact hk
      have h2 : ¬ mid.mode = .banded := by rw [e]; simp
      have h3 : mid.b = st.b := by rw [e]; rfl
      have h5 : mid.params.sizeM = .num M := by rw [e]
      have hn : ∀ pts, normValues mid pts = (pts.map fun x => x / ((st.b * M : ℝ) : ℂ), true) := by
        intro pts
        rw [normValues, h1]
        simp only
        rw [if_neg h2, h3, h5, if_pos hb]
      rw [hn, if_pos rfl]
    · exfalso
      rw [laguerreFullPrep, if_neg hNM] at hp
      generalize hres : (st', Outcome.ok (EnsRet.array r)) = res at h
      cases h with
      | @sample _ st1 q o hp' hr =>
        rw [hp] at hp'
        obtain ⟨rfl, rfl⟩ := Prod.mk.inj (Option.some.inj hp')
        simp only [RP.Runs] at hr
        subst hr
        cases hres

/-- **C76** (refuted after a failed call). A call that raises has already changed the parameters: the same recorded sample is then
displayed with the parameters of the call that failed.  With `beta=0`: `sample_banded_model(0, √2, 1)` draws the point `1`, displayed as
`1`; after `sample_banded_model(0, -1, 1)`, which raises `ValueError`, it is displayed as `-√2`. -/
theorem C76_display_after_failure_refuted (la : LA) : ∃ (st mid st' : EnsSt),
    ensInit .hermite (.int 0) = .ok st ∧
    EnsRun la st [(.banded 0 (√2) 1 none none, .ok (.array 0))] mid ∧ ensDisplay mid true = .ok (.shown [1]) ∧
    EnsRun la mid [(.banded 0 (-1) 1 none none, .raise .valueError)] st' ∧ st'.samples = mid.samples ∧ st'.heap = mid.heap ∧
    ensDisplay st' true = .ok (.shown [((-√2 : ℝ) : ℂ)]) := by
  have hst : ensInit .hermite (.int 0) = .ok (ensNew .hermite (.int 0)) := by simp [ensInit, ensInitBase]
  have hb : (ensNew .hermite (.int 0)).b = 0 := by simp [EnsSt.b, ensNew, BetaVal.val]
  set st := ensNew .hermite (.int 0) with hst0
  set pr := hermiteBandedPrep la st 0 (√2) 1 with hpr
  have hruns : pr.2.Runs (.ok [1]) := by
    rw [hpr, hermiteBandedPrep, if_pos hb]
    simp only [RP.Runs]
    rw [if_neg (not_lt.2 (Real.sqrt_nonneg 2))]
    exact ⟨fun _ => 1, by simp [vecC]⟩
  have hstep : EnsStep la st (.banded 0 (√2) 1 none none) (ensRecord pr.1 (.ok [1])) := by
    apply EnsStep.sample (p := pr.2) _ hruns
    rw [ensPrep, show st.kind = EnsKind.hermite from rfl]
  have hrec : ensRecord pr.1 (.ok [1]) = ((ensRecord pr.1 (.ok [1])).1, .ok (.array 0)) := rfl
  set mid := (ensRecord pr.1 (.ok [1])).1 with hmid
  have hmb : mid.b = 0 := hb
  set pr2 := hermiteBandedPrep la mid 0 (-1) 1 with hpr2
  have hruns2 : pr2.2.Runs (.raise .valueError) := by
    rw [hpr2, hermiteBandedPrep, if_pos hmb]
    simp only [RP.Runs]
    rw [if_pos (by norm_num)]
    trivial
  have hstep2 : EnsStep la mid (.banded 0 (-1) 1 none none) (ensRecord pr2.1 (.raise .valueError)) := by
    apply EnsStep.sample (p := pr2.2) _ hruns2
    rw [ensPrep, show mid.kind = EnsKind.hermite from rfl]
  refine ⟨st, mid, pr2.1, hst, ?_, ?_, ?_, rfl, rfl, ?_⟩
  · rw [hrec] at hstep
    exact EnsRun.cons hstep (EnsRun.nil _)
  · rw [hrec] at hstep
    have := (C76_hermite_display (la := la) (st := st) (st' := mid) (r := 0) rfl).1 hstep
    rw [this, show mid.heap.getD 0 [] = [1] from rfl, hb]
    simp
  · exact EnsRun.cons hstep2 (EnsRun.nil _)
  · rw [ensDisplay, show pr2.1.samples.getLast? = some 0 from rfl]
    simp only [if_true]
    have hv : normValues pr2.1 [1] = ([((-√2 : ℝ) : ℂ)], true) := by
      rw [normValues, show pr2.1.kind = .hermite from rfl]
      simp only
      rw [if_pos (show pr2.1.mode = .banded from rfl), show pr2.1.b = 0 from hb, show pr2.1.params.loc = 0 from rfl,
        show pr2.1.params.scale = -1 from rfl, sqrt_half, if_neg (lt_irrefl _)]
      simp
    rw [show pr2.1.heap.getD 0 [] = [1] from rfl, hv, if_pos rfl]

end Verif.Props
