import Verif.Lemmas.OpeChain2

/-!
Law of the sample of the chain rule of `MultivariateJacobiOPE.sample`.
-/

namespace Verif.Lemmas
open MeasureTheory ProbabilityTheory Verif Verif.Model Verif.Spec Verif.Props Matrix
open scoped ENNReal

variable {d : ℕ}

theorem exists_chain {m : ℕ} (vs : List (Fin m → ℝ)) : ∃ rows, GSChain vs rows := by
  induction vs using List.reverseRecOn with
  | nil => exact ⟨[], GSChain.nil⟩
  | append_singleton vs v ih =>
    obtain ⟨rows, h⟩ := ih
    exact ⟨_, h.snoc v⟩

theorem gramDet_take_zero {m : ℕ} {vs : List (Fin m → ℝ)} {n : ℕ} (h : gramDet (vs.take n) = 0) : gramDet vs = 0 := by
  obtain ⟨rows, hr⟩ := exists_chain vs
  rw [gramDet_eq (hr.take n)] at h
  obtain ⟨i, -, hi⟩ := Finset.prod_eq_zero_iff.1 h
  have hi2 : (i : ℕ) < n ∧ (i : ℕ) < vs.length := by
    have := i.2.trans_eq (List.length_take (i := n) (l := vs))
    exact lt_min_iff.1 this
  rw [gramDet_eq hr]
  refine Finset.prod_eq_zero (Finset.mem_univ ⟨i, hi2.2⟩) ?_
  rw [← hi, schurAt, schurAt, List.take_take, min_eq_left hi2.1.le, List.getD_eq_getElem _ _ hi2.2, List.getD_eq_getElem _ _ i.2,
    List.getElem_take]

theorem kernelDet_ofFn {X : Type*} {N : ℕ} (K : X → X → ℝ) (x : Fin N → X) :
    kernelDet K (List.ofFn x) = (Matrix.of fun i j => K (x i) (x j)).det := by
  rw [kernelDet, ← Matrix.det_submatrix_equiv_self (finCongr (List.length_ofFn (f := x))).symm]
  congr 1
  ext i j
  simp [Matrix.submatrix_apply]

section
variable {par : Fin d → ℝ × ℝ} {L : List (List ℕ)}

theorem preDet_full (x : Fin L.length → Fin d → ℝ) :
    preDet par L L.length x = (Matrix.of fun i j => featKernel (opePhi par L) (x i) (x j)).det := by
  rw [preDet, List.take_of_length_le (by simp), kernelDet_ofFn]

theorem preDet_zero_mono {n : ℕ} {x : Fin L.length → Fin d → ℝ} (h : preDet par L n x = 0) : preDet par L L.length x = 0 := by
  rw [preDet, kernelDet_eq, List.map_take] at h
  rw [preDet, List.take_of_length_le (by simp), kernelDet_eq]
  exact gramDet_take_zero h

theorem preDet_congr {n : ℕ} {x y : Fin L.length → Fin d → ℝ} (h : ∀ i : Fin L.length, (i : ℕ) < n → x i = y i) :
    preDet par L n x = preDet par L n y := by
  rw [preDet, preDet]
  congr 1
  refine List.ext_getElem (by simp) fun i h1 h2 => ?_
  rw [List.getElem_take, List.getElem_take, List.getElem_ofFn, List.getElem_ofFn]
  refine h _ ?_
  rw [List.length_take] at h1
  exact (lt_min_iff.1 h1).1

theorem measurable_preDet : Measurable (preDet par L L.length) := by
  have : preDet par L L.length = fun x => (Matrix.of fun i j => featKernel (opePhi par L) (x i) (x j)).det := funext preDet_full
  rw [this]
  simp only [Matrix.det_apply, Matrix.of_apply]
  refine Finset.measurable_sum _ fun σ _ => Measurable.const_smul (Finset.measurable_prod _ fun i _ => ?_) _
  exact measurable_dot ((measurable_opePhi par L).comp (measurable_pi_apply _)) ((measurable_opePhi par L).comp (measurable_pi_apply _))

/-- indices from `n` on -/
def ixFrom (N n : ℕ) : Finset (Fin N) := Finset.univ.filter fun i => n ≤ i

theorem ixFrom_succ {N : ℕ} (n : Fin N) : ixFrom N n = insert n (ixFrom N (n + 1)) := by
  ext i
  simp only [ixFrom, Finset.mem_filter, Finset.mem_univ, true_and, Finset.mem_insert, Fin.ext_iff]
  omega

theorem notMem_ixFrom {N : ℕ} (n : Fin N) : n ∉ ixFrom N (n + 1) := by simp [ixFrom]

theorem marg_zero {n : ℕ} {x : Fin L.length → Fin d → ℝ} (h : preDet par L n x = 0) (G : (Fin L.length → Fin d → ℝ) → ℝ≥0∞) :
    (∫⋯∫⁻_ixFrom L.length n, (fun y => ENNReal.ofReal (preDet par L L.length y) * G y) ∂(fun _ => opeMu par)) x = 0 := by
  rw [lmarginal]
  refine (lintegral_congr fun z => ?_).trans lintegral_zero
  have : preDet par L n (Function.updateFinset x (ixFrom L.length n) z) = 0 := by
    rw [← h]
    refine preDet_congr fun i hi => ?_
    rw [Function.updateFinset_def]
    refine dif_neg ?_
    simp only [ixFrom, Finset.mem_filter, Finset.mem_univ, true_and, not_le]
    exact hi
  rw [preDet_zero_mono this]
  simp

theorem steps_meas {T0 T : ℕ} (hT0 : T0 ≠ 0) (ns : List (Fin L.length)) :
    (Measurable fun s => (opeSteps par L T0 T ns s).law) ∧ ∀ s, RPMeas (opeSteps par L T0 T ns s) := by
  induction ns with
  | nil => exact ⟨Measure.measurable_dirac, fun _ => trivial⟩
  | cons n ns ih =>
    have ht := trials_meas par n hT0 T
    have e : ∀ s, RPMeas (open Classical in if T = 0 then RP.fail .unboundLocalError else opeTrials par L T0 n T s) := by
      intro s; split_ifs
      · trivial
      · exact ht.2 s
    have e2 : Measurable fun s => (open Classical in if T = 0 then RP.fail .unboundLocalError else opeTrials par L T0 n T s).law := by
      by_cases h : T = 0
      · simp only [if_pos h]; exact measurable_const
      · simp only [if_neg h]; exact ht.1
    constructor
    · have : (fun s => (opeSteps par L T0 T (n :: ns) s).law)
          = fun s => (open Classical in if T = 0 then RP.fail .unboundLocalError else opeTrials par L T0 n T s).law.bind
            fun s => (opeSteps par L T0 T ns s).law := by
        funext s
        rw [opeSteps, law_bind (e s) ih.1]
      rw [this]
      exact (Measure.measurable_bind' ih.1).comp e2
    · intro s
      rw [opeSteps]
      exact (e s).bind ih.1 ih.2

theorem steps_cons {T0 T : ℕ} (hT0 : T0 ≠ 0) (hT : T ≠ 0) (n : Fin L.length) (ns : List (Fin L.length)) (s : OpeSt d L.length)
    {g : OpeSt d L.length → ℝ≥0∞} (hg : Measurable g) :
    ∫⁻ z, g z ∂(opeSteps par L T0 T (n :: ns) s).law
      = ∫⁻ z, (∫⁻ w, g w ∂(opeSteps par L T0 T ns z).law) ∂(opeTrials par L T0 n T s).law := by
  have ih := steps_meas (par := par) (L := L) (T := T) hT0 ns
  rw [opeSteps, if_neg hT, law_bind ((trials_meas par n hT0 T).2 s) ih.1, Measure.lintegral_bind ih.1.aemeasurable hg.aemeasurable]

theorem drop_finRange {N : ℕ} (n : Fin N) : (List.finRange N).drop n = n :: (List.finRange N).drop (n + 1) := by
  rw [List.drop_eq_getElem_cons (by simp)]
  simp

theorem good_zero (s : OpeSt d L.length) : OpeGood par L 0 s := by
  constructor
  · simpa [opeRows] using GSChain.nil
  · simp [opeRows]

/-- backward induction over the points -/
theorem steps_lower (hd : 1 ≤ d) (hpar : ∀ j, -1 < (par j).1 ∧ -1 < (par j).2) (hL : ∀ k ∈ L, k.length = d) (hnd : L.Nodup)
    (hB : OpeBoundsOK par L) {T0 T : ℕ} (hT0 : T0 ≠ 0) (hT : T ≠ 0) {q : ℝ≥0∞} (hq : OpeEff par L T0 q)
    {G : (Fin L.length → Fin d → ℝ) → ℝ≥0∞} (hG : Measurable G) (k : ℕ) :
    ∀ n, n + k = L.length → ∀ s : OpeSt d L.length, OpeGood par L n s →
      (∏ m ∈ Finset.Ico n L.length, opeC L.length q T m)
        * (ENNReal.ofReal ((∏ m ∈ Finset.Ico n L.length, ((L.length : ℝ) - m)) * preDet par L n s.1)⁻¹
        * (∫⋯∫⁻_ixFrom L.length n, (fun y => ENNReal.ofReal (preDet par L L.length y) * G y) ∂(fun _ => opeMu par)) s.1)
      ≤ ∫⁻ z, G z.1 ∂(opeSteps par L T0 T ((List.finRange L.length).drop n) s).law := by
  have hF : Measurable fun y => ENNReal.ofReal (preDet par L L.length y) * G y := measurable_preDet.ennreal_ofReal.mul hG
  have hG1 : Measurable fun z : OpeSt d L.length => G z.1 := hG.comp measurable_fst
  induction k with
  | zero =>
    intro n hn s hs
    obtain rfl : n = L.length := by omega
    have hp := preDet_pos hs
    rw [Finset.Ico_self, Finset.prod_empty, Finset.prod_empty, one_mul, one_mul,
      show ixFrom L.length L.length = ∅ by simp [ixFrom, Finset.filter_eq_empty_iff], lmarginal_empty, List.drop_of_length_le (by simp), opeSteps,
      ← mul_assoc, ← ENNReal.ofReal_mul (by positivity), inv_mul_cancel₀ hp.ne', ENNReal.ofReal_one, one_mul]
    simp only [RP.law]
    rw [lintegral_dirac' _ hG1]
  | succ k ih =>
    intro n hn s hs
    have hlt : n < L.length := by omega
    obtain ⟨n', rfl⟩ : ∃ n' : Fin L.length, n = n' := ⟨⟨n, hlt⟩, rfl⟩
    have hp := preDet_pos hs
    have hNn : (0 : ℝ) < (L.length : ℝ) - n' := by
      have : ((n' : ℕ) : ℝ) < L.length := by exact_mod_cast n'.2
      linarith
    have hP : 0 < ∏ m ∈ Finset.Ico ((n' : ℕ) + 1) L.length, ((L.length : ℝ) - m) := Finset.prod_pos fun m hm => by
      have : (m : ℝ) < L.length := by exact_mod_cast (Finset.mem_Ico.1 hm).2
      linarith
    rw [drop_finRange, steps_cons hT0 hT _ _ _ hG1]
    have hW : Measurable fun z => ∫⁻ w, G w.1 ∂(opeSteps par L T0 T ((List.finRange L.length).drop (n' + 1)) z).law :=
      (Measure.measurable_lintegral hG1).comp (steps_meas hT0 _).1
    refine le_trans ?_ (step_lower hd hpar hL hnd hB hT0 hq T hs hW)
    rw [Finset.prod_eq_prod_Ico_succ_bot hlt (fun m => opeC L.length q T m),
      Finset.prod_eq_prod_Ico_succ_bot hlt (fun m => ((L.length : ℝ) - (m : ℕ))), mul_assoc (opeC _ _ _ _)]
    refine mul_le_mul_right ?_ _
    have hmarg : Measurable fun x => (∫⋯∫⁻_ixFrom L.length ((n' : ℕ) + 1), (fun y => ENNReal.ofReal (preDet par L L.length y) * G y)
        ∂(fun _ => opeMu par)) (Function.update s.1 n' x) := (hF.lmarginal _).comp (measurable_update s.1)
    rw [ixFrom_succ, lmarginal_insert _ hF (notMem_ixFrom n'), ← lintegral_const_mul _ hmarg,
      ← lintegral_const_mul _ (hmarg.const_mul _)]
    refine lintegral_mono fun x => ?_
    have hup := preDet_update hs x
    rcases (chSchur_nonneg (par := par) (n := n') s x).lt_or_eq with h0 | h0
    · have := ih ((n' : ℕ) + 1) (by omega) (chAcc par L n' s x) (good_acc hs h0)
      rw [show (chAcc par L n' s x).1 = Function.update s.1 n' x from rfl, hup] at this
      refine le_trans (le_of_eq ?_) (mul_le_mul_right this _)
      conv_rhs => rw [mul_left_comm, ← mul_assoc (ENNReal.ofReal _) (ENNReal.ofReal _)]
      refine congrArg _ ?_
      rw [← ENNReal.ofReal_mul (by positivity)]
      congr 2
      field_simp
    · rw [← h0, mul_zero] at hup
      rw [marg_zero hup]
      simp

/-- the determinantal process with kernel `K`, as the law of the ordered list of its `N` points -/
noncomputable def opeDPP (par : Fin d → ℝ × ℝ) (L : List (List ℕ)) : Measure (Fin L.length → Fin d → ℝ) :=
  (Measure.pi fun _ => opeMu par).withDensity fun x =>
    ENNReal.ofReal ((Matrix.of fun i j => featKernel (opePhi par L) (x i) (x j)).det / (L.length.factorial : ℝ))

theorem sample_lower (hd : 1 ≤ d) (hpar : ∀ j, -1 < (par j).1 ∧ -1 < (par j).2) (hL : ∀ k ∈ L, k.length = d) (hnd : L.Nodup)
    (hB : OpeBoundsOK par L) {T0 T : ℕ} (hT0 : T0 ≠ 0) (hT : T ≠ 0) {q : ℝ≥0∞} (hq : OpeEff par L T0 q)
    {A : Set (Fin L.length → Fin d → ℝ)} (hA : MeasurableSet A) :
    (∏ m ∈ Finset.range L.length, opeC L.length q T m) * opeDPP par L A ≤ (opeSample par L T0 T).law A := by
  have hG : Measurable (A.indicator fun _ => (1 : ℝ≥0∞)) := measurable_const.indicator hA
  have key := steps_lower hd hpar hL hnd hB hT0 hT hq hG L.length 0 (by omega) (0, 0) (good_zero _)
  have hfac : ∏ m ∈ Finset.range L.length, ((L.length : ℝ) - m) = (L.length.factorial : ℝ) := by
    rw [← Finset.prod_range_reflect, ← Finset.prod_range_add_one_eq_factorial]
    push_cast
    refine Finset.prod_congr rfl fun n hn => ?_
    have hn' := Finset.mem_range.1 hn
    rw [Nat.cast_sub (by omega), Nat.cast_sub (by omega)]
    push_cast; ring
  have h0 : ∀ x, preDet par L 0 x = 1 := fun x => by
    rw [preDet, List.take_zero, kernelDet]; exact Matrix.det_fin_zero
  rw [← Finset.range_eq_Ico, hfac, h0, mul_one, List.drop_zero, show ixFrom L.length 0 = Finset.univ by simp [ixFrom], lmarginal_univ] at key
  have hm := measurable_preDet (par := par) (L := L)
  have e1 : opeDPP par L A = ENNReal.ofReal ((L.length.factorial : ℝ))⁻¹
      * ∫⁻ y, ENNReal.ofReal (preDet par L L.length y) * A.indicator (fun _ => 1) y ∂(Measure.pi fun _ => opeMu par) := by
    rw [opeDPP, withDensity_apply _ hA, ← lintegral_indicator hA, ← lintegral_const_mul _ (show Measurable fun y => ENNReal.ofReal (preDet par L L.length y) * A.indicator (fun _ => 1) y from hm.ennreal_ofReal.mul hG)]
    refine lintegral_congr fun y => ?_
    by_cases hy : y ∈ A
    · rw [Set.indicator_of_mem hy, Set.indicator_of_mem hy, mul_one, ← preDet_full, ← ENNReal.ofReal_mul (by positivity),
        div_eq_inv_mul]
    · rw [Set.indicator_of_notMem hy, Set.indicator_of_notMem hy, mul_zero, mul_zero]
  have e2 : (opeSample par L T0 T).law A
      = ∫⁻ z, A.indicator (fun _ => (1 : ℝ≥0∞)) z.1 ∂(opeSteps par L T0 T (List.finRange L.length) (0, 0)).law := by
    rw [opeSample, law_map_of_meas ((steps_meas hT0 _).2 _) measurable_fst, ← lintegral_indicator_one hA]
    exact lintegral_map hG measurable_fst
  rw [e1, e2]
  exact key

end

end Verif.Lemmas
