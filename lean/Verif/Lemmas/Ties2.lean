import Verif.Lemmas.SubDict

/-!
The law of a first call of alpha-dpp with ties.
-/

namespace Verif
open Verif Verif.Spec Verif.Model Matrix
open scoped ENNReal NNReal

variable {n : ℕ} {num : Numerics} {env : SessEnv n}

theorem alphaPre_base (hn : NumericsSpec num) {L : Matrix (Fin n) (Fin n) ℝ} (hL : L.PosSemidef) {over : ℝ}
    {dict : PMF (Outcome (Centers n))} {pc : AlphaInfo n} (h : .ok pc ∈ (alphaPre num L over dict).support) :
    pc.alphaHat = 1 ∧ NysOK L pc.dict ∧ ∀ r, 0 < r → AlphaBase L { pc with r := r } := by
  unfold alphaPre at h
  rw [mem_support_andThen] at h
  rcases h with ⟨D, hD, h⟩ | ⟨e, -, h⟩
  swap
  · exact absurd h (by simp)
  rw [mem_support_andThen] at h
  rcases h with ⟨DA, hDA, h⟩ | ⟨e, -, h⟩
  swap
  · exact absurd h (by simp)
  rw [liftOut, PMF.support_pure, Set.mem_singleton_iff] at h
  obtain ⟨N, a, rfl, hN, ha0, ha1, hnone, -⟩ := alphaPrecompute_ok hn hL h.symm
  have ha : a = 1 := hnone rfl
  refine ⟨ha, hN, fun r hr => ?_⟩
  exact ⟨hL, ha0, hr, nysRls_nonneg hN hL ha0.le, fun i => nysRls_zero hN hL ha0, fun i => nysRls_le L N ha0.le i,
      fun i hi => absurd hi (by simp [alphaInfoOf]), fun c hc => alphaAcc_nonpos hN hL ha0 hr hc⟩

/-- the draws of a first call, given the pre-computed data -/
noncomputable def firstDraws (env : SessEnv n) (rFunc : ℝ → ℝ) (m : ℕ) (T : Finset (Fin n)) : Outcome (AlphaInfo n) → ℝ≥0∞
  | .ok pc => PP (alphaLoop env.inner env.L m 0 { pc with r := rFunc (nysDeff pc.dict pc.alphaHat) }) (Draws T)
  | .raise _ => 0

theorem first_draws (env : SessEnv n) (rFunc : ℝ → ℝ) (m : ℕ) (T : Finset (Fin n)) :
    PP (sessCall env .empty (.exactAlpha rFunc m)) (Draws T)
      = PE (alphaPre env.num env.L env.over env.dict) (firstDraws env rFunc m T) := by
  change PP (store _ (alphaDppSampler env.num env.inner env.L env.over env.dict rFunc m none)) (Draws T) = _
  rw [store_draws]
  unfold alphaDppSampler alphaInfoFor withR
  rw [PP_draws, PE_andThen, PE_andThen]
  refine PE_congr fun o _ => ?_
  cases o with
  | raise e => rfl
  | ok pc =>
    simp only [PE_pure, firstDraws]
    rw [PE_andThen, PP_draws]
    refine PE_congr fun o _ => ?_
    cases o with
    | raise e => rfl
    | ok a => simp only [PE_pure]; rfl

theorem first_compare (h : GoodEnv env) {rFunc : ℝ → ℝ} {m : ℕ} {T₁ : Finset (Fin n)} (T₂ : Finset (Fin n))
    {pc : AlphaInfo n} (hpc : .ok pc ∈ (alphaPre env.num env.L env.over env.dict).support)
    (hr : 0 < rFunc (nysDeff pc.dict pc.alphaHat))
    (ht : NoTieOn env.L pc.dict pc.alphaHat (rFunc (nysDeff pc.dict pc.alphaHat)) T₁) :
    firstDraws env rFunc m T₂ (.ok pc) * ENNReal.ofReal (minor env.L T₁)
      ≤ firstDraws env rFunc m T₁ (.ok pc) * ENNReal.ofReal (minor env.L T₂) ∧
    (0 < m → alphaLoss env.L { pc with r := rFunc (nysDeff pc.dict pc.alphaHat) } T₂ ≠ 0 → 0 < minor env.L T₁ →
      firstDraws env rFunc m T₂ (.ok pc) * ENNReal.ofReal (minor env.L T₁)
        < firstDraws env rFunc m T₁ (.ok pc) * ENNReal.ofReal (minor env.L T₂)) := by
  obtain ⟨h1, -, h2⟩ := alphaPre_base h.num h.psd hpc
  have h3 := alphaLoop_compare h.inner T₁ T₂ m 0 _ (h2 _ hr) ht
  simp only [h1, one_smul] at h3
  unfold firstDraws
  simp only [h1]
  exact h3

theorem first_call_compare (h : GoodEnv env) {rFunc : ℝ → ℝ} (m : ℕ) {T₁ : Finset (Fin n)} (T₂ : Finset (Fin n))
    (hr : ∀ pc, .ok pc ∈ (alphaPre env.num env.L env.over env.dict).support → 0 < rFunc (nysDeff pc.dict pc.alphaHat) ∧
      NoTieOn env.L pc.dict pc.alphaHat (rFunc (nysDeff pc.dict pc.alphaHat)) T₁) :
    PP (sessCall env .empty (.exactAlpha rFunc m)) (Draws T₂) * ENNReal.ofReal (minor env.L T₁)
      ≤ PP (sessCall env .empty (.exactAlpha rFunc m)) (Draws T₁) * ENNReal.ofReal (minor env.L T₂) ∧
    ((∃ pc, .ok pc ∈ (alphaPre env.num env.L env.over env.dict).support ∧
        alphaLoss env.L { pc with r := rFunc (nysDeff pc.dict pc.alphaHat) } T₂ ≠ 0) → 0 < m → 0 < minor env.L T₁ →
      PP (sessCall env .empty (.exactAlpha rFunc m)) (Draws T₂) * ENNReal.ofReal (minor env.L T₁)
        < PP (sessCall env .empty (.exactAlpha rFunc m)) (Draws T₁) * ENNReal.ofReal (minor env.L T₂)) := by
  have hle : ∀ o ∈ (alphaPre env.num env.L env.over env.dict).support,
      firstDraws env rFunc m T₂ o * ENNReal.ofReal (minor env.L T₁)
        ≤ firstDraws env rFunc m T₁ o * ENNReal.ofReal (minor env.L T₂) := by
    intro o ho
    cases o with
    | raise e => simp [firstDraws]
    | ok pc => exact (first_compare h T₂ ho (hr pc ho).1 (hr pc ho).2).1
  have hfin : PE (alphaPre env.num env.L env.over env.dict) (fun o => firstDraws env rFunc m T₂ o * ENNReal.ofReal (minor env.L T₁)) ≠ ∞ := by
    rw [PE_mul_right, ← first_draws]
    exact ENNReal.mul_ne_top (ne_top_of_le_ne_top ENNReal.one_ne_top (PP_le_one _ _)) ENNReal.ofReal_ne_top
  rw [first_draws, first_draws, ← PE_mul_right, ← PE_mul_right]
  refine ⟨PE_mono hle, ?_⟩
  rintro ⟨pc, hpc, hl⟩ hm hmin
  exact PE_lt hle hfin hpc ((first_compare h T₂ hpc (hr pc hpc).1 (hr pc hpc).2).2 hm hl hmin)

/-- if `T₂` is drawn too seldom compared with `T₁`, the law is not the one of the DPP -/
theorem not_lawIs {β : Type*} {p : PMF (Outcome (List (Fin n) × β))} {L : Matrix (Fin n) (Fin n) ℝ} (hL : L.PosSemidef)
    {T₁ T₂ : Finset (Fin n)} (h : PP p (Draws T₂) * ENNReal.ofReal (minor L T₁) < PP p (Draws T₁) * ENNReal.ofReal (minor L T₂)) :
    ¬ LawIs p (lDppProb L) := by
  intro hl
  have hd := det_one_add_pos hL
  rw [hl T₁, hl T₂, mul_assoc, mul_assoc] at h
  unfold lDppProb at h
  rw [← ENNReal.ofReal_mul (div_nonneg (minor_nonneg hL _) hd.le), ← ENNReal.ofReal_mul (div_nonneg (minor_nonneg hL _) hd.le)] at h
  have : minor L T₂ / (1 + L).det * minor L T₁ = minor L T₁ / (1 + L).det * minor L T₂ := by ring
  rw [this] at h
  exact lt_irrefl _ h

/-! ### five orthogonal points -/

/-- the data pre-computed on orthogonal points when each point is kept with probability `over x / (x + 1)` -/
theorem alphaPre_sub_mem (hn : NumericsSpec num) (inner : DppSampler) {x over : ℝ} (hx : 0 < x) (hpos : 0 < n) (ho : 0 < over)
    (heps : n * num.eps < 1) (ho1 : over * (x / (x + 1)) ≤ 1) {o : Outcome (AlphaInfo n)} :
    o ∈ (alphaPre (scalEnv num inner n x over).num (scalEnv num inner n x over).L (scalEnv num inner n x over).over
      (scalEnv num inner n x over).dict).support ↔
      ∃ U : Fin n → Bool, U ∈ (indep fun _ : Fin n => coin (over * (x / (x + 1)))).support ∧
        o = if selOnes U = [] then .valueError else
          .ok (alphaInfoOf (scal n x) (subNys num x (over * (x / (x + 1))) over U) none 1) := by
  change o ∈ (alphaPre num (scal n x) over (PMF.pure (.ok (fullDict n over)))).support ↔ _
  have hp : 0 < over * (x / (x + 1)) := by positivity
  have h3 : (fullDict n over).lam = 1 := rfl
  unfold alphaPre
  rw [andThen_pure, h3, reduceLambda_sub hn hx hpos heps ho ho1, mem_support_andThen]
  constructor
  · rintro (⟨DA, h1, h2⟩ | ⟨e, h1, h2⟩)
    · rw [PMF.mem_support_map_iff] at h1
      obtain ⟨U, hU, h1⟩ := h1
      refine ⟨U, hU, ?_⟩
      split at h1
      · exact absurd h1 (by simp [Outcome.valueError])
      · rename_i hne
        rw [Outcome.ok.injEq] at h1
        subst h1
        rw [alphaPrecompute_sub hn hx hp heps over hne, liftOut, PMF.support_pure, Set.mem_singleton_iff] at h2
        rw [if_neg hne, h2]
    · rw [PMF.mem_support_map_iff] at h1
      obtain ⟨U, hU, h1⟩ := h1
      refine ⟨U, hU, ?_⟩
      split at h1
      · rename_i hne
        rw [if_pos hne, h2]
        simp only [Outcome.valueError, Outcome.raise.injEq] at h1 ⊢
        exact h1.symm
      · exact absurd h1 (by simp)
  · rintro ⟨U, hU, rfl⟩
    by_cases hne : selOnes U = []
    · refine Or.inr ⟨.valueError, ?_, ?_⟩
      · rw [PMF.mem_support_map_iff]
        exact ⟨U, hU, by rw [if_pos hne]⟩
      · rw [if_pos hne]
    · refine Or.inl ⟨subDict U (over * (x / (x + 1))) over, ?_, ?_⟩
      · rw [PMF.mem_support_map_iff]
        exact ⟨U, hU, by rw [if_neg hne]⟩
      · rw [alphaPrecompute_sub hn hx hp heps over hne, liftOut, if_neg hne]; simp

theorem coin_support {p : ℝ} (h0 : 0 < p) (h1 : p < 1) (b : Bool) : b ∈ (coin p).support := by
  unfold coin
  rw [PMF.mem_support_iff, PMF.bernoulli_apply]
  have h2 : min 1 p.toNNReal = p.toNNReal := min_eq_right (by rw [← Real.toNNReal_one]; exact Real.toNNReal_mono h1.le)
  have h3 : p.toNNReal < 1 := by rw [← Real.toNNReal_one]; exact (Real.toNNReal_lt_toNNReal_iff one_pos).2 h1
  cases b with
  | true => simp [h0]
  | false => simp [h2, tsub_eq_zero_iff_le, not_le.2 h1]

/-- the first four points -/
def four : Fin 5 → Bool := fun i => decide (i.val < 4)

/-- each of the first four points once -/
def fourC : Fin 5 → ℕ := fun i => if four i then 1 else 0

theorem fourC_one {i : Fin 5} (h : four i = true) : fourC i = 1 := if_pos h

theorem fourC_pos {i : Fin 5} (h : 0 < fourC i) : four i = true := by
  unfold fourC at h
  by_contra h0
  rw [if_neg h0] at h
  exact lt_irrefl _ h

theorem four_length : (selOnes four).length = 4 := by decide

theorem uniq_four : (uniq fourC).length = 4 := by decide

theorem rls_four (hn : NumericsSpec num) (i : Fin 5) :
    nysRls (scal 5 (1 / 2)) (subNys num (1 / 2) (1 / 2) (3 / 2) four) 1 i = if four i = true then 1 / 4 else 1 / 2 := by
  rw [nysRls_sub hn (by norm_num) (by norm_num)]
  norm_num

/-- each of the points of the dictionary is drawn once: the acceptance probability is one -/
theorem acc_four (hn : NumericsSpec num) :
    alphaAcc (scal 5 (1 / 2)) (subNys num (1 / 2) (1 / 2) (3 / 2) four) 1 2
      (nysRls (scal 5 (1 / 2)) (subNys num (1 / 2) (1 / 2) (3 / 2) four) 1) fourC = 0 := by
  have hM : alphaTilde (scal 5 (1 / 2)) 1 2 (nysRls (scal 5 (1 / 2)) (subNys num (1 / 2) (1 / 2) (3 / 2) four) 1) fourC + 1
      = diagonal fun _ => 2 := by
    ext p q
    rw [Matrix.add_apply, diagonal_apply, one_apply]
    have hmem : ∀ p, four ((uniq fourC).get p) = true := by
      intro p
      exact fourC_pos (mem_uniq.1 ((uniq fourC).get_mem p))
    have hA : ∀ p, alphaA 2 (nysRls (scal 5 (1 / 2)) (subNys num (1 / 2) (1 / 2) (3 / 2) four) 1) fourC ((uniq fourC).get p)
        = Real.sqrt 2 := by
      intro p
      unfold alphaA
      rw [rls_four hn, if_pos (hmem p), fourC_one (hmem p)]
      norm_num
    unfold alphaTilde
    simp only [of_apply, hA]
    rw [scal_apply]
    have hinj : ((uniq fourC).get p = (uniq fourC).get q) ↔ p = q := (uniqEmb fourC).injective.eq_iff
    have h2 : Real.sqrt 2 * Real.sqrt 2 = 2 := Real.mul_self_sqrt (by norm_num)
    simp only [hinj]
    split
    · linear_combination (1 / 2) * h2
    · simp
  have hsum : ∑ i, (fourC i : ℝ) = 4 := by
    rw [← Nat.cast_sum, show ∑ i, fourC i = 4 by decide]; norm_num
  unfold alphaAcc
  rw [hM, det_diagonal, nysDeff_sub hn (by norm_num) (by norm_num), nysLogdet_sub hn (by norm_num), Finset.prod_const,
    Finset.card_univ, Fintype.card_fin, uniq_four, four_length, hsum, abs_of_pos (by positivity), Real.log_pow]
  norm_num

/-- the first round with this dictionary raises with positive probability where the empty set could have been returned -/
theorem loss_four (hn : NumericsSpec num) {r : ℝ} (hr : r = 2) : alphaLoss (scal 5 (1 / 2))
    { alphaInfoOf (scal 5 (1 / 2)) (subNys num (1 / 2) (1 / 2) (3 / 2) four) none 1 with r := r } ∅ ≠ 0 := by
  classical
  subst hr
  intro h0
  unfold alphaLoss at h0
  rw [PE_eq_zero] at h0
  have hb : ∀ i : Fin 5, (1:ℝ) * scal 5 (1 / 2) i i = 1 / 2 := fun i => by rw [scal_apply, if_pos rfl, one_mul]
  have h1 := h0 fourC (indep_support _ _ fun i => poisson_support (by
    change 0 < 2 * Real.exp (1 / 2) * (1 * scal 5 (1 / 2) i i)
    rw [hb]; positivity) _)
  rw [PE_eq_zero] at h1
  have h2 := h1 fourC (by
    unfold thinned
    refine indep_support _ _ fun i => ?_
    by_cases hi : four i = true
    · have hc : fourC i = 1 := by unfold fourC; rw [if_pos hi]
      have htr : toRecompute (fun _ : Fin 5 => false) fourC i := ⟨by rw [hc]; exact one_pos, rfl⟩
      change _ ∈ (if toRecompute (fun _ : Fin 5 => false) fourC i then _ else _ : PMF ℕ).support
      rw [if_pos htr, hc]
      refine binom_one_support ?_
      unfold newBound
      change 0 < (if toRecompute (fun _ : Fin 5 => false) fourC i then _ else _) / (1 * scal 5 (1 / 2) i i)
      rw [if_pos htr, hb]
      change 0 < nysRls (scal 5 (1 / 2)) (subNys num (1 / 2) (1 / 2) (3 / 2) four) 1 i / (1 / 2)
      rw [rls_four hn, if_pos hi]
      norm_num
    · have hc : fourC i = 0 := by unfold fourC; rw [if_neg hi]
      have htr : ¬ toRecompute (fun _ : Fin 5 => false) fourC i := by rintro ⟨h, -⟩; rw [hc] at h; exact lt_irrefl _ h
      change _ ∈ (if toRecompute (fun _ : Fin 5 => false) fourC i then _ else _ : PMF ℕ).support
      rw [if_neg htr]
      simp)
  have h2 := (if_pos (acc_four hn)).symm.trans h2
  rw [mul_eq_zero] at h2
  rcases h2 with h2 | h2
  · rw [ENNReal.ofReal_eq_zero, not_lt.symm] at h2
    refine h2 ?_
    unfold alphaFac
    rw [minor_empty]
    simp only [Finset.card_empty, pow_zero, Finset.prod_empty, mul_one]
    exact Real.exp_pos _
  · rw [Finset.prod_eq_zero_iff] at h2
    obtain ⟨i, -, h2⟩ := h2
    rw [ENNReal.ofReal_eq_zero] at h2
    refine absurd h2 (not_le.2 ?_)
    rw [if_neg (Finset.notMem_empty i), one_mul]
    exact pow_pos (Real.exp_pos _) _

/-- no tie contains all the points -/
theorem noTie_univ (hn : NumericsSpec num) {U : Fin 5 → Bool} (hne : selOnes U ≠ []) :
    NoTieOn (scal 5 (1 / 2)) (subNys num (1 / 2) (1 / 2) (3 / 2) U) 1 (nysDeff (subNys num (1 / 2) (1 / 2) (3 / 2) U) 1)
      Finset.univ := by
  intro c hc hu h0
  have hm : 0 < (selOnes U).length := List.length_pos_iff.2 hne
  have hm5 : (selOnes U).length ≤ 5 := (List.length_filter_le _ _).trans (by simp)
  have hd := nysDeff_sub hn (x := 1 / 2) (p := 1 / 2) (by norm_num) (by norm_num) (3 / 2) U
  have hm' : (0:ℝ) < (selOnes U).length := by exact_mod_cast hm
  have hd0 : 0 < nysDeff (subNys num (1 / 2) (1 / 2) (3 / 2) U) 1 := by rw [hd]; positivity
  have h1 := alphaAcc_tie (subNys_ok hn (by norm_num) _ _ U) (scal_psd (by norm_num)) one_pos hd0 hc h0
  rw [eq_div_iff hd0.ne', hd] at h1
  norm_num at h1
  have h2 : ((selOnes U).length : ℝ) * (selOnes U).length = 4 * ∑ i, (c i : ℝ) := by linarith
  have h3 : (selOnes U).length * (selOnes U).length = 4 * ∑ i, c i := by exact_mod_cast h2
  have h4 : 5 ≤ ∑ i, c i := by
    calc 5 = ∑ i : Fin 5, 1 := by simp
      _ ≤ _ := Finset.sum_le_sum fun i _ => hu i (Finset.mem_univ i)
  have h5 : (selOnes U).length < 5 ∨ (selOnes U).length = 5 := by omega
  rcases h5 with h5 | h5
  · have : (selOnes U).length * (selOnes U).length ≤ 4 * 4 := Nat.mul_le_mul (by omega) (by omega)
    omega
  · rw [h5] at h3; omega

end Verif
