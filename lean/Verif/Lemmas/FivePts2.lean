import Verif.Lemmas.FivePts

/-!
Five orthogonal points: the pre-computation of the k-DPP sampler of alpha-dpp and a tie.
-/

namespace Verif.FivePts
open Verif Verif.Spec Verif.Model Verif.DiagPts Matrix
open scoped ENNReal NNReal

variable {num : Numerics}

theorem alphaPrecompute_five (hn : NumericsSpec num) (heps : 100 * num.eps < 1) {D : Centers 5} (h : IsAlpha D) {s : ℤ × ℝ × ℝ}
    {pc : AlphaInfo 5} (hpc : alphaPrecompute num ker D (some s) = .ok pc) :
    pc.dict = fullNys num ell D ∧ nysDeff pc.dict pc.alphaHat = s.1 := by
  obtain ⟨N, a, h1, -, -, -, -, h2⟩ := alphaPrecompute_ok hn ker_psd hpc
  refine ⟨?_, by rw [h1]; exact h2 s rfl⟩
  unfold alphaPrecompute at hpc
  rcases stableFilter_cases num.eps (num.eigh _ (lHat ker D)).1 with h3 | h3
  · rw [h3] at hpc; exact absurd hpc (by simp)
  rw [h3, keep_alpha hn heps h] at hpc
  simp only at hpc
  split at hpc
  · exact absurd hpc (by simp)
  split at hpc
  · exact absurd hpc (by simp)
  split at hpc
  · exact absurd hpc (by simp)
  · rw [Outcome.ok.injEq] at hpc
    rw [← hpc]
    rfl

theorem alphaKPre_five (hn : NumericsSpec num) (heps : 100 * num.eps < 1) {pc : AlphaInfo 5}
    (hpc : .ok pc ∈ (alphaKPre num ker 1 (blessSize num ker ((2:ℕ):ℝ) 4 none) 2).support) :
    ∃ D, IsAlpha D ∧ pc.dict = fullNys num ell D ∧ nysDeff pc.dict pc.alphaHat = 2 := by
  unfold alphaKPre at hpc
  rw [mem_support_andThen] at hpc
  rcases hpc with ⟨D, hD, hpc⟩ | ⟨e, -, hpc⟩
  swap
  · exact absurd hpc (by simp)
  obtain ⟨-, -, hi⟩ := blessSize_five hD
  rw [mem_support_andThen] at hpc
  rcases hpc with ⟨DA, hDA, hpc⟩ | ⟨e, -, hpc⟩
  swap
  · exact absurd hpc (by simp)
  rw [hi.lam] at hDA
  have hA := reduceLambda_five hn heps hi hDA
  rw [liftOut, PMF.support_pure, Set.mem_singleton_iff] at hpc
  obtain ⟨h1, h2⟩ := alphaPrecompute_five hn heps hA hpc.symm
  exact ⟨DA, hA, h1, by rw [h2]; norm_num⟩

/-! ### the dictionary of the first four points -/

/-- the first four points -/
noncomputable def fourDict : Centers 5 where
  items := [(0, 1 / 7), (1, 1 / 7), (2, 1 / 7), (3, 1 / 7)]
  lam := 3 / 2
  over := 1

theorem fourDict_mem (hn : NumericsSpec num) (heps : 100 * num.eps < 1) :
    .ok fourDict ∈ (reduceLambda num ker twoDict (3 / 2) (some 1)).support := by
  classical
  have hi := twoDict_init
  obtain ⟨rls, hrls⟩ : ∃ r, r = blessRls num ker twoDict (3 / 2) (stableKeep num.eps (num.svd _ (blessMat ker twoDict (3 / 2))).2) := ⟨_, rfl⟩
  have hu : ∀ i, ucb ker 1 (3 / 2) i = if i.val = 4 then 1 / 4 else 1 / 7 := by
    intro i
    unfold ucb ker
    rw [diagonal_apply_eq]
    unfold ell
    split <;> norm_num
  have hidx : ∀ e : Fin twoDict.items.length, (twoDict.idx e).val = 0 ∨ (twoDict.idx e).val = 4 := by
    intro e
    have he : e.val < 2 := e.isLt
    have : e = ⟨0, by simp [twoDict]⟩ ∨ e = ⟨1, by simp [twoDict]⟩ := by
      rcases Nat.lt_succ_iff_lt_or_eq.1 he with h | h
      · left; exact Fin.ext (by simpa using Nat.lt_one_iff.1 h)
      · right; exact Fin.ext h
    rcases this with h | h
    · left; rw [h]; rfl
    · right; rw [h]; rfl
  have hred : ∀ i, redProbs ker 1 (3 / 2) rls i = if i.val = 4 then 1 / 4 else 1 / 7 := by
    intro i
    rw [hrls]
    split
    · rename_i h4; exact (redProbs_five hn heps hi i).1 h4
    · rename_i h4
      rw [(redProbs_five hn heps hi i).2 h4, if_neg]
      rintro ⟨h0, e, he⟩
      rcases hidx e with h | h
      · exact h0 (by rw [← he]; exact h)
      · exact h4 (by rw [← he]; exact h)
  have hrej : ∀ i, redReject ker 1 (3 / 2) rls i = 1 := by
    intro i
    unfold redReject
    rw [hred, hu, div_self]
    split <;> norm_num
  have hsel : selOnes four = [0, 1, 2, 3] := by decide
  unfold reduceLambda
  simp only [Option.getD_some]
  rw [if_neg (by rw [hi.lam]; norm_num), PMF.mem_support_bind_iff]
  refine ⟨four, indep_support _ _ fun i => ?_, ?_⟩
  · rw [hu]
    refine coin_support ?_ ?_ _ <;> split <;> norm_num
  rw [hsel, if_neg (by simp), estimateRls_ok hn ker_psd hi.ne hi.pos (by norm_num) four, ← hrls]
  simp only
  simp_rw [hrej]
  rw [if_neg, if_neg]
  · simp_rw [coin_one le_rfl]
    rw [indep_pure fun _ => true, PMF.pure_map]
    simp only [List.filter_true]
    rw [if_neg (by simp)]
    simp only [PMF.support_pure, Set.mem_singleton_iff, Outcome.ok.injEq, fourDict, List.map_cons, List.map_nil, hred]
    norm_num
  · norm_num
  · push Not
    intro i _
    rw [hred]
    split <;> norm_num

theorem fourDict_alpha : IsAlpha fourDict := by
  obtain ⟨num, h1, h2, -⟩ := exists_numericsSpec_eps (eps := 1 / 1000) (by norm_num)
  have heps : 100 * num.eps < 1 := by rw [h2]; norm_num
  exact reduceLambda_five h1 heps twoDict_init (fourDict_mem h1 heps)

theorem invP_four (i : Fin 5) : invP fourDict i = if four i = true then 7 else 0 := by
  unfold invP
  have : ∀ f : Fin fourDict.items.length → ℝ, ∑ e, f e = f ⟨0, by simp [fourDict]⟩ + f ⟨1, by simp [fourDict]⟩
      + f ⟨2, by simp [fourDict]⟩ + f ⟨3, by simp [fourDict]⟩ := fun f => Fin.sum_univ_four (f := f)
  rw [this]
  change (if (0 : Fin 5) = i then 1 / (1 / 7 : ℝ) else 0) + (if (1 : Fin 5) = i then 1 / (1 / 7 : ℝ) else 0)
    + (if (2 : Fin 5) = i then 1 / (1 / 7 : ℝ) else 0) + (if (3 : Fin 5) = i then 1 / (1 / 7 : ℝ) else 0) = _
  fin_cases i <;> simp [four]

theorem four_weight (i : Fin 5) : ell i * invP fourDict i = if four i = true then 7 / 4 else 0 := by
  rw [invP_four]
  split
  · rename_i h
    have : i.val ≠ 4 := by
      unfold four at h
      have := of_decide_eq_true h
      omega
    rw [ell_other this]; norm_num
  · simp

theorem nysDeff_four (hn : NumericsSpec num) {a : ℝ} (ha : 0 ≤ a) :
    nysDeff (fullNys num ell fourDict) a = 4 * (a * (7 / 4) / (1 + a * (7 / 4))) := by
  rw [nysDeff_full hn ell_pos fourDict_alpha.pos ha]
  simp_rw [four_weight]
  rw [Fin.sum_univ_five]
  simp [four]
  ring

theorem rls_four (hn : NumericsSpec num) {a : ℝ} (ha : 0 < a) (i : Fin 5) : 0 < nysRls ker (fullNys num ell fourDict) a i :=
  rls_pos hn ell_pos fourDict_alpha.pos ha i

theorem alphaPrecompute_four (hn : NumericsSpec num) (heps : 100 * num.eps < 1)
    (hb : ∀ f a b, (∃ x, a ≤ x ∧ x ≤ b ∧ f x = 0) → ∃ x, num.brentq f a b = some x) (lamMax lamMin : ℝ) :
    alphaPrecompute num ker fourDict (some (2, lamMax, lamMin))
      = .ok (alphaInfoOf ker (fullNys num ell fourDict) (some (2, lamMax, lamMin)) (4 / 7)) := by
  have h0 := hn.eps
  have hkeep := keep_alpha hn heps fourDict_alpha
  have hf : stableFilter num.eps (num.eigh _ (lHat ker fourDict)).1 = .ok (List.finRange _) := by
    have hr : ∀ j, ∃ e, (num.eigh _ (lHat ker fourDict)).1 j = ell (fourDict.idx e) / fourDict.probs e := fun j =>
      eigh_range hn (DiagPts.lHat_diag (ℓ := ell) fourDict_alpha.inj fourDict_alpha.pos) j
    have hpos : ∀ j, 0 < (num.eigh _ (lHat ker fourDict)).1 j := fun j => by
      obtain ⟨e, he⟩ := hr j
      rw [he]; linarith [(fourDict_alpha.bounds e).1]
    refine Eq.trans ?_ (congrArg _ hkeep)
    exact stableFilter_ok hn.eps (i := ⟨0, by simp [fourDict]⟩) (fun j => (hpos j).le) (hpos _)
  have hlam : fourDict.lam = 3 / 2 := rfl
  have hnat : alphaNatural ker (fullNys num ell fourDict) (3 / 2) = 28 / 13 := by
    unfold alphaNatural
    have h1 : ∀ e : Fin (fullNys num ell fourDict).m, nysRls ker (fullNys num ell fourDict) (1 / (3 / 2)) ((fullNys num ell fourDict).idx e)
        / (fullNys num ell fourDict).probs e = 7 / 13 := by
      intro e
      have h2 : (fullNys num ell fourDict).probs e = 1 / 7 := by
        change fourDict.probs e = 1 / 7
        have he : e.val < 4 := e.isLt
        obtain ⟨k, hk⟩ := e
        change k < 4 at he
        interval_cases k <;> rfl
      have h3 : four (fourDict.idx e) = true := by
        have he : e.val < 4 := e.isLt
        obtain ⟨k, hk⟩ := e
        change k < 4 at he
        interval_cases k <;> rfl
      have h4 : (fourDict.idx e).val ≠ 4 := by
        intro h5
        unfold four at h3
        have := of_decide_eq_true h3
        omega
      have h6 := nysRls_full (num := num) hn ell_pos fourDict_alpha.pos (a := 1 / (3 / 2)) (by norm_num) (fourDict.idx e)
      rw [four_weight, if_pos h3, ell_other h4] at h6
      rw [h2]
      refine (congrArg (fun t => t / (1 / 7 : ℝ)) h6).trans ?_
      norm_num
    simp_rw [h1]
    rw [Finset.sum_const, Finset.card_univ, Fintype.card_fin]
    change fourDict.items.length • (7 / 13 : ℝ) = _
    simp [fourDict]
    norm_num
  obtain ⟨x, hx⟩ := hb (fun y => nysDeff (fullNys num ell fourDict) y - ((2:ℤ):ℝ)) (10 * num.eps) 4
    ⟨4 / 7, by linarith, by norm_num, by rw [nysDeff_four hn (by norm_num)]; norm_num⟩
  obtain ⟨b1, b2, b3⟩ := hn.brentq _ _ _ _ hx
  have hx0 : 0 < x := by linarith
  have hx1 : x = 4 / 7 := by
    rw [nysDeff_four hn hx0.le] at b3
    have hd : 0 < 1 + x * (7 / 4) := by positivity
    push_cast at b3
    have : x * (7 / 4) / (1 + x * (7 / 4)) = 1 / 2 := by linarith
    rw [div_eq_iff hd.ne'] at this
    linarith
  subst hx1
  unfold alphaPrecompute
  rw [hf]
  simp only
  have e1 : alphaNatural ker (nysOf num ker fourDict (List.finRange _)) fourDict.lam = 28 / 13 := hnat
  have e2 : num.brentq (fun y => nysDeff (nysOf num ker fourDict (List.finRange _)) y - ((2:ℤ):ℝ)) (10 * num.eps) 4 = some (4 / 7) := hx
  rw [if_neg, if_neg]
  · simp only [Option.map_some, alphaHatOf]
    rw [e1, if_neg (by push_cast; norm_num), e2]
    simp only
    rw [if_neg (by norm_num)]
    rfl
  · rw [e1]; norm_num
  · push Not
    exact fun e => (rls_four hn (a := 1 / fourDict.lam) (by rw [hlam]; norm_num) _).le

theorem alphaKPre_four (hn : NumericsSpec num) (heps : 100 * num.eps < 1)
    (hb : ∀ f a b, (∃ x, a ≤ x ∧ x ≤ b ∧ f x = 0) → ∃ x, num.brentq f a b = some x) :
    .ok (alphaInfoOf ker (fullNys num ell fourDict) (some (2, 3 / 2, 1)) (4 / 7))
      ∈ (alphaKPre num ker 1 (blessSize num ker ((2:ℕ):ℝ) 4 none) 2).support := by
  unfold alphaKPre
  rw [mem_support_andThen]
  refine Or.inl ⟨_, blessSize_two_five, ?_⟩
  rw [mem_support_andThen]
  refine Or.inl ⟨fourDict, fourDict_mem hn heps, ?_⟩
  rw [liftOut, PMF.support_pure, Set.mem_singleton_iff]
  exact (alphaPrecompute_four hn heps hb _ _).symm

theorem acc_tie (hn : NumericsSpec num) : alphaAcc ker (fullNys num ell fourDict) (4 / 7) 2
      (nysRls ker (fullNys num ell fourDict) (4 / 7)) fourC = 0 := by
  refine (tie_iff hn ell_pos fourDict_alpha.pos (by norm_num) two_pos fourC).2 fun i => ?_
  rw [four_weight]
  unfold fourC
  split <;> norm_num

theorem minor_pos (T : Finset (Fin 5)) : 0 < minor ker T := by
  unfold minor ker
  have : (diagonal ell : Matrix (Fin 5) (Fin 5) ℝ).submatrix (Subtype.val : T → Fin 5) Subtype.val
      = diagonal fun i : T => ell i := by
    ext i j
    rw [submatrix_apply, diagonal_apply, diagonal_apply]
    simp only [Subtype.ext_iff]
  rw [this, det_diagonal]
  exact Finset.prod_pos fun i _ => ell_pos _

/-- a round of the sampler raises with positive probability where the first two points could have been returned -/
theorem loss_pair (hn : NumericsSpec num) {r : ℝ} (hr : r = 2) : alphaLoss ker
    { alphaInfoOf ker (fullNys num ell fourDict) (some (2, 3 / 2, 1)) (4 / 7) with r := r } {0, 1} ≠ 0 := by
  classical
  subst hr
  intro h0
  unfold alphaLoss at h0
  rw [PE_eq_zero] at h0
  have hb : ∀ i : Fin 5, 0 < (4 / 7 : ℝ) * ker i i := fun i => by
    unfold ker
    rw [diagonal_apply_eq]
    have := ell_pos i
    positivity
  have h1 := h0 fourC (indep_support _ _ fun i => poisson_support (by
    change 0 < 2 * Real.exp (1 / 2) * (4 / 7 * ker i i)
    have := hb i
    positivity) _)
  rw [PE_eq_zero] at h1
  have h2 := h1 fourC (by
    unfold thinned
    refine indep_support _ _ fun i => ?_
    by_cases hi : four i = true
    · have hc : fourC i = 1 := by unfold fourC; rw [if_pos hi]
      have htr : toRecompute (fun _ : Fin 5 => false) fourC i := ⟨by rw [hc]; exact one_pos, rfl⟩
      change _ ∈ (if toRecompute (fun _ : Fin 5 => false) fourC i then _ else _ : PMF ℕ).support
      rw [if_pos htr, hc]
      refine binom_one_support ?_
      unfold newBound
      change 0 < (if toRecompute (fun _ : Fin 5 => false) fourC i then _ else _) / (4 / 7 * ker i i)
      rw [if_pos htr]
      exact div_pos (rls_four hn (show (0:ℝ) < 4 / 7 by norm_num) i) (hb i)
    · have hc : fourC i = 0 := by unfold fourC; rw [if_neg hi]
      have htr : ¬ toRecompute (fun _ : Fin 5 => false) fourC i := by rintro ⟨h, -⟩; rw [hc] at h; exact lt_irrefl _ h
      change _ ∈ (if toRecompute (fun _ : Fin 5 => false) fourC i then _ else _ : PMF ℕ).support
      rw [if_neg htr]
      simp)
  have h2 := (if_pos (acc_tie hn)).symm.trans h2
  rw [mul_eq_zero] at h2
  rcases h2 with h2 | h2
  · rw [ENNReal.ofReal_eq_zero, not_lt.symm] at h2
    refine h2 ?_
    unfold alphaFac
    have h3 := minor_pos {0, 1}
    refine mul_pos (Real.exp_pos _) (mul_pos (mul_pos (pow_pos (by norm_num : (0:ℝ) < 4 / 7) _) (Finset.prod_pos fun i _ => ?_)) h3)
    exact one_div_pos.2 (mul_pos two_pos (rls_four hn (show (0:ℝ) < 4 / 7 by norm_num) i))
  · rw [Finset.prod_eq_zero_iff] at h2
    obtain ⟨i, -, h2⟩ := h2
    rw [ENNReal.ofReal_eq_zero] at h2
    refine absurd h2 (not_le.2 ?_)
    refine mul_pos ?_ (pow_pos (Real.exp_pos _) _)
    split
    · rename_i hi
      have : fourC i = 1 := by
        simp only [Finset.mem_insert, Finset.mem_singleton] at hi
        rcases hi with rfl | rfl <;> decide
      rw [this, Nat.cast_one]
      exact one_pos
    · exact one_pos

end Verif.FivePts
