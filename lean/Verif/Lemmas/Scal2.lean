import Verif.Lemmas.Scal

/-!
Concrete case: the pre-computations for orthogonal points `L = x I` and the dictionary of all the points.
-/

namespace Verif
open Verif Verif.Spec Verif.Model Matrix
open scoped ENNReal

variable {n : ℕ} {num : Numerics}

theorem finRange_get {m : ℕ} (a : Fin (List.finRange m).length) : ((List.finRange m).get a).val = a.val := by
  rw [List.get_eq_getElem]; simp

theorem finRange_get_inj {m : ℕ} (a b : Fin (List.finRange m).length) :
    (List.finRange m).get a = (List.finRange m).get b ↔ a = b := by
  rw [← Fin.val_inj, finRange_get, finRange_get, Fin.val_inj]

/-- a sum over the points is a sum over the dictionary -/
theorem sum_fullPos (over : ℝ) (f : Fin (fullDict n over).items.length → ℝ) : ∑ i, f (fullPos over i) = ∑ e, f e :=
  Fintype.sum_equiv (finCongr (fullDict_length over).symm) _ _ fun _ => rfl

theorem sum_finRange {m : ℕ} (f : Fin m → ℝ) : ∑ a, f ((List.finRange m).get a) = ∑ e, f e :=
  Fintype.sum_equiv (finCongr List.length_finRange) _ _ fun a => congrArg f (Fin.ext (finRange_get a))

/-! ### vfx -/

theorem dictMat_scal (x over : ℝ) (e f : Fin (fullDict n over).items.length) :
    dictMat (scal n x) (fullDict n over) e f = if e = f then x else 0 := scal_idx2 x over e f

theorem bBar_scal (hn : NumericsSpec num) {x : ℝ} (hx : 0 < x) (over : ℝ) (a : Fin (List.finRange _).length) (i : Fin n) :
    bBar num (scal n x) (fullDict n over) (List.finRange _) a i
      = Real.sqrt x * (num.svd _ (dictMat (scal n x) (fullDict n over))).1 (fullPos over i) ((List.finRange _).get a) := by
  unfold bBar
  rw [svd_scal hn hx.le (dictMat_scal x over)]
  simp_rw [scal_idx]
  simp only [mul_ite, mul_zero, Finset.sum_ite_eq', Finset.mem_univ, if_true]
  have h := Real.mul_self_sqrt hx.le
  have hs := Real.sqrt_pos.2 hx
  field_simp
  rw [sq, h, mul_comm]

theorem iAmm_scal (hn : NumericsSpec num) {x : ℝ} (hx : 0 < x) (over : ℝ) (a b : Fin (List.finRange _).length) :
    iAmm (bBar num (scal n x) (fullDict n over) (List.finRange _)) a b = if a = b then x + 1 else 0 := by
  have hA := dictMat_scal (n := n) x over
  have hU := (hn.svd _ _ (psd_of_scal hx.le hA)).2.1
  unfold iAmm
  simp_rw [bBar_scal hn hx]
  have h1 : ∀ i, Real.sqrt x * (num.svd _ (dictMat (scal n x) (fullDict n over))).1 (fullPos over i) ((List.finRange _).get a) *
      (Real.sqrt x * (num.svd _ (dictMat (scal n x) (fullDict n over))).1 (fullPos over i) ((List.finRange _).get b))
      = x * ((num.svd _ (dictMat (scal n x) (fullDict n over))).1 (fullPos over i) ((List.finRange _).get a) *
        (num.svd _ (dictMat (scal n x) (fullDict n over))).1 (fullPos over i) ((List.finRange _).get b)) := by
    intro i
    have h := Real.mul_self_sqrt hx.le
    linear_combination ((num.svd _ (dictMat (scal n x) (fullDict n over))).1 (fullPos over i) ((List.finRange _).get a) *
        (num.svd _ (dictMat (scal n x) (fullDict n over))).1 (fullPos over i) ((List.finRange _).get b)) * h
  simp_rw [h1]
  rw [← Finset.mul_sum, sum_fullPos over fun e => (num.svd _ (dictMat (scal n x) (fullDict n over))).1 e ((List.finRange _).get a) *
        (num.svd _ (dictMat (scal n x) (fullDict n over))).1 e ((List.finRange _).get b), hU]
  simp only [finRange_get_inj]
  split <;> simp

theorem sum_bBar_scal (hn : NumericsSpec num) {x : ℝ} (hx : 0 < x) (over : ℝ) :
    ∑ i, ∑ a, bBar num (scal n x) (fullDict n over) (List.finRange _) a i ^ 2 = n * x := by
  have h := iAmm_scal (n := n) hn hx over
  rw [Finset.sum_comm]
  have h1 : ∀ a, ∑ i, bBar num (scal n x) (fullDict n over) (List.finRange _) a i ^ 2 = x := by
    intro a
    have := h a a
    unfold iAmm at this
    rw [if_pos rfl, if_pos rfl] at this
    simp_rw [sq]
    linarith
  simp_rw [h1]
  rw [Finset.sum_const, Finset.card_univ, Fintype.card_fin, List.length_finRange, fullDict_length, nsmul_eq_mul]

theorem vfxRootFun_scal (hn : NumericsSpec num) {x : ℝ} (hx : 0 < x) (over : ℝ) {a : ℝ} (ha : 0 < a) (d : ℝ) :
    vfxRootFun (scal n x) (bBar num (scal n x) (fullDict n over) (List.finRange _))
        (num.eigh _ (iAmm (bBar num (scal n x) (fullDict n over) (List.finRange _)))).1 d a
      = n * (a * x / (a * x + 1)) - d := by
  unfold vfxRootFun
  simp_rw [eigh_scal hn (iAmm_scal (n := n) hn hx over)]
  rw [sum_bBar_scal hn hx, show ∑ i, scal n x i i = n * x from scal_trace x, Finset.sum_const, Finset.card_univ, Fintype.card_fin,
    List.length_finRange, fullDict_length, nsmul_eq_mul]
  have h1 : a * x + 1 ≠ 0 := by positivity
  have h2 : x + 1 - 1 + 1 / a = (a * x + 1) / a := by field_simp; ring
  rw [h2, add_sub_cancel_right, div_div_eq_mul_div]
  ring

theorem keep_vfx_scal (hn : NumericsSpec num) {x : ℝ} (hx : 0 < x) (heps : n * num.eps < 1) (over : ℝ) :
    stableKeep num.eps (num.svd _ (dictMat (scal n x) (fullDict n over))).2 = List.finRange _ :=
  stableKeep_const hx (by rw [fullDict_length]; exact heps) (svd_scal hn hx.le (dictMat_scal x over))

/-- The vfx pre-computation on orthogonal points: the estimated size is the expected size of the DPP with likelihood
`alpha_star L`. -/
theorem vfxPrecompute_scal_s (hn : NumericsSpec num) {x : ℝ} (hx : 0 < x) (hpos : 0 < n) (hc : (1 + n * x) * n * num.eps < 1)
    (over : ℝ) {desired : Option ℝ} {pc : VfxInfo n}
    (h : vfxPrecompute num (scal n x) (fullDict n over) desired = .ok pc) :
    0 < pc.alphaStar ∧ pc.s = n * (pc.alphaStar * x / (pc.alphaStar * x + 1)) := by
  have hc' : (1 + (scal n x).trace) * n * num.eps < 1 := by rw [scal_trace]; exact hc
  have heps : n * num.eps < 1 := by
    refine lt_of_le_of_lt ?_ hc
    have h1 := hn.eps
    have h2 : 0 ≤ (n : ℝ) * x * (n * num.eps) := by positivity
    nlinarith
  rcases vfxPrecompute_cases hn (scal_psd hx.le) hc' (fullDict_valid (n := n) hx hpos over).exists_pos desired with
    ⟨h4, -⟩ | ⟨pc1, h4, h5, -, -, -, -, -, h11⟩
  · rw [h4] at h; exact absurd h (by simp)
  rw [h4, Outcome.ok.injEq] at h
  subst h
  refine ⟨h5, ?_⟩
  rw [keep_vfx_scal hn hx heps over, vfxRootFun_scal hn hx over h5, sub_zero] at h11
  exact h11

/-- the vfx pre-computation succeeds on orthogonal points -/
theorem vfxPrecompute_scal_ok (hn : NumericsSpec num) {x : ℝ} (hx : 0 < x) (hpos : 0 < n) (hc : (1 + n * x) * n * num.eps < 1)
    (over : ℝ) : ∃ pc, vfxPrecompute num (scal n x) (fullDict n over) none = .ok pc := by
  have hc' : (1 + (scal n x).trace) * n * num.eps < 1 := by rw [scal_trace]; exact hc
  rcases vfxPrecompute_cases hn (scal_psd hx.le) hc' (fullDict_valid (n := n) hx hpos over).exists_pos none with
    ⟨-, d, h, -⟩ | ⟨pc, h, -⟩
  · exact absurd h (by simp)
  · exact ⟨pc, h⟩

/-- it also succeeds for a size that can be reached, if the root finder finds the root -/
theorem vfxPrecompute_scal_some (hn : NumericsSpec num)
    (hb : ∀ f a b, (∃ x, a ≤ x ∧ x ≤ b ∧ f x = 0) → ∃ x, num.brentq f a b = some x)
    {x : ℝ} (hx : 0 < x) (hpos : 0 < n) (hc : (1 + n * x) * n * num.eps < 1) (over : ℝ) {d a : ℝ}
    (ha : 10 * num.eps ≤ a) (ha1 : a < 1) (hd : d = n * (a * x / (a * x + 1))) :
    ∃ pc, vfxPrecompute num (scal n x) (fullDict n over) (some d) = .ok pc := by
  have hc' : (1 + (scal n x).trace) * n * num.eps < 1 := by rw [scal_trace]; exact hc
  have hee := hn.eps
  have ha0 : 0 < a := by linarith
  have heps : n * num.eps < 1 := by
    refine lt_of_le_of_lt ?_ hc
    have h2 : 0 ≤ (n : ℝ) * x * (n * num.eps) := by positivity
    nlinarith
  have hkeep := keep_vfx_scal (n := n) hn hx heps over
  have hnat : vfxNatural (scal n x) (bBar num (scal n x) (fullDict n over) (List.finRange _))
      (num.eigh _ (iAmm (bBar num (scal n x) (fullDict n over) (List.finRange _)))).1 = n * (x / (x + 1)) := by
    have := vfxRootFun_scal (n := n) hn hx over one_pos 0
    unfold vfxRootFun at this
    unfold vfxNatural
    simp only [one_mul, div_one, sub_add_cancel, sub_zero] at this
    exact this
  obtain ⟨x1, hx1⟩ := hb (vfxRootFun (scal n x) (bBar num (scal n x) (fullDict n over) (List.finRange _))
      (num.eigh _ (iAmm (bBar num (scal n x) (fullDict n over) (List.finRange _)))).1 d) (10 * num.eps) 1
    ⟨a, ha, ha1.le, by rw [vfxRootFun_scal hn hx over ha0, hd, sub_self]⟩
  rcases vfxPrecompute_cases hn (scal_psd hx.le) hc' (fullDict_valid (n := n) hx hpos over).exists_pos (some d) with
    ⟨-, d', hd', h⟩ | ⟨pc, h, -⟩
  swap
  · exact ⟨pc, h⟩
  exfalso
  rw [Option.some.injEq] at hd'
  subst hd'
  rw [hkeep, hnat, hx1] at h
  rcases h with h | h
  · rw [hd] at h
    have hn0 : (0:ℝ) < n := by exact_mod_cast hpos
    have h1 := le_of_mul_le_mul_left h hn0
    rw [div_le_div_iff₀ (by positivity) (by positivity)] at h1
    nlinarith
  · exact absurd h (by simp)

/-! ### alpha-dpp -/

theorem lHat_scal (x over : ℝ) (e f : Fin (fullDict n over).items.length) :
    lHat (scal n x) (fullDict n over) e f = if e = f then x else 0 := by
  unfold lHat
  rw [fullDict_probs, fullDict_probs, scal_idx2]
  simp

/-- the dictionary of all the points with its eigendecomposition -/
noncomputable def scalNys (num : Numerics) (n : ℕ) (x over : ℝ) : Nystrom n :=
  nysOf num (scal n x) (fullDict n over) (List.finRange _)

theorem nysDeff_scal (hn : NumericsSpec num) {x : ℝ} (hx : 0 < x) (over : ℝ) {a : ℝ} (ha : 0 < a) :
    nysDeff (scalNys num n x over) a = n * (a * x / (a * x + 1)) := by
  unfold nysDeff scalNys nysOf
  simp_rw [eigh_scal hn (lHat_scal (n := n) x over)]
  rw [Finset.sum_const, Finset.card_univ, Fintype.card_fin, List.length_finRange, fullDict_length, nsmul_eq_mul]
  have h1 : a * x + 1 ≠ 0 := by positivity
  rw [one_sub_div h1, add_sub_cancel_right]

theorem nysLogdet_scal (hn : NumericsSpec num) (x over a : ℝ) :
    nysLogdet (scalNys num n x over) a = n * Real.log (1 + a * x) := by
  unfold nysLogdet scalNys nysOf
  simp_rw [eigh_scal hn (lHat_scal (n := n) x over)]
  rw [Finset.sum_const, Finset.card_univ, Fintype.card_fin, List.length_finRange, fullDict_length, nsmul_eq_mul]

theorem nysRls_scal (hn : NumericsSpec num) {x : ℝ} (hx : 0 < x) (over : ℝ) {a : ℝ} (ha : 0 < a) (i : Fin n) :
    nysRls (scal n x) (scalNys num n x over) a i = a * x / (a * x + 1) := by
  have hA := lHat_scal (n := n) x over
  have hU := (hn.eigh _ _ (scal_symm hA)).1
  have hrow := rows_of_cols hU (fullPos over i) (fullPos over i)
  rw [if_pos rfl] at hrow
  have hp : 0 < a * x + 1 := by positivity
  have hE : ∀ j, nysE (scal n x) (scalNys num n x over) a j i ^ 2
      = x ^ 2 / (a * x + 1) * ((num.eigh _ (lHat (scal n x) (fullDict n over))).2 (fullPos over i) ((List.finRange _).get j) *
        (num.eigh _ (lHat (scal n x) (fullDict n over))).2 (fullPos over i) ((List.finRange _).get j)) := by
    intro j
    unfold nysE
    have h1 : ∑ e, (scalNys num n x over).eigvecs e j * (scal n x ((scalNys num n x over).idx e) i *
        (1 / Real.sqrt ((scalNys num n x over).probs e)))
        = (num.eigh _ (lHat (scal n x) (fullDict n over))).2 (fullPos over i) ((List.finRange _).get j) * x := by
      change ∑ e, (num.eigh _ (lHat (scal n x) (fullDict n over))).2 e ((List.finRange _).get j) *
        (scal n x ((fullDict n over).idx e) i * (1 / Real.sqrt ((fullDict n over).probs e))) = _
      simp_rw [fullDict_probs, scal_idx]
      simp
    have h2 : (scalNys num n x over).eigvals j = x := eigh_scal hn hA _
    rw [h1, h2, mul_pow, Real.sq_sqrt (by positivity)]
    ring
  unfold nysRls
  simp_rw [hE]
  rw [← Finset.mul_sum]
  have hs := sum_finRange fun e => (num.eigh _ (lHat (scal n x) (fullDict n over))).2 (fullPos over i) e *
        (num.eigh _ (lHat (scal n x) (fullDict n over))).2 (fullPos over i) e
  refine (congrArg (fun t => a * (scal n x i i - a * (x ^ 2 / (a * x + 1) * t))) (hs.trans hrow)).trans ?_
  rw [scal_apply, if_pos rfl]
  field_simp
  ring

/-- The alpha-dpp pre-computation on orthogonal points -/
theorem alphaPrecompute_scal (hn : NumericsSpec num) {x : ℝ} (hx : 0 < x) (hpos : 0 < n) (heps : n * num.eps < 1) (over : ℝ) :
    alphaPrecompute num (scal n x) (fullDict n over) none
      = .ok (alphaInfoOf (scal n x) (scalNys num n x over) none 1) := by
  have hA := lHat_scal (n := n) x over
  have hkeep := stableKeep_const (eps := num.eps) hx (by rw [fullDict_length]; exact heps) (eigh_scal hn hA)
  have hf : stableFilter num.eps (num.eigh _ (lHat (scal n x) (fullDict n over))).1 = .ok (List.finRange _) := by
    rw [← hkeep]
    have : 0 < (fullDict n over).items.length := by rw [fullDict_length]; exact hpos
    exact stableFilter_ok hn.eps (i := ⟨0, this⟩) (fun j => by rw [eigh_scal hn hA]; exact hx.le) (by rw [eigh_scal hn hA]; exact hx)
  unfold alphaPrecompute
  rw [hf]
  simp only
  have hr : ∀ i, nysRls (scal n x) (nysOf num (scal n x) (fullDict n over) (List.finRange _)) (1 / (fullDict n over).lam) i
      = x / (x + 1) := by
    intro i
    have := nysRls_scal (n := n) hn hx over one_pos i
    rw [one_mul] at this
    rw [← this]
    simp [fullDict, scalNys]
  have hq : 0 ≤ x / (x + 1) := by positivity
  rw [if_neg, if_neg]
  · rfl
  · rw [not_lt]
    unfold alphaNatural
    refine Finset.sum_nonneg fun e _ => ?_
    rw [hr]
    exact div_nonneg hq (zero_le_one.trans_eq (fullDict_probs over e).symm)
  · push Not
    intro e
    rw [hr]
    exact hq

/-- every point drawn once: the acceptance test is a tie if the weights are one -/
theorem alphaAcc_scal (hn : NumericsSpec num) {x : ℝ} (hx : 0 < x) (over : ℝ) {a r : ℝ} (ha : 0 < a)
    (hr : r * (a * x / (a * x + 1)) = 1) :
    alphaAcc (scal n x) (scalNys num n x over) a r (fun _ => a * x / (a * x + 1)) (fun _ => 1) = 0 := by
  have hM : alphaTilde (scal n x) a r (fun _ => a * x / (a * x + 1)) (fun _ : Fin n => 1) + 1
      = diagonal fun _ => 1 + a * x := by
    ext p q
    rw [Matrix.add_apply, diagonal_apply, one_apply]
    unfold alphaTilde alphaA
    simp only [of_apply, hr, Nat.cast_one, div_one, Real.sqrt_one, mul_one]
    rw [scal_apply]
    have hinj : ((uniq (fun _ : Fin n => 1)).get p = (uniq (fun _ : Fin n => 1)).get q) ↔ p = q :=
      (uniqEmb (fun _ : Fin n => 1)).injective.eq_iff
    simp only [hinj]
    split
    · ring
    · simp
  have hlen : (uniq (fun _ : Fin n => 1)).length = n := by simp [uniq]
  have hp : 0 < 1 + a * x := by positivity
  unfold alphaAcc
  rw [hM, det_diagonal, nysDeff_scal hn hx over ha, nysLogdet_scal hn, Finset.prod_const, Finset.card_univ, Fintype.card_fin, hlen,
    abs_of_pos (pow_pos hp n), Real.log_pow, Finset.sum_const, Finset.card_univ, Fintype.card_fin, nsmul_eq_mul]
  have hr0 : r ≠ 0 := by
    rintro rfl
    rw [zero_mul] at hr
    exact zero_ne_one hr
  have : a * x / (a * x + 1) = 1 / r := by field_simp at hr ⊢; linarith
  rw [this]
  push_cast
  ring

theorem indep_support {α : Type*} : ∀ {n : ℕ} (f : Fin n → PMF α) (c : Fin n → α), (∀ i, c i ∈ (f i).support) →
    c ∈ (indep f).support := by
  intro n
  induction n with
  | zero => intro f c _; rw [indep, PMF.support_pure, Set.mem_singleton_iff]; funext i; exact i.elim0
  | succ n ih =>
    intro f c hc
    rw [indep, PMF.mem_support_bind_iff]
    refine ⟨c 0, hc 0, ?_⟩
    rw [PMF.mem_support_map_iff]
    exact ⟨fun i => c i.succ, ih _ _ fun i => hc i.succ, Fin.cons_self_tail c⟩

theorem poisson_support {lam : ℝ} (h : 0 < lam) (k : ℕ) : k ∈ (poisson lam.toNNReal).support := by
  rw [PMF.mem_support_iff]
  change ENNReal.ofReal (poissonW _ _) ≠ 0
  rw [Real.coe_toNNReal _ h.le]
  have : 0 < poissonW lam k := by unfold poissonW; positivity
  simpa using this

theorem binom_one_support {p : ℝ} (h : 0 < p) : 1 ∈ (binom p 1).support := by
  rw [binom, PMF.mem_support_bind_iff]
  refine ⟨true, ?_, ?_⟩
  · unfold coin
    rw [PMF.mem_support_iff, PMF.bernoulli_apply]
    simp [h]
  · rw [binom, PMF.mem_support_map_iff]
    exact ⟨0, by simp, rfl⟩

/-- On orthogonal points, with `r` such that `r` times the leverage score of a point is one, a round raises with
positive probability. -/
theorem alphaRound_tie (hn : NumericsSpec num) {x : ℝ} (hx : 0 < x) (over : ℝ) {pc : AlphaInfo n} (hr : pc.r * (x / (x + 1)) = 1)
    (h1 : pc.dict = scalNys num n x over) (h2 : pc.alphaHat = 1) (h3 : pc.bound = fun _ => x) (h4 : pc.valid = fun _ => false) :
    .valueError ∈ (alphaRound (scal n x) pc).support := by
  classical
  have hq : 0 < x / (x + 1) := by positivity
  have hr0 : 0 < pc.r := by
    by_contra h
    have := mul_nonpos_of_nonpos_of_nonneg (not_lt.1 h) hq.le
    linarith
  have hrls : nysRls (scal n x) (scalNys num n x over) 1 = fun _ => x / (x + 1) := by
    funext i
    have := nysRls_scal (n := n) hn hx over one_pos i
    rwa [one_mul] at this
  have hlam : ∀ i, 0 < alphaLam pc.r (fun _ : Fin n => x) i := by
    intro i
    unfold alphaLam
    positivity
  have hle : x / (x + 1) ≤ x := by
    rw [div_le_iff₀ (by positivity)]; nlinarith
  have htr : ∀ i : Fin n, toRecompute (fun _ => false) (fun _ => 1) i := fun i => ⟨one_pos, rfl⟩
  have hnb : newBound (fun _ => x / (x + 1)) (fun _ : Fin n => x) (fun _ => false) (fun _ => 1) = fun _ => x / (x + 1) := by
    funext i
    unfold newBound
    rw [if_pos (htr i)]
  unfold alphaRound
  rw [h1, h2, h3, h4, hrls, if_neg (by push Not; exact fun i => (hlam i).le), PMF.mem_support_bind_iff]
  refine ⟨fun _ => 1, indep_support _ _ fun i => poisson_support (hlam i) 1, ?_⟩
  rw [if_neg, if_neg, PMF.mem_support_bind_iff]
  · refine ⟨fun _ => 1, ?_, ?_⟩
    · unfold thinned
      refine indep_support _ _ fun i => ?_
      rw [if_pos (htr i)]
      refine binom_one_support ?_
      rw [hnb]
      positivity
    · have hacc := alphaAcc_scal (n := n) hn hx over (a := 1) (r := pc.r) one_pos (by rw [one_mul]; exact hr)
      rw [one_mul] at hacc
      rw [hnb, PMF.mem_support_map_iff]
      refine ⟨.valueError, ?_, rfl⟩
      unfold alphaTest
      split
      · simp
      · rw [if_pos hacc.ge]; simp
  · push Not
    intro i _
    exact hle
  · push Not
    intro i _
    exact hq.le

theorem alphaRound_scal_raises (hn : NumericsSpec num) {x : ℝ} (hx : 0 < x) (over : ℝ) {r : ℝ} (hr : r * (x / (x + 1)) = 1) :
    .valueError ∈ (alphaRound (scal n x) { alphaInfoOf (scal n x) (scalNys num n x over) none 1 with r := r }).support :=
  alphaRound_tie hn hx over hr rfl rfl (funext fun i => (one_mul _).trans ((scal_apply x i i).trans (if_pos rfl))) rfl

end Verif
