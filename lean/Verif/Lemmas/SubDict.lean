import Verif.Lemmas.Ties

/-!
Concrete case: orthogonal points `L = x I` and a dictionary of some of the points, all with the same probability.
-/

namespace Verif
open Verif Verif.Spec Verif.Model Matrix
open scoped ENNReal NNReal

variable {n : ℕ} {num : Numerics}

/-- the dictionary of the points of the mask `U`, with probability `p` -/
def subDict (U : Fin n → Bool) (p over : ℝ) : Centers n where
  items := (selOnes U).map fun i => (i, p)
  lam := 1
  over := over

theorem selOnes_nodup (U : Fin n → Bool) : (selOnes U).Nodup := (List.nodup_finRange n).filter _

theorem subDict_length (U : Fin n → Bool) (p over : ℝ) : (subDict U p over).items.length = (selOnes U).length := by
  simp [subDict]

theorem subDict_idx (U : Fin n → Bool) (p over : ℝ) (e : Fin (subDict U p over).items.length) :
    (subDict U p over).idx e = (selOnes U).get (e.cast (subDict_length U p over)) := by
  unfold Centers.idx
  rw [List.get_eq_getElem, List.get_eq_getElem]
  simp only [subDict, List.getElem_map]
  rfl

theorem subDict_probs (U : Fin n → Bool) (p over : ℝ) (e : Fin (subDict U p over).items.length) :
    (subDict U p over).probs e = p := by
  unfold Centers.probs
  rw [List.get_eq_getElem]
  simp [subDict]

theorem subDict_inj (U : Fin n → Bool) (p over : ℝ) : Function.Injective (subDict U p over).idx := fun a b h => by
  rw [subDict_idx, subDict_idx] at h
  have := (selOnes_nodup U).injective_get h
  exact Fin.ext (by simpa [Fin.ext_iff] using this)

theorem subDict_mem (U : Fin n → Bool) (p over : ℝ) (e : Fin (subDict U p over).items.length) :
    U ((subDict U p over).idx e) = true := by
  rw [subDict_idx, ← mem_selOnes]
  exact List.get_mem _ _

theorem subDict_pos (U : Fin n → Bool) (p over : ℝ) {i : Fin n} (hi : U i = true) :
    ∃ e, (subDict U p over).idx e = i := by
  obtain ⟨k, hk⟩ := List.get_of_mem (mem_selOnes.2 hi)
  exact ⟨k.cast (subDict_length U p over).symm, by rw [subDict_idx]; exact hk⟩

theorem lHat_sub {x p : ℝ} (hp : 0 < p) (U : Fin n → Bool) (over : ℝ) (e f : Fin (subDict U p over).items.length) :
    lHat (scal n x) (subDict U p over) e f = if e = f then x / p else 0 := by
  unfold lHat
  rw [subDict_probs, subDict_probs, scal_apply]
  have h := Real.mul_self_sqrt hp.le
  have hs := Real.sqrt_pos.2 hp
  by_cases hef : e = f
  · rw [if_pos hef, if_pos (by rw [hef])]
    field_simp
    rw [Real.sq_sqrt hp.le, mul_comm]
  · rw [if_neg hef, if_neg fun h => hef (subDict_inj U p over h)]
    simp

/-- the dictionary with its eigendecomposition -/
noncomputable def subNys (num : Numerics) (x p over : ℝ) (U : Fin n → Bool) : Nystrom n :=
  nysOf num (scal n x) (subDict U p over) (List.finRange _)

theorem nysDeff_sub (hn : NumericsSpec num) {x p : ℝ} (hx : 0 < x) (hp : 0 < p) (over : ℝ) (U : Fin n → Bool) :
    nysDeff (subNys num x p over U) 1 = (selOnes U).length * (x / (x + p)) := by
  unfold nysDeff subNys nysOf
  simp_rw [eigh_scal hn (lHat_sub (n := n) (x := x) hp U over)]
  rw [Finset.sum_const, Finset.card_univ, Fintype.card_fin, List.length_finRange, subDict_length, nsmul_eq_mul]
  have h1 : x + p ≠ 0 := by positivity
  congr 1
  field_simp
  ring

theorem nysLogdet_sub (hn : NumericsSpec num) {x p : ℝ} (hp : 0 < p) (over : ℝ) (U : Fin n → Bool) :
    nysLogdet (subNys num x p over U) 1 = (selOnes U).length * Real.log (1 + x / p) := by
  unfold nysLogdet subNys nysOf
  simp_rw [eigh_scal hn (lHat_sub (n := n) (x := x) hp U over)]
  rw [Finset.sum_const, Finset.card_univ, Fintype.card_fin, List.length_finRange, subDict_length, nsmul_eq_mul, one_mul]

theorem nysRls_sub (hn : NumericsSpec num) {x p : ℝ} (hx : 0 < x) (hp : 0 < p) (over : ℝ) (U : Fin n → Bool) (i : Fin n) :
    nysRls (scal n x) (subNys num x p over U) 1 i = if U i = true then x * p / (x + p) else x := by
  have hA := lHat_sub (n := n) (x := x) hp U over
  have hU := (hn.eigh _ _ (scal_symm hA)).1
  have ht : 0 < x / p + 1 := by positivity
  have hsum : ∀ j, ∑ e, (subNys num x p over U).eigvecs e j * (scal n x ((subNys num x p over U).idx e) i *
        (1 / Real.sqrt ((subNys num x p over U).probs e)))
        = ∑ e, (num.eigh _ (lHat (scal n x) (subDict U p over))).2 e ((List.finRange _).get j) *
          ((if (subDict U p over).idx e = i then x else 0) * (1 / Real.sqrt p)) := by
    intro j
    refine Finset.sum_congr rfl fun e _ => ?_
    change (num.eigh _ (lHat (scal n x) (subDict U p over))).2 e ((List.finRange _).get j) *
        (scal n x ((subDict U p over).idx e) i * (1 / Real.sqrt ((subDict U p over).probs e))) = _
    rw [scal_apply]
    congr 4
    exact subDict_probs U p over e
  by_cases hi : U i = true
  · obtain ⟨e₀, he₀⟩ := subDict_pos U p over hi
    have hiff : ∀ e, (subDict U p over).idx e = i ↔ e = e₀ := fun e =>
      ⟨fun h => subDict_inj U p over (by rw [h, he₀]), fun h => by rw [h, he₀]⟩
    have hrow := rows_of_cols hU e₀ e₀
    rw [if_pos rfl] at hrow
    have hE : ∀ j, nysE (scal n x) (subNys num x p over U) 1 j i ^ 2
        = x ^ 2 / p / (x / p + 1) * ((num.eigh _ (lHat (scal n x) (subDict U p over))).2 e₀ ((List.finRange _).get j) *
          (num.eigh _ (lHat (scal n x) (subDict U p over))).2 e₀ ((List.finRange _).get j)) := by
      intro j
      unfold nysE
      have h2 : (subNys num x p over U).eigvals j = x / p := eigh_scal hn hA _
      rw [hsum, h2]
      simp only [hiff, ite_mul, zero_mul, mul_ite, mul_zero, Finset.sum_ite_eq', Finset.mem_univ, if_true]
      rw [mul_pow, mul_pow, mul_pow, div_pow, one_pow, Real.sq_sqrt hp.le, Real.sq_sqrt (by positivity)]
      ring
    unfold nysRls
    simp_rw [hE]
    rw [← Finset.mul_sum]
    have hs := sum_finRange fun e => (num.eigh _ (lHat (scal n x) (subDict U p over))).2 e₀ e *
          (num.eigh _ (lHat (scal n x) (subDict U p over))).2 e₀ e
    refine (congrArg (fun t => 1 * (scal n x i i - 1 * (x ^ 2 / p / (x / p + 1) * t))) (hs.trans hrow)).trans ?_
    rw [scal_apply, if_pos rfl, if_pos hi]
    field_simp
    ring
  · have hne : ∀ e, (subDict U p over).idx e ≠ i := fun e h => hi (by rw [← h]; exact subDict_mem U p over e)
    have hE : ∀ j, nysE (scal n x) (subNys num x p over U) 1 j i ^ 2 = 0 := by
      intro j
      unfold nysE
      rw [hsum]
      simp [hne]
    unfold nysRls
    simp_rw [hE]
    rw [Finset.sum_const_zero, scal_apply, if_pos rfl, if_neg hi]
    ring

theorem subNys_ok (hn : NumericsSpec num) {x : ℝ} (hx : 0 < x) (p over : ℝ) (U : Fin n → Bool) :
    NysOK (scal n x) (subNys num x p over U) := nysOf_ok hn (scal_psd hx.le) _ (List.nodup_finRange _)

/-- The alpha-dpp pre-computation on orthogonal points -/
theorem alphaPrecompute_sub (hn : NumericsSpec num) {x p : ℝ} (hx : 0 < x) (hp : 0 < p) (heps : n * num.eps < 1) (over : ℝ)
    {U : Fin n → Bool} (hne : selOnes U ≠ []) :
    alphaPrecompute num (scal n x) (subDict U p over) none
      = .ok (alphaInfoOf (scal n x) (subNys num x p over U) none 1) := by
  have hA := lHat_sub (n := n) (x := x) hp U over
  have hxp : 0 < x / p := by positivity
  have hlen : (selOnes U).length ≤ n := (List.length_filter_le _ _).trans (by simp)
  have hkeep := stableKeep_const (eps := num.eps) hxp (by
    rw [subDict_length]
    have h1 := hn.eps
    have h2 : ((selOnes U).length : ℝ) ≤ n := by exact_mod_cast hlen
    nlinarith) (eigh_scal hn hA)
  have hf : stableFilter num.eps (num.eigh _ (lHat (scal n x) (subDict U p over))).1 = .ok (List.finRange _) := by
    rw [← hkeep]
    have : 0 < (subDict U p over).items.length := by rw [subDict_length]; exact List.length_pos_iff.2 hne
    exact stableFilter_ok hn.eps (i := ⟨0, this⟩) (fun j => by rw [eigh_scal hn hA]; exact hxp.le) (by rw [eigh_scal hn hA]; exact hxp)
  unfold alphaPrecompute
  rw [hf]
  simp only
  have hr : ∀ i, 0 ≤ nysRls (scal n x) (nysOf num (scal n x) (subDict U p over) (List.finRange _)) (1 / (subDict U p over).lam) i := by
    intro i
    have := nysRls_sub (n := n) hn hx hp over U i
    have h1 : (1:ℝ) / (subDict U p over).lam = 1 := by simp [subDict]
    rw [h1]
    change nysRls (scal n x) (nysOf num (scal n x) (subDict U p over) (List.finRange _)) 1 i = _ at this
    rw [this]
    split <;> positivity
  rw [if_neg, if_neg]
  · rfl
  · rw [not_lt]
    unfold alphaNatural
    refine Finset.sum_nonneg fun e _ => div_nonneg (hr _) (hp.le.trans_eq (subDict_probs U p over e).symm)
  · push Not
    exact fun e => hr _

/-- On orthogonal points, starting with the dictionary of all the points, each point is kept with the same probability. -/
theorem reduceLambda_sub (hn : NumericsSpec num) {x : ℝ} (hx : 0 < x) (hpos : 0 < n) (heps : n * num.eps < 1) {over over' : ℝ}
    (ho : 0 < over') (ho1 : over' * (x / (x + 1)) ≤ 1) :
    reduceLambda num (scal n x) (fullDict n over) 1 (some over')
      = (indep fun _ : Fin n => coin (over' * (x / (x + 1)))).map fun U =>
        if selOnes U = [] then .valueError else .ok (subDict U (over' * (x / (x + 1))) over') := by
  classical
  obtain ⟨p, hp⟩ : ∃ p, p = over' * (x / (x + 1)) := ⟨_, rfl⟩
  have hp0 : 0 < p := by rw [hp]; positivity
  have hucb : ∀ i, ucb (scal n x) over' 1 i = p := by
    intro i
    unfold ucb
    rw [scal_apply, if_pos rfl, mul_div_assoc, hp]
    exact min_eq_left ho1
  have hlen : ((fullDict n over).items.length : ℝ) * num.eps < 1 := by rw [fullDict_length]; exact heps
  have hv := fullDict_valid (n := n) hx hpos over
  have hpp : ∀ e, 0 < (fullDict n over).probs e := fun e => by rw [fullDict_probs]; exact one_pos
  have hkeep := stableKeep_const (eps := num.eps) (c := x + 1) (by linarith) hlen
    (svd_scal hn (by linarith) (blessMat_scal (n := n) x 1 over))
  rw [← hp]
  unfold reduceLambda
  simp only [Option.getD_some]
  rw [if_neg (by simp [fullDict])]
  simp_rw [hucb]
  rw [PMF.map]
  refine congrArg _ (funext fun U => ?_)
  have hrls := estimateRls_ok hn (scal_psd hx.le) hv.nonempty hpp one_pos (U := U)
  rw [hkeep] at hrls
  have hred : ∀ i, redProbs (scal n x) over' 1 (blessRls num (scal n x) (fullDict n over) 1 (List.finRange _)) i = p := by
    intro i
    unfold redProbs
    rw [hucb, blessRls_scal hn hx one_pos, ← hp, min_self]
  have hrej : ∀ i, redReject (scal n x) over' 1 (blessRls num (scal n x) (fullDict n over) 1 (List.finRange _)) i = 1 := by
    intro i
    unfold redReject
    rw [hred, hucb, div_self hp0.ne']
  by_cases hU : selOnes U = []
  · simp [hU]
  · rw [if_neg hU, hrls]
    simp only [Function.comp_apply]
    rw [if_neg hU]
    simp_rw [hred, hrej]
    rw [if_neg (by push Not; intro i _; exact hp0.le), if_neg]
    · simp_rw [coin_one le_rfl]
      rw [indep_pure fun _ => true, PMF.pure_map]
      simp only [List.filter_true]
      rw [if_neg hU]
      rfl
    · rw [List.map_const', List.sum_replicate, nsmul_eq_mul, mul_one, mul_div_cancel₀ _ ho.ne', not_lt]
      have : 0 < (selOnes U).length := List.length_pos_iff.2 hU
      exact_mod_cast this

end Verif
