import Verif.Lemmas.Tilde
import Mathlib.Data.List.GetD

/-!
The law of the vfx rejection loop.
-/

namespace Verif
open Verif Verif.Spec Verif.Model Matrix
open scoped ENNReal NNReal

variable {n : ℕ} {L : Matrix (Fin n) (Fin n) ℝ} {pc : VfxInfo n}

/-- weight of item `i` in the intermediate sample -/
noncomputable def vfxWt (pc : VfxInfo n) (c : Fin n → ℕ) (i : Fin n) : ℝ := pc.s * c i / (pc.q * pc.rls i)

theorem vfxTilde_eq (hs : 0 ≤ pc.s) (c : Fin n → ℕ) : vfxTilde L pc c = tildeM L pc.alphaStar (vfxWt pc c) c := by
  ext a b
  unfold vfxTilde tildeM vfxW vfxWt uniqEmb
  simp only [of_apply, submatrix_apply, Function.Embedding.coeFn_mk]
  rw [Real.sqrt_div (by positivity), Real.sqrt_div (by positivity)]
  ring

theorem det_one_add_tilde {α : ℝ} {w : Fin n → ℝ} {c : Fin n → ℕ} (hw : ∀ i, 0 < c i → 0 < w i) :
    (1 + tildeM L α w c).det = (∏ a, w ((uniq c).get a)) *
      (Matrix.of fun a b => α * L ((uniq c).get a) ((uniq c).get b)
        + if a = b then (w ((uniq c).get a))⁻¹ else 0).det := by
  have h : 1 + tildeM L α w c = Matrix.of fun (a b : Fin (uniq c).length) => Real.sqrt (w ((uniq c).get a)) *
      (Matrix.of fun (a b : Fin (uniq c).length) => Real.sqrt (w ((uniq c).get b)) *
        (Matrix.of fun (a b : Fin (uniq c).length) => α * L ((uniq c).get a) ((uniq c).get b)
        + if a = b then (w ((uniq c).get a))⁻¹ else 0) a b) a b := by
    ext a b
    have hp : 0 < w ((uniq c).get a) := hw _ (mem_uniq.1 ((uniq c).get_mem a))
    rw [Matrix.add_apply, Matrix.one_apply]
    simp only [tildeM, uniqEmb, of_apply, submatrix_apply, Function.Embedding.coeFn_mk]
    by_cases hab : a = b
    · subst hab
      simp only [if_true]
      rw [mul_add, mul_add, ← mul_assoc (Real.sqrt (w ((uniq c).get a))) (Real.sqrt _) (_⁻¹), Real.mul_self_sqrt hp.le,
        mul_inv_cancel₀ hp.ne']
      ring
    · simp only [if_neg hab, add_zero, zero_add]
      ring
  rw [h, Matrix.det_mul_column, Matrix.det_mul_row, ← mul_assoc, ← Finset.prod_mul_distrib]
  congr 1
  refine Finset.prod_congr rfl fun a _ => ?_
  exact Real.mul_self_sqrt (hw _ (mem_uniq.1 ((uniq c).get_mem a))).le

/-- The facts about the pre-computed constants that the law relies on, except the one on the acceptance test. -/
structure VfxBase (L : Matrix (Fin n) (Fin n) ℝ) (pc : VfxInfo n) : Prop where
  psd : L.PosSemidef
  alpha : 0 < pc.alphaStar
  q : 0 < pc.q
  s : 0 < pc.s
  rls : ∀ i, 0 ≤ pc.rls i
  sum : ∑ i, pc.rls i = pc.s
  zero : ∀ i, pc.rls i = 0 → L i i = 0

/-- The facts about the pre-computed constants that the law relies on. -/
structure VfxOK (L : Matrix (Fin n) (Fin n) ℝ) (pc : VfxInfo n) : Prop extends VfxBase L pc where
  acc : ∀ σ : List (Fin n), (∀ i ∈ σ, 0 < pc.rls i) → vfxAcc L pc σ.length (countsOf σ) ≤ 0

theorem VfxBase.wt_pos (h : VfxBase L pc) {σ : List (Fin n)} (hσ : ∀ i ∈ σ, 0 < pc.rls i) {i : Fin n}
    (hi : 0 < countsOf σ i) : 0 < vfxWt pc (countsOf σ) i := by
  have h1 := hσ i (List.count_pos_iff.1 hi)
  have h2 := h.q
  have h3 := h.s
  have h4 : (0:ℝ) < countsOf σ i := by exact_mod_cast hi
  unfold vfxWt; positivity

theorem vfxISigma_det (h : VfxBase L pc) {σ : List (Fin n)} (hσ : ∀ i ∈ σ, 0 < pc.rls i) :
    (1 + tildeM L pc.alphaStar (vfxWt pc (countsOf σ)) (countsOf σ)).det
      = (∏ a, vfxWt pc (countsOf σ) ((uniq (countsOf σ)).get a)) * (vfxISigma L pc (countsOf σ)).det := by
  rw [det_one_add_tilde fun i hi => h.wt_pos hσ hi]
  congr 2
  ext a b
  simp only [vfxISigma, of_apply, vfxWSqInv, vfxWt, inv_div]

theorem vfxISigma_pos (h : VfxBase L pc) {σ : List (Fin n)} (hσ : ∀ i ∈ σ, 0 < pc.rls i) :
    0 < (vfxISigma L pc (countsOf σ)).det := by
  have h1 := det_one_add_pos (tildeM_psd (w := vfxWt pc (countsOf σ)) (c := countsOf σ) h.psd h.alpha.le)
  rw [vfxISigma_det h hσ] at h1
  exact pos_of_mul_pos_right h1 (Finset.prod_nonneg fun a _ => (h.wt_pos hσ (mem_uniq.1 (List.get_mem _ a))).le)

theorem exp_vfxAcc (h : VfxBase L pc) {σ : List (Fin n)} (hσ : ∀ i ∈ σ, 0 < pc.rls i) (t : ℕ) :
    Real.exp (vfxAcc L pc t (countsOf σ)) = Real.exp (pc.z - pc.logdetIA) * Real.exp (-(pc.s / pc.q)) ^ t *
      (1 + tildeM L pc.alphaStar (vfxWt pc (countsOf σ)) (countsOf σ)).det := by
  have hp := vfxISigma_pos h hσ
  have hw : ∀ a, 0 < vfxWt pc (countsOf σ) ((uniq (countsOf σ)).get a) :=
    fun a => h.wt_pos hσ (mem_uniq.1 (List.get_mem _ a))
  have h1 : ∑ a, Real.log (vfxWSqInv pc (countsOf σ) ((uniq (countsOf σ)).get a))
      = - Real.log (∏ a, vfxWt pc (countsOf σ) ((uniq (countsOf σ)).get a)) := by
    rw [Real.log_prod fun a _ => (hw a).ne', ← Finset.sum_neg_distrib]
    refine Finset.sum_congr rfl fun a _ => ?_
    rw [← Real.log_inv, vfxWt, vfxWSqInv, inv_div]
  have h2 : 0 < ∏ a, vfxWt pc (countsOf σ) ((uniq (countsOf σ)).get a) := Finset.prod_pos fun a _ => hw a
  unfold vfxAcc
  rw [h1, abs_of_pos hp, vfxISigma_det h hσ, ← Real.exp_nat_mul]
  have h3 : pc.z + Real.log (vfxISigma L pc (countsOf σ)).det
        - -Real.log (∏ a, vfxWt pc (countsOf σ) ((uniq (countsOf σ)).get a)) - pc.logdetIA - t * pc.s / pc.q
      = (pc.z - pc.logdetIA) + t * -(pc.s / pc.q)
        + (Real.log (∏ a, vfxWt pc (countsOf σ) ((uniq (countsOf σ)).get a)) + Real.log (vfxISigma L pc (countsOf σ)).det) := by
    ring
  rw [h3, Real.exp_add, Real.exp_add, Real.exp_add, Real.exp_log h2, Real.exp_log hp]

/-- what an accepted intermediate sample contributes to the event "`T` is returned" -/
noncomputable def vfxHit (inner : DppSampler) (L : Matrix (Fin n) (Fin n) ℝ) (pc : VfxInfo n) (T : Finset (Fin n)) :
    Outcome (Option (Fin n → ℕ)) → ℝ≥0∞
  | .ok (some c) => PP (vfxFinish inner L pc c) (Returns T)
  | _ => 0

theorem VfxOK.cat (h : VfxOK L pc) : (∀ i, 0 ≤ pc.rls i / pc.s) ∧ ∑ i, pc.rls i / pc.s = 1 :=
  ⟨fun i => div_nonneg (h.rls i) h.s.le, by rw [← Finset.sum_div, h.sum, div_self h.s.ne']⟩

theorem mem_support_iid {α : Type*} (p : PMF α) : ∀ (t : ℕ) (l : List α), l ∈ (iid p t).support →
    l.length = t ∧ ∀ a ∈ l, a ∈ p.support
  | 0, l, h => by
    rw [iid, PMF.support_pure] at h
    simp only [Set.mem_singleton_iff] at h
    subst h; simp
  | t + 1, l, h => by
    rw [iid, PMF.mem_support_bind_iff] at h
    obtain ⟨a, ha, h⟩ := h
    rw [PMF.mem_support_map_iff] at h
    obtain ⟨l', hl', rfl⟩ := h
    obtain ⟨h1, h2⟩ := mem_support_iid p t l' hl'
    refine ⟨by simp [h1], ?_⟩
    intro b hb
    rcases List.mem_cons.1 hb with rfl | hb
    · exact ha
    · exact h2 b hb

theorem support_sigma (h : VfxOK L pc) {t : ℕ} {σ : List (Fin n)}
    (hσ : σ ∈ (iid (Verif.cat (fun i => pc.rls i / pc.s) h.cat) t).support) :
    σ.length = t ∧ ∀ i ∈ σ, 0 < pc.rls i := by
  obtain ⟨h1, h2⟩ := mem_support_iid _ _ _ hσ
  refine ⟨h1, fun i hi => ?_⟩
  have h3 := h2 i hi
  rw [PMF.mem_support_iff] at h3
  rcases (h.rls i).eq_or_lt with h0 | h0
  · exfalso; apply h3
    change ENNReal.ofReal (pc.rls i / pc.s) = 0
    rw [← h0]; simp
  · exact h0

/-- the test never raises, and accepts with probability `exp(acc)` -/
theorem vfxTest_eq (h : VfxOK L pc) {σ : List (Fin n)} (hσ : ∀ i ∈ σ, 0 < pc.rls i) :
    vfxTest L pc σ.length (countsOf σ) = (coin (Real.exp (vfxAcc L pc σ.length (countsOf σ)))).map
      fun b => .ok (if b then some (countsOf σ) else none) := by
  have h1 := h.acc σ hσ
  unfold vfxTest
  rw [if_neg (not_lt.2 (vfxISigma_pos h.toVfxBase hσ).le), if_neg (by rw [ge_iff_le, not_le]; norm_num; linarith)]

/-- the expected ratio between the rate of the Poisson draw and the rate that would make the sampler exact:
`⌈q e^{s/q}⌉ e^{-s/q} / q` -/
noncomputable def vfxBias (pc : VfxInfo n) : ℝ := (⌈pc.q * Real.exp (pc.s / pc.q)⌉ : ℝ) * Real.exp (-(pc.s / pc.q)) / pc.q

theorem vfxLam_pos (h : VfxOK L pc) : 0 < vfxLam pc := by
  unfold vfxLam
  rw [Int.ceil_pos]
  have := h.q
  positivity

theorem vfxBias_pos (h : VfxOK L pc) : 0 < vfxBias pc := by
  have h1 := vfxLam_pos h
  have h2 : (0:ℝ) < vfxLam pc := by exact_mod_cast h1
  have h3 := h.q
  unfold vfxBias
  change 0 < (vfxLam pc : ℝ) * _ / _
  positivity

/-- the part of the probability of a round that does not depend on the returned set -/
noncomputable def vfxC (pc : VfxInfo n) : ℝ :=
  Real.exp (pc.z - pc.logdetIA) * Real.exp (vfxLam pc * Real.exp (-(pc.s / pc.q)) - vfxLam pc)

theorem PE_vfxRound (h : VfxOK L pc) (f : Outcome (Option (Fin n → ℕ)) → ℝ≥0∞) :
    PE (vfxRound L pc) f = PE (poisson (vfxLam pc : ℝ).toNNReal) fun t =>
      PE (iid (cat (fun i => pc.rls i / pc.s) h.cat) t) fun σ => PE (vfxTest L pc t (countsOf σ)) f := by
  unfold vfxRound
  rw [if_neg (not_lt.2 (vfxLam_pos h).le), PE_bind]
  congr 1
  funext t
  rw [dif_pos h.cat, PE_bind]

/-- The sub-probability of one round: it accepts and the DPP restricted to the intermediate sample returns `T`. -/
theorem vfxRound_hit {inner : DppSampler} (hin : InnerSpec inner) (h : VfxOK L pc) (T : Finset (Fin n)) :
    PE (vfxRound L pc) (vfxHit inner L pc T)
      = ENNReal.ofReal (vfxC pc * ((vfxBias pc * pc.alphaStar) ^ T.card * minor L T)) := by
  classical
  have hq := h.q
  have hs := h.s
  have hα := h.alpha
  have hlam : (0:ℝ) < vfxLam pc := by exact_mod_cast vfxLam_pos h
  have hmin := minor_nonneg h.psd T
  set x : ℝ := Real.exp (-(pc.s / pc.q)) with hx
  have hx0 : 0 < x := Real.exp_pos _
  -- one intermediate sample
  have h1 : ∀ t, ∀ σ ∈ (iid (cat (fun i => pc.rls i / pc.s) h.cat) t).support,
      PE (vfxTest L pc t (countsOf σ)) (vfxHit inner L pc T)
        = (∏ i ∈ T, (σ.count i : ℝ≥0∞)) * (ENNReal.ofReal (Real.exp (pc.z - pc.logdetIA) * x ^ t) *
          ENNReal.ofReal (pc.alphaStar ^ T.card * (∏ i ∈ T, pc.s / (pc.q * pc.rls i)) * minor L T)) := by
    intro t σ hσ
    obtain ⟨ht, hpos⟩ := support_sigma h hσ
    subst ht
    rw [vfxTest_eq h hpos, PE_map, PE_coin (Real.exp_pos _).le (Real.exp_le_one_iff.2 (h.acc σ hpos))]
    simp only [if_true, Bool.false_eq_true, if_false, vfxHit, mul_zero, add_zero]
    have hlaw := tilde_law (c := countsOf σ) (w := vfxWt pc (countsOf σ)) hin h.psd hα.le
      (fun i => by have := h.rls i; unfold vfxWt; positivity)
      (fun i hi => by unfold vfxWt; rw [hi]; simp) T
    have hdet := det_one_add_pos (tildeM_psd (w := vfxWt pc (countsOf σ)) (c := countsOf σ) h.psd hα.le)
    rw [exp_vfxAcc h.toVfxBase hpos, ENNReal.ofReal_mul (by positivity), mul_assoc]
    unfold vfxFinish
    rw [vfxTilde_eq hs.le, hlaw, ← hx, mul_left_comm]
    congr 1
    have h2 : ∏ i ∈ T, vfxWt pc (countsOf σ) i = (∏ i ∈ T, (σ.count i : ℝ)) * ∏ i ∈ T, pc.s / (pc.q * pc.rls i) := by
      rw [← Finset.prod_mul_distrib]
      refine Finset.prod_congr rfl fun i _ => ?_
      unfold vfxWt countsOf; ring
    have h3 : ∏ i ∈ T, (σ.count i : ℝ≥0∞) = ENNReal.ofReal (∏ i ∈ T, (σ.count i : ℝ)) := by
      rw [ENNReal.ofReal_prod_of_nonneg fun i _ => Nat.cast_nonneg _]
      exact Finset.prod_congr rfl fun i _ => (ENNReal.ofReal_natCast _).symm
    rw [h2, h3, ← ENNReal.ofReal_mul (Finset.prod_nonneg fun i _ => Nat.cast_nonneg _)]
    congr 1; ring
  rw [PE_vfxRound h]
  have h4 : ∀ t, PE (iid (cat (fun i => pc.rls i / pc.s) h.cat) t)
        (fun σ => PE (vfxTest L pc t (countsOf σ)) (vfxHit inner L pc T))
      = (ENNReal.ofReal (x ^ t) * (t.descFactorial T.card : ℝ≥0∞)) *
        (ENNReal.ofReal (Real.exp (pc.z - pc.logdetIA)) *
          ENNReal.ofReal (pc.alphaStar ^ T.card * (∏ i ∈ T, pc.rls i / pc.s * (pc.s / (pc.q * pc.rls i))) * minor L T)) := by
    intro t
    rw [PE_congr (h1 t), PE_mul_right, PE_iid_counts]
    have h5 : ∏ i ∈ T, (cat (fun i => pc.rls i / pc.s) h.cat) i = ENNReal.ofReal (∏ i ∈ T, pc.rls i / pc.s) := by
      rw [ENNReal.ofReal_prod_of_nonneg fun i _ => h.cat.1 i]
      rfl
    rw [h5, Finset.prod_mul_distrib, ENNReal.ofReal_mul (Real.exp_pos _).le]
    have h6 : 0 ≤ ∏ i ∈ T, pc.rls i / pc.s := Finset.prod_nonneg fun i _ => h.cat.1 i
    rw [show pc.alphaStar ^ T.card * ((∏ i ∈ T, pc.rls i / pc.s) * ∏ i ∈ T, pc.s / (pc.q * pc.rls i)) * minor L T
      = (∏ i ∈ T, pc.rls i / pc.s) * (pc.alphaStar ^ T.card * (∏ i ∈ T, pc.s / (pc.q * pc.rls i)) * minor L T) by ring,
      ENNReal.ofReal_mul h6]
    ring
  simp_rw [h4]
  rw [PE_mul_right, PE_poisson_descFactorial _ hx0.le, Real.coe_toNNReal _ hlam.le]
  rw [← ENNReal.ofReal_mul (Real.exp_pos _).le, ← ENNReal.ofReal_mul (by positivity)]
  congr 1
  by_cases hT : ∀ i ∈ T, pc.rls i ≠ 0
  · have h7 : ∏ i ∈ T, pc.rls i / pc.s * (pc.s / (pc.q * pc.rls i)) = (1 / pc.q) ^ T.card := by
      rw [← Finset.prod_const]
      refine Finset.prod_congr rfl fun i hi => ?_
      have := hT i hi
      field_simp
    rw [h7]
    unfold vfxC vfxBias
    rw [← hx]
    change _ = _ * (((vfxLam pc : ℝ) * x / pc.q * pc.alphaStar) ^ T.card * minor L T)
    rw [div_eq_mul_one_div ((vfxLam pc : ℝ) * x), mul_pow]
    simp only [mul_pow]
    ring
  · push Not at hT
    obtain ⟨i, hi, h0⟩ := hT
    rw [minor_diag_zero h.psd (h.zero i h0) hi]
    simp

/-- the event "`T` is returned", as a function -/
noncomputable def hitDraw {β : Type*} (T : Finset (Fin n)) : Outcome (List (Fin n) × β) → ℝ≥0∞
  | .ok (l, _) => if l.toFinset = T then 1 else 0
  | .raise _ => 0

theorem PP_draws {β : Type*} (p : PMF (Outcome (List (Fin n) × β))) (T : Finset (Fin n)) :
    PP p (Draws T) = PE p (hitDraw T) := by
  classical
  unfold PP
  congr 1
  funext o
  cases o with
  | raise e => simp [Draws, hitDraw]
  | ok a =>
    obtain ⟨l, b⟩ := a
    simp only [Draws, hitDraw, Outcome.ok.injEq, Prod.mk.injEq]
    refine if_congr ?_ rfl rfl
    exact ⟨fun ⟨l', b', ⟨h1, h2⟩, h3⟩ => h1 ▸ h3, fun h => ⟨l, b, ⟨rfl, rfl⟩, h⟩⟩

theorem PE_andThen {α β : Type*} (p : PMF (Outcome α)) (k : α → PMF (Outcome β)) (f : Outcome β → ℝ≥0∞) :
    PE (PMF.andThen p k) f = PE p fun o => match o with
      | .ok a => PE (k a) f
      | .raise e => f (.raise e) := by
  unfold PMF.andThen
  rw [PE_bind]
  congr 1
  funext o
  cases o with
  | ok a => rfl
  | raise e => simp [PE_pure]

theorem PE_map_hitDraw {β : Type*} (p : PMF (Outcome (List (Fin n)))) (b : β) (T : Finset (Fin n)) :
    PE (p.map (Outcome.map fun S => (S, b))) (hitDraw T) = PP p (Returns T) := by
  classical
  rw [PE_map]
  unfold PP
  congr 1
  funext o
  cases o with
  | raise e => simp [Outcome.map, hitDraw, Returns]
  | ok l => simp [Outcome.map, hitDraw, Returns]

/-- probability that a call succeeds, and law of its result, from proportional weights -/
theorem law_of_weights {β : Type*} {p : PMF (Outcome (List (Fin n) × β))} {M : Matrix (Fin n) (Fin n) ℝ}
    (hM : M.PosSemidef) {K : ℝ≥0∞} (h : ∀ T, PP p (Draws T) = K * ENNReal.ofReal (minor M T)) :
    PP p Succeeds = K * ENNReal.ofReal (1 + M).det ∧
      ∀ T, PP p (Draws T) = PP p Succeeds * ENNReal.ofReal (lDppProb M T) := by
  classical
  have h1 : PP p Succeeds = K * ENNReal.ofReal (1 + M).det := by
    rw [← sum_lDppProb hM, ENNReal.ofReal_sum_of_nonneg fun S _ => minor_nonneg hM S, Finset.mul_sum]
    simp_rw [← h, PP_draws]
    rw [← PE_sum]
    unfold PP
    congr 1
    funext o
    cases o with
    | raise e => simp [Succeeds, hitDraw]
    | ok a => obtain ⟨l, b⟩ := a; simp [Succeeds, hitDraw]
  refine ⟨h1, fun T => ?_⟩
  have hd := det_one_add_pos hM
  rw [h1, h T, mul_assoc, ← ENNReal.ofReal_mul hd.le, lDppProb, mul_div_cancel₀ _ hd.ne']

theorem psd_smul {M : Matrix (Fin n) (Fin n) ℝ} (hM : M.PosSemidef) {a : ℝ} (ha : 0 ≤ a) : (a • M).PosSemidef :=
  hM.smul ha

theorem minor_smul (M : Matrix (Fin n) (Fin n) ℝ) (a : ℝ) (S : Finset (Fin n)) :
    minor (a • M) S = a ^ S.card * minor M S := by
  unfold minor
  rw [show (a • M).submatrix (Subtype.val : S → Fin n) Subtype.val = a • M.submatrix Subtype.val Subtype.val from rfl,
    Matrix.det_smul, Fintype.card_coe]

/-- probability that one round rejects -/
noncomputable def vfxR (L : Matrix (Fin n) (Fin n) ℝ) (pc : VfxInfo n) : ℝ≥0∞ := PP (vfxRound L pc) (· = .ok none)

/-- probability weights after `m` rounds -/
noncomputable def vfxK (L : Matrix (Fin n) (Fin n) ℝ) (pc : VfxInfo n) : ℕ → ℝ≥0∞
  | 0 => 0
  | m + 1 => ENNReal.ofReal (vfxC pc) + vfxR L pc * vfxK L pc m

theorem vfxLoop_draws {inner : DppSampler} (hin : InnerSpec inner) (h : VfxOK L pc) (T : Finset (Fin n)) :
    ∀ m rej, PP (vfxLoop inner L pc m rej) (Draws T)
      = vfxK L pc m * ENNReal.ofReal (minor ((vfxBias pc * pc.alphaStar) • L) T)
  | 0, rej => by
    rw [PP_draws, vfxLoop, PE_pure, vfxK]; simp [hitDraw]
  | m + 1, rej => by
    classical
    have ih := vfxLoop_draws hin h T m (rej + 1)
    rw [PP_draws] at ih ⊢
    rw [vfxLoop, PE_andThen, vfxK, add_mul, mul_assoc, ← ih]
    have hb := vfxBias_pos h
    have hα := h.alpha
    have hmin := minor_nonneg (psd_smul h.psd (mul_pos hb hα).le) T
    have h1 := vfxRound_hit hin h T
    rw [← minor_smul, ENNReal.ofReal_mul (by unfold vfxC; positivity)] at h1
    rw [← h1]
    unfold vfxR PP
    rw [← PE_mul_right, ← PE_add]
    congr 1
    funext o
    cases o with
    | raise e => simp [vfxHit, hitDraw]
    | ok a =>
      cases a with
      | none => simp [vfxHit]
      | some c => simp [vfxHit, PE_map_hitDraw]

theorem vfxK_pos (m : ℕ) : 0 < vfxK L pc (m + 1) := by
  rw [vfxK]
  refine lt_of_lt_of_le ?_ le_self_add
  rw [ENNReal.ofReal_pos]
  unfold vfxC; positivity

/-- the possible outcomes of sequencing -/
theorem mem_support_andThen {α β : Type*} {p : PMF (Outcome α)} {k : α → PMF (Outcome β)} {o : Outcome β} :
    o ∈ (PMF.andThen p k).support ↔
      (∃ a, .ok a ∈ p.support ∧ o ∈ (k a).support) ∨ ∃ e, .raise e ∈ p.support ∧ o = .raise e := by
  unfold PMF.andThen
  rw [PMF.mem_support_bind_iff]
  constructor
  · rintro ⟨x, hx, ho⟩
    cases x with
    | ok a => exact Or.inl ⟨a, hx, ho⟩
    | raise e => exact Or.inr ⟨e, hx, by simpa using ho⟩
  · rintro (⟨a, ha, ho⟩ | ⟨e, he, rfl⟩)
    · exact ⟨_, ha, ho⟩
    · exact ⟨_, he, by simp⟩

theorem vfxTest_support {t : ℕ} {c : Fin n → ℕ} {o : Outcome (Option (Fin n → ℕ))}
    (h : o ∈ (vfxTest L pc t c).support) : o = .valueError ∨ o = .ok none ∨ o = .ok (some c) := by
  unfold vfxTest at h
  split at h
  · left; simpa using h
  · split at h
    · left; simpa using h
    · rw [PMF.mem_support_map_iff] at h
      obtain ⟨b, -, rfl⟩ := h
      cases b <;> simp

theorem vfxRound_support {o : Outcome (Option (Fin n → ℕ))} (h : o ∈ (vfxRound L pc).support) :
    o = .valueError ∨ o = .ok none ∨ ∃ c, o = .ok (some c) ∧ ∀ i, 0 < c i → 0 < pc.rls i / pc.s := by
  unfold vfxRound at h
  split at h
  · left; simpa using h
  · rw [PMF.mem_support_bind_iff] at h
    obtain ⟨t, -, h⟩ := h
    split at h
    · rename_i hv
      rw [PMF.mem_support_bind_iff] at h
      obtain ⟨σ, hσ, h⟩ := h
      rcases vfxTest_support h with h | h | h
      · exact Or.inl h
      · exact Or.inr (Or.inl h)
      · refine Or.inr (Or.inr ⟨_, h, fun i hi => ?_⟩)
        have h2 := (mem_support_iid _ _ _ hσ).2 i (List.count_pos_iff.1 hi)
        rw [PMF.mem_support_iff] at h2
        by_contra hn
        exact h2 (ENNReal.ofReal_eq_zero.2 (not_lt.1 hn))
    · left; simpa using h

/-- every possible outcome of the loop -/
theorem vfxLoop_support {inner : DppSampler} (hin : InnerSpec inner) (hL : L.PosSemidef) (hα : 0 ≤ pc.alphaStar)
    (hs : 0 ≤ pc.s) : ∀ m rej o, o ∈ (vfxLoop inner L pc m rej).support →
    o = .valueError ∨ ∃ l r, o = .ok (l, r) ∧ l.Nodup ∧ (∀ i ∈ l, 0 < pc.rls i / pc.s) ∧ rej ≤ r ∧ r < rej + m
  | 0, rej, o, h => by
    rw [vfxLoop] at h; left; simpa using h
  | m + 1, rej, o, h => by
    rw [vfxLoop, mem_support_andThen] at h
    rcases h with ⟨a, ha, h⟩ | ⟨e, he, rfl⟩
    · cases a with
      | none =>
        rcases vfxLoop_support hin hL hα hs m (rej + 1) o h with h | ⟨l, r, h1, h2, h3, h4, h5⟩
        · exact Or.inl h
        · exact Or.inr ⟨l, r, h1, h2, h3, by omega, by omega⟩
      | some c =>
        right
        have hc : ∀ i, 0 < c i → 0 < pc.rls i / pc.s := by
          rcases vfxRound_support ha with h | h | ⟨c', h, h'⟩
          · simp at h
          · simp at h
          · simp only [Outcome.ok.injEq, Option.some.injEq] at h; rw [h]; exact h'
        simp only at h
        rw [PMF.mem_support_map_iff] at h
        obtain ⟨o', ho', rfl⟩ := h
        unfold vfxFinish at ho'
        rw [vfxTilde_eq hs] at ho'
        obtain ⟨l, rfl, h1, h2⟩ := tilde_nodup hin hL hα ho'
        exact ⟨l, rej, rfl, h1, fun i hi => hc i (h2 i hi), le_rfl, by omega⟩
    · left
      rcases vfxRound_support he with h | h | ⟨c, h, -⟩
      · simpa using h
      · simp at h
      · simp at h

theorem vfxLoop_rejToFirst (inner : DppSampler) (pc : VfxInfo n) (j : ℕ) : ∀ m rej,
    vfxLoop inner L { pc with rejToFirst := j } m rej = vfxLoop inner L pc m rej
  | 0, rej => rfl
  | m + 1, rej => by
    rw [vfxLoop, vfxLoop]
    have : ∀ r, vfxLoop inner L { pc with rejToFirst := j } m r = vfxLoop inner L pc m r :=
      fun r => vfxLoop_rejToFirst inner pc j m r
    simp only [this]
    rfl

/-- probability that the loop returns a sample of another size -/
noncomputable def vfxMiss (inner : DppSampler) (L : Matrix (Fin n) (Fin n) ℝ) (pc : VfxInfo n) (size m : ℕ) : ℝ≥0∞ :=
  PP (vfxLoop inner L pc m 0) fun o => ∃ r, o = .ok r ∧ r.1.length ≠ size

/-- probability weights of the size rejection loop -/
noncomputable def kVfxK (inner : DppSampler) (L : Matrix (Fin n) (Fin n) ℝ) (pc : VfxInfo n) (size m : ℕ) : ℕ → ℝ≥0∞
  | 0 => 0
  | f + 1 => vfxK L pc m + vfxMiss inner L pc size m * kVfxK inner L pc size m f

theorem kVfxLoop_draws {inner : DppSampler} (hin : InnerSpec inner) (h : VfxOK L pc) (T : Finset (Fin n)) (size m : ℕ) :
    ∀ fuel j, PP (kVfxLoop inner L size m fuel { pc with rejToFirst := j }) (Draws T)
      = kVfxK inner L pc size m fuel *
        if T.card = size then ENNReal.ofReal (minor ((vfxBias pc * pc.alphaStar) • L) T) else 0
  | 0, j => by
    rw [PP_draws, kVfxLoop, PE_pure, kVfxK]; simp [hitDraw]
  | f + 1, j => by
    classical
    have ih := fun j' => kVfxLoop_draws hin h T size m f j'
    simp only [PP_draws] at ih ⊢
    rw [kVfxLoop, PE_andThen, vfxLoop_rejToFirst, kVfxK, add_mul]
    have h0 := vfxLoop_draws hin h T m 0
    have h1 : vfxK L pc m * (if T.card = size then ENNReal.ofReal (minor ((vfxBias pc * pc.alphaStar) • L) T) else 0)
        = PE (vfxLoop inner L pc m 0) (fun o => (if T.card = size then 1 else 0) * hitDraw T o) := by
      rw [PE_mul_left, ← PP_draws, h0]
      split <;> simp
    rw [h1, mul_assoc]
    unfold vfxMiss PP
    rw [← PE_mul_right, ← PE_add]
    refine PE_congr fun o ho => ?_
    rcases vfxLoop_support hin h.psd h.alpha.le h.s.le m 0 o ho with rfl | ⟨l, r, rfl, hnd, -⟩
    · simp [hitDraw]
    · simp only [hitDraw, Outcome.ok.injEq, exists_eq_left']
      have hlen : l.toFinset.card = l.length := List.toFinset_card_of_nodup hnd
      by_cases hl : l.length = size
      · rw [if_pos hl, PE_pure]
        simp only [hitDraw, hl, ne_eq, not_true_eq_false, if_false, zero_mul, add_zero]
        by_cases hT : l.toFinset = T
        · have : T.card = size := by rw [← hT, hlen, hl]
          simp [hT, this]
        · simp [hT]
      · rw [if_neg hl, if_pos hl, one_mul, ih (j + r)]
        by_cases hT : l.toFinset = T
        · have : T.card ≠ size := by rw [← hT, hlen]; exact hl
          simp [this]
        · simp [hT]

end Verif
