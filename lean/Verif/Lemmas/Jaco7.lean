import Verif.Lemmas.Jaco6

/-!
# The full and the tridiagonal Jacobi models: the same recursion
-/

namespace Verif.Lemmas
open Finset Matrix MeasureTheory ProbabilityTheory Verif.Model
open scoped ComplexConjugate

variable {n m : ℕ} {γ : Measure ℂ} {K : StarSubalgebra ℝ ℂ} {beta : ℝ}

/-! ### One point -/

theorem cpp_zero (m : ℕ) : cpp (0 : Matrix (Fin (m + 1)) (Fin (m + 1)) ℂ) = fun t : ℕ => ((t : ℝ) ^ (m + 1), (t : ℝ) ^ m) := by
  funext t
  have h0 : (0 : Matrix (Fin (m + 1)) (Fin (m + 1)) ℂ).submatrix Fin.succ Fin.succ = 0 := by ext i j; rfl
  have h1 : ∀ k : ℕ, (((t : ℂ) • (1 : Matrix (Fin k) (Fin k) ℂ) - 0).det).re = (t : ℝ) ^ k := fun k => by
    rw [sub_zero, Matrix.det_smul, Matrix.det_one, mul_one, Fintype.card_fin]
    have : ((t : ℂ)) = ((t : ℝ) : ℂ) := by simp
    rw [this, ← Complex.ofReal_pow, Complex.ofReal_re]
  simp only [cpp, h0, h1]

theorem cpp_e00_only (m : ℕ) (c : ℝ) : cpp (e00 (c : ℂ) : Matrix (Fin (m + 1)) (Fin (m + 1)) ℂ) = tmP m fun t => ((t : ℝ) - c, 1) := by
  have := cpp_e00 (0 : Matrix (Fin (m + 1)) (Fin (m + 1)) ℂ) c
  rw [zero_add, cpp_zero] at this
  rw [this]
  funext t
  simp only [bump, tmP]
  refine Prod.ext ?_ ?_ <;> simp only <;> ring

theorem measurable_pt : Measurable fun (c : ℝ) (t : ℕ) => ((t : ℝ) - c, (1 : ℝ)) := by fun_prop

theorem base_full (hγ : GaussK γ K beta) (q : Fin (m + 1) → Bool) (h1 : 1 ≤ cnt q) (h2 : 1 ≤ cnt fun i => !q i) :
    (haarM γ (m + 1)).map (fun u => cpp (Hm (Fin.cons true fun _ => false : Fin (m + 1) → Bool) q (mat u)))
      = (betaMeasure (beta / 2 * cnt q) (beta / 2 * cnt fun i => !q i)).map fun c => tmP m fun t => ((t : ℝ) - c, 1) := by
  have := hγ.ok.prob
  have := (haarM_isHaar hγ m).prob
  have hG : Measurable fun u : Fin (m + 1) × Fin (m + 1) → ℂ => cpp (Hm (Fin.cons true fun _ => false : Fin (m + 1) → Bool) q (mat u)) :=
    measurable_cpp (measurable_Hm _ _ measurable_mat)
  have hm : Measurable fun c : ℝ => tmP m fun t : ℕ => ((t : ℝ) - c, (1 : ℝ)) := (measurable_tmP m).comp measurable_pt
  have hF : Measurable fun p : (Fin (m + 1) → ℂ) × (Fin m × Fin m → ℂ) => tmP m fun t : ℕ => ((t : ℝ) - share q p.1, (1 : ℝ)) :=
    hm.comp ((measurable_share q).comp measurable_fst)
  rw [haar_col hγ hG hF]
  · have hp : betaMeasure (beta / 2 * cnt q) (beta / 2 * cnt fun i => !q i)
        = (((Measure.pi fun _ : Fin (m + 1) => γ).prod (haarM γ m)).map Prod.fst).map (share q) := by
      rw [Measure.map_fst_prod]
      simp only [measure_univ, one_smul]
      exact (law_share hγ q h1 h2).symm
    rw [hp, Measure.map_map hm (measurable_share q), Measure.map_map (hm.comp (measurable_share q)) measurable_fst]
    rfl
  · filter_upwards [hγ.rot' m] with a ha
    obtain ⟨hr, M, hM, hMa⟩ := ha
    refine ⟨M, _, hM, hr, hMa, ?_⟩
    congr 1
    funext u
    rw [mat_unmat, ← cpp_e00_only]
    congr 1
    have hs : (0 : ℝ) < ∑ i, Complex.normSq (a i) := Real.sqrt_pos.1 hr
    have hcol : ∀ i, (M * oneAdd (mat u)) i 0 * ((√(∑ i, Complex.normSq (a i)) : ℝ) : ℂ) = a i := fun i => by
      have h := congrFun hMa i
      rw [Matrix.mulVec_single] at h
      simp only [MulOpposite.smul_eq_mul_unop, MulOpposite.unop_op, Pi.smul_apply, Matrix.col_apply] at h
      rw [← h]
      congr 1
      rw [Matrix.mul_apply, Fin.sum_univ_succ]
      simp [oneAdd]
    generalize M * oneAdd (mat u) = U at hcol
    have h00 : (Uᴴ * dg q * U) 0 0 = ((share q a : ℝ) : ℂ) := by
      have e1 : (Uᴴ * dg q * U) 0 0 = ∑ i, if q i then ((Complex.normSq (U i 0) : ℝ) : ℂ) else 0 := by
        rw [Matrix.mul_apply]
        refine sum_congr rfl fun i _ => ?_
        rw [dg, mul_diagonal, conjTranspose_apply]
        split_ifs
        · rw [mul_one, mul_comm]; exact Complex.mul_conj _
        · simp
      have e2 : ∀ i, Complex.normSq (a i) = Complex.normSq (U i 0) * ∑ i, Complex.normSq (a i) := fun i => by
        conv_lhs => rw [← hcol i]
        rw [Complex.normSq_mul, Complex.normSq_ofReal, Real.mul_self_sqrt hs.le]
      rw [e1, share, selN_add, eq_comm, selN, Finset.sum_div, Complex.ofReal_sum]
      refine sum_congr rfl fun i _ => ?_
      split_ifs
      · congr 1
        rw [div_eq_iff hs.ne']
        exact e2 i
      · simp
    rw [Hm]
    apply bord_ext
    · rw [dg_sandwich, h00]; simp [e00]
    · intro j; rw [dg_sandwich]; simp [e00]
    · intro j; rw [dg_sandwich]; simp [e00]
    · intro i j; rw [dg_sandwich]; simp [e00]

/-! ### The recursion -/

/-- law of the polynomials of the Jacobi model with `k + 1` points -/
noncomputable def lawJ (beta : ℝ) : ℕ → ℕ → ℕ → Measure (ℕ → ℝ × ℝ)
  | 0, M1, M2 => (betaMeasure (beta / 2 * M1) (beta / 2 * M2)).map fun c t => ((t : ℝ) - c, 1)
  | k + 1, M1, M2 => ((betaMeasure (beta / 2 * M1) (beta / 2 * M2)).prod
      ((betaMeasure (beta / 2 * (k + 1 : ℕ)) (beta / 2 * (M1 + M2 - (k + 2) : ℕ))).prod (lawJ beta k (M1 - 1) (M2 - 1)))).map
        fun z => stepJ z.1 z.2.1 z.2.2

/-- the sequences of coordinates met by the recursion -/
inductive Pat : (k m : ℕ) → (Fin (m + 1) → Bool) → (Fin (m + 1) → Bool) → Prop
  | base {m : ℕ} (q : Fin (m + 1) → Bool) (h1 : 1 ≤ cnt q) (h2 : 1 ≤ cnt fun i => !q i) : Pat 0 m (Fin.cons true fun _ => false) q
  | step {k m : ℕ} (p : Fin m → Bool) (q : Fin (m + 1) → Bool) (h : Pat k m (Fin.cons true p) q) : Pat (k + 1) (m + 2) (Fin.cons true (tf p)) (tf q)

theorem Pat.counts {k m : ℕ} {p q : Fin (m + 1) → Bool} (h : Pat k m p q) : cnt p = k + 1 ∧ k + 1 ≤ cnt q ∧ (k + 1 ≤ cnt fun i => !q i) ∧ k ≤ m := by
  induction h with
  | base q h1 h2 =>
    refine ⟨?_, h1, h2, Nat.zero_le _⟩
    rw [cnt_cons]
    simp [cnt]
  | step p q h ih =>
    obtain ⟨i1, i2, i3, i4⟩ := ih
    rw [cnt_cons] at i1
    refine ⟨?_, ?_, ?_, by omega⟩
    · rw [cnt_cons, cnt_tf]
      simp at i1 ⊢
      omega
    · rw [cnt_tf]; omega
    · rw [cnt_tf_not]; omega

theorem prob_lawJ (hb : 0 < beta) : ∀ (k M1 M2 : ℕ), k + 1 ≤ M1 → k + 1 ≤ M2 → IsProbabilityMeasure (lawJ beta k M1 M2)
  | 0, M1, M2, h1, h2 => by
    have hp : ∀ k : ℕ, 1 ≤ k → 0 < beta / 2 * k := fun k hk => by
      have : (0 : ℝ) < k := by exact_mod_cast hk
      positivity
    have := isProbabilityMeasureBeta (hp M1 (by omega)) (hp M2 (by omega))
    rw [lawJ]
    exact Measure.isProbabilityMeasure_map measurable_pt.aemeasurable
  | k + 1, M1, M2, h1, h2 => by
    have hp : ∀ k : ℕ, 1 ≤ k → 0 < beta / 2 * k := fun k hk => by
      have : (0 : ℝ) < k := by exact_mod_cast hk
      positivity
    have := isProbabilityMeasureBeta (hp M1 (by omega)) (hp M2 (by omega))
    have := isProbabilityMeasureBeta (hp (k + 1) (by omega)) (hp (M1 + M2 - (k + 2)) (by omega))
    have := prob_lawJ hb k (M1 - 1) (M2 - 1) (by omega) (by omega)
    have hst : Measurable fun z : ℝ × ℝ × (ℕ → ℝ × ℝ) => stepJ z.1 z.2.1 z.2.2 :=
      measurable_stepJ measurable_fst (measurable_fst.comp measurable_snd) (measurable_snd.comp measurable_snd)
    rw [lawJ]
    exact Measure.isProbabilityMeasure_map hst.aemeasurable

theorem full_lawJ (hγ : GaussK γ K beta) {k m : ℕ} {p q : Fin (m + 1) → Bool} (h : Pat k m p q) :
    (haarM γ (m + 1)).map (fun u => cpp (Hm p q (mat u))) = (lawJ beta k (cnt q) (cnt fun i => !q i)).map (tmP (m - k)) := by
  have hb := hγ.beta_pos
  induction h with
  | base q h1 h2 =>
    rw [base_full hγ q h1 h2, lawJ, Measure.map_map (measurable_tmP _) measurable_pt]
    rfl
  | @step k m p q h ih =>
    obtain ⟨i1, i2, i3, i4⟩ := h.counts
    rw [step_full hγ p q, ih]
    have hp : cnt (tf p) = k + 1 := by
      rw [cnt_cons] at i1
      rw [cnt_tf]
      simp at i1 ⊢
      omega
    have hp' : (cnt fun i => !tf p i) = cnt (tf q) + (cnt fun i => !tf q i) - (k + 2) := by
      have t1 := cnt_not (tf p)
      have t2 := cnt_not (tf q)
      rw [Fintype.card_fin] at t1 t2
      omega
    have hq1 : cnt q = cnt (tf q) - 1 := by rw [cnt_tf]; rfl
    have hq2 : (cnt fun i => !q i) = (cnt fun i => !tf q i) - 1 := by rw [cnt_tf_not]; rfl
    have hpos : ∀ k : ℕ, 1 ≤ k → 0 < beta / 2 * k := fun k hk => by
      have : (0 : ℝ) < k := by exact_mod_cast hk
      positivity
    have hpL := prob_lawJ hb k (cnt q) (cnt fun i => !q i) i2 i3
    have hpB : IsProbabilityMeasure (betaMeasure (beta / 2 * cnt (tf p)) (beta / 2 * cnt fun i => !tf p i)) :=
      isProbabilityMeasureBeta (hpos _ (one_le_cnt_tf p)) (hpos _ (one_le_cnt_tf_not p))
    have hpB1 : IsProbabilityMeasure (betaMeasure (beta / 2 * cnt (tf q)) (beta / 2 * cnt fun i => !tf q i)) :=
      isProbabilityMeasureBeta (hpos _ (one_le_cnt_tf q)) (hpos _ (one_le_cnt_tf_not q))
    have hst : Measurable fun z : ℝ × ℝ × (ℕ → ℝ × ℝ) => stepJ z.1 z.2.1 z.2.2 :=
      measurable_stepJ measurable_fst (measurable_fst.comp measurable_snd) (measurable_snd.comp measurable_snd)
    have htst : Measurable fun z : ℝ × ℝ × (ℕ → ℝ × ℝ) => tm (stepJ z.1 z.2.1 z.2.2) := measurable_tm.comp hst
    have e : (betaMeasure (beta / 2 * cnt (tf q)) (beta / 2 * cnt fun i => !tf q i)).prod
          ((betaMeasure (beta / 2 * cnt (tf p)) (beta / 2 * cnt fun i => !tf p i)).prod
            ((lawJ beta k (cnt q) (cnt fun i => !q i)).map (tmP (m - k))))
        = ((betaMeasure (beta / 2 * cnt (tf q)) (beta / 2 * cnt fun i => !tf q i)).prod
          ((betaMeasure (beta / 2 * cnt (tf p)) (beta / 2 * cnt fun i => !tf p i)).prod
            (lawJ beta k (cnt q) (cnt fun i => !q i)))).map (Prod.map id (Prod.map id (tmP (m - k)))) := by
      rw [← Measure.map_prod_map _ _ measurable_id (measurable_id.prodMap (measurable_tmP _)), Measure.map_id,
        ← Measure.map_prod_map _ _ measurable_id (measurable_tmP _), Measure.map_id]
    rw [e, Measure.map_map htst (measurable_id.prodMap (measurable_id.prodMap (measurable_tmP _))), lawJ,
      Measure.map_map (measurable_tmP _) hst, ← hq1, ← hq2, ← hp', hp, show m + 2 - (k + 1) = m - k + 1 by omega]
    congr 1
    funext z
    exact tm_stepJ z.1 z.2.1 (m - k) z.2.2

/-! ### The tridiagonal model -/

/-- the tridiagonal matrix of the banded model, with complex entries -/
noncomputable def triJ (n : ℕ) (co : Fin (n + 1) → ℝ) (ce : Fin n → ℝ) : Matrix (Fin (n + 1)) (Fin (n + 1)) ℂ :=
  (tridiag (n + 1) (xiAlpha (betaXiOdd (vget co) (shiftZero ce)) (betaXiEven (vget co) (shiftZero ce)))
    (fun i => √(xiBeta (betaXiOdd (vget co) (shiftZero ce)) (betaXiEven (vget co) (shiftZero ce)) i))).map (fun x : ℝ => (x : ℂ))

theorem cpp_triJ {n : ℕ} (co : Fin (n + 2) → ℝ) (ce : Fin (n + 1) → ℝ) (h1 : 0 ≤ co 0 ∧ co 0 ≤ 1) (h2 : 0 ≤ ce 0 ∧ ce 0 ≤ 1) :
    cpp (triJ (n + 1) co ce) = stepJ (co 0) (ce 0) (cpp (triJ n (fun i => co i.succ) (fun i => ce i.succ))) := by
  obtain ⟨co', hco'⟩ : ∃ co' : Fin (n + 1) → ℝ, co' = fun i => co i.succ := ⟨_, rfl⟩
  obtain ⟨ce', hce'⟩ : ∃ ce' : Fin n → ℝ, ce' = fun i => ce i.succ := ⟨_, rfl⟩
  have vo0 : vget co 0 = co 0 := by simp [vget]
  have vo : ∀ i, vget co (i + 1) = vget co' i := fun i => by rw [vget_succ, hco']
  have z0 : shiftZero ce 0 = 0 := rfl
  have z1 : shiftZero ce 1 = ce 0 := by simp [shiftZero, vget]
  have z2 : ∀ i, shiftZero ce (i + 2) = shiftZero ce' (i + 1) := fun i => by
    simp only [shiftZero, Nat.add_eq_zero_iff, one_ne_zero, OfNat.ofNat_ne_zero, and_false, if_false]
    rw [show i + 2 - 1 = i + 1 from rfl, vget_succ, hce', Nat.add_sub_cancel]
  have z0' : shiftZero ce' 0 = 0 := rfl
  obtain ⟨XO, hXO⟩ : ∃ f, f = betaXiOdd (vget co) (shiftZero ce) := ⟨_, rfl⟩
  obtain ⟨XE, hXE⟩ : ∃ f, f = betaXiEven (vget co) (shiftZero ce) := ⟨_, rfl⟩
  obtain ⟨XO', hXO'⟩ : ∃ f, f = betaXiOdd (vget co') (shiftZero ce') := ⟨_, rfl⟩
  obtain ⟨XE', hXE'⟩ : ∃ f, f = betaXiEven (vget co') (shiftZero ce') := ⟨_, rfl⟩
  have o0 : XO 0 = co 0 := by rw [hXO, betaXiOdd, z0, vo0]; ring
  have o1 : XO 1 = (1 - ce 0) * XO' 0 := by rw [hXO, hXO', betaXiOdd, betaXiOdd, z1, z0', vo 0]; ring
  have o2 : ∀ i, XO (i + 2) = XO' (i + 1) := fun i => by rw [hXO, hXO', betaXiOdd, betaXiOdd, z2, show i + 2 = i + 1 + 1 from rfl, vo]
  have x0 : XE 0 = 0 := by rw [hXE, betaXiEven, if_pos rfl]
  have x0' : XE' 0 = 0 := by rw [hXE', betaXiEven, if_pos rfl]
  have x1 : XE 1 = (1 - co 0) * ce 0 := by rw [hXE, betaXiEven, if_neg one_ne_zero, z1, Nat.sub_self, vo0]
  have x2 : ∀ i, XE (i + 2) = XE' (i + 1) := fun i => by
    rw [hXE, hXE', betaXiEven, betaXiEven, if_neg (by omega), if_neg (by omega), z2, Nat.add_sub_cancel, show i + 2 - 1 = i + 1 from rfl, vo]
  have hS : √(1 - ce 0) * √(1 - ce 0) = 1 - ce 0 := Real.mul_self_sqrt (by linarith [h2.2])
  have hb0 : xiBeta XO XE 0 = co 0 * (1 - co 0) * ce 0 := by rw [xiBeta, o0, zero_add, x1]; ring
  have hb1 : √(xiBeta XO XE 1) = √(1 - ce 0) * √(xiBeta XO' XE' 0) := by
    rw [← Real.sqrt_mul (by linarith [h2.2]), xiBeta, xiBeta, o1, x2 0]
    congr 1; ring
  have hb2 : ∀ i, xiBeta XO XE (i + 2) = xiBeta XO' XE' (i + 1) := fun i => by
    rw [xiBeta, xiBeta, o2, show i + 2 + 1 = i + 1 + 2 from rfl, x2]
  have ha0 : xiAlpha XO XE 0 = co 0 := by rw [xiAlpha, o0, x0, zero_add]
  have ha1 : xiAlpha XO XE 1 = (1 - ce 0) * xiAlpha XO' XE' 0 + ce 0 * (1 - co 0) := by rw [xiAlpha, xiAlpha, o1, x1, x0']; ring
  have ha2 : ∀ i, xiAlpha XO XE (i + 2) = xiAlpha XO' XE' (i + 1) := fun i => by rw [xiAlpha, xiAlpha, o2, x2]
  have h : triJ (n + 1) co ce = bord ((co 0 : ℝ) : ℂ) (Pi.single 0 ((√(co 0 * (1 - co 0) * ce 0) : ℝ) : ℂ))
      (Pi.single 0 ((√(co 0 * (1 - co 0) * ce 0) : ℝ) : ℂ))
      (scal (√(1 - ce 0)) (triJ n co' ce') + e00 ((ce 0 * (1 - co 0) : ℝ) : ℂ)) := by
    rw [triJ, tridiag_bord, ← hXO, ← hXE, ha0, hb0]
    congr 1
    apply bord_ext
    · rw [Matrix.add_apply, scal_00, triJ, ← hXO', ← hXE']
      simp only [tridiag, Matrix.map_apply, Matrix.of_apply, if_pos, e00, bord_00, Fin.val_zero, zero_add]
      rw [ha1]
      have hSc : ((√(1 - ce 0) : ℝ) : ℂ) * ((√(1 - ce 0) : ℝ) : ℂ) = 1 - ce 0 := by rw [← Complex.ofReal_mul, hS]; push_cast; ring
      push_cast
      linear_combination (-(xiAlpha XO' XE' 0 : ℂ)) * hSc
    · intro j
      rw [Matrix.add_apply, scal_0s, triJ, ← hXO', ← hXE']
      simp only [tridiag, Matrix.map_apply, Matrix.of_apply, if_neg (Fin.succ_ne_zero j).symm, e00, bord_0s, Fin.val_zero, Fin.val_succ, zero_add,
        Pi.zero_apply, add_zero]
      by_cases hj : (j : ℕ) = 0
      · simp [hj, hb1]
      · simp [hj]
    · intro j
      rw [Matrix.add_apply, scal_s0, triJ, ← hXO', ← hXE']
      simp only [tridiag, Matrix.map_apply, Matrix.of_apply, if_neg (Fin.succ_ne_zero j), e00, bord_s0, Fin.val_zero, Fin.val_succ, zero_add,
        Pi.zero_apply, add_zero]
      by_cases hj : (j : ℕ) = 0
      · simp [hj, hb1, mul_comm]
      · simp [hj]
    · intro i j
      rw [Matrix.add_apply, scal_ss, triJ, ← hXO', ← hXE']
      simp only [tridiag, Matrix.map_apply, Matrix.of_apply, e00, bord_ss, Fin.val_succ, Matrix.zero_apply, add_zero]
      have hb2' : ∀ i, xiBeta XO XE (i + 1 + 1) = xiBeta XO' XE' (i + 1) := hb2
      have ha2' : ∀ i, xiAlpha XO XE (i + 1 + 1) = xiAlpha XO' XE' (i + 1) := ha2
      simp only [ha2', hb2']
  have hnn : 0 ≤ co 0 * (1 - co 0) * ce 0 := mul_nonneg (mul_nonneg h1.1 (by linarith [h1.2])) h2.1
  rw [h, cpp_bord, Real.sq_sqrt hnn, cpp_e00, cpp_scal hS, stepJ, ← hco', ← hce']

theorem measurable_cpp_triJ (n : ℕ) : Measurable fun p : (Fin (n + 1) → ℝ) × (Fin n → ℝ) => cpp (triJ n p.1 p.2) := by
  have hs : ∀ i, Measurable fun p : (Fin (n + 1) → ℝ) × (Fin n → ℝ) => shiftZero p.2 i := fun i => by
    simp only [shiftZero]
    split_ifs
    · exact measurable_const
    · exact (measurable_vget _).comp measurable_snd
  have hv : ∀ i, Measurable fun p : (Fin (n + 1) → ℝ) × (Fin n → ℝ) => vget p.1 i := fun i => (measurable_vget i).comp measurable_fst
  have ho : ∀ i, Measurable fun p : (Fin (n + 1) → ℝ) × (Fin n → ℝ) => betaXiOdd (vget p.1) (shiftZero p.2) i := fun i =>
    (measurable_const.sub (hs i)).mul (hv i)
  have he : ∀ i, Measurable fun p : (Fin (n + 1) → ℝ) × (Fin n → ℝ) => betaXiEven (vget p.1) (shiftZero p.2) i := fun i => by
    simp only [betaXiEven]
    split_ifs
    · exact measurable_const
    · exact (measurable_const.sub (hv _)).mul (hs i)
  refine measurable_cpp fun i j => measurable_tridiag (fun i => ?_) (fun i => ?_) i j
  · exact (he i).add (ho i)
  · exact Real.continuous_sqrt.measurable.comp ((ho i).mul (he (i + 1)))

theorem measurable_stepJ' : Measurable fun q : (ℝ × ℝ) × (ℕ → ℝ × ℝ) => stepJ q.1.1 q.1.2 q.2 :=
  measurable_stepJ (measurable_fst.comp measurable_fst) (measurable_snd.comp measurable_fst) measurable_snd

/-- the banded model -/
theorem band_lawJ (hb : 0 < beta) (n M1 M2 : ℕ) (h1 : n + 1 ≤ M1) (h2 : n + 1 ≤ M2) :
    ((Measure.pi fun i : Fin (n + 1) => betaMeasure (beta / 2 * ((M1 : ℝ) - (i : ℕ))) (beta / 2 * ((M2 : ℝ) - (i : ℕ)))).prod
      (Measure.pi fun i : Fin n => betaMeasure (beta / 2 * ((n : ℝ) - (i : ℕ))) (beta / 2 * ((M1 : ℝ) + M2 - (n + 1) - (i : ℕ))))).map
        (fun p => cpp (triJ n p.1 p.2)) = lawJ beta n M1 M2 := by
  have hp1 : ∀ (k M1 M2 : ℕ) (i : Fin k), k ≤ M1 → k ≤ M2 →
      IsProbabilityMeasure (betaMeasure (beta / 2 * ((M1 : ℝ) - (i : ℕ))) (beta / 2 * ((M2 : ℝ) - (i : ℕ)))) := fun k M1 M2 i h h' => by
    have e1 : ((i : ℕ) : ℝ) < M1 := by exact_mod_cast i.2.trans_le h
    have e2 : ((i : ℕ) : ℝ) < M2 := by exact_mod_cast i.2.trans_le h'
    have e1' : 0 < (M1 : ℝ) - (i : ℕ) := by linarith
    have e2' : 0 < (M2 : ℝ) - (i : ℕ) := by linarith
    exact isProbabilityMeasureBeta (by positivity) (by positivity)
  have hp2 : ∀ (n M1 M2 : ℕ) (i : Fin n), n + 1 ≤ M1 → n + 1 ≤ M2 →
      IsProbabilityMeasure (betaMeasure (beta / 2 * ((n : ℝ) - (i : ℕ))) (beta / 2 * ((M1 : ℝ) + M2 - (n + 1) - (i : ℕ)))) := fun n M1 M2 i h h' => by
    have e1 : ((i : ℕ) : ℝ) < n := by exact_mod_cast i.2
    have e2 : (n + 1 : ℝ) ≤ M1 := by exact_mod_cast h
    have e3 : (n + 1 : ℝ) ≤ M2 := by exact_mod_cast h'
    have e1' : 0 < (n : ℝ) - (i : ℕ) := by linarith
    have e2' : 0 < (M1 : ℝ) + M2 - (n + 1) - (i : ℕ) := by linarith
    exact isProbabilityMeasureBeta (by positivity) (by positivity)
  induction n generalizing M1 M2 with
  | zero =>
    have q2 : ∀ i : Fin 0, IsProbabilityMeasure (betaMeasure (beta / 2 * (((0 : ℕ) : ℝ) - (i : ℕ))) (beta / 2 * ((M1 : ℝ) + M2 - ((0 : ℕ) + 1) - (i : ℕ)))) :=
      fun i => i.elim0
    have q1 := fun i : Fin (0 + 1) => hp1 (0 + 1) M1 M2 i h1 h2
    have h := measurePreserving_eval (fun i : Fin (0 + 1) => betaMeasure (beta / 2 * ((M1 : ℝ) - (i : ℕ))) (beta / 2 * ((M2 : ℝ) - (i : ℕ)))) 0
    have h2 : (fun p : (Fin (0 + 1) → ℝ) × (Fin 0 → ℝ) => cpp (triJ 0 p.1 p.2))
        = (fun (a : ℝ) (t : ℕ) => ((t : ℝ) - a, (1 : ℝ))) ∘ Function.eval 0 ∘ Prod.fst := by
      funext x t
      simp only [cpp, Function.comp_apply]
      refine Prod.ext ?_ (by simp)
      rw [Matrix.det_fin_one, Matrix.sub_apply]
      simp [triJ, tridiag, vget, xiAlpha, shiftZero, betaXiEven, betaXiOdd]
    rw [h2, ← Measure.map_map (by fun_prop) (by fun_prop), ← Measure.map_map (by fun_prop) measurable_fst, Measure.map_fst_prod]
    simp only [measure_univ, one_smul]
    rw [h.map_eq, lawJ]
    simp
  | succ n ih =>
    obtain ⟨M1, rfl⟩ : ∃ k, M1 = k + 1 := ⟨M1 - 1, by omega⟩
    obtain ⟨M2, rfl⟩ : ∃ k, M2 = k + 1 := ⟨M2 - 1, by omega⟩
    specialize ih M1 M2 (by omega) (by omega)
    have q1 := fun i : Fin (n + 1 + 1) => hp1 (n + 1 + 1) (M1 + 1) (M2 + 1) i h1 h2
    have q2 := fun i : Fin (n + 1) => hp2 (n + 1) (M1 + 1) (M2 + 1) i h1 h2
    have q3 := fun i : Fin (n + 1) => hp1 (n + 1) M1 M2 i (by omega) (by omega)
    have q4 := fun i : Fin n => hp2 n M1 M2 i (by omega) (by omega)
    have e1 : (fun j : Fin (n + 1) => (fun i : Fin (n + 1 + 1) => betaMeasure (beta / 2 * (((M1 + 1 : ℕ) : ℝ) - (i : ℕ))) (beta / 2 * (((M2 + 1 : ℕ) : ℝ) - (i : ℕ))))
        (Fin.succAbove 0 j)) = fun j : Fin (n + 1) => betaMeasure (beta / 2 * ((M1 : ℝ) - (j : ℕ))) (beta / 2 * ((M2 : ℝ) - (j : ℕ))) := by
      funext j
      simp
    have e2 : (fun j : Fin n => (fun i : Fin (n + 1) => betaMeasure (beta / 2 * (((n + 1 : ℕ) : ℝ) - (i : ℕ)))
        (beta / 2 * (((M1 + 1 : ℕ) : ℝ) + ((M2 + 1 : ℕ) : ℝ) - (((n + 1 : ℕ) : ℝ) + 1) - (i : ℕ)))) (Fin.succAbove 0 j))
          = fun j : Fin n => betaMeasure (beta / 2 * ((n : ℝ) - (j : ℕ))) (beta / 2 * ((M1 : ℝ) + M2 - (n + 1) - (j : ℕ))) := by
      funext j
      simp only [Fin.zero_succAbove, Fin.val_succ]
      congr 2 <;> push_cast <;> ring
    have e3 : betaMeasure (beta / 2 * (((M1 + 1 : ℕ) : ℝ) - ((0 : Fin (n + 1 + 1)) : ℕ))) (beta / 2 * (((M2 + 1 : ℕ) : ℝ) - ((0 : Fin (n + 1 + 1)) : ℕ)))
        = betaMeasure (beta / 2 * ((M1 + 1 : ℕ) : ℝ)) (beta / 2 * ((M2 + 1 : ℕ) : ℝ)) := by simp
    have e4 : betaMeasure (beta / 2 * (((n + 1 : ℕ) : ℝ) - ((0 : Fin (n + 1)) : ℕ)))
        (beta / 2 * (((M1 + 1 : ℕ) : ℝ) + ((M2 + 1 : ℕ) : ℝ) - (((n + 1 : ℕ) : ℝ) + 1) - ((0 : Fin (n + 1)) : ℕ)))
        = betaMeasure (beta / 2 * ((n + 1 : ℕ) : ℝ)) (beta / 2 * ((M1 + 1 + (M2 + 1) - (n + 2) : ℕ) : ℝ)) := by
      congr 2
      · simp
      · rw [Nat.cast_sub (by omega)]
        push_cast
        simp
        ring
    obtain ⟨μ, hμ⟩ : ∃ μ : Fin (n + 1 + 1) → Measure ℝ, μ = fun i : Fin (n + 1 + 1) =>
      betaMeasure (beta / 2 * (((M1 + 1 : ℕ) : ℝ) - (i : ℕ))) (beta / 2 * (((M2 + 1 : ℕ) : ℝ) - (i : ℕ))) := ⟨_, rfl⟩
    obtain ⟨ν, hν⟩ : ∃ ν : Fin (n + 1) → Measure ℝ, ν = fun i : Fin (n + 1) =>
      betaMeasure (beta / 2 * (((n + 1 : ℕ) : ℝ) - (i : ℕ))) (beta / 2 * (((M1 + 1 : ℕ) : ℝ) + ((M2 + 1 : ℕ) : ℝ) - (((n + 1 : ℕ) : ℝ) + 1) - (i : ℕ))) := ⟨_, rfl⟩
    obtain ⟨μ', hμ'⟩ : ∃ μ : Fin (n + 1) → Measure ℝ, μ = fun i : Fin (n + 1) =>
      betaMeasure (beta / 2 * ((M1 : ℝ) - (i : ℕ))) (beta / 2 * ((M2 : ℝ) - (i : ℕ))) := ⟨_, rfl⟩
    obtain ⟨ν', hν'⟩ : ∃ ν : Fin n → Measure ℝ, ν = fun i : Fin n =>
      betaMeasure (beta / 2 * ((n : ℝ) - (i : ℕ))) (beta / 2 * ((M1 : ℝ) + M2 - (n + 1) - (i : ℕ))) := ⟨_, rfl⟩
    have e3' : μ 0 = betaMeasure (beta / 2 * ((M1 + 1 : ℕ) : ℝ)) (beta / 2 * ((M2 + 1 : ℕ) : ℝ)) := by rw [hμ]; exact e3
    have e4' : ν 0 = betaMeasure (beta / 2 * ((n + 1 : ℕ) : ℝ)) (beta / 2 * ((M1 + 1 + (M2 + 1) - (n + 2) : ℕ) : ℝ)) := by rw [hν]; exact e4
    have qm : ∀ i, IsProbabilityMeasure (μ i) := by rw [hμ]; exact q1
    have qn : ∀ i, IsProbabilityMeasure (ν i) := by rw [hν]; exact q2
    have qm' : ∀ i, IsProbabilityMeasure (μ' i) := by rw [hμ']; exact q3
    have qn' : ∀ i, IsProbabilityMeasure (ν' i) := by rw [hν']; exact q4
    have ae1 : ∀ᵐ x ∂(μ 0), 0 ≤ x ∧ x ≤ 1 := by
      rw [e3']
      exact (ae_beta01 _ _).mono fun x hx => ⟨hx.1.le, hx.2.le⟩
    have ae2 : ∀ᵐ x ∂(ν 0), 0 ≤ x ∧ x ≤ 1 := by
      rw [e4']
      exact (ae_beta01 _ _).mono fun x hx => ⟨hx.1.le, hx.2.le⟩
    have h1 := measurePreserving_piFinSuccAbove μ 0
    have h2 := measurePreserving_piFinSuccAbove ν 0
    have e1' : (fun j : Fin (n + 1) => μ (Fin.succAbove 0 j)) = μ' := by rw [hμ, hμ']; exact e1
    have e2' : (fun j : Fin n => ν (Fin.succAbove 0 j)) = ν' := by rw [hν, hν']; exact e2
    rw [e1'] at h1
    rw [e2'] at h2
    rw [← hμ', ← hν'] at ih
    rw [← hμ, ← hν]
    have h3 := h1.prod h2
    have h4 := prod4_comm (μ 0) (Measure.pi μ') (ν 0) (Measure.pi ν')
    have h5 := h4.comp h3
    have hm := measurable_cpp_triJ n
    have hmp : Measurable (Prod.map (id : ℝ × ℝ → ℝ × ℝ) fun p : (Fin (n + 1) → ℝ) × (Fin n → ℝ) => cpp (triJ n p.1 p.2)) := measurable_id.prodMap hm
    have hae : (fun p : (Fin (n + 1 + 1) → ℝ) × (Fin (n + 1) → ℝ) => cpp (triJ (n + 1) p.1 p.2)) =ᵐ[(Measure.pi μ).prod (Measure.pi ν)]
        (fun q : (ℝ × ℝ) × (ℕ → ℝ × ℝ) => stepJ q.1.1 q.1.2 q.2) ∘ (Prod.map id (fun p : (Fin (n + 1) → ℝ) × (Fin n → ℝ) => cpp (triJ n p.1 p.2))) ∘
          fun p : (Fin (n + 1 + 1) → ℝ) × (Fin (n + 1) → ℝ) => ((p.1 0, p.2 0), ((fun i => p.1 i.succ), (fun i => p.2 i.succ))) := by
      have hn1 : ∀ᵐ p ∂((Measure.pi μ).prod (Measure.pi ν)), 0 ≤ p.1 0 ∧ p.1 0 ≤ 1 :=
        Measure.quasiMeasurePreserving_fst.ae ((Measure.quasiMeasurePreserving_eval μ 0).ae ae1)
      have hn2 : ∀ᵐ p ∂((Measure.pi μ).prod (Measure.pi ν)), 0 ≤ p.2 0 ∧ p.2 0 ≤ 1 :=
        Measure.quasiMeasurePreserving_snd.ae ((Measure.quasiMeasurePreserving_eval ν 0).ae ae2)
      filter_upwards [hn1, hn2] with p hp hp'
      exact cpp_triJ p.1 p.2 hp hp'
    rw [Measure.map_congr hae]
    have h6 : MeasurePreserving (fun p : (Fin (n + 1 + 1) → ℝ) × (Fin (n + 1) → ℝ) =>
        ((p.1 0, p.2 0), ((fun i : Fin (n + 1) => p.1 i.succ), (fun i : Fin n => p.2 i.succ)))) _ _ := h5
    have hpL := prob_lawJ hb n M1 M2 (by omega) (by omega)
    have hassoc : ((μ 0).prod (ν 0)).prod (lawJ beta n M1 M2) = ((μ 0).prod ((ν 0).prod (lawJ beta n M1 M2))).map MeasurableEquiv.prodAssoc.symm := by
      rw [← Measure.prodAssoc_prod, Measure.map_map (MeasurableEquiv.measurable _) (MeasurableEquiv.measurable _)]
      simp
    rw [← Measure.map_map measurable_stepJ' (hmp.comp h6.measurable), ← Measure.map_map hmp h6.measurable, h6.map_eq,
      ← Measure.map_prod_map _ _ measurable_id hm, Measure.map_id, ih, hassoc, Measure.map_map measurable_stepJ' (MeasurableEquiv.measurable _), e3', e4', lawJ]
    rfl

end Verif.Lemmas
