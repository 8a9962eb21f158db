import Verif.Lemmas.JacLaguerre
import Mathlib.Algebra.Polynomial.Roots

/-!
# From the draws of the banded Jacobi model to Jacobi coefficients
-/

namespace Verif.Lemmas
open Finset Matrix MeasureTheory Verif.Model ProbabilityTheory

variable {n : ℕ}

/-- `x_0 = co_0`, `x_{i+1} = (1 - ce_{i+1}) co_{i+1}`, `e_{i+1} = (1 - co_i) ce_{i+1}`, and the mass is kept -/
def jacH (y : Cd (n + 1)) : Cd (n + 1) := Sum.elim
  (Fin.cases (y (.inl 0)) fun i : Fin n => (1 - y (.inr i.succ)) * y (.inl i.succ))
  (Fin.cases (y (.inr 0)) fun i : Fin n => (1 - y (.inl i.castSucc)) * y (.inr i.succ))

theorem jacH_l0 (y : Cd (n + 1)) : jacH y (.inl 0) = y (.inl 0) := rfl
theorem jacH_ls (y : Cd (n + 1)) (i : Fin n) : jacH y (.inl i.succ) = (1 - y (.inr i.succ)) * y (.inl i.succ) := rfl
theorem jacH_r0 (y : Cd (n + 1)) : jacH y (.inr 0) = y (.inr 0) := rfl
theorem jacH_rs (y : Cd (n + 1)) (i : Fin n) : jacH y (.inr i.succ) = (1 - y (.inl i.castSucc)) * y (.inr i.succ) := rfl

theorem diff_jacH : Differentiable ℝ (jacH (n := n)) := by
  rw [differentiable_pi]
  rintro (k | k)
  · refine Fin.cases ?_ (fun i => ?_) k
    · simp only [jacH_l0]; fun_prop
    · simp only [jacH_ls]; fun_prop
  · refine Fin.cases ?_ (fun i => ?_) k
    · simp only [jacH_r0]; fun_prop
    · simp only [jacH_rs]; fun_prop

theorem jacM_jacH_lt (y : Cd (n + 1)) (r c : Fin (n + 1) ⊕ Fin (n + 1)) (h : rk (n + 1) r < rk (n + 1) c) :
    jacM jacH y r c = 0 := by
  refine jacM_eq diff_jacH.differentiableAt (hasDerivAt_line fun t => ?_)
  rw [mul_zero, add_zero, zero_smul, add_zero]
  rcases r with k | k <;> revert h <;> refine Fin.cases ?_ (fun i => ?_) k <;> intro h
  · simp only [jacH_l0, line_ne y t (rk_ne h (d := .inl 0) le_rfl)]
  · simp only [jacH_ls, line_ne y t (rk_ne h (d := .inl i.succ) le_rfl),
      line_ne y t (rk_ne h (d := .inr i.succ) (by simp [rk]))]
  · simp only [jacH_r0, line_ne y t (rk_ne h (d := .inr 0) le_rfl)]
  · simp only [jacH_rs, line_ne y t (rk_ne h (d := .inr i.succ) le_rfl),
      line_ne y t (rk_ne h (d := .inl i.castSucc) (by simp [rk]))]

theorem det_jacH (y : Cd (n + 1)) : (fderiv ℝ jacH y).det
    = (∏ i : Fin n, (1 - y (.inr i.succ))) * ∏ i : Fin n, (1 - y (.inl i.castSucc)) := by
  rw [det_tri (jacM_jacH_lt y)]
  have hl0 : jacM jacH y (.inl 0) (.inl 0) = 1 := by
    refine jacM_eq diff_jacH.differentiableAt (hasDerivAt_line fun t => ?_)
    rw [zero_smul, add_zero]
    simp only [jacH_l0, line_eq]; ring
  have hls : ∀ i : Fin n, jacM jacH y (.inl i.succ) (.inl i.succ) = 1 - y (.inr i.succ) := by
    intro i
    refine jacM_eq diff_jacH.differentiableAt (hasDerivAt_line fun t => ?_)
    rw [zero_smul, add_zero]
    simp only [jacH_ls, line_eq]
    rw [line_ne y t (by simp)]; ring
  have hr0 : jacM jacH y (.inr 0) (.inr 0) = 1 := by
    refine jacM_eq diff_jacH.differentiableAt (hasDerivAt_line fun t => ?_)
    rw [zero_smul, add_zero]
    simp only [jacH_r0, line_eq]; ring
  have hrs : ∀ i : Fin n, jacM jacH y (.inr i.succ) (.inr i.succ) = 1 - y (.inl i.castSucc) := by
    intro i
    refine jacM_eq diff_jacH.differentiableAt (hasDerivAt_line fun t => ?_)
    rw [zero_smul, add_zero]
    simp only [jacH_rs, line_eq]
    rw [line_ne y t (by simp)]; ring
  rw [Fin.prod_univ_succ (fun k => jacM jacH y (.inr k) (.inr k)), Fin.prod_univ_succ (fun k => jacM jacH y (.inl k) (.inl k))]
  simp only [hl0, hls, hr0, hrs, one_mul]

/-- the coordinates where the densities of the draws are positive -/
def jacO (n : ℕ) : Set (Cd (n + 1)) :=
  {y | (∀ k, 0 < y (.inl k) ∧ y (.inl k) < 1) ∧ 0 < y (.inr 0) ∧ ∀ i : Fin n, 0 < y (.inr i.succ) ∧ y (.inr i.succ) < 1}

theorem measurableSet_jacO : MeasurableSet (jacO n) := by
  have : jacO n = (⋂ k : Fin (n + 1), {y | 0 < y (.inl k)} ∩ {y | y (.inl k) < 1}) ∩ ({y | 0 < y (.inr 0)}
      ∩ ⋂ i : Fin n, {y | 0 < y (.inr i.succ)} ∩ {y | y (.inr i.succ) < 1}) := by
    ext y; simp [jacO]
  rw [this]
  refine MeasurableSet.inter (MeasurableSet.iInter fun j => ?_) (MeasurableSet.inter ?_ (MeasurableSet.iInter fun j => ?_))
  · exact (measurableSet_lt measurable_const (measurable_pi_apply _)).inter (measurableSet_lt (measurable_pi_apply _) measurable_const)
  · exact measurableSet_lt measurable_const (measurable_pi_apply _)
  · exact (measurableSet_lt measurable_const (measurable_pi_apply _)).inter (measurableSet_lt (measurable_pi_apply _) measurable_const)

theorem jacH_mem {y : Cd (n + 1)} (hy : y ∈ jacO n) : jacH y ∈ posO (n + 1) := by
  rintro (k | k) <;> refine Fin.cases ?_ (fun i => ?_) k
  · exact (hy.1 0).1
  · exact mul_pos (sub_pos.2 (hy.2.2 i).2) (hy.1 _).1
  · exact hy.2.1
  · exact mul_pos (sub_pos.2 (hy.1 _).2) (hy.2.2 i).1

theorem jacH_injOn : Set.InjOn (jacH (n := n)) (jacO n) := by
  intro y hy y' hy' h
  have hx : ∀ k : Fin (n + 1), y (.inl k) = y' (.inl k) ∧ y (.inr k) = y' (.inr k) := by
    intro k
    induction k using Fin.induction with
    | zero => exact ⟨congrFun h (.inl 0), congrFun h (.inr 0)⟩
    | succ i ih =>
      have h1 := congrFun h (.inr i.succ)
      have h2 := congrFun h (.inl i.succ)
      rw [jacH_rs, jacH_rs, ih.1] at h1
      have h3 := mul_left_cancel₀ (sub_pos.2 (hy'.1 i.castSucc).2).ne' h1
      rw [jacH_ls, jacH_ls, h3] at h2
      exact ⟨mul_left_cancel₀ (sub_pos.2 (hy'.2.2 i).2).ne' h2, h3⟩
  funext c
  rcases c with k | k
  · exact (hx k).1
  · exact (hx k).2

/-- from the draws to the coefficients -/
def jacQ (y : Cd (n + 1)) : Cd (n + 1) := lagQ (jacH y)

theorem diff_jacQ : Differentiable ℝ (jacQ (n := n)) := diff_lagQ.comp diff_jacH

theorem jacQ_mem {y : Cd (n + 1)} (hy : y ∈ jacO n) : jacQ y ∈ specR (n + 1) := lagQ_mem (jacH_mem hy)

theorem jacQ_injOn : Set.InjOn (jacQ (n := n)) (jacO n) := lagQ_injOn.comp jacH_injOn fun _ hy => jacH_mem hy

theorem det_jacQ (y : Cd (n + 1)) : (fderiv ℝ jacQ y).det = (∏ i : Fin n, jacH y (.inl i.castSucc))
    * ((∏ i : Fin n, (1 - y (.inr i.succ))) * ∏ i : Fin n, (1 - y (.inl i.castSucc))) := by
  have h : fderiv ℝ jacQ y = (fderiv ℝ lagQ (jacH y)).comp (fderiv ℝ jacH y) :=
    fderiv_comp y diff_lagQ.differentiableAt diff_jacH.differentiableAt
  rw [h, ← det_lagQ, ← det_jacH]
  exact LinearMap.det_comp _ _

/-! ### One minus the matrix -/

theorem one_sub_tridiag {N : ℕ} (d e : ℕ → ℝ) : 1 - tridiag N d e = tridiag N (fun i => 1 - d i) (fun i => -e i) := by
  ext p q
  simp only [tridiag, Matrix.of_apply, Matrix.sub_apply, Matrix.one_apply]
  split_ifs <;> simp

theorem charpoly_one_sub {N : ℕ} {M : Matrix (Fin N) (Fin N) ℝ} {lam : Fin N → ℝ}
    (h : M.charpoly = ∏ j, (Polynomial.X - Polynomial.C (lam j))) :
    (1 - M).charpoly = ∏ j, (Polynomial.X - Polynomial.C (1 - lam j)) := by
  refine Polynomial.funext fun t => ?_
  rw [Matrix.eval_charpoly, Polynomial.eval_prod]
  have h1 := det_of_char h (1 - t)
  have e : (Matrix.scalar (Fin N) t - (1 - M)) = -((1 - t) • (1 : Matrix (Fin N) (Fin N) ℝ) - M) := by
    rw [Matrix.scalar_apply, ← Matrix.smul_one_eq_diagonal, sub_smul, one_smul]; abel
  rw [e, Matrix.det_neg, h1, Fintype.card_fin]
  have e2 : ∀ j, Polynomial.eval t (Polynomial.X - Polynomial.C (1 - lam j)) = -(1 - t - lam j) := fun j => by simp; ring
  simp only [e2]
  rw [prod_neg, card_univ, Fintype.card_fin]

/-- `ce` as a sequence, `co` as a sequence -/
def coS (y : Cd (n + 1)) : ℕ → ℝ := pad fun k => y (.inl k)

theorem coS_fin (y : Cd (n + 1)) (k : Fin (n + 1)) : coS y k = y (.inl k) := pad_fin _ _

theorem evenSeq_fin (y : Cd (n + 1)) (i : Fin n) : evenSeq y ((i.succ : Fin (n + 1)) : ℕ) = y (.inr i.succ) := by
  rw [evenSeq, if_neg (by simp)]; exact pad_fin _ _

theorem jacH_l (y : Cd (n + 1)) {p : ℕ} (hp : p < n + 1) : pad (fun k => jacH y (.inl k)) p = (1 - evenSeq y p) * coS y p := by
  rcases p with _ | p
  · rw [evenSeq, if_pos rfl, sub_zero, one_mul, coS, pad_lt hp, pad_lt hp]; rfl
  · rw [evenSeq, if_neg (by omega), coS, pad_lt hp, pad_lt hp, pad_lt hp]; rfl

theorem jacH_r (y : Cd (n + 1)) {p : ℕ} (hp : p + 1 < n + 1) : evenSeq (jacH y) (p + 1) = (1 - coS y p) * evenSeq y (p + 1) := by
  rw [evenSeq, if_neg (by omega), evenSeq, if_neg (by omega), coS, pad_lt hp, pad_lt hp, pad_lt (show p < n + 1 by omega)]; rfl

theorem coS_mem {y : Cd (n + 1)} (hy : y ∈ jacO n) (p : ℕ) : 0 ≤ coS y p ∧ coS y p < 1 := by
  unfold coS pad; split_ifs
  · exact ⟨(hy.1 _).1.le, (hy.1 _).2⟩
  · exact ⟨le_rfl, one_pos⟩

theorem ceS_mem {y : Cd (n + 1)} (hy : y ∈ jacO n) {p : ℕ} (hp : p < n + 1) : 0 ≤ evenSeq y p ∧ evenSeq y p < 1 := by
  rcases p with _ | p
  · rw [evenSeq, if_pos rfl]; exact ⟨le_rfl, one_pos⟩
  · have h := evenSeq_fin y ⟨p, by omega⟩
    have h2 := hy.2.2 ⟨p, by omega⟩
    rw [← h] at h2
    exact ⟨h2.1.le, h2.2⟩

/-- the factor of one minus the matrix -/
noncomputable def jacB (y : Cd (n + 1)) : Matrix (Fin (n + 1)) (Fin (n + 1)) ℝ :=
  bidiag (n + 1) (fun p => √((1 - evenSeq y p) * (1 - coS y p))) (fun p => -√(evenSeq y p * coS y (p - 1)))

theorem one_sub_jacT {y : Cd (n + 1)} (hy : y ∈ jacO n) : 1 - jacT (jacQ y) = jacB y * (jacB y)ᵀ := by
  rw [jacB, bidiag_mul_transpose (by simp [evenSeq]), jacT, one_sub_tridiag]
  refine tridiag_congr (fun i hi => ?_) (fun i hi => ?_)
  · have hc := coS_mem hy i
    have hc' := coS_mem hy (i - 1)
    have he := ceS_mem hy hi
    rw [jacQ, pad_lagQ_l _ hi, jacH_l y hi, neg_sq, Real.sq_sqrt (mul_nonneg (by linarith [he.2]) (by linarith [hc.2])),
      Real.sq_sqrt (mul_nonneg he.1 hc'.1)]
    rcases i with _ | i
    · simp [evenSeq]
    · rw [jacH_r y hi, Nat.add_sub_cancel]; ring
  · have hc := coS_mem hy i
    have he := ceS_mem hy (show i < n + 1 by omega)
    rw [jacQ, pad_lagQ_r _ hi, jacH_l y (by omega), jacH_r y hi, Nat.add_sub_cancel, mul_neg,
      ← Real.sqrt_mul (mul_nonneg (by linarith [he.2]) (by linarith [hc.2]))]
    congr 2
    ring

theorem jac_char {y : Cd (n + 1)} (hy : y ∈ jacO n) : (1 - jacT (jacQ y)).charpoly
    = ∏ j, (Polynomial.X - Polynomial.C (1 - specMap (jacQ y) (.inl j))) := charpoly_one_sub (specMap_char (jacQ_mem hy))

theorem jac_det {y : Cd (n + 1)} (hy : y ∈ jacO n) : ∏ j, (1 - specMap (jacQ y) (.inl j))
    = (∏ k, (1 - y (.inl k))) * ∏ i : Fin n, (1 - y (.inr i.succ)) := by
  rw [← det_eq_prod_roots (jac_char hy), one_sub_jacT hy, Matrix.det_mul, Matrix.det_transpose, jacB, det_bidiag,
    ← prod_mul_distrib]
  have h1 : ∀ k : Fin (n + 1), √((1 - evenSeq y k) * (1 - coS y k)) * √((1 - evenSeq y k) * (1 - coS y k))
      = (1 - y (.inl k)) * (1 - evenSeq y k) := fun k => by
    have hc := coS_mem hy k
    have he := ceS_mem hy k.2
    rw [Real.mul_self_sqrt (mul_nonneg (by linarith [he.2]) (by linarith [hc.2])), coS_fin, mul_comm]
  rw [prod_congr rfl fun k _ => h1 k, prod_mul_distrib]
  congr 1
  rw [Fin.prod_univ_succ]
  simp only [evenSeq_fin]
  simp [evenSeq]

theorem jac_pos {y : Cd (n + 1)} (hy : y ∈ jacO n) (j : Fin (n + 1)) : 0 < specMap (jacQ y) (.inl j) := lag_pos (jacH_mem hy) j

theorem jac_lt {y : Cd (n + 1)} (hy : y ∈ jacO n) (j : Fin (n + 1)) : specMap (jacQ y) (.inl j) < 1 := by
  have hpsd : (1 - jacT (jacQ y)).PosSemidef := by
    rw [one_sub_jacT hy, ← Matrix.conjTranspose_eq_transpose_of_trivial]
    exact Matrix.posSemidef_self_mul_conjTranspose _
  refine sub_pos.1 (lt_of_le_of_ne (roots_nonneg hpsd (jac_char hy) j) fun h0 => ?_)
  have h := jac_det hy
  rw [prod_eq_zero (mem_univ j) h0.symm] at h
  exact (mul_pos (prod_pos fun k _ => sub_pos.2 (hy.1 k).2) (prod_pos fun i _ => sub_pos.2 (hy.2.2 i).2)).ne h

/-! ### Surjectivity -/

/-- `(co_k, ce_k)` from the sequences `x`, `e` -/
noncomputable def unJac (x e : ℕ → ℝ) : ℕ → ℝ × ℝ
  | 0 => (x 0, 0)
  | k + 1 => (x (k + 1) / (1 - e (k + 1) / (1 - (unJac x e k).1)), e (k + 1) / (1 - (unJac x e k).1))

theorem unJac_co (x e : ℕ → ℝ) (k : ℕ) : (unJac x e k).1 = x k / (1 - (unJac x e k).2) := by
  rcases k with _ | k
  · simp [unJac]
  · rw [unJac]

theorem unJac_ok {x e d f : ℕ → ℝ} {N : ℕ} (hx : ∀ k < N, 0 < x k) (he : ∀ k, k + 1 < N → 0 < e (k + 1))
    (hd0 : d 0 = x 0) (hd : ∀ k, k + 1 < N → d (k + 1) = x (k + 1) + e (k + 1))
    (hf : ∀ k, k + 1 < N → f k ^ 2 = x k * e (k + 1)) (hp : ∀ k < N, 0 < piv (fun i => 1 - d i) f k) :
    ∀ k < N, (0 < (unJac x e k).1 ∧ (unJac x e k).1 < 1) ∧ (0 ≤ (unJac x e k).2 ∧ (unJac x e k).2 < 1)
      ∧ (1 ≤ k → 0 < (unJac x e k).2) ∧ piv (fun i => 1 - d i) f k = 1 - (unJac x e k).2 - x k := by
  intro k
  induction k with
  | zero =>
    intro hk
    have h := hp 0 hk
    have hx0 := hx 0 hk
    simp only [piv, hd0] at h
    simp only [unJac, piv, hd0]
    refine ⟨⟨hx0, by linarith⟩, ⟨le_rfl, one_pos⟩, by omega, by ring⟩
  | succ k ih =>
    intro hk
    obtain ⟨⟨h1, h2⟩, ⟨h3, h4⟩, -, h5⟩ := ih (by omega)
    have hxk := hx k (by omega)
    have hx1 := hx (k + 1) hk
    have he1 := he k hk
    have hpk := hp (k + 1) hk
    have hco := unJac_co x e k
    set co := (unJac x e k).1 with hcod
    set ce := (unJac x e k).2 with hced
    have hco1 : 0 < 1 - co := by linarith
    have hce1 : 0 < 1 - ce := by linarith
    have hxe : x k = co * (1 - ce) := by rw [hco]; field_simp
    have hce' : (unJac x e (k + 1)).2 = e (k + 1) / (1 - co) := by rw [unJac]
    set ce' := (unJac x e (k + 1)).2 with hce'd
    have hee : e (k + 1) = ce' * (1 - co) := by rw [hce']; field_simp
    have hpiv : piv (fun i => 1 - d i) f (k + 1) = 1 - ce' - x (k + 1) := by
      rw [piv, h5, hd k hk, hf k hk, hxe, hee]
      have : (1 - ce - co * (1 - ce)) = (1 - ce) * (1 - co) := by ring
      rw [this]
      field_simp
      ring
    have hce'0 : 0 < ce' := by rw [hce']; positivity
    rw [hpiv] at hpk
    have hce'1 : ce' < 1 := by linarith
    have hce'p : 0 < 1 - ce' := by linarith
    refine ⟨?_, ⟨hce'0.le, hce'1⟩, fun _ => hce'0, hpiv⟩
    rw [unJac_co, ← hce'd]
    refine ⟨div_pos hx1 hce'p, ?_⟩
    rw [div_lt_one hce'p]; linarith

theorem jac_surj {y : Cd (n + 1)} (hy : y ∈ specR (n + 1)) (hpos : ∀ j, 0 < specMap y (.inl j)) (hlt : ∀ j, specMap y (.inl j) < 1) :
    y ∈ jacQ '' jacO n := by
  obtain ⟨z, hz, rfl⟩ := lag_surj hy hpos
  have hsym : (1 - jacT (lagQ z)).IsHermitian := by
    rw [jacT, one_sub_tridiag]; exact tridiag_symm _ _
  have hpd : (1 - jacT (lagQ z)).PosDef :=
    posDef_of_char hsym (charpoly_one_sub (specMap_char hy)) fun j => sub_pos.2 (hlt j)
  rw [jacT, one_sub_tridiag] at hpd
  have hp := piv_pos hpd
  set x : ℕ → ℝ := pad fun k => z (.inl k) with hx
  have hok := unJac_ok (x := x) (e := evenSeq z) (N := n + 1) (fun k hk => by rw [hx, pad_lt hk]; exact hz _)
    (fun k hk => by rw [evenSeq, if_neg (by omega), pad_lt hk]; exact hz _)
    (by rw [pad_lagQ_l _ (Nat.succ_pos n)]; simp [evenSeq, hx]) (fun k hk => pad_lagQ_l _ hk)
    (fun k hk => by
      rw [neg_sq, Real.sq_sqrt, pad_lagQ_r _ hk]
      rw [pad_lt hk]; exact (hy _).le) hp
  set u := unJac x (evenSeq z) with hu
  refine ⟨Sum.elim (fun k => (u k).1) (Fin.cases (z (.inr 0)) fun i : Fin n => (u (i + 1)).2), ⟨?_, ?_, ?_⟩, ?_⟩
  · exact fun k => (hok k k.2).1
  · exact hz _
  · exact fun i => ⟨(hok (i + 1) (by omega)).2.2.1 (by omega), (hok (i + 1) (by omega)).2.1.2⟩
  · rw [jacQ]
    congr 1
    funext c
    rcases c with k | k <;> refine Fin.cases ?_ (fun i => ?_) k
    · rw [jacH_l0]
      change (u 0).1 = _
      rw [hu, unJac, hx, pad_lt (Nat.succ_pos n)]; rfl
    · rw [jacH_ls]
      change (1 - (u (i + 1)).2) * (u (i + 1)).1 = _
      have h1 := (hok (i + 1) (by omega)).2.1.2
      rw [hu, unJac_co, ← hu, mul_div_cancel₀ _ (sub_pos.2 h1).ne', hx, pad_lt (by omega)]; rfl
    · rfl
    · rw [jacH_rs]
      change (1 - (u i).1) * (u (i + 1)).2 = _
      have h1 := (hok i (by omega)).1.2
      have h2 : (u (i + 1)).2 = evenSeq z (i + 1) / (1 - (u i).1) := by rw [hu, unJac]
      rw [h2, mul_div_cancel₀ _ (sub_pos.2 h1).ne']
      exact evenSeq_fin z i

theorem jac_mass (z : Cd (n + 1)) : jacT (jacQ (unitM (drawOf z))) = jacT (jacQ z) := by
  refine tridiag_congr (fun i hi => ?_) (fun i hi => ?_)
  · rw [pad_lt hi, pad_lt hi]
    rcases i with _ | i
    · rfl
    · rfl
  · rw [pad_lt hi, pad_lt hi]
    rcases i with _ | i
    · rfl
    · rfl

theorem unitM_jac {z : Cd (n + 1)} (hz : z ∈ jacO n) : unitM (drawOf z) ∈ jacO n := ⟨hz.1, one_pos, hz.2.2⟩

end Verif.Lemmas
