import Verif.Lemmas.Sampler

/-!
Concrete case: orthogonal points `L = x I` and the dictionary of all the points.
-/

namespace Verif
open Verif Verif.Spec Verif.Model Matrix
open scoped ENNReal

variable {n : ℕ} {num : Numerics}

/-- `L = x I` -/
def scal (n : ℕ) (x : ℝ) : Matrix (Fin n) (Fin n) ℝ := x • 1

theorem scal_apply (x : ℝ) (i j : Fin n) : scal n x i j = if i = j then x else 0 := by
  unfold scal
  rw [Matrix.smul_apply, one_apply, smul_eq_mul, mul_ite, mul_one, mul_zero]

theorem scal_psd {x : ℝ} (hx : 0 ≤ x) : (scal n x).PosSemidef := PosSemidef.one.smul hx

theorem scal_trace (x : ℝ) : (scal n x).trace = n * x := by
  unfold scal
  rw [trace_smul, trace_one, Fintype.card_fin, smul_eq_mul, mul_comm]

/-- the dictionary of all the points, with probability one -/
def fullDict (n : ℕ) (over : ℝ) : Centers n where
  items := (List.finRange n).map fun i => (i, 1)
  lam := 1
  over := over

theorem fullDict_length (over : ℝ) : (fullDict n over).items.length = n := by simp [fullDict]

theorem fullDict_idx (over : ℝ) (e : Fin (fullDict n over).items.length) : ((fullDict n over).idx e).val = e.val := by
  unfold Centers.idx
  rw [List.get_eq_getElem]
  simp [fullDict]

theorem fullDict_probs (over : ℝ) (e : Fin (fullDict n over).items.length) : (fullDict n over).probs e = 1 := by
  unfold Centers.probs
  rw [List.get_eq_getElem]
  simp [fullDict]

theorem fullDict_inj (over : ℝ) : Function.Injective (fullDict n over).idx := fun a b h => by
  have := congrArg Fin.val h
  rw [fullDict_idx, fullDict_idx] at this
  exact Fin.ext this

/-- position of a point in the dictionary -/
def fullPos (over : ℝ) (i : Fin n) : Fin (fullDict n over).items.length := i.cast (fullDict_length over).symm

theorem fullDict_pos (over : ℝ) (i : Fin n) : (fullDict n over).idx (fullPos over i) = i :=
  Fin.ext (by rw [fullDict_idx]; rfl)

theorem fullDict_valid {x : ℝ} (hx : 0 < x) (hn : 0 < n) (over : ℝ) : ValidDict (scal n x) (fullDict n over) where
  nonempty := by
    rw [← List.length_pos_iff, fullDict_length]; exact hn
  increasing := by
    simp only [fullDict, List.map_map, Function.comp_def, List.map_id']
    exact List.pairwise_lt_finRange n
  pos := by
    intro p hp
    simp only [fullDict, List.mem_map] at hp
    obtain ⟨i, -, rfl⟩ := hp
    exact one_pos
  le_one := by
    intro p hp
    simp only [fullDict, List.mem_map] at hp
    obtain ⟨i, -, rfl⟩ := hp
    exact le_rfl
  diag := by
    intro p hp
    simp only [scal_apply, if_true]
    exact hx

theorem scal_idx (x over : ℝ) (e : Fin (fullDict n over).items.length) (i : Fin n) :
    scal n x ((fullDict n over).idx e) i = if e = fullPos over i then x else 0 := by
  rw [scal_apply]
  congr 1
  rw [eq_iff_iff]
  constructor
  · intro h
    exact fullDict_inj over (by rw [h, fullDict_pos])
  · intro h
    rw [h, fullDict_pos]

theorem scal_idx2 (x over : ℝ) (e f : Fin (fullDict n over).items.length) :
    scal n x ((fullDict n over).idx e) ((fullDict n over).idx f) = if e = f then x else 0 := by
  rw [scal_apply]
  congr 1
  rw [eq_iff_iff]
  exact (fullDict_inj over).eq_iff

/-! ### decompositions of multiples of the identity -/

theorem scal_symm {m : ℕ} {A : Fin m → Fin m → ℝ} {c : ℝ} (hA : ∀ e f, A e f = if e = f then c else 0) (e f : Fin m) :
    A e f = A f e := by
  rw [hA, hA]
  simp only [eq_comm]

theorem psd_of_scal {m : ℕ} {A : Fin m → Fin m → ℝ} {c : ℝ} (hc : 0 ≤ c) (hA : ∀ e f, A e f = if e = f then c else 0) :
    PosSemidef (A : Matrix (Fin m) (Fin m) ℝ) := by
  have h : (A : Matrix (Fin m) (Fin m) ℝ) = scal m c := by
    ext e f; rw [hA, scal_apply]
  rw [h]
  exact scal_psd hc

/-- orthonormal columns of a square matrix are orthonormal rows -/
theorem rows_of_cols {m : ℕ} {U : Fin m → Fin m → ℝ} (h : ∀ a b, ∑ i, U i a * U i b = if a = b then 1 else 0) (e f : Fin m) :
    ∑ j, U e j * U f j = if e = f then 1 else 0 := by
  have h2 : (Matrix.of U)ᵀ * (Matrix.of U) = 1 := by
    ext a b
    rw [mul_apply, one_apply, ← h a b]
    rfl
  have h3 := mul_eq_one_comm.1 h2
  have h4 := congrFun (congrFun h3 e) f
  rw [mul_apply, one_apply] at h4
  exact h4

theorem eigval_scal {m : ℕ} {U : Fin m → Fin m → ℝ} {v : Fin m → ℝ} (hU : ∀ a b, ∑ i, U i a * U i b = if a = b then 1 else 0)
    {A : Fin m → Fin m → ℝ} {c : ℝ} (hA : ∀ e f, A e f = if e = f then c else 0) (j : Fin m)
    (h : ∀ e, ∑ f, A e f * U f j = v j * U e j) : v j = c := by
  have h1 : ∀ e, c * U e j = v j * U e j := by
    intro e
    rw [← h e]
    simp only [hA, ite_mul, zero_mul, Finset.sum_ite_eq, Finset.mem_univ, if_true]
  have h2 := hU j j
  rw [if_pos rfl] at h2
  calc v j = v j * ∑ i, U i j * U i j := by rw [h2, mul_one]
    _ = ∑ i, (v j * U i j) * U i j := by rw [Finset.mul_sum]; exact Finset.sum_congr rfl fun i _ => by ring
    _ = ∑ i, (c * U i j) * U i j := by simp_rw [h1]
    _ = c * ∑ i, U i j * U i j := by rw [Finset.mul_sum]; exact Finset.sum_congr rfl fun i _ => by ring
    _ = c := by rw [h2, mul_one]

theorem svd_scal (hn : NumericsSpec num) {m : ℕ} {A : Fin m → Fin m → ℝ} {c : ℝ} (hc : 0 ≤ c)
    (hA : ∀ e f, A e f = if e = f then c else 0) (j : Fin m) : (num.svd m A).2 j = c :=
  eigval_scal (hn.svd m A (psd_of_scal hc hA)).2.1 hA j fun e => svd_eig hn.svd (psd_of_scal hc hA) e j

theorem eigh_scal (hn : NumericsSpec num) {m : ℕ} {A : Fin m → Fin m → ℝ} {c : ℝ}
    (hA : ∀ e f, A e f = if e = f then c else 0) (j : Fin m) : (num.eigh m A).1 j = c := by
  obtain ⟨h1, h2⟩ := hn.eigh m A (scal_symm hA)
  refine eigval_scal h1 hA j fun e => ?_
  simp_rw [h2 e, Finset.sum_mul]
  rw [Finset.sum_comm]
  have : ∀ a, ∑ f, (num.eigh m A).1 a * (num.eigh m A).2 e a * (num.eigh m A).2 f a * (num.eigh m A).2 f j
      = (num.eigh m A).1 a * (num.eigh m A).2 e a * if a = j then 1 else 0 := by
    intro a
    rw [← h1 a j, Finset.mul_sum]
    exact Finset.sum_congr rfl fun f _ => by ring
  simp_rw [this]
  simp

theorem stableKeep_const {m : ℕ} {eps c : ℝ} (hc : 0 < c) (hm : m * eps < 1) {v : Fin m → ℝ} (hv : ∀ i, v i = c) :
    stableKeep eps v = List.finRange m := by
  classical
  unfold stableKeep
  rw [List.filter_eq_self]
  intro i _
  have hfold : ∀ (l : List ℝ) (a : ℝ), a ≤ c → (∀ x ∈ l, x ≤ c) → l.foldl max a ≤ c := by
    intro l
    induction l with
    | nil => intro a ha _; exact ha
    | cons x l ih => intro a ha hl; exact ih _ (max_le ha (hl x List.mem_cons_self)) fun y hy => hl y (List.mem_cons_of_mem _ hy)
  have h1 : (List.ofFn fun i => |v i|).foldl max 0 ≤ c := by
    refine hfold _ 0 hc.le fun x hx => ?_
    rw [List.mem_ofFn] at hx
    obtain ⟨k, rfl⟩ := hx
    rw [hv, abs_of_pos hc]
  have h0 := (foldl_max_ge (List.ofFn fun i => |v i|) 0).1
  have : stableThresh eps v < |v i| := by
    rw [hv, abs_of_pos hc]
    unfold stableThresh
    rw [mul_assoc]
    rcases le_or_gt 0 ((m:ℝ) * eps) with h3 | h3
    · calc _ ≤ c * (m * eps) := mul_le_mul_of_nonneg_right h1 h3
        _ < c * 1 := mul_lt_mul_of_pos_left hm hc
        _ = c := mul_one _
    · exact (mul_nonpos_of_nonneg_of_nonpos h0 h3.le).trans_lt hc
  simpa using this

/-! ### reduce_lambda -/

theorem blessMat_scal (x lam over : ℝ) (e f : Fin (fullDict n over).items.length) :
    blessMat (scal n x) (fullDict n over) lam e f = if e = f then x + lam else 0 := by
  unfold blessMat
  rw [scal_idx2, fullDict_probs]
  split <;> simp

theorem blessRls_scal (hn : NumericsSpec num) {x lam : ℝ} (hx : 0 < x) (hlam : 0 < lam) (over : ℝ) (i : Fin n) :
    blessRls num (scal n x) (fullDict n over) lam (List.finRange _) i = x / (x + lam) := by
  have hA := blessMat_scal (n := n) x lam over
  have hp : 0 < x + lam := by linarith
  have hU := (hn.svd _ _ (psd_of_scal hp.le hA)).2.1
  have hrow := rows_of_cols hU (fullPos over i) (fullPos over i)
  rw [if_pos rfl] at hrow
  unfold blessRls blessPrecond
  have h1 : ∀ j, ∑ e, (num.svd _ (blessMat (scal n x) (fullDict n over) lam)).1 e j * scal n x ((fullDict n over).idx e) i
      = (num.svd _ (blessMat (scal n x) (fullDict n over) lam)).1 (fullPos over i) j * x := by
    intro j
    simp_rw [scal_idx]
    simp
  simp_rw [svd_scal hn hp.le hA, h1]
  rw [← Fin.sum_univ_def]
  have h2 : ∀ j, (1 / Real.sqrt (x + lam) * ((num.svd _ (blessMat (scal n x) (fullDict n over) lam)).1 (fullPos over i) j * x)) ^ 2
      = x ^ 2 / (x + lam) * ((num.svd _ (blessMat (scal n x) (fullDict n over) lam)).1 (fullPos over i) j *
        (num.svd _ (blessMat (scal n x) (fullDict n over) lam)).1 (fullPos over i) j) := by
    intro j
    have := Real.sq_sqrt hp.le
    rw [mul_pow, div_pow, this]
    ring
  simp_rw [h2]
  rw [← Finset.mul_sum, hrow, scal_apply, if_pos rfl]
  field_simp
  ring

theorem coin_one {p : ℝ} (h : 1 ≤ p) : coin p = PMF.pure true := by
  unfold coin
  have h1 : min 1 p.toNNReal = 1 := min_eq_left (by rw [← Real.toNNReal_one]; exact Real.toNNReal_mono h)
  ext b
  rw [PMF.bernoulli_apply, PMF.pure_apply]
  cases b <;> simp [h1]

theorem indep_pure {α : Type*} : ∀ {n : ℕ} (c : Fin n → α), indep (fun i => PMF.pure (c i)) = PMF.pure c
  | 0, c => by
    rw [indep]
    congr 1
    funext i
    exact i.elim0
  | n + 1, c => by
    rw [indep, PMF.pure_bind, indep_pure fun i => c i.succ, PMF.pure_map]
    congr 1
    funext i
    refine Fin.cases ?_ (fun j => ?_) i <;> simp

/-- On orthogonal points and with enough oversampling, all the points are kept. -/
theorem reduceLambda_scal (hn : NumericsSpec num) {x : ℝ} (hx : 0 < x) (hpos : 0 < n) (heps : n * num.eps < 1) (over over' : ℝ)
    (ho : 1 ≤ over' * (x / (x + 1))) :
    reduceLambda num (scal n x) (fullDict n over) 1 (some over') = PMF.pure (.ok (fullDict n over')) := by
  classical
  have hover : 0 < over' := by
    by_contra h
    have : over' * (x / (x + 1)) ≤ 0 := mul_nonpos_of_nonpos_of_nonneg (not_lt.1 h) (by positivity)
    linarith
  have hucb : ∀ i, ucb (scal n x) over' 1 i = 1 := by
    intro i
    unfold ucb
    rw [scal_apply, if_pos rfl, mul_div_assoc]
    exact min_eq_right ho
  have hlen : ((fullDict n over).items.length : ℝ) * num.eps < 1 := by rw [fullDict_length]; exact heps
  have hv := fullDict_valid (n := n) hx hpos over
  have hp : ∀ e, 0 < (fullDict n over).probs e := fun e => by rw [fullDict_probs]; exact one_pos
  have hkeep := stableKeep_const (eps := num.eps) (c := x + 1) (by linarith) hlen
    (svd_scal hn (by linarith) (blessMat_scal (n := n) x 1 over))
  have hrls := estimateRls_ok hn (scal_psd hx.le) hv.nonempty hp one_pos
  rw [hkeep] at hrls
  have hred : ∀ i, redProbs (scal n x) over' 1 (blessRls num (scal n x) (fullDict n over) 1 (List.finRange _)) i = 1 := by
    intro i
    unfold redProbs
    rw [hucb, blessRls_scal hn hx one_pos]
    exact min_eq_right ho
  have hrej : ∀ i, redReject (scal n x) over' 1 (blessRls num (scal n x) (fullDict n over) 1 (List.finRange _)) i = 1 := by
    intro i
    unfold redReject
    rw [hred, hucb, div_one]
  have hall : selOnes (fun _ : Fin n => true) = List.finRange n := by
    unfold selOnes; simp
  have hne : List.finRange n ≠ [] := by
    rw [← List.length_pos_iff, List.length_finRange]; exact hpos
  unfold reduceLambda
  simp only [Option.getD_some]
  rw [if_neg (by simp [fullDict])]
  simp_rw [hucb, coin_one le_rfl]
  rw [indep_pure fun _ => true, PMF.pure_bind, hall, if_neg hne, hrls]
  simp only
  simp_rw [hred, hrej]
  rw [if_neg (by push Not; intro i _; exact zero_le_one), if_neg]
  · simp_rw [coin_one le_rfl]
    rw [indep_pure fun _ => true, PMF.pure_map]
    simp only [List.filter_true]
    rw [if_neg hne]
    rfl
  · rw [List.map_const', List.sum_replicate, List.length_finRange, nsmul_eq_mul, mul_one, mul_div_cancel₀ _ hover.ne', not_lt]
    exact_mod_cast hpos

end Verif
