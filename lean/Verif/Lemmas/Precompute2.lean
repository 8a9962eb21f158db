import Verif.Lemmas.Precompute

/-!
The outcomes of the pre-computations.
-/

namespace Verif
open Verif Verif.Spec Verif.Model Matrix

variable {n : ℕ} {L : Matrix (Fin n) (Fin n) ℝ}

/-! ### stable_filter -/

theorem foldl_max_ge (l : List ℝ) (a : ℝ) : a ≤ l.foldl max a ∧ ∀ x ∈ l, x ≤ l.foldl max a := by
  induction l generalizing a with
  | nil => simp
  | cons x l ih =>
    obtain ⟨h1, h2⟩ := ih (max a x)
    refine ⟨(le_max_left _ _).trans h1, fun y hy => ?_⟩
    rcases List.mem_cons.1 hy with rfl | hy
    · exact (le_max_right _ _).trans h1
    · exact h2 y hy

theorem stableThresh_nonneg {m : ℕ} {eps : ℝ} (he : 0 ≤ eps) (v : Fin m → ℝ) : 0 ≤ stableThresh eps v := by
  unfold stableThresh
  exact mul_nonneg (mul_nonneg (foldl_max_ge _ 0).1 (Nat.cast_nonneg _)) he

theorem stableKeep_nodup {m : ℕ} (eps : ℝ) (v : Fin m → ℝ) : (stableKeep eps v).Nodup := (List.nodup_finRange m).filter _

theorem stableKeep_pos {m : ℕ} {eps : ℝ} (he : 0 ≤ eps) {v : Fin m → ℝ} (hv : ∀ i, 0 ≤ v i) {i : Fin m}
    (hi : i ∈ stableKeep eps v) : 0 < v i := by
  unfold stableKeep at hi
  rw [List.mem_filter] at hi
  have h1 : stableThresh eps v < |v i| := by simpa using hi.2
  rw [abs_of_nonneg (hv i)] at h1
  exact (stableThresh_nonneg he v).trans_lt h1

theorem stableFilter_cases {m : ℕ} (eps : ℝ) (v : Fin m → ℝ) :
    stableFilter eps v = .valueError ∨ stableFilter eps v = .ok (stableKeep eps v) := by
  unfold stableFilter; split <;> simp

/-- `stable_filter` accepts the eigenvalues of a non-zero positive semi-definite matrix -/
theorem stableFilter_ok {m : ℕ} {eps : ℝ} (he : 0 < eps) {v : Fin m → ℝ} (hv : ∀ i, 0 ≤ v i) {i : Fin m} (hi : 0 < v i) :
    stableFilter eps v = .ok (stableKeep eps v) := by
  unfold stableFilter
  rw [if_neg]
  rintro ⟨j, hj⟩
  have h1 : 0 < stableThresh eps v := by
    unfold stableThresh
    have h2 : v i ≤ (List.ofFn fun i => |v i|).foldl max 0 :=
      (le_abs_self _).trans ((foldl_max_ge _ 0).2 _ (by simp))
    have h3 : (0:ℝ) < m := by exact_mod_cast (Fin.pos i)
    have h4 := hi.trans_le h2
    positivity
  have := hv j
  linarith

/-! ### eigh -/

variable {num : Numerics}

theorem eigh_gram {eigh : (m : ℕ) → (Fin m → Fin m → ℝ) → (Fin m → ℝ) × (Fin m → Fin m → ℝ)} (he : EighSpec eigh) {m : ℕ}
    {A : Fin m → Fin m → ℝ} (hA : ∀ i j, A i j = A j i) (j k : Fin m) :
    ∑ e, ∑ f, (eigh m A).2 e j * A e f * (eigh m A).2 f k = if j = k then (eigh m A).1 j else 0 := by
  obtain ⟨h1, h2⟩ := he m A hA
  set U := (eigh m A).2
  set v := (eigh m A).1
  have h3 : ∀ e, ∑ f, U e j * A e f * U f k = U e j * (v k * U e k) := by
    intro e
    have : ∀ f, U e j * A e f * U f k = ∑ a, U e j * (v a * U e a * (U f a * U f k)) := by
      intro f
      rw [h2, Finset.mul_sum, Finset.sum_mul]
      exact Finset.sum_congr rfl fun a _ => by ring
    simp_rw [this]
    rw [Finset.sum_comm]
    simp_rw [← Finset.mul_sum, h1]
    simp
  simp_rw [h3]
  have : ∀ e, U e j * (v k * U e k) = v k * (U e j * U e k) := fun e => by ring
  simp_rw [this]
  rw [← Finset.mul_sum, h1]
  by_cases hjk : j = k
  · rw [hjk]; simp
  · simp [hjk]

theorem lHat_symm (hL : L.PosSemidef) (D : Centers n) (e f : Fin D.items.length) : lHat L D e f = lHat L D f e := by
  unfold lHat
  rw [hL.symm' (D.idx e)]
  ring

theorem lHat_psd (hL : L.PosSemidef) (D : Centers n) : PosSemidef (lHat L D : Matrix _ _ ℝ) := by
  have h1 := (hL.submatrix D.idx).mul_mul_conjTranspose_same (diagonal fun e => 1 / Real.sqrt (D.probs e))
  refine cast (congrArg PosSemidef ?_) h1
  ext e f
  rw [diagonal_conjTranspose, mul_diagonal, diagonal_mul, submatrix_apply]
  simp only [lHat, star_trivial]
  ring

theorem nysOf_ok (hn : NumericsSpec num) (hL : L.PosSemidef) (D : Centers n) {keep : List (Fin D.items.length)}
    (hk : keep.Nodup) : NysOK L (nysOf num L D keep) where
  nonneg := by
    intro j
    exact (psd_eig (lHat_psd hL D) hn.eigh).2.1 _
  gram := by
    intro j k
    have h1 := eigh_gram hn.eigh (lHat_symm hL D) (keep.get j) (keep.get k)
    have h2 : (keep.get j = keep.get k) = (j = k) := propext (List.nodup_iff_injective_get.1 hk).eq_iff
    simp only [h2] at h1
    exact h1

/-- what the pre-computation for alpha-dpp returns -/
theorem alphaPrecompute_ok (hn : NumericsSpec num) (hL : L.PosSemidef) {D : Centers n} {size : Option (ℤ × ℝ × ℝ)}
    {pc : AlphaInfo n} (h : alphaPrecompute num L D size = .ok pc) :
    ∃ N a, pc = alphaInfoOf L N size a ∧ NysOK L N ∧ 0 < a ∧ a ≤ 1 ∧ (size = none → a = 1) ∧
      ∀ s, size = some s → nysDeff N a = s.1 := by
  unfold alphaPrecompute at h
  rcases stableFilter_cases num.eps (num.eigh _ (lHat L D)).1 with h1 | h1
  · rw [h1] at h; exact absurd h (by simp)
  · rw [h1] at h
    simp only at h
    split at h
    · exact absurd h (by simp)
    split at h
    · exact absurd h (by simp)
    have hN := nysOf_ok hn hL D (stableKeep_nodup num.eps (num.eigh _ (lHat L D)).1)
    cases size with
    | none =>
      simp only [Option.map_none, alphaHatOf, Outcome.ok.injEq] at h
      exact ⟨_, 1, h.symm, hN, one_pos, le_refl _, fun _ => rfl, by simp⟩
    | some s =>
      simp only [Option.map_some, alphaHatOf] at h
      split at h
      · exact absurd h (by simp)
      · rename_i a ha
        split at ha
        · exact absurd ha (by simp)
        · split at ha
          · rename_i x hx
            split at ha
            · exact absurd ha (by simp)
            · rename_i hx1
              simp only [Outcome.ok.injEq] at ha h
              subst ha
              obtain ⟨b1, -, b3⟩ := hn.brentq _ _ _ _ hx
              have := hn.eps
              refine ⟨_, x, h.symm, hN, by linarith, not_lt.1 hx1, by simp, ?_⟩
              intro s' hs'
              simp only [Option.some.injEq] at hs'
              subst hs'
              linarith
          · exact absurd ha (by simp)

/-! ### vfx -/

theorem dictMat_psd (hL : L.PosSemidef) (D : Centers n) : PosSemidef (dictMat L D : Matrix _ _ ℝ) := hL.submatrix D.idx

/-- orthonormal basis of the span of the dictionary -/
noncomputable def bQ (num : Numerics) (L R : Matrix (Fin n) (Fin n) ℝ) (D : Centers n)
    (keep : List (Fin D.items.length)) : Matrix (Fin n) (Fin keep.length) ℝ :=
  Matrix.of fun p a => 1 / Real.sqrt ((num.svd _ (dictMat L D)).2 (keep.get a)) *
    ∑ e, (num.svd _ (dictMat L D)).1 e (keep.get a) * R p (D.idx e)

theorem bBar_eq {R : Matrix (Fin n) (Fin n) ℝ} (hR : L = Rᵀ * R) (D : Centers n) (keep : List (Fin D.items.length)) :
    (bBar num L D keep : Matrix _ _ ℝ) = (bQ num L R D keep)ᵀ * R := by
  ext a i
  rw [mul_apply]
  simp only [transpose_apply, bQ, of_apply]
  unfold bBar
  simp only [mul_assoc, Finset.sum_mul]
  rw [← Finset.mul_sum]
  congr 1
  rw [Finset.sum_comm]
  refine Finset.sum_congr rfl fun e _ => ?_
  have h1 : L (D.idx e) i = ∑ p, R p (D.idx e) * R p i := by
    conv_lhs => rw [hR, mul_apply]
    rfl
  rw [h1, Finset.mul_sum]

theorem bQ_gram (hn : NumericsSpec num) (hL : L.PosSemidef) {R : Matrix (Fin n) (Fin n) ℝ} (hR : L = Rᵀ * R)
    {D : Centers n} {keep : List (Fin D.items.length)} (hk : keep.Nodup)
    (hpos : ∀ j ∈ keep, 0 < (num.svd _ (dictMat L D)).2 j) : (bQ num L R D keep)ᵀ * bQ num L R D keep = 1 := by
  have hpsd := dictMat_psd hL D
  have heig := fun e j => svd_eig hn.svd hpsd e j
  have horth := (hn.svd _ _ hpsd).2.1
  ext a b
  rw [mul_apply, one_apply]
  simp only [transpose_apply, bQ, of_apply]
  set S := (num.svd _ (dictMat L D)).2
  set U := (num.svd _ (dictMat L D)).1
  have h1 : ∀ p, 1 / Real.sqrt (S (keep.get a)) * (∑ e, U e (keep.get a) * R p (D.idx e)) *
      (1 / Real.sqrt (S (keep.get b)) * ∑ f, U f (keep.get b) * R p (D.idx f))
      = 1 / Real.sqrt (S (keep.get a)) * (1 / Real.sqrt (S (keep.get b))) *
        ∑ e, ∑ f, U e (keep.get a) * ((R p (D.idx e) * R p (D.idx f)) * U f (keep.get b)) := by
    intro p
    rw [mul_mul_mul_comm, Finset.sum_mul_sum]
    congr 1
    refine Finset.sum_congr rfl fun e _ => Finset.sum_congr rfl fun f _ => by ring
  simp_rw [h1]
  rw [← Finset.mul_sum, Finset.sum_comm]
  have h2 : ∀ e, ∑ p, ∑ f, U e (keep.get a) * ((R p (D.idx e) * R p (D.idx f)) * U f (keep.get b))
      = S (keep.get b) * (U e (keep.get a) * U e (keep.get b)) := by
    intro e
    rw [Finset.sum_comm]
    simp_rw [← Finset.mul_sum, ← Finset.sum_mul]
    have h3 : ∀ f, ∑ p, R p (D.idx e) * R p (D.idx f) = dictMat L D e f := by
      intro f
      unfold dictMat
      conv_rhs => rw [hR, mul_apply]
      rfl
    simp_rw [h3, heig]
    ring
  simp_rw [h2]
  rw [← Finset.mul_sum, horth]
  have h4 : (keep.get a = keep.get b) = (a = b) := propext (List.nodup_iff_injective_get.1 hk).eq_iff
  simp only [h4]
  by_cases hab : a = b
  · subst hab
    have h5 := hpos _ (List.get_mem keep a)
    have h6 := Real.mul_self_sqrt h5.le
    have h7 : 0 < Real.sqrt (S (keep.get a)) := Real.sqrt_pos.2 h5
    simp only [if_true, mul_one]
    rw [← h6]
    simp only [Real.sqrt_mul_self h7.le]
    field_simp
  · simp [hab]

section Embed
variable {m : ℕ} {B : Fin m → Fin n → ℝ} {Q : Matrix (Fin n) (Fin m) ℝ} {R : Matrix (Fin n) (Fin n) ℝ}

theorem iAmm_symm (B : Fin m → Fin n → ℝ) (a b : Fin m) : iAmm B a b = iAmm B b a := by
  unfold iAmm
  rw [show ∑ i, B a i * B b i = ∑ i, B b i * B a i from Finset.sum_congr rfl fun i _ => mul_comm _ _]
  simp only [eq_comm]

/-- eigenvalues of `A = B Bᵀ` -/
theorem eig_quad (hn : NumericsSpec num) (B : Fin m → Fin n → ℝ) (j k : Fin m) :
    ∑ i, (∑ a, (num.eigh m (iAmm B)).2 a j * B a i) * (∑ a, (num.eigh m (iAmm B)).2 a k * B a i)
      = if j = k then (num.eigh m (iAmm B)).1 j - 1 else 0 := by
  have h1 := eigh_gram hn.eigh (iAmm_symm B) j k
  have h2 := (hn.eigh m (iAmm B) (iAmm_symm B)).1 j k
  set V := (num.eigh m (iAmm B)).2
  set v := (num.eigh m (iAmm B)).1
  have h3 : ∑ e, ∑ f, V e j * iAmm B e f * V f k
      = (∑ i, (∑ a, V a j * B a i) * (∑ a, V a k * B a i)) + ∑ e, V e j * V e k := by
    have : ∀ e f, V e j * iAmm B e f * V f k = (∑ i, (V e j * B e i) * (V f k * B f i)) + if e = f then V e j * V f k else 0 := by
      intro e f
      unfold iAmm
      rw [mul_add, add_mul, Finset.mul_sum, Finset.sum_mul]
      congr 1
      · exact Finset.sum_congr rfl fun i _ => by ring
      · split <;> simp
    simp_rw [this, Finset.sum_add_distrib]
    congr 1
    · simp_rw [Finset.sum_mul_sum]
      rw [Finset.sum_comm' (t' := Finset.univ) (s' := fun _ => Finset.univ) (by simp)]
      rw [Finset.sum_comm]
      conv_rhs => rw [Finset.sum_comm]
      refine Finset.sum_congr rfl fun e _ => ?_
      rw [Finset.sum_comm]
    · simp
  rw [h3, h2] at h1
  by_cases hjk : j = k
  · simp only [hjk, if_true] at h1 ⊢; linarith
  · simp only [hjk, if_false] at h1 ⊢; linarith

theorem eig_ge (hn : NumericsSpec num) (B : Fin m → Fin n → ℝ) (j : Fin m) : 1 ≤ (num.eigh m (iAmm B)).1 j := by
  have := eig_quad hn B j j
  rw [if_pos rfl] at this
  have h2 : 0 ≤ ∑ i, (∑ a, (num.eigh m (iAmm B)).2 a j * B a i) * (∑ a, (num.eigh m (iAmm B)).2 a j * B a i) :=
    Finset.sum_nonneg fun i _ => mul_self_nonneg _
  linarith

/-- embedded eigenvectors -/
noncomputable def vfxG (num : Numerics) (B : Fin m → Fin n → ℝ) (Q : Matrix (Fin n) (Fin m) ℝ) : Matrix (Fin n) (Fin m) ℝ :=
  Matrix.of fun p j => Real.sqrt ((num.eigh m (iAmm B)).1 j - 1) * ∑ a, Q p a * (num.eigh m (iAmm B)).2 a j

theorem vfxG_gram (hn : NumericsSpec num) (hQ : Qᵀ * Q = 1) :
    (vfxG num B Q)ᵀ * vfxG num B Q = diagonal fun j => (num.eigh m (iAmm B)).1 j - 1 := by
  have hV := (hn.eigh m (iAmm B) (iAmm_symm B)).1
  have hge := eig_ge hn B
  set V := (num.eigh m (iAmm B)).2
  set v := (num.eigh m (iAmm B)).1
  have h1 : vfxG num B Q = Q * (Matrix.of V) * diagonal fun j => Real.sqrt (v j - 1) := by
    ext p j
    rw [mul_diagonal, mul_apply]
    simp only [vfxG, of_apply]
    exact mul_comm _ _
  have h2 : (Matrix.of V)ᵀ * (Matrix.of V) = 1 := by
    ext a b
    rw [mul_apply, one_apply]
    exact hV a b
  rw [h1, transpose_mul, transpose_mul, diagonal_transpose]
  have h3 : diagonal (fun j => Real.sqrt (v j - 1)) * ((Matrix.of V)ᵀ * Qᵀ) * (Q * Matrix.of V * diagonal fun j => Real.sqrt (v j - 1))
      = diagonal (fun j => Real.sqrt (v j - 1)) * ((Matrix.of V)ᵀ * (Qᵀ * Q) * Matrix.of V) * diagonal fun j => Real.sqrt (v j - 1) := by
    simp only [Matrix.mul_assoc]
  rw [h3, hQ, Matrix.mul_one, h2, Matrix.mul_one, diagonal_mul_diagonal]
  congr 1
  funext j
  exact Real.mul_self_sqrt (by linarith [hge j])

theorem sum_sq_rot (hn : NumericsSpec num) (B : Fin m → Fin n → ℝ) (i : Fin n) :
    ∑ a, B a i ^ 2 = ∑ j, (∑ a, (num.eigh m (iAmm B)).2 a j * B a i) ^ 2 := by
  have hV := (hn.eigh m (iAmm B) (iAmm_symm B)).1
  set V := (num.eigh m (iAmm B)).2
  have h2 : (Matrix.of V)ᵀ * (Matrix.of V) = 1 := by
    ext a b
    rw [mul_apply, one_apply]
    exact hV a b
  have h3 : (Matrix.of V) * (Matrix.of V)ᵀ = 1 := mul_eq_one_comm.1 h2
  have h4 : ∀ a b, ∑ j, V a j * V b j = if a = b then 1 else 0 := by
    intro a b
    have := congrFun (congrFun h3 a) b
    rw [mul_apply, one_apply] at this
    exact this
  symm
  calc ∑ j, (∑ a, V a j * B a i) ^ 2 = ∑ j, ∑ a, ∑ b, (V a j * V b j) * (B a i * B b i) := by
        refine Finset.sum_congr rfl fun j _ => ?_
        rw [sq, Finset.sum_mul_sum]
        refine Finset.sum_congr rfl fun a _ => Finset.sum_congr rfl fun b _ => by ring
    _ = ∑ a, ∑ b, (∑ j, V a j * V b j) * (B a i * B b i) := by
        rw [Finset.sum_comm]
        refine Finset.sum_congr rfl fun a _ => ?_
        rw [Finset.sum_comm]
        refine Finset.sum_congr rfl fun b _ => ?_
        rw [Finset.sum_mul]
    _ = _ := by
        simp_rw [h4]
        refine Finset.sum_congr rfl fun a _ => ?_
        simp [sq]

/-- the estimates computed by vfx are exactly `α φᵀ (1 + α G Gᵀ)⁻¹ φ` -/
theorem vfxRls_eq (hn : NumericsSpec num) (hR : L = Rᵀ * R) (hB : (B : Matrix _ _ ℝ) = Qᵀ * R) {α : ℝ} (hα : 0 < α)
    (i : Fin n) :
    vfxRls L B (num.eigh m (iAmm B)).2 (fun j => (num.eigh m (iAmm B)).1 j + (1 / α - 1)) (List.finRange m) α i
      = α * ((fun p => R p i) ⬝ᵥ (nysInv (vfxG num B Q) α (fun j => (num.eigh m (iAmm B)).1 j - 1) *ᵥ fun p => R p i)) := by
  rw [nysInv_quad]
  unfold vfxRls
  have hge := eig_ge hn B
  rw [sum_sq_rot hn B i, show (List.map (fun j => (1 / Real.sqrt ((num.eigh m (iAmm B)).1 j + (1 / α - 1)) *
      ∑ a, (num.eigh m (iAmm B)).2 a j * B a i) ^ 2) (List.finRange m)).sum = ∑ j, (1 / Real.sqrt ((num.eigh m (iAmm B)).1 j + (1 / α - 1)) *
      ∑ a, (num.eigh m (iAmm B)).2 a j * B a i) ^ 2 by rw [← List.ofFn_eq_map, List.sum_ofFn]]
  have h1 : L i i = (fun p => R p i) ⬝ᵥ (fun p => R p i) := by rw [hR, mul_apply]; rfl
  rw [h1, mul_sub, mul_comm _ α, sub_add]
  congr 1
  rw [mul_comm _ α, Finset.mul_sum, Finset.mul_sum, Finset.mul_sum, ← Finset.sum_sub_distrib]
  refine Finset.sum_congr rfl fun j _ => ?_
  have hB' : ∀ a i, B a i = ∑ p, Q p a * R p i := by
    intro a i
    have := congrFun (congrFun hB a) i
    rw [mul_apply] at this
    exact this
  have h2 : ∑ p, vfxG num B Q p j * R p i = Real.sqrt ((num.eigh m (iAmm B)).1 j - 1) *
      ∑ a, (num.eigh m (iAmm B)).2 a j * B a i := by
    simp only [vfxG, of_apply, mul_assoc]
    rw [← Finset.mul_sum]
    congr 1
    simp_rw [hB', Finset.sum_mul, Finset.mul_sum]
    rw [Finset.sum_comm]
    refine Finset.sum_congr rfl fun a _ => Finset.sum_congr rfl fun p _ => by ring
  have h3 : 0 < (num.eigh m (iAmm B)).1 j + (1 / α - 1) := by
    have := hge j
    have : 0 < 1 / α := by positivity
    linarith
  rw [h2, mul_pow, mul_pow, div_pow, one_pow, Real.sq_sqrt h3.le, Real.sq_sqrt (sub_nonneg.2 (hge j))]
  have h4 : (num.eigh m (iAmm B)).1 j + (1 / α - 1) = (α * ((num.eigh m (iAmm B)).1 j - 1) + 1) / α := by
    field_simp
    ring
  have h5 : 0 < α * ((num.eigh m (iAmm B)).1 j - 1) + 1 := by
    have := mul_nonneg hα.le (sub_nonneg.2 (hge j))
    linarith
  rw [h4]
  field_simp
  ring

end Embed

end Verif
