import Verif.Lemmas.ProjRefine
import Mathlib.LinearAlgebra.Matrix.NonsingularInverse
import Mathlib.LinearAlgebra.Matrix.ToLinearEquiv

/-! Mode 'KuTa12' has the law of the chain rule, for any correct QR routine. -/

set_option linter.unusedSectionVars false
set_option linter.unusedVariables false

namespace Verif.Spec

/-- Specification of an economic QR routine: on a matrix with linearly independent columns it returns
orthonormal columns from which the input is recovered by a square matrix. -/
def QRSpec {N : ℕ} (qr : (c : ℕ) → (Fin N → Fin c → ℝ) → (Fin N → Fin c → ℝ)) : Prop :=
  ∀ (c : ℕ) (M : Fin N → Fin c → ℝ), (∀ x : Fin c → ℝ, (∀ i, ∑ l, M i l * x l = 0) → x = 0) →
    (∀ k l, ∑ i, qr c M i k * qr c M i l = if k = l then 1 else 0) ∧
    ∃ U : Fin c → Fin c → ℝ, ∀ i l, M i l = ∑ k, qr c M i k * U k l

end Verif.Spec

namespace Verif.Model
open Spec Matrix
variable {N : ℕ}

theorem proj_zero_of_trace {D : Matrix (Fin N) (Fin N) ℝ} (h : IsProjection D) (ht : D.trace = 0) :
    D = 0 := by
  have hd : ∀ i, D i i = 0 := by
    have h1 : ∑ i, D i i = 0 := ht
    intro i
    exact (Finset.sum_eq_zero_iff_of_nonneg (fun i _ => by simpa using h.diag_nonneg i)).1 h1 i
      (Finset.mem_univ i)
  ext i k
  exact h.row_zero (hd i) k

/-- `V V^T` is a projection of trace the number of columns -/
theorem orthonormal_proj {c : ℕ} {V : Matrix (Fin N) (Fin c) ℝ} (hV : Vᵀ * V = 1) :
    IsProjection (V * Vᵀ) ∧ (V * Vᵀ).trace = c := by
  refine ⟨⟨?_, ?_⟩, ?_⟩
  · rw [conjTranspose_eq_transpose_of_trivial, transpose_mul, transpose_transpose]
  · calc V * Vᵀ * (V * Vᵀ) = V * (Vᵀ * V) * Vᵀ := by simp only [Matrix.mul_assoc]
      _ = V * Vᵀ := by rw [hV, Matrix.mul_one]
  · rw [trace_mul_comm, hV, trace_one]; simp

/-- the change of basis of the KuTa12 update -/
noncomputable def kutaT {c : ℕ} (V : Matrix (Fin N) (Fin (c+1)) ℝ) (j : Fin N) (k : Fin (c+1)) :
    Matrix (Fin (c+1)) (Fin c) ℝ :=
  Matrix.of fun m l => (if m = k.succAbove l then 1 else 0)
    - (if m = k then V j (k.succAbove l) / V j k else 0)

theorem kutaDelete_eq {c : ℕ} (V : Matrix (Fin N) (Fin (c+1)) ℝ) (j : Fin N) (k : Fin (c+1)) :
    (Matrix.of (kutaDelete V j k) : Matrix (Fin N) (Fin c) ℝ) = V * kutaT V j k := by
  ext i l
  rw [Matrix.mul_apply]
  simp only [kutaT, Matrix.of_apply, mul_sub, Finset.sum_sub_distrib, mul_ite, mul_one, mul_zero,
    Finset.sum_ite_eq', Finset.mem_univ, if_true, kutaDelete]
  ring

theorem kutaDelete_inj {c : ℕ} (V : Matrix (Fin N) (Fin (c+1)) ℝ) (hV : Vᵀ * V = 1) (j : Fin N)
    (k : Fin (c+1)) (x : Fin c → ℝ) (hx : ∀ i, ∑ l, kutaDelete V j k i l * x l = 0) : x = 0 := by
  have h1 : (V * kutaT V j k) *ᵥ x = 0 := by
    rw [← kutaDelete_eq]
    ext i
    exact hx i
  have h2 : kutaT V j k *ᵥ x = 0 := by
    have := congrArg (fun z => Vᵀ *ᵥ z) h1
    simp only [mulVec_mulVec, mulVec_zero] at this
    rw [← Matrix.mul_assoc, hV, Matrix.one_mul] at this
    exact this
  ext l
  have h3 := congrFun h2 (k.succAbove l)
  simp only [mulVec, dotProduct, kutaT, Matrix.of_apply, Fin.succAbove_ne, if_false, sub_zero,
    Pi.zero_apply] at h3
  simpa [Fin.succAbove_right_inj] using h3

/-- the update conditions the residual on `j` -/
theorem kuta_step {c : ℕ} (V : Matrix (Fin N) (Fin (c+1)) ℝ) (hV : Vᵀ * V = 1) (j : Fin N)
    (k : Fin (c+1)) (hk : V j k ≠ 0) (Q : Matrix (Fin N) (Fin c) ℝ) (hQ : Qᵀ * Q = 1)
    (U : Matrix (Fin c) (Fin c) ℝ)
    (hW : (Matrix.of (kutaDelete V j k) : Matrix (Fin N) (Fin c) ℝ) = Q * U) :
    Q * Qᵀ = elim (V * Vᵀ) j := by
  obtain ⟨hP, htr⟩ := orthonormal_proj hV
  obtain ⟨hPQ, htrQ⟩ := orthonormal_proj hQ
  set W : Matrix (Fin N) (Fin c) ℝ := Matrix.of (kutaDelete V j k) with hWdef
  have hjj : (V * Vᵀ) j j ≠ 0 := by
    rw [Matrix.mul_apply]
    intro hc
    have h1 := (Finset.sum_eq_zero_iff_of_nonneg (fun l _ => by
      rw [Matrix.transpose_apply]; exact mul_self_nonneg _)).1 hc k (Finset.mem_univ k)
    rw [Matrix.transpose_apply] at h1
    exact hk (mul_self_eq_zero.1 h1)
  have hWj : ∀ l, W j l = 0 := by
    intro l
    simp only [hWdef, Matrix.of_apply, kutaDelete]
    field_simp
    ring
  have hVW : V * Vᵀ * W = W := by
    rw [hWdef, kutaDelete_eq]
    calc V * Vᵀ * (V * kutaT V j k) = V * (Vᵀ * V) * kutaT V j k := by simp only [Matrix.mul_assoc]
      _ = V * kutaT V j k := by rw [hV, Matrix.mul_one]
  have hEW : elim (V * Vᵀ) j * W = W := by
    ext i l
    rw [Matrix.mul_apply]
    have h1 : ∀ i, ∑ m, (V * Vᵀ) i m * W m l = W i l := by
      intro i
      have := congrFun (congrFun hVW i) l
      rwa [Matrix.mul_apply] at this
    have h2 : ∀ m, elim (V * Vᵀ) j i m * W m l
        = (V * Vᵀ) i m * W m l - (V * Vᵀ) i j / (V * Vᵀ) j j * ((V * Vᵀ) j m * W m l) := by
      intro m; rw [elim_apply]; ring
    simp only [h2, Finset.sum_sub_distrib, ← Finset.mul_sum, h1, hWj, mul_zero, sub_zero]
  -- U is invertible
  have hU : Function.Injective U.mulVec := by
    intro x y hxy
    have h1 : ∀ i, ∑ l, kutaDelete V j k i l * (x - y) l = 0 := by
      intro i
      have h3 : W *ᵥ (x - y) = 0 := by
        have hxy' : U *ᵥ x = U *ᵥ y := hxy
        rw [hW, ← mulVec_mulVec, mulVec_sub, hxy', sub_self, mulVec_zero]
      exact congrFun h3 i
    exact sub_eq_zero.1 (kutaDelete_inj V hV j k _ h1)
  have hUu : IsUnit U := Matrix.mulVec_injective_iff_isUnit.1 hU
  obtain ⟨U', hU'⟩ : ∃ U', U * U' = 1 := hUu.exists_right_inv
  have hQW : Q = W * U' := by
    rw [hW, Matrix.mul_assoc, hU', Matrix.mul_one]
  have hEQ : elim (V * Vᵀ) j * Q = Q := by
    rw [hQW, ← Matrix.mul_assoc, hEW]
  have hE := hP.elim j
  have hsymE : (elim (V * Vᵀ) j)ᵀ = elim (V * Vᵀ) j := by
    have := hE.1
    rwa [conjTranspose_eq_transpose_of_trivial] at this
  have hsymQ : (Q * Qᵀ)ᵀ = Q * Qᵀ := by rw [transpose_mul, transpose_transpose]
  have h1 : elim (V * Vᵀ) j * (Q * Qᵀ) = Q * Qᵀ := by rw [← Matrix.mul_assoc, hEQ]
  have h2 : (Q * Qᵀ) * elim (V * Vᵀ) j = Q * Qᵀ := by
    have := congrArg Matrix.transpose h1
    rwa [transpose_mul, hsymE, hsymQ] at this
  have hD : IsProjection (elim (V * Vᵀ) j - Q * Qᵀ) := by
    constructor
    · rw [conjTranspose_eq_transpose_of_trivial, transpose_sub, hsymE, hsymQ]
    · rw [Matrix.sub_mul, Matrix.mul_sub, Matrix.mul_sub, hE.2, h1, h2, hPQ.2, sub_self, sub_zero]
  have hDt : (elim (V * Vᵀ) j - Q * Qᵀ).trace = 0 := by
    rw [trace_sub, trace_elim hP hjj, htr, htrQ]; push_cast; ring
  exact (sub_eq_zero.1 (proj_zero_of_trace hD hDt)).symm

theorem availList_true : availList (fun _ : Fin N => true) = List.finRange N := by
  simp [availList]

theorem kutaLoop_zero (qr : QR N) (rank it c : ℕ) (V : Fin N → Fin c → ℝ) :
    kutaLoop qr rank 0 it c V = Dist.ret (.ok []) := by
  unfold kutaLoop; rfl

theorem kutaLoop_succ (qr : QR N) (rank m it c : ℕ) (V : Fin N → Fin (c+1) → ℝ) :
    kutaLoop qr rank (m+1) it (c+1) V =
    (Dist.npChoice (List.finRange N) fun i =>
        |∑ k, V i k ^ 2| / ((rank : ℝ) - it)).andThen fun j =>
      if m = 0 then Dist.ret (.ok [j])
      else match (List.finRange (c + 1)).find? fun k => decide (V j k ≠ 0) with
        | none => Dist.ret Outcome.indexError
        | some k =>
          (kutaLoop qr rank m (it + 1) c (qr c (kutaDelete V j k))).map (Outcome.map (j :: ·)) := by
  conv_lhs => unfold kutaLoop
  rfl

theorem kutaLoop_E (qr : QR N) (hqr : QRSpec qr) (rank m it c : ℕ) (avail : Fin N → Bool)
    (V : Matrix (Fin N) (Fin c) ℝ) (hV : Vᵀ * V = 1)
    (h : ChainInv (rank : ℤ) it avail (V * Vᵀ) c) (hm : m ≤ c) (f : Outcome (List (Fin N)) → ℝ) :
    (kutaLoop qr rank m it c V).E f = (projChain (rank : ℤ) m it avail (V * Vᵀ)).E f := by
  induction m generalizing it c avail f with
  | zero => rw [projChain]; exact congrArg (Dist.E · f) (kutaLoop_zero qr rank it c V)
  | succ m ih =>
    obtain ⟨c', rfl⟩ : ∃ c', c = c' + 1 := ⟨c - 1, by omega⟩
    refine (congrArg (Dist.E · f) (kutaLoop_succ qr rank m it c' V)).trans ?_
    rw [projChain]
    have hAi : ∀ i, ∑ k, V i k ^ 2 = (V * Vᵀ) i i := by
      intro i; rw [Matrix.mul_apply]
      exact Finset.sum_congr rfl (fun k _ => by rw [Matrix.transpose_apply]; ring)
    have hwt : ∀ i, |∑ k, V i k ^ 2| / ((rank : ℝ) - it)
        = |RCLike.re ((V * Vᵀ) i i)| / (((rank : ℤ) : ℝ) - it) := by
      intro i; rw [hAi]; simp
    have htrue : ChainInv (rank : ℤ) it (fun _ => true) (V * Vᵀ) (c'+1) :=
      ⟨h.proj, by simp, h.tr, h.rk⟩
    have hval : Dist.Valid (List.finRange N)
        (fun i => |∑ k, V i k ^ 2| / ((rank : ℝ) - it)) := by
      have := htrue.valid (by omega)
      rw [availList_true] at this
      simpa only [hwt] using this
    rw [Dist.E_npChoice_andThen hval, Dist.E_npChoice_andThen (h.valid (by omega)), sum_availList]
    · refine (Fin.sum_univ_def _).symm.trans ?_
      apply Finset.sum_congr rfl
      intro j _
      rw [hwt]
      by_cases hw : |RCLike.re ((V * Vᵀ) j j)| / (((rank : ℤ) : ℝ) - it) = 0
      · rw [hw, zero_mul, zero_mul]
      · congr 1
        have hjj : (V * Vᵀ) j j ≠ 0 := re_ne_of_weight h hw
        by_cases hm0 : m = 0
        · subst hm0
          simp [projChain, Dist.E_map, Outcome.map]
        · rw [if_neg hm0]
          have hex : ∃ k, V j k ≠ 0 := by
            by_contra hc
            push Not at hc
            apply hjj
            rw [Matrix.mul_apply]
            exact Finset.sum_eq_zero (fun k _ => by rw [hc k, zero_mul])
          obtain ⟨k, hk⟩ : ∃ k, (List.finRange (c' + 1)).find? (fun k => decide (V j k ≠ 0)) = some k := by
            rw [← Option.isSome_iff_exists, List.find?_isSome]
            obtain ⟨k, hk⟩ := hex
            exact ⟨k, List.mem_finRange k, by simpa using hk⟩
          have hk' : V j k ≠ 0 := by simpa using List.find?_some hk
          simp only [hk]
          rw [Dist.E_map, Dist.E_map]
          obtain ⟨hQ, U, hU⟩ := hqr c' (kutaDelete V j k) (kutaDelete_inj V hV j k)
          set Q : Matrix (Fin N) (Fin c') ℝ := Matrix.of (qr c' (kutaDelete V j k)) with hQdef
          have hQ' : Qᵀ * Q = 1 := by
            ext a b
            rw [Matrix.mul_apply, Matrix.one_apply, ← hQ a b]
            rfl
          have hstep : Q * Qᵀ = elim (V * Vᵀ) j :=
            kuta_step V hV j k hk' Q hQ' (Matrix.of U) (by
              ext i l
              rw [Matrix.mul_apply]
              exact hU i l)
          have hinv := h.step hjj
          rw [← hstep] at hinv ⊢
          exact ih (it+1) c' _ Q hQ' hinv (by omega) _
    · intro i hi
      rw [h.supp i hi]; simp

end Verif.Model
