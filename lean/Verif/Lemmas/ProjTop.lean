import Verif.Lemmas.KutaRefine
import Verif.Lemmas.CholRefine

/-!
Top level: every projection sampler has the law of `projChain`.
-/

set_option linter.unusedSectionVars false

namespace Verif.Model
open Verif Verif.Spec Matrix

variable {N r : ℕ}

section
variable {𝕜 : Type*} [RCLike 𝕜]

theorem rintTrace_eq {K : Matrix (Fin N) (Fin N) 𝕜} (h : K.trace = (r : 𝕜)) :
    rintTrace K = (r : ℤ) := by
  have : RCLike.re K.trace = ((r : ℕ) : ℝ) := by rw [h]; simp
  rw [rintTrace, this, round_natCast]

theorem chainInv_init {K : Matrix (Fin N) (Fin N) 𝕜} (hK : IsProjection K) (h : K.trace = (r : 𝕜)) :
    ChainInv (r : ℤ) 0 (fun _ => true) K r :=
  ⟨hK, by simp, h, by simp⟩

end

theorem gsLoop_nonneg (K : Matrix (Fin N) (Fin N) ℝ) (rank : ℤ) (m it : ℕ) (st : GSState N) :
    Dist.Nonneg (gsLoop K rank m it st) := by
  induction m generalizing it st with
  | zero => rw [gsLoop]; exact Dist.Nonneg.ret _
  | succ m ih =>
    rw [gsLoop]
    refine Dist.andThen_nonneg (Dist.npChoice_nonneg _ _) (fun a => ?_)
    split
    · exact Dist.Nonneg.ret _
    · exact Dist.Nonneg.map (ih _ _)

theorem schurLoop_nonneg (K : Matrix (Fin N) (Fin N) ℝ) (rank : ℤ) (m it : ℕ) (st : SchurState N) :
    Dist.Nonneg (schurLoop K rank m it st) := by
  induction m generalizing it st with
  | zero => rw [schurLoop]; exact Dist.Nonneg.ret _
  | succ m ih =>
    rw [schurLoop]
    refine Dist.andThen_nonneg (Dist.npChoice_nonneg _ _) (fun a => ?_)
    split
    · exact Dist.Nonneg.ret _
    · exact Dist.Nonneg.map (ih _ _)

theorem gsBisLoop_nonneg (m it : ℕ) (st : GSBisState N r) :
    Dist.Nonneg (gsBisLoop m it st) := by
  induction m generalizing it st with
  | zero => rw [gsBisLoop]; exact Dist.Nonneg.ret _
  | succ m ih =>
    rw [gsBisLoop]
    refine Dist.andThen_nonneg (Dist.npChoice_nonneg _ _) (fun a => ?_)
    split
    · exact Dist.Nonneg.ret _
    · exact Dist.Nonneg.map (ih _ _)

theorem eigGsLoop_nonneg (V : Fin N → Fin r → ℝ) (m it : ℕ) (st : GSState N) :
    Dist.Nonneg (eigGsLoop V m it st) := by
  induction m generalizing it st with
  | zero => rw [eigGsLoop]; exact Dist.Nonneg.ret _
  | succ m ih =>
    rw [eigGsLoop]
    refine Dist.andThen_nonneg (Dist.npChoice_nonneg _ _) (fun a => ?_)
    split
    · exact Dist.Nonneg.ret _
    · exact Dist.Nonneg.map (ih _ _)

theorem cholLoop_nonneg {𝕜 : Type*} [RCLike 𝕜] (rank : ℤ) (m it : ℕ) (st : CholState N 𝕜) :
    Dist.Nonneg (cholLoop rank m it st) := by
  induction m generalizing it st with
  | zero => rw [cholLoop]; exact Dist.Nonneg.ret _
  | succ m ih =>
    rw [cholLoop]
    refine Dist.andThen_nonneg (Dist.npChoice_nonneg _ _) (fun a => ?_)
    split
    · dsimp only
      split
      · exact Dist.Nonneg.ret _
      · exact ih _ _
    · exact Dist.Nonneg.ret _

theorem kutaLoop_nonneg (qr : QR N) (rank m it c : ℕ) (V : Fin N → Fin c → ℝ) :
    Dist.Nonneg (kutaLoop qr rank m it c V) := by
  induction m generalizing it c with
  | zero => rw [kutaLoop_zero]; exact Dist.Nonneg.ret _
  | succ m ih =>
    cases c with
    | zero =>
      unfold kutaLoop
      refine Dist.andThen_nonneg (Dist.npChoice_nonneg _ _) (fun a => ?_)
      split <;> exact Dist.Nonneg.ret _
    | succ c =>
      rw [kutaLoop_succ]
      refine Dist.andThen_nonneg (Dist.npChoice_nonneg _ _) (fun a => ?_)
      split
      · exact Dist.Nonneg.ret _
      · split
        · exact Dist.Nonneg.ret _
        · exact Dist.Nonneg.map (ih _ _ _)

theorem gs_lawEq {K : Matrix (Fin N) (Fin N) ℝ} (hK : IsProjection K) (h : K.trace = (r : ℝ))
    (size : Option ℕ) (hs : size.getD r ≤ r) :
    Dist.LawEq (projDppSamplerKernelGS K size)
      (projChain (r : ℤ) (size.getD r) 0 (fun _ => true) K) := by
  intro f
  unfold projDppSamplerKernelGS
  rw [rintTrace_eq h, Int.toNat_natCast]
  exact gsLoop_E K r _ 0 r _ K (chainInv_init hK h) hs (by simp) (by simp) f

theorem schur_lawEq {K : Matrix (Fin N) (Fin N) ℝ} (hK : IsProjection K) (h : K.trace = (r : ℝ))
    (size : Option ℕ) (hs : size.getD r ≤ r) :
    Dist.LawEq (projDppSamplerKernelSchur K size)
      (projChain (r : ℤ) (size.getD r) 0 (fun _ => true) K) := by
  intro f
  unfold projDppSamplerKernelSchur
  rw [rintTrace_eq h, Int.toNat_natCast]
  exact schurLoop_E K (fun i k => by rw [← hK.herm k i]; simp) r _ 0 r _ K (chainInv_init hK h) hs rfl
    (by simp) (by simp) (by simp [schurQ]) (by simp) f

theorem cholInv_init {𝕜 : Type*} [RCLike 𝕜] (K : Matrix (Fin N) (Fin N) 𝕜) :
    CholInv K 0 { A := K, d := fun i => RCLike.re (K i i), orig := id } (fun _ => true) K where
  inj := Function.injective_id
  av := by simp
  low := by simp
  res := by simp
  diag := by simp
  fac := by simp

theorem chol_lawEq {𝕜 : Type*} [RCLike 𝕜] {K : Matrix (Fin N) (Fin N) 𝕜} (hK : IsProjection K)
    (h : K.trace = (r : 𝕜)) (size : Option ℕ) (hs : size.getD r ≤ r) :
    Dist.LawEq ((projDppSamplerKernelChol K size).map (Outcome.map Prod.fst))
      (projChain (r : ℤ) (size.getD r) 0 (fun _ => true) K) := by
  intro f
  unfold projDppSamplerKernelChol
  rw [rintTrace_eq h, Int.toNat_natCast, Dist.E_map]
  rw [cholLoop_E K hK.herm r _ 0 r _ _ K (chainInv_init hK h) hs (cholInv_init K) f]
  congr 1
  funext o
  cases o <;> simp [Outcome.map]

/-- all three modes -/
theorem kernel_lawEq {K : Matrix (Fin N) (Fin N) ℝ} (hK : IsProjection K) (h : K.trace = (r : ℝ))
    (size : Option ℕ) (hs : size.getD r ≤ r) (mode : String)
    (hmode : mode = "GS" ∨ mode = "Chol" ∨ mode = "Schur") :
    Dist.LawEq (projDppSamplerKernel K mode size)
      (projChain (r : ℤ) (size.getD r) 0 (fun _ => true) K) := by
  unfold projDppSamplerKernel
  rw [if_neg]
  · rcases hmode with rfl | rfl | rfl
    · rw [if_pos rfl]; exact gs_lawEq hK h size hs
    · rw [if_neg (by decide), if_pos rfl]; exact chol_lawEq hK h size hs
    · rw [if_neg (by decide), if_neg (by decide), if_pos rfl]; exact schur_lawEq hK h size hs
  · rintro ⟨k, rfl, _, hk⟩
    rw [rintTrace_eq h] at hk
    simp only [Option.getD_some] at hs
    omega

theorem kernel_nonneg (K : Matrix (Fin N) (Fin N) ℝ) (size : Option ℕ) (mode : String) :
    Dist.Nonneg (projDppSamplerKernel K mode size) := by
  unfold projDppSamplerKernel
  split
  · exact Dist.Nonneg.ret _
  split
  · exact gsLoop_nonneg _ _ _ _ _
  split
  · exact Dist.Nonneg.map (cholLoop_nonneg _ _ _ _)
  split
  · exact schurLoop_nonneg _ _ _ _ _
  · exact Dist.Nonneg.ret _

/-! ### eigenvectors -/

theorem isProjection_of_orthonormal {V : Matrix (Fin N) (Fin r) ℝ} (hV : Vᵀ * V = 1) :
    IsProjection (V * Vᵀ) := by
  constructor
  · rw [conjTranspose_eq_transpose_of_trivial, transpose_mul, transpose_transpose]
  · calc V * Vᵀ * (V * Vᵀ) = V * (Vᵀ * V) * Vᵀ := by simp only [Matrix.mul_assoc]
      _ = V * Vᵀ := by rw [hV, Matrix.mul_one]

theorem trace_of_orthonormal {V : Matrix (Fin N) (Fin r) ℝ} (hV : Vᵀ * V = 1) :
    (V * Vᵀ).trace = (r : ℝ) := by
  rw [trace_mul_comm, hV, trace_one, Fintype.card_fin]

theorem eig_gs_lawEq {V : Matrix (Fin N) (Fin r) ℝ} (hV : Vᵀ * V = 1) (size : Option ℕ)
    (hs : size.getD r ≤ r) :
    Dist.LawEq (projDppSamplerEigGS V size)
      (projChain (r : ℤ) (size.getD r) 0 (fun _ => true) (V * Vᵀ)) := by
  intro f
  unfold projDppSamplerEigGS
  have hA : ∀ i j, (V * Vᵀ) i j = ∑ k, V i k * V j k := by
    intro i j; rw [Matrix.mul_apply]; rfl
  refine (congrArg (Dist.E · f) (eigGsLoop_eq V (V * Vᵀ) hA _ _ _)).trans ?_
  refine gsLoop_E (V * Vᵀ) r _ 0 r _ (V * Vᵀ)
    (chainInv_init (isProjection_of_orthonormal hV) (trace_of_orthonormal hV)) hs (by simp) ?_ f
  intro i _
  rw [hA]
  show ∑ k, V i k ^ 2 = _
  exact Finset.sum_congr rfl (fun k _ => by ring)

theorem eig_gsBis_lawEq {V : Matrix (Fin N) (Fin r) ℝ} (hV : Vᵀ * V = 1) (size : Option ℕ)
    (hs : size.getD r ≤ r) :
    Dist.LawEq (projDppSamplerEigGSBis V size)
      (projChain (r : ℤ) (size.getD r) 0 (fun _ => true) (V * Vᵀ)) := by
  intro f
  unfold projDppSamplerEigGSBis
  have hA : ∀ i j, (V * Vᵀ) i j = ∑ k, V i k * V j k := by
    intro i j; rw [Matrix.mul_apply]; rfl
  refine gsBisLoop_E (V * Vᵀ) _ 0 r _ (V * Vᵀ)
    (chainInv_init (isProjection_of_orthonormal hV) (trace_of_orthonormal hV)) hs rfl
    (fun i k _ _ => (hA i k).symm) (by simp) (by simp) ?_ f
  intro i _
  rw [hA]
  show ∑ k, V i k ^ 2 = _
  exact Finset.sum_congr rfl (fun k _ => by ring)

theorem eig_kuta_lawEq {qr : QR N} (hqr : QRSpec qr) {V : Matrix (Fin N) (Fin r) ℝ} (hV : Vᵀ * V = 1)
    (size : Option ℕ) (hs : size.getD r ≤ r) :
    Dist.LawEq (projDppSamplerEigKuTa12 qr V size)
      (projChain (r : ℤ) (size.getD r) 0 (fun _ => true) (V * Vᵀ)) := by
  intro f
  unfold projDppSamplerEigKuTa12
  exact kutaLoop_E qr hqr r _ 0 r _ V hV
    (chainInv_init (isProjection_of_orthonormal hV) (trace_of_orthonormal hV)) hs f

theorem eig_lawEq {qr : QR N} (hqr : QRSpec qr) {V : Matrix (Fin N) (Fin r) ℝ} (hV : Vᵀ * V = 1)
    (size : Option ℕ) (hs : size.getD r ≤ r) (mode : String)
    (hmode : mode = "GS" ∨ mode = "GS_bis" ∨ mode = "KuTa12") :
    Dist.LawEq (projDppSamplerEig qr V mode size)
      (projChain (r : ℤ) (size.getD r) 0 (fun _ => true) (V * Vᵀ)) := by
  unfold projDppSamplerEig
  by_cases hr : r = 0
  · rw [if_neg (by simpa using hr)]
    have : size.getD r = 0 := by omega
    rw [this, projChain]
    exact fun f => rfl
  rw [if_pos hr]
  rcases hmode with rfl | rfl | rfl
  · rw [if_pos rfl]; exact eig_gs_lawEq hV size hs
  · rw [if_neg (by decide), if_pos rfl]; exact eig_gsBis_lawEq hV size hs
  · rw [if_neg (by decide), if_neg (by decide), if_pos rfl]; exact eig_kuta_lawEq hqr hV size hs

theorem eig_nonneg (qr : QR N) (V : Fin N → Fin r → ℝ) (size : Option ℕ) (mode : String) :
    Dist.Nonneg (projDppSamplerEig qr V mode size) := by
  unfold projDppSamplerEig
  split
  · split
    · exact eigGsLoop_nonneg _ _ _ _
    split
    · exact gsBisLoop_nonneg _ _ _
    split
    · exact kutaLoop_nonneg _ _ _ _ _ _
    · exact Dist.Nonneg.ret _
  · exact Dist.Nonneg.ret _

end Verif.Model
