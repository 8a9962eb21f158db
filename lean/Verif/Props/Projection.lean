import Verif.Lemmas.ProjTop
import Mathlib.Analysis.InnerProductSpace.PiL2
import Mathlib.Tactic.FinCases

/-!
# Property theorems: samplers of projection DPPs
-/

set_option linter.unusedSectionVars false

namespace Verif.Props
open Verif Verif.Model Verif.Spec Matrix

variable {N r : ℕ}

/-! ## Concrete kernels used to show that the hypotheses are met -/

/-- `I - J/3`: orthogonal projection of rank 2 in dimension 3 -/
noncomputable def K32 : Matrix (Fin 3) (Fin 3) ℝ := !![2/3, -1/3, -1/3; -1/3, 2/3, -1/3; -1/3, -1/3, 2/3]

theorem K32_proj : IsProjection K32 := by
  constructor
  · ext i j; fin_cases i <;> fin_cases j <;> simp [K32]
  · ext i j
    fin_cases i <;> fin_cases j <;> simp [K32, Matrix.mul_apply, Fin.sum_univ_three] <;> norm_num

theorem K32_trace : K32.trace = ((2 : ℕ) : ℝ) := by
  simp [K32, Matrix.trace, Fin.sum_univ_three]; norm_num

/-- two orthonormal columns in dimension 3 -/
noncomputable def V32 : Matrix (Fin 3) (Fin 2) ℝ := !![3/5, 0; 4/5, 0; 0, 1]

theorem V32_orth : V32ᵀ * V32 = 1 := by
  ext i j
  fin_cases i <;> fin_cases j <;> simp [V32, Matrix.mul_apply, Fin.sum_univ_three] <;> norm_num

/-- a complex Hermitian projection of rank 1 -/
noncomputable def KC : Matrix (Fin 2) (Fin 2) ℂ := !![1/2, -Complex.I/2; Complex.I/2, 1/2]

theorem KC_proj : IsProjection KC := by
  constructor
  · ext i j; fin_cases i <;> fin_cases j <;> simp [KC, neg_div]
  · ext i j
    fin_cases i <;> fin_cases j <;> simp [KC, Matrix.mul_apply, Fin.sum_univ_two] <;> ring_nf <;>
      simp <;> norm_num

theorem KC_trace : KC.trace = ((1 : ℕ) : ℂ) := by
  simp [KC, Matrix.trace, Fin.sum_univ_two]; norm_num

/-- economic QR routines in the sense of `QRSpec` exist in every dimension -/
theorem exists_QRSpec (N : ℕ) : ∃ qr : QR N, QRSpec qr := by
  classical
  have key : ∀ (c : ℕ) (M : Fin N → Fin c → ℝ), ∃ Q : Fin N → Fin c → ℝ,
      (∀ x : Fin c → ℝ, (∀ i, ∑ l, M i l * x l = 0) → x = 0) →
      (∀ k l, ∑ i, Q i k * Q i l = if k = l then 1 else 0) ∧
      ∃ U : Fin c → Fin c → ℝ, ∀ i l, M i l = ∑ k, Q i k * U k l := by
    intro c M
    by_cases hM : ∀ x : Fin c → ℝ, (∀ i, ∑ l, M i l * x l = 0) → x = 0
    · let v : Fin c → EuclideanSpace ℝ (Fin N) := fun l => WithLp.toLp 2 (fun i => M i l)
      have hv : LinearIndependent ℝ v := by
        rw [Fintype.linearIndependent_iff]
        intro g hg
        have : g = 0 := hM g (fun i => by
          have := congrArg (fun w : EuclideanSpace ℝ (Fin N) => w i) hg
          simpa [v, mul_comm] using this)
        simp [this]
      have hfr : Module.finrank ℝ (Submodule.span ℝ (Set.range v)) = c := by
        rw [finrank_span_eq_card hv, Fintype.card_fin]
      let b := (stdOrthonormalBasis ℝ (Submodule.span ℝ (Set.range v))).reindex (finCongr hfr)
      refine ⟨fun i k => (b k : EuclideanSpace ℝ (Fin N)) i, fun _ => ⟨?_, ?_⟩⟩
      · intro k l
        have h1 := (orthonormal_iff_ite.1 b.orthonormal) l k
        rw [Submodule.coe_inner, PiLp.inner_apply] at h1
        simp only [RCLike.inner_apply, conj_trivial] at h1
        rw [h1]
        simp only [eq_comm]
      · let w : Fin c → Submodule.span ℝ (Set.range v) := fun l =>
          ⟨v l, Submodule.subset_span ⟨l, rfl⟩⟩
        refine ⟨fun k l => b.repr (w l) k, fun i l => ?_⟩
        have h2 := congrArg (fun z : Submodule.span ℝ (Set.range v) =>
          (z : EuclideanSpace ℝ (Fin N)) i) (b.sum_repr (w l))
        simp only [Submodule.coe_sum, Submodule.coe_smul] at h2
        have h3 : (w l : EuclideanSpace ℝ (Fin N)) i = M i l := rfl
        rw [h3] at h2
        rw [← h2]
        simp [mul_comm]
    · exact ⟨fun _ _ => 0, fun h => absurd h hM⟩
  choose qr hqr using key
  exact ⟨qr, hqr⟩

/-! ## C20 -/

/-- C20: on an orthogonal projection of rank (trace) `r`, whatever the mode and for every requested
size at most `r` (default `r`), every outcome of positive probability of the sampler is a list of
exactly `size` distinct items.  No error is possible: in particular every vector of probabilities
passed to the random choice is accepted by numpy (non-negative, summing to one). -/
theorem C20_proj_kernel_outcome (K : Matrix (Fin N) (Fin N) ℝ) (hK : IsProjection K)
    (h : K.trace = (r : ℝ)) (size : Option ℕ) (hs : size.getD r ≤ r) (mode : String)
    (hmode : mode = "GS" ∨ mode = "Chol" ∨ mode = "Schur")
    (o : Outcome (List (Fin N))) (ho : (projDppSamplerKernel K mode size).Possible o) :
    ∃ l, o = .ok l ∧ l.length = size.getD r ∧ l.Nodup := by
  have h1 := (kernel_lawEq hK h size hs mode hmode).possible (kernel_nonneg K size mode) ho
  obtain ⟨l, h2, h3, h4, _⟩ :=
    projChain_possible (r : ℤ) _ 0 r _ K (chainInv_init hK h) hs o h1
  exact ⟨l, h2, h3, h4⟩

/-- C20: same statement for the samplers that take orthonormal eigenvectors. -/
theorem C20_proj_eig_outcome (qr : QR N) (hqr : QRSpec qr) (V : Matrix (Fin N) (Fin r) ℝ)
    (hV : Vᵀ * V = 1) (size : Option ℕ) (hs : size.getD r ≤ r) (mode : String)
    (hmode : mode = "GS" ∨ mode = "GS_bis" ∨ mode = "KuTa12")
    (o : Outcome (List (Fin N))) (ho : (projDppSamplerEig qr V mode size).Possible o) :
    ∃ l, o = .ok l ∧ l.length = size.getD r ∧ l.Nodup := by
  have h1 := (eig_lawEq hqr hV size hs mode hmode).possible (eig_nonneg qr V size mode) ho
  obtain ⟨l, h2, h3, h4, _⟩ := projChain_possible (r : ℤ) _ 0 r _ (V * Vᵀ)
    (chainInv_init (isProjection_of_orthonormal hV) (trace_of_orthonormal hV)) hs o h1
  exact ⟨l, h2, h3, h4⟩

example : ∀ o, (projDppSamplerKernel K32 "Schur" (some 2)).Possible o →
    ∃ l, o = .ok l ∧ l.length = 2 ∧ l.Nodup :=
  C20_proj_kernel_outcome K32 K32_proj K32_trace (some 2) (by decide) "Schur" (by simp)

example : ∃ qr : QR 3, ∀ o, (projDppSamplerEig qr V32 "KuTa12" none).Possible o →
    ∃ l, o = .ok l ∧ l.length = 2 ∧ l.Nodup := by
  obtain ⟨qr, hqr⟩ := exists_QRSpec 3
  exact ⟨qr, C20_proj_eig_outcome qr hqr V32 V32_orth none (by decide) "KuTa12" (by simp)⟩

/-! ## C21 -/

/-- C21: the set returned is `S` with probability `det K_S / C(r, k)` for every `S` with `k = size`
elements; with the default size `k = r` this is the projection DPP, `det K_S`. -/
theorem C21_proj_kernel_law (K : Matrix (Fin N) (Fin N) ℝ) (hK : IsProjection K)
    (h : K.trace = (r : ℝ)) (size : Option ℕ) (hs : size.getD r ≤ r) (mode : String)
    (hmode : mode = "GS" ∨ mode = "Chol" ∨ mode = "Schur")
    (S : Finset (Fin N)) (hS : S.card = size.getD r) :
    (projDppSamplerKernel K mode size).prob (fun o => ∃ l, o = .ok l ∧ l.toFinset = S)
      = minor K S / (r.choose (size.getD r) : ℝ) := by
  rw [(kernel_lawEq hK h size hs mode hmode).prob,
    projChain_prob_set (r : ℤ) _ 0 r _ K (chainInv_init hK h) hs S hS]
  rfl

/-- C21: default size, `P(X = S) = det K_S` for `|S| = r`. -/
theorem C21_proj_kernel_dpp (K : Matrix (Fin N) (Fin N) ℝ) (hK : IsProjection K)
    (h : K.trace = (r : ℝ)) (mode : String)
    (hmode : mode = "GS" ∨ mode = "Chol" ∨ mode = "Schur")
    (S : Finset (Fin N)) (hS : S.card = r) :
    (projDppSamplerKernel K mode none).prob (fun o => ∃ l, o = .ok l ∧ l.toFinset = S)
      = minor K S := by
  rw [C21_proj_kernel_law K hK h none le_rfl mode hmode S hS]
  simp

/-- C21: the order of the list carries no information: every ordering `l` of a `k`-set has the same
probability `det K_S (r-k)!/r!`. -/
theorem C21_proj_kernel_ordered (K : Matrix (Fin N) (Fin N) ℝ) (hK : IsProjection K)
    (h : K.trace = (r : ℝ)) (size : Option ℕ) (hs : size.getD r ≤ r) (mode : String)
    (hmode : mode = "GS" ∨ mode = "Chol" ∨ mode = "Schur")
    (l : List (Fin N)) (hl : l.length = size.getD r) (hn : l.Nodup) :
    (projDppSamplerKernel K mode size).prob (· = .ok l)
      = minor K l.toFinset * ((r - size.getD r).factorial / r.factorial : ℝ) := by
  rw [(kernel_lawEq hK h size hs mode hmode).prob,
    projChain_prob_list (r : ℤ) _ 0 r _ K (chainInv_init hK h) hs l hl hn]
  rfl

/-- C62: mode `Chol` also samples the projection DPP of a complex Hermitian projection. -/
theorem C62_chol_complex_law (K : Matrix (Fin N) (Fin N) ℂ) (hK : IsProjection K)
    (h : K.trace = (r : ℂ)) (size : Option ℕ) (hs : size.getD r ≤ r)
    (S : Finset (Fin N)) (hS : S.card = size.getD r) :
    (((projDppSamplerKernelChol K size).prob
        (fun o => ∃ l A, o = .ok (l, A) ∧ l.toFinset = S) : ℝ) : ℂ)
      = minor K S / (r.choose (size.getD r) : ℂ) := by
  classical
  have h1 : (projDppSamplerKernelChol K size).prob
        (fun o => ∃ l A, o = .ok (l, A) ∧ l.toFinset = S)
      = ((projDppSamplerKernelChol K size).map (Outcome.map Prod.fst)).prob
        (fun o => ∃ l, o = .ok l ∧ l.toFinset = S) := by
    rw [Dist.prob_eq, Dist.prob_eq, Dist.E_map]
    congr 1
    funext o
    cases o with
    | ok a => obtain ⟨l, A⟩ := a; simp [Outcome.map]
    | raise e => simp [Outcome.map]
  rw [h1, (chol_lawEq hK h size hs).prob,
    projChain_prob_set (r : ℤ) _ 0 r _ K (chainInv_init hK h) hs S hS]
  push_cast
  congr 1
  exact (minor_proj_re hK S).2

example : (projDppSamplerKernel K32 "Chol" none).prob
    (fun o => ∃ l, o = .ok l ∧ l.toFinset = {0, 1}) = minor K32 {0, 1} :=
  C21_proj_kernel_dpp K32 K32_proj K32_trace "Chol" (by simp) _ (by decide)

example : (((projDppSamplerKernelChol KC none).prob
        (fun o => ∃ l A, o = .ok (l, A) ∧ l.toFinset = {1}) : ℝ) : ℂ)
      = minor KC {1} / ((1 : ℕ).choose 1 : ℂ) :=
  C62_chol_complex_law KC KC_proj KC_trace none le_rfl {1} (by decide)

/-! ## C22, C23 -/

/-- C22: the three kernel modes are the same random program up to the law of their outcome: every
functional of the outcome has the same expectation. -/
theorem C22_kernel_modes_same_law (K : Matrix (Fin N) (Fin N) ℝ) (hK : IsProjection K)
    (h : K.trace = (r : ℝ)) (size : Option ℕ) (hs : size.getD r ≤ r) (mode mode' : String)
    (hmode : mode = "GS" ∨ mode = "Chol" ∨ mode = "Schur")
    (hmode' : mode' = "GS" ∨ mode' = "Chol" ∨ mode' = "Schur")
    (f : Outcome (List (Fin N)) → ℝ) :
    (projDppSamplerKernel K mode size).E f = (projDppSamplerKernel K mode' size).E f := by
  rw [kernel_lawEq hK h size hs mode hmode f, kernel_lawEq hK h size hs mode' hmode' f]

/-- C22: conditional probabilities.  Given that the first items drawn are `y` (an event of positive
probability), item `i` comes next with probability `det K_{Y+i} / det K_Y / (r - |Y|)`; stated without
division on the probabilities of the lists `y` (with `size = |Y|`) and `y ++ [i]` (`size = |Y|+1`). -/
theorem C22_conditionals (K : Matrix (Fin N) (Fin N) ℝ) (hK : IsProjection K)
    (h : K.trace = (r : ℝ)) (y : List (Fin N)) (i : Fin N) (hn : (y ++ [i]).Nodup)
    (hy : y.length < r) (mode : String)
    (hmode : mode = "GS" ∨ mode = "Chol" ∨ mode = "Schur") :
    (projDppSamplerKernel K mode (some (y.length + 1))).prob (· = .ok (y ++ [i]))
        * (minor K y.toFinset * ((r : ℝ) - y.length))
      = (projDppSamplerKernel K mode (some y.length)).prob (· = .ok y)
        * minor K (insert i y.toFinset) := by
  rw [C21_proj_kernel_ordered K hK h (some (y.length + 1)) hy mode hmode (y ++ [i]) (by simp) hn,
    C21_proj_kernel_ordered K hK h (some y.length) hy.le mode hmode y rfl
      (List.Nodup.of_append_left hn)]
  have e1 : (y ++ [i]).toFinset = insert i y.toFinset := by
    ext x; simp [or_comm]
  have e2 : ((r - y.length).factorial : ℝ) = ((r : ℝ) - y.length) * (r - (y.length + 1)).factorial := by
    obtain ⟨d, hd⟩ : ∃ d, r = y.length + 1 + d := ⟨r - (y.length + 1), by omega⟩
    have h3 : r - y.length = d + 1 := by omega
    have h4 : r - (y.length + 1) = d := by omega
    rw [h3, h4, Nat.factorial_succ]
    have h5 : (r : ℝ) = y.length + 1 + d := by rw [hd]; push_cast; ring
    rw [h5]; push_cast; ring
  rw [e1]
  simp only [Option.getD_some]
  rw [e2]
  ring

/-- C23: with orthonormal eigenvectors `V`, the modes `GS`, `GS_bis` and `KuTa12` (given a correct
economic QR routine) have the same law as any mode of the kernel sampler run on `V Vᵀ`. -/
theorem C23_eig_modes_same_law (qr : QR N) (hqr : QRSpec qr) (V : Matrix (Fin N) (Fin r) ℝ)
    (hV : Vᵀ * V = 1) (size : Option ℕ) (hs : size.getD r ≤ r) (mode mode' : String)
    (hmode : mode = "GS" ∨ mode = "GS_bis" ∨ mode = "KuTa12")
    (hmode' : mode' = "GS" ∨ mode' = "Chol" ∨ mode' = "Schur")
    (f : Outcome (List (Fin N)) → ℝ) :
    (projDppSamplerEig qr V mode size).E f = (projDppSamplerKernel (V * Vᵀ) mode' size).E f := by
  rw [eig_lawEq hqr hV size hs mode hmode f,
    kernel_lawEq (isProjection_of_orthonormal hV) (trace_of_orthonormal hV) size hs mode' hmode' f]

/-- C23: law of the set drawn from eigenvectors. -/
theorem C23_eig_law (qr : QR N) (hqr : QRSpec qr) (V : Matrix (Fin N) (Fin r) ℝ)
    (hV : Vᵀ * V = 1) (size : Option ℕ) (hs : size.getD r ≤ r) (mode : String)
    (hmode : mode = "GS" ∨ mode = "GS_bis" ∨ mode = "KuTa12")
    (S : Finset (Fin N)) (hS : S.card = size.getD r) :
    (projDppSamplerEig qr V mode size).prob (fun o => ∃ l, o = .ok l ∧ l.toFinset = S)
      = minor (V * Vᵀ) S / (r.choose (size.getD r) : ℝ) := by
  rw [(eig_lawEq hqr hV size hs mode hmode).prob,
    projChain_prob_set (r : ℤ) _ 0 r _ _
      (chainInv_init (isProjection_of_orthonormal hV) (trace_of_orthonormal hV)) hs S hS]
  rfl

example : ∃ qr : QR 3, (projDppSamplerEig qr V32 "GS_bis" none).prob
    (fun o => ∃ l, o = .ok l ∧ l.toFinset = {0, 2}) = minor (V32 * V32ᵀ) {0, 2} / (1 : ℕ) := by
  obtain ⟨qr, hqr⟩ := exists_QRSpec 3
  exact ⟨qr, C23_eig_law qr hqr V32 V32_orth none (by decide) "GS_bis" (by simp) _ (by decide)⟩

/-! ## C25 -/

/-- C25: `proj_dpp_sampler_kernel` on a projection of rank `r`: it can raise exactly when `size` is
larger than the rank or the mode is not a supported one, and what it raises is `ValueError`. -/
theorem C25_kernel_validation (K : Matrix (Fin N) (Fin N) ℝ) (hK : IsProjection K)
    (h : K.trace = (r : ℝ)) (size : Option ℕ) (mode : String) (e : PyErr) :
    (projDppSamplerKernel K mode size).Possible (.raise e) ↔
      e = .valueError ∧ (r < size.getD r ∨ ¬ (mode = "GS" ∨ mode = "Chol" ∨ mode = "Schur")) := by
  by_cases hs : size.getD r ≤ r
  · have hneg : ¬ ∃ k : ℕ, size = some k ∧ k ≠ 0 ∧ (k : ℤ) > rintTrace K := by
      rintro ⟨k, rfl, _, hk⟩
      rw [rintTrace_eq h] at hk
      simp only [Option.getD_some] at hs
      omega
    by_cases hmode : mode = "GS" ∨ mode = "Chol" ∨ mode = "Schur"
    · constructor
      · intro ho
        obtain ⟨l, h1, _⟩ := C20_proj_kernel_outcome K hK h size hs mode hmode _ ho
        cases h1
      · rintro ⟨_, h1 | h1⟩
        · omega
        · exact absurd hmode h1
    · have hm := hmode
      push Not at hm
      unfold projDppSamplerKernel
      rw [if_neg hneg, if_neg hm.1, if_neg hm.2.1, if_neg hm.2.2, Dist.Possible.ret_iff]
      constructor
      · intro he; cases he; exact ⟨rfl, Or.inr hmode⟩
      · rintro ⟨rfl, _⟩; rfl
  · have hpos : ∃ k : ℕ, size = some k ∧ k ≠ 0 ∧ (k : ℤ) > rintTrace K := by
      cases size with
      | none => simp at hs
      | some k =>
        simp only [Option.getD_some] at hs
        refine ⟨k, rfl, by omega, ?_⟩
        rw [rintTrace_eq h]; omega
    unfold projDppSamplerKernel
    rw [if_pos hpos, Dist.Possible.ret_iff]
    constructor
    · intro he; cases he; exact ⟨rfl, Or.inl (by omega)⟩
    · rintro ⟨rfl, _⟩; rfl

/-- C25: `proj_dpp_sampler_eig` with orthonormal eigenvectors (at least one) and `size ≤ r`: it can
raise exactly for an unsupported mode, and then raises `ValueError`. -/
theorem C25_eig_validation (qr : QR N) (hqr : QRSpec qr) (V : Matrix (Fin N) (Fin r) ℝ)
    (hV : Vᵀ * V = 1) (size : Option ℕ) (hs : size.getD r ≤ r) (hr : r ≠ 0) (mode : String)
    (e : PyErr) :
    (projDppSamplerEig qr V mode size).Possible (.raise e) ↔
      e = .valueError ∧ ¬ (mode = "GS" ∨ mode = "GS_bis" ∨ mode = "KuTa12") := by
  by_cases hmode : mode = "GS" ∨ mode = "GS_bis" ∨ mode = "KuTa12"
  · constructor
    · intro ho
      obtain ⟨l, h1, _⟩ := C20_proj_eig_outcome qr hqr V hV size hs mode hmode _ ho
      cases h1
    · rintro ⟨_, h1⟩; exact absurd hmode h1
  · have hm := hmode
    push Not at hm
    unfold projDppSamplerEig
    rw [if_pos hr, if_neg hm.1, if_neg hm.2.1, if_neg hm.2.2, Dist.Possible.ret_iff]
    constructor
    · intro he; cases he; exact ⟨rfl, hmode⟩
    · rintro ⟨rfl, _⟩; rfl

/-- C25 (finding): with no selected eigenvector every mode, valid or not, and every size return the
empty sample: an invalid mode is silently accepted whenever the first phase selects nothing. -/
theorem C25_eig_no_validation_when_empty (qr : QR N) (V : Fin N → Fin 0 → ℝ) (mode : String)
    (size : Option ℕ) : projDppSamplerEig qr V mode size = Dist.ret (.ok []) := by
  unfold projDppSamplerEig; simp

/-- C25 (finding): unlike the kernel version, the eigenvector version has no explicit check
`size > rank`: with one eigenvector `V = [1]`, `N = 1`, and `size = 2` the error comes from the random
choice over an empty set. -/
theorem C25_eig_size_too_large :
    projDppSamplerEigGS (fun (_ : Fin 1) (_ : Fin 1) => (1 : ℝ)) (some 2)
      = [(Outcome.valueError, 1)] := by
  have e1 : availList (fun _ : Fin 1 => true) = [0] := by decide
  have e2 : availList (Function.update (fun _ : Fin 1 => true) 0 false) = [] := by decide
  unfold projDppSamplerEigGS
  simp only [Option.getD_some]
  rw [eigGsLoop]
  simp only [e1]
  rw [Dist.npChoice_of_valid (by simp [Dist.Valid])]
  simp only [Dist.andThen, Dist.bind, List.map_cons, List.map_nil, List.flatMap_cons,
    List.flatMap_nil, one_ne_zero, if_false, List.append_nil]
  rw [eigGsLoop]
  simp only [eigGsUpdate, e2]
  rw [show Dist.npChoice ([] : List (Fin 1)) _ = Dist.ret Outcome.valueError from
    if_neg (fun h => h.1 rfl)]
  simp [Dist.ret, Dist.andThen, Dist.bind, Dist.map, Outcome.map]

example : (projDppSamplerKernel K32 "GS" (some 3)).Possible Outcome.valueError :=
  (C25_kernel_validation K32 K32_proj K32_trace (some 3) "GS" .valueError).2 ⟨rfl, Or.inl (by decide)⟩

example : (projDppSamplerKernel K32 "gs" (some 2)).Possible Outcome.valueError :=
  (C25_kernel_validation K32 K32_proj K32_trace (some 2) "gs" .valueError).2
    ⟨rfl, Or.inr (by decide)⟩

/-! ## C61 -/

/-- C61: mode `Chol` (complex Hermitian or real symmetric projections) also returns the Cholesky
factorisation of `K` restricted to the sample: with `L` the lower triangle of the returned block,
`L Lᴴ = K_X` where rows and columns of `K_X` follow the order of the returned list. -/
theorem C61_chol_factor {𝕜 : Type*} [RCLike 𝕜] (K : Matrix (Fin N) (Fin N) 𝕜) (hK : IsProjection K)
    (h : K.trace = (r : 𝕜)) (size : Option ℕ) (hs : size.getD r ≤ r)
    (o : Outcome (List (Fin N) × Matrix (Fin N) (Fin N) 𝕜))
    (ho : (projDppSamplerKernelChol K size).Possible o) :
    ∃ l A, o = .ok (l, A) ∧ l.length = size.getD r ∧ l.Nodup ∧
      ∀ (a b : Fin N) (ha : a.val < l.length) (hb : b.val < l.length),
        ∑ s : Fin N, (if s ≤ a then A a s else 0) * star (if s ≤ b then A b s else 0)
          = K l[a.val] l[b.val] := by
  have h0 : (((projDppSamplerKernelChol K size).map (Outcome.map Prod.fst))).Possible
      (o.map Prod.fst) := by
    obtain ⟨w, hw, hw0⟩ := ho
    exact ⟨w, List.mem_map.2 ⟨_, hw, rfl⟩, hw0⟩
  have h1 := (chol_lawEq hK h size hs).possible (Dist.Nonneg.map (cholLoop_nonneg _ _ _ _)) h0
  obtain ⟨l, h2, h3, h4, _⟩ :=
    projChain_possible (r : ℤ) _ 0 r _ K (chainInv_init hK h) hs _ h1
  unfold projDppSamplerKernelChol at ho
  rw [rintTrace_eq h, Int.toNat_natCast] at ho
  obtain ⟨orig, A, ha, hb, hc⟩ := cholLoop_possible K hK.herm r _ 0 r _ _ K (chainInv_init hK h) hs
    (cholInv_init K) o ho
  rw [zero_add] at hb hc
  subst hb
  simp only [Outcome.map, Outcome.ok.injEq] at h2
  subst h2
  refine ⟨_, A, rfl, h3, h4, ?_⟩
  intro a b ha hb
  have e : ∀ (c : Fin N) (hc : c.val < (((List.finRange N).take (size.getD r)).map orig).length),
      (((List.finRange N).take (size.getD r)).map orig)[c.val] = orig c := by
    intro c hc; simp
  rw [e a ha, e b hb]
  rw [h3] at ha hb
  have key : ∀ a b : Fin N, a.val < size.getD r → b ≤ a →
      ∑ s : Fin N, (if s ≤ a then A a s else 0) * star (if s ≤ b then A b s else 0)
        = K (orig a) (orig b) := by
    intro a b ha hba
    rw [hc a b ha hba, Finset.sum_filter]
    apply Finset.sum_congr rfl
    intro s _
    by_cases hsb : s ≤ b
    · rw [if_pos hsb, if_pos hsb, if_pos (hsb.trans hba)]
    · rw [if_neg hsb, if_neg hsb]; simp
  rcases le_total b a with hba | hab
  · exact key a b ha hba
  · rw [← hK.herm (orig b) (orig a), ← key b a hb hab, star_sum]
    apply Finset.sum_congr rfl
    intro s _
    rw [star_mul, star_star]

example : ∀ o, (projDppSamplerKernelChol KC none).Possible o →
    ∃ l A, o = .ok (l, A) ∧ l.length = 1 ∧ l.Nodup ∧
      ∀ (a b : Fin 2) (ha : a.val < l.length) (hb : b.val < l.length),
        ∑ s : Fin 2, (if s ≤ a then A a s else 0) * star (if s ≤ b then A b s else 0)
          = KC l[a.val] l[b.val] :=
  fun o ho => C61_chol_factor KC KC_proj KC_trace none le_rfl o ho

end Verif.Props
