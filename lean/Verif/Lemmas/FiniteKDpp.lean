import Verif.Lemmas.FiniteLaw

/-!
Law of `sample_exact_k_dpp` on coherent objects.
-/

set_option linter.unusedSectionVars false

namespace Verif.Model
open Verif Verif.Spec Verif.Props Matrix Relation

variable {N : ℕ} {Info : Type} {env : Env N Info}

theorem trace_ker {M : ℕ} {U : Fin N → Fin M → ℝ} {v : Fin M → ℝ} (h : OrthOn U v) :
    (ker U v).trace = ∑ a, v a := by
  have e : (ker U v).trace = ∑ i, ∑ a, v a * U i a * U i a := rfl
  rw [e, Finset.sum_comm]
  apply Finset.sum_congr rfl
  intro a _
  by_cases ha : v a = 0
  · simp [ha]
  · have := h a a ha ha
    rw [if_pos rfl] at this
    simp only [mul_assoc]
    rw [← Finset.mul_sum, this, mul_one]

theorem ones_card {E : EigVecs N} {v : ℕ → ℝ} (hE : EigOK E v)
    (h : ∀ a : Fin E.M, v a.val = 0 ∨ v a.val = 1) : (kerOf E v).trace = ((ones E v).card : ℝ) := by
  rw [kerOf, trace_ker hE.orth, ones, Finset.card_eq_sum_ones, Finset.sum_filter]
  push_cast
  apply Finset.sum_congr rfl
  intro a _
  rcases h a with h1 | h1 <;> simp [h1]

/-- elementary symmetric polynomial of a vector of zeros and ones -/
theorem esp_ones {M : ℕ} (v : Fin M → ℝ) (h : ∀ a, v a = 0 ∨ v a = 1) (k : ℕ) :
    ∑ J ∈ (Finset.univ : Finset (Fin M)).powersetCard k, ∏ a ∈ J, v a
      = ((Finset.univ.filter (fun a => v a = 1)).card.choose k : ℝ) := by
  classical
  rw [← Finset.card_powersetCard, Finset.card_eq_sum_ones,
    ← Finset.sum_subset (Finset.powersetCard_mono
      (Finset.filter_subset (fun a => v a = 1) (Finset.univ : Finset (Fin M))))]
  · push_cast
    apply Finset.sum_congr rfl
    intro J hJ
    rw [Finset.mem_powersetCard] at hJ
    apply Finset.prod_eq_one
    intro a ha
    exact (Finset.mem_filter.1 (hJ.1 ha)).2
  · intro J hJ hJ2
    rw [Finset.mem_powersetCard] at hJ hJ2
    have : ∃ a ∈ J, v a ≠ 1 := by
      by_contra hc
      push Not at hc
      exact hJ2 ⟨fun a ha => Finset.mem_filter.2 ⟨Finset.mem_univ _, hc a ha⟩, hJ.2⟩
    obtain ⟨a, ha, h1⟩ := this
    exact Finset.prod_eq_zero ha ((h a).resolve_right h1)

theorem sum_minor_ones {E : EigVecs N} {v : ℕ → ℝ} (hE : EigOK E v)
    (h : ∀ a : Fin E.M, v a.val = 0 ∨ v a.val = 1) (k : ℕ) :
    ∑ S ∈ (Finset.univ : Finset (Fin N)).powersetCard k, minor (kerOf E v) S
      = ((ones E v).card.choose k : ℝ) := by
  rw [sum_minor_eq_esp E.u _ hE.orth k, esp_ones _ h k]
  rfl

variable (hqr : QRSpec env.qr) (heigh : EighSpec env.eigh)

include heigh in
theorem sum_minor_proj {P : Mat N} (hP : IsProjection P) {r : ℕ} (ht : P.trace = (r : ℝ)) (k : ℕ) :
    ∑ S ∈ (Finset.univ : Finset (Fin N)).powersetCard k, minor P S = (r.choose k : ℝ) := by
  have hs : ∀ i j, P i j = P j i := fun i j => by
    have := congrFun (congrFun hP.1 i) j
    simpa [Matrix.conjTranspose_apply] using this.symm
  obtain ⟨h1, h2⟩ := heigh N P hs
  set E : EigVecs N := { M := N, u := (env.eigh N P).2, bad := fun _ => false } with hEd
  have hE : EigOK E (vecNat (env.eigh N P).1) := ⟨orth_orthOn h1 _, fun a ha => by simp [E] at ha⟩
  have hk : kerOf E (vecNat (env.eigh N P).1) = P := by
    ext i j; refine Eq.trans ?_ (h2 i j).symm
    simp only [ker, Matrix.of_apply, vecNat_val, E]
  have h01 : ∀ a : Fin E.M, vecNat (env.eigh N P).1 a.val = 0 ∨ vecNat (env.eigh N P).1 a.val = 1 :=
    eigval_idem hE.orth (by rw [show ker E.u _ = P from hk]; exact hP.2)
  have h3 := sum_minor_ones hE h01 k
  have h4 := ones_card hE h01
  rw [hk] at h3 h4
  rw [ht] at h4
  rw [h3]
  have : r = (ones E (vecNat (env.eigh N P).1)).card := by exact_mod_cast h4
  rw [this]

/-- from the law on sets of size `k` and the size of the sample -/
theorem good_of_card {d : Dist ℝ (Outcome (List (Fin N)))} {P : Finset (Fin N) → ℝ} {k : ℕ}
    (h0 : ∀ S, S.card ≠ k → P S = 0)
    (h1 : ∀ S : Finset (Fin N), S.card = k → d.prob (fun o => ∃ l, o = .ok l ∧ l.toFinset = S) = P S)
    (h2 : ∀ o, d.Possible o → ∃ l, o = .ok l ∧ l.length = k ∧ l.Nodup) : GoodLaw d P := by
  classical
  refine ⟨fun S => ?_, fun o ho => ?_⟩
  · by_cases hS : S.card = k
    · exact h1 S hS
    · rw [h0 S hS, Dist.prob_eq]
      refine (Dist.E_congr_possible (g := fun _ => 0) ?_).trans (Dist.E_zero _)
      intro o ho
      obtain ⟨l, h3, h4, h5⟩ := h2 o ho
      rw [if_neg]
      rintro ⟨l', h6, rfl⟩
      rw [h3] at h6
      cases h6
      exact hS (by rw [List.toFinset_card_of_nodup h5, h4])
  · obtain ⟨l, h3, _, h5⟩ := h2 o ho
    exact ⟨l, h3, h5⟩

theorem kDppProb_card {L : Mat N} {k : ℕ} (S : Finset (Fin N)) (h : S.card ≠ k) : kDppProb L k S = 0 :=
  if_neg h

include heigh in
/-- projection kernels from the matrix, subset of prescribed size -/
theorem good_kernel_size {P : Mat N} (hP : IsProjection P) {r k : ℕ} (ht : P.trace = (r : ℝ))
    (hk : k ≤ r) (mode : String) (hmode : mode = "GS" ∨ mode = "Chol" ∨ mode = "Schur") :
    GoodLaw (projKernel (.num P) mode (some k)) (kDppProb P k) := by
  apply good_of_card (k := k) kDppProb_card
  · intro S hS
    rw [kDppProb, if_pos hS, sum_minor_proj heigh hP ht]
    exact C21_proj_kernel_law P hP ht (some k) hk mode hmode S hS
  · exact C20_proj_kernel_outcome P hP ht (some k) hk mode hmode

include hqr in
/-- projection kernels from eigenvectors, subset of prescribed size -/
theorem good_proj_size {E : EigVecs N} {v : ℕ → ℝ} (h : EigOK E v)
    (h01 : ∀ a : Fin E.M, v a.val = 0 ∨ v a.val = 1) {k : ℕ} (hk : k ≤ (ones E v).card) (mode : String)
    (hmode : mode = "GS" ∨ mode = "GS_bis" ∨ mode = "KuTa12") :
    GoodLaw (projEig env E (aboveHalf v E.M) mode (some k)) (kDppProb (kerOf E v) k) := by
  rw [aboveHalf_eq h01, projEig_eq (ones_bad h)]
  have hl : (sl ((ones E v).map Fin.valEmbedding)).length = (ones E v).card := by
    rw [sl, Finset.length_sort, Finset.card_map]
  apply good_of_card (k := k) kDppProb_card
  · intro S hS
    have h1 := C23_eig_law env.qr hqr (Matrix.of (cols E.u (sl ((ones E v).map Fin.valEmbedding))))
      (cols_orth _ (ones_orth h)) (some k) (by rw [Option.getD_some, hl]; exact hk) mode hmode S hS
    rw [kDppProb, if_pos hS, sum_minor_ones h h01, ← hl]
    refine h1.trans ?_
    rw [← ones_ker h01, ← cols_ker]
    rfl
  · exact C20_proj_eig_outcome env.qr hqr (Matrix.of (cols E.u (sl ((ones E v).map Fin.valEmbedding))))
      (cols_orth _ (ones_orth h)) (some k) (by rw [Option.getD_some, hl]; exact hk) mode hmode

theorem kSelLoop_congr {v w : ℕ → ℝ} (T : Table ℝ) (n : ℕ) (h : ∀ i < n, v i = w i) (k : ℕ)
    (ind : List ℕ) : kSelLoop v T n k ind = kSelLoop w T n k ind := by
  induction n generalizing k ind with
  | zero => rfl
  | succ n ih =>
    rw [kSelLoop, kSelLoop, h n (by omega)]
    have ih' := fun k ind => ih (fun i hi => h i (by omega)) k ind
    simp only [ih']

theorem kSelector_congr {v w : ℕ → ℝ} (T : Table ℝ) (n : ℕ) (h : ∀ i < n, v i = w i) (tol : ℝ) (k : ℕ) :
    kDppEigVecsSelector n v tol k (some T) = kDppEigVecsSelector n w tol k (some T) := by
  have e : (List.range n).filter (fun i => decide (v i > tol))
      = (List.range n).filter (fun i => decide (w i > tol)) := by
    apply List.filter_congr
    intro i hi
    rw [h i (List.mem_range.1 hi)]
  rw [kDppEigVecsSelector, kDppEigVecsSelector, e, Option.getD_some, Option.getD_some,
    kSelLoop_congr T n h]

/-- number of eigenvalues above the tolerance -/
noncomputable def rankOf (E : EigVecs N) (v : ℕ → ℝ) (tol : ℝ) : ℕ :=
  (Finset.univ.filter fun a : Fin E.M => tol < v a.val).card

theorem rankOf_eq (E : EigVecs N) (v : ℕ → ℝ) (tol : ℝ) :
    ((List.range E.M).filter fun i => decide (v i > tol)).length = rankOf E v tol := by
  have h := rankAbove_eq (fun a : Fin E.M => v a.val) tol
  rw [rankOf, ← h, rankAbove]
  congr 1
  apply List.filter_congr
  intro i hi
  rw [vecNat, dif_pos (List.mem_range.1 hi)]

/-- the table has the elementary symmetric polynomials up to `k` -/
def Covers (T : Table ℝ) (M : ℕ) (v : ℕ → ℝ) (k : ℕ) : Prop :=
  ∀ k' ≤ k, ∀ n ≤ M, T k' n = some (∑ J ∈ (Finset.range n).powersetCard k', ∏ j ∈ J, v j)

theorem covers_esp (M : ℕ) (v : ℕ → ℝ) {k s : ℕ} (h : k ≤ s) :
    Covers (elementarySymmetricPolynomials M v s) M v k := by
  intro k' hk n hn
  rw [C14_elementary_symmetric_polynomials, if_pos ⟨hk.trans h, hn⟩]

include hqr in
theorem good_kselect {E : EigVecs N} {v : ℕ → ℝ} (h : EigOK E v) (h0 : ∀ a : Fin E.M, 0 ≤ v a.val)
    {k : ℕ} (hk : 1 ≤ k) {tol : ℝ} (htol : 0 ≤ tol) (hr : k ≤ rankOf E v tol) {T : Table ℝ}
    (hT : Covers T E.M v k) (mode : String)
    (hmode : mode = "GS" ∨ mode = "GS_bis" ∨ mode = "KuTa12") :
    GoodLaw ((kDppEigVecsSelector E.M v tol k (some T)).andThen fun l => projEig env E l mode none)
      (kDppProb (kerOf E v) k) := by
  classical
  have hvn : ∀ i < E.M, v i = vecNat (fun a : Fin E.M => v a.val) i := fun i hi => by
    rw [vecNat, dif_pos hi]
  have hTv : ∀ T', some T = some T' → ∀ k' ≤ k, ∀ n ≤ E.M, T' k' n
      = some (∑ J ∈ (Finset.range n).powersetCard k', ∏ j ∈ J, vecNat (fun a : Fin E.M => v a.val) j) := by
    intro T' hT' k' hk' n hn
    cases hT'
    rw [hT k' hk' n hn]
    congr 1
    apply Finset.sum_congr rfl
    intro J hJ
    apply Finset.prod_congr rfl
    intro j hj
    have := Finset.mem_range.1 ((Finset.mem_powersetCard.1 hJ).1 hj)
    exact hvn j (by omega)
  have hne : ∀ l, (kDppEigVecsSelector E.M v tol k (some T)).Possible (.ok l) →
      ∀ a : Fin E.M, a.val ∈ l → E.bad a = false := by
    intro l hl a ha
    rw [kSelector_congr T E.M hvn] at hl
    have hrk : k ≤ rankAbove E.M (vecNat fun a : Fin E.M => v a.val) tol := by
      rw [rankAbove_eq]; exact hr
    obtain ⟨l', h1, _, _, h4⟩ := C15_k_selector_outcome E.M (vecNat fun a : Fin E.M => v a.val)
      (fun i hi => by rw [← hvn i hi]; exact h0 ⟨i, hi⟩) tol htol k hk hrk (some T) hTv _ hl
    cases h1
    by_contra hb
    have h5 := (h4 a.val ha).2
    rw [← hvn a.val a.isLt, h.bad a (by simpa using hb)] at h5
    exact lt_irrefl _ h5
  have heq : ∀ o', (kDppEigVecsSelector E.M v tol k (some T)).Possible o' →
      (match o' with
        | .ok l => projEig env E l mode none
        | .raise e => Dist.ret (.raise e))
      = (match o' with
        | .ok l => projDppSamplerEig env.qr (cols E.u l) mode none
        | .raise e => Dist.ret (.raise e)) := by
    intro o' ho'
    cases o' with
    | ok l => exact projEig_eq (hne l ho') mode none
    | raise e => rfl
  have hsc := kSelector_congr T E.M hvn tol k
  apply good_of_card (k := k) kDppProb_card
  · intro S hS
    rw [kDppProb, if_pos hS, ← C24_k_dpp_law env.qr hqr E.u mode hmode (fun a => v a.val) h.orth h0 k hk
      tol htol hr (some T) hTv (kerOf E v) (fun i j => rfl) S hS, Dist.prob_eq, Dist.prob_eq,
      sampleExactKDppEig, ← hsc, Dist.andThen, Dist.andThen, Dist.E_bind, Dist.E_bind]
    apply Dist.E_congr_possible
    intro o' ho'
    have := heq o' ho'
    cases o' with
    | ok l => exact congrArg (Dist.E · _) this
    | raise e => rfl
  · intro o ho
    apply C24_k_dpp_outcome env.qr hqr E.u mode hmode (fun a => v a.val) h.orth h0 k hk
      tol htol hr (some T) hTv
    rw [Dist.andThen, Dist.Possible.bind_iff] at ho
    obtain ⟨o', h1, h2⟩ := ho
    rw [sampleExactKDppEig, ← hsc, Dist.andThen, Dist.Possible.bind_iff]
    refine ⟨o', h1, ?_⟩
    cases o' with
    | ok l =>
      simp only at h2 ⊢
      rw [← projEig_eq (hne l h1)]; exact h2
    | raise e => exact h2

end Verif.Model
