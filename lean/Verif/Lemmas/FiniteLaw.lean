import Verif.Lemmas.FiniteCompute

/-!
Laws of `sample_exact` and `sample_exact_k_dpp` on coherent objects.
-/

set_option linter.unusedSectionVars false

namespace Verif.Model
open Verif Verif.Spec Verif.Props Matrix Relation

variable {N : ℕ} {Info : Type}

/-- A sampler that never raises, returns duplicate-free lists, and the set `S` with probability
`P S`. -/
structure GoodLaw (d : Dist ℝ (Outcome (List (Fin N)))) (P : Finset (Fin N) → ℝ) : Prop where
  law : ∀ S, d.prob (fun o => ∃ l, o = .ok l ∧ l.toFinset = S) = P S
  out : ∀ o, d.Possible o → ∃ l, o = .ok l ∧ l.Nodup

/-- The same for a method call (the object after the call is left aside). -/
structure GoodCall (c : Call N Info) (P : Finset (Fin N) → ℝ) : Prop where
  law : ∀ S, c.prob (fun r => ∃ l, r.2 = .ok l ∧ l.toFinset = S) = P S
  out : ∀ r, c.Possible r → ∃ l, r.2 = .ok l ∧ l.Nodup

theorem GoodLaw.record {d : Dist ℝ (Outcome (List (Fin N)))} {P} (h : GoodLaw d P) (o : Obj N Info) :
    GoodCall (recordExact o d) P := by
  classical
  refine ⟨fun S => ?_, fun r hr => ?_⟩
  · rw [← h.law S, Dist.prob_eq, Dist.prob_eq, recordExact, Dist.E_map]
    congr 1
    funext r
    cases r with
    | ok s => rfl
    | raise e => rfl
  · rw [recordExact, Dist.Possible.map_iff] at hr
    obtain ⟨a, ha, hr⟩ := hr
    obtain ⟨l, rfl, hn⟩ := h.out a ha
    exact ⟨l, by rw [hr], hn⟩

theorem selector_congr {v w : ℕ → ℝ} (n : ℕ) (h : ∀ i < n, v i = w i) :
    dppEigVecsSelector v n = dppEigVecsSelector w n := by
  induction n with
  | zero => rfl
  | succ n ih =>
    rw [dppEigVecsSelector, dppEigVecsSelector, ih (fun i hi => h i (by omega)), h n (by omega)]

variable {env : Env N Info}

theorem projEig_eq {E : EigVecs N} {l : List ℕ} (h : ∀ a : Fin E.M, a.val ∈ l → E.bad a = false)
    (mode : String) (size : Option ℕ) :
    projEig env E l mode size = projDppSamplerEig env.qr (cols E.u l) mode size := by
  unfold projEig
  rw [if_neg]
  rw [List.any_eq_true]
  rintro ⟨a, _, ha⟩
  simp only [Bool.and_eq_true, decide_eq_true_eq] at ha
  rw [h a ha.2] at ha
  cases ha.1

variable (hqr : QRSpec env.qr) (heigh : EighSpec env.eigh)

include hqr in
/-- two-step sampling -/
theorem good_select {E : EigVecs N} {v : ℕ → ℝ} (h : EigOK E v)
    (h01 : ∀ a : Fin E.M, 0 ≤ v a.val ∧ v a.val ≤ 1) (mode : String)
    (hmode : mode = "GS" ∨ mode = "GS_bis" ∨ mode = "KuTa12") :
    GoodLaw ((dppEigVecsSelector v E.M).bind fun l => projEig env E l mode none)
      (exactProb (kerOf E v)) := by
  classical
  have hsel : dppEigVecsSelector v E.M = dppEigVecsSelector (vecNat fun a : Fin E.M => v a.val) E.M :=
    selector_congr _ (fun i hi => by rw [vecNat, dif_pos hi])
  have hne : ∀ l, (dppEigVecsSelector v E.M).Possible l → ∀ a : Fin E.M, a.val ∈ l → E.bad a = false := by
    intro l hl a ha
    by_contra hb
    have h1 := selector_possible_pos _ _ _ hl a.val ha
    rw [h.bad a (by simpa using hb)] at h1
    exact lt_irrefl _ h1
  refine ⟨fun S => ?_, fun o ho => ?_⟩
  · rw [← C24_dpp_law env.qr hqr E.u mode hmode (fun a => v a.val) h.orth h01 (kerOf E v)
      (fun i j => rfl) S, Dist.prob_eq, Dist.prob_eq, sampleExactEig, Dist.E_bind, Dist.E_bind, ← hsel]
    apply Dist.E_congr_possible
    intro l hl
    rw [projEig_eq (hne l hl)]
  · apply C24_dpp_outcome env.qr hqr E.u mode hmode (fun a => v a.val) h.orth
    rw [Dist.Possible.bind_iff] at ho
    obtain ⟨l, h1, h2⟩ := ho
    rw [projEig_eq (hne l h1)] at h2
    rw [sampleExactEig, ← hsel, Dist.Possible.bind_iff]
    exact ⟨l, h1, h2⟩

/-- columns with eigenvalue one -/
noncomputable def ones (E : EigVecs N) (v : ℕ → ℝ) : Finset (Fin E.M) :=
  Finset.univ.filter (fun a => v a.val = 1)

theorem aboveHalf_eq {E : EigVecs N} {v : ℕ → ℝ} (h : ∀ a : Fin E.M, v a.val = 0 ∨ v a.val = 1) :
    aboveHalf v E.M = sl ((ones E v).map Fin.valEmbedding) := by
  have hsort : (aboveHalf v E.M).Pairwise (· < ·) :=
    List.Pairwise.sublist List.filter_sublist (List.pairwise_lt_range)
  apply List.Perm.eq_of_pairwise (le := (· ≤ ·))
  · intro a b _ _ h1 h2; exact le_antisymm h1 h2
  · exact hsort.imp (fun h => h.le)
  · exact Finset.pairwise_sort _ _
  · rw [List.perm_ext_iff_of_nodup (hsort.imp (fun h => h.ne)) (Finset.sort_nodup _ _)]
    intro x
    simp only [aboveHalf, List.mem_filter, List.mem_range, decide_eq_true_eq, Finset.mem_sort,
      Finset.mem_map, ones, Finset.mem_filter, Finset.mem_univ, true_and, Fin.valEmbedding_apply]
    constructor
    · rintro ⟨h1, h2⟩
      refine ⟨⟨x, h1⟩, ?_, rfl⟩
      rcases h ⟨x, h1⟩ with h3 | h3
      · simp only at h3; rw [h3] at h2; norm_num at h2
      · exact h3
    · rintro ⟨a, h1, rfl⟩
      exact ⟨a.isLt, by rw [h1]; norm_num⟩

theorem ones_orth {E : EigVecs N} {v : ℕ → ℝ} (h : EigOK E v) :
    ∀ a ∈ ones E v, ∀ b ∈ ones E v, ∑ i, E.u i a * E.u i b = if a = b then 1 else 0 := by
  intro a ha b hb
  have h1 := (Finset.mem_filter.1 ha).2
  have h2 := (Finset.mem_filter.1 hb).2
  exact h.orth a b (fun h0 => one_ne_zero (h1.symm.trans h0)) (fun h0 => one_ne_zero (h2.symm.trans h0))

theorem ones_ker {E : EigVecs N} {v : ℕ → ℝ} (h : ∀ a : Fin E.M, v a.val = 0 ∨ v a.val = 1) :
    ker E.u (ind (ones E v)) = kerOf E v := by
  apply ker_congr
  intro a
  simp only [ind, ones, Finset.mem_filter, Finset.mem_univ, true_and]
  rcases h a with h1 | h1 <;> simp [h1]

theorem ones_bad {E : EigVecs N} {v : ℕ → ℝ} (h : EigOK E v)
    (a : Fin E.M) (ha : a.val ∈ sl ((ones E v).map Fin.valEmbedding)) : E.bad a = false := by
  by_contra hb
  have h0 := h.bad a (by simpa using hb)
  simp only [Finset.mem_sort, Finset.mem_map, ones, Finset.mem_filter, Finset.mem_univ, true_and,
    Fin.valEmbedding_apply] at ha
  obtain ⟨b, h1, h2⟩ := ha
  rw [h2, h0] at h1
  exact zero_ne_one h1

include hqr in
/-- projection kernels from eigenvectors -/
theorem good_proj {E : EigVecs N} {v : ℕ → ℝ} (h : EigOK E v)
    (h01 : ∀ a : Fin E.M, v a.val = 0 ∨ v a.val = 1) (mode : String)
    (hmode : mode = "GS" ∨ mode = "GS_bis" ∨ mode = "KuTa12") :
    GoodLaw (projEig env E (aboveHalf v E.M) mode none) (exactProb (kerOf E v)) := by
  rw [aboveHalf_eq h01, projEig_eq (ones_bad h)]
  refine ⟨fun S => ?_, fun o ho => ?_⟩
  · rw [cols_law hqr (ones E v) (ones_orth h) mode hmode S, ones_ker h01]
  · obtain ⟨l, h5, _, h6⟩ := C20_proj_eig_outcome env.qr hqr
      (Matrix.of (cols E.u (sl ((ones E v).map Fin.valEmbedding))))
      (cols_orth _ (ones_orth h)) none le_rfl mode hmode o ho
    exact ⟨l, h5, h6⟩

include heigh in
/-- the trace of a projection is a natural number -/
theorem proj_trace {P : Mat N} (hP : IsProjection P) : ∃ r : ℕ, P.trace = (r : ℝ) := by
  have hs : ∀ i j, P i j = P j i := fun i j => by
    have := congrFun (congrFun hP.1 i) j
    simpa [Matrix.conjTranspose_apply] using this.symm
  obtain ⟨h1, h2⟩ := heigh N P hs
  have hk : ker (env.eigh N P).2 (env.eigh N P).1 = P := by
    ext i j; exact (h2 i j).symm
  have h01 := eigval_idem (orth_orthOn h1 (env.eigh N P).1) (by rw [hk]; exact hP.2)
  have ht : P.trace = ∑ a, (env.eigh N P).1 a := by
    have e : P.trace = ∑ i, ∑ a, (env.eigh N P).1 a * (env.eigh N P).2 i a * (env.eigh N P).2 i a :=
      Finset.sum_congr rfl (fun i _ => h2 i i)
    rw [e, Finset.sum_comm]
    apply Finset.sum_congr rfl
    intro a _
    have := h1 a a
    rw [if_pos rfl] at this
    simp only [mul_assoc]
    rw [← Finset.mul_sum, this, mul_one]
  refine ⟨(Finset.univ.filter (fun a => (env.eigh N P).1 a = 1)).card, ?_⟩
  rw [ht, Finset.card_eq_sum_ones, Finset.sum_filter]
  push_cast
  apply Finset.sum_congr rfl
  intro a _
  rcases h01 a with h | h <;> simp [h]

include heigh in
/-- projection kernels from the matrix -/
theorem good_kernel {P : Mat N} (hP : IsProjection P) (mode : String)
    (hmode : mode = "GS" ∨ mode = "Chol" ∨ mode = "Schur") :
    GoodLaw (projKernel (.num P) mode none) (exactProb P) := by
  classical
  obtain ⟨r, ht⟩ := proj_trace heigh hP
  have hout := C20_proj_kernel_outcome P hP ht none le_rfl mode hmode
  refine ⟨fun S => ?_, fun o ho => ?_⟩
  · rw [exactProb_proj hP ht]
    split
    · rename_i hS
      exact C21_proj_kernel_dpp P hP ht mode hmode S hS
    · rename_i hS
      rw [Dist.prob_eq]
      refine (Dist.E_congr_possible (g := fun _ => 0) ?_).trans (Dist.E_zero _)
      intro o ho
      obtain ⟨l, h1, h2, h3⟩ := hout o ho
      rw [if_neg]
      rintro ⟨l', h4, rfl⟩
      rw [h1] at h4
      cases h4
      exact hS (by rw [List.toFinset_card_of_nodup h3, h2]; rfl)
  · obtain ⟨l, h1, _, h3⟩ := hout o ho
    exact ⟨l, h1, h3⟩

/-- generic sampler -/
theorem good_generic {K0 : Mat N} (h : IsCorrelation K0) :
    GoodLaw (genericKernel (.num K0)) (exactProb K0) := by
  classical
  refine ⟨fun S => ?_, fun o ho => ?_⟩
  · rw [← C18_generic_sampler_law K0 (C18_symmetric_contraction K0 h.symm h.nonneg h.le_one) S,
      Dist.prob_eq, Dist.prob_eq]
    simp only [genericKernel, Dist.E_map]
    congr 1
    funext a
    simp
  · simp only [genericKernel] at ho
    rw [Dist.Possible.map_iff] at ho
    obtain ⟨a, ⟨w, ha, _⟩, ho⟩ := ho
    exact ⟨a.1, ho, (C18_generic_sampler_sorted K0 a w ha).imp (fun h => h.ne)⟩

section exact
include hqr heigh

theorem kv_proj {o : Obj N Info} {K0 : Mat N} (h : Coh o K0) (hc : o.corr = true)
    (hp : o.projection = true) {E : EigVecs N} {v : ℕ → ℝ} (hE : EigOK E v) (hk : K0 = kerOf E v) :
    ∀ a : Fin E.M, v a.val = 0 ∨ v a.val = 1 :=
  eigval_idem hE.orth (by
    have := (h.cp hc hp).1.2
    rw [hk] at this; exact this)

variable {mode : String} (hmode : mode = "GS" ∨ mode = "GS_bis" ∨ mode = "KuTa12")
include hmode

theorem mode_ne : mode ≠ "Schur" ∧ mode ≠ "Chol" ∧ mode ≠ "vfx" ∧ mode ≠ "alpha" := by
  rcases hmode with rfl | rfl | rfl <;> decide

theorem coh_mode {o : Obj N Info} {K0 : Mat N} (h : Coh o K0) (m : String) :
    Coh { o with mode := m } K0 :=
  h.upd hqr heigh (.book o m o.samples o.sizeK o.info)

theorem exactF_1 {o : Obj N Info} {K0 : Mat N} (h : Coh o K0) (f : ℕ) (hs : o.Kvals ≠ none) :
    GoodCall (sampleExactF env (f + 1) o mode) (exactProb K0) := by
  obtain ⟨m1, m2, m3, m4⟩ := mode_ne hqr heigh hmode
  obtain ⟨v, hv⟩ := Option.ne_none_iff_exists'.1 hs
  obtain ⟨E, hE, h1, h2, h3⟩ := h.Kv v hv
  rw [sampleExactF, sampleExactBody]
  simp only [m1, m2, m3, m4, if_false, hv, hE]
  split
  · rename_i hcp
    simp only [Bool.and_eq_true] at hcp
    rw [h3]
    exact (good_proj hqr h1 (kv_proj hqr heigh h hcp.1 hcp.2 h1 h3) mode hmode).record _
  · rw [h3]
    exact (good_select hqr h1 h2 mode hmode).record _

theorem exactF_2 {o : Obj N Info} {K0 : Mat N} (h : Coh o K0) (f : ℕ) (hs : o.Lvals ≠ none) :
    GoodCall (sampleExactF env (f + 2) o mode) (exactProb K0) := by
  by_cases hk : o.Kvals ≠ none
  · exact exactF_1 hqr heigh hmode h (f + 1) hk
  push Not at hk
  obtain ⟨m1, m2, m3, m4⟩ := mode_ne hqr heigh hmode
  obtain ⟨v, hv⟩ := Option.ne_none_iff_exists'.1 hs
  rw [sampleExactF, sampleExactBody]
  have q := exactF_1 hqr heigh hmode
    ((coh_mode hqr heigh hmode h mode).upd hqr heigh (.kOfL _ v hk hv)) f (by simp)
  simpa only [m1, m2, m3, m4, if_false, hv, hk] using q

/-- `projection` with kernel `K` only: modes that need eigenvectors are refused -/
def NeedsEig (o : Obj N Info) : Prop := o.projection = true ∧ o.K ≠ none ∧ o.Kvals = none

theorem exactF_3 {o : Obj N Info} {K0 : Mat N} (h : Coh o K0) (f : ℕ)
    (hn : NeedsEig o → mode = "GS") (hs : o.L ≠ none ∨ o.dual ≠ none ∨ o.K ≠ none ∨ o.zono ≠ none) :
    GoodCall (sampleExactF env (f + 3) o mode) (exactProb K0) := by
  by_cases hk : o.Kvals ≠ none
  · exact exactF_1 hqr heigh hmode h (f + 2) hk
  by_cases hl : o.Lvals ≠ none
  · exact exactF_2 hqr heigh hmode h (f + 1) hl
  push Not at hk hl
  obtain ⟨m1, m2, m3, m4⟩ := mode_ne hqr heigh hmode
  have hcm := coh_mode hqr heigh hmode h mode
  rw [sampleExactF, sampleExactBody]
  simp only [m1, m2, m3, m4, if_false, hl, hk]
  cases hd : o.dual with
  | some Phi =>
    simp only [(dualEig_spec hqr heigh Phi true).1, Bool.false_eq_true, if_false]
    have q := exactF_2 hqr heigh hmode (hcm.upd hqr heigh (.dual _ Phi true hk hl hd)) f (by simp)
    simpa only [hk, hd] using q
  | none =>
    simp only
    cases hK : o.K with
    | some A =>
      rcases h.K A hK with rfl | ⟨_, _, h3⟩
      swap
      · exact absurd hk h3
      simp only
      have hc : o.corr = true := by
        by_contra hc
        exact h.likK (by simpa using hc) (by simp [hK]) hk
      cases hp : o.projection with
      | true =>
        have := hn ⟨hp, by simp [hK], hk⟩
        subst this
        simp only [if_true]
        exact (good_kernel heigh (h.cp hc hp).1 "GS" (by simp)).record _
      | false =>
        simp only [Bool.false_eq_true, if_false, eighMat]
        have hu := hcm.upd hqr heigh (.eighK _ K0 hk hl hK)
        obtain ⟨E, hE, _, h4, _⟩ := hu.Kv _ rfl
        simp only [Option.some.injEq] at hE
        subst hE
        have q := exactF_1 hqr heigh hmode hu (f + 1) (by simp)
        simpa only [someNotIn01_false h4, hp, hl, hd, hK, Bool.false_eq_true, if_false] using q
    | none =>
      simp only
      cases hL : o.L with
      | some A =>
        rcases h.L A hL with ⟨L, rfl, hL2⟩ | ⟨_, _, h3⟩
        swap
        · exact absurd hl h3
        simp only [eighMat]
        have hu := hcm.upd hqr heigh (.eighL _ L hk hl hL)
        obtain ⟨E, hE, _, h4, _⟩ := hu.Lv _ rfl
        simp only [Option.some.injEq] at hE
        subst hE
        have q := exactF_2 hqr heigh hmode hu f (by simp)
        simpa only [someNeg_false h4, hk, hd, hK, hL, Bool.false_eq_true, if_false] using q
      | none =>
        simp only
        have hz : o.zono ≠ none := by
          simpa [hd, hK, hL] using hs
        obtain ⟨A, hA⟩ := Option.ne_none_iff_exists'.1 hz
        simp only [hA]
        have q := exactF_1 hqr heigh hmode (hcm.upd hqr heigh (.zono _ A hk hA)) (f + 1) (by simp)
        simpa only [hl, hd, hK, hL, hA] using q

theorem exactF_4 {o : Obj N Info} {K0 : Mat N} (h : Coh o K0) (f : ℕ)
    (hn : NeedsEig o → mode = "GS") :
    GoodCall (sampleExactF env (f + 4) o mode) (exactProb K0) := by
  by_cases hk : o.Kvals ≠ none
  · exact exactF_1 hqr heigh hmode h (f + 3) hk
  by_cases hl : o.Lvals ≠ none
  · exact exactF_2 hqr heigh hmode h (f + 2) hl
  by_cases hs : o.L ≠ none ∨ o.dual ≠ none ∨ o.K ≠ none ∨ o.zono ≠ none
  · exact exactF_3 hqr heigh hmode h (f + 1) hn hs
  push Not at hk hl hs
  obtain ⟨hL, hd, hK, hz⟩ := hs
  obtain ⟨m1, m2, m3, m4⟩ := mode_ne hqr heigh hmode
  have hcm := coh_mode hqr heigh hmode h mode
  have hc : o.corr = false := by
    by_contra hc
    have := h.corrK (by simpa using hc)
    simp [hK, hk, hz] at this
  have hg : o.gram = none := by
    by_contra hg
    obtain ⟨Phi, hP⟩ := Option.ne_none_iff_exists'.1 hg
    have := h.gramL Phi hP hd
    simp [hL, hl] at this
  have he : o.evalL ≠ none := by
    have := h.likL hc
    simpa [hL, hl, hg] using this
  obtain ⟨A, hA⟩ := Option.ne_none_iff_exists'.1 he
  rw [sampleExactF, sampleExactBody]
  simp only [m1, m2, m3, m4, if_false, hl, hk, hd, hK, hL, hz, hA]
  have e : computeL env { o with mode := mode } = ({ o with mode := mode, L := some (.num A) }, .ok ()) := by
    rw [computeL, recLimit, computeLF]
    simp [hL, hc, hl, hg, hA]
  simp only [hl, hk, hd, hK, hL, hz, hA] at e
  rw [e]
  have q := exactF_3 hqr heigh hmode (hcm.upd hqr heigh (.evalL _ A hL (by simp [hc]) hA)) f
    (fun h => absurd hK h.2.1) (Or.inl (by simp))
  simpa only [hl, hk, hd, hK, hL, hz, hA] using q

theorem sampleExact_good {o : Obj N Info} {K0 : Mat N} (h : Coh o K0)
    (hn : NeedsEig o → mode = "GS") :
    GoodCall (sampleExact env o mode) (exactProb K0) := exactF_4 hqr heigh hmode h 996 hn

end exact

section chol
include hqr heigh

/-- the kernel computed is the right one unless the dual kernel is singular -/
theorem computeK_val {o : Obj N Info} {K0 : Mat N} (h : Coh o K0) :
    ∃ o', computeK env o = (o', .ok ()) ∧ Coh o' K0 ∧
      (o'.K = some (.num K0) ∨ (o'.K = some .nan ∧ RankDef o')) := by
  have h1 := computeK_ok hqr heigh h
  have h2 := h.rtg hqr heigh (computeK_upd env o)
  rcases he : computeK env o with ⟨o', r⟩
  rw [he] at h1 h2
  obtain ⟨h3, h4⟩ := h1
  simp only at h3 h4 h2
  subst h3
  refine ⟨o', rfl, h2, ?_⟩
  obtain ⟨A, hA⟩ := Option.ne_none_iff_exists'.1 h4
  rcases h2.K A hA with rfl | ⟨rfl, h5, _⟩
  · exact Or.inl hA
  · exact Or.inr ⟨hA, h5⟩

theorem upd_const {o o' : Obj N Info} (h : ReflTransGen (Upd env) o o') :
    o'.corr = o.corr ∧ o'.projection = o.projection ∧ o'.zono = o.zono ∧ o'.gram = o.gram ∧
      o'.dual = o.dual ∧ o'.evalL = o.evalL := by
  induction h with
  | refl => exact ⟨rfl, rfl, rfl, rfl, rfl, rfl⟩
  | tail _ hu ih => cases hu <;> exact ih

theorem sampleExact_chol {o : Obj N Info} {K0 : Mat N} (h : Coh o K0) (hr : ¬ RankDef o) :
    GoodCall (sampleExact env o "Chol") (exactProb K0) := by
  have hcm := coh_mode hqr heigh (mode := "GS") (by simp) h "Chol"
  obtain ⟨o', he, hc', hK⟩ := computeK_val hqr heigh hcm
  have hu : ReflTransGen (Upd env) { o with mode := "Chol" } o' := by
    have := computeK_upd env { o with mode := "Chol" }
    rw [he] at this; exact this
  obtain ⟨h1, h2, _, _, h5, _⟩ := upd_const hqr heigh hu
  have hK1 : o'.K = some (.num K0) := by
    rcases hK with hK | ⟨_, Phi, hP, hb⟩
    · exact hK
    · rw [h5] at hP
      exact absurd ⟨Phi, hP, hb⟩ hr
  rw [sampleExact, recLimit, sampleExactF, sampleExactBody]
  simp only [show ("Chol" = "Schur") = False from by decide, if_false, if_true, he, hK1]
  split
  · rename_i hcp
    simp only [Bool.and_eq_true] at hcp
    exact (good_kernel heigh (hc'.cp hcp.1 hcp.2).1 "Chol" (by simp)).record _
  · exact (good_generic h.ic).record _

theorem sampleExact_schur {o : Obj N Info} {K0 : Mat N} (h : Coh o K0) (hc : o.corr = true)
    (hp : o.projection = true) : GoodCall (sampleExact env o "Schur") (exactProb K0) := by
  have hcm := coh_mode hqr heigh (mode := "GS") (by simp) h "Schur"
  obtain ⟨o', he, hc', hK⟩ := computeK_val hqr heigh hcm
  have hK1 : o'.K = some (.num K0) := by
    rcases hK with hK | ⟨_, Phi, hP, hb⟩
    · exact hK
    · have hu : ReflTransGen (Upd env) { o with mode := "Schur" } o' := by
        have := computeK_upd env { o with mode := "Schur" }
        rw [he] at this; exact this
      have h5 := (upd_const hqr heigh hu).2.2.2.2.1
      rw [h5] at hP
      have := h.dual Phi hP
      rw [(h.corrL hc).1] at this
      cases this
  rw [sampleExact, recLimit, sampleExactF, sampleExactBody]
  simp only [if_true, hc, hp, Bool.and_self]
  simp only [hc, hp] at he
  simp only [he, hK1]
  exact (good_kernel heigh (h.cp hc hp).1 "Schur" (by simp)).record _

end chol

end Verif.Model
