import Verif.Lemmas.SpectralLaw
import Verif.Props.Exact
import Verif.Props.Projection
import Mathlib.LinearAlgebra.Matrix.SchurComplement

/-!
# Property theorems: two-step sampling from an eigendecomposition
-/

set_option linter.unusedSectionVars false

namespace Verif.Props
open Verif Verif.Model Verif.Spec Matrix

variable {N M : ℕ}

theorem E_sum {α β : Type*} (d : Dist ℝ α) (s : Finset β) (f : β → α → ℝ) :
    d.E (fun a => ∑ b ∈ s, f b a) = ∑ b ∈ s, d.E (f b) := by
  classical
  induction s using Finset.induction_on with
  | empty => simp
  | insert b s hb ih =>
    simp only [Finset.sum_insert hb]
    rw [Dist.E_add, ih]

/-- events of inclusion as unions of events of equality -/
theorem prob_superset (d : Dist ℝ (Outcome (List (Fin N)))) (T : Finset (Fin N)) :
    d.prob (fun o => ∃ l, o = .ok l ∧ T ⊆ l.toFinset)
      = ∑ S ∈ (Finset.univ \ T).powerset,
          d.prob (fun o => ∃ l, o = .ok l ∧ l.toFinset = S ∪ T) := by
  classical
  simp only [Dist.prob_eq]
  rw [← E_sum]
  congr 1
  funext o
  cases o with
  | raise e => simp
  | ok l =>
    simp only [Outcome.ok.injEq, exists_eq_left']
    by_cases hT : T ⊆ l.toFinset
    · rw [if_pos hT, Finset.sum_eq_single (l.toFinset \ T)]
      · rw [if_pos (Finset.sdiff_union_of_subset hT).symm]
      · intro S hS hne
        rw [if_neg]
        intro he
        apply hne
        rw [he, Finset.union_sdiff_right]
        have h1 := Finset.mem_powerset.1 hS
        ext x
        simp only [Finset.mem_sdiff]
        exact ⟨fun hx => ⟨hx, (Finset.mem_sdiff.1 (h1 hx)).2⟩, fun h => h.1⟩
      · intro h
        exact absurd (Finset.mem_powerset.2 (Finset.sdiff_subset_sdiff (Finset.subset_univ _)
          (Finset.Subset.refl _))) h
    · rw [if_neg hT, Finset.sum_eq_zero]
      intro S _
      rw [if_neg]
      intro he
      exact hT (he ▸ Finset.subset_union_right)

section
variable (qr : QR N) (hqr : QRSpec qr) (U : Fin N → Fin M → ℝ) (mode : String)
  (hmode : mode = "GS" ∨ mode = "GS_bis" ∨ mode = "KuTa12")
include hqr hmode

/-- C24 (DPP with correlation kernel `K`): `K = Σ_a λ_a u_a u_aᵀ` with orthonormal `u_a` and
`0 ≤ λ_a ≤ 1` (columns with `λ_a = 0` are arbitrary). The two-step sampler returns the set `S` with probability
`(-1)^{|Sᶜ|} det (K - I_{Sᶜ})`, for every `S`. -/
theorem C24_dpp_law (lam : Fin M → ℝ) (hU : OrthOn U lam) (hlam : ∀ a, 0 ≤ lam a ∧ lam a ≤ 1)
    (K : Matrix (Fin N) (Fin N) ℝ) (hK : ∀ i j, K i j = ∑ a, lam a * U i a * U j a)
    (S : Finset (Fin N)) :
    (sampleExactEig qr lam U mode).prob (fun o => ∃ l, o = .ok l ∧ l.toFinset = S)
      = exactProb K S := by
  have : K = ker U lam := by ext i j; exact hK i j
  rw [this]
  exact sampleExactEig_prob hqr lam hU hlam mode hmode S

/-- C24: and contains `T` with probability `det K_T`, the definition of a DPP. -/
theorem C24_dpp_inclusion (lam : Fin M → ℝ) (hU : OrthOn U lam) (hlam : ∀ a, 0 ≤ lam a ∧ lam a ≤ 1)
    (K : Matrix (Fin N) (Fin N) ℝ) (hK : ∀ i j, K i j = ∑ a, lam a * U i a * U j a)
    (T : Finset (Fin N)) :
    (sampleExactEig qr lam U mode).prob (fun o => ∃ l, o = .ok l ∧ T ⊆ l.toFinset)
      = minor K T := by
  rw [prob_superset, ← exactProb_superset K T]
  exact Finset.sum_congr rfl (fun S _ => C24_dpp_law qr hqr U mode hmode lam hU hlam K hK _)

omit hmode hqr in
theorem exactProb_ker_ind (J : Finset (Fin M))
    (hU : ∀ a ∈ J, ∀ b ∈ J, ∑ i, U i a * U i b = if a = b then 1 else 0) (S : Finset (Fin N)) :
    exactProb (ker U (ind J)) S = if S.card = J.card then minor (ker U (ind J)) S else 0 := by
  rw [← cols_ker]
  have h1 := cols_orth J hU
  have h2 : (sl (J.map Fin.valEmbedding)).length = J.card := by simp
  rw [exactProb_proj (isProjection_of_orthonormal h1) (trace_of_orthonormal h1)]
  simp only [h2]

omit hmode hqr in
theorem det_one_add_ker (g : Fin M → ℝ) (hU : OrthOn U g) : (1 + ker U g).det = ∏ a, (1 + g a) := by
  have h1 : ker U g = (Matrix.of fun i a => g a * U i a) *
      (Matrix.of fun a j => if g a = 0 then 0 else U j a) := by
    ext i j
    simp only [ker, Matrix.mul_apply, Matrix.of_apply]
    apply Finset.sum_congr rfl
    intro a _
    split
    · rename_i h; rw [h]; ring
    · rfl
  rw [h1, Matrix.det_one_add_mul_comm]
  have h2 : (Matrix.of fun (a : Fin M) (j : Fin N) => if g a = 0 then 0 else U j a) *
      (Matrix.of fun i a => g a * U i a) = Matrix.diagonal g := by
    ext a b
    rw [Matrix.mul_apply, Matrix.diagonal_apply]
    simp only [Matrix.of_apply]
    by_cases ha : g a = 0
    · simp only [ha, if_true, zero_mul, Finset.sum_const_zero]
      split <;> rfl
    · by_cases hb : g b = 0
      · simp only [hb, zero_mul, mul_zero, Finset.sum_const_zero]
        rw [if_neg]
        rintro rfl; exact ha hb
      · simp only [ha, if_false]
        have : ∀ i, U i a * (g b * U i b) = g b * (U i a * U i b) := fun i => by ring
        simp only [this, ← Finset.mul_sum, hU a b ha hb]
        split
        · rename_i h; rw [h, mul_one]
        · rw [mul_zero]
  rw [h2, ← Matrix.diagonal_one, Matrix.diagonal_add, Matrix.det_diagonal]

/-- C24 (L-ensemble): `L = Σ_a γ_a u_a u_aᵀ`, `γ_a ≥ 0`.  Running the sampler with
`λ = γ/(1+γ)` returns the set `S` with probability `det L_S / det (I + L)`, for every `S`.
`M ≤ N` columns may be given (dual representation). -/
theorem C24_L_ensemble_law (gam : Fin M → ℝ) (hU : OrthOn U gam) (hg : ∀ a, 0 ≤ gam a)
    (L : Matrix (Fin N) (Fin N) ℝ) (hL : ∀ i j, L i j = ∑ a, gam a * U i a * U j a)
    (S : Finset (Fin N)) :
    (sampleExactEig qr (KofL gam) U mode).prob (fun o => ∃ l, o = .ok l ∧ l.toFinset = S)
      = minor L S / (1 + L).det := by
  have hLk : L = ker U gam := by ext i j; exact hL i j
  have hp : ∀ a, 0 < 1 + gam a := fun a => by have := hg a; linarith
  have hne : ∏ a, (1 + gam a) ≠ 0 := (Finset.prod_pos (fun a _ => hp a)).ne'
  have hUK : OrthOn U (KofL gam) := fun a b ha hb => hU a b
    (fun h => ha (by simp [KofL, h])) (fun h => hb (by simp [KofL, h]))
  rw [sampleExactEig_prob hqr (KofL gam) hUK (fun a => ⟨div_nonneg (hg a) (hp a).le, by
    rw [KofL, div_le_one (hp a)]; linarith⟩) mode hmode S, hLk, det_one_add_ker U gam hU,
    eq_div_iff hne, ← sum_exactProb_ker, Finset.sum_mul, ← sum_card_minor_ker]
  have hw : ∀ J : Finset (Fin M),
      (∏ a ∈ J, KofL gam a) * (∏ a ∈ Jᶜ, (1 - KofL gam a)) * ∏ a, (1 + gam a) = ∏ a ∈ J, gam a := by
    intro J
    rw [← Finset.prod_mul_prod_compl J (fun a => 1 + gam a)]
    have h1 : (∏ a ∈ J, KofL gam a) * ∏ a ∈ J, (1 + gam a) = ∏ a ∈ J, gam a := by
      rw [← Finset.prod_mul_distrib]
      apply Finset.prod_congr rfl
      intro a _
      rw [KofL, div_mul_cancel₀ _ (hp a).ne']
    have h2 : (∏ a ∈ Jᶜ, (1 - KofL gam a)) * ∏ a ∈ Jᶜ, (1 + gam a) = 1 := by
      rw [← Finset.prod_mul_distrib]
      apply Finset.prod_eq_one
      intro a _
      have := (hp a).ne'
      rw [KofL]; field_simp; ring
    calc _ = ((∏ a ∈ J, KofL gam a) * ∏ a ∈ J, (1 + gam a)) *
          ((∏ a ∈ Jᶜ, (1 - KofL gam a)) * ∏ a ∈ Jᶜ, (1 + gam a)) := by ring
      _ = _ := by rw [h1, h2, mul_one]
  have hsplit : ∀ J : Finset (Fin M),
      (∏ a ∈ J, KofL gam a) * (∏ a ∈ Jᶜ, (1 - KofL gam a)) * exactProb (ker U (ind J)) S *
        ∏ a, (1 + gam a)
      = if J.card = S.card then (∏ a ∈ J, gam a) * minor (ker U (ind J)) S else 0 := by
    intro J
    by_cases hJ : ∀ a ∈ J, gam a ≠ 0
    · rw [exactProb_ker_ind U J (fun a ha b hb => hU a b (hJ a ha) (hJ b hb)), mul_right_comm, hw]
      by_cases hc : J.card = S.card
      · rw [if_pos hc, if_pos hc.symm]
      · rw [if_neg hc, if_neg (fun h => hc h.symm), mul_zero]
    · push Not at hJ
      obtain ⟨a, ha, h0⟩ := hJ
      rw [Finset.prod_eq_zero ha (show KofL gam a = 0 by simp [KofL, h0]), Finset.prod_eq_zero ha h0]
      simp
  rw [Finset.sum_congr rfl (fun J _ => hsplit J), ← Finset.sum_filter]
  apply Finset.sum_congr _ (fun _ _ => rfl)
  ext J
  simp [Finset.mem_powersetCard]

omit hqr hmode in
theorem selector_possible_pos (lam : ℕ → ℝ) (n : ℕ) (l : List ℕ)
    (h : (dppEigVecsSelector lam n).Possible l) : ∀ i ∈ l, 0 < lam i := by
  induction n generalizing l with
  | zero =>
    simp only [dppEigVecsSelector, Dist.Possible.ret_iff] at h
    subst h; simp
  | succ n ih =>
    rw [dppEigVecsSelector, Dist.Possible.bind_iff] at h
    obtain ⟨l', h1, h2⟩ := h
    rw [Dist.Possible.bind_iff] at h2
    obtain ⟨b, h3, h4⟩ := h2
    rw [Dist.Possible.ret_iff] at h4
    have ih' := ih l' h1
    cases b with
    | false => simp at h4; subst h4; exact ih'
    | true =>
      simp at h4
      subst h4
      intro i hi
      rcases List.mem_append.1 hi with hi | hi
      · exact ih' i hi
      · rw [List.mem_singleton.1 hi]
        have := Dist.Possible.bern_iff.1 h3
        simpa using this

/-- C24: every possible outcome of the two-step sampler is a duplicate-free list. -/
theorem C24_dpp_outcome (lam : Fin M → ℝ) (hU : OrthOn U lam)
    (o : Outcome (List (Fin N))) (ho : (sampleExactEig qr lam U mode).Possible o) :
    ∃ l, o = .ok l ∧ l.Nodup := by
  unfold sampleExactEig at ho
  rw [Dist.Possible.bind_iff] at ho
  obtain ⟨l, hposs, h2⟩ := ho
  have hpos := selector_possible_pos _ _ _ hposs
  obtain ⟨w, hw, _⟩ := hposs
  obtain ⟨h3, h4⟩ := C17_selector_every_draw M (vecNat lam) l w hw
  have hJ : l = sl ((Finset.univ.filter (fun a : Fin M => a.val ∈ l)).map Fin.valEmbedding) := by
    have hnd : l.Nodup := h3.imp (fun h => h.ne)
    apply List.Perm.eq_of_pairwise (le := (· ≤ ·))
    · intro a b _ _ h1 h2; exact le_antisymm h1 h2
    · exact h3.imp (fun h => h.le)
    · exact Finset.pairwise_sort _ _
    · rw [List.perm_ext_iff_of_nodup hnd (Finset.sort_nodup _ _)]
      intro x
      simp only [Finset.mem_sort, Finset.mem_map, Finset.mem_filter, Finset.mem_univ, true_and,
        Fin.valEmbedding_apply]
      exact ⟨fun hx => ⟨⟨x, h4 x hx⟩, hx, rfl⟩, fun ⟨a, ha, hax⟩ => hax ▸ ha⟩
  have hne : ∀ a ∈ Finset.univ.filter (fun a : Fin M => a.val ∈ l), lam a ≠ 0 := by
    intro a ha
    have := hpos a.val (Finset.mem_filter.1 ha).2
    rw [vecNat_val] at this
    exact this.ne'
  rw [hJ] at h2
  obtain ⟨l', h5, _, h6⟩ := C20_proj_eig_outcome qr hqr (Matrix.of (cols U _))
    (cols_orth _ (fun a ha b hb => hU a b (hne a ha) (hne b hb))) none le_rfl mode hmode o h2
  exact ⟨l', h5, h6⟩

omit hqr hmode in
theorem sum_powersetCard_range (k : ℕ) (F : Finset ℕ → ℝ) :
    ∑ J ∈ (Finset.range M).powersetCard k, F J
      = ∑ J ∈ (Finset.univ : Finset (Fin M)).powersetCard k, F (J.map Fin.valEmbedding) := by
  have h := sum_powerset_range (M := M) (fun J => if J.card = k then F J else 0)
  rw [← Finset.sum_filter, ← Finset.powersetCard_eq_filter] at h
  rw [h]
  simp only [Finset.card_map]
  rw [← Finset.sum_filter]
  apply Finset.sum_congr _ (fun _ _ => rfl)
  ext J; simp [Finset.mem_powersetCard]

omit hqr hmode in
theorem rankAbove_eq (gam : Fin M → ℝ) (tol : ℝ) :
    rankAbove M (vecNat gam) tol = (Finset.univ.filter fun a => tol < gam a).card := by
  unfold rankAbove
  rw [← List.toFinset_card_of_nodup (List.Nodup.filter _ List.nodup_range)]
  rw [← Finset.card_map Fin.valEmbedding]
  congr 1
  ext x
  simp only [List.mem_toFinset, List.mem_filter, List.mem_range, decide_eq_true_eq, Finset.mem_map,
    Finset.mem_filter, Finset.mem_univ, true_and, Fin.valEmbedding_apply]
  constructor
  · rintro ⟨h1, h2⟩
    exact ⟨⟨x, h1⟩, by rwa [vecNat, dif_pos h1] at h2, rfl⟩
  · rintro ⟨a, ha, rfl⟩
    exact ⟨a.isLt, by rw [vecNat_val]; exact ha⟩

omit hqr hmode in
theorem sum_minor_eq_esp (gam : Fin M → ℝ) (hU : OrthOn U gam) (k : ℕ) :
    ∑ S ∈ (Finset.univ : Finset (Fin N)).powersetCard k, minor (ker U gam) S
      = ∑ J ∈ (Finset.univ : Finset (Fin M)).powersetCard k, ∏ a ∈ J, gam a := by
  have h1 : ∀ S ∈ (Finset.univ : Finset (Fin N)).powersetCard k, minor (ker U gam) S
      = ∑ J ∈ (Finset.univ : Finset (Fin M)).powersetCard k, (∏ a ∈ J, gam a) *
        exactProb (ker U (ind J)) S := by
    intro S hS
    have hc := (Finset.mem_powersetCard.1 hS).2
    rw [← sum_card_minor_ker, hc]
    apply Finset.sum_congr rfl
    intro J hJ
    by_cases hne : ∀ a ∈ J, gam a ≠ 0
    · rw [exactProb_ker_ind U J (fun a ha b hb => hU a b (hne a ha) (hne b hb)),
        if_pos (by rw [hc, (Finset.mem_powersetCard.1 hJ).2])]
    · push Not at hne
      obtain ⟨a, ha, h0⟩ := hne
      rw [Finset.prod_eq_zero ha h0, zero_mul, zero_mul]
  rw [Finset.sum_congr rfl h1, Finset.sum_comm]
  apply Finset.sum_congr rfl
  intro J hJ
  rw [← Finset.mul_sum]
  by_cases hne : ∀ a ∈ J, gam a ≠ 0
  swap
  · push Not at hne
    obtain ⟨a, ha, h0⟩ := hne
    rw [Finset.prod_eq_zero ha h0, zero_mul]
  have h2 : ∑ S ∈ (Finset.univ : Finset (Fin N)).powersetCard k, exactProb (ker U (ind J)) S = 1 := by
    have h3 := exactProb_superset (ker U (ind J)) ∅
    rw [minor_empty] at h3
    simp only [Finset.union_empty, Finset.sdiff_empty] at h3
    rw [← h3]
    apply Finset.sum_subset
    · intro S _; simp
    · intro S _ hS
      rw [exactProb_ker_ind U J (fun a ha b hb => hU a b (hne a ha) (hne b hb)), if_neg]
      intro hc
      exact hS (Finset.mem_powersetCard.2 ⟨Finset.subset_univ _,
        by rw [hc, (Finset.mem_powersetCard.1 hJ).2]⟩)
  rw [h2, mul_one]

/-- C24 (k-DPP): with at least `k ≥ 1` eigenvalues of `L` above the tolerance, the two-step k-DPP
sampler returns the `k`-set `S` with probability `det L_S / Σ_{|S'|=k} det L_{S'}`.  A cached table of
elementary symmetric polynomials may be used, provided that it covers `k`. -/
theorem C24_k_dpp_law (gam : Fin M → ℝ) (hU : OrthOn U gam) (hg : ∀ a, 0 ≤ gam a) (k : ℕ) (hk : 1 ≤ k) (tol : ℝ)
    (htol : 0 ≤ tol) (hr : k ≤ (Finset.univ.filter fun a => tol < gam a).card)
    (Epoly : Option (Table ℝ)) (hE : ∀ T, Epoly = some T → ∀ k' ≤ k, ∀ n ≤ M,
      T k' n = some (∑ J ∈ (Finset.range n).powersetCard k', ∏ j ∈ J, vecNat gam j))
    (L : Matrix (Fin N) (Fin N) ℝ) (hL : ∀ i j, L i j = ∑ a, gam a * U i a * U j a)
    (S : Finset (Fin N)) (hS : S.card = k) :
    (sampleExactKDppEig qr gam U mode k tol Epoly).prob (fun o => ∃ l, o = .ok l ∧ l.toFinset = S)
      = minor L S / ∑ S' ∈ (Finset.univ : Finset (Fin N)).powersetCard k, minor L S' := by
  classical
  have hLk : L = ker U gam := by ext i j; exact hL i j
  have hlam : ∀ i < M, 0 ≤ vecNat gam i := fun i hi => by rw [vecNat, dif_pos hi]; exact hg _
  have hr' : k ≤ rankAbove M (vecNat gam) tol := by rw [rankAbove_eq]; exact hr
  have hpos := esum_pos_of_rank htol hlam hr'
  have hden : ∑ S' ∈ (Finset.univ : Finset (Fin N)).powersetCard k, minor L S'
      = esum (vecNat gam) k M := by
    rw [hLk, sum_minor_eq_esp U gam hU, esum, sum_powersetCard_range]
    exact Finset.sum_congr rfl (fun J _ => (prod_vecNat gam J).symm)
  rw [hden, eq_div_iff hpos.ne', mul_comm]
  unfold sampleExactKDppEig
  rw [Dist.prob_eq, Dist.andThen, Dist.E_bind,
    kDppEigVecsSelector_E M (vecNat gam) hlam tol htol k hk hr' Epoly hE, sum_powersetCard_range,
    hLk, ← sum_card_minor_ker, hS]
  apply Finset.sum_congr rfl
  intro J hJ
  rw [prod_vecNat]
  by_cases hne : ∀ a ∈ J, gam a ≠ 0
  swap
  · push Not at hne
    obtain ⟨a, ha, h0⟩ := hne
    rw [Finset.prod_eq_zero ha h0, zero_mul, zero_mul]
  congr 1
  have hUJ : ∀ a ∈ J, ∀ b ∈ J, ∑ i, U i a * U i b = if a = b then 1 else 0 :=
    fun a ha b hb => hU a b (hne a ha) (hne b hb)
  have h1 := cols_law hqr J hUJ mode hmode S
  rw [exactProb_ker_ind U J hUJ, if_pos (by rw [hS, (Finset.mem_powersetCard.1 hJ).2]),
    Dist.prob_eq] at h1
  exact h1

/-- C24: every possible outcome of the k-DPP sampler is a list of exactly `k` distinct items. -/
theorem C24_k_dpp_outcome (gam : Fin M → ℝ) (hU : OrthOn U gam) (hg : ∀ a, 0 ≤ gam a) (k : ℕ) (hk : 1 ≤ k) (tol : ℝ)
    (htol : 0 ≤ tol) (hr : k ≤ (Finset.univ.filter fun a => tol < gam a).card)
    (Epoly : Option (Table ℝ)) (hE : ∀ T, Epoly = some T → ∀ k' ≤ k, ∀ n ≤ M,
      T k' n = some (∑ J ∈ (Finset.range n).powersetCard k', ∏ j ∈ J, vecNat gam j))
    (o : Outcome (List (Fin N))) (ho : (sampleExactKDppEig qr gam U mode k tol Epoly).Possible o) :
    ∃ l, o = .ok l ∧ l.length = k ∧ l.Nodup := by
  have hlam : ∀ i < M, 0 ≤ vecNat gam i := fun i hi => by rw [vecNat, dif_pos hi]; exact hg _
  have hr' : k ≤ rankAbove M (vecNat gam) tol := by rw [rankAbove_eq]; exact hr
  unfold sampleExactKDppEig Dist.andThen at ho
  rw [Dist.Possible.bind_iff] at ho
  obtain ⟨o', h1, h2⟩ := ho
  obtain ⟨l, rfl, hlen, h3, h4⟩ :=
    C15_k_selector_outcome M (vecNat gam) hlam tol htol k hk hr' Epoly hE o' h1
  simp only at h2
  have hJ : l = sl ((Finset.univ.filter (fun a : Fin M => a.val ∈ l)).map Fin.valEmbedding) := by
    have hnd : l.Nodup := h3.imp (fun h => h.ne)
    apply List.Perm.eq_of_pairwise (le := (· ≤ ·))
    · intro a b _ _ h1 h2; exact le_antisymm h1 h2
    · exact h3.imp (fun h => h.le)
    · exact Finset.pairwise_sort _ _
    · rw [List.perm_ext_iff_of_nodup hnd (Finset.sort_nodup _ _)]
      intro x
      simp only [Finset.mem_sort, Finset.mem_map, Finset.mem_filter, Finset.mem_univ, true_and,
        Fin.valEmbedding_apply]
      exact ⟨fun hx => ⟨⟨x, (h4 x hx).1⟩, hx, rfl⟩, fun ⟨a, ha, hax⟩ => hax ▸ ha⟩
  have hlen' := hlen
  have hne : ∀ a ∈ Finset.univ.filter (fun a : Fin M => a.val ∈ l), gam a ≠ 0 := by
    intro a ha
    have := (h4 a.val (Finset.mem_filter.1 ha).2).2
    rw [vecNat_val] at this
    exact this.ne'
  rw [hJ] at h2 hlen'
  obtain ⟨l', h5, h6, h7⟩ := C20_proj_eig_outcome qr hqr (Matrix.of (cols U _))
    (cols_orth _ (fun a ha b hb => hU a b (hne a ha) (hne b hb))) none le_rfl mode hmode o h2
  exact ⟨l', h5, h6.trans hlen', h7⟩

end

/-! ### concrete case -/

theorem V32_orth' (a b : Fin 2) : ∑ i, V32 i a * V32 i b = if a = b then 1 else 0 := by
  have h := congrFun (congrFun V32_orth a) b
  rw [Matrix.mul_apply, Matrix.one_apply] at h
  exact h

example : ∃ qr : QR 3, ∀ S : Finset (Fin 3),
    (sampleExactEig qr (KofL (fun a : Fin 2 => (a.val : ℝ) + 1)) V32 "GS_bis").prob
      (fun o => ∃ l, o = .ok l ∧ l.toFinset = S)
    = minor (ker V32 (fun a => (a.val : ℝ) + 1)) S / (1 + ker V32 (fun a => (a.val : ℝ) + 1)).det := by
  obtain ⟨qr, hqr⟩ := exists_QRSpec 3
  exact ⟨qr, fun S => C24_L_ensemble_law qr hqr V32 "GS_bis" (by simp) _ (fun a b _ _ => V32_orth' a b)
    (fun a => by positivity) _ (fun i j => rfl) S⟩

example : ∃ qr : QR 3, ∀ S : Finset (Fin 3), S.card = 2 →
    (sampleExactKDppEig qr (fun a : Fin 2 => (a.val : ℝ) + 1) V32 "KuTa12" 2 0 none).prob
      (fun o => ∃ l, o = .ok l ∧ l.toFinset = S)
    = minor (ker V32 (fun a => (a.val : ℝ) + 1)) S /
      ∑ S' ∈ (Finset.univ : Finset (Fin 3)).powersetCard 2,
        minor (ker V32 (fun a => (a.val : ℝ) + 1)) S' := by
  obtain ⟨qr, hqr⟩ := exists_QRSpec 3
  refine ⟨qr, fun S hS => C24_k_dpp_law qr hqr V32 "KuTa12" (by simp) _ (fun a b _ _ => V32_orth' a b)
    (fun a => by positivity) 2 (by norm_num) 0 le_rfl ?_ none (by simp) _ (fun i j => rfl) S hS⟩
  rw [Finset.filter_true_of_mem]
  · simp
  · intro a _; positivity

end Verif.Props
