import Verif.Lemmas.Jacobi2
import Mathlib.Data.List.Intervals

/-!
Runs of `MultivariateJacobiOPE.sample`.
-/

namespace Verif.Lemmas
open Verif Verif.Spec Verif.Model Matrix

variable {m : ℕ} {X : Type*} {phi : X → Fin m → ℝ}

theorem jacTrials_accept {rows : List (Fin m → ℝ)} {ts : List (X × ℝ)} {last : Option X} {x : X} {w : Fin m → ℝ}
    (h : jacTrials phi rows last ts = .ok (x, w, true)) :
    ∃ u, (x, u) ∈ ts ∧ u < jacRatio rows (phi x) ∧ w = jacRow rows (phi x) := by
  induction ts generalizing last with
  | nil => cases last <;> simp [jacTrials] at h
  | cons t ts ih =>
    obtain ⟨y, u⟩ := t
    rw [jacTrials] at h
    split_ifs at h with hu
    · simp only [Outcome.ok.injEq, Prod.mk.injEq, and_true] at h
      obtain ⟨rfl, rfl⟩ := h
      exact ⟨u, by simp, hu, rfl⟩
    · obtain ⟨u', h1, h2⟩ := ih h
      exact ⟨u', by simp [h1], h2⟩

theorem jacLoop_cons {ts : List (X × ℝ)} {tape : List (List (X × ℝ))} {st st' : JacSt X m}
    (h : jacLoop phi (ts :: tape) st = .ok st') :
    ∃ x w b, jacTrials phi st.rows none ts = .ok (x, w, b) ∧
      jacLoop phi tape
        { pts := st.pts ++ [x]
          rows := st.rows ++ [w]
          flags := st.flags ++ [b] } = .ok st' := by
  rw [jacLoop] at h
  cases ht : jacTrials phi st.rows none ts with
  | raise e => rw [ht] at h; simp [jacPush, jacThen] at h
  | ok r =>
    obtain ⟨x, w, b⟩ := r
    rw [ht] at h
    exact ⟨x, w, b, rfl, h⟩

theorem jacLoop_flags {tape : List (List (X × ℝ))} {st st' : JacSt X m} (h : jacLoop phi tape st = .ok st') :
    st.flags <+: st'.flags ∧ st.pts <+: st'.pts ∧ st'.pts.length = st.pts.length + tape.length := by
  induction tape generalizing st with
  | nil =>
    simp only [jacLoop, Outcome.ok.injEq] at h
    subst h; exact ⟨List.prefix_refl _, List.prefix_refl _, by simp⟩
  | cons ts tape ih =>
    obtain ⟨x, w, b, -, h2⟩ := jacLoop_cons h
    obtain ⟨h3, h4, h5⟩ := ih h2
    refine ⟨(List.prefix_append _ _).trans h3, (List.prefix_append _ _).trans h4, ?_⟩
    rw [h5]; simp; omega

theorem schur_pos_of_ratio {rows : List (Fin m → ℝ)} {v : Fin m → ℝ} {u : ℝ} (hu : 0 ≤ u) (h : u < jacRatio rows v) :
    0 < jacResid rows v ⬝ᵥ jacResid rows v := by
  rcases (dot_self_nonneg (jacResid rows v)).lt_or_eq with h1 | h1
  · exact h1
  · rw [jacRatio, ← h1, zero_div] at h; linarith

theorem jacLoop_chain {tape : List (List (X × ℝ))} {st st' : JacSt X m} (h : jacLoop phi tape st = .ok st')
    (hacc : ∀ b ∈ st'.flags, b = true) (hst : GSChain (st.pts.map phi) st.rows) :
    GSChain (st'.pts.map phi) st'.rows := by
  induction tape generalizing st with
  | nil =>
    simp only [jacLoop, Outcome.ok.injEq] at h
    subst h; exact hst
  | cons ts tape ih =>
    obtain ⟨x, w, b, h1, h2⟩ := jacLoop_cons h
    have hb : b = true := hacc b ((jacLoop_flags h2).1.subset (by simp))
    subst hb
    obtain ⟨u, -, -, hw⟩ := jacTrials_accept h1
    refine ih h2 ?_
    simp only [List.map_append, List.map_cons, List.map_nil]
    rw [hw]
    exact hst.snoc (phi x)

theorem jacLoop_unit {tape : List (List (X × ℝ))} {st st' : JacSt X m} (h : jacLoop phi tape st = .ok st')
    (hacc : ∀ b ∈ st'.flags, b = true) (hu : ∀ ts ∈ tape, ∀ t ∈ ts, 0 ≤ t.2)
    (hst : ∀ p ∈ st.rows, p ⬝ᵥ p = 1) : ∀ p ∈ st'.rows, p ⬝ᵥ p = 1 := by
  induction tape generalizing st with
  | nil =>
    simp only [jacLoop, Outcome.ok.injEq] at h
    subst h; exact hst
  | cons ts tape ih =>
    obtain ⟨x, w, b, h1, h2⟩ := jacLoop_cons h
    have hb : b = true := hacc b ((jacLoop_flags h2).1.subset (by simp))
    subst hb
    obtain ⟨u, hm, hlt, hw⟩ := jacTrials_accept h1
    refine ih h2 (fun ts' h' => hu ts' (by simp [h'])) ?_
    intro p hp
    rcases List.mem_append.1 hp with hp | hp
    · exact hst p hp
    · rw [List.mem_singleton.1 hp, hw, jacRow_dot, if_neg]
      exact (schur_pos_of_ratio (hu ts (by simp) _ hm) hlt).ne'

theorem featKernel_eq (x y : X) : featKernel phi x y = phi x ⬝ᵥ phi y := rfl

theorem kernelDet_eq (pts : List X) : kernelDet (featKernel phi) pts = gramDet (pts.map phi) := by
  rw [kernelDet, gramDet, ← Matrix.det_submatrix_equiv_self (finCongr (List.length_map (as := pts) phi))]
  congr 1
  ext i j
  rw [Matrix.submatrix_apply, Matrix.of_apply, Matrix.of_apply, featKernel_eq, List.getD_eq_getElem _ _ i.2,
    List.getD_eq_getElem _ _ j.2, List.getElem_map, List.getElem_map]
  rfl

theorem schurAt_pos {vs rows : List (Fin m → ℝ)} (h : GSChain vs rows) (hu : ∀ p ∈ rows, p ⬝ᵥ p = 1) {i : ℕ}
    (hi : i < vs.length) : 0 < schurAt vs rows i := by
  rcases (dot_self_nonneg (jacResid (rows.take i) (vs.getD i 0))).lt_or_eq with h1 | h1
  · exact h1
  · exfalso
    have h2 := jacRow_dot (rows.take i) (vs.getD i 0)
    rw [if_pos h1.symm, ← h.row hi, hu] at h2
    · norm_num at h2
    · rw [List.getD_eq_getElem _ _ (by rw [h.length]; exact hi)]; exact List.getElem_mem _

theorem gramDet_pos {vs rows : List (Fin m → ℝ)} (h : GSChain vs rows) (hu : ∀ p ∈ rows, p ⬝ᵥ p = 1) :
    0 < gramDet vs := by
  rw [gramDet_eq h]
  exact Finset.prod_pos fun i _ => schurAt_pos h hu i.2

theorem kernelDet_eq_zero_of_not_nodup {K : X → X → ℝ} {pts : List X} (h : ¬ pts.Nodup) : kernelDet K pts = 0 := by
  rw [List.nodup_iff_injective_get] at h
  simp only [Function.Injective] at h
  push Not at h
  obtain ⟨i, j, hij, hne⟩ := h
  exact Matrix.det_zero_of_row_eq hne (funext fun k => by
    show K (pts.get i) (pts.get k) = K (pts.get j) (pts.get k)
    rw [hij])

/-! ### Integrals -/
open MeasureTheory

theorem integral_sq_form [MeasurableSpace X] {mu : Measure X} (h : OrthonormalIn mu phi) (p : Fin m → ℝ) :
    Integrable (fun x => (p ⬝ᵥ phi x) ^ 2) mu ∧ ∫ x, (p ⬝ᵥ phi x) ^ 2 ∂mu = p ⬝ᵥ p := by
  have he : (fun x => (p ⬝ᵥ phi x) ^ 2) = fun x => ∑ k, ∑ l, (p k * p l) * (phi x k * phi x l) := by
    funext x
    rw [sq, dotProduct, Finset.sum_mul_sum]
    exact Finset.sum_congr rfl fun k _ => Finset.sum_congr rfl fun l _ => by ring
  rw [he]
  have hi : ∀ k l, Integrable (fun x => (p k * p l) * (phi x k * phi x l)) mu := fun k l =>
    (h.integrable k l).const_mul _
  refine ⟨integrable_finsetSum _ fun k _ => integrable_finsetSum _ fun l _ => hi k l, ?_⟩
  rw [integral_finsetSum _ fun k _ => integrable_finsetSum _ fun l _ => hi k l, dotProduct]
  refine Finset.sum_congr rfl fun k _ => ?_
  rw [integral_finsetSum _ fun l _ => hi k l]
  simp only [integral_const_mul, h.integral]
  simp

theorem integral_self [MeasurableSpace X] {mu : Measure X} (h : OrthonormalIn mu phi) :
    Integrable (fun x => phi x ⬝ᵥ phi x) mu ∧ ∫ x, phi x ⬝ᵥ phi x ∂mu = m := by
  have he : (fun x => phi x ⬝ᵥ phi x) = fun x => ∑ k, phi x k * phi x k := rfl
  rw [he]
  refine ⟨integrable_finsetSum _ fun k _ => h.integrable k k, ?_⟩
  rw [integral_finsetSum _ fun k _ => h.integrable k k]
  simp [h.integral]

theorem integral_list_sum [MeasurableSpace X] {mu : Measure X} (h : OrthonormalIn mu phi) (rows : List (Fin m → ℝ)) :
    Integrable (fun x => (rows.map fun p => (p ⬝ᵥ phi x) ^ 2).sum) mu ∧
      ∫ x, (rows.map fun p => (p ⬝ᵥ phi x) ^ 2).sum ∂mu = (rows.map fun p => p ⬝ᵥ p).sum := by
  induction rows with
  | nil => simp
  | cons p rows ih =>
    obtain ⟨h1, h2⟩ := integral_sq_form h p
    simp only [List.map_cons, List.sum_cons]
    refine ⟨h1.add ih.1, ?_⟩
    rw [integral_add h1 ih.1, h2, ih.2]

theorem integral_schur [MeasurableSpace X] {mu : Measure X} (h : OrthonormalIn mu phi) {rows : List (Fin m → ℝ)}
    (ho : OrthoRows rows) (hu : ∀ p ∈ rows, p ⬝ᵥ p = 1) :
    Integrable (fun x => jacResid rows (phi x) ⬝ᵥ jacResid rows (phi x)) mu ∧
      ∫ x, jacResid rows (phi x) ⬝ᵥ jacResid rows (phi x) ∂mu = (m : ℝ) - rows.length := by
  simp only [schur_eq ho]
  obtain ⟨h1, h2⟩ := integral_self h
  obtain ⟨h3, h4⟩ := integral_list_sum h rows
  refine ⟨h1.sub h3, ?_⟩
  rw [integral_sub h1 h3, h2, h4, List.map_congr_left hu]
  simp

end Verif.Lemmas
