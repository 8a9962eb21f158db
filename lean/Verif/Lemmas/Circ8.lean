import Verif.Lemmas.Circ6
import Verif.Lemmas.CMV
import Verif.Lemmas.RandMat
import Mathlib.Data.List.GetD

/-!
# The eigenvalues of the CMV matrix are the roots of the Szego polynomial
-/

namespace Verif.Lemmas
open Finset Polynomial Verif Verif.Model Verif.Spec
open scoped ComplexConjugate

/-- `u` is the image of `v` by the block diagonal matrix -/
def BlkMap : List Blk → (ℕ → ℂ) → (ℕ → ℂ) → Prop
  | [], _, _ => True
  | .one z :: bs, v, u => u 0 = z * v 0 ∧ BlkMap bs (fun i => v (i + 1)) fun i => u (i + 1)
  | .two a b c d :: bs, v, u => u 0 = a * v 0 + b * v 1 ∧ u 1 = c * v 0 + d * v 1
      ∧ BlkMap bs (fun i => v (i + 2)) fun i => u (i + 2)

theorem blkMap_sum : ∀ (bs : List Blk) (v u : ℕ → ℂ), BlkMap bs v u → ∀ i < blkSize bs,
    ∑ k ∈ range (blkSize bs), blkEntry bs i k * v k = u i
  | [], v, u, _, i, hi => absurd hi (Nat.not_lt_zero i)
  | .one z :: bs, v, u, h, i, hi => by
    rw [blkSize, sum_range_succ']
    rcases i with _ | i
    · rw [sum_eq_zero fun k _ => by simp [blkEntry], zero_add, h.1]; simp [blkEntry]
    · have := blkMap_sum bs _ _ h.2 i (by rw [blkSize] at hi; omega)
      rw [show blkEntry (.one z :: bs) (i + 1) 0 * v 0 = 0 by simp [blkEntry], add_zero]
      exact this
  | .two a b c d :: bs, v, u, h, i, hi => by
    rw [blkSize, sum_range_succ', sum_range_succ']
    rcases i with _ | _ | i
    · rw [sum_eq_zero fun k _ => by simp [blkEntry], zero_add, h.1]; simp [blkEntry]; ring
    · rw [sum_eq_zero fun k _ => by simp [blkEntry], zero_add, h.2.1]; simp [blkEntry]; ring
    · have := blkMap_sum bs _ _ h.2.2 i (by rw [blkSize] at hi; omega)
      rw [show blkEntry (.two a b c d :: bs) (i + 2) (0 + 1) * v (0 + 1) = 0 by simp [blkEntry],
        show blkEntry (.two a b c d :: bs) (i + 2) 0 * v 0 = 0 by simp [blkEntry], add_zero, add_zero]
      exact this

theorem blkMap_append : ∀ (bs cs : List Blk) (v u : ℕ → ℂ), BlkMap bs v u →
    BlkMap cs (fun i => v (i + blkSize bs)) (fun i => u (i + blkSize bs)) → BlkMap (bs ++ cs) v u
  | [], cs, v, u, _, h => h
  | .one z :: bs, cs, v, u, h, h2 => ⟨h.1, blkMap_append bs cs _ _ h.2 h2⟩
  | .two a b c d :: bs, cs, v, u, h, h2 => ⟨h.1, h.2.1, blkMap_append bs cs _ _ h.2.2 h2⟩

/-- the block of `a` maps the pair of entries `p` of `v` to those of `u` -/
def XiRel (a : ℂ) (v u : ℕ → ℂ) (p : ℕ) : Prop :=
  u p = conj a * v p + ((√(1 - ‖a‖ ^ 2) : ℝ) : ℂ) * v (p + 1) ∧ u (p + 1) = ((√(1 - ‖a‖ ^ 2) : ℝ) : ℂ) * v p + -a * v (p + 1)

theorem blkMap_xi : ∀ (l : List ℂ) (v u : ℕ → ℂ), (∀ j (hj : 2 * j < l.length), XiRel l[2 * j] v u (2 * j)) →
    BlkMap ((everyOther l).map xiBlk) v u
  | [], _, _, _ => True.intro
  | [a], v, u, h => by
    have := h 0 (by simp)
    exact ⟨this.1, this.2, True.intro⟩
  | a :: b :: l, v, u, h => by
    have h0 := h 0 (by simp)
    refine ⟨h0.1, h0.2, blkMap_xi l _ _ fun j hj => ?_⟩
    have := h (j + 1) (by simp; omega)
    exact this

variable {al : ℕ → ℂ} {n : ℕ} {z : ℂ}

/-- normalised polynomials at `z` -/
noncomputable def phP (al : ℕ → ℂ) (z : ℂ) (k : ℕ) : ℂ := (szP al k).eval z / ((√(szR al k) : ℝ) : ℂ)

/-- normalised reversed polynomials at `z` -/
noncomputable def phQ (al : ℕ → ℂ) (z : ℂ) (k : ℕ) : ℂ := (szQ al k).eval z / ((√(szR al k) : ℝ) : ℂ)

/-- one step of the recursion, normalised -/
theorem ph_step (hR : ∀ k ≤ n, 0 < szR al k) {k : ℕ} (hk : k < n) :
    z * phP al z k = conj (al k) * phQ al z k + ((√(1 - ‖al k‖ ^ 2) : ℝ) : ℂ) * phP al z (k + 1)
    ∧ phQ al z (k + 1) = ((√(1 - ‖al k‖ ^ 2) : ℝ) : ℂ) * phQ al z k + -al k * phP al z (k + 1) := by
  have h0 := hR k (by omega)
  have h1 := hR (k + 1) (by omega)
  have hr : 0 < 1 - ‖al k‖ ^ 2 := by
    rw [szR_succ] at h1
    exact (pos_iff_pos_of_mul_pos h1).1 h0
  have hs : √(szR al (k + 1)) = √(szR al k) * √(1 - ‖al k‖ ^ 2) := by rw [szR_succ, Real.sqrt_mul h0.le]
  have e0 : ((√(szR al k) : ℝ) : ℂ) ≠ 0 := Complex.ofReal_ne_zero.2 (Real.sqrt_pos.2 h0).ne'
  have er : ((√(1 - ‖al k‖ ^ 2) : ℝ) : ℂ) ≠ 0 := Complex.ofReal_ne_zero.2 (Real.sqrt_pos.2 hr).ne'
  have er2 : ((√(1 - ‖al k‖ ^ 2) : ℝ) : ℂ) ^ 2 = 1 - al k * conj (al k) := by
    rw [← Complex.ofReal_pow, Real.sq_sqrt hr.le, Complex.mul_conj, Complex.normSq_eq_norm_sq]
    push_cast; ring
  rw [phP, phP, phQ, phQ, hs, szP_succ, szQ_succ]
  simp only [eval_sub, eval_mul, eval_X, eval_C]
  push_cast
  generalize ((√(1 - ‖al k‖ ^ 2) : ℝ) : ℂ) = r at *
  generalize ((√(szR al k) : ℝ) : ℂ) = s at *
  generalize (szP al k).eval z = P at *
  generalize (szQ al k).eval z = Q at *
  constructor
  · field_simp; ring
  · field_simp
    linear_combination (-Q) * er2

/-- powers of `z⁻¹` -/
noncomputable def vecV (al : ℕ → ℂ) (z : ℂ) (i : ℕ) : ℂ :=
  if i % 2 = 0 then z⁻¹ ^ (i / 2) * phQ al z i else z⁻¹ ^ (i / 2) * phP al z i

/-- the eigenvector -/
noncomputable def vecX (al : ℕ → ℂ) (z : ℂ) (i : ℕ) : ℂ :=
  if i % 2 = 0 then z⁻¹ ^ (i / 2) * phP al z i else z⁻¹ ^ (i / 2 + 1) * phQ al z i

theorem xiRel_L (hR : ∀ k ≤ n, 0 < szR al k) (hz : z ≠ 0) {j : ℕ} (hj : 2 * j < n) :
    XiRel (al (2 * j)) (vecV al z) (fun i => z * vecX al z i) (2 * j) := by
  obtain ⟨h1, h2⟩ := ph_step (z := z) hR hj
  have e1 : vecV al z (2 * j) = z⁻¹ ^ j * phQ al z (2 * j) := by
    rw [vecV, if_pos (by omega), show 2 * j / 2 = j by omega]
  have e2 : vecV al z (2 * j + 1) = z⁻¹ ^ j * phP al z (2 * j + 1) := by
    rw [vecV, if_neg (by omega), show (2 * j + 1) / 2 = j by omega]
  have e3 : z * vecX al z (2 * j) = z⁻¹ ^ j * (z * phP al z (2 * j)) := by
    rw [vecX, if_pos (by omega), show 2 * j / 2 = j by omega]; ring
  have e4 : z * vecX al z (2 * j + 1) = z⁻¹ ^ j * phQ al z (2 * j + 1) := by
    rw [vecX, if_neg (by omega), show (2 * j + 1) / 2 = j by omega, pow_succ]; field_simp
  refine ⟨?_, ?_⟩
  · show z * vecX al z (2 * j) = _
    rw [e1, e2, e3, h1]; ring
  · show z * vecX al z (2 * j + 1) = _
    rw [e1, e2, e4, h2]; ring

theorem xiRel_M (hR : ∀ k ≤ n, 0 < szR al k) (hz : z ≠ 0) {j : ℕ} (hj : 2 * j + 1 < n) :
    XiRel (al (2 * j + 1)) (fun i => vecX al z (i + 1)) (fun i => vecV al z (i + 1)) (2 * j) := by
  obtain ⟨h1, h2⟩ := ph_step (z := z) hR hj
  have e1 : vecX al z (2 * j + 1) = z⁻¹ ^ (j + 1) * phQ al z (2 * j + 1) := by
    rw [vecX, if_neg (by omega), show (2 * j + 1) / 2 = j by omega]
  have e2 : vecX al z (2 * j + 1 + 1) = z⁻¹ ^ (j + 1) * phP al z (2 * j + 1 + 1) := by
    rw [vecX, if_pos (by omega), show (2 * j + 1 + 1) / 2 = j + 1 by omega]
  have e3 : vecV al z (2 * j + 1) = z⁻¹ ^ (j + 1) * (z * phP al z (2 * j + 1)) := by
    rw [vecV, if_neg (by omega), show (2 * j + 1) / 2 = j by omega, pow_succ]; field_simp
  have e4 : vecV al z (2 * j + 1 + 1) = z⁻¹ ^ (j + 1) * phQ al z (2 * j + 1 + 1) := by
    rw [vecV, if_pos (by omega), show (2 * j + 1 + 1) / 2 = j + 1 by omega]
  refine ⟨?_, ?_⟩
  · show vecV al z (2 * j + 1) = _ * vecX al z (2 * j + 1) + _ * vecX al z (2 * j + 1 + 1)
    rw [e1, e2, e3, h1]; ring
  · show vecV al z (2 * j + 1 + 1) = _ * vecX al z (2 * j + 1) + _ * vecX al z (2 * j + 1 + 1)
    rw [e1, e2, e4, h2]; ring

/-- the last coefficient -/
theorem ph_last (hroot : (szP al (n + 1)).eval z = 0) : z * phP al z n = conj (al n) * phQ al z n := by
  rw [szP_succ] at hroot
  simp only [eval_sub, eval_mul, eval_X, eval_C] at hroot
  rw [phP, phQ]
  linear_combination (1 / ((√(szR al n) : ℝ) : ℂ)) * hroot

/-- the coefficients as a list, without the last -/
def alL (al : ℕ → ℂ) (n : ℕ) : List ℂ := List.ofFn fun i : Fin n => al i

theorem cmv_maps (hR : ∀ k ≤ n, 0 < szR al k) (hz : z ≠ 0) (hroot : (szP al (n + 1)).eval z = 0) :
    BlkMap (cmvBlocks (alL al n) (al n)).1 (vecV al z) (fun i => z * vecX al z i)
    ∧ BlkMap (cmvBlocks (alL al n) (al n)).2 (vecX al z) (vecV al z) := by
  have hlen : (alL al n).length = n := by simp [alL]
  have hget : ∀ i (hi : i < (alL al n).length), (alL al n)[i] = al i := fun i hi => by simp [alL]
  have hL : BlkMap ((everyOther (alL al n)).map xiBlk) (vecV al z) (fun i => z * vecX al z i) := by
    refine blkMap_xi _ _ _ fun j hj => ?_
    rw [hget]
    exact xiRel_L hR hz (by omega)
  have hM : BlkMap ((everyOther (alL al n).tail).map xiBlk) (fun i => vecX al z (i + 1)) (fun i => vecV al z (i + 1)) := by
    refine blkMap_xi _ _ _ fun j hj => ?_
    rw [List.getElem_tail, hget]
    rw [List.length_tail] at hj
    exact xiRel_M hR hz (by omega)
  have h00 : vecV al z 0 = 1 * vecX al z 0 := by
    simp [vecV, vecX, phP, phQ, szP_zero, szQ_zero]
  have hl := ph_last hroot
  have hsz : ∀ l : List ℂ, blkSize ((everyOther l).map xiBlk) = 2 * ((l.length + 1) / 2) := fun l => by
    rw [blkSize_xi, length_everyOther]
  rw [cmvBlocks, hlen]
  split_ifs with h
  · refine ⟨hL, ?_⟩
    rw [List.append_assoc]
    refine ⟨h00, blkMap_append ((everyOther (alL al n).tail).map xiBlk) _ _ _ hM ⟨?_, True.intro⟩⟩
    obtain ⟨k, rfl⟩ : ∃ k, n = 2 * k + 1 := ⟨n / 2, by omega⟩
    have hs : blkSize ((everyOther (alL al (2 * k + 1)).tail).map xiBlk) = 2 * k := by
      rw [hsz, List.length_tail, hlen]; omega
    simp only [hs, zero_add]
    rw [vecV, if_neg (by omega), vecX, if_neg (by omega), show (2 * k + 1) / 2 = k by omega]
    rw [pow_succ]
    field_simp
    linear_combination hl
  · refine ⟨blkMap_append _ _ _ _ hL ⟨?_, True.intro⟩, ⟨h00, hM⟩⟩
    obtain ⟨k, rfl⟩ : ∃ k, n = 2 * k := ⟨n / 2, by omega⟩
    have hs : blkSize ((everyOther (alL al (2 * k))).map xiBlk) = 2 * k := by
      rw [hsz, hlen]; omega
    simp only [hs, zero_add]
    rw [vecV, if_pos (by omega), vecX, if_pos (by omega), show (2 * k) / 2 = k by omega]
    linear_combination z⁻¹ ^ k * hl

/-- the matrix built by the program -/
noncomputable def cmvMat (bs : List Blk × List Blk) : Matrix (Fin (blkSize bs.1)) (Fin (blkSize bs.1)) ℂ :=
  Matrix.of fun i j => ∑ k : Fin (blkSize bs.1), blkEntry bs.1 i k * blkEntry bs.2 k j

/-- a root of the Szego polynomial is an eigenvalue -/
theorem cmv_char (hR : ∀ k ≤ n, 0 < szR al k) (hz : z ≠ 0) (hroot : (szP al (n + 1)).eval z = 0) :
    (cmvMat (cmvBlocks (alL al n) (al n))).charpoly.eval z = 0 := by
  obtain ⟨h1, h2⟩ := cmv_maps hR hz hroot
  obtain ⟨s1, s2⟩ := cmvBlocks_size (alL al n) (al n)
  have s12 := s1.trans s2.symm
  generalize cmvBlocks (alL al n) (al n) = bs at *
  have e1 := blkMap_sum _ _ _ h1
  have e2 := blkMap_sum _ _ _ h2
  rw [Matrix.eval_charpoly]
  refine Matrix.exists_mulVec_eq_zero_iff.1 ⟨fun i => vecX al z i, fun h => ?_, ?_⟩
  · have := congrFun h ⟨0, by rw [s1]; omega⟩
    simp [vecX, phP, szP_zero, szR_zero] at this
  · rw [Matrix.sub_mulVec, sub_eq_zero]
    funext i
    have hR' : (cmvMat bs).mulVec (fun i => vecX al z i) i = z * vecX al z i := by
      rw [← e1 i i.2, Matrix.mulVec, dotProduct, ← Fin.sum_univ_eq_sum_range (fun k => blkEntry bs.1 i k * vecV al z k)]
      have : ∀ k : Fin (blkSize bs.1), vecV al z k = ∑ j : Fin (blkSize bs.1), blkEntry bs.2 k j * vecX al z j := by
        intro k
        rw [← e2 k (by rw [← s12]; exact k.2), ← s12,
          ← Fin.sum_univ_eq_sum_range (fun j => blkEntry bs.2 k j * vecX al z j)]
      simp only [this, cmvMat, Matrix.of_apply, sum_mul, mul_sum]
      rw [sum_comm]
      refine sum_congr rfl fun k _ => sum_congr rfl fun j _ => ?_
      ring
    rw [hR']
    simp [Matrix.scalar_apply, Matrix.mulVec_diagonal]

theorem sortedAngles_of_perm {x : Cd (n + 1)} (hx : x ∈ specC n) {l : List ℂ} (h : l.Perm (List.ofFn (zC x))) :
    sortedAngles (n + 1) l = fun j => x (.inl j) := by
  have h1 : (l.map angle).Perm (List.ofFn fun j => x (.inl j)) := by
    have := h.map angle
    rw [List.map_ofFn] at this
    convert this using 2
    funext j
    exact (angle_exp (hx.2.1 j)).symm
  have h2 : (l.map angle).insertionSort (· ≤ ·) = List.ofFn fun j => x (.inl j) := by
    refine List.Perm.eq_of_pairwise (le := (· ≤ ·)) (fun a b _ _ h1 h2 => le_antisymm h1 h2) (List.pairwise_insertionSort _ _) ?_ ((List.perm_insertionSort _ _).trans h1)
    exact (List.pairwise_ofFn).2 fun i j hij => (hx.1 hij).le
  funext j
  rw [sortedAngles, h2, List.getD_eq_getElem _ _ (by rw [List.length_ofFn]; exact j.2), List.getElem_ofFn]

theorem cmv_angles {la : LA} (hla : LAOK la) {x : Cd (n + 1)} {m : ℝ} (hR : ∀ k ≤ n, 0 < szR al k) (hx : IsSpec al m x) :
    ∃ l, cmvFinish la (cmvBlocks (alL al n) (al n)) = .ret l ∧ sortedAngles (n + 1) l = fun j => x (.inl j) := by
  obtain ⟨s1, s2⟩ := cmvBlocks_size (alL al n) (al n)
  have hc : ∀ j, (cmvMat (cmvBlocks (alL al n) (al n))).charpoly.eval (zC x j) = 0 := fun j =>
    cmv_char hR (by rw [← norm_ne_zero_iff, zC_norm]; exact one_ne_zero) (hx.root j)
  refine ⟨la.eigvals (cmvMat (cmvBlocks (alL al n) (al n))), ?_, ?_⟩
  · rw [cmvFinish, if_pos (s1.trans s2.symm)]; rfl
  · refine sortedAngles_of_perm hx.mem ?_
    have hl := hla.eigvals_char (cmvMat (cmvBlocks (alL al n) (al n)))
    have hlen := (eigen_eigvals hla (cmvMat (cmvBlocks (alL al n) (al n)))).1
    have hlen' : (alL al n).length = n := by simp [alL]
    replace hlen := hlen.trans ((Fintype.card_fin _).trans s1)
    rw [hlen'] at hlen
    have hsub : List.ofFn (zC x) ⊆ la.eigvals (cmvMat (cmvBlocks (alL al n) (al n))) := by
      intro w hw
      rw [List.mem_ofFn] at hw
      obtain ⟨j, rfl⟩ := hw
      have := hc j
      rw [← hl, eval_list_prod, List.map_map, List.prod_eq_zero_iff, List.mem_map] at this
      obtain ⟨w, hw, h⟩ := this
      simp only [Function.comp_apply, eval_sub, eval_X, eval_C, sub_eq_zero] at h
      rwa [h]
    exact (((List.nodup_ofFn.2 (zC_inj hx.mem)).subperm hsub).perm_of_length_le (by rw [hlen]; simp)).symm

end Verif.Lemmas
