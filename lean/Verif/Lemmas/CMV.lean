import Verif.Lemmas.RandMat

/-!
The quindiagonal model of the circular ensemble is unitary.
-/

namespace Verif.Lemmas
open Verif Verif.Model Matrix Polynomial
open scoped ComplexOrder

/-- the rows of the block are orthonormal -/
def UnitBlk : Blk → Prop
  | .one z => z * starRingEnd ℂ z = 1
  | .two a b c d => a * starRingEnd ℂ a + b * starRingEnd ℂ b = 1 ∧ c * starRingEnd ℂ c + d * starRingEnd ℂ d = 1 ∧
      a * starRingEnd ℂ c + b * starRingEnd ℂ d = 0

theorem blk_rows : ∀ (bs : List Blk), (∀ b ∈ bs, UnitBlk b) → ∀ i j, i < blkSize bs → j < blkSize bs →
    ∑ k ∈ Finset.range (blkSize bs), blkEntry bs i k * starRingEnd ℂ (blkEntry bs j k) = if i = j then 1 else 0
  | [], _, i, j, hi, _ => by simp [blkSize] at hi
  | .one z :: bs, h, i, j, hi, hj => by
    have ih := blk_rows bs (fun b hb => h b (List.mem_cons_of_mem _ hb))
    have hz : z * starRingEnd ℂ z = 1 := h (.one z) List.mem_cons_self
    rw [blkSize, Finset.sum_range_succ']
    rcases i with _ | i <;> rcases j with _ | j
    · simp [blkEntry, hz]
    · simp [blkEntry]
    · simp [blkEntry]
    · simp only [blkEntry, zero_mul, add_zero]
      rw [ih i j (by simpa [blkSize] using hi) (by simpa [blkSize] using hj)]
      simp
  | .two a b c d :: bs, h, i, j, hi, hj => by
    have ih := blk_rows bs (fun b hb => h b (List.mem_cons_of_mem _ hb))
    obtain ⟨h1, h2, h3⟩ : UnitBlk (.two a b c d) := h (.two a b c d) List.mem_cons_self
    have h4 : c * starRingEnd ℂ a + d * starRingEnd ℂ b = 0 := by
      have := congrArg (starRingEnd ℂ) h3
      simp only [map_add, map_mul, Complex.conj_conj, map_zero] at this
      linear_combination this
    rw [blkSize, Finset.sum_range_succ', Finset.sum_range_succ']
    rcases i with _ | _ | i <;> rcases j with _ | _ | j
    · simp [blkEntry]; linear_combination h1
    · simp [blkEntry]; linear_combination h3
    · simp [blkEntry]
    · simp [blkEntry]; linear_combination h4
    · simp [blkEntry]; linear_combination h2
    · simp [blkEntry]
    · simp [blkEntry]
    · simp [blkEntry]
    · simp only [blkEntry, zero_mul, add_zero]
      rw [ih i j (by simpa [blkSize] using hi) (by simpa [blkSize] using hj)]
      simp

theorem blk_unitary (bs : List Blk) (h : ∀ b ∈ bs, UnitBlk b) {n : ℕ} (hn : blkSize bs = n) :
    (Matrix.of fun i j : Fin n => blkEntry bs i j) ∈ unitaryGroup (Fin n) ℂ := by
  subst hn
  rw [mem_unitaryGroup_iff]
  ext i j
  rw [Matrix.mul_apply, Matrix.one_apply]
  have := blk_rows bs h i j i.2 j.2
  rw [← Fin.sum_univ_eq_sum_range (fun k => blkEntry bs i k * starRingEnd ℂ (blkEntry bs j k))] at this
  simp only [Fin.ext_iff]
  rw [← this]
  rfl

variable {ι : Type} [Fintype ι] [DecidableEq ι]

theorem eigen_unitary {U : Matrix ι ι ℂ} (hU : U ∈ unitaryGroup ι ℂ) {z : ℂ} {v : ι → ℂ} (hv : v ≠ 0) (h : U *ᵥ v = z • v) :
    ‖z‖ = 1 := by
  have h1 : star (U *ᵥ v) ⬝ᵥ (U *ᵥ v) = star v ⬝ᵥ v := by
    rw [Matrix.star_mulVec, ← Matrix.dotProduct_mulVec, Matrix.mulVec_mulVec]
    rw [mem_unitaryGroup_iff'] at hU
    rw [show Uᴴ * U = 1 from hU, Matrix.one_mulVec]
  rw [h, star_smul, smul_dotProduct, dotProduct_smul, smul_eq_mul, smul_eq_mul, ← mul_assoc] at h1
  have h2 := star_dot_pos hv
  have h3 : star z * z = 1 := by
    have : (star z * z - 1) * (star v ⬝ᵥ v) = 0 := by linear_combination h1
    rcases mul_eq_zero.1 this with h | h
    · linear_combination h
    · exact absurd h h2.ne'
  have h4 : ((‖z‖ ^ 2 : ℝ) : ℂ) = 1 := by
    rw [← h3]
    push_cast
    exact (Complex.conj_mul' z).symm
  have h5 : ‖z‖ ^ 2 = 1 := by exact_mod_cast h4
  nlinarith [norm_nonneg z]

theorem xiBlk_unit {α : ℂ} (h : ‖α‖ ≤ 1) : UnitBlk (xiBlk α) := by
  have hs : (((√(1 - ‖α‖ ^ 2) : ℝ) : ℂ)) ^ 2 = 1 - (‖α‖ : ℂ) ^ 2 := by
    rw [← Complex.ofReal_pow, Real.sq_sqrt (by nlinarith [norm_nonneg α])]
    push_cast; rfl
  have hm : starRingEnd ℂ α * α = (‖α‖ : ℂ) ^ 2 := Complex.conj_mul' α
  refine ⟨?_, ?_, ?_⟩
  · rw [Complex.conj_conj, Complex.conj_ofReal, hm]; linear_combination hs
  · rw [Complex.conj_ofReal, map_neg]; linear_combination hs + hm
  · rw [Complex.conj_ofReal, map_neg]; ring

theorem length_everyOther {α : Type} : ∀ l : List α, (everyOther l).length = (l.length + 1) / 2
  | [] => by simp [everyOther]
  | [_] => by simp [everyOther]
  | _ :: _ :: l => by simp [everyOther, length_everyOther l]; omega

theorem mem_everyOther {α : Type} : ∀ (l : List α) (a : α), a ∈ everyOther l → a ∈ l
  | [], a, h => h
  | [_], a, h => h
  | b :: c :: l, a, h => by
    simp only [everyOther, List.mem_cons] at h
    rcases h with h | h
    · simp [h]
    · exact List.mem_cons_of_mem _ (List.mem_cons_of_mem _ (mem_everyOther l a h))

theorem blkSize_append (a b : List Blk) : blkSize (a ++ b) = blkSize a + blkSize b := by
  induction a with
  | nil => simp [blkSize]
  | cons x a ih => cases x <;> simp [blkSize, ih] <;> omega

theorem blkSize_xi (l : List ℂ) : blkSize (l.map xiBlk) = 2 * l.length := by
  induction l with
  | nil => rfl
  | cons x a ih => simp only [List.map_cons, xiBlk, blkSize, ih, List.length_cons]; omega

theorem cmvBlocks_size (al : List ℂ) (z : ℂ) :
    blkSize (cmvBlocks al z).1 = al.length + 1 ∧ blkSize (cmvBlocks al z).2 = al.length + 1 := by
  rw [cmvBlocks]
  split_ifs with h
  · simp only [blkSize_append, blkSize_xi, length_everyOther, blkSize, List.length_tail]
    omega
  · simp only [blkSize_append, blkSize_xi, length_everyOther, blkSize, List.length_tail]
    omega

theorem cmvBlocks_unit {al : List ℂ} {z : ℂ} (h : ∀ a ∈ al, ‖a‖ ≤ 1) (hz : ‖z‖ = 1) :
    (∀ b ∈ (cmvBlocks al z).1, UnitBlk b) ∧ ∀ b ∈ (cmvBlocks al z).2, UnitBlk b := by
  have hlast : UnitBlk (.one (starRingEnd ℂ z)) := by
    show _ = _
    rw [Complex.conj_conj, Complex.conj_mul', hz]; simp
  have h1 : UnitBlk (.one 1) := by show _ = _; simp
  have hl : ∀ b ∈ (everyOther al).map xiBlk, UnitBlk b := by
    intro b hb
    obtain ⟨a, ha, rfl⟩ := List.mem_map.1 hb
    exact xiBlk_unit (h a (mem_everyOther _ _ ha))
  have ht : ∀ b ∈ (everyOther al.tail).map xiBlk, UnitBlk b := by
    intro b hb
    obtain ⟨a, ha, rfl⟩ := List.mem_map.1 hb
    exact xiBlk_unit (h a (List.mem_of_mem_tail (mem_everyOther _ _ ha)))
  rw [cmvBlocks]
  split_ifs
  · refine ⟨hl, ?_⟩
    intro b hb
    simp only [List.mem_append, List.mem_singleton] at hb
    rcases hb with (rfl | hb) | rfl
    · exact h1
    · exact ht b hb
    · exact hlast
  · refine ⟨?_, ?_⟩
    · intro b hb
      simp only [List.mem_append, List.mem_singleton] at hb
      rcases hb with hb | rfl
      · exact hl b hb
      · exact hlast
    · intro b hb
      simp only [List.mem_append, List.mem_singleton] at hb
      rcases hb with rfl | hb
      · exact h1
      · exact ht b hb

theorem normSq_vec {n : ℕ} (g : Fin (n + 2) → ℝ) :
    ‖((vget g 0 : ℝ) : ℂ) + Complex.I * ((vget g 1 : ℝ) : ℂ)‖ ^ 2 = g 0 ^ 2 + g 1 ^ 2 := by
  have h0 : vget g 0 = g 0 := by rw [vget, dif_pos (by omega)]; rfl
  have h1 : vget g 1 = g 1 := by rw [vget, dif_pos (by omega)]; rfl
  rw [h0, h1, mul_comm, Complex.sq_norm, Complex.normSq_add_mul_I]

theorem verblunsky_runs {α : Type} {beta : ℕ} : ∀ (todo : ℕ) (acc : List ℂ) (k : List ℂ → RP α) (o : Outcome α),
    (verblunsky beta todo acc k).Runs o → (∀ a ∈ acc, ‖a‖ ≤ 1) → (todo = 0 → ∀ a ∈ acc.head?, ‖a‖ = 1) →
    o = .valueError ∨ ∃ al : List ℂ, al.length = acc.length + todo ∧ (∀ a ∈ al, ‖a‖ ≤ 1) ∧ (∀ a ∈ al.getLast?, ‖a‖ = 1) ∧
      (k al).Runs o
  | 0, acc, k, o, h, ha, hl => by
    rw [verblunsky] at h
    refine Or.inr ⟨acc.reverse, by simp, by simpa using ha, ?_, h⟩
    simpa using hl rfl
  | n + 1, acc, k, o, h, ha, hl => by
    rw [verblunsky] at h
    simp only [RP.Runs] at h
    rw [if_neg (by norm_num)] at h
    obtain ⟨g, h⟩ := h
    split_ifs at h with h0
    · exact Or.inl h
    have hs : 0 < ∑ i, g i ^ 2 := lt_of_le_of_ne (Finset.sum_nonneg fun i _ => sq_nonneg _) (Ne.symm h0)
    have e : 1 + beta * n + 1 = (beta * n) + 2 := by omega
    have hle : ∀ (m : ℕ) (g : Fin (m + 2) → ℝ), g 0 ^ 2 + g 1 ^ 2 ≤ ∑ i, g i ^ 2 := by
      intro m g
      rw [Fin.sum_univ_succ, Fin.sum_univ_succ, ← add_assoc]
      exact le_add_of_nonneg_right (Finset.sum_nonneg fun i _ => sq_nonneg _)
    have hnorm : ∀ (m : ℕ) (e : m = beta * n + 2) (g : Fin m → ℝ), 0 < ∑ i, g i ^ 2 →
        ‖(((vget g 0 : ℝ) : ℂ) + Complex.I * ((vget g 1 : ℝ) : ℂ)) / ((√(∑ i, g i ^ 2) : ℝ) : ℂ)‖ ≤ 1 ∧
        (n = 0 → ‖(((vget g 0 : ℝ) : ℂ) + Complex.I * ((vget g 1 : ℝ) : ℂ)) / ((√(∑ i, g i ^ 2) : ℝ) : ℂ)‖ = 1) := by
      intro m e g hs
      subst e
      rw [norm_div, Complex.norm_real, Real.norm_of_nonneg (Real.sqrt_nonneg _), div_le_one (Real.sqrt_pos.2 hs)]
      constructor
      · apply Real.le_sqrt_of_sq_le
        rw [normSq_vec]
        exact hle _ g
      · intro hn
        subst hn
        rw [div_eq_one_iff_eq (Real.sqrt_pos.2 hs).ne']
        rw [eq_comm, Real.sqrt_eq_iff_mul_self_eq hs.le (norm_nonneg _), ← sq, normSq_vec]
        simp [Fin.sum_univ_two]
    have hn := hnorm _ e g hs
    rcases verblunsky_runs n _ k o h (by
        intro a h'
        rcases List.mem_cons.1 h' with rfl | h'
        · exact hn.1
        · exact ha a h') (by
        intro h0 a h'
        simp only [List.head?_cons, Option.mem_some_iff] at h'
        subst h'
        exact hn.2 h0) with h | ⟨al, h1, h2, h3, h4⟩
    · exact Or.inl h
    · exact Or.inr ⟨al, by rw [h1, List.length_cons]; omega, h2, h3, h4⟩

end Verif.Lemmas
