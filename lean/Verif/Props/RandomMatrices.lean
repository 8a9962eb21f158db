import Verif.Lemmas.CMV
import Verif.Lemmas.LAExists

/-!
# C53, C54: the banded matrix models
-/

namespace Verif.Props
open Verif Verif.Model Verif.Lemmas Matrix Polynomial

/-- **C53** (Laguerre). Every successful call of the banded Laguerre model returns exactly `size` points, sorted, all non-negative,
whatever was drawn. -/
theorem C53_laguerre_points {la : LA} (hla : LAOK la) {shape scale beta : ℝ} {size : ℕ} {pts : List ℝ}
    (h : (gammaTridiag la shape scale beta size).Runs (.ok pts)) :
    pts.length = size ∧ pts.Pairwise (· ≤ ·) ∧ ∀ x ∈ pts, 0 ≤ x := by
  rw [gammaTridiag] at h
  split_ifs at h with hb
  swap
  · simp [RP.Runs] at h
  simp only [RP.Runs] at h
  split_ifs at h with h1 h2
  · obtain ⟨_, _, ⟨⟩⟩ := h
  obtain ⟨xo, hxo, xe, hxe, he⟩ := h
  obtain rfl := Outcome.ok.inj he
  have hvo : ∀ i, 0 ≤ vget xo i := fun i => by rw [vget]; split_ifs <;> simp [hxo]
  have hve : ∀ i, 0 ≤ shiftZero xe i := fun i => by
    rw [shiftZero]
    split_ifs
    · exact le_rfl
    · rw [vget]; split_ifs <;> simp [hxe]
  refine ⟨(eig_tridiag hla _ _ _).1, (eig_tridiag hla _ _ _).2.1, ?_⟩
  apply eig_tridiag_nonneg hla (fun i => √(vget xo i)) (fun i => √(shiftZero xe i))
  · simp [shiftZero]
  · intro p _
    rw [Real.sq_sqrt (hvo p), Real.sq_sqrt (hve p), xiAlpha, add_comm]
  · intro p _
    rw [xiBeta, Real.sqrt_mul (hvo p)]

/-- **C53** (Jacobi). Every successful call of the banded Jacobi model returns exactly `size` points, sorted, all in `[0, 1]`,
whatever was drawn. -/
theorem C53_jacobi_points {la : LA} (hla : LAOK la) {a b beta : ℝ} {size : ℕ} {pts : List ℝ}
    (h : (betaTridiag la a b beta size).Runs (.ok pts)) :
    pts.length = size ∧ pts.Pairwise (· ≤ ·) ∧ ∀ x ∈ pts, 0 ≤ x ∧ x ≤ 1 := by
  rw [betaTridiag] at h
  split_ifs at h with hb
  swap
  · simp [RP.Runs] at h
  simp only [RP.Runs] at h
  split_ifs at h with h1 h2
  · obtain ⟨_, _, ⟨⟩⟩ := h
  obtain ⟨co, hco, ce, hce, he⟩ := h
  obtain rfl := Outcome.ok.inj he
  have hvo : ∀ i, 0 ≤ vget co i ∧ vget co i ≤ 1 := fun i => by rw [vget]; split_ifs <;> simp [hco]
  have hve : ∀ i, 0 ≤ shiftZero ce i ∧ shiftZero ce i ≤ 1 := fun i => by
    rw [shiftZero]
    split_ifs
    · simp
    · rw [vget]; split_ifs <;> simp [hce]
  refine ⟨(eig_tridiag hla _ _ _).1, (eig_tridiag hla _ _ _).2.1, fun x hx => ⟨?_, ?_⟩⟩
  · refine eig_tridiag_nonneg hla (fun i => √(betaXiOdd (vget co) (shiftZero ce) i))
      (fun i => √(betaXiEven (vget co) (shiftZero ce) i)) ?_ ?_ ?_ x hx
    · simp [betaXiEven]
    · intro p _
      have h1 : 0 ≤ betaXiOdd (vget co) (shiftZero ce) p := mul_nonneg (by linarith [(hve p).2]) (hvo p).1
      have h2 : 0 ≤ betaXiEven (vget co) (shiftZero ce) p := by
        rw [betaXiEven]
        split_ifs
        · exact le_rfl
        · exact mul_nonneg (by linarith [(hvo (p - 1)).2]) (hve p).1
      rw [Real.sq_sqrt h1, Real.sq_sqrt h2, xiAlpha, add_comm]
    · intro p _
      have h1 : 0 ≤ betaXiOdd (vget co) (shiftZero ce) p := mul_nonneg (by linarith [(hve p).2]) (hvo p).1
      rw [xiBeta, Real.sqrt_mul h1]
  · refine eig_tridiag_le_one hla (fun i => √((1 - shiftZero ce i) * (1 - vget co i)))
      (fun i => - √(if i = 0 then 0 else vget co (i - 1) * shiftZero ce i)) ?_ ?_ ?_ x hx
    · simp
    · intro p _
      have h1 : 0 ≤ (1 - shiftZero ce p) * (1 - vget co p) := mul_nonneg (by linarith [(hve p).2]) (by linarith [(hvo p).2])
      have h2 : 0 ≤ (if p = 0 then 0 else vget co (p - 1) * shiftZero ce p) := by
        split_ifs
        · exact le_rfl
        · exact mul_nonneg (hvo _).1 (hve p).1
      rw [Real.sq_sqrt h1, neg_sq, Real.sq_sqrt h2, xiAlpha, betaXiEven, betaXiOdd]
      by_cases hp : p = 0
      · subst hp; simp [shiftZero]
      · simp only [hp, if_false]; ring
    · intro p _
      have h1 : 0 ≤ (1 - shiftZero ce p) * (1 - vget co p) := mul_nonneg (by linarith [(hve p).2]) (by linarith [(hvo p).2])
      simp only [Nat.add_eq_zero_iff, one_ne_zero, and_false, if_false, Nat.add_sub_cancel]
      rw [mul_neg, ← Real.sqrt_mul h1, xiBeta, betaXiOdd, betaXiEven]
      simp only [Nat.add_eq_zero_iff, one_ne_zero, and_false, if_false, Nat.add_sub_cancel]
      congr 2
      ring

/-- **C53** (no spurious failure). With `beta > 0`, non-negative shape and scale (Laguerre), positive `a`, `b` (Jacobi), the banded
models never raise. -/
theorem C53_legal_parameters_succeed {la : LA} {beta : ℝ} (hb : 0 < beta) {size : ℕ} :
    (∀ {shape scale : ℝ}, 0 ≤ shape → 0 ≤ scale → (∃ o, (gammaTridiag la shape scale beta size).Runs o) ∧
      ∀ o, (gammaTridiag la shape scale beta size).Runs o → ∃ pts, o = .ok pts) ∧
    (∀ {a b : ℝ}, 0 < a → 0 < b → (∃ o, (betaTridiag la a b beta size).Runs o) ∧
      ∀ o, (betaTridiag la a b beta size).Runs o → ∃ pts, o = .ok pts) := by
  have hpos : ∀ i : Fin size, 0 ≤ 0.5 * beta * ((size : ℝ) - 1 - (i : ℕ)) := by
    intro i
    have : ((i : ℕ) : ℝ) + 1 ≤ size := by exact_mod_cast i.2
    exact mul_nonneg (by positivity) (by linarith)
  have hpos1 : ∀ i : Fin (size - 1), 0 < 0.5 * beta * ((size : ℝ) - 1 - (i : ℕ)) ∧
      0 ≤ 0.5 * beta * ((size : ℝ) - 1 - ((i : ℕ) + 1)) := by
    intro i
    have : ((i : ℕ) : ℝ) + 1 + 1 ≤ size := by
      have := i.2
      exact_mod_cast (by omega : (i : ℕ) + 1 + 1 ≤ size)
    exact ⟨mul_pos (by positivity) (by linarith), mul_nonneg (by positivity) (by linarith)⟩
  constructor
  · intro shape scale hs hc
    rw [gammaTridiag, if_neg (by simpa using hb)]
    have e1 : ¬ ((∃ i : Fin size, 0.5 * beta * ((size : ℝ) - 1 - (i : ℕ)) + shape < 0) ∨ scale < 0) := by
      push Not; exact ⟨fun i => by linarith [hpos i], hc⟩
    have e2 : ¬ ((∃ i : Fin (size - 1), 0.5 * beta * ((size : ℝ) - 1 - (i : ℕ)) < 0) ∨ scale < 0) := by
      push Not; exact ⟨fun i => (hpos1 i).1.le, hc⟩
    simp only [RP.Runs, e1, e2, if_false]
    refine ⟨⟨_, fun _ => 1, by simp, fun _ => 1, by simp, rfl⟩, ?_⟩
    rintro o ⟨xo, _, xe, _, h⟩
    exact ⟨_, h⟩
  · intro a b ha hb'
    rw [betaTridiag, if_neg (by simpa using hb)]
    have e1 : ¬ ∃ i : Fin size, 0.5 * beta * ((size : ℝ) - 1 - (i : ℕ)) + a ≤ 0 ∨
        0.5 * beta * ((size : ℝ) - 1 - (i : ℕ)) + b ≤ 0 := by
      push Not; exact fun i => ⟨by linarith [hpos i], by linarith [hpos i]⟩
    have e2 : ¬ ∃ i : Fin (size - 1), 0.5 * beta * ((size : ℝ) - 1 - (i : ℕ)) ≤ 0 ∨
        0.5 * beta * ((size : ℝ) - 1 - ((i : ℕ) + 1)) + a + b ≤ 0 := by
      push Not; exact fun i => ⟨(hpos1 i).1, by linarith [(hpos1 i).2]⟩
    simp only [RP.Runs, e1, e2, if_false]
    refine ⟨⟨_, fun _ => 1, by simp, fun _ => 1, by simp, rfl⟩, ?_⟩
    rintro o ⟨xo, _, xe, _, h⟩
    exact ⟨_, h⟩

/-- a run of each model exists -/
example (la : LA) : ∃ pts, (gammaTridiag la 1 2 2 3).Runs (.ok pts) := by
  obtain ⟨⟨o, ho⟩, h⟩ := (C53_legal_parameters_succeed (la := la) (beta := 2) (by norm_num) (size := 3)).1
    (shape := 1) (scale := 2) (by norm_num) (by norm_num)
  obtain ⟨pts, rfl⟩ := h o ho
  exact ⟨pts, ho⟩

/-- **C54.** Every successful call of the quindiagonal model returns exactly `size` points, all on the unit circle, whatever was
drawn. -/
theorem C54_quindiagonal_unit_circle {la : LA} (hla : LAOK la) {beta : ℤ} {size : ℕ} {pts : List ℂ}
    (h : (unifQuindiag la beta size).Runs (.ok pts)) : pts.length = size ∧ ∀ z ∈ pts, ‖z‖ = 1 := by
  rw [unifQuindiag] at h
  split_ifs at h with hb
  swap
  · simp [RP.Runs] at h
  rcases verblunsky_runs _ _ _ _ h (by simp) (by simp) with h | ⟨al, hlen, hd, hl, h⟩
  · cases h
  rcases hg : al.getLast? with _ | z
  · rw [hg] at h; simp [RP.Runs] at h
  rw [hg] at h
  have hz : ‖z‖ = 1 := hl z (by rw [hg]; rfl)
  have hne : al ≠ [] := by rintro rfl; simp at hg
  have hsz := cmvBlocks_size al.dropLast z
  have hlen' : al.dropLast.length + 1 = size := by
    rw [List.length_dropLast, hlen]
    have := List.length_pos_iff.2 hne
    simp at hlen ⊢
    omega
  have hu := cmvBlocks_unit (fun a ha => hd a (List.mem_of_mem_dropLast ha)) hz
  simp only [cmvFinish] at h
  rw [if_pos (hsz.1.trans hsz.2.symm)] at h
  obtain rfl := Outcome.ok.inj h
  set bs := cmvBlocks al.dropLast z with hbs
  have hU : (Matrix.of fun i j : Fin (blkSize bs.1) => ∑ k : Fin (blkSize bs.1), blkEntry bs.1 i k * blkEntry bs.2 k j)
      ∈ unitaryGroup (Fin (blkSize bs.1)) ℂ := by
    have := mul_mem (blk_unitary bs.1 hu.1 rfl) (blk_unitary bs.2 hu.2 (hsz.2.trans hsz.1.symm))
    convert this using 1
    ext i j
    rw [Matrix.mul_apply]
    rfl
  have he := eigen_eigvals hla (Matrix.of fun i j : Fin (blkSize bs.1) =>
    ∑ k : Fin (blkSize bs.1), blkEntry bs.1 i k * blkEntry bs.2 k j)
  refine ⟨?_, fun w hw => ?_⟩
  · rw [he.1, Fintype.card_fin, hsz.1, hlen']
  · obtain ⟨v, hv, h⟩ := he.2 w hw
    exact eigen_unitary hU hv h

theorem verblunsky_exists {α : Type} (beta : ℕ) (k : List ℂ → RP α) (P : Outcome α → Prop) : ∀ (n : ℕ) (acc : List ℂ),
    (∀ al : List ℂ, al.length = n + acc.length → ∃ o, (k al).Runs o ∧ P o) → ∃ o, (verblunsky beta n acc k).Runs o ∧ P o := by
  intro n
  induction n with
  | zero => intro acc h; exact h _ (by simp)
  | succ n ih =>
    intro acc h
    have h01 : ¬ ((1 : ℝ) < 0) := by norm_num
    have hne : ¬ (∑ i : Fin (1 + beta * n + 1), ((fun _ => 1 : Fin (1 + beta * n + 1) → ℝ) i) ^ 2) = 0 := by
      simp; positivity
    obtain ⟨o, ho, hP⟩ := ih ((((vget (fun _ => 1 : Fin (1 + beta * n + 1) → ℝ) 0 : ℝ) : ℂ) +
      Complex.I * ((vget (fun _ => 1 : Fin (1 + beta * n + 1) → ℝ) 1 : ℝ) : ℂ)) /
        ((√(∑ i, ((fun _ => 1 : Fin (1 + beta * n + 1) → ℝ) i) ^ 2) : ℝ) : ℂ) :: acc)
      (fun al hal => h al (by simp at hal ⊢; omega))
    refine ⟨o, ?_, hP⟩
    simp only [verblunsky, RP.Runs, h01, if_false]
    refine ⟨fun _ => 1, ?_⟩
    rw [if_neg hne]
    exact ho

/-- **C54** (the model does return). For every positive integer `beta` and every `size >= 1` some draw makes the quindiagonal model
return. -/
theorem C54_quindiagonal_succeeds {la : LA} {beta : ℤ} (hb : 0 < beta) {size : ℕ} (hs : 1 ≤ size) :
    ∃ pts, (unifQuindiag la beta size).Runs (.ok pts) := by
  rw [unifQuindiag, if_neg (by simpa using hb)]
  obtain ⟨o, ho, pts, rfl⟩ := verblunsky_exists beta.toNat (fun al : List ℂ =>
    match al.getLast? with
    | none => (.fail .valueError : RP (List ℂ))
    | some z => cmvFinish la (cmvBlocks al.dropLast z)) (fun o => ∃ pts, o = .ok pts) size [] (by
      intro al hal
      have hne : al ≠ [] := by rintro rfl; simp at hal; omega
      rw [List.getLast?_eq_getLast_of_ne_nil hne]
      simp only [cmvFinish]
      have hsz := cmvBlocks_size al.dropLast (al.getLast hne)
      rw [if_pos (hsz.1.trans hsz.2.symm)]
      exact ⟨_, rfl, _, rfl⟩)
  exact ⟨pts, ho⟩

/-- the hypotheses are met: contracts and runs exist together -/
example : ∃ la, LAOK la ∧ (∃ pts, (unifQuindiag la 2 5).Runs (.ok pts)) ∧ ∃ pts, (betaTridiag la 1 2 2 3).Runs (.ok pts) := by
  obtain ⟨la, hla⟩ := exists_LAOK
  refine ⟨la, hla, C54_quindiagonal_succeeds (by norm_num) (by norm_num), ?_⟩
  obtain ⟨-, h2⟩ := C53_legal_parameters_succeed (la := la) (beta := 2) (by norm_num) (size := 3)
  obtain ⟨⟨o, ho⟩, h⟩ := h2 (a := 1) (b := 2) (by norm_num) (by norm_num)
  obtain ⟨pts, rfl⟩ := h o ho
  exact ⟨pts, ho⟩

end Verif.Props
