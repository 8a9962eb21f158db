import Verif.Lemmas.Diag1
import Mathlib.Algebra.Order.Floor.Semiring
import Mathlib.Data.Real.Archimedean
import Mathlib.Tactic.Positivity
import Mathlib.Tactic.Linarith
import Mathlib.Tactic.FieldSimp

/-!
The drawn segments are the outlines of the boxes.
-/

set_option linter.unusedVariables false

namespace Verif.Lemmas.Diag
open Verif Verif.Model Verif.Spec

theorem lt_conj : ∀ {lam : List ℕ}, lam.Pairwise (· ≥ ·) → ∀ (i j : ℕ), i < conj lam j ↔ ∃ h : i < lam.length, j ≤ lam[i]
  | [], _, i, j => by simp [conj]
  | a :: l, hp, i, j => by
    rw [List.pairwise_cons] at hp
    have ih := lt_conj (lam := l) hp.2
    by_cases hj : j ≤ a
    · have e : conj (a :: l) j = conj l j + 1 := by
        rw [conj, List.countP_cons_of_pos (by simpa using hj)]
        rfl
      rw [e]
      cases i with
      | zero => simpa using hj
      | succ i =>
        rw [Nat.add_lt_add_iff_right, ih]
        simp
    · have e : conj (a :: l) j = 0 := by
        rw [conj, List.countP_eq_zero]
        intro w hw
        rcases List.mem_cons.1 hw with rfl | hw
        · simpa using hj
        · have := hp.1 w hw
          simp
          omega
      rw [e]
      refine ⟨fun h => by omega, ?_⟩
      rintro ⟨h, hh⟩
      exfalso
      have : (a :: l)[i] ∈ a :: l := List.getElem_mem h
      rcases List.mem_cons.1 this with h1 | h1
      · omega
      · have := hp.1 _ h1
        omega

theorem seg_hor (c y a : ℝ) (ha : 0 < a) (P : ℝ × ℝ) :
    P ∈ segment ℝ (c • russian (0, y)) (c • russian (a, y)) ↔ ∃ x, 0 ≤ x ∧ x ≤ a ∧ P = c • russian (x, y) := by
  constructor
  · rintro ⟨s, t, hs, ht, hst, rfl⟩
    refine ⟨t * a, by positivity, by nlinarith, ?_⟩
    have : s = 1 - t := by linarith
    subst this
    ext <;> simp [russian] <;> ring
  · rintro ⟨x, h0, h1, rfl⟩
    refine ⟨1 - x / a, x / a, ?_, by positivity, by ring, ?_⟩
    · rw [sub_nonneg, div_le_one ha]
      exact h1
    · ext <;> simp [russian] <;> field_simp <;> ring

theorem seg_ver (c x a : ℝ) (ha : 0 < a) (P : ℝ × ℝ) :
    P ∈ segment ℝ (c • russian (x, 0)) (c • russian (x, a)) ↔ ∃ y, 0 ≤ y ∧ y ≤ a ∧ P = c • russian (x, y) := by
  constructor
  · rintro ⟨s, t, hs, ht, hst, rfl⟩
    refine ⟨t * a, by positivity, by nlinarith, ?_⟩
    have : s = 1 - t := by linarith
    subst this
    ext <;> simp [russian] <;> ring
  · rintro ⟨y, h0, h1, rfl⟩
    refine ⟨1 - y / a, y / a, ?_, by positivity, by ring, ?_⟩
    · rw [sub_nonneg, div_le_one ha]
      exact h1
    · ext <;> simp [russian] <;> field_simp <;> ring

theorem unit_cell {x : ℝ} {n : ℕ} (hn : 0 < n) (h0 : 0 ≤ x) (h1 : x ≤ n) : ∃ j : ℕ, j < n ∧ (j : ℝ) ≤ x ∧ x ≤ j + 1 := by
  rcases lt_or_ge ⌊x⌋₊ n with h | h
  · exact ⟨⌊x⌋₊, h, Nat.floor_le h0, (Nat.lt_floor_add_one x).le⟩
  · have : (n : ℝ) ≤ x := (Nat.le_floor_iff h0).1 h
    refine ⟨n - 1, by omega, ?_, ?_⟩
    · have : ((n - 1 : ℕ) : ℝ) ≤ n := by exact_mod_cast Nat.sub_le n 1
      linarith
    · rw [Nat.cast_sub (by omega)]
      simpa using h1

/-- the point of the drawing with lattice coordinates `p`, magnified by `c` -/
noncomputable def pt (c : ℝ) (p : ℕ × ℕ) : ℝ × ℝ := c • russian ((p.1 : ℝ), (p.2 : ℝ))

theorem union_eq {lam : List ℕ} (hp : IsPartition lam) {first last : ℕ} (hf : lam.head? = some first)
    (hl : lam.getLast? = some last) {c w : ℝ} (hc : 0 ≤ c) (hw1 : c * lam.length ≤ w) (hw2 : c * first ≤ w) :
    unionSegments (pairUp ((List.zip (youngX lam last) (youngY lam last)).map (pt c))) ∪ wedgeSet w
      = boxesOutline c lam ∪ wedgeSet w := by
  have hfirst : ∀ (i : ℕ) (h : i < lam.length), lam[i] ≤ first := fun i h =>
    (uniq_aux hp hf).2.2 _ (List.mem_cons_of_mem _ ((mem_npUnique _ _).2 (List.mem_reverse.2 (List.getElem_mem h))))
  have h0 : ∃ h : 0 < lam.length, lam[0] = first := by
    cases lam with
    | nil => simp at hf
    | cons a l => exact ⟨by simp, by simpa using hf⟩
  have hconj : ∀ j, j < first → 0 < conj lam (j + 1) := fun j hj => by
    rw [lt_conj hp.2]
    obtain ⟨h, e⟩ := h0
    exact ⟨h, by omega⟩
  have hor : ∀ (i : ℕ) (h : i < lam.length) (x : ℝ), 0 ≤ x → x ≤ lam[i] → c • russian (x, ((i + 1 : ℕ) : ℝ)) ∈
      unionSegments (pairUp ((List.zip (youngX lam last) (youngY lam last)).map (pt c))) := fun i h x hx0 hx1 => by
    refine ⟨_, (mem_segments hp hf hl (pt c) _).2 (Or.inl ⟨i, h, rfl⟩), ?_⟩
    have := (seg_hor c ((i + 1 : ℕ) : ℝ) lam[i] (by exact_mod_cast hp.1 _ (List.getElem_mem h))
      (c • russian (x, ((i + 1 : ℕ) : ℝ)))).2 ⟨x, hx0, hx1, rfl⟩
    simpa [pt] using this
  have ver : ∀ (j : ℕ) (h : j < first) (y : ℝ), 0 ≤ y → y ≤ conj lam (j + 1) → c • russian (((j + 1 : ℕ) : ℝ), y) ∈
      unionSegments (pairUp ((List.zip (youngX lam last) (youngY lam last)).map (pt c))) := fun j h y hy0 hy1 => by
    refine ⟨_, (mem_segments hp hf hl (pt c) _).2 (Or.inr ⟨j, h, rfl⟩), ?_⟩
    have := (seg_ver c ((j + 1 : ℕ) : ℝ) (conj lam (j + 1)) (by exact_mod_cast hconj j h)
      (c • russian (((j + 1 : ℕ) : ℝ), y))).2 ⟨y, hy0, hy1, rfl⟩
    simpa [pt] using this
  apply Set.Subset.antisymm
  · rintro P (⟨s, hs, hP⟩ | hP)
    · left
      rcases (mem_segments hp hf hl (pt c) s).1 hs with ⟨i, h, rfl⟩ | ⟨j, hj, rfl⟩
      · have hpos := hp.1 _ (List.getElem_mem h)
        obtain ⟨x, hx0, hx1, rfl⟩ := (seg_hor c ((i + 1 : ℕ) : ℝ) lam[i] (by exact_mod_cast hpos) P).1 (by simpa [pt] using hP)
        obtain ⟨j, hj, hj1, hj2⟩ := unit_cell hpos hx0 hx1
        exact ⟨i, j, (x, ((i + 1 : ℕ) : ℝ)), ⟨h, hj⟩, ⟨hj1, hj2, by simp, by simp, by simp⟩, rfl⟩
      · obtain ⟨y, hy0, hy1, rfl⟩ := (seg_ver c ((j + 1 : ℕ) : ℝ) (conj lam (j + 1)) (by exact_mod_cast hconj j hj) P).1
          (by simpa [pt] using hP)
        obtain ⟨i, hi, hi1, hi2⟩ := unit_cell (hconj j hj) hy0 hy1
        obtain ⟨h, hh⟩ := (lt_conj hp.2 _ _).1 hi
        exact ⟨i, j, (((j + 1 : ℕ) : ℝ), y), ⟨h, by omega⟩, ⟨by simp, by simp, hi1, hi2, by simp⟩, rfl⟩
    · exact Or.inr hP
  · rintro P (⟨i, j, ⟨x, y⟩, ⟨h, hj⟩, ⟨hx0, hx1, hy0, hy1, hq⟩, rfl⟩ | hP)
    · dsimp only at hx0 hx1 hy0 hy1 hq
      have hjf : j < first := lt_of_lt_of_le hj (hfirst i h)
      have hx : 0 ≤ x := le_trans (Nat.cast_nonneg j) hx0
      have hy : 0 ≤ y := le_trans (Nat.cast_nonneg i) hy0
      rcases hq with e | e | e | e
      · cases j with
        | zero =>
          right
          have e : x = 0 := by simpa using e
          subst e
          have : y ≤ lam.length := hy1.trans (by exact_mod_cast h)
          refine ⟨?_, ?_⟩
          · simp only [russian, Prod.smul_fst, smul_eq_mul, zero_sub, mul_neg, abs_neg]
            rw [abs_of_nonneg (by positivity)]
            exact (mul_le_mul_of_nonneg_left this hc).trans hw1
          · simp only [russian, Prod.smul_fst, Prod.smul_snd, smul_eq_mul, zero_sub, mul_neg, abs_neg, zero_add]
            rw [abs_of_nonneg (by positivity)]
        | succ j =>
          left
          rw [e]
          refine ver j (by omega) y hy (hy1.trans ?_)
          have : i < conj lam (j + 1) := (lt_conj hp.2 _ _).2 ⟨h, by omega⟩
          exact_mod_cast this
      · left
        rw [e]
        have := ver j hjf y hy (hy1.trans (by
          have : i < conj lam (j + 1) := (lt_conj hp.2 _ _).2 ⟨h, by omega⟩
          exact_mod_cast this))
        simpa using this
      · cases i with
        | zero =>
          right
          have e : y = 0 := by simpa using e
          subst e
          have : x ≤ first := hx1.trans (by exact_mod_cast hjf)
          refine ⟨?_, ?_⟩
          · simp only [russian, Prod.smul_fst, smul_eq_mul, sub_zero]
            rw [abs_of_nonneg (by positivity)]
            exact (mul_le_mul_of_nonneg_left this hc).trans hw2
          · simp only [russian, Prod.smul_fst, Prod.smul_snd, smul_eq_mul, sub_zero, add_zero]
            rw [abs_of_nonneg (by positivity)]
        | succ i =>
          left
          rw [e]
          refine hor i (by omega) x hx (hx1.trans ?_)
          have h2 := (List.pairwise_iff_getElem.1 hp.2) i (i + 1) (by omega) h (by omega)
          have : j + 1 ≤ lam[i] := by omega
          exact_mod_cast this
      · left
        rw [e]
        have := hor i h x hx (hx1.trans (by exact_mod_cast hj))
        simpa using this
    · exact Or.inr hP

end Verif.Lemmas.Diag
