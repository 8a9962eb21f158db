import Verif.Model.Permutation
import Mathlib.Data.List.Perm.Basic
import Mathlib.Data.List.Nodup
import Mathlib.Data.List.Count
import Mathlib.Data.Nat.Factorial.Basic
import Mathlib.Algebra.CharZero.Defs

namespace Verif.Model
open Verif

theorem swapAt_eq {s : List ℕ} {i j : ℕ} (hi : i < s.length) (hj : j < s.length) :
    swapAt s i j = (s.set i s[j]).set j s[i] := by
  simp [swapAt, hi, hj]

theorem swapAt_self {s : List ℕ} {i : ℕ} (hi : i < s.length) : swapAt s i i = s := by
  simp [swapAt_eq hi hi]

theorem length_swapAt (s : List ℕ) (i j : ℕ) : (swapAt s i j).length = s.length := by
  unfold swapAt; split <;> simp

theorem swapAt_getElem? {s : List ℕ} {i j : ℕ} (hi : i < s.length) (hj : j < s.length) (k : ℕ) :
    (swapAt s i j)[k]? = if j = k then s[i]? else if i = k then s[j]? else s[k]? := by
  rw [swapAt_eq hi hj, List.getElem?_set, List.getElem?_set, List.length_set]
  by_cases h1 : j = k
  · simp [h1, hi, h1 ▸ hj]
  · by_cases h2 : i = k
    · simp [h1, h2, hj, h2 ▸ hi]
    · simp [h1, h2]

theorem swapAt_swapAt {s : List ℕ} {i j : ℕ} (hi : i < s.length) (hj : j < s.length) :
    swapAt (swapAt s i j) i j = s := by
  apply List.ext_getElem?
  intro k
  rw [swapAt_getElem? (by rwa [length_swapAt]) (by rwa [length_swapAt]),
    swapAt_getElem? hi hj, swapAt_getElem? hi hj, swapAt_getElem? hi hj]
  by_cases h1 : j = k <;> by_cases h2 : i = k <;> by_cases h3 : i = j <;> simp_all

theorem swapAt_perm {s : List ℕ} {i j : ℕ} (hi : i < s.length) (hj : j < s.length) :
    (swapAt s i j).Perm s := by
  rw [swapAt_eq hi hj]
  exact List.set_set_perm hi hj

theorem swapAt_drop {s : List ℕ} {i j : ℕ} (hj : j ≤ i) (hi : i < s.length) :
    (swapAt s j i).drop i = s[j] :: s.drop (i + 1) := by
  rw [swapAt_eq (by omega) hi]
  rw [List.drop_eq_getElem_cons (by simpa using hi)]
  congr 1
  · simp
  · rw [List.drop_set_of_lt (by omega), List.drop_set_of_lt (by omega)]

theorem sum_range_unique {R : Type*} [Field R] (n : ℕ) (p : ℕ → Prop) [DecidablePred p] (c : R)
    (j₀ : ℕ) (hj₀ : j₀ < n) (hp : ∀ j < n, p j ↔ j = j₀) :
    ((List.range n).map fun j => if p j then c else 0).sum = c := by
  have : ((List.range n).map fun j => if p j then c else 0)
      = (List.range n).map fun j => if j = j₀ then c else 0 := by
    apply List.map_congr_left
    intro j hj
    simp only [List.mem_range] at hj
    simp only [hp j hj]
  rw [this]
  clear this hp
  induction n with
  | zero => omega
  | succ n ih =>
    rw [List.range_succ, List.map_append, List.sum_append]
    by_cases h : j₀ = n
    · subst h
      have : ((List.range j₀).map fun j => if j = j₀ then c else 0)
          = (List.range j₀).map fun _ => (0:R) := by
        apply List.map_congr_left
        intro j hj
        simp only [List.mem_range] at hj
        rw [if_neg (by omega)]
      simp [this]
    · rw [ih (by omega)]
      simp [Ne.symm h]

open Classical in
theorem fyLoop_prob {R : Type*} [Field R] [CharZero R] (i : ℕ) (s t : List ℕ) (hs : s.Nodup)
    (hi : i < s.length) :
    (fyLoop R i s).prob (· = t)
      = if t.Perm s ∧ t.drop (i + 1) = s.drop (i + 1) then 1 / ((i + 1).factorial : R) else 0 := by
  induction i generalizing s with
  | zero =>
    simp only [Dist.prob, fyLoop, Dist.E_ret]
    have : (s = t) ↔ (t.Perm s ∧ t.drop 1 = s.drop 1) := by
      constructor
      · rintro rfl; exact ⟨.refl _, rfl⟩
      · rintro ⟨hp, hd⟩
        match s, t, hp, hd with
        | [], _, _, _ => simp at hi
        | a :: s, [], hp, _ => simp at hp
        | a :: s, b :: t, hp, hd =>
          simp only [List.drop_succ_cons, List.drop_zero] at hd
          subst hd
          have := hp.mem_iff (a := b)
          simp only [List.mem_cons, true_or, true_iff] at this
          rcases this with h | h
          · rw [h]
          · have h2 := (hp.nodup_iff).2 hs
            simp [h] at h2
    simp [this]
  | succ i ih =>
    have hstep : (fyLoop R (i+1) s).prob (· = t) = (1 / ((i + 2 : ℕ) : R)) *
        ((List.range (i + 2)).map fun j =>
          (fyLoop R i (swapAt s j (i+1))).prob (· = t)).sum := by
      unfold Dist.prob
      rw [fyLoop, Dist.E_bind, Dist.E_randint]
      congr 2
      apply List.map_congr_left
      intro j hj
      split
      · next h => subst h; rw [swapAt_self hi]
      · rfl
    rw [hstep]
    have hrec : ((List.range (i + 2)).map fun j =>
          (fyLoop R i (swapAt s j (i+1))).prob (· = t))
        = (List.range (i + 2)).map fun j =>
          if (t.Perm s ∧ t.drop (i + 2) = s.drop (i + 2) ∧ t[i+1]? = s[j]?) then
            1 / ((i + 1).factorial : R) else 0 := by
      apply List.map_congr_left
      intro j hj
      simp only [List.mem_range] at hj
      have hjl : j < s.length := by omega
      have hp := swapAt_perm (s := s) hjl hi
      rw [ih _ ((hp.nodup_iff).2 hs) (by rw [length_swapAt]; omega)]
      rw [swapAt_drop (by omega) hi]
      congr 1
      apply propext
      constructor
      · rintro ⟨h1, h2⟩
        have h1' := h1.trans hp
        have hlt : i + 1 < t.length := by rw [h1'.length_eq]; exact hi
        rw [List.drop_eq_getElem_cons hlt] at h2
        simp only [List.cons.injEq] at h2
        exact ⟨h1', h2.2, by simp [hlt, hjl, h2.1]⟩
      · rintro ⟨h1, h2, h3⟩
        refine ⟨h1.trans hp.symm, ?_⟩
        have hlt : i + 1 < t.length := by rw [h1.length_eq]; exact hi
        rw [List.drop_eq_getElem_cons hlt, h2]
        simp only [hlt, hjl, List.getElem?_eq_getElem, Option.some.injEq] at h3
        rw [h3]
    rw [hrec]
    by_cases hc : t.Perm s ∧ t.drop (i + 2) = s.drop (i + 2)
    · rw [if_pos hc]
      obtain ⟨h1, h2⟩ := hc
      have hlt : i + 1 < t.length := by rw [h1.length_eq]; exact hi
      have hpt : (t.take (i+2)).Perm (s.take (i+2)) := by
        have e1 := List.take_append_drop (i+2) t
        have e2 := List.take_append_drop (i+2) s
        rw [← e1, ← e2, h2] at h1
        exact (List.perm_append_right_iff _).1 h1
      have hmem : t[i+1] ∈ s.take (i+2) := by
        rw [← hpt.mem_iff]
        rw [List.mem_take_iff_getElem]
        exact ⟨i+1, by omega, rfl⟩
      rw [List.mem_take_iff_getElem] at hmem
      obtain ⟨j₀, hj₀, hj₀e⟩ := hmem
      rw [sum_range_unique (i+2) _ _ j₀ (by omega)]
      · rw [Nat.factorial_succ (i+1)]
        push_cast
        rw [one_div_mul_one_div, show ((i:R) + 2) = (i:R) + 1 + 1 by ring]
      · intro j hj
        constructor
        · rintro ⟨_, _, h3⟩
          have hjl : j < s.length := by omega
          simp only [hlt, hjl, List.getElem?_eq_getElem, Option.some.injEq] at h3
          rw [← hj₀e] at h3
          exact ((List.Nodup.getElem_inj_iff hs).1 h3).symm
        · rintro rfl
          refine ⟨h1, h2, ?_⟩
          have hjl : j < s.length := by omega
          simp [hlt, hjl, hj₀e]
    · rw [if_neg hc]
      have : ((List.range (i + 2)).map fun j =>
          if (t.Perm s ∧ t.drop (i + 2) = s.drop (i + 2) ∧ t[i+1]? = s[j]?) then
            1 / ((i + 1).factorial : R) else 0) = (List.range (i + 2)).map fun _ => (0:R) := by
        apply List.map_congr_left
        intro j _
        rw [if_neg]
        tauto
      rw [this]
      simp

theorem fyLoop_perm {R : Type*} [Field R] (i : ℕ) (s : List ℕ) (hi : i < s.length ∨ i = 0)
    (t : List ℕ) (w : R) (h : (t, w) ∈ fyLoop R i s) : t.Perm s := by
  induction i generalizing s w with
  | zero =>
    simp only [fyLoop, Dist.ret, List.mem_singleton, Prod.mk.injEq] at h
    rw [h.1]
  | succ i ih =>
    simp only [fyLoop, Dist.bind, Dist.randint, Dist.choice, List.mem_flatMap, List.mem_map,
      List.mem_range, Prod.exists, Prod.mk.injEq] at h
    obtain ⟨j, w1, ⟨j', hj', rfl, -⟩, t', w2, hm, rfl, -⟩ := h
    split at hm
    · exact ih s (by omega) _ hm
    · refine (ih _ ?_ _ hm).trans (swapAt_perm (by omega) (by omega))
      left; rw [length_swapAt]; omega

end Verif.Model
