import Verif.Lemmas.MCMCRev
import Verif.Lemmas.Permutation

set_option linter.unusedSectionVars false

namespace Verif.Model
open Verif Verif.Spec Verif.Dist

variable {N : ℕ} {K : Matrix (Fin N) (Fin N) ℝ}

theorem initLoop_ok {tol : ℝ} {draw : Dist ℝ (Outcome (List (Fin N)))} : ∀ (n : ℕ) (s : St N) (S),
    (initLoop K tol draw n s).Possible (.ok S) →
    (tol < s.det ∧ S = s.S) ∨ (draw.Possible (.ok S) ∧ tol < detL K S) := by
  intro n
  induction n with
  | zero => intro s S h; rw [initLoop, Possible.ret_iff] at h; cases h
  | succ n ih =>
    intro s S h
    rw [initLoop] at h
    split at h
    · rename_i hd
      rw [Possible.ret_iff] at h
      cases h
      exact Or.inl ⟨hd, rfl⟩
    · rw [possible_andThen] at h
      rcases h with ⟨S', h1, h2⟩ | ⟨e, _, h⟩
      · rcases ih _ _ h2 with ⟨h3, rfl⟩ | h3
        · exact Or.inr ⟨h1, h3⟩
        · exact Or.inr h3
      · cases h

theorem initLoop_raise {tol : ℝ} {draw : Dist ℝ (Outcome (List (Fin N)))}
    (hd : ∀ e, draw.Possible (.raise e) → e = .valueError) : ∀ (n : ℕ) (s : St N) (e),
    (initLoop K tol draw n s).Possible (.raise e) → e = .valueError := by
  intro n
  induction n with
  | zero => intro s e h; rw [initLoop, Possible.ret_iff] at h; cases h; rfl
  | succ n ih =>
    intro s S h
    rw [initLoop] at h
    split at h
    · rw [Possible.ret_iff] at h; cases h
    · rw [possible_andThen] at h
      rcases h with ⟨S', h1, h2⟩ | ⟨e, h1, h⟩
      · exact ih _ _ h2
      · cases h; exact hd _ h1

open Classical in
/-- probability that a draw is rejected -/
noncomputable def rejP (K : Matrix (Fin N) (Fin N) ℝ) (tol : ℝ) (draw : Dist ℝ (Outcome (List (Fin N)))) : ℝ :=
  E draw (lift fun S => if tol < detL K S then 0 else 1)

open Classical in
theorem E_initLoop {tol : ℝ} {draw : Dist ℝ (Outcome (List (Fin N)))} (F : List (Fin N) → ℝ) :
    ∀ (n : ℕ) (s : St N), s.det ≤ tol →
    E (initLoop K tol draw (n + 1) s) (lift F)
      = E draw (lift fun S => if tol < detL K S then F S else 0) * ∑ j ∈ Finset.range n, rejP K tol draw ^ j := by
  intro n
  induction n with
  | zero =>
    intro s hs
    rw [initLoop, if_neg (not_lt.2 hs), E_andThen]
    simp only [initLoop, E_ret, Finset.range_zero, Finset.sum_empty, mul_zero]
    refine E_eq_zero fun a w _ => ?_
    cases a <;> rfl
  | succ n ih =>
    intro s hs
    rw [initLoop, if_neg (not_lt.2 hs), E_andThen]
    set g := E draw (lift fun S => if tol < detL K S then F S else 0)
    have h1 : ∀ S, E (initLoop K tol draw (n + 1) (stInit K S)) (lift F)
        = (if tol < detL K S then F S else 0) + (if tol < detL K S then 0 else 1) *
          (g * ∑ j ∈ Finset.range n, rejP K tol draw ^ j) := by
      intro S
      split
      · rename_i h
        rw [initLoop, if_pos (show tol < (stInit K S).det from h), E_ret]; simp [lift, stInit]
      · rename_i h
        rw [ih _ (not_lt.1 h)]; ring
    have h2 : (lift fun S => E (initLoop K tol draw (n + 1) (stInit K S)) (lift F))
        = fun o => lift (fun S => if tol < detL K S then F S else 0) o
          + lift (fun S => if tol < detL K S then 0 else 1) o * (g * ∑ j ∈ Finset.range n, rejP K tol draw ^ j) := by
      funext o
      cases o with
      | ok S => exact h1 S
      | raise e => simp [lift]
    rw [h2, E_add, E_mul_right]
    rw [Finset.sum_range_succ', pow_zero, mul_add, mul_one, add_comm]
    congr 1
    simp only [pow_succ, ← Finset.sum_mul]
    unfold rejP
    ring

open Classical in
theorem prob_initLoop_fail {tol : ℝ} {draw : Dist ℝ (Outcome (List (Fin N)))}
    (hd : ∀ e, ¬ draw.Possible (.raise e)) (hm : E draw (lift fun _ => 1) = 1) :
    ∀ (n : ℕ) (s : St N), s.det ≤ tol →
    (initLoop K tol draw (n + 1) s).prob (fun r => r = .raise .valueError) = rejP K tol draw ^ n := by
  intro n
  induction n with
  | zero =>
    intro s hs
    rw [initLoop, if_neg (not_lt.2 hs), prob_eq, andThen, E_bind, pow_zero]
    refine Eq.trans ?_ hm
    apply Dist.E_congr_possible
    intro o ho
    cases o with
    | ok S => simp [lift, initLoop]
    | raise e => exact absurd ho (hd e)
  | succ n ih =>
    intro s hs
    rw [initLoop, if_neg (not_lt.2 hs), prob_eq, andThen, E_bind, pow_succ', rejP, ← E_mul_right]
    apply Dist.E_congr_possible
    intro o ho
    cases o with
    | raise e => exact absurd ho (hd e)
    | ok S =>
      simp only [lift]
      split
      · rename_i h
        rw [initLoop, if_pos (show tol < (stInit K S).det from h), E_ret]; simp
      · rename_i h
        have := ih (stInit K S) (not_lt.1 h)
        rw [prob_eq] at this
        rw [this]; simp [rejP]

theorem fyLoop_mass (i : ℕ) : ∀ s, E (fyLoop ℝ i s) (fun _ => 1) = 1 := by
  induction i with
  | zero => intro s; simp [fyLoop]
  | succ i ih =>
    intro s
    rw [fyLoop, E_bind, E_randint]
    have : ∀ j ∈ List.range (i + 2), E (if j = i + 1 then fyLoop ℝ i s else fyLoop ℝ i (swapAt s j (i + 1)))
        (fun _ => 1) = (1:ℝ) := by
      intro j _; split <;> exact ih _
    rw [List.map_congr_left this, List.map_const', List.sum_replicate]
    simp only [List.length_range, nsmul_eq_mul, mul_one]
    exact one_div_mul_cancel (by positivity)

theorem uniformPermutation_perm {n : ℕ} {l : List ℕ} (h : (uniformPermutation ℝ n).Possible l) :
    l.Perm (List.range n) := by
  obtain ⟨w, hm, -⟩ := h
  refine fyLoop_perm (n - 1) (List.range n) ?_ l w hm
  simp only [List.length_range]; omega

theorem choiceNoReplace_ok {n k : ℕ} {l : List ℕ} (h : (choiceNoReplace n k).Possible (.ok l)) :
    l.Nodup ∧ l.length = k ∧ ∀ i ∈ l, i < n := by
  unfold choiceNoReplace at h
  split at h
  · rw [Possible.ret_iff] at h; cases h
  · rename_i hk
    rw [Possible.map_iff] at h
    obtain ⟨t, ht, h⟩ := h
    cases h
    have hp := uniformPermutation_perm ht
    refine ⟨(hp.nodup_iff.2 List.nodup_range).sublist (List.take_sublist _ _), ?_, ?_⟩
    · rw [List.length_take, hp.length_eq, List.length_range]; omega
    · intro i hi
      have := hp.mem_iff.1 (List.mem_of_mem_take hi)
      simpa using this

theorem choiceNoReplace_raise {n k : ℕ} {e} (h : (choiceNoReplace n k).Possible (.raise e)) :
    e = .valueError ∧ n < k := by
  unfold choiceNoReplace at h
  split at h
  · rename_i hk; rw [Possible.ret_iff] at h; cases h; exact ⟨rfl, hk⟩
  · rw [Possible.map_iff] at h
    obtain ⟨t, ht, h⟩ := h
    cases h

theorem choiceNoReplace_mass {n k : ℕ} (h : k ≤ n) (c : ℝ) :
    E (choiceNoReplace n k) (lift fun _ => c) = c := by
  unfold choiceNoReplace
  rw [if_neg (by omega), E_map]
  simp only [lift]
  have := E_mul_right (uniformPermutation ℝ n) (fun _ => 1) c
  simp only [one_mul] at this
  rw [this, uniformPermutation, fyLoop_mass, one_mul]

theorem toItems_spec {l : List ℕ} (hn : l.Nodup) (hl : ∀ i ∈ l, i < N) :
    (toItems N l).Nodup ∧ (toItems N l).length = l.length ∧ (toItems N l).map Fin.val = l := by
  have h3 : (toItems N l).map Fin.val = l := by
    clear hn
    induction l with
    | nil => rfl
    | cons a l ih =>
      have ha := hl a (by simp)
      have := ih (fun i hi => hl i (by simp [hi]))
      simp only [toItems, List.filterMap_cons, dif_pos ha, List.map_cons] at this ⊢
      rw [this]
  refine ⟨?_, ?_, h3⟩
  · exact List.Nodup.of_map Fin.val (by rw [h3]; exact hn)
  · have := congrArg List.length h3
    simpa using this

theorem aedDraw_ok {S : List (Fin N)} (h : (aedDraw N).Possible (.ok S)) : S.Nodup := by
  rw [aedDraw, possible_andThen] at h
  rcases h with ⟨T, -, h⟩ | ⟨e, _, h⟩
  · rw [Possible.ret_iff] at h; cases h
    exact (List.nodup_finRange N).filter _
  · cases h

theorem aedDraw_noraise {e} : ¬ (aedDraw N).Possible (.raise e) := by
  intro h
  rw [aedDraw, possible_andThen] at h
  rcases h with ⟨T, -, h⟩ | ⟨e, h, _⟩
  · rw [Possible.ret_iff] at h; cases h
  · have := (choiceNoReplace_raise h).2; omega

theorem aedDraw_mass : E (aedDraw N) (lift fun _ => 1) = 1 := by
  rw [aedDraw, E_andThen]
  simp only [E_ret]
  exact choiceNoReplace_mass (by omega) 1

theorem draw_items_ok {n k : ℕ} {S : List (Fin n)}
    (h : ((choiceNoReplace n k).andThen fun l => Dist.ret (.ok (toItems n l))).Possible (.ok S)) :
    S.Nodup ∧ S.length = k := by
  rw [possible_andThen] at h
  rcases h with ⟨T, h1, h⟩ | ⟨e, _, h⟩
  · rw [Possible.ret_iff] at h; cases h
    obtain ⟨a, b, c⟩ := choiceNoReplace_ok h1
    obtain ⟨d, e, _⟩ := toItems_spec a c
    exact ⟨d, e.trans b⟩
  · cases h

theorem adDraw_ok {S : List (Fin N)} {size : Option ℕ} (h : (adDraw N size).Possible (.ok S)) :
    S.Nodup ∧ (∀ k, size = some k → 0 < k → S.length = k) ∧ 0 < S.length := by
  rw [adDraw.eq_def] at h
  split at h
  · obtain ⟨a, b⟩ := draw_items_ok h
    refine ⟨a, ?_, by omega⟩
    rintro k h _; cases h; exact b
  · rename_i hne
    rw [possible_andThen] at h
    rcases h with ⟨j, -, h⟩ | ⟨e, _, h⟩
    · obtain ⟨a, b⟩ := draw_items_ok h
      refine ⟨a, ?_, by omega⟩
      rintro k rfl hk
      obtain ⟨k', rfl⟩ : ∃ k', k = k' + 1 := ⟨k - 1, by omega⟩
      exact absurd rfl (hne k')
    · cases h

theorem adDraw_raise {size : Option ℕ} {e} (h : (adDraw N size).Possible (.raise e)) :
    e = .valueError ∧ (N = 0 ∨ ∃ k, size = some k ∧ N < k) := by
  rw [adDraw.eq_def] at h
  split at h
  · rename_i k
    rw [possible_andThen] at h
    rcases h with ⟨T, -, h⟩ | ⟨e, h, h'⟩
    · rw [Possible.ret_iff] at h; cases h
    · cases h'
      obtain ⟨a, b⟩ := choiceNoReplace_raise h
      exact ⟨a, Or.inr ⟨_, rfl, b⟩⟩
  · rw [possible_andThen] at h
    rcases h with ⟨j, hj, h⟩ | ⟨e, h, h'⟩
    · rw [possible_choiceO_ok, List.mem_range] at hj
      rw [possible_andThen] at h
      rcases h with ⟨T, -, h⟩ | ⟨e, h, h'⟩
      · rw [Possible.ret_iff] at h; cases h
      · have := (choiceNoReplace_raise h).2; omega
    · cases h'
      rw [possible_choiceO_raise] at h
      refine ⟨h.2, Or.inl ?_⟩
      simpa using congrArg List.length h.1

theorem adDraw_mass {size : Option ℕ} (hN : 0 < N) (hs : ∀ k, size = some k → k ≤ N) :
    E (adDraw N size) (lift fun _ => 1) = 1 := by
  rw [adDraw.eq_def]
  split
  · rename_i k
    rw [E_andThen]
    simp only [E_ret]
    exact choiceNoReplace_mass (hs _ rfl) 1
  · rw [E_andThen, E_choiceO (by intro h; have := congrArg List.length h; simp at this; omega)]
    have : ∀ j ∈ List.range N, E ((choiceNoReplace N (j + 1)).andThen fun l => Dist.ret (.ok (toItems N l)))
        (lift fun _ => 1) = 1 := by
      intro j hj
      rw [E_andThen]
      simp only [E_ret]
      exact choiceNoReplace_mass (by have := List.mem_range.1 hj; omega) 1
    rw [List.map_congr_left this, List.map_const', List.sum_replicate]
    simp only [List.length_range, nsmul_eq_mul, mul_one]
    exact one_div_mul_cancel (by positivity)

end Verif.Model
