import Verif.Lemmas.MCMCRev
import Verif.Lemmas.Permutation

set_option linter.unusedSectionVars false

namespace Verif.Model
open Verif Verif.Spec Verif.Dist

variable {N : ℕ} {K : Matrix (Fin N) (Fin N) ℝ}

theorem clamp_of_mem {x : ℝ} (h0 : 0 ≤ x) (h1 : x ≤ 1) : clamp x = x := by
  rw [clamp, max_eq_right h0, min_eq_right h1]

theorem E_aedMove {r : ℝ} (h0 : 0 ≤ r) (h1 : r ≤ 1) (f : Move → ℝ) :
    E (aedMove r) f = 1 / 2 * (1 - r) ^ 2 * f .add + 1 / 2 * (r * (1 - r)) * f .exchange
      + 1 / 2 * r ^ 2 * f .delete + (1 - 1 / 2 * (r ^ 2 + (1 - r))) * f .stay := by
  rw [aedMove, clamp_of_mem (by positivity) (by nlinarith), clamp_of_mem (by linarith) (by linarith),
    clamp_of_mem (by nlinarith) (by nlinarith)]
  simp only [E_cons, E_nil]
  ring

/-- the result of proposing `T` with factor `c` -/
noncomputable def prop (K : Matrix (Fin N) (Fin N) ℝ) (c : ℝ) (F : Finset (Fin N) → ℝ)
    (S T : Finset (Fin N)) : ℝ :=
  accP (minor K T) (minor K S) c * F T + (1 - accP (minor K T) (minor K S) c) * F S

theorem E_aedMoveTo {s : AedSt N} (hs : s.S.Nodup ∧ s.det = detL K s.S) {S1 : List (Fin N)} (h1 : S1.Nodup)
    (k : ℕ) (c : ℝ) (F : Finset (Fin N) → ℝ) :
    E (aedMoveTo K s S1 k c) (lift fun s' => F s'.S.toFinset) = prop K c F s.S.toFinset S1.toFinset := by
  rw [aedMoveTo, E_map, E_accept, detL_minor h1, hs.2, detL_minor hs.1]
  rfl

/-- one step of the add-exchange-delete chain on sets of size `k < N` -/
noncomputable def aedKer (K : Matrix (Fin N) (Fin N) ℝ) (F : Finset (Fin N) → ℝ) (S : Finset (Fin N)) : ℝ :=
  let k : ℝ := S.card
  let r : ℝ := k / N
  1 / 2 * (1 - r) ^ 2 * (1 / (N - k) * ∑ t ∈ Sᶜ, prop K ((k + 1) / (N - k)) F S (insert t S))
  + 1 / 2 * (r * (1 - r)) * (1 / k * ∑ s ∈ S, (1 / (N - k) * ∑ t ∈ Sᶜ, prop K 1 F S (insert t (S.erase s))))
  + 1 / 2 * r ^ 2 * (1 / k * ∑ s ∈ S, prop K (k / (N - (k - 1))) F S (S.erase s))
  + (1 - 1 / 2 * (r ^ 2 + (1 - r))) * F S

theorem E_aedStep {s : AedSt N} (hs : s.S.Nodup ∧ s.det = detL K s.S ∧ s.size = s.S.length)
    (hlt : s.S.length < N) (F : Finset (Fin N) → ℝ) :
    E (aedStep K s) (lift fun s' => F s'.S.toFinset) = aedKer K F s.S.toFinset := by
  obtain ⟨hn, hd, hz⟩ := hs
  have hcard : (s.S.toFinset.card : ℝ) = (s.S.length : ℝ) := by rw [List.toFinset_card_of_nodup hn]
  have hNpos : (0 : ℝ) < N := by exact_mod_cast (by omega : 0 < N)
  have hr0 : (0 : ℝ) ≤ (s.S.length : ℝ) / N := by positivity
  have hr1 : (s.S.length : ℝ) / N ≤ 1 := by rw [div_le_one hNpos]; exact_mod_cast hlt.le
  have hout : outside s.S ≠ [] := by rw [ne_eq, outside_ne_nil hn]; omega
  have hlen : ((outside s.S).length : ℝ) = (N : ℝ) - s.S.length := by
    rw [outside_length hn]; push_cast [hlt.le]; ring
  have hNk : (0 : ℝ) < (N : ℝ) - s.S.length := by
    have : (s.S.length : ℝ) < N := by exact_mod_cast hlt
    linarith
  -- inner expectation for a given index
  have inner : ∀ sInd, (sInd < s.S.length ∨ s.S.length = 0) →
      E ((choiceO (outside s.S)).andThen fun t => (aedMove ((s.size : ℝ) / N)).bind fun m => aedBranch K s sInd t m)
        (lift fun s' => F s'.S.toFinset)
      = 1 / (((outside s.S).length : ℕ) : ℝ) * ∑ t ∈ s.S.toFinsetᶜ,
        (1 / 2 * (1 - (s.S.length : ℝ) / N) ^ 2 * prop K ((s.S.length + 1) / (N - s.S.length)) F s.S.toFinset (insert t s.S.toFinset)
        + 1 / 2 * ((s.S.length : ℝ) / N * (1 - (s.S.length : ℝ) / N)) *
            (if h : sInd < s.S.length then prop K 1 F s.S.toFinset (insert t (s.S.toFinset.erase (s.S.get ⟨sInd, h⟩))) else 0)
        + 1 / 2 * ((s.S.length : ℝ) / N) ^ 2 *
            (if h : sInd < s.S.length then prop K (s.S.length / (N - (s.S.length - 1))) F s.S.toFinset (s.S.toFinset.erase (s.S.get ⟨sInd, h⟩)) else 0)
        + (1 - 1 / 2 * (((s.S.length : ℝ) / N) ^ 2 + (1 - (s.S.length : ℝ) / N))) * F s.S.toFinset) := by
    intro sInd hI
    rw [E_andThen, E_choiceO hout]
    congr 1
    rw [← List.sum_toFinset _ (outside_nodup _), outside_toFinset]
    refine Finset.sum_congr rfl fun t ht => ?_
    have ht' : t ∉ s.S := by simpa using ht
    obtain ⟨a1, a2⟩ := append_spec hn ht'
    rw [E_bind, hz, E_aedMove hr0 hr1]
    simp only [aedBranch, hz, E_ret, lift]
    rw [E_aedMoveTo ⟨hn, hd⟩ a1, a2]
    by_cases hi : sInd < s.S.length
    · obtain ⟨e1, e2⟩ := eraseIdx_spec hn hi
      have ht2 : t ∉ s.S.eraseIdx sInd := fun hm => ht' (List.mem_of_mem_eraseIdx hm)
      obtain ⟨b1, b2⟩ := append_spec e1 ht2
      simp only [if_pos hi, dif_pos hi]
      rw [E_aedMoveTo ⟨hn, hd⟩ b1, E_aedMoveTo ⟨hn, hd⟩ e1, b2, e2]
    · have h0 : s.S.length = 0 := by omega
      simp only [if_neg hi, dif_neg hi, h0]
      simp
  rw [aedStep, E_andThen, E_choiceO (by
    intro h; have := congrArg List.length h; simp at this; split at this <;> omega), hz]
  by_cases h0 : s.S.length = 0
  · simp only [h0, if_true]
    have hS : s.S = [] := List.length_eq_zero_iff.1 h0
    have hall : ∀ sInd ∈ List.range N, E ((choiceO (outside s.S)).andThen fun t => (aedMove (((0:ℕ) : ℝ) / N)).bind fun m => aedBranch K s sInd t m)
        (lift fun s' => F s'.S.toFinset) = aedKer K F s.S.toFinset := by
      intro sInd _
      have := inner sInd (Or.inr h0)
      rw [hz] at this
      simp only [dif_neg (show ¬ sInd < s.S.length by omega)] at this
      rw [h0] at this
      rw [this]
      simp only [hlen, h0]
      unfold aedKer
      simp only [hcard, h0, Nat.cast_zero, zero_div, sub_zero, mul_zero, add_zero, zero_mul, zero_add]
      rw [Finset.sum_add_distrib, mul_add, Finset.sum_const, Finset.card_compl, List.toFinset_card_of_nodup hn,
        h0, ← Finset.mul_sum]
      simp only [Fintype.card_fin, Nat.sub_zero, nsmul_eq_mul]
      field_simp
      ring
    rw [List.map_congr_left hall, List.map_const', List.sum_replicate]
    simp only [List.length_range, nsmul_eq_mul]
    rw [← mul_assoc, one_div_mul_cancel hNpos.ne', one_mul]
  · simp only [if_neg h0]
    have hk : (s.S.length : ℝ) ≠ 0 := by exact_mod_cast h0
    rw [sum_range_get hn (fun s0 => 1 / ((N : ℝ) - s.S.length) * ∑ t ∈ s.S.toFinsetᶜ,
        (1 / 2 * (1 - (s.S.length : ℝ) / N) ^ 2 * prop K ((s.S.length + 1) / (N - s.S.length)) F s.S.toFinset (insert t s.S.toFinset)
        + 1 / 2 * ((s.S.length : ℝ) / N * (1 - (s.S.length : ℝ) / N)) *
            (prop K 1 F s.S.toFinset (insert t (s.S.toFinset.erase s0)))
        + 1 / 2 * ((s.S.length : ℝ) / N) ^ 2 *
            (prop K (s.S.length / (N - (s.S.length - 1))) F s.S.toFinset (s.S.toFinset.erase s0))
        + (1 - 1 / 2 * (((s.S.length : ℝ) / N) ^ 2 + (1 - (s.S.length : ℝ) / N))) * F s.S.toFinset)) _ ?_]
    · unfold aedKer
      simp only [hcard]
      have hcompl : ((s.S.toFinsetᶜ).card : ℝ) = (N : ℝ) - s.S.length := by
        rw [Finset.card_compl, List.toFinset_card_of_nodup hn, Fintype.card_fin]; push_cast [hlt.le]; ring
      simp only [List.length_range, Finset.sum_add_distrib, Finset.sum_const, nsmul_eq_mul, hcompl, hcard, mul_add,
        ← Finset.mul_sum]
      field_simp
    · intro i hi
      have := inner i (Or.inl hi)
      rw [hz] at this
      rw [this, hlen]
      simp only [dif_pos hi]

theorem prop_indicator {c : ℝ} {S T A : Finset (Fin N)} (h : S ≠ T) :
    prop K c (fun B => if B = T then 1 else 0) S A = if A = T then accP (minor K T) (minor K S) c else 0 := by
  unfold prop
  simp only [if_neg h]
  by_cases hA : A = T
  · subst hA; simp
  · simp [hA]

theorem aedKer_add {S : Finset (Fin N)} {t : Fin N} (ht : t ∉ S) :
    aedKer K (fun B => if B = insert t S then 1 else 0) S
      = 1 / 2 * (1 - (S.card : ℝ) / N) ^ 2 * (1 / (N - S.card) *
        accP (minor K (insert t S)) (minor K S) ((S.card + 1) / (N - S.card))) := by
  have hne : S ≠ insert t S := fun h => ht (by rw [h]; simp)
  unfold aedKer
  simp only [prop_indicator hne]
  have e1 : ∑ u ∈ Sᶜ, (if insert u S = insert t S then
      accP (minor K (insert t S)) (minor K S) ((S.card + 1) / (N - S.card)) else 0)
      = accP (minor K (insert t S)) (minor K S) ((S.card + 1) / (N - S.card)) := by
    rw [Finset.sum_eq_single t]
    · simp
    · intro u hu hut
      rw [if_neg]
      intro h
      have : u ∈ insert t S := by rw [← h]; simp
      rw [Finset.mem_insert] at this
      rcases this with h | h
      · exact hut h
      · simp at hu; exact hu h
    · intro h; exact absurd (by simpa using ht) h
  have e2 : ∑ s ∈ S, (1 / ((N : ℝ) - S.card) * ∑ u ∈ Sᶜ, (if insert u (S.erase s) = insert t S then
      accP (minor K (insert t S)) (minor K S) 1 else 0)) = 0 := by
    refine Finset.sum_eq_zero fun s hs => ?_
    rw [Finset.sum_eq_zero, mul_zero]
    intro u hu
    rw [if_neg]
    intro h
    have := congrArg Finset.card h
    rw [exchange_card hs (by simpa using hu), Finset.card_insert_of_notMem ht] at this
    omega
  have e3 : ∑ s ∈ S, (if S.erase s = insert t S then
      accP (minor K (insert t S)) (minor K S) (S.card / (N - (S.card - 1))) else 0) = 0 := by
    refine Finset.sum_eq_zero fun s hs => ?_
    rw [if_neg]
    intro h
    have := congrArg Finset.card h
    rw [Finset.card_erase_of_mem hs, Finset.card_insert_of_notMem ht] at this
    omega
  rw [e1, e2, e3, if_neg hne]
  ring

theorem aedKer_delete {S : Finset (Fin N)} {t : Fin N} (ht : t ∈ S) :
    aedKer K (fun B => if B = S.erase t then 1 else 0) S
      = 1 / 2 * ((S.card : ℝ) / N) ^ 2 * (1 / S.card *
        accP (minor K (S.erase t)) (minor K S) (S.card / (N - (S.card - 1)))) := by
  have hne : S ≠ S.erase t := fun h => by
    have : t ∈ S.erase t := h ▸ ht
    simp at this
  have hpos := Finset.card_pos.2 ⟨t, ht⟩
  unfold aedKer
  simp only [prop_indicator hne]
  have e1 : ∑ u ∈ Sᶜ, (if insert u S = S.erase t then
      accP (minor K (S.erase t)) (minor K S) ((S.card + 1) / (N - S.card)) else 0) = 0 := by
    refine Finset.sum_eq_zero fun u hu => ?_
    rw [if_neg]
    intro h
    have := congrArg Finset.card h
    rw [Finset.card_insert_of_notMem (by simpa using hu), Finset.card_erase_of_mem ht] at this
    omega
  have e2 : ∑ s ∈ S, (1 / ((N : ℝ) - S.card) * ∑ u ∈ Sᶜ, (if insert u (S.erase s) = S.erase t then
      accP (minor K (S.erase t)) (minor K S) 1 else 0)) = 0 := by
    refine Finset.sum_eq_zero fun s hs => ?_
    rw [Finset.sum_eq_zero, mul_zero]
    intro u hu
    rw [if_neg]
    intro h
    have := congrArg Finset.card h
    rw [exchange_card hs (by simpa using hu), Finset.card_erase_of_mem ht] at this
    omega
  have e3 : ∑ s ∈ S, (if S.erase s = S.erase t then
      accP (minor K (S.erase t)) (minor K S) (S.card / (N - (S.card - 1))) else 0)
      = accP (minor K (S.erase t)) (minor K S) (S.card / (N - (S.card - 1))) := by
    rw [Finset.sum_eq_single t]
    · simp
    · intro u hu hut
      rw [if_neg]
      intro h
      have : t ∈ S.erase u := by rw [Finset.mem_erase]; exact ⟨fun h => hut h.symm, ht⟩
      rw [h] at this; simp at this
    · intro h; exact absurd ht h
  rw [e1, e2, e3, if_neg hne]
  ring

theorem aedKer_exchange {S T : Finset (Fin N)} (hST : S ≠ T) (hc : S.card = T.card) :
    aedKer K (fun B => if B = T then 1 else 0) S
      = 1 / 2 * ((S.card : ℝ) / N * (1 - S.card / N)) * (1 / S.card * (1 / (N - S.card) *
        (acc K S T * ∑ s ∈ S, ∑ t ∈ Sᶜ, if insert t (S.erase s) = T then 1 else 0))) := by
  unfold aedKer
  simp only [prop_indicator hST]
  have e1 : ∑ u ∈ Sᶜ, (if insert u S = T then
      accP (minor K T) (minor K S) ((S.card + 1) / (N - S.card)) else 0) = 0 := by
    refine Finset.sum_eq_zero fun u hu => ?_
    rw [if_neg]
    intro h
    have := congrArg Finset.card h
    rw [Finset.card_insert_of_notMem (by simpa using hu)] at this
    omega
  have e3 : ∑ s ∈ S, (if S.erase s = T then
      accP (minor K T) (minor K S) (S.card / (N - (S.card - 1))) else 0) = 0 := by
    refine Finset.sum_eq_zero fun s hs => ?_
    rw [if_neg]
    intro h
    have := congrArg Finset.card h
    rw [Finset.card_erase_of_mem hs] at this
    have := Finset.card_pos.2 ⟨s, hs⟩
    omega
  have e2 : ∑ s ∈ S, (1 / ((N : ℝ) - S.card) * ∑ u ∈ Sᶜ, (if insert u (S.erase s) = T then
      accP (minor K T) (minor K S) 1 else 0)) = 1 / ((N : ℝ) - S.card) *
        (acc K S T * ∑ s ∈ S, ∑ t ∈ Sᶜ, if insert t (S.erase s) = T then 1 else 0) := by
    rw [← Finset.mul_sum]
    congr 1
    rw [Finset.mul_sum]
    refine Finset.sum_congr rfl fun s _ => ?_
    rw [Finset.mul_sum]
    refine Finset.sum_congr rfl fun t _ => ?_
    split <;> simp [acc]
  rw [e1, e2, e3, if_neg hST]
  ring

theorem exchange_count_symm {S T : Finset (Fin N)} {k : ℕ} (hS : S.card = k) (hT : T.card = k) :
    (∑ s ∈ S, ∑ t ∈ Sᶜ, if insert t (S.erase s) = T then (1:ℝ) else 0)
      = ∑ s ∈ T, ∑ t ∈ Tᶜ, if insert t (T.erase s) = S then (1:ℝ) else 0 := by
  have := exchange_symm k (fun A B : Finset (Fin N) => (if A = S then (1:ℝ) else 0) * (if B = T then 1 else 0))
  have e1 : ∑ A ∈ (Finset.univ : Finset (Fin N)).powersetCard k, ∑ s ∈ A, ∑ t ∈ Aᶜ,
      (fun A B : Finset (Fin N) => (if A = S then (1:ℝ) else 0) * (if B = T then 1 else 0)) A (insert t (A.erase s))
      = ∑ s ∈ S, ∑ t ∈ Sᶜ, if insert t (S.erase s) = T then (1:ℝ) else 0 := by
    rw [Finset.sum_eq_single S]
    · simp
    · intro A _ hA; simp [hA]
    · intro h; exact absurd (by simpa using hS) h
  have e2 : ∑ A ∈ (Finset.univ : Finset (Fin N)).powersetCard k, ∑ s ∈ A, ∑ t ∈ Aᶜ,
      (fun A B : Finset (Fin N) => (if A = S then (1:ℝ) else 0) * (if B = T then 1 else 0)) (insert t (A.erase s)) A
      = ∑ s ∈ T, ∑ t ∈ Tᶜ, if insert t (T.erase s) = S then (1:ℝ) else 0 := by
    rw [Finset.sum_eq_single T]
    · simp
    · intro A _ hA; simp [hA]
    · intro h; exact absurd (by simpa using hT) h
  rw [e1, e2] at this
  exact this

end Verif.Model
