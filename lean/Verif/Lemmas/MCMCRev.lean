import Verif.Lemmas.MCMC
import Verif.Lemmas.ProjChain
import Mathlib.Algebra.BigOperators.Field
import Mathlib.Algebra.BigOperators.Fin

set_option linter.unusedSectionVars false

namespace Verif.Model
open Verif Verif.Spec Verif.Dist

variable {N : ℕ} {K : Matrix (Fin N) (Fin N) ℝ}

/-- a function of the returned value, zero on exceptions -/
noncomputable def lift {α : Type*} (F : α → ℝ) : Outcome α → ℝ
  | .ok a => F a
  | .raise _ => 0

theorem E_andThen {α β : Type*} (d : Dist ℝ (Outcome α)) (k : α → Dist ℝ (Outcome β)) (F : β → ℝ) :
    E (d.andThen k) (lift F) = E d (lift fun a => E (k a) (lift F)) := by
  rw [andThen, E_bind]
  apply E_congr
  intro o w _
  cases o with
  | ok a => rfl
  | raise e => simp [lift]

theorem probOk_eq {α : Type*} (d : Dist ℝ (Outcome α)) (p : α → Prop) [DecidablePred p] :
    probOk d p = E d (lift fun a => if p a then 1 else 0) := by
  classical
  rw [probOk, prob_eq]
  apply E_congr
  intro o w _
  cases o with
  | ok a => simp [lift]
  | raise e => simp [lift]

theorem E_choiceO {α : Type*} {l : List α} (h : l ≠ []) (F : α → ℝ) :
    E (choiceO l) (lift F) = 1 / (l.length : ℝ) * (l.map F).sum := by
  unfold choiceO
  rw [if_neg (by simpa using h), E_map, E_choice]
  rfl

/-- acceptance probability -/
noncomputable def accP (a b c : ℝ) : ℝ := E (acceptMove a b c) fun x => if x then 1 else 0

theorem E_accept (a b c : ℝ) (g : Bool → ℝ) :
    E (acceptMove a b c) g = accP a b c * g true + (1 - accP a b c) * g false := by
  unfold accP acceptMove
  split
  · by_cases h : 0 < a <;> simp [h]
  · rw [E_bern, E_bern]; simp

theorem accP_eq {a b c : ℝ} (hb : b ≠ 0) : accP a b c = min 1 (max 0 (a / b * c)) := by
  unfold accP acceptMove
  rw [if_neg hb, E_bern]; simp

theorem accP_zero_right {a c : ℝ} : accP a 0 c = if 0 < a then 1 else 0 := by
  unfold accP acceptMove
  by_cases h : 0 < a <;> simp [h]

theorem mul_accP {a b : ℝ} (ha : 0 ≤ a) (hb : 0 ≤ b) : b * accP a b 1 = min a b := by
  rcases hb.eq_or_lt with rfl | hb
  · rw [zero_mul, min_eq_right ha]
  · rw [accP_eq hb.ne', mul_one, max_eq_right (div_nonneg ha hb.le)]
    rw [mul_min_of_nonneg _ _ hb.le, mul_one, mul_div_cancel₀ _ hb.ne', min_comm]

theorem accP_nonneg (a b c : ℝ) : 0 ≤ accP a b c := by
  by_cases hb : b = 0
  · subst hb; rw [accP_zero_right]; split <;> norm_num
  · rw [accP_eq hb]; positivity

theorem accP_le_one (a b c : ℝ) : accP a b c ≤ 1 := by
  by_cases hb : b = 0
  · subst hb; rw [accP_zero_right]; split <;> norm_num
  · rw [accP_eq hb]; exact min_le_left _ _

/-- the cached determinant is that of the state, which has no repetition -/
def Coherent (K : Matrix (Fin N) (Fin N) ℝ) (s : St N) : Prop := s.S.Nodup ∧ s.det = detL K s.S

theorem Coherent.minor {s : St N} (h : Coherent K s) : s.det = minor K s.S.toFinset := by
  rw [h.2, detL_minor h.1]

theorem coherent_init {S : List (Fin N)} (h : S.Nodup) : Coherent K (stInit K S) := ⟨h, rfl⟩

/-- acceptance probability from set to set -/
noncomputable def acc (K : Matrix (Fin N) (Fin N) ℝ) (S T : Finset (Fin N)) : ℝ :=
  accP (minor K T) (minor K S) 1

theorem acc_balance (hK : ∀ S, 0 ≤ minor K S) (S T : Finset (Fin N)) :
    minor K S * acc K S T = minor K T * acc K T S := by
  unfold acc
  rw [mul_accP (hK _) (hK _), mul_accP (hK _) (hK _), min_comm]

theorem E_moveTo {s : St N} (hs : Coherent K s) {S1 : List (Fin N)} (h1 : S1.Nodup) (F : Finset (Fin N) → ℝ) :
    E (moveTo K s S1 1) (lift fun s' => F s'.S.toFinset)
      = acc K s.S.toFinset S1.toFinset * F S1.toFinset
        + (1 - acc K s.S.toFinset S1.toFinset) * F s.S.toFinset := by
  rw [moveTo, E_map, E_accept, detL_minor h1, hs.minor]
  rfl

theorem coherent_moveTo {s s' : St N} (hs : Coherent K s) {S1 : List (Fin N)} (h1 : S1.Nodup)
    {c : ℝ} (h : (moveTo K s S1 c).Possible (.ok s')) : Coherent K s' := by
  rw [moveTo, Possible.map_iff] at h
  obtain ⟨b, -, h⟩ := h
  cases h
  cases b with
  | false => simpa using hs
  | true => simpa using coherent_init h1

/-! ### add-delete -/

/-- one step of the add-delete chain on sets -/
noncomputable def adKer (K : Matrix (Fin N) (Fin N) ℝ) (F : Finset (Fin N) → ℝ) (S : Finset (Fin N)) : ℝ :=
  1 / 2 * (1 / (N : ℝ) * ∑ i, (acc K S (symmDiff S {i}) * F (symmDiff S {i})
    + (1 - acc K S (symmDiff S {i})) * F S)) + 1 / 2 * F S

theorem E_half {α : Type*} (d e : Dist ℝ α) (f : α → ℝ) :
    E ((bern (1 / 2 : ℝ)).bind fun b => if b then d else e) f = 1 / 2 * E d f + 1 / 2 * E e f := by
  rw [E_bind, E_bern_of_mem (by norm_num) (by norm_num)]
  simp only [if_true, Bool.false_eq_true, if_false]
  ring

theorem E_adStep (hN : 0 < N) {s : St N} (hs : Coherent K s) (F : Finset (Fin N) → ℝ) :
    E (adStep K s) (lift fun s' => F s'.S.toFinset) = adKer K F s.S.toFinset := by
  rw [adStep, E_half, E_andThen, E_choiceO (by
    intro h; have := congrArg List.length h; simp at this; omega), E_ret]
  unfold adKer
  congr 2
  rw [List.length_finRange]
  congr 1
  rw [← List.ofFn_eq_map, List.sum_ofFn]
  refine Finset.sum_congr rfl fun i _ => ?_
  rw [E_moveTo hs (toggle_nodup hs.1 i), toggle_toFinset hs.1]

theorem coherent_adStep {s s' : St N} (hs : Coherent K s) (h : (adStep K s).Possible (.ok s')) :
    Coherent K s' := by
  rw [adStep, Possible.bind_iff] at h
  obtain ⟨b, -, h⟩ := h
  cases b with
  | false =>
    rw [if_neg (by simp), Possible.ret_iff] at h
    cases h; exact hs
  | true =>
    rw [if_pos rfl, possible_andThen] at h
    rcases h with ⟨i, -, h⟩ | ⟨e, -, h⟩
    · exact coherent_moveTo hs (toggle_nodup hs.1 i) h
    · cases h

theorem symmDiff_invol (S : Finset (Fin N)) (i : Fin N) : symmDiff (symmDiff S {i}) {i} = S := by
  rw [symmDiff_assoc, symmDiff_self, symmDiff_bot]

/-- the add-delete kernel on sets is reversible (in its integrated form) -/
theorem adKer_reversible (hK : ∀ S, 0 ≤ minor K S) (F G : Finset (Fin N) → ℝ) :
    ∑ S, minor K S * G S * adKer K F S = ∑ S, minor K S * F S * adKer K G S := by
  have key : ∀ i : Fin N, ∑ S : Finset (Fin N), minor K S * acc K S (symmDiff S {i}) * (G S * F (symmDiff S {i}))
      = ∑ S : Finset (Fin N), minor K S * acc K S (symmDiff S {i}) * (F S * G (symmDiff S {i})) := by
    intro i
    refine Finset.sum_nbij' (fun S => symmDiff S {i}) (fun S => symmDiff S {i}) (by simp) (by simp)
      (fun S _ => symmDiff_invol S i) (fun S _ => symmDiff_invol S i) ?_
    intro S _
    rw [symmDiff_invol, acc_balance hK S]
    ring
  have expand : ∀ F G : Finset (Fin N) → ℝ, ∑ S, minor K S * G S * adKer K F S
      = 1 / 2 * (1 / (N : ℝ)) * (∑ i, ∑ S, minor K S * acc K S (symmDiff S {i}) * (G S * F (symmDiff S {i})))
        + ∑ S, minor K S * (1 / 2 * (1 / (N : ℝ)) * (∑ i, (1 - acc K S (symmDiff S {i}))) + 1 / 2)
          * (F S * G S) := by
    intro F G
    rw [Finset.sum_comm, Finset.mul_sum, ← Finset.sum_add_distrib]
    refine Finset.sum_congr rfl fun S _ => ?_
    unfold adKer
    rw [Finset.sum_add_distrib, ← Finset.sum_mul]
    have : ∑ i, minor K S * acc K S (symmDiff S {i}) * (G S * F (symmDiff S {i}))
      = minor K S * G S * ∑ i, acc K S (symmDiff S {i}) * F (symmDiff S {i}) := by
      rw [Finset.mul_sum]; exact Finset.sum_congr rfl fun i _ => by ring
    rw [this]; ring
  rw [expand F G, expand G F]
  congr 1
  · congr 1
    exact Finset.sum_congr rfl fun i _ => key i
  · exact Finset.sum_congr rfl fun S _ => by ring

theorem adKer_one (hN : 0 < N) (S : Finset (Fin N)) : adKer K (fun _ => 1) S = 1 := by
  unfold adKer
  have : (N : ℝ) ≠ 0 := by positivity
  simp only [mul_one, add_sub_cancel, Finset.sum_const, Finset.card_univ, Fintype.card_fin, nsmul_eq_mul]
  field_simp
  norm_num

/-! ### exchange -/

/-- one step of the exchange chain on sets of size `k` -/
noncomputable def exKer (K : Matrix (Fin N) (Fin N) ℝ) (k : ℕ) (F : Finset (Fin N) → ℝ)
    (S : Finset (Fin N)) : ℝ :=
  1 / 2 * (1 / (k : ℝ) * ∑ s ∈ S, (1 / ((N - k : ℕ) : ℝ) * ∑ t ∈ Sᶜ,
    (acc K S (insert t (S.erase s)) * F (insert t (S.erase s))
      + (1 - acc K S (insert t (S.erase s))) * F S))) + 1 / 2 * F S

theorem outside_toFinset (S : List (Fin N)) : (outside S).toFinset = S.toFinsetᶜ := by
  ext t; simp [mem_outside]

theorem outside_nodup (S : List (Fin N)) : (outside S).Nodup := (List.nodup_finRange N).filter _

theorem outside_length {S : List (Fin N)} (h : S.Nodup) : (outside S).length = N - S.length := by
  rw [← List.toFinset_card_of_nodup (outside_nodup S), outside_toFinset, Finset.card_compl,
    List.toFinset_card_of_nodup h, Fintype.card_fin]

theorem sum_range_get {S : List (Fin N)} (h : S.Nodup) (g : Fin N → ℝ) (f : ℕ → ℝ)
    (hf : ∀ i (hi : i < S.length), f i = g (S.get ⟨i, hi⟩)) :
    ((List.range S.length).map f).sum = ∑ s ∈ S.toFinset, g s := by
  rw [List.sum_toFinset g h]
  congr 1
  apply List.ext_getElem
  · simp
  · intro i h1 h2
    simp only [List.length_map, List.length_range] at h1
    simp only [List.getElem_map, List.getElem_range]
    rw [hf i h1]; rfl

theorem E_exStep {s : St N} {k : ℕ} (hk : s.S.length = k) (h0 : 0 < k) (hkN : k < N)
    (hs : Coherent K s) (F : Finset (Fin N) → ℝ) :
    E (exStep K k s) (lift fun s' => F s'.S.toFinset) = exKer K k F s.S.toFinset := by
  rw [exStep, E_half, E_andThen, E_choiceO (by
    intro h; have := congrArg List.length h; simp at this; omega), E_ret]
  unfold exKer
  congr 2
  rw [List.length_range]
  congr 1
  subst hk
  refine sum_range_get hs.1 (fun s0 => 1 / ((N - s.S.length : ℕ) : ℝ) * ∑ t ∈ s.S.toFinsetᶜ,
    (acc K s.S.toFinset (insert t (s.S.toFinset.erase s0)) * F (insert t (s.S.toFinset.erase s0))
      + (1 - acc K s.S.toFinset (insert t (s.S.toFinset.erase s0))) * F s.S.toFinset)) _ ?_
  intro i hi
  rw [E_andThen, E_choiceO (by rw [ne_eq, outside_ne_nil hs.1]; omega), outside_length hs.1]
  congr 1
  rw [← List.sum_toFinset _ (outside_nodup _), outside_toFinset]
  refine Finset.sum_congr rfl fun t ht => ?_
  have ht' : t ∉ s.S := by simpa using ht
  obtain ⟨g1, g2⟩ := set_spec hs.1 hi ht'
  rw [if_pos hi, E_moveTo hs g1, g2]

theorem coherent_exStep {s s' : St N} {k : ℕ} (hs : Coherent K s) (h : (exStep K k s).Possible (.ok s')) :
    Coherent K s' ∧ s'.S.length = s.S.length := by
  rw [exStep, Possible.bind_iff] at h
  obtain ⟨b, -, h⟩ := h
  cases b with
  | false =>
    rw [if_neg (by simp), Possible.ret_iff] at h
    cases h; exact ⟨hs, rfl⟩
  | true =>
    rw [if_pos rfl, possible_andThen] at h
    rcases h with ⟨i, -, h⟩ | ⟨e, -, h⟩
    · rw [possible_andThen] at h
      rcases h with ⟨t, ht, h⟩ | ⟨e, -, h⟩
      · rw [possible_choiceO_ok, mem_outside] at ht
        split at h
        · rename_i hi
          refine ⟨coherent_moveTo hs (set_spec hs.1 hi ht).1 h, ?_⟩
          rw [moveTo, Possible.map_iff] at h
          obtain ⟨b, -, h⟩ := h
          cases h
          cases b <;> simp [stInit]
        · rw [Possible.ret_iff] at h; cases h
      · cases h
    · cases h

theorem exchange_back {S : Finset (Fin N)} {s t : Fin N} (hs : s ∈ S) (ht : t ∉ S) :
    insert s ((insert t (S.erase s)).erase t) = S := by
  ext j
  simp only [Finset.mem_insert, Finset.mem_erase]
  by_cases h1 : j = s
  · subst h1; simp [hs]
  · by_cases h2 : j = t
    · subst h2; simp [h1, ht]
    · simp [h1, h2]

theorem exchange_card {S : Finset (Fin N)} {s t : Fin N} (hs : s ∈ S) (ht : t ∉ S) :
    (insert t (S.erase s)).card = S.card := by
  rw [Finset.card_insert_of_notMem (by simp [ht]), Finset.card_erase_of_mem hs]
  have := Finset.card_pos.2 ⟨s, hs⟩
  omega

/-- sums over exchanges are symmetric -/
theorem exchange_symm (k : ℕ) (g : Finset (Fin N) → Finset (Fin N) → ℝ) :
    ∑ S ∈ (Finset.univ : Finset (Fin N)).powersetCard k, ∑ s ∈ S, ∑ t ∈ Sᶜ, g S (insert t (S.erase s))
    = ∑ S ∈ (Finset.univ : Finset (Fin N)).powersetCard k, ∑ s ∈ S, ∑ t ∈ Sᶜ, g (insert t (S.erase s)) S := by
  have conv : ∀ g : Finset (Fin N) → Finset (Fin N) → ℝ,
      ∑ S ∈ (Finset.univ : Finset (Fin N)).powersetCard k, ∑ s ∈ S, ∑ t ∈ Sᶜ, g S (insert t (S.erase s))
      = ∑ p ∈ (Finset.univ : Finset (Finset (Fin N) × Fin N × Fin N)).filter
          (fun p => p.1.card = k ∧ p.2.1 ∈ p.1 ∧ p.2.2 ∉ p.1), g p.1 (insert p.2.2 (p.1.erase p.2.1)) := by
    intro g
    rw [Finset.sum_filter, Fintype.sum_prod_type]
    rw [← Finset.sum_subset (Finset.subset_univ ((Finset.univ : Finset (Fin N)).powersetCard k))]
    · refine Finset.sum_congr rfl fun S hS => ?_
      rw [Finset.mem_powersetCard_univ] at hS
      rw [Fintype.sum_prod_type, ← Finset.sum_subset (Finset.subset_univ S)]
      · refine Finset.sum_congr rfl fun s hs => ?_
        rw [← Finset.sum_subset (Finset.subset_univ Sᶜ)]
        · refine Finset.sum_congr rfl fun t ht => ?_
          rw [if_pos ⟨hS, hs, by simpa using ht⟩]
        · intro t _ ht
          rw [if_neg]
          rintro ⟨_, _, h⟩; simp at ht; exact h ht
      · intro s _ hs
        refine Finset.sum_eq_zero fun t _ => ?_
        rw [if_neg]; rintro ⟨_, h, _⟩; exact hs h
    · intro S _ hS
      refine Finset.sum_eq_zero fun p _ => ?_
      rw [if_neg]; rintro ⟨h, _⟩; exact hS (by simpa using h)
  rw [conv, conv (fun S T => g T S)]
  refine Finset.sum_nbij' (fun p => (insert p.2.2 (p.1.erase p.2.1), p.2.2, p.2.1))
    (fun p => (insert p.2.2 (p.1.erase p.2.1), p.2.2, p.2.1)) ?_ ?_ ?_ ?_ ?_
  · rintro ⟨S, s, t⟩ h
    simp only [Finset.mem_filter, Finset.mem_univ, true_and] at h ⊢
    refine ⟨by rw [exchange_card h.2.1 h.2.2, h.1], by simp, ?_⟩
    simp only [Finset.mem_insert, Finset.mem_erase, not_or]
    exact ⟨by rintro rfl; exact h.2.2 h.2.1, by simp⟩
  · rintro ⟨S, s, t⟩ h
    simp only [Finset.mem_filter, Finset.mem_univ, true_and] at h ⊢
    refine ⟨by rw [exchange_card h.2.1 h.2.2, h.1], by simp, ?_⟩
    simp only [Finset.mem_insert, Finset.mem_erase, not_or]
    exact ⟨by rintro rfl; exact h.2.2 h.2.1, by simp⟩
  · rintro ⟨S, s, t⟩ h
    simp only [Finset.mem_filter, Finset.mem_univ, true_and] at h
    simp only [exchange_back h.2.1 h.2.2]
  · rintro ⟨S, s, t⟩ h
    simp only [Finset.mem_filter, Finset.mem_univ, true_and] at h
    simp only [exchange_back h.2.1 h.2.2]
  · rintro ⟨S, s, t⟩ h
    simp only [Finset.mem_filter, Finset.mem_univ, true_and] at h
    simp only [exchange_back h.2.1 h.2.2]

theorem exKer_reversible (hK : ∀ S, 0 ≤ minor K S) (k : ℕ) (F G : Finset (Fin N) → ℝ) :
    ∑ S ∈ (Finset.univ : Finset (Fin N)).powersetCard k, minor K S * G S * exKer K k F S
    = ∑ S ∈ (Finset.univ : Finset (Fin N)).powersetCard k, minor K S * F S * exKer K k G S := by
  have expand : ∀ F G : Finset (Fin N) → ℝ,
      ∑ S ∈ (Finset.univ : Finset (Fin N)).powersetCard k, minor K S * G S * exKer K k F S
      = 1 / 2 * (1 / (k : ℝ)) * (1 / ((N - k : ℕ) : ℝ)) *
          (∑ S ∈ (Finset.univ : Finset (Fin N)).powersetCard k, ∑ s ∈ S, ∑ t ∈ Sᶜ,
            (fun S T => minor K S * acc K S T * (G S * F T)) S (insert t (S.erase s)))
        + ∑ S ∈ (Finset.univ : Finset (Fin N)).powersetCard k, minor K S *
            (1 / 2 * (1 / (k : ℝ)) * (1 / ((N - k : ℕ) : ℝ)) *
              (∑ s ∈ S, ∑ t ∈ Sᶜ, (1 - acc K S (insert t (S.erase s)))) + 1 / 2) * (F S * G S) := by
    intro F G
    rw [Finset.mul_sum, ← Finset.sum_add_distrib]
    refine Finset.sum_congr rfl fun S _ => ?_
    unfold exKer
    have e1 : ∑ s ∈ S, (1 / ((N - k : ℕ) : ℝ) * ∑ t ∈ Sᶜ,
        (acc K S (insert t (S.erase s)) * F (insert t (S.erase s))
          + (1 - acc K S (insert t (S.erase s))) * F S))
        = 1 / ((N - k : ℕ) : ℝ) * (∑ s ∈ S, ∑ t ∈ Sᶜ, acc K S (insert t (S.erase s)) * F (insert t (S.erase s)))
         + 1 / ((N - k : ℕ) : ℝ) * (∑ s ∈ S, ∑ t ∈ Sᶜ, (1 - acc K S (insert t (S.erase s)))) * F S := by
      rw [← Finset.mul_sum, mul_assoc, ← mul_add, Finset.sum_mul, ← Finset.sum_add_distrib]
      congr 1
      refine Finset.sum_congr rfl fun s _ => ?_
      rw [Finset.sum_mul, ← Finset.sum_add_distrib]
    have e2 : ∑ s ∈ S, ∑ t ∈ Sᶜ,
            (fun S T => minor K S * acc K S T * (G S * F T)) S (insert t (S.erase s))
        = minor K S * G S * ∑ s ∈ S, ∑ t ∈ Sᶜ, acc K S (insert t (S.erase s)) * F (insert t (S.erase s)) := by
      rw [Finset.mul_sum]
      refine Finset.sum_congr rfl fun s _ => ?_
      rw [Finset.mul_sum]
      exact Finset.sum_congr rfl fun t _ => by ring
    rw [e1, e2]; ring
  rw [expand F G, expand G F]
  congr 1
  · congr 1
    rw [exchange_symm k (fun S T => minor K S * acc K S T * (G S * F T))]
    refine Finset.sum_congr rfl fun S _ => Finset.sum_congr rfl fun s _ => Finset.sum_congr rfl fun t _ => ?_
    simp only
    rw [acc_balance hK S]; ring
  · exact Finset.sum_congr rfl fun S _ => by ring

theorem exKer_one {k : ℕ} (h0 : 0 < k) (hkN : k < N) {S : Finset (Fin N)} (hS : S.card = k) :
    exKer K k (fun _ => 1) S = 1 := by
  unfold exKer
  have h1 : (k : ℝ) ≠ 0 := by positivity
  have h2 : ((N - k : ℕ) : ℝ) ≠ 0 := by
    have : 0 < N - k := by omega
    positivity
  simp only [mul_one, add_sub_cancel, Finset.sum_const, Finset.card_compl, hS, Fintype.card_fin, nsmul_eq_mul]
  rw [one_div_mul_cancel h2, mul_one, one_div_mul_cancel h1]
  norm_num

/-! ### several iterations -/

/-- the set at position `j` of a chain, if there is one -/
noncomputable def atPos {σ : Type*} (st : σ → List (Fin N)) (F : Finset (Fin N) → ℝ) (j : ℕ) (l : List σ) : ℝ :=
  match l[j]? with
  | some s => F (st s).toFinset
  | none => 0

theorem loop_mass {σ : Type*} {step : σ → Dist ℝ (Outcome σ)} {I : σ → Prop}
    (hI : ∀ s s', I s → (step s).Possible (.ok s') → I s')
    (h1 : ∀ s, I s → E (step s) (lift fun _ => 1) = 1) :
    ∀ n it s, I s → E (mcmcLoop step (fun _ => false) it n s) (lift fun _ => 1) = 1 := by
  intro n
  induction n with
  | zero => intro it s _; simp [mcmcLoop, lift]
  | succ n ih =>
    intro it s hs
    rw [mcmcLoop, E_andThen]
    simp only [Bool.false_eq_true, if_false, E_andThen, E_ret]
    refine Eq.trans ?_ (h1 s hs)
    apply Dist.E_congr_possible
    intro o ho
    cases o with
    | ok s' => exact ih _ _ (hI _ _ hs ho)
    | raise e => rfl

theorem E_atPos {σ : Type*} {st : σ → List (Fin N)} {step : σ → Dist ℝ (Outcome σ)} {I : σ → Prop}
    {T : (Finset (Fin N) → ℝ) → Finset (Fin N) → ℝ}
    (hI : ∀ s s', I s → (step s).Possible (.ok s') → I s')
    (hT : ∀ s, I s → ∀ F : Finset (Fin N) → ℝ, E (step s) (lift fun s' => F (st s').toFinset) = T F (st s).toFinset)
    (hT1 : ∀ s, I s → T (fun _ => 1) (st s).toFinset = 1) (it : ℕ) :
    ∀ n it s, I s → ∀ j, j < n → ∀ F : Finset (Fin N) → ℝ,
      E (mcmcLoop step (fun _ => false) it n s) (lift (atPos st F j)) = (T^[j + 1] F) (st s).toFinset := by
  have hmass := loop_mass (step := step) hI fun s hs => (hT s hs (fun _ => 1)).trans (hT1 s hs)
  intro n
  induction n with
  | zero => intro it s _ j hj; omega
  | succ n ih =>
    intro it s hs j hj F
    rw [mcmcLoop, E_andThen]
    simp only [Bool.false_eq_true, if_false, E_andThen, E_ret]
    cases j with
    | zero =>
      simp only [zero_add, Function.iterate_one]
      rw [← hT s hs]
      apply Dist.E_congr_possible
      intro o ho
      cases o with
      | ok s' =>
        have h1 := hmass n (it + 1) s' (hI _ _ hs ho)
        simp only [lift]
        calc _ = E (mcmcLoop step (fun _ => false) (it + 1) n s') (fun o => lift (fun _ => 1) o * F (st s').toFinset) := by
              apply E_congr
              intro o _ _
              cases o <;> simp [lift, atPos]
          _ = _ := by rw [E_mul_right, h1, one_mul]
      | raise e => rfl
    | succ j =>
      rw [Function.iterate_succ_apply', ← hT s hs]
      apply Dist.E_congr_possible
      intro o ho
      cases o with
      | ok s' =>
        simp only [lift]
        have := ih (it + 1) s' (hI _ _ hs ho) j (by omega) F
        rw [← this]
        apply E_congr
        intro o _ _
        cases o <;> simp [lift, atPos]
      | raise e => rfl

end Verif.Model
