import Verif.Lemmas.GenericLaw

set_option linter.unusedSectionVars false

namespace Verif.Model
open Verif Verif.Spec

variable {R : Type*} [Field R] [LinearOrder R] [IsStrictOrderedRing R] {N : ℕ}

theorem Dist.bern_ne_zero {p w : R} {b : Bool} (h : (b, w) ∈ Dist.bern p) (hw : w ≠ 0) :
    if b then 0 < p else p < 1 := by
  simp only [Dist.bern, List.mem_cons, Prod.mk.injEq, List.not_mem_nil, or_false] at h
  rcases h with ⟨rfl, rfl⟩ | ⟨rfl, rfl⟩
  · simp only [if_true]
    by_contra hc
    push Not at hc
    rw [max_eq_left hc] at hw
    simp at hw
  · simp only [Bool.false_eq_true, if_false]
    by_contra hc
    push Not at hc
    apply hw
    have : (0:R) ≤ p := le_trans zero_le_one hc
    rw [max_eq_right this, min_eq_left hc, sub_self]

/-- product of the triangular parts already produced (indices outside `U`) plus the remaining block -/
def recon (U : Finset (Fin N)) (A : Matrix (Fin N) (Fin N) R) (a c : Fin N) : R :=
  (∑ s ∈ Uᶜ, (if s < a then A a s else if a = s then 1 else 0) * (if s ≤ c then A s c else 0))
    + if a ∈ U ∧ c ∈ U then A a c else 0

theorem recon_step (U : Finset (Fin N)) (j : Fin N) (hjU : j ∉ U) (hlt : ∀ x ∈ U, j < x)
    (hgt : ∀ x, x ∉ insert j U → x < j) (A : Matrix (Fin N) (Fin N) R) (b : Bool)
    (hb : if b then A j j ≠ 0 else A j j - 1 ≠ 0) (a c : Fin N) :
    recon U (luStep A j b) a c
      = recon (insert j U) A a c - if a = j ∧ c = j ∧ b = false then 1 else 0 := by
  have hcompl : Uᶜ = insert j (insert j U)ᶜ := by
    ext x; simp only [Finset.mem_compl, Finset.mem_insert]
    by_cases h : x = j
    · subst h; simp [hjU]
    · simp [h]
  have hjn : j ∉ (insert j U)ᶜ := by simp
  have hmem : ∀ x, x ∈ U ↔ j < x := by
    intro x
    refine ⟨hlt x, fun h => ?_⟩
    by_contra hx
    have : x ∉ insert j U := by
      simp only [Finset.mem_insert, not_or]; exact ⟨h.ne', hx⟩
    exact absurd (hgt x this) (not_lt.2 h.le)
  unfold recon
  rw [hcompl, Finset.sum_insert hjn]
  have hs : ∀ s ∈ (insert j U)ᶜ,
      (if s < a then luStep A j b a s else if a = s then 1 else 0)
          * (if s ≤ c then luStep A j b s c else 0)
        = (if s < a then A a s else if a = s then 1 else 0) * (if s ≤ c then A s c else 0) := by
    intro s hs
    have hsj : s < j := hgt s (Finset.mem_compl.1 hs)
    have e1 : luStep A j b a s = A a s := by
      cases b <;> simp [luStep, hsj.ne, not_lt.2 hsj.le]
    have e2 : luStep A j b s c = A s c := by
      cases b <;> simp [luStep, hsj.ne, not_lt.2 hsj.le]
    rw [e1, e2]
  rw [Finset.sum_congr rfl hs]
  rw [add_comm (_ * _) (∑ _ ∈ _, _), add_assoc, add_sub_assoc]
  congr 1
  simp only [Finset.mem_insert, hmem]
  rcases lt_trichotomy a j with ha | rfl | ha
  · simp [ha.ne, not_lt.2 ha.le]
  · rcases lt_trichotomy c a with hc | rfl | hc
    · simp [hc.ne, not_lt.2 hc.le, not_le.2 hc]
    · cases b <;> simp [luStep]
    · cases b <;> simp [luStep, hc.le, hc.ne', hc]
  · rcases lt_trichotomy c j with hc | rfl | hc
    · simp [hc.ne, not_lt.2 hc.le, not_le.2 hc]
    · cases b
      · simp only [Bool.false_eq_true, if_false] at hb
        simp [luStep, ha.ne', ha, hb]
      · simp only [if_true] at hb
        simp [luStep, ha.ne', ha, hb]
    · cases b <;> simp [luStep, hc.le, hc.ne', hc, ha, ha.ne']

theorem luLoop_recon (js : List (Fin N)) (hjs : js.Pairwise (· < ·))
    (hout : ∀ x, x ∉ js → ∀ y ∈ js, x < y)
    (A : Matrix (Fin N) (Fin N) R) (o : List (Fin N) × Matrix (Fin N) (Fin N) R) (w : R)
    (ho : (o, w) ∈ luLoop js A) (hw : w ≠ 0) (a c : Fin N) :
    recon ∅ o.2 a c = recon js.toFinset A a c - if a = c ∧ a ∈ js ∧ a ∉ o.1 then 1 else 0 := by
  induction js generalizing A o w with
  | nil =>
    simp only [luLoop, Dist.ret, List.mem_singleton, Prod.mk.injEq] at ho
    obtain ⟨rfl, rfl⟩ := ho
    simp
  | cons j js ih =>
    obtain ⟨hj, hjs'⟩ := List.pairwise_cons.1 hjs
    rw [luLoop] at ho
    obtain ⟨⟨b, p⟩, hb, ho2⟩ := List.mem_flatMap.1 ho
    obtain ⟨⟨o', w'⟩, h3, h4⟩ := List.mem_map.1 ho2
    obtain ⟨⟨⟨o1, o2⟩, w1⟩, h1, h5⟩ := List.mem_flatMap.1 h3
    simp only [Dist.ret, List.map_cons, List.map_nil, List.mem_singleton, Prod.mk.injEq] at h4 h5
    obtain ⟨rfl, rfl⟩ := h5
    obtain ⟨rfl, rfl⟩ := h4
    have hp : p ≠ 0 := left_ne_zero_of_mul hw
    have hw1 : w1 ≠ 0 := left_ne_zero_of_mul (right_ne_zero_of_mul hw)
    have hpiv := Dist.bern_ne_zero hb hp
    have hjn : j ∉ js := fun h => lt_irrefl _ (hj j h)
    have hout' : ∀ x, x ∉ js → ∀ y ∈ js, x < y := by
      intro x hx y hy
      by_cases hxj : x = j
      · subst hxj; exact hj y hy
      · exact hout x (by simp [hxj, hx]) y (by simp [hy])
    have hih := ih hjs' hout' (luStep A j b) (o1, o2) w1 h1 hw1
    have hsub := luLoop_sublist js (luStep A j b) (o1, o2) w1 h1
    have hjo : j ∉ o1 := fun h => hjn (hsub.subset h)
    simp only at hih ⊢
    rw [hih, recon_step js.toFinset j (by simpa using hjn) (fun x hx => hj x (by simpa using hx))
      (fun x hx => hout x (by simpa using hx) j (by simp)) A b (by
        cases b
        · simp only [Bool.false_eq_true, if_false] at hpiv ⊢
          exact (sub_neg.2 hpiv).ne
        · simp only [if_true] at hpiv ⊢
          exact hpiv.ne')]
    rw [List.toFinset_cons, sub_sub]
    congr 1
    by_cases haj : a = j
    · subst haj
      cases b
      · by_cases hc : c = a
        · subst hc; simp [hjo, hjn]
        · simp [hc, Ne.symm hc]
      · simp [hjn]
    · cases b <;> simp [haj]

end Verif.Model
