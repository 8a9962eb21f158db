import Verif.Prob

/-! Weights of a random program: non-negativity, total mass, support. -/

set_option linter.unusedSectionVars false

namespace Verif.Dist
variable {R : Type*} {α β : Type*}

/-- all weights are non-negative -/
def Nonneg [Zero R] [LE R] (d : Dist R α) : Prop := ∀ aw ∈ d, 0 ≤ aw.2

section
variable [Field R] [LinearOrder R] [IsStrictOrderedRing R]

theorem Nonneg.ret (a : α) : Nonneg (ret a : Dist R α) := by
  intro aw h; simp only [Dist.ret, List.mem_singleton] at h; subst h; exact zero_le_one

theorem Nonneg.bind {d : Dist R α} {k : α → Dist R β} (hd : Nonneg d) (hk : ∀ a, Nonneg (k a)) :
    Nonneg (d.bind k) := by
  intro bw h
  obtain ⟨aw, h1, h2⟩ := List.mem_flatMap.1 h
  obtain ⟨cw, h3, rfl⟩ := List.mem_map.1 h2
  exact mul_nonneg (hd aw h1) (hk _ cw h3)

theorem Nonneg.bind' {d : Dist R α} {k : α → Dist R β} (hd : Nonneg d)
    (hk : ∀ aw ∈ d, Nonneg (k aw.1)) : Nonneg (d.bind k) := by
  intro bw h
  obtain ⟨aw, h1, h2⟩ := List.mem_flatMap.1 h
  obtain ⟨cw, h3, rfl⟩ := List.mem_map.1 h2
  exact mul_nonneg (hd aw h1) (hk aw h1 cw h3)

theorem Nonneg.map {d : Dist R α} {f : α → β} (hd : Nonneg d) : Nonneg (d.map f) := by
  intro bw h
  obtain ⟨aw, h1, rfl⟩ := List.mem_map.1 h
  exact hd aw h1

theorem Nonneg.bern (p : R) : Nonneg (bern p) := by
  intro aw h
  simp only [Dist.bern, List.mem_cons, List.not_mem_nil, or_false] at h
  rcases h with rfl | rfl
  · exact le_min zero_le_one (le_max_left _ _)
  · exact sub_nonneg.2 (min_le_left _ _)

theorem Nonneg.choice (l : List α) : Nonneg (choice l : Dist R α) := by
  intro aw h
  obtain ⟨a, _, rfl⟩ := List.mem_map.1 h
  positivity

theorem Nonneg.choiceP {l : List α} {w : α → R} (hw : ∀ a ∈ l, 0 ≤ w a) :
    Nonneg (choiceP l w) := by
  intro aw h
  obtain ⟨a, ha, rfl⟩ := List.mem_map.1 h
  exact hw a ha

theorem E_nonneg {d : Dist R α} (hd : Nonneg d) {f : α → R} (hf : ∀ a, 0 ≤ f a) : 0 ≤ d.E f := by
  induction d with
  | nil => simp
  | cons aw d ih =>
    obtain ⟨a, w⟩ := aw
    rw [E_cons]
    have h1 : 0 ≤ w := hd (a, w) (by simp)
    have h2 := ih (fun x hx => hd x (by simp [hx]))
    have := mul_nonneg h1 (hf a)
    linarith

/-- with non-negative weights, an event of probability zero contains no outcome of positive weight -/
theorem not_possible_of_prob_zero {d : Dist R α} (hd : Nonneg d) {p : α → Prop}
    (h : d.prob p = 0) {a : α} (ha : d.Possible a) : ¬ p a := by
  classical
  intro hpa
  obtain ⟨w, hm, hw⟩ := ha
  rw [prob_eq] at h
  induction d with
  | nil => simp at hm
  | cons bv d ih =>
    obtain ⟨b, v⟩ := bv
    rw [E_cons] at h
    have hv : 0 ≤ v := hd (b, v) (by simp)
    have hd' : Nonneg d := fun x hx => hd x (by simp [hx])
    have h2 : 0 ≤ E d (fun a => if p a then (1:R) else 0) :=
      E_nonneg hd' (by intro a; split <;> norm_num)
    have h1 : 0 ≤ v * (if p b then (1:R) else 0) := mul_nonneg hv (by split <;> norm_num)
    have h3 : v * (if p b then (1:R) else 0) = 0 := by linarith
    have h4 : E d (fun a => if p a then (1:R) else 0) = 0 := by linarith
    rcases List.mem_cons.1 hm with he | hm'
    · obtain ⟨rfl, rfl⟩ := Prod.mk.inj he
      rw [if_pos hpa, mul_one] at h3
      exact hw h3
    · exact ih hd' h4 hm'

theorem E_bern_const (p c : R) : (bern p).E (fun _ => c) = c := by
  rw [E_bern]; ring

end

section
variable [Semiring R]

theorem Possible.bind_iff [NoZeroDivisors R] {d : Dist R α} {k : α → Dist R β} {b : β} :
    (d.bind k).Possible b ↔ ∃ a, d.Possible a ∧ (k a).Possible b := by
  constructor
  · rintro ⟨w, hm, hw⟩
    obtain ⟨⟨a, v⟩, h1, h2⟩ := List.mem_flatMap.1 hm
    obtain ⟨⟨c, u⟩, h3, h4⟩ := List.mem_map.1 h2
    obtain ⟨rfl, rfl⟩ := Prod.mk.inj h4
    exact ⟨a, ⟨v, h1, left_ne_zero_of_mul hw⟩, ⟨u, h3, right_ne_zero_of_mul hw⟩⟩
  · rintro ⟨a, ⟨v, h1, hv⟩, ⟨u, h3, hu⟩⟩
    exact ⟨v * u, List.mem_flatMap.2 ⟨(a, v), h1, List.mem_map.2 ⟨(b, u), h3, rfl⟩⟩,
      mul_ne_zero hv hu⟩

theorem Possible.ret_iff [Nontrivial R] {a b : α} : (ret a : Dist R α).Possible b ↔ b = a := by
  unfold Dist.ret Possible
  constructor
  · rintro ⟨w, h, -⟩
    simp only [List.mem_singleton, Prod.mk.injEq] at h
    exact h.1
  · rintro rfl
    exact ⟨1, by simp, one_ne_zero⟩

theorem Possible.map_iff {d : Dist R α} {f : α → β} {b : β} :
    (d.map f).Possible b ↔ ∃ a, d.Possible a ∧ b = f a := by
  constructor
  · rintro ⟨w, hm, hw⟩
    obtain ⟨⟨a, v⟩, h1, h2⟩ := List.mem_map.1 hm
    obtain ⟨rfl, rfl⟩ := Prod.mk.inj h2
    exact ⟨a, ⟨v, h1, hw⟩, rfl⟩
  · rintro ⟨a, ⟨w, h1, hw⟩, rfl⟩
    exact ⟨w, List.mem_map.2 ⟨(a, w), h1, rfl⟩, hw⟩

theorem Possible.choiceP_iff {l : List α} {w : α → R} {a : α} :
    (choiceP l w).Possible a ↔ a ∈ l ∧ w a ≠ 0 := by
  constructor
  · rintro ⟨v, hm, hw⟩
    obtain ⟨b, h1, h2⟩ := List.mem_map.1 hm
    obtain ⟨rfl, rfl⟩ := Prod.mk.inj h2
    exact ⟨h1, hw⟩
  · rintro ⟨h1, h2⟩
    exact ⟨w a, List.mem_map.2 ⟨a, h1, rfl⟩, h2⟩

end

theorem Possible.choice_iff [Field R] [CharZero R] {l : List α} {a : α} :
    (choice l : Dist R α).Possible a ↔ a ∈ l := by
  constructor
  · rintro ⟨v, hm, hw⟩
    obtain ⟨b, h1, h2⟩ := List.mem_map.1 hm
    obtain ⟨rfl, rfl⟩ := Prod.mk.inj h2
    exact h1
  · intro h
    refine ⟨1 / (l.length : R), List.mem_map.2 ⟨a, h, rfl⟩, ?_⟩
    have : l.length ≠ 0 := by
      intro h0; rw [List.length_eq_zero_iff.1 h0] at h; simp at h
    exact one_div_ne_zero (Nat.cast_ne_zero.2 this)

theorem Possible.bern_iff [Field R] [LinearOrder R] [IsStrictOrderedRing R] {p : R} {b : Bool} :
    (bern p).Possible b ↔ if b then 0 < p else p < 1 := by
  unfold bern Possible
  constructor
  · rintro ⟨w, h, hw⟩
    simp only [List.mem_cons, Prod.mk.injEq, List.not_mem_nil, or_false] at h
    rcases h with ⟨rfl, rfl⟩ | ⟨rfl, rfl⟩
    · simp only [if_true]
      by_contra hc
      push Not at hc
      rw [max_eq_left hc] at hw
      simp at hw
    · simp only [Bool.false_eq_true, if_false]
      by_contra hc
      push Not at hc
      apply hw
      have : (0:R) ≤ p := le_trans zero_le_one hc
      rw [max_eq_right this, min_eq_left hc, sub_self]
  · intro h
    cases b
    · simp only [Bool.false_eq_true, if_false] at h
      refine ⟨_, by simp; rfl, ?_⟩
      have : min 1 (max 0 p) < 1 := min_lt_of_right_lt (max_lt one_pos h)
      exact (sub_pos.2 this).ne'
    · simp only [if_true] at h
      refine ⟨_, by simp; rfl, ?_⟩
      rw [max_eq_right h.le]
      exact (lt_min one_pos h).ne'

end Verif.Dist
