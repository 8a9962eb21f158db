import Verif.Model.Diagram
import Verif.Spec.Diagram

/-!
The segments computed by `xy_young_ru`.
-/

set_option linter.unusedVariables false

namespace Verif.Lemmas.Diag
open Verif Verif.Model Verif.Spec

theorem idxOf_sorted : ∀ (l : List ℕ), l.Pairwise (· ≤ ·) → ∀ v ∈ l, l.idxOf v = l.countP (fun w => decide (w < v))
  | [], _, v, h => by simp at h
  | a :: l, hs, v, h => by
    rw [List.pairwise_cons] at hs
    rcases Nat.lt_or_ge a v with hav | hav
    · rw [List.idxOf_cons_ne l (by omega), List.countP_cons_of_pos (by simpa using hav)]
      have hv : v ∈ l := by
        rcases List.mem_cons.1 h with rfl | h
        · omega
        · exact h
      rw [idxOf_sorted l hs.2 v hv]
    · have e : a = v := by
        rcases List.mem_cons.1 h with rfl | h
        · rfl
        · exact le_antisymm (hs.1 v h) hav
      subst e
      rw [List.idxOf_cons_self, eq_comm, List.countP_eq_zero]
      intro w hw
      rcases List.mem_cons.1 hw with rfl | hw
      · simp
      · simpa using hs.1 w hw

theorem rep_eq (F f : ℕ → ℕ) : ∀ (u : List ℕ) (p m : ℕ), (p :: u).Pairwise (· < ·) → m ∈ p :: u → (∀ w ∈ p :: u, w ≤ m) →
    (∀ v ∈ u, ∀ j ≤ v, p < j → (∀ w ∈ u, w < v → w < j) → f j = F v) →
    npRepeat (u.map F) (List.zipWith (fun x y => y - x) (p :: u) u) = (List.range' (p + 1) (m - p)).map f
  | [], p, m, hs, hm, hb, h => by
    have : m = p := by simpa using hm
    subst this
    simp [npRepeat]
  | v :: u, p, m, hs, hm, hb, h => by
    rw [List.pairwise_cons] at hs
    have hpv : p < v := hs.1 v (by simp)
    have hvm : v ≤ m := hb v (by simp)
    have hm' : m ∈ v :: u := by
      rcases List.mem_cons.1 hm with rfl | h
      · omega
      · exact h
    have ih := rep_eq F f u v m hs.2 hm' (fun w hw => hb w (List.mem_cons_of_mem _ hw)) (fun v' hv' j hj hvj hw =>
      h v' (List.mem_cons_of_mem _ hv') j hj (by omega) (fun w hw1 hw2 => by
        rcases List.mem_cons.1 hw1 with rfl | hw1
        · exact hvj
        · exact hw w hw1 hw2))
    have e1 : npRepeat ((v :: u).map F) (List.zipWith (fun x y => y - x) (p :: v :: u) (v :: u))
        = List.replicate (v - p) (F v) ++ npRepeat (u.map F) (List.zipWith (fun x y => y - x) (v :: u) u) := by
      simp [npRepeat]
    rw [e1, ih]
    have e2 : m - p = (v - p) + (m - v) := by omega
    rw [e2, ← List.range'_append_1, List.map_append]
    have e3 : p + 1 + (v - p) = v + 1 := by omega
    rw [e3]
    congr 1
    symm
    rw [List.eq_replicate_iff]
    refine ⟨by simp, fun b hb => ?_⟩
    obtain ⟨j, hj, rfl⟩ := List.mem_map.1 hb
    rw [List.mem_range'_1] at hj
    refine h v (by simp) j (by omega) (by omega) fun w hw hwv => ?_
    rcases List.mem_cons.1 hw with rfl | hw
    · omega
    · have := (List.pairwise_cons.1 hs.2).1 w hw
      omega

theorem gaps_sum : ∀ (u : List ℕ) (p m : ℕ), (p :: u).Pairwise (· < ·) → m ∈ p :: u → (∀ w ∈ p :: u, w ≤ m) →
    (List.zipWith (fun x y => y - x) (p :: u) u).sum = m - p
  | [], p, m, hs, hm, hb => by
    have : m = p := by simpa using hm
    simp [this]
  | v :: u, p, m, hs, hm, hb => by
    rw [List.pairwise_cons] at hs
    have hpv : p < v := hs.1 v (by simp)
    have hvm : v ≤ m := hb v (by simp)
    have hm' : m ∈ v :: u := by
      rcases List.mem_cons.1 hm with rfl | h
      · omega
      · exact h
    have ih := gaps_sum u v m hs.2 hm' (fun w hw => hb w (List.mem_cons_of_mem _ hw))
    rw [List.zipWith_cons_cons, List.sum_cons, ih]
    omega

/-- the `j`-th part of the conjugate partition -/
def conj (lam : List ℕ) (j : ℕ) : ℕ := lam.countP fun l => decide (j ≤ l)

theorem mem_npUnique (l : List ℕ) (v : ℕ) : v ∈ npUnique l ↔ v ∈ l := by simp [npUnique]

theorem npUnique_sorted (l : List ℕ) : (npUnique l).Pairwise (· < ·) := (Finset.sortedLT_sort l.toFinset).pairwise

theorem gaps_eq {lam : List ℕ} (hp : IsPartition lam) {last : ℕ} (hl : lam.getLast? = some last) :
    youngGaps lam last = List.zipWith (fun x y => y - x) (0 :: npUnique lam.reverse) (npUnique lam.reverse) := by
  have hmem : last ∈ npUnique lam.reverse := by
    rw [mem_npUnique, List.mem_reverse]
    exact List.mem_of_getLast? hl
  have hmin : ∀ w ∈ npUnique lam.reverse, last ≤ w := by
    intro w hw
    rw [mem_npUnique, List.mem_reverse] at hw
    obtain ⟨ys, rfl⟩ := List.getLast?_eq_some_iff.1 hl
    rcases List.mem_append.1 hw with h | h
    · exact (List.pairwise_append.1 hp.2).2.2 w h last (by simp)
    · simp at h
      omega
  have hs := npUnique_sorted lam.reverse
  rw [youngGaps, ediff1d]
  generalize npUnique lam.reverse = u at *
  cases u with
  | nil => simp at hmem
  | cons a u =>
    rw [List.pairwise_cons] at hs
    have : a = last := by
      rcases List.mem_cons.1 hmem with h | h
      · exact h.symm
      · have h1 := hs.1 _ h
        have h2 := hmin a (by simp)
        omega
    subst this
    simp

theorem countP_lt_le (l : List ℕ) (j : ℕ) : l.countP (fun w => decide (w < j)) + l.countP (fun w => decide (j ≤ w)) = l.length := by
  induction l with
  | nil => rfl
  | cons a l ih =>
    rw [List.countP_cons, List.countP_cons, List.length_cons]
    by_cases h : a < j
    · simp only [h, decide_true, if_true, show ¬ j ≤ a by omega, decide_false]; simp; omega
    · simp only [h, decide_false, show j ≤ a by omega, decide_true]; simp; omega

theorem uniq_aux {lam : List ℕ} (hp : IsPartition lam) {first : ℕ} (hf : lam.head? = some first) :
    (0 :: npUnique lam.reverse).Pairwise (· < ·) ∧ first ∈ 0 :: npUnique lam.reverse
      ∧ ∀ w ∈ 0 :: npUnique lam.reverse, w ≤ first := by
  refine ⟨List.pairwise_cons.2 ⟨fun w hw => ?_, npUnique_sorted _⟩, List.mem_cons_of_mem _ ?_, fun w hw => ?_⟩
  · rw [mem_npUnique, List.mem_reverse] at hw
    exact hp.1 w hw
  · rw [mem_npUnique, List.mem_reverse]
    exact List.mem_of_head? hf
  · rcases List.mem_cons.1 hw with rfl | hw
    · omega
    · rw [mem_npUnique, List.mem_reverse] at hw
      cases lam with
      | nil => simp at hf
      | cons a l =>
        have : a = first := by simpa using hf
        subst this
        rcases List.mem_cons.1 hw with rfl | hw
        · exact le_rfl
        · exact (List.pairwise_cons.1 hp.2).1 w hw

theorem sum_gaps {lam : List ℕ} (hp : IsPartition lam) {first last : ℕ} (hf : lam.head? = some first)
    (hl : lam.getLast? = some last) : (youngGaps lam last).sum = first := by
  obtain ⟨h1, h2, h3⟩ := uniq_aux hp hf
  rw [gaps_eq hp hl, gaps_sum _ _ first h1 h2 h3, Nat.sub_zero]

theorem cols_eq {lam : List ℕ} (hp : IsPartition lam) {first last : ℕ} (hf : lam.head? = some first)
    (hl : lam.getLast? = some last) : youngCols lam last = (List.range' 1 first).map (conj lam) := by
  obtain ⟨h1, h2, h3⟩ := uniq_aux hp hf
  rw [youngCols, gaps_eq hp hl, npUniqueInd, List.map_map,
    rep_eq _ (conj lam) (npUnique lam.reverse) 0 first h1 h2 h3 ?_, Nat.sub_zero]
  intro v hv j hj h0 hw
  rw [mem_npUnique] at hv
  have hs : lam.reverse.Pairwise (· ≤ ·) := by
    rw [List.pairwise_reverse]
    exact hp.2
  change conj lam j = lam.length - lam.reverse.idxOf v
  rw [idxOf_sorted _ hs v hv]
  have e : lam.reverse.countP (fun w => decide (w < v)) = lam.reverse.countP (fun w => decide (w < j)) := by
    refine List.countP_congr fun w hw1 => ?_
    simp only [decide_eq_true_eq]
    refine ⟨fun h => hw w ((mem_npUnique _ _).2 hw1) h, fun h => by omega⟩
  rw [e, List.countP_reverse]
  have := countP_lt_le lam j
  rw [conj]
  omega

theorem pairUp_hor {β : Type*} (g : ℕ × ℕ → β) : ∀ (l r : List ℕ), l.length = r.length → ∀ B : List β,
    pairUp ((List.zip (intertwine (l.map fun _ => 0) l) (repeatTwice r)).map g ++ B)
      = List.zipWith (fun a i => (g (0, i), g (a, i))) l r ++ pairUp B
  | [], [], _, B => by simp [intertwine, repeatTwice]
  | [], b :: r, h, B => by simp at h
  | a :: l, [], h, B => by simp at h
  | a :: l, b :: r, h, B => by
    have ih := pairUp_hor g l r (by simpa using h) B
    simp only [intertwine, repeatTwice] at ih ⊢
    simp only [List.map_cons, List.zipWith_cons_cons, List.flatten_cons, List.cons_append, List.nil_append, List.zip_cons_cons,
      pairUp, ih]

theorem pairUp_ver {β : Type*} (g : ℕ × ℕ → β) : ∀ (l r : List ℕ), l.length = r.length →
    pairUp ((List.zip (repeatTwice r) (intertwine (l.map fun _ => 0) l)).map g)
      = List.zipWith (fun a i => (g (i, 0), g (i, a))) l r
  | [], [], _ => by simp [intertwine, repeatTwice, pairUp]
  | [], b :: r, h => by simp at h
  | a :: l, [], h => by simp at h
  | a :: l, b :: r, h => by
    have ih := pairUp_ver g l r (by simpa using h)
    simp only [intertwine, repeatTwice] at ih ⊢
    simp only [List.map_cons, List.zipWith_cons_cons, List.flatten_cons, List.cons_append, List.nil_append, List.zip_cons_cons,
      pairUp, ih]

theorem length_intertwine : ∀ (a b : List ℕ), a.length = b.length → (intertwine a b).length = 2 * b.length
  | [], [], _ => rfl
  | [], b :: r, h => by simp at h
  | a :: l, [], h => by simp at h
  | a :: l, b :: r, h => by
    have ih := length_intertwine l r (by simpa using h)
    simp only [intertwine] at ih ⊢
    simp only [List.zipWith_cons_cons, List.flatten_cons, List.length_append, ih, List.length_cons, List.length_nil]
    omega

theorem length_repeatTwice : ∀ (a : List ℕ), (repeatTwice a).length = 2 * a.length
  | [] => rfl
  | a :: l => by
    have ih := length_repeatTwice l
    simp only [repeatTwice] at ih ⊢
    simp only [List.map_cons, List.flatten_cons, List.length_append, ih, List.length_cons, List.length_nil]
    omega

/-- the drawn segments -/
theorem segments_eq {lam : List ℕ} (hp : IsPartition lam) {first last : ℕ} (hf : lam.head? = some first)
    (hl : lam.getLast? = some last) {β : Type*} (g : ℕ × ℕ → β) :
    pairUp ((List.zip (youngX lam last) (youngY lam last)).map g)
      = List.zipWith (fun a i => (g (0, i), g (a, i))) lam (List.range' 1 lam.length)
        ++ List.zipWith (fun a i => (g (i, 0), g (i, a))) ((List.range' 1 first).map (conj lam)) (List.range' 1 first) := by
  rw [youngX, youngY, cols_eq hp hf hl, sum_gaps hp hf hl, List.zip_append, List.map_append, pairUp_hor, pairUp_ver]
  · simp
  · simp
  · rw [length_intertwine _ _ (by simp), length_repeatTwice]
    simp

/-- membership among the drawn segments -/
theorem mem_segments {lam : List ℕ} (hp : IsPartition lam) {first last : ℕ} (hf : lam.head? = some first)
    (hl : lam.getLast? = some last) {β : Type*} (g : ℕ × ℕ → β) (s : β × β) :
    s ∈ pairUp ((List.zip (youngX lam last) (youngY lam last)).map g)
      ↔ (∃ (i : ℕ) (h : i < lam.length), s = (g (0, i + 1), g (lam[i], i + 1)))
        ∨ ∃ j, j < first ∧ s = (g (j + 1, 0), g (j + 1, conj lam (j + 1))) := by
  rw [segments_eq hp hf hl, List.mem_append]
  refine or_congr ?_ ?_
  · rw [List.mem_iff_getElem]
    constructor
    · rintro ⟨i, hi, rfl⟩
      simp only [List.length_zipWith, List.length_range', min_self] at hi
      refine ⟨i, hi, ?_⟩
      rw [List.getElem_zipWith, List.getElem_range']
      simp [add_comm]
    · rintro ⟨i, hi, rfl⟩
      refine ⟨i, by simpa using hi, ?_⟩
      rw [List.getElem_zipWith, List.getElem_range']
      simp [add_comm]
  · rw [List.mem_iff_getElem]
    constructor
    · rintro ⟨i, hi, rfl⟩
      simp only [List.length_zipWith, List.length_map, List.length_range', min_self] at hi
      refine ⟨i, hi, ?_⟩
      rw [List.getElem_zipWith, List.getElem_map, List.getElem_range']
      simp [add_comm]
    · rintro ⟨i, hi, rfl⟩
      refine ⟨i, by simpa using hi, ?_⟩
      rw [List.getElem_zipWith, List.getElem_map, List.getElem_range']
      simp [add_comm]

end Verif.Lemmas.Diag
