import Verif.Lemmas.OneDep3

/-!
# The virtual descent process factors over the runs
-/

namespace Verif.Lemmas
open Finset Verif Verif.Model Verif.Spec

variable {R : Type*}

theorem E_comm_dist [CommSemiring R] {α β : Type*} (d : Dist R α) (e : Dist R β) (f : α → β → R) :
    d.E (fun a => e.E fun b => f a b) = e.E (fun b => d.E fun a => f a b) := by
  induction d with
  | nil => simp
  | cons aw d ih =>
    obtain ⟨a, w⟩ := aw
    simp only [Dist.E_cons, ih]
    rw [Dist.E_add, Dist.E_const_mul]

theorem coin_mass [Field R] [LinearOrder R] {x : R} (h0 : 0 ≤ x) (h1 : x ≤ 1) : (virtualCoin x).E (fun _ => 1) = 1 := by
  rw [virtualCoin_E h0 h1]; ring

open Classical in
theorem E_all_false [Field R] [LinearOrder R] {x : R} (h0 : 0 ≤ x) (h1 : x ≤ 1) (l : ℕ) :
    (iid (virtualCoin x) l).E (fun u => if ∀ y ∈ u, y = false then 1 else 0) = (2 * x * (1 - x)) ^ l := by
  induction l with
  | zero => simp [iid]
  | succ l ih =>
    rw [E_iid_succ, virtualCoin_E h0 h1]
    have e1 : ((iid (virtualCoin x) l).E fun u => if ∀ y ∈ true :: u, y = false then (1 : R) else 0) = 0 :=
      Dist.E_eq_zero fun u _ _ => if_neg fun h => by have := h true (by simp); simp at this
    have e2 : ((iid (virtualCoin x) l).E fun u => if ∀ y ∈ false :: u, y = false then (1 : R) else 0) = (2 * x * (1 - x)) ^ l := by
      rw [← ih]
      exact Dist.E_congr fun u _ _ => if_congr (by simp) rfl rfl
    rw [e1, e2]
    ring

/-- weight of the coins of a run -/
noncomputable def runW (R : Type*) [Field R] (l : ℕ) (v : List Bool) : R :=
  open Classical in if ∀ y ∈ v.take l, y = false then (if v.getD l false then 1 / (l.factorial : R) else 1 / ((l + 1).factorial : R)) else 0

/-- probability of a run -/
noncomputable def virtD [Field R] (p : R) (l : ℕ) : R := p ^ l * ((1 - p) / (l.factorial : R) + p / ((l + 1).factorial : R))

theorem E_runW [Field R] [LinearOrder R] {x : R} (h0 : 0 ≤ x) (h1 : x ≤ 1) (l : ℕ) :
    (iid (virtualCoin x) (l + 1)).E (runW R l) = virtD (2 * x * (1 - x)) l := by
  classical
  rw [E_iid_add, virtD, ← E_all_false h0 h1 l, ← Dist.E_mul_right]
  refine Dist.E_congr fun u w hu => ?_
  have hl := iid_length _ _ _ hu
  rw [E_iid_succ, virtualCoin_E h0 h1]
  have e : ∀ y : Bool, runW R l (u ++ [y]) = if ∀ y ∈ u, y = false then (if y then 1 / (l.factorial : R) else 1 / ((l + 1).factorial : R)) else 0 := fun y => by
    unfold runW
    have h2 : (u ++ [y]).take l = u := by rw [← hl, List.take_left]
    have h3 : (u ++ [y]).getD l false = y := by rw [← hl]; simp
    rw [h2, h3]
  simp only [iid, Dist.E_ret, e]
  by_cases h : ∀ y ∈ u, y = false
  · simp only [if_pos h, if_true, Bool.false_eq_true, if_false]
    ring
  · simp only [if_neg h]
    ring

theorem virtual_support [Field R] [LinearOrder R] (x : R) (N : ℕ) (l : List ℕ) (w : R) (h : (l, w) ∈ virtualSample x N) :
    l.Nodup ∧ ∀ i ∈ l, i ∈ range N := by
  simp only [virtualSample, Dist.bind, Dist.ret, List.mem_flatMap, List.mem_map, Prod.mk.injEq,
    Prod.exists, List.map_cons, List.map_nil, List.mem_singleton] at h
  obtain ⟨t, w', ht, l', w'', ⟨Y, w3, hY, rfl, -⟩, rfl, -⟩ := h
  refine ⟨List.Nodup.filter _ List.nodup_range, fun i hi => ?_⟩
  exact mem_range.2 (mem_virtualOf.1 hi).1

theorem prob_virtual [Field R] [LinearOrder R] (x : R) (N : ℕ) (p : List ℕ → Prop) [DecidablePred p] :
    (virtualSample x N).prob p = (iid (virtualCoin x) (N + 1)).E fun Y => (uniformPermutation R (N + 1)).E fun σ =>
      if p (virtualOf N σ Y) then 1 else 0 := by
  classical
  rw [Dist.prob_eq]
  unfold virtualSample
  simp only [Dist.E_bind, Dist.E_ret]
  exact E_comm_dist _ _ _

theorem virtual_factor [Field R] [LinearOrder R] [CharZero R] {x : R} (h0 : 0 ≤ x) (h1 : x ≤ 1) (N a l : ℕ) (B : Finset ℕ) (hl : 1 ≤ l)
    (hA : Ico a (a + l) ⊆ range N) (hB : B ⊆ range N) (hAB : ∀ x ∈ B, a + l < x) :
    (virtualSample x N).prob (fun t => ∀ y ∈ Ico a (a + l) ∪ B, y ∈ t)
      = virtD (2 * x * (1 - x)) l * (virtualSample x N).prob (fun t => ∀ y ∈ B, y ∈ t) := by
  classical
  have hal := mem_range.1 (hA (mem_Ico.2 ⟨show a ≤ a + l - 1 by omega, by omega⟩))
  rw [prob_virtual, prob_virtual]
  obtain ⟨r, hr⟩ : ∃ r, N + 1 = a + (l + 1) + r := ⟨N - (a + l), by omega⟩
  have hm := coin_mass h0 h1
  let H : List Bool → R := fun z => (uniformPermutation R (N + 1)).E fun σ =>
    if ∀ y ∈ B, z.getD (y - (a + l + 1)) false = false ∧ (z.getD (y + 1 - (a + l + 1)) false = true ∨ σ.getD (y + 1) 0 < σ.getD y 0) then 1 else 0
  have hdrop : ∀ (Y : List Bool) (i : ℕ), a + l + 1 ≤ i → (Y.drop (a + (l + 1))).getD (i - (a + l + 1)) false = Y.getD i false := fun Y i hi => by
    rw [List.getD_eq_getElem?_getD, List.getD_eq_getElem?_getD, List.getElem?_drop, show a + (l + 1) + (i - (a + l + 1)) = i by omega]
  have hHB : ∀ Y : List Bool, H (Y.drop (a + (l + 1))) = (uniformPermutation R (N + 1)).E fun σ => if ∀ y ∈ B, y ∈ virtualOf N σ Y then 1 else 0 := fun Y => by
    refine Dist.E_congr fun σ _ _ => if_congr (forall₂_congr fun y hy => ?_) rfl rfl
    have h1 := hAB y hy
    have h2 := mem_range.1 (hB hy)
    rw [hdrop Y y (by omega), hdrop Y (y + 1) (by omega), mem_virtualOf]
    exact ⟨fun h => ⟨h2, h⟩, fun h => h.2⟩
  have e1 : ((iid (virtualCoin x) (N + 1)).E fun Y => (uniformPermutation R (N + 1)).E fun σ => if ∀ y ∈ B, y ∈ virtualOf N σ Y then (1 : R) else 0)
      = (iid (virtualCoin x) r).E H := by
    rw [← E_iid_tail hm (a + (l + 1)) r H, ← hr]
    exact Dist.E_congr fun Y w hY => (hHB Y).symm
  rw [e1, ← E_runW h0 h1, ← E_iid_block hm a (l + 1) r, ← hr]
  refine Dist.E_congr fun Y w hY => ?_
  have hlY := iid_length _ _ _ hY
  rw [hHB Y]
  have hv : ((Y.drop a).take (l + 1)).getD l false = Y.getD (a + l) false := by
    rw [List.getD_eq_getElem?_getD, List.getD_eq_getElem?_getD, List.getElem?_take, if_pos (by omega), List.getElem?_drop]
  have hf : (∀ y ∈ ((Y.drop a).take (l + 1)).take l, y = false) ↔ ∀ i, i < l → Y.getD (a + i) false = false := by
    rw [List.take_take, show min l (l + 1) = l by omega]
    constructor
    · intro h i hi
      refine h _ ?_
      rw [List.mem_take_iff_getElem]
      refine ⟨i, by rw [List.length_drop]; omega, ?_⟩
      rw [List.getElem_drop, List.getD_eq_getElem _ _ (by omega)]
    · intro h y hy
      obtain ⟨i, hi, rfl⟩ := List.mem_take_iff_getElem.1 hy
      rw [List.length_drop] at hi
      rw [List.getElem_drop, ← List.getD_eq_getElem (d := false)]
      exact h i (by omega)
  have hQ : ∀ m, m ≤ l + 1 → ∀ t t' : List ℕ, t.length = t'.length → (∀ i, i < a ∨ a + m ≤ i → t.getD i 0 = t'.getD i 0) →
      (if ∀ y ∈ B, y ∈ virtualOf N t Y then (1 : R) else 0) = if ∀ y ∈ B, y ∈ virtualOf N t' Y then 1 else 0 := fun m hm t t' _ h => by
    refine if_congr (forall₂_congr fun y hy => ?_) rfl rfl
    have := hAB y hy
    rw [mem_virtualOf, mem_virtualOf, h y (.inr (by omega)), h (y + 1) (.inr (by omega))]
  unfold runW
  rw [hv]
  by_cases hall : ∀ i, i < l → Y.getD (a + i) false = false
  · rw [if_pos (hf.2 hall)]
    cases hY1 : Y.getD (a + l) false with
    | true =>
      rw [if_pos rfl, ← E_perm_block (R := R) (N := N + 1) (s := a) (m := l) (by omega) _ (hQ l (by omega))]
      refine Dist.E_congr fun σ _ _ => ?_
      rw [mul_ite, mul_one, mul_zero, ← ite_and]
      refine if_congr ?_ rfl rfl
      constructor
      · intro h
        refine ⟨fun j hj => ?_, fun y hy => h y (mem_union_right _ hy)⟩
        have := (mem_virtualOf.1 (h (a + j) (mem_union_left _ (mem_Ico.2 ⟨by omega, by omega⟩)))).2.2
        rw [show a + j + 1 = a + (j + 1) by omega, hall (j + 1) hj] at this
        exact this.resolve_left (by simp)
      · rintro ⟨h1, h2⟩ y hy
        rcases mem_union.1 hy with hy | hy
        · have hy' := mem_Ico.1 hy
          obtain ⟨j, rfl⟩ : ∃ j, y = a + j := ⟨y - a, by omega⟩
          refine mem_virtualOf.2 ⟨by omega, hall j (by omega), ?_⟩
          by_cases hj : j + 1 < l
          · exact .inr (h1 j hj)
          · left
            rw [show a + j + 1 = a + l by omega]
            exact hY1
        · exact h2 y hy
    | false =>
      rw [if_neg (by simp), ← E_perm_block (R := R) (N := N + 1) (s := a) (m := l + 1) (by omega) _ (hQ (l + 1) (by omega))]
      refine Dist.E_congr fun σ _ _ => ?_
      rw [mul_ite, mul_one, mul_zero, ← ite_and]
      refine if_congr ?_ rfl rfl
      constructor
      · intro h
        refine ⟨fun j hj => ?_, fun y hy => h y (mem_union_right _ hy)⟩
        have := (mem_virtualOf.1 (h (a + j) (mem_union_left _ (mem_Ico.2 ⟨by omega, by omega⟩)))).2.2
        have hYj : Y.getD (a + j + 1) false = false := by
          by_cases hj' : j + 1 < l
          · exact hall (j + 1) hj'
          · rw [show a + j + 1 = a + l by omega]; exact hY1
        rw [hYj] at this
        exact this.resolve_left (by simp)
      · rintro ⟨h1, h2⟩ y hy
        rcases mem_union.1 hy with hy | hy
        · have hy' := mem_Ico.1 hy
          obtain ⟨j, rfl⟩ : ∃ j, y = a + j := ⟨y - a, by omega⟩
          exact mem_virtualOf.2 ⟨by omega, hall j (by omega), .inr (h1 j (by omega))⟩
        · exact h2 y hy
  · rw [if_neg fun h => hall (hf.1 h), zero_mul]
    refine Dist.E_eq_zero fun σ _ _ => if_neg fun h => hall fun i hi => ?_
    exact (mem_virtualOf.1 (h (a + i) (mem_union_left _ (mem_Ico.2 ⟨by omega, by omega⟩)))).2.1

end Verif.Lemmas
