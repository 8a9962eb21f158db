import Verif.Lemmas.RSK
set_option linter.unusedVariables false

namespace Verif.Model
open Verif.Spec

variable {α : Type*} [LinearOrder α]

/-! ### from the recursive invariant to the specification -/

theorem RInv.shape_eq {it : ℕ} : ∀ {P : List (List α)} {Q : List (List ℕ)},
    RInv it P Q → shape P = shape Q
  | [], [], _ => rfl
  | r :: P, q :: Q, h => by
    have := RInv.shape_eq h.2.2.2.2.2.2.2
    simp only [shape, List.map_cons] at *
    rw [this, h.1]
  | [], _ :: _, h => h.elim
  | _ :: _, [], h => h.elim

theorem RInv.length_le_head {it : ℕ} : ∀ {P : List (List α)} {Q : List (List ℕ)},
    RInv it P Q → ∀ r ∈ P, r.length ≤ (P.headD []).length
  | [], [], _ => by simp
  | r :: P, q :: Q, h => by
    intro r' hr'
    simp only [List.mem_cons] at hr'
    rcases hr' with rfl | hr'
    · simp
    · have := RInv.length_le_head h.2.2.2.2.2.2.2 r' hr'
      have h6 := h.2.2.2.2.2.1.1
      simpa using this.trans h6
  | [], _ :: _, h => h.elim
  | _ :: _, [], h => h.elim

theorem RInv.isPartition {it : ℕ} : ∀ {P : List (List α)} {Q : List (List ℕ)},
    RInv it P Q → IsPartition (shape P)
  | [], [], _ => by simp [IsPartition, shape]
  | r :: P, q :: Q, h => by
    obtain ⟨h1, h2, h3, h4, h5, h6, h7, h8⟩ := h
    have ih := RInv.isPartition h8
    have hl := RInv.length_le_head h8
    simp only [IsPartition, shape, List.map_cons, List.mem_cons, List.mem_map,
      List.pairwise_cons, forall_eq_or_imp, forall_exists_index, and_imp,
      forall_apply_eq_imp_iff₂] at *
    refine ⟨⟨List.length_pos_iff.2 h2, ih.1⟩, ?_, ih.2⟩
    intro r' hr'
    exact (hl r' hr').trans h6.1
  | [], _ :: _, h => h.elim
  | _ :: _, [], h => h.elim

theorem columnsStrict_cons {β : Type*} [LT β] {r : List β} {P : List (List β)}
    (h : ColumnsStrict P) (hb : Below r (P.headD [])) : ColumnsStrict (r :: P) := by
  intro i j a b ha hb'
  cases i with
  | zero =>
    simp only [List.getElem?_cons_zero, Option.bind_some] at ha
    cases P with
    | nil => simp at hb'
    | cons s P =>
      simp only [List.getElem?_cons_succ, List.getElem?_cons_zero, Option.bind_some] at hb'
      exact hb.2 j a b ha (by simpa using hb')
  | succ i => exact h i j a b (by simpa using ha) (by simpa using hb')

theorem columnsStrict_nil {β : Type*} [LT β] : ColumnsStrict ([] : List (List β)) := by
  intro i j a b ha; simp at ha

theorem RInv.semistandard {it : ℕ} : ∀ {P : List (List α)} {Q : List (List ℕ)},
    RInv it P Q → (∀ r ∈ P, r.Pairwise (· ≤ ·)) ∧ ColumnsStrict P ∧
      (∀ q ∈ Q, q.Pairwise (· < ·)) ∧ ColumnsStrict Q
  | [], [], _ => by simp [columnsStrict_nil]
  | r :: P, q :: Q, h => by
    obtain ⟨h1, h2, h3, h4, h5, h6, h7, h8⟩ := h
    obtain ⟨i1, i2, i3, i4⟩ := RInv.semistandard h8
    refine ⟨?_, columnsStrict_cons i2 h6, ?_, columnsStrict_cons i4 h7⟩
    · simpa using ⟨h3, i1⟩
    · simpa using ⟨h4, i3⟩
  | [], _ :: _, h => h.elim
  | _ :: _, [], h => h.elim

/-! ### the loop -/

theorem rskLoop_spec (xs : List α) : ∀ (it : ℕ) (P : List (List α)) (Q : List (List ℕ)),
    RInv it P Q → ∃ P' Q', rskLoop it P Q xs = some (P', Q') ∧ RInv (it + xs.length) P' Q' ∧
      P'.headD [] = xs.foldl rowIns (P.headD []) ∧
      P'.flatten.Perm (P.flatten ++ xs) ∧
      Q'.flatten.Perm (Q.flatten ++ (List.range xs.length).map (· + it)) := by
  induction xs with
  | nil => intro it P Q h; exact ⟨P, Q, rfl, by simpa using h, rfl, by simp, by simp⟩
  | cons x xs ih =>
    intro it P Q h
    obtain ⟨P1, Q1, e1, e2, e3, e4, e5, e6, e7⟩ := rskInsert_spec it P Q x h
    obtain ⟨P', Q', f1, f2, f3, f4, f5⟩ := ih (it + 1) P1 Q1 e2
    refine ⟨P', Q', ?_, ?_, ?_, ?_, ?_⟩
    · simp [rskLoop, e1, f1]
    · have : it + 1 + xs.length = it + (x :: xs).length := by simp; omega
      rw [← this]; exact f2
    · rw [f3, e3]; rfl
    · refine f4.trans ((e5.append_right xs).trans ?_)
      exact List.perm_middle.symm
    · refine f5.trans ((e6.append_right _).trans ?_)
      simp only [List.length_cons, List.range_succ_eq_map, List.map_cons, List.map_map]
      refine (List.perm_middle.symm).trans ?_
      rw [show ((fun x => x + it) ∘ Nat.succ) = (fun x => x + (it + 1)) by
        funext k; simp; omega]
      simp

theorem rskLoop_injective : ∀ (xs ys : List α) (it : ℕ) (P₁ P₂ : List (List α))
    (Q₁ Q₂ : List (List ℕ)) (_ : RInv it P₁ Q₁) (_ : RInv it P₂ Q₂)
    (_ : xs.length = ys.length) (_ : rskLoop it P₁ Q₁ xs = rskLoop it P₂ Q₂ ys),
    P₁ = P₂ ∧ Q₁ = Q₂ ∧ xs = ys
  | [], [], it, P₁, P₂, Q₁, Q₂, _, _, _, h => by
    simp only [rskLoop, Option.some.injEq, Prod.mk.injEq] at h
    exact ⟨h.1, h.2, rfl⟩
  | x :: xs, y :: ys, it, P₁, P₂, Q₁, Q₂, h1, h2, hl, h => by
    obtain ⟨P1, Q1, e1, e2, -, -, -, -, e7⟩ := rskInsert_spec it P₁ Q₁ x h1
    obtain ⟨P2, Q2, f1, f2, -, -, -, -, f7⟩ := rskInsert_spec it P₂ Q₂ y h2
    simp only [rskLoop, e1, f1] at h
    obtain ⟨rfl, rfl, rfl⟩ := rskLoop_injective xs ys (it+1) P1 P2 Q1 Q2 e2 f2 (by simpa using hl) h
    rw [e7] at f7
    simp only [Option.some.injEq, Prod.mk.injEq] at f7
    exact ⟨f7.1, f7.2.1, by rw [f7.2.2]⟩
  | [], _ :: _, _, _, _, _, _, _, _, hl, _ => by simp at hl
  | _ :: _, [], _, _, _, _, _, _, _, hl, _ => by simp at hl

/-! ### Schensted's theorem: invariant of the first row -/

/-- patience-sorting invariant -/
structure FirstRowInv (row l : List α) : Prop where
  sorted : row.Pairwise (· ≤ ·)
  attained : ∀ (j : ℕ) (v : α), row[j]? = some v →
    ∃ u : List α, NondecSub u l ∧ u.length = j + 1 ∧ u.getLast? = some v
  best : ∀ (u : List α) (v : α), NondecSub u l → u.getLast? = some v →
    ∃ w, row[u.length - 1]? = some w ∧ w ≤ v

theorem sublist_concat_cases {β : Type*} {u l : List β} {x : β} (h : u.Sublist (l ++ [x])) :
    u.Sublist l ∨ ∃ u', u = u' ++ [x] ∧ u'.Sublist l := by
  rw [List.sublist_append_iff] at h
  obtain ⟨a, b, rfl, ha, hb⟩ := h
  rw [List.sublist_singleton] at hb
  rcases hb with rfl | rfl
  · left; simpa using ha
  · right; exact ⟨a, rfl, ha⟩

theorem FirstRowInv.step {row l : List α} (h : FirstRowInv row l) (x : α) :
    FirstRowInv (rowIns row x) (l ++ [x]) := by
  obtain ⟨hs, ha, hb⟩ := h
  obtain ⟨b1, b2, b3⟩ := bisectRight_spec row x hs
  refine ⟨rowIns_sorted row x hs, ?_, ?_⟩
  · intro j v hv
    rw [rowIns_getElem? row x hs] at hv
    split at hv
    · next hj =>
      cases hv
      rcases Nat.eq_zero_or_pos j with h0 | hpos
      · refine ⟨[x], ⟨by simp, by simp⟩, by simp [h0], by simp⟩
      · have hlt : j - 1 < row.length := by omega
        obtain ⟨u, hu, hul, hulast⟩ := ha (j-1) _ (List.getElem?_eq_getElem hlt)
        have hle := b2 (j-1) _ (by omega) (List.getElem?_eq_getElem hlt)
        refine ⟨u ++ [x], ⟨hu.1.append (List.Sublist.refl _), ?_⟩, by simp [hul]; omega, by simp⟩
        rw [List.pairwise_append]
        refine ⟨hu.2, by simp, ?_⟩
        intro a ha' b hb'
        simp only [List.mem_singleton] at hb'
        subst hb'
        -- all elements of u are ≤ last
        obtain ⟨u', rfl⟩ := List.getLast?_eq_some_iff.1 hulast
        simp only [List.mem_append, List.mem_singleton] at ha'
        rcases ha' with ha' | rfl
        · have := (List.pairwise_append.1 hu.2).2.2 a ha' _ (List.mem_singleton.2 rfl)
          exact this.trans hle
        · exact hle
    · obtain ⟨u, hu, h1, h2⟩ := ha j v hv
      exact ⟨u, ⟨hu.1.trans (List.sublist_append_left _ _), hu.2⟩, h1, h2⟩
  · intro u v hu hv
    rcases sublist_concat_cases hu.1 with h | ⟨u', rfl, hu'⟩
    · obtain ⟨w, hw, hwv⟩ := hb u v ⟨h, hu.2⟩ hv
      rw [rowIns_getElem? row x hs]
      split
      · next hj =>
        exact ⟨x, rfl, (b3 _ _ (by omega) hw).le.trans hwv⟩
      · exact ⟨w, hw, hwv⟩
    · simp only [List.getLast?_append, List.getLast?_singleton, Option.some_or,
        Option.some.injEq] at hv
      subst hv
      have hlen : (u' ++ [x]).length - 1 = u'.length := by simp
      rw [hlen, rowIns_getElem? row x hs]
      split
      · exact ⟨x, rfl, le_rfl⟩
      · next hj =>
        -- u'.length ≤ bisection point
        have hup : u'.length < bisectRight row x := by
          rcases Nat.lt_or_ge u'.length (bisectRight row x) with h | h
          · exact h
          · exfalso
            have hgt : bisectRight row x < u'.length := by omega
            obtain ⟨last, hlast⟩ : ∃ z, u'.getLast? = some z := by
              have hne : u' ≠ [] := by intro hnil; simp [hnil] at hgt
              exact ⟨_, List.getLast?_eq_some_getLast hne⟩
            obtain ⟨w, hw, hwv⟩ := hb u' last ⟨hu', (List.pairwise_append.1 hu.2).1⟩ hlast
            have h1 : x < w := b3 _ _ (by omega) hw
            have h2 : last ≤ x := (List.pairwise_append.1 hu.2).2.2 last
              (List.mem_of_getLast? hlast) x (List.mem_singleton.2 rfl)
            exact absurd (h1.trans_le hwv) (not_lt.2 h2)
        have hlt : u'.length < row.length := by omega
        exact ⟨_, List.getElem?_eq_getElem hlt, b2 _ _ hup (List.getElem?_eq_getElem hlt)⟩

theorem FirstRowInv.foldl (xs : List α) : ∀ (row l : List α), FirstRowInv row l →
    FirstRowInv (xs.foldl rowIns row) (l ++ xs) := by
  induction xs with
  | nil => intro row l h; simpa using h
  | cons x xs ih =>
    intro row l h
    have := ih _ _ (h.step x)
    simpa using this

theorem FirstRowInv.init : FirstRowInv ([] : List α) [] := by
  refine ⟨by simp, by simp, ?_⟩
  intro u v hu hv
  have := hu.1
  simp only [List.sublist_nil] at this
  subst this
  simp at hv

end Verif.Model
