import Verif.Model.RSK
import Verif.Spec.Tableau
import Mathlib.Data.List.Sort
import Mathlib.Tactic.Linarith

set_option linter.unusedVariables false

namespace Verif.Model
open Verif.Spec

variable {α : Type*} [LinearOrder α]

/-! ### bisect_right -/

theorem bisectRightLoop_spec (a : List α) (x : α) (hs : a.Pairwise (· ≤ ·)) :
    ∀ (lo hi : ℕ), lo ≤ hi → hi ≤ a.length →
      (∀ j v, j < lo → a[j]? = some v → v ≤ x) →
      (∀ j v, hi ≤ j → a[j]? = some v → x < v) →
      bisectRightLoop a x lo hi ≤ a.length ∧
      (∀ j v, j < bisectRightLoop a x lo hi → a[j]? = some v → v ≤ x) ∧
      (∀ j v, bisectRightLoop a x lo hi ≤ j → a[j]? = some v → x < v) := by
  intro lo hi
  fun_induction bisectRightLoop a x lo hi with
  | case1 lo hi hlt v hv hx ih =>
    intro h1 h2 hl hh
    apply ih (by omega) (by omega) hl
    intro j w hj hw
    rcases Nat.lt_or_ge ((lo+hi)/2) j with h | h
    · have hle := List.pairwise_iff_getElem.1 hs ((lo+hi)/2) j (by omega)
        (by obtain ⟨h, _⟩ := List.getElem?_eq_some_iff.1 hw; exact h) h
      obtain ⟨_, rfl⟩ := List.getElem?_eq_some_iff.1 hw
      obtain ⟨_, rfl⟩ := List.getElem?_eq_some_iff.1 hv
      exact lt_of_lt_of_le hx hle
    · have : j = (lo+hi)/2 := by omega
      subst this
      rw [hv] at hw; cases hw; exact hx
  | case2 lo hi hlt v hv hx ih =>
    intro h1 h2 hl hh
    apply ih (by omega) h2 _ hh
    intro j w hj hw
    rcases Nat.lt_or_ge j ((lo+hi)/2) with h | h
    · have hle := List.pairwise_iff_getElem.1 hs j ((lo+hi)/2) (by omega) (by omega) h
      obtain ⟨_, rfl⟩ := List.getElem?_eq_some_iff.1 hw
      obtain ⟨_, rfl⟩ := List.getElem?_eq_some_iff.1 hv
      exact hle.trans (not_lt.1 hx)
    · have : j = (lo+hi)/2 := by omega
      subst this
      rw [hv] at hw; cases hw; exact not_lt.1 hx
  | case3 lo hi hlt hn =>
    intro h1 h2
    rw [List.getElem?_eq_none_iff] at hn
    omega
  | case4 lo hi hnlt =>
    intro h1 h2 hl hh
    have : lo = hi := by omega
    subst this
    exact ⟨h2, hl, hh⟩

theorem bisectRight_spec (a : List α) (x : α) (hs : a.Pairwise (· ≤ ·)) :
    bisectRight a x ≤ a.length ∧
      (∀ j v, j < bisectRight a x → a[j]? = some v → v ≤ x) ∧
      (∀ j v, bisectRight a x ≤ j → a[j]? = some v → x < v) := by
  apply bisectRightLoop_spec a x hs 0 a.length (by omega) le_rfl
  · intro j v h; omega
  · intro j v h hv
    obtain ⟨h', _⟩ := List.getElem?_eq_some_iff.1 hv
    omega

/-- the row obtained by putting `x` at the bisection point -/
def rowIns (r : List α) (x : α) : List α :=
  r.take (bisectRight r x) ++ x :: r.drop (bisectRight r x + 1)

/-- `s` may be the row under `r` -/
def Below {β : Type*} [LT β] (r s : List β) : Prop :=
  s.length ≤ r.length ∧ ∀ (j : ℕ) (a b : β), r[j]? = some a → s[j]? = some b → a < b

theorem below_nil {β : Type*} [LT β] (r : List β) : Below r [] := by simp [Below]

theorem bisect_of_last_le {r : List α} {x last : α} (hs : r.Pairwise (· ≤ ·))
    (hl : r.getLast? = some last) : last ≤ x ↔ bisectRight r x = r.length := by
  obtain ⟨h1, h2, h3⟩ := bisectRight_spec r x hs
  rw [List.getLast?_eq_getElem?] at hl
  have hlen : 0 < r.length := by
    obtain ⟨h, _⟩ := List.getElem?_eq_some_iff.1 hl; omega
  constructor
  · intro h
    by_contra hne
    have := h3 (r.length - 1) last (by omega) hl
    exact absurd this (not_lt.2 h)
  · intro h
    exact h2 (r.length - 1) last (by omega) hl

theorem rowIns_getElem? (r : List α) (x : α) (hs : r.Pairwise (· ≤ ·)) (j : ℕ) :
    (rowIns r x)[j]? = if j = bisectRight r x then some x else r[j]? := by
  obtain ⟨h1, -, -⟩ := bisectRight_spec r x hs
  unfold rowIns
  have hl : (List.take (bisectRight r x) r).length = bisectRight r x := by simp; omega
  rcases lt_trichotomy j (bisectRight r x) with h | h | h
  · rw [if_neg (by omega), List.getElem?_append_left (by omega), List.getElem?_take_of_lt h]
  · rw [if_pos h, List.getElem?_append_right (by omega), hl]; simp [h]
  · rw [if_neg (by omega), List.getElem?_append_right (by omega), hl]
    obtain ⟨k, rfl⟩ := Nat.exists_eq_add_of_lt h
    rw [show bisectRight r x + k + 1 - bisectRight r x = k + 1 by omega]
    simp only [List.getElem?_cons_succ, List.getElem?_drop]
    congr 1; omega

theorem rowIns_length (r : List α) (x : α) (hs : r.Pairwise (· ≤ ·)) :
    (rowIns r x).length = max r.length (bisectRight r x + 1) := by
  obtain ⟨h1, -, -⟩ := bisectRight_spec r x hs
  unfold rowIns
  simp
  omega

theorem rowIns_sorted (r : List α) (x : α) (hs : r.Pairwise (· ≤ ·)) :
    (rowIns r x).Pairwise (· ≤ ·) := by
  obtain ⟨h1, h2, h3⟩ := bisectRight_spec r x hs
  rw [List.pairwise_iff_getElem]
  intro i j hi hj hij
  have ei := rowIns_getElem? r x hs i
  have ej := rowIns_getElem? r x hs j
  rw [List.getElem?_eq_getElem hi] at ei
  rw [List.getElem?_eq_getElem hj] at ej
  split at ei <;> split at ej
  · omega
  · simp only [Option.some.injEq] at ei; rw [ei]; exact (h3 j _ (by omega) ej.symm).le
  · simp only [Option.some.injEq] at ej; rw [ej]; exact h2 i _ (by omega) ei.symm
  · obtain ⟨hi', e1⟩ := List.getElem?_eq_some_iff.1 ei.symm
    obtain ⟨hj', e2⟩ := List.getElem?_eq_some_iff.1 ej.symm
    rw [← e1, ← e2]
    exact List.pairwise_iff_getElem.1 hs i j hi' hj' hij

theorem rowIns_append {r : List α} {x : α} (h : bisectRight r x = r.length) :
    rowIns r x = r ++ [x] := by
  simp [rowIns, h]

theorem rowIns_set {r : List α} {x : α} (h : bisectRight r x < r.length) :
    rowIns r x = r.set (bisectRight r x) x := by
  rw [rowIns, List.set_eq_take_append_cons_drop, if_pos h]

/-! ### the invariant -/

/-- joint invariant of the two tableaux before step `it` -/
def RInv (it : ℕ) : List (List α) → List (List ℕ) → Prop
  | [], [] => True
  | r :: P, q :: Q =>
      q.length = r.length ∧ r ≠ [] ∧ r.Pairwise (· ≤ ·) ∧ q.Pairwise (· < ·) ∧ (∀ e ∈ q, e < it) ∧
      Below r (P.headD []) ∧ Below q (Q.headD []) ∧ RInv it P Q
  | _, _ => False

theorem RInv.mono {it : ℕ} : ∀ {P : List (List α)} {Q : List (List ℕ)},
    RInv it P Q → RInv (it + 1) P Q
  | [], [], _ => trivial
  | r :: P, q :: Q, h => by
    obtain ⟨h1, h2, h3, h4, h5, h6, h7, h8⟩ := h
    exact ⟨h1, h2, h3, h4, fun e he => Nat.lt_succ_of_lt (h5 e he), h6, h7, RInv.mono h8⟩
  | [], _ :: _, h => h.elim
  | _ :: _, [], h => h.elim

theorem RInv.head_length {it : ℕ} : ∀ {P : List (List α)} {Q : List (List ℕ)},
    RInv it P Q → (Q.headD []).length = (P.headD []).length
  | [], [], _ => rfl
  | r :: P, q :: Q, h => h.1
  | [], _ :: _, h => h.elim
  | _ :: _, [], h => h.elim

theorem RInv.head_sorted {it : ℕ} : ∀ {P : List (List α)} {Q : List (List ℕ)},
    RInv it P Q → (P.headD []).Pairwise (· ≤ ·)
  | [], [], _ => by simp
  | r :: P, q :: Q, h => h.2.2.1
  | [], _ :: _, h => h.elim
  | _ :: _, [], h => h.elim

theorem below_bump {r s : List α} {x y : α} (hr : r.Pairwise (· ≤ ·)) (hs : s.Pairwise (· ≤ ·))
    (hb : Below r s) (hy : r[bisectRight r x]? = some y) :
    Below (rowIns r x) (rowIns s y) := by
  obtain ⟨a1, a2, a3⟩ := bisectRight_spec r x hr
  obtain ⟨b1, b2, b3⟩ := bisectRight_spec s y hs
  obtain ⟨hb1, hb2⟩ := hb
  have hxy : x < y := a3 _ _ le_rfl hy
  have hlt : bisectRight r x < r.length := (List.getElem?_eq_some_iff.1 hy).1
  -- bisection point of `s` is weakly to the left
  have hle : bisectRight s y ≤ bisectRight r x := by
    by_contra hc
    have hlt' : bisectRight r x < s.length := by omega
    have h1 := hb2 _ _ _ hy (List.getElem?_eq_getElem hlt')
    have h2 := b2 _ _ (by omega) (List.getElem?_eq_getElem hlt')
    exact absurd h1 (not_lt.2 h2)
  constructor
  · rw [rowIns_length r x hr, rowIns_length s y hs]; omega
  · intro j a b ha hb'
    rw [rowIns_getElem? r x hr] at ha
    rw [rowIns_getElem? s y hs] at hb'
    have key : a ≤ x ∨ r[j]? = some a := by
      split at ha
      · cases ha; exact .inl le_rfl
      · exact .inr ha
    split at hb'
    · next h =>
      cases hb'
      rcases key with h' | h'
      · exact lt_of_le_of_lt h' hxy
      · split at ha
        · cases ha; exact hxy
        · exact lt_of_le_of_lt (a2 j a (by omega) h') hxy
    · split at ha
      · next h1 h2 =>
        cases ha
        subst h2
        exact lt_trans hxy (hb2 _ _ _ hy hb')
      · exact hb2 _ _ _ ha hb'

/-! ### reverse insertion -/

/-- inverse of one insertion: `it` marks the last box of `Q` -/
def rskUninsert (it : ℕ) :
    List (List α) → List (List ℕ) → Option (List (List α) × List (List ℕ) × α)
  | rowP :: P, rowQ :: Q =>
    if rowQ.getLast? = some it then
      match rowP.getLast? with
      | none => none
      | some x =>
        if rowP.length = 1 then some (P, Q, x)
        else some (rowP.dropLast :: P, rowQ.dropLast :: Q, x)
    else
      match rskUninsert it P Q with
      | none => none
      | some (P', Q', y) =>
        match rowP[(rowP.takeWhile (fun v => decide (v < y))).length - 1]? with
        | none => none
        | some x =>
          some (rowP.set ((rowP.takeWhile (fun v => decide (v < y))).length - 1) y :: P',
            rowQ :: Q', x)
  | _, _ => none

theorem length_takeWhile_eq {β : Type*} (p : β → Bool) (l : List β) (n : ℕ)
    (h1 : ∀ j v, j < n → l[j]? = some v → p v = true) (hn : n ≤ l.length)
    (h2 : ∀ v, l[n]? = some v → p v = false) : (l.takeWhile p).length = n := by
  induction l generalizing n with
  | nil => simp at hn; simp [hn]
  | cons a l ih =>
    cases n with
    | zero =>
      have := h2 a (by simp)
      simp [this]
    | succ n =>
      have ha := h1 0 a (by omega) (by simp)
      simp only [List.takeWhile_cons, ha, if_true, List.length_cons, Nat.add_right_cancel_iff]
      apply ih n
      · intro j v hj hv; exact h1 (j+1) v (by omega) (by simpa using hv)
      · simp at hn; omega
      · intro v hv; exact h2 v (by simpa using hv)

theorem flatten_perm_cons {β : Type*} (x : β) (r : List β) (P : List (List β)) :
    ((r ++ [x]) :: P).flatten.Perm (x :: (r :: P).flatten) := by
  simp only [List.flatten_cons, List.append_assoc, List.singleton_append]
  exact List.perm_middle

theorem set_perm_swap {β : Type*} (r : List β) (i : ℕ) (x y : β) (h : r[i]? = some y) :
    (y :: r.set i x).Perm (x :: r) := by
  obtain ⟨hi, hy⟩ := List.getElem?_eq_some_iff.1 h
  rw [List.set_eq_take_append_cons_drop, if_pos hi]
  have : r = r.take i ++ y :: r.drop (i+1) := by
    rw [← hy]; simp
  have h2 : (x :: r).Perm (x :: (r.take i ++ y :: r.drop (i+1))) := by rw [← this]
  refine List.Perm.trans ?_ h2.symm
  exact ((List.perm_middle.cons y).trans (List.Perm.swap _ _ _)).trans
    (List.perm_middle.symm.cons x)

/-- Everything one insertion does. -/
theorem rskInsert_spec (it : ℕ) : ∀ (P : List (List α)) (Q : List (List ℕ)) (x : α),
    RInv it P Q → ∃ P' Q', rskInsert it P Q x = some (P', Q') ∧ RInv (it + 1) P' Q' ∧
      P'.headD [] = rowIns (P.headD []) x ∧
      (Q'.headD [] = Q.headD [] ∨ Q'.headD [] = Q.headD [] ++ [it]) ∧
      P'.flatten.Perm (x :: P.flatten) ∧ Q'.flatten.Perm (it :: Q.flatten) ∧
      rskUninsert it P' Q' = some (P, Q, x)
  | [], [], x, _ => by
    refine ⟨[[x]], [[it]], rfl, ?_, ?_, ?_, ?_, ?_, ?_⟩ <;>
      simp [RInv, below_nil, rowIns, rskUninsert]
  | r :: P, q :: Q, x, h => by
    have hfull := h
    obtain ⟨h1, h2, h3, h4, h5, h6, h7, h8⟩ := h
    obtain ⟨last, hlast⟩ : ∃ l, r.getLast? = some l := by
      rw [← Option.isSome_iff_exists]; simpa using h2
    obtain ⟨a1, a2, a3⟩ := bisectRight_spec r x h3
    by_cases hx : last ≤ x
    · have hb := (bisect_of_last_le h3 hlast).1 hx
      have hri := rowIns_append hb
      refine ⟨(r ++ [x]) :: P, (q ++ [it]) :: Q, ?_, ?_, ?_, ?_, ?_, ?_, ?_⟩
      · simp [rskInsert, hlast, hx]
      · refine ⟨by simp [h1], by simp, ?_, ?_, ?_, ?_, ?_, RInv.mono h8⟩
        · rw [← hri]; exact rowIns_sorted r x h3
        · rw [List.pairwise_append]
          refine ⟨h4, by simp, ?_⟩
          intro a ha b hb'
          simp only [List.mem_singleton] at hb'
          subst hb'; exact h5 a ha
        · intro e he
          simp only [List.mem_append, List.mem_singleton] at he
          rcases he with he | he
          · have := h5 e he; omega
          · omega
        · refine ⟨by have := h6.1; rw [List.length_append]; omega, ?_⟩
          intro j a b ha hb'
          have hj : j < (P.headD []).length := (List.getElem?_eq_some_iff.1 hb').1
          rw [List.getElem?_append_left (by have := h6.1; omega)] at ha
          exact h6.2 j a b ha hb'
        · refine ⟨by have := h7.1; rw [List.length_append]; omega, ?_⟩
          intro j a b ha hb'
          have hj : j < (Q.headD []).length := (List.getElem?_eq_some_iff.1 hb').1
          rw [List.getElem?_append_left (by have := h7.1; omega)] at ha
          exact h7.2 j a b ha hb'
      · simp [hri]
      · simp
      · exact flatten_perm_cons x r P
      · exact flatten_perm_cons it q Q
      · simp [rskUninsert, h2]
    · have hblt : bisectRight r x < r.length := by
        rcases Nat.lt_or_ge (bisectRight r x) r.length with h | h
        · exact h
        · exact absurd ((bisect_of_last_le h3 hlast).2 (by omega)) hx
      obtain ⟨y, hy⟩ : ∃ y, r[bisectRight r x]? = some y := ⟨_, List.getElem?_eq_getElem hblt⟩
      obtain ⟨P', Q', e1, e2, e3, e4, e5, e6, e7⟩ := rskInsert_spec it P Q y h8
      have hri := rowIns_set hblt
      have hxy : x < y := a3 _ _ le_rfl hy
      refine ⟨r.set (bisectRight r x) x :: P', q :: Q', ?_, ?_, ?_, ?_, ?_, ?_, ?_⟩
      · simp [rskInsert, hlast, hx, hy, e1]
      · refine ⟨by simp [h1], by simpa using h2, ?_, h4, ?_, ?_, ?_, e2⟩
        · rw [← hri]; exact rowIns_sorted r x h3
        · intro e he; have := h5 e he; omega
        · rw [e3, ← hri]
          exact below_bump h3 h8.head_sorted h6 hy
        · have hlen : (Q'.headD []).length ≤ q.length := by
            rw [e2.head_length, e3, h1]
            have := (below_bump h3 h8.head_sorted h6 hy).1
            rw [hri] at this
            simpa using this
          rcases e4 with e4 | e4
          · rw [e4]; exact h7
          · refine ⟨hlen, ?_⟩
            intro j a b ha hb'
            rw [e4] at hb'
            rcases Nat.lt_or_ge j (Q.headD []).length with h | h
            · rw [List.getElem?_append_left h] at hb'
              exact h7.2 j a b ha hb'
            · rw [List.getElem?_append_right h] at hb'
              rw [List.getElem?_singleton] at hb'
              split at hb'
              · cases hb'; exact h5 a (List.mem_of_getElem? ha)
              · simp at hb'
      · simp [hri]
      · left; rfl
      · simp only [List.flatten_cons]
        have p1 := set_perm_swap r (bisectRight r x) x y hy
        calc (r.set (bisectRight r x) x ++ P'.flatten).Perm
              (r.set (bisectRight r x) x ++ (y :: P.flatten)) := e5.append_left _
          _ |>.Perm ((y :: r.set (bisectRight r x) x) ++ P.flatten) := List.perm_middle
          _ |>.Perm ((x :: r) ++ P.flatten) := p1.append_right _
          _ |>.Perm _ := by simp
      · simp only [List.flatten_cons]
        exact (e6.append_left q).trans List.perm_middle
      · have hq : q.getLast? ≠ some it := by
          intro hc
          have := h5 it (List.mem_of_getLast? hc)
          omega
        have htw : ((r.set (bisectRight r x) x).takeWhile (fun v => decide (v < y))).length
            = bisectRight r x + 1 := by
          apply length_takeWhile_eq
          · intro j v hj hv
            rw [List.getElem?_set] at hv
            split at hv
            · simp only [Option.some.injEq] at hv; subst hv; simpa using hxy
            · simpa using lt_of_le_of_lt (a2 j v (by omega) hv) hxy
          · simp; omega
          · intro v hv
            rw [List.getElem?_set_ne (by omega)] at hv
            obtain ⟨hv1, hv2⟩ := List.getElem?_eq_some_iff.1 hv
            obtain ⟨hy1, hy2⟩ := List.getElem?_eq_some_iff.1 hy
            have := List.pairwise_iff_getElem.1 h3 _ _ hy1 hv1 (by omega)
            rw [hv2, hy2] at this
            simpa using this
        have hset : r.set (bisectRight r x) y = r := by
          obtain ⟨_, hy2⟩ := List.getElem?_eq_some_iff.1 hy
          rw [← hy2]; simp
        simp [rskUninsert, hq, e7, htw, hblt, hset]
  | [], _ :: _, _, h => h.elim
  | _ :: _, [], _, h => h.elim

end Verif.Model
