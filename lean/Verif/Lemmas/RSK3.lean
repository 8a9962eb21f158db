import Verif.Lemmas.RSK2
set_option linter.unusedVariables false

/-!
RSK is onto: reverse insertion is a right inverse of insertion.
-/

namespace Verif.Model
open Verif.Spec

variable {α : Type*} [LinearOrder α]

theorem bisectRight_unique {a : List α} {x : α} (hs : a.Pairwise (· ≤ ·)) {k : ℕ} (hk : k ≤ a.length)
    (h1 : ∀ j v, j < k → a[j]? = some v → v ≤ x) (h2 : ∀ v, a[k]? = some v → x < v) : bisectRight a x = k := by
  obtain ⟨b1, b2, b3⟩ := bisectRight_spec a x hs
  rcases lt_trichotomy (bisectRight a x) k with h | h | h
  · have hl : bisectRight a x < a.length := by omega
    have e := List.getElem?_eq_getElem hl
    exact absurd (b3 _ _ le_rfl e) (not_lt.2 (h1 _ _ h e))
  · exact h
  · have hl : k < a.length := by omega
    have e := List.getElem?_eq_getElem hl
    exact absurd (h2 _ e) (not_lt.2 (b2 _ _ h e))

/-- entries bounded by `it` when `it` does not occur -/
theorem RInv.of_succ {it : ℕ} : ∀ {P : List (List α)} {Q : List (List ℕ)},
    RInv (it + 1) P Q → it ∉ Q.flatten → RInv it P Q
  | [], [], _, _ => trivial
  | r :: P, q :: Q, h, hn => by
    obtain ⟨h1, h2, h3, h4, h5, h6, h7, h8⟩ := h
    simp only [List.flatten_cons, List.mem_append, not_or] at hn
    refine ⟨h1, h2, h3, h4, fun e he => ?_, h6, h7, RInv.of_succ h8 hn.2⟩
    have := h5 e he
    have : e ≠ it := fun hc => hn.1 (hc ▸ he)
    omega
  | [], _ :: _, h, _ => h.elim
  | _ :: _, [], h, _ => h.elim

theorem RInv.eq_nil_iff {it : ℕ} : ∀ {P : List (List α)} {Q : List (List ℕ)},
    RInv it P Q → P.headD [] = [] → P = [] ∧ Q = []
  | [], [], _, _ => ⟨rfl, rfl⟩
  | r :: P, q :: Q, h, hn => absurd (by simpa using hn) h.2.1
  | [], _ :: _, h, _ => h.elim
  | _ :: _, [], h, _ => h.elim

/-- number of entries below `y` in a sorted row -/
theorem exists_split (r : List α) (y : α) : ∃ k, k ≤ r.length ∧
    (∀ j v, j < k → r[j]? = some v → v < y) ∧ (∀ v, r[k]? = some v → y ≤ v) := by
  induction r with
  | nil => exact ⟨0, by simp, by simp, by simp⟩
  | cons a r ih =>
    obtain ⟨k, h1, h2, h3⟩ := ih
    by_cases h : a < y
    · refine ⟨k + 1, by simpa using h1, ?_, by simpa using h3⟩
      intro j v hj hv
      cases j with
      | zero => simp at hv; exact hv ▸ h
      | succ j => exact h2 j v (by omega) (by simpa using hv)
    · exact ⟨0, by simp, by simp, by simpa using h⟩

/-- Every pair whose last recorded box is `it` is the result of one insertion. -/
theorem rskInsert_surj (it : ℕ) : ∀ (P : List (List α)) (Q : List (List ℕ)), RInv (it + 1) P Q →
    Q.flatten.Nodup → it ∈ Q.flatten → ∃ P0 Q0 x, RInv it P0 Q0 ∧ rskInsert it P0 Q0 x = some (P, Q)
  | [], [], _, _, hm => by simp at hm
  | r :: P, q :: Q, h, hnd, hm => by
    obtain ⟨h1, h2, h3, h4, h5, h6, h7, h8⟩ := h
    rw [List.flatten_cons, List.nodup_append'] at hnd
    obtain ⟨nd1, nd2, nd3⟩ := hnd
    by_cases hq : it ∈ q
    · have hQ : it ∉ Q.flatten := fun hc => nd3 hq hc
      have h8' := RInv.of_succ h8 hQ
      have hqne : q ≠ [] := List.ne_nil_of_mem hq
      obtain ⟨q0, qe, rfl⟩ := List.eq_nil_or_concat q |>.resolve_left hqne
      have hqe : qe = it := by
        rw [List.concat_eq_append] at *
        by_contra hne
        have hq0 : it ∈ q0 := by
          rcases List.mem_append.1 hq with h | h
          · exact h
          · exact absurd (List.mem_singleton.1 h).symm hne
        have a1 := (List.pairwise_append.1 h4).2.2 it hq0 qe (by simp)
        have a2 := h5 qe (by simp)
        omega
      subst hqe
      obtain ⟨r0, x, rfl⟩ := List.eq_nil_or_concat r |>.resolve_left h2
      rw [List.concat_eq_append] at *
      rw [List.concat_eq_append] at *
      have hlen : q0.length = r0.length := by simpa using h1
      -- the row below is shorter
      have hbl : (Q.headD []).length ≤ q0.length := by
        by_contra hc
        have hl1 := h7.1
        have hl : q0.length < (Q.headD []).length := by omega
        have e := List.getElem?_eq_getElem hl
        have hlt := h7.2 q0.length qe _ (by simp) e
        have hmem : (Q.headD [])[q0.length] ∈ Q.flatten := by
          cases Q with
          | nil => simp at hl
          | cons s Q =>
            simp only [List.headD_cons, List.flatten_cons, List.mem_append]
            exact .inl (List.getElem_mem _)
        have hlt2 : ∀ e ∈ Q.headD [], e < qe := by
          cases P with
          | nil => cases Q with
            | nil => simp
            | cons s Q => exact h8'.elim
          | cons p P => cases Q with
            | nil => exact h8'.elim
            | cons s Q => simpa using h8'.2.2.2.2.1
        have := hlt2 _ (List.getElem_mem hl)
        omega
      by_cases hr0 : r0 = []
      · subst hr0
        have hq0 : q0 = [] := List.length_eq_zero_iff.1 (by simpa using hlen)
        subst hq0
        have hQh : Q.headD [] = [] := List.length_eq_zero_iff.1 (by simpa using hbl)
        have hPh : P.headD [] = [] := by
          have := h8.head_length
          rw [hQh] at this
          exact List.length_eq_zero_iff.1 (by simpa using this.symm)
        obtain ⟨rfl, rfl⟩ := h8.eq_nil_iff hPh
        exact ⟨[], [], x, trivial, rfl⟩
      · refine ⟨r0 :: P, q0 :: Q, x, ⟨hlen, hr0, (List.pairwise_append.1 h3).1, (List.pairwise_append.1 h4).1, ?_, ?_, ?_, h8'⟩, ?_⟩
        · intro e he
          exact (List.pairwise_append.1 h4).2.2 e he qe (by simp)
        · refine ⟨by rw [← h8.head_length]; omega, fun j a b ha hb => ?_⟩
          exact h6.2 j a b (by rw [List.getElem?_append_left (List.getElem?_eq_some_iff.1 ha).1]; exact ha) hb
        · refine ⟨hbl, fun j a b ha hb => ?_⟩
          exact h7.2 j a b (by rw [List.getElem?_append_left (List.getElem?_eq_some_iff.1 ha).1]; exact ha) hb
        · obtain ⟨last, hlast⟩ : ∃ l, r0.getLast? = some l := by
            rw [← Option.isSome_iff_exists]; simpa using hr0
          have hle : last ≤ x := (List.pairwise_append.1 h3).2.2 last (List.mem_of_getLast? hlast) x (by simp)
          simp [rskInsert, hlast, hle]
    · have hm' : it ∈ Q.flatten := by
        rw [List.flatten_cons, List.mem_append] at hm
        exact hm.resolve_left hq
      obtain ⟨P0, Q0, y, i1, i2⟩ := rskInsert_surj it P Q h8 nd2 hm'
      obtain ⟨P', Q', e1, e2, e3, e4, -, -, -⟩ := rskInsert_spec it P0 Q0 y i1
      rw [i2] at e1
      obtain ⟨rfl, rfl⟩ : P = P' ∧ Q = Q' := by simpa using e1
      have hs0 := i1.head_sorted
      obtain ⟨b1, b2, b3⟩ := bisectRight_spec (P0.headD []) y hs0
      obtain ⟨k, k1, k2, k3⟩ := exists_split r y
      -- position of `y` in the row below
      have hpy : (P.headD [])[bisectRight (P0.headD []) y]? = some y := by
        rw [e3, rowIns_getElem? _ _ hs0, if_pos rfl]
      have hjl : bisectRight (P0.headD []) y < r.length := by
        have := (List.getElem?_eq_some_iff.1 hpy).1
        have := h6.1
        omega
      have hrj := h6.2 _ _ _ (List.getElem?_eq_getElem hjl) hpy
      have hjk : bisectRight (P0.headD []) y < k := by
        by_contra hc
        have hkl : k < r.length := by omega
        have a1 := k3 _ (List.getElem?_eq_getElem hkl)
        rcases Nat.eq_or_lt_of_le (not_lt.1 hc) with h | h
        · subst h; exact absurd hrj (not_lt.2 a1)
        · exact absurd hrj (not_lt.2 (a1.trans (List.pairwise_iff_getElem.1 h3 _ _ hkl hjl h)))
      obtain ⟨k, rfl⟩ : ∃ k', k = k' + 1 := ⟨k - 1, by omega⟩
      have hkl : k < r.length := by omega
      have hkx : r[k]? = some r[k] := List.getElem?_eq_getElem hkl
      have hxy : r[k] < y := k2 k _ (by omega) hkx
      have hget : ∀ j, (r.set k y)[j]? = if j = k then some y else r[j]? := by
        intro j
        rw [List.getElem?_set]
        by_cases hj : k = j
        · subst hj; simp [hkl]
        · rw [if_neg hj, if_neg (fun h => hj h.symm)]
      have hsort : (r.set k y).Pairwise (· ≤ ·) := by
        rw [List.pairwise_iff_getElem]
        intro i j hi hj hij
        have ei := hget i
        have ej := hget j
        rw [List.getElem?_eq_getElem hi] at ei
        rw [List.getElem?_eq_getElem hj] at ej
        rw [List.length_set] at hi hj
        split at ei <;> split at ej
        · omega
        · next hik hjk' =>
          subst hik
          rw [Option.some.injEq] at ei
          rw [ei]
          have hk1 : i + 1 < r.length := by omega
          have a1 := k3 _ (List.getElem?_eq_getElem hk1)
          obtain ⟨hj', e2'⟩ := List.getElem?_eq_some_iff.1 ej.symm
          rw [← e2']
          rcases Nat.eq_or_lt_of_le (Nat.succ_le_of_lt hij) with h | h
          · subst h; exact a1
          · exact a1.trans (List.pairwise_iff_getElem.1 h3 _ _ hk1 hj' h)
        · next hik hjk' =>
          rw [Option.some.injEq] at ej
          rw [ej]
          exact (k2 i _ (by omega) ei.symm).le
        · obtain ⟨hi', e1'⟩ := List.getElem?_eq_some_iff.1 ei.symm
          obtain ⟨hj', e2'⟩ := List.getElem?_eq_some_iff.1 ej.symm
          rw [← e1', ← e2']
          exact List.pairwise_iff_getElem.1 h3 i j hi' hj' hij
      have hbis : bisectRight (r.set k y) r[k] = k := by
        refine bisectRight_unique hsort (by simp; omega) ?_ ?_
        · intro j v hj hv
          rw [hget, if_neg (by omega)] at hv
          obtain ⟨hj', e'⟩ := List.getElem?_eq_some_iff.1 hv
          rw [← e']
          exact List.pairwise_iff_getElem.1 h3 _ _ hj' hkl hj
        · intro v hv
          rw [hget, if_pos rfl, Option.some.injEq] at hv
          rw [← hv]; exact hxy
      refine ⟨r.set k y :: P0, q :: Q0, r[k], ⟨by simpa using h1, by simpa using h2, hsort, h4, ?_, ?_, ?_, i1⟩, ?_⟩
      · intro e he
        have a1 := h5 e he
        have a2 : e ≠ it := fun hc => hq (hc ▸ he)
        omega
      · have hlP : (P0.headD []).length ≤ (P.headD []).length := by
          rw [e3, rowIns_length _ _ hs0]; exact le_max_left _ _
        refine ⟨by have := h6.1; rw [List.length_set]; omega, fun j a b ha hb => ?_⟩
        rw [hget] at ha
        split at ha
        · next hj =>
          cases ha
          exact b3 j b (by omega) hb
        · by_cases hjb : j = bisectRight (P0.headD []) y
          · subst hjb
            exact (h6.2 _ _ _ ha hpy).trans (b3 _ _ le_rfl hb)
          · refine h6.2 j a b ha ?_
            rw [e3, rowIns_getElem? _ _ hs0, if_neg hjb]; exact hb
      · rcases e4 with e4 | e4
        · rw [e4] at h7; exact h7
        · rw [e4] at h7
          refine ⟨by have := h7.1; rw [List.length_append] at this; omega, fun j a b ha hb => ?_⟩
          exact h7.2 j a b ha (by rw [List.getElem?_append_left (List.getElem?_eq_some_iff.1 hb).1]; exact hb)
      · obtain ⟨last, hlast⟩ : ∃ l, (r.set k y).getLast? = some l := by
          rw [← Option.isSome_iff_exists]; simpa using h2
        have hnle : ¬ last ≤ r[k] := by
          intro hc
          have := (bisect_of_last_le hsort hlast).1 hc
          rw [hbis] at this
          simp at this; omega
        have hset : (r.set k y).set k r[k] = r := by simp
        have hgk : (r.set k y)[k]? = some y := by rw [hget, if_pos rfl]
        simp only [rskInsert, hlast, if_neg hnle, hbis, hgk, i2, hset]
  | [], _ :: _, h, _, _ => h.elim
  | _ :: _, [], h, _, _ => h.elim

theorem rskLoop_concat (xs : List α) (x : α) : ∀ (it : ℕ) (P : List (List α)) (Q : List (List ℕ)) {P1 : List (List α)} {Q1 : List (List ℕ)},
    rskLoop it P Q xs = some (P1, Q1) → rskLoop it P Q (xs ++ [x]) = rskInsert (it + xs.length) P1 Q1 x := by
  induction xs with
  | nil =>
    intro it P Q P1 Q1 h
    simp only [rskLoop, Option.some.injEq, Prod.mk.injEq] at h
    obtain ⟨rfl, rfl⟩ := h
    simp only [List.nil_append, rskLoop, List.length_nil, add_zero]
    cases h : rskInsert it P Q x with
    | none => rfl
    | some v => rfl
  | cons a xs ih =>
    intro it P Q P1 Q1 h
    simp only [rskLoop, List.cons_append] at h ⊢
    cases h2 : rskInsert it P Q a with
    | none => rw [h2] at h; simp at h
    | some v =>
      obtain ⟨P2, Q2⟩ := v
      rw [h2] at h
      simp only at h ⊢
      rw [ih _ _ _ h, List.length_cons]
      congr 1; omega

theorem rskLoop_surj : ∀ (n : ℕ) (P : List (List α)) (Q : List (List ℕ)), RInv (n + 1) P Q →
    Q.flatten.Perm ((List.range n).map (· + 1)) → ∃ xs : List α, xs.length = n ∧ rskLoop 1 [] [] xs = some (P, Q)
  | 0, P, Q, h, hp => by
    have hQ : Q.flatten = [] := by simpa using hp
    have : P = [] ∧ Q = [] := by
      refine h.eq_nil_iff ?_
      have := h.head_length
      have hq : Q.headD [] = [] := by
        cases Q with
        | nil => rfl
        | cons q Q => simp at hQ; simpa using hQ.1
      rw [hq] at this
      exact List.length_eq_zero_iff.1 (by simpa using this.symm)
    obtain ⟨rfl, rfl⟩ := this
    exact ⟨[], rfl, rfl⟩
  | n + 1, P, Q, h, hp => by
    have hnd : Q.flatten.Nodup := hp.nodup_iff.2 (List.nodup_range.map fun a b h => by simpa using h)
    have hmem : n + 1 ∈ Q.flatten := hp.mem_iff.2 (by simp)
    obtain ⟨P0, Q0, x, i1, i2⟩ := rskInsert_surj (n + 1) P Q h hnd hmem
    obtain ⟨P', Q', e1, -, -, -, -, e6, -⟩ := rskInsert_spec (n + 1) P0 Q0 x i1
    rw [i2] at e1
    obtain ⟨rfl, rfl⟩ : P = P' ∧ Q = Q' := by simpa using e1
    have hp0 : Q0.flatten.Perm ((List.range n).map (· + 1)) := by
      have := e6.symm.trans hp
      rw [List.range_succ, List.map_append, List.map_singleton] at this
      exact List.Perm.cons_inv (this.trans (List.perm_append_singleton _ _))
    obtain ⟨xs, hl, hxs⟩ := rskLoop_surj n P0 Q0 i1 hp0
    refine ⟨xs ++ [x], by simp [hl], ?_⟩
    rw [rskLoop_concat xs x 1 [] [] hxs, hl, add_comm 1 n, i2]

theorem columnsStrict_tail {β : Type*} [LT β] (s : List β) (T : List (List β)) (h : ColumnsStrict (s :: T)) : ColumnsStrict T :=
  fun i j a b ha hb => h (i + 1) j a b (by simpa using ha) (by simpa using hb)

theorem columnsStrict_head {β : Type*} [LT β] (s : List β) (T : List (List β)) (h : ColumnsStrict (s :: T))
    (hl : (T.headD []).length ≤ s.length) : Below s (T.headD []) := by
  refine ⟨hl, fun j a b ha hb => ?_⟩
  cases T with
  | nil => simp at hb
  | cons t T => exact h 0 j a b (by simpa using ha) (by simpa using hb)

/-- the recursive invariant follows from the specification -/
theorem RInv.of_spec (it : ℕ) : ∀ (P : List (List α)) (Q : List (List ℕ)), shape P = shape Q → IsPartition (shape P) →
    (∀ r ∈ P, r.Pairwise (· ≤ ·)) → ColumnsStrict P → (∀ q ∈ Q, q.Pairwise (· < ·)) → ColumnsStrict Q →
    (∀ e ∈ Q.flatten, e < it) → RInv it P Q
  | [], [], _, _, _, _, _, _, _ => trivial
  | r :: P, q :: Q, hs, hp, hr, hc, hq, hcq, he => by
    simp only [shape, List.map_cons, List.cons.injEq] at hs
    simp only [IsPartition, shape, List.map_cons, List.mem_cons, List.pairwise_cons, forall_eq_or_imp] at hp
    have hlP : (P.headD []).length ≤ r.length := by
      cases P with
      | nil => simp
      | cons p P => exact hp.2.1 _ (by simp)
    have hlQ : (Q.headD []).length ≤ q.length := by
      rw [← hs.1]
      cases Q with
      | nil => simp
      | cons p Q => exact hp.2.1 _ (by rw [hs.2]; simp)
    refine ⟨hs.1.symm, List.length_pos_iff.1 hp.1.1, hr r (by simp), hq q (by simp), fun e h => he e (by simp [h]),
      columnsStrict_head r P hc hlP, columnsStrict_head q Q hcq hlQ, ?_⟩
    exact RInv.of_spec it P Q hs.2 ⟨hp.1.2, hp.2.2⟩ (fun s h => hr s (by simp [h])) (columnsStrict_tail r P hc) (fun s h => hq s (by simp [h]))
      (columnsStrict_tail q Q hcq) (fun e h => he e (by rw [List.flatten_cons]; exact List.mem_append_right _ h))
  | [], _ :: _, hs, _, _, _, _, _, _ => by simp [shape] at hs
  | _ :: _, [], hs, _, _, _, _, _, _ => by simp [shape] at hs

end Verif.Model
