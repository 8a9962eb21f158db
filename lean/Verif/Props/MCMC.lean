import Verif.Lemmas.MCMCRev
import Verif.Spec.History
import Verif.Lemmas.FiniteRun
import Mathlib.Analysis.Matrix.PosDef

/-!
# MCMC samplers for finite DPPs (C35-C40)
-/

set_option linter.unusedSectionVars false

namespace Verif.Props
open Verif Verif.Spec Verif.Model Verif.Dist

variable {N : ℕ} {K : Matrix (Fin N) (Fin N) ℝ}

/-! ## C35: only valid states -/

theorem isChain_map_S {σ : Type*} {st : σ → List (Fin N)} {Rel : Finset (Fin N) → Finset (Fin N) → Prop} {s : σ} {l : List σ}
    (h : (s :: l).IsChain fun a b => Rel (st a).toFinset (st b).toFinset) :
    (st s :: l.map st).IsChain fun a b => Rel a.toFinset b.toFinset := by
  have := List.isChain_map (R := fun a b : List (Fin N) => Rel a.toFinset b.toFinset) st (l := s :: l)
  rw [List.map_cons] at this
  exact this.2 h

/-- C35 (add-delete): every chain returned from a valid initial state starts with it, contains valid
states only, and consecutive states differ by at most one addition or deletion (with or without a time
limit). -/
theorem C35_add_delete (o : McmcOpts) {S0 : List (Fin N)} (h0 : ValidState K S0) {chain}
    (h : (adSampler K o S0).Possible (.ok chain)) :
    chain.head? = some S0 ∧ (∀ S ∈ chain, ValidState K S) ∧
    chain.IsChain fun S T => AddDeleteMove S.toFinset T.toFinset := by
  rw [adSampler, Possible.map_iff] at h
  obtain ⟨r, hr, h⟩ := h
  cases r with
  | raise e => cases h
  | ok l =>
    cases h
    obtain ⟨g1, g2, -⟩ := loop_possible (I := Good K)
      (Rel := fun a b => AddDeleteMove a.S.toFinset b.S.toFinset)
      (fun s s' hs h => adStep_good hs h) _ _ _ (good_init h0) l hr
    refine ⟨rfl, ?_, isChain_map_S g2⟩
    intro S hS
    rcases List.mem_cons.1 hS with rfl | hS
    · exact h0
    · obtain ⟨s, hs, rfl⟩ := List.mem_map.1 hS
      exact (g1 s hs).1

/-- C35 (add-exchange-delete): the same with exchanges. -/
theorem C35_add_exchange_delete (o : McmcOpts) {S0 : List (Fin N)} (h0 : ValidState K S0) {chain}
    (h : (aedSampler K o S0).Possible (.ok chain)) :
    chain.head? = some S0 ∧ (∀ S ∈ chain, ValidState K S) ∧
    chain.IsChain fun S T => AddDeleteMove S.toFinset T.toFinset ∨ ExchangeMove S.toFinset T.toFinset := by
  rw [aedSampler, Possible.map_iff] at h
  obtain ⟨r, hr, h⟩ := h
  cases r with
  | raise e => cases h
  | ok l =>
    cases h
    obtain ⟨g1, g2, -⟩ := loop_possible (I := GoodA K)
      (Rel := fun a b => AnyMove a.S.toFinset b.S.toFinset)
      (fun s s' hs h => aedStep_good hs h) _ _ _ ⟨h0, rfl, rfl⟩ l hr
    refine ⟨rfl, ?_, isChain_map_S (st := AedSt.S) g2⟩
    intro S hS
    rcases List.mem_cons.1 hS with rfl | hS
    · exact h0
    · obtain ⟨s, hs, rfl⟩ := List.mem_map.1 hS
      exact (g1 s hs).1

/-- loop of the exchange chain -/
theorem ex_loop {o : McmcOpts} {S0 : List (Fin N)} (h0 : ValidState K S0) {l}
    (hr : (mcmcLoop (exStep K S0.length) (stopAt o) 1 (o.nbIter - 1) (stInit K S0)).Possible (.ok l)) :
    (∀ s' ∈ l, Good K s' ∧ s'.S.length = S0.length) ∧
    (stInit K S0 :: l).IsChain (fun a b => ExchangeMove a.S.toFinset b.S.toFinset) ∧
    l.length ≤ o.nbIter - 1 ∧ (∀ j, j + 1 < l.length → stopAt o (1 + j) = false) ∧
    (l.length < o.nbIter - 1 → l ≠ [] ∧ stopAt o (1 + (l.length - 1)) = true) :=
  loop_possible (I := fun s => Good K s ∧ s.S.length = S0.length)
      (Rel := fun a b => ExchangeMove a.S.toFinset b.S.toFinset)
      (fun s s' hs h => by
        obtain ⟨a, b, c⟩ := exStep_good hs.1 h
        exact ⟨⟨a, b.trans hs.2⟩, c⟩) _ _ _ ⟨good_init h0, rfl⟩ l hr

theorem stopAt_none {o : McmcOpts} (h : o.tMax = none) : stopAt o = fun _ => false := by
  funext it; rw [stopAt, h]

/-- C35 (exchange, no time limit): valid states, all of the size of the initial one; consecutive states
differ by at most one exchange. -/
theorem C35_exchange (o : McmcOpts) (ht : o.tMax = none) {S0 : List (Fin N)} (h0 : ValidState K S0) {chain}
    (h : (exSampler K o S0).Possible (.ok chain)) :
    chain.head? = some S0 ∧ (∀ S ∈ chain, ValidState K S ∧ S.length = S0.length) ∧
    chain.IsChain fun S T => ExchangeMove S.toFinset T.toFinset := by
  rw [exSampler] at h
  split at h
  · rw [Possible.ret_iff] at h; cases h
  rw [Possible.map_iff] at h
  obtain ⟨r, hr, h⟩ := h
  cases r with
  | raise e => cases h
  | ok l =>
    cases h
    obtain ⟨g1, g2, g3, -, g5⟩ := ex_loop h0 hr
    have hl : l.length = o.nbIter - 1 := by
      by_contra hne
      have := (g5 (by omega)).2
      rw [stopAt_none ht] at this; cases this
    simp only [hl, Nat.sub_self, List.replicate_zero, List.append_nil]
    refine ⟨rfl, ?_, isChain_map_S g2⟩
    intro S hS
    rcases List.mem_cons.1 hS with rfl | hS
    · exact ⟨h0, rfl⟩
    · obtain ⟨s, hs, rfl⟩ := List.mem_map.1 hS
      exact ⟨(g1 s hs).1.1, (g1 s hs).2⟩

/-- C35 (finding, exchange with a time limit): when the first iteration takes less than `T_max`, every
chain of at least three states returned from a state with at least two items ends with a row of zeros,
which is not a valid state for any kernel. -/
theorem C35_exchange_time_limit_refuted (o : McmcOpts) (T : ℝ) (hT : o.tMax = some T) (hT0 : 0 < T)
    (hclk : o.clock 1 - o.clock 0 < T) (hn : 3 ≤ o.nbIter) {S0 : List (Fin N)} (h2 : 2 ≤ S0.length) {chain}
    (h : (exSampler K o S0).Possible (.ok chain)) :
    ∃ S, chain.getLast? = some S ∧ ¬ S.Nodup ∧ ∀ K' : Matrix (Fin N) (Fin N) ℝ, ¬ ValidState K' S := by
  rw [exSampler, if_neg (by omega), Possible.map_iff] at h
  obtain ⟨r, hr, h⟩ := h
  cases r with
  | raise e => cases h
  | ok l =>
    cases h
    obtain ⟨-, -, g3, g4, g5⟩ := loop_possible (I := fun _ => True) (Rel := fun _ _ => True)
      (fun s s' hs h => ⟨trivial, trivial⟩) _ _ _ trivial l hr
    have hl : l.length ≤ 1 := by
      by_contra hc
      have := g4 0 (by omega)
      rw [stopAt, hT] at this
      simp only [add_zero, decide_eq_false_iff_not, not_and, not_lt] at this
      exact absurd (this hT0.ne') (by linarith)
    obtain ⟨m, hm⟩ : ∃ m, o.nbIter - 1 - l.length = m + 1 := ⟨o.nbIter - 1 - l.length - 1, by omega⟩
    have hnd : ¬ (zeroRow S0).Nodup := by
      intro hnd
      match S0, h2 with
      | a :: b :: S, _ => simp [zeroRow] at hnd
    refine ⟨zeroRow S0, ?_, hnd, fun K' hv => hnd hv.1⟩
    simp only [hm, List.replicate_succ']
    rw [← List.append_assoc, List.getLast?_append]
    rfl

/-- C35: the add-delete sampler never raises (non-empty ground set). -/
theorem C35_add_delete_never_raises (hN : 0 < N) (o : McmcOpts) (S0 : List (Fin N)) (e) :
    ¬ (adSampler K o S0).Possible (.raise e) := by
  rw [adSampler, Possible.map_iff]
  rintro ⟨r, hr, h⟩
  cases r with
  | ok l => cases h
  | raise e' =>
    exact loop_raise (I := fun _ => True) (P := fun _ => False) (fun _ _ _ _ => trivial)
      (fun s e _ h => adStep_raise hN h) _ _ _ trivial _ hr

/-- C35: the exchange sampler never raises for sizes strictly between 0 and N, and can only raise
`ValueError` otherwise (at least one iteration requested). -/
theorem C35_exchange_errors (o : McmcOpts) (hn : 0 < o.nbIter) {S0 : List (Fin N)} (h0 : ValidState K S0) {e}
    (h : (exSampler K o S0).Possible (.raise e)) : e = .valueError ∧ (S0.length = 0 ∨ S0.length = N) := by
  rw [exSampler, if_neg (by omega), Possible.map_iff] at h
  obtain ⟨r, hr, h⟩ := h
  cases r with
  | ok l => cases h
  | raise e' =>
    cases h
    exact loop_raise (I := fun s => Good K s ∧ s.S.length = S0.length)
      (P := fun e => e = .valueError ∧ (S0.length = 0 ∨ S0.length = N))
      (fun s s' hs h => by
        obtain ⟨a, b, c⟩ := exStep_good hs.1 h
        exact ⟨a, b.trans hs.2⟩)
      (fun s e hs h => exStep_raise hs.2 hs.1.1.1 h) _ _ _ ⟨good_init h0, rfl⟩ _ hr

/-- C35: the add-exchange-delete sampler can only raise `ValueError`. -/
theorem C35_add_exchange_delete_errors (o : McmcOpts) {S0 : List (Fin N)} (h0 : ValidState K S0) {e}
    (h : (aedSampler K o S0).Possible (.raise e)) : e = .valueError := by
  rw [aedSampler, Possible.map_iff] at h
  obtain ⟨r, hr, h⟩ := h
  cases r with
  | ok l => cases h
  | raise e' =>
    cases h
    exact loop_raise (I := GoodA K) (P := fun e => e = .valueError)
      (fun s s' hs h => (aedStep_good hs h).1)
      (fun s e hs h => (aedStep_raise hs.1.1 hs.2.2 h).1) _ _ _ ⟨h0, rfl, rfl⟩ _ hr

theorem choiceO_nil {α : Type*} : (choiceO ([] : List α)) = ret .valueError := by simp [choiceO]

/-- C35 (finding): from the full ground set the add-exchange-delete sampler raises `ValueError` whatever
the draws (there is no item left to propose), although the full set may have positive determinant. -/
theorem C35_full_set_always_raises (o : McmcOpts) (hn : 2 ≤ o.nbIter) {S0 : List (Fin N)} (h0 : S0.Nodup)
    (hf : S0.length = N) {r} (h : (aedSampler K o S0).Possible r) : r = .raise .valueError := by
  rw [aedSampler, Possible.map_iff] at h
  obtain ⟨r, hr, rfl⟩ := h
  obtain ⟨m, hm⟩ : ∃ m, o.nbIter - 1 = m + 1 := ⟨o.nbIter - 2, by omega⟩
  rw [hm, mcmcLoop, possible_andThen] at hr
  have hstep : ∀ x, (aedStep K ⟨S0, detL K S0, S0.length⟩).Possible x → x = .raise .valueError := by
    intro x hx
    rw [aedStep, possible_andThen] at hx
    rcases hx with ⟨i, -, hx⟩ | ⟨e, he, rfl⟩
    · have : outside S0 = [] := (outside_ne_nil h0).2 hf
      simp only [this, choiceO_nil] at hx
      rw [possible_andThen] at hx
      rcases hx with ⟨t, ht, -⟩ | ⟨e, he, rfl⟩
      · rw [Possible.ret_iff] at ht; cases ht
      · rw [Possible.ret_iff] at he; cases he; rfl
    · rw [possible_choiceO_raise] at he; rw [he.2]
  rcases hr with ⟨s', h1, -⟩ | ⟨e, h1, rfl⟩
  · have := hstep _ h1; cases this
  · have := hstep _ h1; cases this; rfl

/-! ## C36: length of the chain -/

/-- C36 (no time limit): the add-delete and add-exchange-delete chains have exactly `nb_iter` states
(one when `nb_iter = 0`). -/
theorem C36_length (o : McmcOpts) (ht : o.tMax = none) (S0 : List (Fin N)) (chain)
    (h : (adSampler K o S0).Possible (.ok chain) ∨ (aedSampler K o S0).Possible (.ok chain)) :
    chain.length = max 1 o.nbIter := by
  have aux : ∀ {σ : Type} (st : σ → List (Fin N)) (step : σ → Dist ℝ (Outcome σ)) (s : σ) (l),
      (mcmcLoop step (stopAt o) 1 (o.nbIter - 1) s).Possible (.ok l) →
      (S0 :: l.map st).length = max 1 o.nbIter := by
    intro σ st step s l hr
    obtain ⟨-, -, g3, -, g5⟩ := loop_possible (I := fun _ => True) (Rel := fun _ _ => True)
      (fun s s' hs h => ⟨trivial, trivial⟩) _ _ _ trivial l hr
    have hl : l.length = o.nbIter - 1 := by
      by_contra hne
      have := (g5 (by omega)).2
      rw [stopAt_none ht] at this; cases this
    simp only [List.length_cons, List.length_map, hl]
    omega
  rcases h with h | h
  · rw [adSampler, Possible.map_iff] at h
    obtain ⟨r, hr, h⟩ := h
    cases r with
    | raise e => cases h
    | ok l => cases h; exact aux St.S _ _ l hr
  · rw [aedSampler, Possible.map_iff] at h
    obtain ⟨r, hr, h⟩ := h
    cases r with
    | raise e => cases h
    | ok l => cases h; exact aux AedSt.S _ _ l hr

/-- C36 (exchange): with or without a time limit the exchange sampler returns `nb_iter` rows, and raises
`IndexError` for `nb_iter = 0`. -/
theorem C36_exchange_length (o : McmcOpts) (S0 : List (Fin N)) (r) (h : (exSampler K o S0).Possible r) :
    (o.nbIter = 0 → r = .raise .indexError) ∧ ∀ chain, r = .ok chain → chain.length = o.nbIter := by
  rw [exSampler] at h
  split at h
  · rename_i hn
    rw [Possible.ret_iff] at h
    subst h
    exact ⟨fun _ => rfl, fun c hc => by cases hc⟩
  · rename_i hn
    refine ⟨fun h => absurd h hn, ?_⟩
    rintro chain rfl
    rw [Possible.map_iff] at h
    obtain ⟨r, hr, h⟩ := h
    cases r with
    | raise e => cases h
    | ok l =>
      cases h
      obtain ⟨-, -, g3, -⟩ := loop_possible (I := fun _ => True) (Rel := fun _ _ => True)
        (fun s s' hs h => ⟨trivial, trivial⟩) _ _ _ trivial l hr
      simp only [List.length_append, List.length_cons, List.length_map, List.length_replicate]
      omega

/-- C36 (finding: the time test is inverted): with `T_max > 0`, if the first iteration ends before the
limit, the add-delete and add-exchange-delete chains stop right after it; if on the contrary the limit is
already exceeded at every reading of the clock, all `nb_iter` iterations are run. -/
theorem C36_time_limit_refuted (o : McmcOpts) (T : ℝ) (hT : o.tMax = some T) (hT0 : 0 < T)
    (S0 : List (Fin N)) (chain)
    (h : (adSampler K o S0).Possible (.ok chain) ∨ (aedSampler K o S0).Possible (.ok chain)) :
    (o.clock 1 - o.clock 0 < T → chain.length ≤ 2) ∧
    ((∀ it, 1 ≤ it → T ≤ o.clock it - o.clock 0) → chain.length = max 1 o.nbIter) := by
  have aux : ∀ {σ : Type} (st : σ → List (Fin N)) (step : σ → Dist ℝ (Outcome σ)) (s : σ) (l),
      (mcmcLoop step (stopAt o) 1 (o.nbIter - 1) s).Possible (.ok l) →
      (o.clock 1 - o.clock 0 < T → (S0 :: l.map st).length ≤ 2) ∧
      ((∀ it, 1 ≤ it → T ≤ o.clock it - o.clock 0) → (S0 :: l.map st).length = max 1 o.nbIter) := by
    intro σ st step s l hr
    obtain ⟨-, -, g3, g4, g5⟩ := loop_possible (I := fun _ => True) (Rel := fun _ _ => True)
      (fun s s' hs h => ⟨trivial, trivial⟩) _ _ _ trivial l hr
    simp only [List.length_cons, List.length_map]
    constructor
    · intro hc
      by_contra hne
      have := g4 0 (by omega)
      rw [stopAt, hT] at this
      simp only [add_zero, decide_eq_false_iff_not, not_and, not_lt] at this
      exact absurd (this hT0.ne') (by linarith)
    · intro hc
      have hl : l.length = o.nbIter - 1 := by
        by_contra hne
        have := (g5 (by omega)).2
        rw [stopAt, hT] at this
        simp only [decide_eq_true_eq] at this
        exact absurd this.2 (not_lt.2 (hc _ (by omega)))
      omega
  rcases h with h | h
  · rw [adSampler, Possible.map_iff] at h
    obtain ⟨r, hr, h⟩ := h
    cases r with
    | raise e => cases h
    | ok l => cases h; exact aux St.S _ _ l hr
  · rw [aedSampler, Possible.map_iff] at h
    obtain ⟨r, hr, h⟩ := h
    cases r with
    | raise e => cases h
    | ok l => cases h; exact aux AedSt.S _ _ l hr

/-! ## C37, C38: reversibility -/

theorem adSampler_visits (hN : 0 < N) {o : McmcOpts} (ht : o.tMax = none) {S0 : List (Fin N)} (h0 : S0.Nodup)
    (j : ℕ) (hj : j < max 1 o.nbIter) (T : Finset (Fin N)) :
    probOk (adSampler K o S0) (Visits j T) = ((adKer K)^[j] fun S => if S = T then 1 else 0) S0.toFinset := by
  classical
  rw [probOk_eq, adSampler, stopAt_none ht, E_map]
  cases j with
  | zero =>
    have h1 : ∀ x : Outcome (List (St N)), lift (fun a => if Visits 0 T a then (1:ℝ) else 0)
        (x.map fun l => S0 :: l.map St.S) = lift (fun _ => 1) x * (if S0.toFinset = T then 1 else 0) := by
      intro x; cases x <;> simp [lift, Outcome.map, Visits]
    simp only [h1, E_mul_right]
    have : E (mcmcLoop (adStep K) (fun _ => false) 1 (o.nbIter - 1) (stInit K S0)) (lift fun _ => 1) = 1 := by
      refine loop_mass (I := Coherent K) (fun s s' => coherent_adStep) (fun s hs => ?_) _ _ _ (coherent_init h0)
      exact (E_adStep hN hs fun _ => 1).trans (adKer_one hN _)
    rw [this]; simp
  | succ j =>
    have h1 : ∀ x : Outcome (List (St N)), lift (fun a => if Visits (j + 1) T a then (1:ℝ) else 0)
        (x.map fun l => S0 :: l.map St.S) = lift (atPos St.S (fun S => if S = T then 1 else 0) j) x := by
      intro x
      cases x with
      | raise e => rfl
      | ok l =>
        simp only [lift, Outcome.map, Visits, atPos, List.getElem?_cons_succ, List.getElem?_map]
        cases l[j]? <;> simp
    simp only [h1]
    exact E_atPos (I := Coherent K) (fun s s' => coherent_adStep) (fun s hs => E_adStep hN hs)
      (fun s _ => adKer_one hN _) 1 _ _ _ (coherent_init h0) j (by omega) _

theorem exSampler_visits {k : ℕ} (h0k : 0 < k) (hkN : k < N) {o : McmcOpts} (ht : o.tMax = none)
    {S0 : List (Fin N)} (h0 : S0.Nodup) (hk : S0.length = k)
    (j : ℕ) (hj : j < o.nbIter) (T : Finset (Fin N)) :
    probOk (exSampler K o S0) (Visits j T) = ((exKer K k)^[j] fun S => if S = T then 1 else 0) S0.toFinset := by
  classical
  rw [probOk_eq, exSampler, if_neg (by omega), stopAt_none ht, E_map]
  have hc : ∀ s s' : St N, (Coherent K s ∧ s.S.length = k) → (exStep K k s).Possible (.ok s') →
      Coherent K s' ∧ s'.S.length = k := by
    intro s s' hs h
    obtain ⟨a, b⟩ := coherent_exStep hs.1 h
    exact ⟨a, b.trans hs.2⟩
  have hone : ∀ s : St N, (Coherent K s ∧ s.S.length = k) → exKer K k (fun _ => 1) s.S.toFinset = 1 := by
    intro s hs
    refine exKer_one h0k hkN ?_
    rw [List.toFinset_card_of_nodup hs.1.1, hs.2]
  cases j with
  | zero =>
    have h1 : ∀ x : Outcome (List (St N)), lift (fun a => if Visits 0 T a then (1:ℝ) else 0)
        (x.map fun l => S0 :: l.map St.S ++ List.replicate (o.nbIter - 1 - l.length) (zeroRow S0))
        = lift (fun _ => 1) x * (if S0.toFinset = T then 1 else 0) := by
      intro x; cases x <;> simp [lift, Outcome.map, Visits]
    simp only [h1, E_mul_right]
    have : E (mcmcLoop (exStep K S0.length) (fun _ => false) 1 (o.nbIter - 1) (stInit K S0)) (lift fun _ => 1) = 1 := by
      rw [hk]
      refine loop_mass (I := fun s => Coherent K s ∧ s.S.length = k) hc (fun s hs => ?_) _ _ _ ⟨coherent_init h0, hk⟩
      exact (E_exStep hs.2 h0k hkN hs.1 fun _ => 1).trans (hone s hs)
    rw [this]; simp
  | succ j =>
    rw [hk]
    refine Eq.trans ?_ (E_atPos (st := St.S) (I := fun s => Coherent K s ∧ s.S.length = k) hc
      (fun s hs => E_exStep hs.2 h0k hkN hs.1) hone 1 (o.nbIter - 1) 1 (stInit K S0)
      ⟨coherent_init h0, hk⟩ j (by omega) _)
    apply Dist.E_congr_possible
    intro x hx
    cases x with
    | raise e => rfl
    | ok l =>
      obtain ⟨-, -, g3, -, g5⟩ := loop_possible (I := fun _ => True) (Rel := fun _ _ => True)
        (fun s s' hs h => ⟨trivial, trivial⟩) _ _ _ trivial l hx
      have hl : l.length = o.nbIter - 1 := by
        by_contra hne
        have := (g5 (by omega)).2
        cases this
      simp only [lift, Outcome.map, Visits, atPos, hl, Nat.sub_self, List.replicate_zero, List.append_nil,
        List.getElem?_cons_succ, List.getElem?_map]
      cases l[j]? <;> simp

theorem adKer_iter_reversible (hK : ∀ S, 0 ≤ minor K S) (j : ℕ) : ∀ F G : Finset (Fin N) → ℝ,
    ∑ S, minor K S * G S * ((adKer K)^[j] F) S = ∑ S, minor K S * F S * ((adKer K)^[j] G) S := by
  induction j with
  | zero => intro F G; exact Finset.sum_congr rfl fun S _ => by simp only [Function.iterate_zero, id]; ring
  | succ j ih =>
    intro F G
    rw [Function.iterate_succ_apply, Function.iterate_succ_apply', ih, ← adKer_reversible hK]
    exact Finset.sum_congr rfl fun S _ => by ring

theorem exKer_iter_reversible (hK : ∀ S, 0 ≤ minor K S) (k j : ℕ) : ∀ F G : Finset (Fin N) → ℝ,
    ∑ S ∈ (Finset.univ : Finset (Fin N)).powersetCard k, minor K S * G S * ((exKer K k)^[j] F) S
    = ∑ S ∈ (Finset.univ : Finset (Fin N)).powersetCard k, minor K S * F S * ((exKer K k)^[j] G) S := by
  induction j with
  | zero => intro F G; exact Finset.sum_congr rfl fun S _ => by simp only [Function.iterate_zero, id]; ring
  | succ j ih =>
    intro F G
    rw [Function.iterate_succ_apply, Function.iterate_succ_apply', ih, ← exKer_reversible hK]
    exact Finset.sum_congr rfl fun S _ => by ring

theorem adKer_iter_one (hN : 0 < N) (j : ℕ) : (adKer K)^[j] (fun _ => 1) = fun _ => 1 := by
  induction j with
  | zero => rfl
  | succ j ih => rw [Function.iterate_succ_apply', ih]; funext S; exact adKer_one hN S

theorem exKer_congr {k : ℕ} {F G : Finset (Fin N) → ℝ} (h : ∀ S, S.card = k → F S = G S) {S : Finset (Fin N)}
    (hS : S.card = k) : exKer K k F S = exKer K k G S := by
  unfold exKer
  rw [h S hS]
  congr 3
  refine Finset.sum_congr rfl fun s hs => ?_
  congr 1
  refine Finset.sum_congr rfl fun t ht => ?_
  rw [h _ ((exchange_card hs (by simpa using ht)).trans hS)]

theorem exKer_iter_one {k : ℕ} (h0k : 0 < k) (hkN : k < N) (j : ℕ) : ∀ S : Finset (Fin N), S.card = k →
    ((exKer K k)^[j] fun _ => 1) S = 1 := by
  induction j with
  | zero => intro S _; rfl
  | succ j ih =>
    intro S hS
    rw [Function.iterate_succ_apply', exKer_congr ih hS]
    exact exKer_one h0k hkN hS

/-- C37: detailed balance of the add-delete chain, at every lag `j`: for duplicate-free initial lists,
`det K_S · P(chain[j] = T | chain[0] = S) = det K_T · P(chain[j] = S | chain[0] = T)`; `j = 1` is the
transition kernel. -/
theorem C37_detailed_balance (hN : 0 < N) (hK : ∀ S, 0 ≤ minor K S) (o : McmcOpts) (ht : o.tMax = none)
    (j : ℕ) (hj : j < max 1 o.nbIter) {S T : List (Fin N)} (hS : S.Nodup) (hT : T.Nodup) :
    minor K S.toFinset * probOk (adSampler K o S) (Visits j T.toFinset)
      = minor K T.toFinset * probOk (adSampler K o T) (Visits j S.toFinset) := by
  rw [adSampler_visits hN ht hS j hj, adSampler_visits hN ht hT j hj]
  have := adKer_iter_reversible hK j (fun A => if A = T.toFinset then 1 else 0)
    (fun A => if A = S.toFinset then 1 else 0)
  simpa using this

/-- C37 (consequence): when the initial set is drawn from the DPP (weights `det K_S`), every position of
the chain has the same law: `Σ_S det K_S · P(chain[j] = T | chain[0] = S) = det K_T`. -/
theorem C37_stationary (hN : 0 < N) (hK : ∀ S, 0 ≤ minor K S) (o : McmcOpts) (ht : o.tMax = none)
    (j : ℕ) (hj : j < max 1 o.nbIter) (rep : Finset (Fin N) → List (Fin N))
    (hrep : ∀ S, (rep S).Nodup ∧ (rep S).toFinset = S) (T : Finset (Fin N)) :
    ∑ S, minor K S * probOk (adSampler K o (rep S)) (Visits j T) = minor K T := by
  have h1 : ∀ S, probOk (adSampler K o (rep S)) (Visits j T)
      = ((adKer K)^[j] fun S => if S = T then 1 else 0) S := by
    intro S
    rw [adSampler_visits hN ht (hrep S).1 j hj, (hrep S).2]
  simp only [h1]
  have := adKer_iter_reversible hK j (fun A => if A = T then 1 else 0) (fun _ => 1)
  simp only [mul_one, adKer_iter_one hN] at this
  rw [this]; simp

/-- C38: detailed balance of the exchange chain on sets of `k` items, `0 < k < N`, at every lag. -/
theorem C38_detailed_balance (hK : ∀ S, 0 ≤ minor K S) {k : ℕ} (h0k : 0 < k) (hkN : k < N)
    (o : McmcOpts) (ht : o.tMax = none)
    (j : ℕ) (hj : j < o.nbIter) {S T : List (Fin N)} (hS : S.Nodup) (hT : T.Nodup)
    (hSk : S.length = k) (hTk : T.length = k) :
    minor K S.toFinset * probOk (exSampler K o S) (Visits j T.toFinset)
      = minor K T.toFinset * probOk (exSampler K o T) (Visits j S.toFinset) := by
  rw [exSampler_visits h0k hkN ht hS hSk j hj, exSampler_visits h0k hkN ht hT hTk j hj]
  have := exKer_iter_reversible hK k j (fun A => if A = T.toFinset then 1 else 0)
    (fun A => if A = S.toFinset then 1 else 0)
  have cS : S.toFinset.card = k := by rw [List.toFinset_card_of_nodup hS, hSk]
  have cT : T.toFinset.card = k := by rw [List.toFinset_card_of_nodup hT, hTk]
  simpa [cS, cT] using this

/-- C38 (consequence): the k-DPP law is preserved at every position of the exchange chain. -/
theorem C38_stationary (hK : ∀ S, 0 ≤ minor K S) {k : ℕ} (h0k : 0 < k) (hkN : k < N)
    (o : McmcOpts) (ht : o.tMax = none) (j : ℕ) (hj : j < o.nbIter) (rep : Finset (Fin N) → List (Fin N))
    (hrep : ∀ S, (rep S).Nodup ∧ (rep S).toFinset = S) (T : Finset (Fin N)) :
    ∑ S, kDppProb K k S * probOk (exSampler K o (rep S)) (Visits j T) = kDppProb K k T := by
  have e1 : ∑ S, kDppProb K k S * probOk (exSampler K o (rep S)) (Visits j T)
      = (∑ S ∈ (Finset.univ : Finset (Fin N)).powersetCard k, minor K S *
          ((exKer K k)^[j] fun S => if S = T then 1 else 0) S)
        / ∑ S' ∈ (Finset.univ : Finset (Fin N)).powersetCard k, minor K S' := by
    rw [← Finset.sum_subset (Finset.subset_univ ((Finset.univ : Finset (Fin N)).powersetCard k)), Finset.sum_div]
    · refine Finset.sum_congr rfl fun S hS => ?_
      rw [Finset.mem_powersetCard_univ] at hS
      rw [exSampler_visits h0k hkN ht (hrep S).1 (by
        rw [← List.toFinset_card_of_nodup (hrep S).1, (hrep S).2, hS]) j hj, (hrep S).2, kDppProb, if_pos hS]
      ring
    · intro S _ hS
      rw [Finset.mem_powersetCard_univ] at hS
      rw [kDppProb, if_neg hS, zero_mul]
  have := exKer_iter_reversible hK k j (fun A => if A = T then 1 else 0) (fun _ => 1)
  simp only [mul_one] at this
  rw [e1, this, kDppProb]
  have e2 : ∑ S ∈ (Finset.univ : Finset (Fin N)).powersetCard k, minor K S * (if S = T then 1 else 0) *
        ((exKer K k)^[j] fun _ => 1) S = if T.card = k then minor K T else 0 := by
    have : ∀ S ∈ (Finset.univ : Finset (Fin N)).powersetCard k, minor K S * (if S = T then 1 else 0) *
        ((exKer K k)^[j] fun _ => 1) S = if S = T then minor K T else 0 := by
      intro S hS
      rw [Finset.mem_powersetCard_univ] at hS
      rw [exKer_iter_one h0k hkN j S hS]
      split
      · rename_i h; subst h; ring
      · ring
    rw [Finset.sum_congr rfl this]
    simp [Finset.sum_ite_eq']
  rw [e2]
  split <;> simp

end Verif.Props
