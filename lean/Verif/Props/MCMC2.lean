import Verif.Props.MCMC
import Verif.Lemmas.MCMCAed
import Verif.Lemmas.MCMCInit

/-!
# Add-exchange-delete chain (C39) and initialisation (C40)
-/

set_option linter.unusedSectionVars false

namespace Verif.Props
open Verif Verif.Spec Verif.Model Verif.Dist

variable {N : ℕ} {K : Matrix (Fin N) (Fin N) ℝ}

theorem aedSampler_visits {o : McmcOpts} (ht : o.tMax = none) (hn : o.nbIter = 2) {S0 : List (Fin N)}
    (h0 : S0.Nodup) (hlt : S0.length < N) (T : Finset (Fin N)) :
    probOk (aedSampler K o S0) (Visits 1 T) = aedKer K (fun S => if S = T then 1 else 0) S0.toFinset := by
  classical
  rw [probOk_eq, aedSampler, stopAt_none ht, E_map, hn]
  rw [← E_aedStep (s := ⟨S0, detL K S0, S0.length⟩) ⟨h0, rfl, rfl⟩ hlt]
  rw [show (2 - 1 : ℕ) = 1 from rfl, mcmcLoop, andThen, E_bind]
  apply E_congr
  intro x w _
  cases x with
  | raise e => simp [lift, Outcome.map]
  | ok s =>
    simp only [Bool.false_eq_true, if_false, mcmcLoop, andThen, E_bind, E_ret, lift, Outcome.map, Visits]
    simp

/-- C39 (partial: exchange moves only; the full claim, for all pairs of sets, is refuted below): between
two different sets of the same size the transition kernel satisfies detailed balance. -/
theorem C39_exchange_moves_partial (hK : ∀ S, 0 ≤ minor K S) (o : McmcOpts) (ht : o.tMax = none)
    (hn : o.nbIter = 2) {S T : List (Fin N)} (hS : S.Nodup) (hT : T.Nodup) (hlen : S.length = T.length)
    (hne : S.toFinset ≠ T.toFinset) :
    minor K S.toFinset * probOk (aedSampler K o S) (Visits 1 T.toFinset)
      = minor K T.toFinset * probOk (aedSampler K o T) (Visits 1 S.toFinset) := by
  have cS : S.toFinset.card = S.length := List.toFinset_card_of_nodup hS
  have cT : T.toFinset.card = S.length := by rw [List.toFinset_card_of_nodup hT, hlen]
  have hlt : S.length < N := by
    have h1 : S.length ≤ N := by simpa using hS.length_le_card
    rcases h1.lt_or_eq with h | h
    · exact h
    · exfalso; apply hne
      have e1 : S.toFinset = Finset.univ := by rw [← Finset.card_eq_iff_eq_univ, cS, h]; simp
      have e2 : T.toFinset = Finset.univ := by rw [← Finset.card_eq_iff_eq_univ, cT, h]; simp
      rw [e1, e2]
  rw [aedSampler_visits ht hn hS hlt, aedSampler_visits ht hn hT (hlen ▸ hlt),
    aedKer_exchange hne (cS.trans cT.symm), aedKer_exchange hne.symm (cT.trans cS.symm), cS, cT,
    exchange_count_symm cS cT]
  have := acc_balance hK S.toFinset T.toFinset
  linear_combination (1 / 2 * ((S.length : ℝ) / N * (1 - S.length / N)) * (1 / S.length * (1 / (N - S.length) *
    ∑ s ∈ T.toFinset, ∑ t ∈ T.toFinsetᶜ, if insert t (T.toFinset.erase s) = S.toFinset then (1:ℝ) else 0))) * this

/-- C39: exact probability of adding the item `t`: with `k = |S|`,
`(N - k) / (2 N²) · min(1, det K_{S+t} / det K_S · (k + 1) / (N - k))`. -/
theorem C39_add_probability (hK : ∀ S, 0 ≤ minor K S) (o : McmcOpts) (ht : o.tMax = none)
    (hn : o.nbIter = 2) {S : List (Fin N)} (hS : ValidState K S) {t : Fin N} (htS : t ∉ S) :
    probOk (aedSampler K o S) (Visits 1 (insert t S.toFinset))
      = (N - S.length) / (2 * N ^ 2) *
        min 1 (minor K (insert t S.toFinset) / minor K S.toFinset * ((S.length + 1) / (N - S.length))) := by
  have hlt := nodup_length_lt hS.1 htS
  rw [aedSampler_visits ht hn hS.1 hlt, aedKer_add (by simpa using htS), accP_eq hS.2.ne',
    List.toFinset_card_of_nodup hS.1]
  have hR : (S.length : ℝ) < N := by exact_mod_cast hlt
  have hN : (0 : ℝ) < N := lt_of_le_of_lt (Nat.cast_nonneg _) hR
  rw [max_eq_right (mul_nonneg (div_nonneg (hK _) (hK _)) (div_nonneg (by positivity) (by linarith)))]
  have h1 : (N : ℝ) - S.length ≠ 0 := by linarith
  field_simp

/-- C39: exact probability of deleting the item `t` from a set of `k < N` items:
`k / (2 N²) · min(1, det K_{S-t} / det K_S · k / (N - k + 1))` (reversibility would need the inverse
factor `(N - k + 1) / k`). -/
theorem C39_delete_probability (hK : ∀ S, 0 ≤ minor K S) (o : McmcOpts) (ht : o.tMax = none)
    (hn : o.nbIter = 2) {S : List (Fin N)} (hS : ValidState K S) {t : Fin N} (htS : t ∈ S) (hlt : S.length < N) :
    probOk (aedSampler K o S) (Visits 1 (S.toFinset.erase t))
      = S.length / (2 * N ^ 2) *
        min 1 (minor K (S.toFinset.erase t) / minor K S.toFinset * (S.length / (N - S.length + 1))) := by
  rw [aedSampler_visits ht hn hS.1 hlt, aedKer_delete (by simpa using htS), accP_eq hS.2.ne',
    List.toFinset_card_of_nodup hS.1]
  have hR : (S.length : ℝ) < N := by exact_mod_cast hlt
  have hpos : (0 : ℝ) < S.length := by exact_mod_cast List.length_pos_of_mem htS
  have hN : (0 : ℝ) < N := by linarith
  have e : (N : ℝ) - (S.length - 1) = N - S.length + 1 := by ring
  rw [e, max_eq_right (mul_nonneg (div_nonneg (hK _) (hK _)) (div_nonneg (by positivity) (by linarith)))]
  field_simp

theorem minor_one (S : Finset (Fin N)) : minor (1 : Matrix (Fin N) (Fin N) ℝ) S = 1 := by
  unfold minor
  rw [Matrix.submatrix_one _ Subtype.val_injective, Matrix.det_one]

/-- C39 (refuted): for the DPP with likelihood kernel `L = I` (every item independently with probability
1/2), detailed balance fails between `S` and `S + t` for every `S` with `|S| + 1 < N` and
`N ≠ 2 |S| + 1`. -/
theorem C39_detailed_balance_refuted (o : McmcOpts) (ht : o.tMax = none) (hn : o.nbIter = 2)
    {S : List (Fin N)} (hS : S.Nodup) {t : Fin N} (htS : t ∉ S) (hlt : S.length + 1 < N)
    (hne : N ≠ 2 * S.length + 1) :
    minor (1 : Matrix (Fin N) (Fin N) ℝ) S.toFinset *
        probOk (aedSampler 1 o S) (Visits 1 (insert t S.toFinset))
      ≠ minor (1 : Matrix (Fin N) (Fin N) ℝ) (insert t S.toFinset) *
        probOk (aedSampler 1 o (S ++ [t])) (Visits 1 S.toFinset) := by
  obtain ⟨a1, a2⟩ := append_spec hS htS
  have hK : ∀ A : Finset (Fin N), 0 ≤ minor (1 : Matrix (Fin N) (Fin N) ℝ) A := fun A => by rw [minor_one]; norm_num
  have h1 := C39_add_probability hK o ht hn ⟨hS, by rw [minor_one]; norm_num⟩ htS
  have h2 := C39_delete_probability hK o ht hn (S := S ++ [t]) ⟨a1, by rw [minor_one]; norm_num⟩
    (t := t) (by simp) (by simpa using hlt)
  have h3 : (S ++ [t]).toFinset.erase t = S.toFinset := by
    rw [a2, Finset.erase_insert (by simpa using htS)]
  rw [h3] at h2
  rw [h1, h2, minor_one, minor_one, minor_one]
  have hR : (S.length : ℝ) + 1 < N := by exact_mod_cast hlt
  have hS0 : (0 : ℝ) ≤ S.length := Nat.cast_nonneg _
  have hN : (0 : ℝ) < N := by linarith
  have e : (N : ℝ) - (S ++ [t]).length + 1 = N - S.length := by
    simp only [List.length_append, List.length_singleton]; push_cast; ring
  have e' : (((S ++ [t]).length : ℕ) : ℝ) = S.length + 1 := by simp
  rw [e, e']
  set m := min 1 ((1:ℝ) / 1 * (((S.length : ℝ) + 1) / (N - S.length))) with hm
  have hmpos : 0 < m := by
    rw [hm, lt_min_iff]
    refine ⟨one_pos, ?_⟩
    have : 0 < (N : ℝ) - S.length := by linarith
    positivity
  intro h
  have h4 : ((N : ℝ) - S.length) * m = (S.length + 1) * m := by
    have hN2 : (2 * (N : ℝ) ^ 2) ≠ 0 := by positivity
    have e3 := congrArg (fun x => x * (2 * (N : ℝ) ^ 2)) h
    have e4 : ((N : ℝ) - S.length) / (2 * N ^ 2) * (2 * (N : ℝ) ^ 2) = N - S.length := div_mul_cancel₀ _ hN2
    have e5 : ((S.length : ℝ) + 1) / (2 * N ^ 2) * (2 * (N : ℝ) ^ 2) = S.length + 1 := div_mul_cancel₀ _ hN2
    simp only [one_mul] at e3
    calc ((N : ℝ) - S.length) * m = ((N : ℝ) - S.length) / (2 * N ^ 2) * m * (2 * (N : ℝ) ^ 2) := by
            linear_combination (-m) * e4
      _ = ((S.length : ℝ) + 1) / (2 * N ^ 2) * m * (2 * (N : ℝ) ^ 2) := e3
      _ = (S.length + 1) * m := by linear_combination m * e5
  have h5 := mul_right_cancel₀ hmpos.ne' h4
  apply hne
  have : (N : ℝ) = 2 * S.length + 1 := by linarith
  exact_mod_cast this

/-- C39 (refuted, stationarity): two independent fair coins (`N = 2`, `L = I`) are not preserved by one
iteration: the weight of the empty set goes from 1 to 7/8. -/
theorem C39_not_stationary_refuted (o : McmcOpts) (ht : o.tMax = none) (hn : o.nbIter = 2)
    (rep : Finset (Fin 2) → List (Fin 2)) (hrep : ∀ S, (rep S).Nodup ∧ (rep S).toFinset = S) :
    ∑ S, minor (1 : Matrix (Fin 2) (Fin 2) ℝ) S * probOk (aedSampler 1 o (rep S)) (Visits 1 ∅) = 7 / 8 := by
  have hK : ∀ A : Finset (Fin 2), 0 ≤ minor (1 : Matrix (Fin 2) (Fin 2) ℝ) A := fun A => by rw [minor_one]; norm_num
  have hlen : ∀ S, (rep S).length = S.card := fun S => by
    rw [← List.toFinset_card_of_nodup (hrep S).1, (hrep S).2]
  have huniv : (Finset.univ : Finset (Finset (Fin 2))) = {∅, {0}, {1}, Finset.univ} := by decide
  have hsing : ∀ t : Fin 2, probOk (aedSampler 1 o (rep {t})) (Visits 1 ∅) = 1 / 16 := by
    intro t
    have h2 := C39_delete_probability hK o ht hn (S := rep {t}) ⟨(hrep _).1, by rw [minor_one]; norm_num⟩
      (t := t) (by rw [← List.mem_toFinset, (hrep _).2]; simp) (by rw [hlen]; simp)
    rw [(hrep _).2, hlen] at h2
    simp only [Finset.erase_singleton] at h2
    rw [h2, minor_one, minor_one]
    norm_num
  have hempty : probOk (aedSampler 1 o (rep ∅)) (Visits 1 ∅) = 3 / 4 := by
    rw [aedSampler_visits ht hn (hrep _).1 (by rw [hlen]; simp), (hrep _).2]
    unfold aedKer prop
    simp only [minor_one, accP_eq one_ne_zero]
    simp
    norm_num
  have hfull : probOk (aedSampler 1 o (rep Finset.univ)) (Visits 1 ∅) = 0 := by
    classical
    rw [probOk_eq]
    refine (Dist.E_congr_possible (g := fun _ => 0) ?_).trans (E_zero _)
    intro r hr
    rw [C35_full_set_always_raises o (by omega) (hrep _).1 (by rw [hlen]; simp) hr]
    rfl
  rw [huniv, Finset.sum_insert (by decide), Finset.sum_insert (by decide), Finset.sum_insert (by decide),
    Finset.sum_singleton, hempty, hfull, hsing, hsing]
  simp only [minor_one]
  norm_num

/-! ## C40: initialisation -/

/-- C40: a set returned by either initialisation has no repetition and determinant above `1e-9`; a
requested positive size is respected. -/
theorem C40_initial_state (size : Option ℕ) (S : List (Fin N)) :
    ((initAED K).Possible (.ok S) → S.Nodup ∧ 1 / 10 ^ 9 < minor K S.toFinset) ∧
    ((initADE K size).Possible (.ok S) → S.Nodup ∧ 1 / 10 ^ 9 < minor K S.toFinset ∧
      ∀ k, size = some k → 0 < k → S.length = k) := by
  constructor
  · intro h
    rcases initLoop_ok _ _ _ h with ⟨h1, -⟩ | ⟨h1, h2⟩
    · exfalso; simp only at h1; norm_num at h1
    · have := aedDraw_ok h1
      rw [detL_minor this] at h2
      exact ⟨this, h2⟩
  · intro h
    rcases initLoop_ok _ _ _ h with ⟨h1, -⟩ | ⟨h1, h2⟩
    · exfalso; simp only at h1; norm_num at h1
    · obtain ⟨a, b, -⟩ := adDraw_ok h1
      rw [detL_minor a] at h2
      exact ⟨a, h2, b⟩

/-- C40: the only exception is `ValueError`. -/
theorem C40_only_value_error (size : Option ℕ) (e) :
    ((initAED K).Possible (.raise e) → e = .valueError) ∧
    ((initADE K size).Possible (.raise e) → e = .valueError) :=
  ⟨fun h => initLoop_raise (fun _ h => absurd h aedDraw_noraise) _ _ _ h,
   fun h => initLoop_raise (fun _ h => (adDraw_raise h).1) _ _ _ h⟩

/-- a single trial set is acceptable -/
def GoodDraw (K : Matrix (Fin N) (Fin N) ℝ) (S : List (Fin N)) : Prop := 1 / 10 ^ 9 < detL K S

theorem rejP_eq {draw : Dist ℝ (Outcome (List (Fin N)))} (hm : E draw (lift fun _ => 1) = 1) :
    rejP K (1 / 10 ^ 9) draw = 1 - probOk draw (GoodDraw K) := by
  classical
  rw [probOk_eq, rejP]
  have : E draw (lift fun S => if (1 : ℝ) / 10 ^ 9 < detL K S then 0 else 1)
      + E draw (lift fun S => if GoodDraw K S then 1 else 0) = 1 := by
    rw [← E_add]
    refine Eq.trans ?_ hm
    apply E_congr
    intro o _ _
    cases o with
    | raise e => simp [lift]
    | ok S =>
      simp only [lift]
      by_cases h : (1 : ℝ) / 10 ^ 9 < detL K S
      · rw [if_pos h, if_pos (show GoodDraw K S from h)]; norm_num
      · rw [if_neg h, if_neg (show ¬ GoodDraw K S from h)]; norm_num
  linarith

/-- C40 (law of the returned set): with `p` the probability that one trial set is acceptable, an
acceptable set `S` is returned with probability `P(trial = S) · (1 + q + … + q^98)`, `q = 1 - p`. -/
theorem C40_law (size : Option ℕ) (hN : 0 < N) (hs : ∀ k, size = some k → k ≤ N) (S : List (Fin N))
    (hS : GoodDraw K S) :
    probOk (initAED K) (· = S) = probOk (aedDraw N) (· = S) *
      ∑ j ∈ Finset.range 99, (1 - probOk (aedDraw N) (GoodDraw K)) ^ j ∧
    probOk (initADE K size) (· = S) = probOk (adDraw N size) (· = S) *
      ∑ j ∈ Finset.range 99, (1 - probOk (adDraw N size) (GoodDraw K)) ^ j := by
  classical
  have aux : ∀ draw : Dist ℝ (Outcome (List (Fin N))), E draw (lift fun _ => 1) = 1 →
      probOk (initLoop K (1 / 10 ^ 9) draw 100 ⟨[], 0⟩) (· = S) = probOk draw (· = S) *
      ∑ j ∈ Finset.range 99, (1 - probOk draw (GoodDraw K)) ^ j := by
    intro draw hm
    rw [probOk_eq, E_initLoop _ 99 _ (by norm_num), rejP_eq hm, probOk_eq draw (· = S)]
    congr 1
    apply E_congr
    intro o _ _
    cases o with
    | raise e => rfl
    | ok S' =>
      simp only [lift]
      by_cases h : S' = S
      · subst h; rw [if_pos (show (1 : ℝ) / 10 ^ 9 < detL K S' from hS)]
      · simp [h]
  exact ⟨aux _ aedDraw_mass, aux _ (adDraw_mass hN hs)⟩

/-- C40 (finding): 100 sets are drawn but the last one is never looked at: `ValueError` is raised with
probability `(1 - p)^99`, where `p` is the probability that one trial set is acceptable. -/
theorem C40_failure_probability (size : Option ℕ) (hN : 0 < N) (hs : ∀ k, size = some k → k ≤ N) :
    (initAED K).prob (fun r => r = .raise .valueError) = (1 - probOk (aedDraw N) (GoodDraw K)) ^ 99 ∧
    (initADE K size).prob (fun r => r = .raise .valueError) = (1 - probOk (adDraw N size) (GoodDraw K)) ^ 99 := by
  constructor
  · rw [initAED, prob_initLoop_fail (fun e => aedDraw_noraise) aedDraw_mass 99 _ (by norm_num), rejP_eq aedDraw_mass]
  · have hm := adDraw_mass hN hs
    rw [initADE, prob_initLoop_fail (fun e h => ?_) hm 99 _ (by norm_num), rejP_eq hm]
    rcases (adDraw_raise h).2 with h | ⟨k, hk, h⟩
    · omega
    · have := hs k hk; omega

/-- C40 (finding): when a trial set is acceptable with probability strictly between 0 and 1, the error is
more frequent than "none of the 100 trial sets is acceptable". -/
theorem C40_hundredth_trial_refuted (hp0 : 0 < probOk (aedDraw N) (GoodDraw K))
    (hp1 : probOk (aedDraw N) (GoodDraw K) < 1) (hN : 0 < N) :
    (1 - probOk (aedDraw N) (GoodDraw K)) ^ 100 < (initAED K).prob (fun r => r = .raise .valueError) := by
  rw [(C40_failure_probability none hN (by simp)).1]
  exact pow_lt_pow_right_of_lt_one₀ (by linarith) (by linarith) (by norm_num)

/-- C40 (finding): `size = 0` is treated as "no size": the initial set of a chain for a k-DPP with
`k = 0` is never empty. -/
theorem C40_size_zero_refuted (S : List (Fin N)) (h : (initADE K (some 0)).Possible (.ok S)) :
    initADE K (some 0) = initADE K none ∧ 0 < S.length := by
  refine ⟨rfl, ?_⟩
  rcases initLoop_ok _ _ _ h with ⟨h1, -⟩ | ⟨h1, h2⟩
  · exfalso; simp only at h1; norm_num at h1
  · exact (adDraw_ok h1).2.2

/-! ## Concrete cases -/

/-- principal minors of a positive semi-definite matrix are non-negative: the hypothesis of C37-C39 holds
for every DPP kernel -/
example (K : Matrix (Fin N) (Fin N) ℝ) (h : K.PosSemidef) (S : Finset (Fin N)) : 0 ≤ minor K S :=
  Matrix.PosSemidef.det_nonneg (h.submatrix _)

/-- a non-trivial transition: with `L = I` on two items, the add-delete chain goes from `{0}` to `{0, 1}`
in one iteration with probability 1/4 -/
example (clk : ℕ → ℝ) :
    probOk (adSampler (1 : Matrix (Fin 2) (Fin 2) ℝ) ⟨5, none, clk⟩ [0]) (Visits 1 {0, 1}) = 1 / 4 := by
  rw [adSampler_visits (by norm_num) rfl (by simp) 1 (by simp)]
  have h0 : symmDiff ({0} : Finset (Fin 2)) {0} = ∅ := by decide
  have h1 : symmDiff ({0} : Finset (Fin 2)) {1} = {0, 1} := by decide
  have h2 : (∅ : Finset (Fin 2)) ≠ {0, 1} := by decide
  have h3 : ({0} : Finset (Fin 2)) ≠ {0, 1} := by decide
  simp only [Function.iterate_one, adKer, acc, minor_one, accP_eq one_ne_zero, Fin.sum_univ_two,
    List.toFinset_cons, List.toFinset_nil, insert_empty_eq, h0, h1, if_neg h2, if_neg h3]
  norm_num

/-- the exchange chain goes from `{0}` to `{1}` with probability 1/2, and `[0]` is a valid state -/
example (clk : ℕ → ℝ) : ValidState (1 : Matrix (Fin 2) (Fin 2) ℝ) [0] ∧
    probOk (exSampler (1 : Matrix (Fin 2) (Fin 2) ℝ) ⟨5, none, clk⟩ [0]) (Visits 1 {1}) = 1 / 2 := by
  refine ⟨⟨by simp, by rw [minor_one]; norm_num⟩, ?_⟩
  rw [exSampler_visits (k := 1) (by norm_num) (by norm_num) rfl (by simp) rfl 1 (by simp)]
  have h0 : (({0} : Finset (Fin 2)))ᶜ = {1} := by decide
  have h1 : insert 1 (({0} : Finset (Fin 2)).erase 0) = {1} := by decide
  have h3 : ({0} : Finset (Fin 2)) ≠ {1} := by decide
  simp only [Function.iterate_one, exKer, acc, minor_one, accP_eq one_ne_zero,
    List.toFinset_cons, List.toFinset_nil, insert_empty_eq, Finset.sum_singleton, h0, h1, if_neg h3]
  norm_num

/-- the refutation of C39 applies to two items, `S = ∅` and `t = 0` -/
example (clk : ℕ → ℝ) :
    minor (1 : Matrix (Fin 2) (Fin 2) ℝ) (([] : List (Fin 2)).toFinset) *
        probOk (aedSampler 1 ⟨2, none, clk⟩ []) (Visits 1 (insert 0 ([] : List (Fin 2)).toFinset))
      ≠ minor (1 : Matrix (Fin 2) (Fin 2) ℝ) (insert 0 ([] : List (Fin 2)).toFinset) *
        probOk (aedSampler 1 ⟨2, none, clk⟩ ([] ++ [0])) (Visits 1 ([] : List (Fin 2)).toFinset) :=
  C39_detailed_balance_refuted _ rfl rfl (by simp) (by simp) (by simp) (by simp)

/-- a valid full state, from which the add-exchange-delete sampler raises -/
example : ValidState (1 : Matrix (Fin 2) (Fin 2) ℝ) [0, 1] := ⟨by decide, by rw [minor_one]; norm_num⟩

/-- with `L = I` every trial set of the initialisation is acceptable -/
example : probOk (aedDraw 3) (GoodDraw (1 : Matrix (Fin 3) (Fin 3) ℝ)) = 1 := by
  classical
  rw [probOk_eq]
  refine Eq.trans ?_ (aedDraw_mass (N := 3))
  apply Dist.E_congr_possible
  intro o ho
  cases o with
  | raise e => exact absurd ho aedDraw_noraise
  | ok S =>
    simp only [lift]
    rw [if_pos]
    unfold GoodDraw
    rw [detL_minor (aedDraw_ok ho), minor_one]; norm_num

end Verif.Props
