import Verif.Lemmas.AedDies
import Verif.Lemmas.ErrMass
import Verif.Lemmas.Descent
import Verif.Props.McmcConverge

/-!
C114: long runs of the default MCMC sampler.
-/

namespace Verif.Props.AedDies
open Verif Verif.Spec Verif.Model Verif.Props Verif.Props.McmcSession Verif.Props.McmcConverge Matrix

variable {N : ℕ} {K : Matrix (Fin N) (Fin N) ℝ}

theorem aedStep_mass (s : AedSt N) : (aedStep K s).mass = 1 := by
  have hmv : ∀ S1 k c, (aedMoveTo K s S1 k c).mass = 1 := by
    intro S1 k c
    rw [aedMoveTo, Dist.map_mass, acceptMove]
    split
    · exact Verif.Lemmas.Err.ret_mass _
    · exact Verif.Lemmas.Err.bern_mass _
  have hb : ∀ i t m, (aedBranch K s i t m).mass = 1 := by
    intro i t m
    cases m with
    | add => exact hmv _ _ _
    | exchange =>
      rw [aedBranch]; split
      · exact hmv _ _ _
      · exact Verif.Lemmas.Err.ret_mass _
    | delete =>
      rw [aedBranch]; split
      · exact hmv _ _ _
      · exact Verif.Lemmas.Err.ret_mass _
    | stay => exact Verif.Lemmas.Err.ret_mass _
  rw [aedStep]
  refine andThen_mass (choiceO_mass _) fun i => andThen_mass (choiceO_mass _) fun t => Verif.Lemmas.Err.bind_mass ?_ fun m => hb i t m
  rw [Dist.mass, aedMove]
  simp only [Dist.E_cons, Dist.E_nil]
  ring

theorem loop_mass1 : ∀ (n it : ℕ) (s : AedSt N), (mcmcLoop (aedStep K) (fun _ => false) it n s).mass = 1 := by
  intro n
  induction n with
  | zero => intro it s; exact Verif.Lemmas.Err.ret_mass _
  | succ n ih =>
    intro it s
    rw [mcmcLoop]
    refine andThen_mass (aedStep_mass s) fun s' => ?_
    simp only [Bool.false_eq_true, if_false]
    exact andThen_mass (ih _ _) fun _ => Verif.Lemmas.Err.ret_mass _

theorem aedSampler_mass {o : McmcOpts} (ht : o.tMax = none) (S0 : List (Fin N)) : (aedSampler K o S0).mass = 1 := by
  rw [aedSampler, Dist.map_mass, stopAt_none ht]
  exact loop_mass1 _ _ _

theorem choiceNoReplace_mass1 (n k : ℕ) : (choiceNoReplace n k).mass = 1 := by
  rw [choiceNoReplace]
  split
  · exact Verif.Lemmas.Err.ret_mass _
  · rw [Dist.map_mass]; exact uniformPermutation_mass n

theorem aedDraw_ok2 : (aedDraw N).mass = 1 ∧ Dist.Nonneg (aedDraw N) := by
  rw [aedDraw]
  exact ⟨andThen_mass (choiceNoReplace_mass1 _ _) fun _ => Verif.Lemmas.Err.ret_mass _,
    Verif.Model.andThen_nonneg (choiceNoReplace_nonneg _ _) fun _ => Dist.Nonneg.ret _⟩

theorem initAED_ok2 (K : Mat N) : (initAED K).mass = 1 ∧ Dist.Nonneg (initAED K) := by
  have : ∀ n s, (initLoop K (1 / 10 ^ 9) (aedDraw N) n s).mass = 1 ∧
      Dist.Nonneg (initLoop K (1 / 10 ^ 9) (aedDraw N) n s) := by
    intro n
    induction n with
    | zero => intro s; exact ⟨Verif.Lemmas.Err.ret_mass _, Dist.Nonneg.ret _⟩
    | succ n ih =>
      intro s
      rw [initLoop]
      split
      · exact ⟨Verif.Lemmas.Err.ret_mass _, Dist.Nonneg.ret _⟩
      · exact ⟨andThen_mass aedDraw_ok2.1 fun _ => (ih _).1,
          Verif.Model.andThen_nonneg aedDraw_ok2.2 fun _ => (ih _).2⟩
  exact this _ _

/-- success, or the only possible error -/
theorem prob_split {α : Type*} {d : Dist ℝ (Outcome α)} (hm : d.mass = 1)
    (h : ∀ e, d.Possible (.raise e) → e = .valueError) :
    probOk d (fun _ => True) + d.prob (fun r => r = .raise .valueError) = 1 := by
  classical
  rw [probOk_eq, Dist.prob_eq, ← Dist.E_add]
  refine Eq.trans ?_ hm
  rw [Dist.mass]
  refine Dist.E_congr_possible fun x hx => ?_
  cases x with
  | ok a => simp [lift]
  | raise e => rw [h e hx]; simp [lift]

theorem survives {o : McmcOpts} (ht : o.tMax = none) {S0 : List (Fin N)} (h0 : ValidState K S0) :
    probOk (aedSampler K o S0) (fun _ => True) = Verif.Lemmas.AedDies.surv K (o.nbIter - 1) S0.toFinset := by
  rw [probOk_eq, aedSampler, stopAt_none ht, Dist.E_map]
  rw [← Verif.Lemmas.AedDies.loop_survives (o.nbIter - 1) 1 ⟨S0, detL K S0, S0.length⟩ ⟨h0, rfl, rfl⟩]
  refine Dist.E_congr fun x _ _ => ?_
  cases x <;> simp [lift, Outcome.map]

end Verif.Props.AedDies

namespace Verif.Props
open Verif Verif.Spec Verif.Model Verif.Props.McmcSession Verif.Props.McmcConverge Verif.Props.AedDies Matrix

variable {N : ℕ} {K : Matrix (Fin N) (Fin N) ℝ}

/-- C114 (refuted: long runs of `'AED'` fail): if every set has positive determinant, the probability that the
add-exchange-delete sampler returns is at most `q^((nb_iter - 1) / (N + 1))` with `q < 1`, whatever the initial set. -/
theorem C114_sampler_refuted (hpos : ∀ S, 0 < minor K S) : ∃ q : ℝ, 0 ≤ q ∧ q < 1 ∧
    ∀ (o : McmcOpts), o.tMax = none → ∀ S0 : List (Fin N), S0.Nodup →
      probOk (aedSampler K o S0) (fun _ => True) ≤ q ^ ((o.nbIter - 1) / (N + 1)) := by
  obtain ⟨q, h0, h1, h⟩ := Verif.Lemmas.AedDies.surv_geometric hpos
  exact ⟨q, h0, h1, fun o ht S0 hS => by rw [survives ht ⟨hS, hpos _⟩]; exact h _ _⟩

/-- C114 (refuted: the default call `dpp_sampler_mcmc(kernel, nb_iter=n)`): with the default initialisation the same
holds: the call returns a chain with probability tending to zero as `nb_iter` grows; otherwise it raises `ValueError`. -/
theorem C114_default_call_refuted (hpos : ∀ S, 0 < minor K S) {ε : ℝ} (hε : 0 < ε) : ∃ n : ℕ,
    ∀ (o : McmcOpts), o.tMax = none → n ≤ o.nbIter → ∀ size,
      1 - ε ≤ (mcmcSampler K "AED" o none size).prob (fun r => r = .raise .valueError) := by
  obtain ⟨q, h0, h1, h⟩ := Verif.Lemmas.AedDies.surv_geometric hpos
  obtain ⟨j, hj⟩ := exists_pow_lt_of_lt_one hε h1
  refine ⟨(N + 1) * j + 1, fun o ht hn size => ?_⟩
  have hval : ∀ S, (initAED K).Possible (.ok S) → ValidState K S := fun S hS =>
    ⟨((C40_initial_state (K := K) none S).1 hS).1, hpos _⟩
  have hd : mcmcSampler K "AED" o none size = (initAED K).andThen fun S => aedSampler K o S := by
    rw [mcmcSampler, if_pos rfl, withInit]
  have hsplit := prob_split (d := mcmcSampler K "AED" o none size)
    (by rw [hd]; exact andThen_mass (initAED_ok2 K).1 fun S => aedSampler_mass ht S)
    (fun e he => by
      rw [hd, possible_andThen] at he
      rcases he with ⟨S, hS, he⟩ | ⟨e', he', hee⟩
      · exact C35_add_exchange_delete_errors o (hval S hS) he
      · cases hee; exact (C40_only_value_error (K := K) none e).1 he')
  have hle : probOk (mcmcSampler K "AED" o none size) (fun _ => True) ≤ ε := by
    rw [hd, probOk_eq, E_andThen]
    have h2 : Dist.E (initAED K) (fun _ => ε) = ε := by
      have := Dist.E_mul_right (initAED K) (fun _ => (1 : ℝ)) ε
      simp only [one_mul] at this
      rw [this]
      exact (congrArg (· * ε) (initAED_ok2 K).1).trans (one_mul ε)
    rw [← h2]
    refine E_mono_possible (initAED_ok2 K).2 fun x hx => ?_
    cases x with
    | raise e => exact hε.le
    | ok S =>
      have := survives ht (hval S hx)
      rw [probOk_eq] at this
      refine le_trans (le_of_eq this) ((h _ _).trans (le_trans ?_ hj.le))
      exact pow_le_pow_of_le_one h0 h1.le ((Nat.le_div_iff_mul_le (by omega)).2 (by rw [mul_comm]; omega))
  linarith

/-- C114 (partial: the kernels for which runs of any length succeed): if the determinant of the kernel is not positive,
the add-exchange-delete sampler started from a set of positive determinant never raises. -/
theorem C114_singular_partial (hdet : ¬ 0 < minor K Finset.univ) (o : McmcOpts) {S0 : List (Fin N)}
    (h0 : ValidState K S0) (e) : ¬ (aedSampler K o S0).Possible (.raise e) := by
  intro h
  rw [aedSampler, Dist.Possible.map_iff] at h
  obtain ⟨r, hr, h⟩ := h
  cases r with
  | ok l => cases h
  | raise e' =>
    refine loop_raise (I := GoodA K) (P := fun _ => False) (fun s s' hs h => (aedStep_good hs h).1)
      (fun s e hs h => hdet ?_) _ _ _ ⟨h0, rfl, rfl⟩ _ hr
    have hl := (aedStep_raise hs.1.1 hs.2.2 h).2
    have : s.S.toFinset = Finset.univ := by
      rw [← Finset.card_eq_iff_eq_univ, List.toFinset_card_of_nodup hs.1.1, hl, Fintype.card_fin]
    rw [← this]
    exact hs.1.2

variable {Info : Type} {env : Env N Info} (hqr : QRSpec env.qr) (heigh : EighSpec env.eigh)
variable {kt : String} {proj : Bool} {p : Params N}

include hqr heigh in
/-- C114 (refuted on objects): if every set has positive probability under the DPP the object describes, then for any
`ε > 0` there is a number of iterations from which `sample_mcmc('AED', s_init=S, nb_iter=n)` raises `ValueError` with
probability at least `1 - ε`, whatever the initial set and the earlier calls. -/
theorem C114_object_refuted (hd : Describes kt proj p K) (hs : ¬ SingularDual p)
    (hp : kt = "correlation" → proj = false ∧ p.AZono = none) {L : Mat N} (hL : LikelihoodOf L K)
    (hpos : ∀ S, 0 < exactProb K S) {ε : ℝ} (hε : 0 < ε) : ∃ n : ℕ,
    ∀ (o : Obj N Info), ReachableCalls env kt proj p o → ∀ (opts : McmcOpts), opts.tMax = none →
      n ≤ opts.nbIter → ∀ (size : Option ℕ) (S : List (Fin N)), S.Nodup →
        1 - ε ≤ (sampleMcmc (mcmcEnv env ⟨opts, some S⟩) o "AED" size).prob (fun r => r.2 = .raise .valueError) := by
  classical
  have hpsd : L.PosSemidef := posSemidef hL.symm hL.nonneg
  have hw : ∀ S, exactProb K S = lDppProb L S := Verif.Lemmas.ExKer.exactProb_eq_lDppProb hL
  have hm : ∀ S, 0 < minor L S := fun S => by
    have := hpos S
    rw [hw, lDppProb] at this
    exact (div_pos_iff_of_pos_right (det_one_add_pos hpsd)).1 this
  obtain ⟨q, h0, h1, h⟩ := C114_sampler_refuted hm
  obtain ⟨j, hj⟩ := exists_pow_lt_of_lt_one hε h1
  refine ⟨(N + 1) * j + 1, fun o hr opts ht hn size S hS => ?_⟩
  obtain ⟨o', he⟩ := aed_call hqr heigh (known hqr heigh hd hr) hs hp hL opts size S
  have hsplit := prob_split (aedSampler_mass (K := L) ht S)
    fun e h => C35_add_exchange_delete_errors opts ⟨hS, hm _⟩ h
  have hle : probOk (aedSampler L opts S) (fun _ => True) ≤ ε := by
    refine (h opts ht S hS).trans (le_trans ?_ hj.le)
    exact pow_le_pow_of_le_one h0 h1.le ((Nat.le_div_iff_mul_le (by omega)).2 (by rw [mul_comm]; omega))
  have hpr : (aedSampler L opts S).prob (fun r => r = .raise .valueError)
      ≤ (sampleMcmc (mcmcEnv env ⟨opts, some S⟩) o "AED" size).prob (fun r => r.2 = .raise .valueError) := by
    rw [he, Dist.prob_eq, Dist.prob_eq, recordChain, Dist.E_map]
    refine le_of_eq (Dist.E_congr_possible fun x hx => if_congr ?_ rfl rfl)
    cases x with
    | raise e => simp
    | ok c =>
      have hl := C36_length opts ht S c (Or.inr hx)
      cases hc : c.getLast? with
      | none => rw [List.getLast?_eq_none_iff] at hc; subst hc; simp at hl; omega
      | some s => simp [hc]
  linarith

/-- the hypotheses of `C114_default_call_refuted` are met by the identity kernel on three items -/
example : ∃ n : ℕ, ∀ m, n ≤ m →
    99 / 100 ≤ (mcmcSampler (1 : Mat 3) "AED" ⟨m, none, fun _ => 0⟩ none none).prob (fun r => r = .raise .valueError) := by
  obtain ⟨n, hn⟩ := C114_default_call_refuted (K := (1 : Mat 3)) (fun S => by rw [minor_one]; norm_num)
    (show (0 : ℝ) < 1 / 100 by norm_num)
  refine ⟨n, fun m hm => ?_⟩
  have := hn ⟨m, none, fun _ => 0⟩ rfl hm none
  linarith

/-- on an object: two fair coins, after any calls -/
example (env : Env 2 Unit) (hqr : QRSpec env.qr) (heigh : EighSpec env.eigh) :
    ∃ n : ℕ, ∀ (o : Obj 2 Unit), ReachableCalls env "likelihood" false pId o →
      1 / 2 ≤ (sampleMcmc (mcmcEnv env ⟨⟨n, none, fun _ => 0⟩, some [0]⟩) o "AED" none).prob
        (fun r => r.2 = .raise .valueError) := by
  have hs : ¬ SingularDual pId := by
    rintro ⟨Phi, h, -⟩
    simp [pId] at h
  obtain ⟨n, hn⟩ := C114_object_refuted hqr heigh pId_describes hs (by decide) pId_likelihood
    (fun S => by rw [coins_prob]; norm_num) (show (0 : ℝ) < 1 / 2 by norm_num)
  refine ⟨n, fun o hr => ?_⟩
  have := hn o hr ⟨n, none, fun _ => 0⟩ rfl le_rfl none [0] (by decide)
  linarith

/-- the hypotheses of `C114_singular_partial` are met by the projection kernel `K32` of rank two from `{0, 1}` -/
example (n : ℕ) (e) : ¬ (aedSampler K32 ⟨n, none, fun _ => 0⟩ [0, 1]).Possible (.raise e) := by
  refine C114_singular_partial ?_ _ ?_ e
  · rw [show (Finset.univ : Finset (Fin 3)) = [0, 1, 2].toFinset by decide, ← detL_minor (by decide), detL]
    refine not_lt.2 (le_of_eq ((Matrix.det_fin_three _).trans ?_))
    simp [K32]
    norm_num
  · refine ⟨by decide, ?_⟩
    rw [← detL_minor (by decide), detL]
    refine lt_of_lt_of_eq (show (0 : ℝ) < 1 / 3 by norm_num) (Eq.symm ((Matrix.det_fin_two _).trans ?_))
    simp [K32]
    norm_num

end Verif.Props
