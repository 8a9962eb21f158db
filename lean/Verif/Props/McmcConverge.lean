import Verif.Lemmas.McmcConverge
import Verif.Lemmas.WilsonLim
import Verif.Props.McmcSession

/-!
C113: the add-delete and exchange chains converge to the DPP and to the k-DPP.
-/

namespace Verif.Props.McmcConverge
open Verif Verif.Spec Verif.Model Verif.Props Verif.Props.McmcSession Matrix

variable {N : ℕ}

theorem posSemidef {A : Mat N} (h1 : ∀ i j, A i j = A j i) (h2 : ∀ x : Fin N → ℝ, 0 ≤ ∑ i, ∑ j, x i * A i j * x j) :
    A.PosSemidef := by
  refine .of_dotProduct_mulVec_nonneg ?_ fun x => ?_
  · ext i j; simpa using h1 j i
  · have := h2 x
    simp only [star_trivial, dotProduct, mulVec, Finset.mul_sum]
    simpa only [mul_assoc] using this

/-- a geometric bound is eventually smaller than any positive number -/
theorem eventually_le {m : ℕ} (hm : 0 < m) {c ε : ℝ} (hc0 : 0 < c) (hc1 : c ≤ 1) (hε : 0 < ε) :
    ∃ n : ℕ, ∀ j, n ≤ j → 2 * (1 - c) ^ (j / m) ≤ ε := by
  obtain ⟨q, hq⟩ := exists_pow_lt_of_lt_one (show 0 < ε / 2 by linarith) (show 1 - c < 1 by linarith)
  refine ⟨m * q, fun j hj => ?_⟩
  have h1 : q ≤ j / m := (Nat.le_div_iff_mul_le hm).2 (by rwa [mul_comm] at hj)
  have h2 : (1 - c) ^ (j / m) ≤ (1 - c) ^ q := pow_le_pow_of_le_one (by linarith) (by linarith) h1
  linarith

/-- a random initial state -/
theorem mix {α : Type*} {d : Dist ℝ (Outcome α)} (hd : Dist.Nonneg d) {f : Finset (Fin N) → α → ℝ}
    {q : Finset (Fin N) → ℝ} {b : ℝ} (h : ∀ a, d.Possible (.ok a) → ∑ T, |f T a - q T| ≤ b) :
    ∑ T, |d.E (lift (f T)) - d.E (lift fun _ => 1) * q T| ≤ b * d.E (lift fun _ => 1) := by
  have h1 : ∀ T, d.E (lift (f T)) - d.E (lift fun _ => 1) * q T = d.E (lift fun a => f T a - q T) := by
    intro T
    rw [← Dist.E_mul_right, ← Verif.Model.E_sub]
    refine Dist.E_congr fun x _ _ => ?_
    cases x <;> simp [lift]
  have h2 : ∀ T, |d.E (lift fun a => f T a - q T)| ≤ d.E (lift fun a => |f T a - q T|) := by
    intro T
    refine Verif.Model.abs_E_le hd fun x _ => ?_
    cases x <;> simp [lift]
  have h3 : ∀ s : Finset (Finset (Fin N)), ∑ T ∈ s, d.E (lift fun a => |f T a - q T|)
      = d.E (lift fun a => ∑ T ∈ s, |f T a - q T|) := by
    classical
    intro s
    induction s using Finset.induction_on with
    | empty =>
      simp only [Finset.sum_empty]
      refine (Dist.E_eq_zero fun x _ _ => ?_).symm
      cases x <;> rfl
    | insert T s hT ih =>
      rw [Finset.sum_insert hT, ih, ← Dist.E_add]
      refine Dist.E_congr fun x _ _ => ?_
      cases x with
      | ok a => simp only [lift, Finset.sum_insert hT]
      | raise e => simp [lift]
  simp only [h1]
  refine (Finset.sum_le_sum fun T _ => h2 T).trans ?_
  rw [h3, ← Dist.E_const_mul]
  refine Verif.Model.E_mono_possible hd fun x hx => ?_
  cases x with
  | ok a => simpa [lift] using h a hx
  | raise e => simp [lift]

theorem fyLoop_nonneg (i : ℕ) : ∀ s, Dist.Nonneg (fyLoop ℝ i s) := by
  induction i with
  | zero => intro s; exact Dist.Nonneg.ret _
  | succ i ih =>
    intro s
    rw [fyLoop]
    refine Dist.Nonneg.bind (Dist.Nonneg.choice _) fun j => ?_
    split <;> exact ih _

theorem choiceNoReplace_nonneg (n k : ℕ) : Dist.Nonneg (choiceNoReplace n k) := by
  rw [choiceNoReplace]
  split
  · exact Dist.Nonneg.ret _
  · exact Dist.Nonneg.map (fyLoop_nonneg _ _)

theorem adDraw_nonneg (size : Option ℕ) : Dist.Nonneg (adDraw N size) := by
  rw [adDraw.eq_def]
  split
  · exact Verif.Model.andThen_nonneg (choiceNoReplace_nonneg _ _) fun _ => Dist.Nonneg.ret _
  · exact Verif.Model.andThen_nonneg (choiceO_nonneg _) fun j =>
      Verif.Model.andThen_nonneg (choiceNoReplace_nonneg _ _) fun _ => Dist.Nonneg.ret _

theorem initADE_nonneg (K : Mat N) (size : Option ℕ) : Dist.Nonneg (initADE K size) := by
  have : ∀ n s, Dist.Nonneg (initLoop K (1 / 10 ^ 9) (adDraw N size) n s) := by
    intro n
    induction n with
    | zero => intro s; exact Dist.Nonneg.ret _
    | succ n ih =>
      intro s
      rw [initLoop]
      split
      · exact Dist.Nonneg.ret _
      · exact Verif.Model.andThen_nonneg (adDraw_nonneg _) fun _ => ih _
  exact this _ _

end Verif.Props.McmcConverge

namespace Verif.Props
open Verif Verif.Spec Verif.Model Verif.Props.McmcSession Verif.Props.McmcConverge Matrix

variable {N : ℕ} {K : Matrix (Fin N) (Fin N) ℝ}

/-- C113 (add-delete sampler): for a positive semi-definite kernel `K` there are `m > 0` and `0 < c ≤ 1` such that the
law of the state at position `j` of the chain is at distance at most `2 (1 - c)^(j / m)` from the DPP of `K`, whatever
the initial state (of positive determinant) and the number of iterations. -/
theorem C113_add_delete (hN : 0 < N) (hK : K.PosSemidef) :
    ∃ m : ℕ, 0 < m ∧ ∃ c : ℝ, 0 < c ∧ c ≤ 1 ∧
      ∀ (o : McmcOpts), o.tMax = none → ∀ S0 : List (Fin N), ValidState K S0 → ∀ j < max 1 o.nbIter,
        ∑ T, |probOk (adSampler K o S0) (Visits j T) - lDppProb K T| ≤ 2 * (1 - c) ^ (j / m) := by
  obtain ⟨m, hm, c, h0, h1, h⟩ := Verif.Lemmas.McmcConverge.ad_converge hN hK
  refine ⟨m, hm, c, h0, h1, fun o ht S0 hS j hj => ?_⟩
  simp only [adSampler_visits hN ht hS.1 j hj]
  exact h _ hS.2 j

/-- C113 (exchange sampler): the same for the exchange sampler and the k-DPP, from initial states of `k` items. -/
theorem C113_exchange {k : ℕ} (h0k : 0 < k) (hkN : k < N) (hK : K.PosSemidef) :
    ∃ m : ℕ, 0 < m ∧ ∃ c : ℝ, 0 < c ∧ c ≤ 1 ∧
      ∀ (o : McmcOpts), o.tMax = none → ∀ S0 : List (Fin N), ValidState K S0 → S0.length = k → ∀ j < o.nbIter,
        ∑ T, |probOk (exSampler K o S0) (Visits j T) - kDppProb K k T| ≤ 2 * (1 - c) ^ (j / m) := by
  obtain ⟨m, hm, c, h0, h1, h⟩ := Verif.Lemmas.McmcConverge.ex_converge h0k hkN hK
  refine ⟨m, hm, c, h0, h1, fun o ht S0 hS hk j hj => ?_⟩
  simp only [exSampler_visits h0k hkN ht hS.1 hk j hj]
  exact h _ ⟨by rw [List.toFinset_card_of_nodup hS.1, hk], hS.2⟩ j

/-- C113 (initialisation of the sampler): without `s_init` the chain starts from a set that the initialisation accepts,
or the call fails.  The law of the state at position `j` of the add-delete chain is close to the law of the DPP, times
the probability `P` that the initialisation succeeds, at distance at most `2 P (1 - c)^(j / m)`. -/
theorem C113_add_delete_default_init (hN : 0 < N) (hK : K.PosSemidef) :
    ∃ m : ℕ, 0 < m ∧ ∃ c : ℝ, 0 < c ∧ c ≤ 1 ∧
      ∀ (o : McmcOpts), o.tMax = none → ∀ size j, j < max 1 o.nbIter →
        ∑ T, |probOk (mcmcSampler K "AD" o none size) (Visits j T)
            - probOk (initADE K none) (fun _ => True) * lDppProb K T|
          ≤ 2 * (1 - c) ^ (j / m) * probOk (initADE K none) (fun _ => True) := by
  classical
  obtain ⟨m, hm, c, h0, h1, h⟩ := Verif.Lemmas.McmcConverge.ad_converge hN hK
  refine ⟨m, hm, c, h0, h1, fun o ht size j hj => ?_⟩
  have hval : ∀ S, (initADE K none).Possible (.ok S) → ValidState K S := fun S hS => by
    obtain ⟨a, b, -⟩ := (C40_initial_state (K := K) none S).2 hS
    exact ⟨a, lt_trans (by norm_num) b⟩
  have e1 : ∀ T, probOk (mcmcSampler K "AD" o none size) (Visits j T) = Dist.E (initADE K none)
      (lift fun S => ((adKer K)^[j] fun A => if A = T then 1 else 0) S.toFinset) := by
    intro T
    rw [probOk_eq, mcmcSampler, if_neg (by decide), if_pos rfl, withInit, E_andThen]
    refine Dist.E_congr_possible fun x hx => ?_
    cases x with
    | raise e => rfl
    | ok S =>
      simp only [lift]
      rw [← adSampler_visits hN ht (hval S hx).1 j hj, probOk_eq]
  have e2 : probOk (initADE K none) (fun _ => True) = Dist.E (initADE K none) (lift fun _ => 1) := by
    rw [probOk_eq]; simp
  simp only [e1, e2]
  exact mix (initADE_nonneg K none) fun S hS => h _ (hval S hS).2 j

/-- C113 (initialisation of the sampler): the same for the exchange chain of a k-DPP with `size=k` and no `s_init`. -/
theorem C113_exchange_default_init {k : ℕ} (h0k : 0 < k) (hkN : k < N) (hK : K.PosSemidef) :
    ∃ m : ℕ, 0 < m ∧ ∃ c : ℝ, 0 < c ∧ c ≤ 1 ∧
      ∀ (o : McmcOpts), o.tMax = none → ∀ j < o.nbIter,
        ∑ T, |probOk (mcmcSampler K "E" o none (some k)) (Visits j T)
            - probOk (initADE K (some k)) (fun _ => True) * kDppProb K k T|
          ≤ 2 * (1 - c) ^ (j / m) * probOk (initADE K (some k)) (fun _ => True) := by
  classical
  obtain ⟨m, hm, c, h0, h1, h⟩ := Verif.Lemmas.McmcConverge.ex_converge h0k hkN hK
  refine ⟨m, hm, c, h0, h1, fun o ht j hj => ?_⟩
  have hval : ∀ S, (initADE K (some k)).Possible (.ok S) → ValidState K S ∧ S.length = k := fun S hS => by
    obtain ⟨a, b, hl⟩ := (C40_initial_state (K := K) (some k) S).2 hS
    exact ⟨⟨a, lt_trans (by norm_num) b⟩, hl k rfl h0k⟩
  have e1 : ∀ T, probOk (mcmcSampler K "E" o none (some k)) (Visits j T) = Dist.E (initADE K (some k))
      (lift fun S => ((exKer K k)^[j] fun A => if A = T then 1 else 0) S.toFinset) := by
    intro T
    rw [probOk_eq, mcmcSampler, if_neg (by decide), if_neg (by decide), if_pos rfl, withInit, E_andThen]
    refine Dist.E_congr_possible fun x hx => ?_
    cases x with
    | raise e => rfl
    | ok S =>
      simp only [lift]
      rw [← exSampler_visits h0k hkN ht (hval S hx).1.1 (hval S hx).2 j hj, probOk_eq]
  have e2 : probOk (initADE K (some k)) (fun _ => True) = Dist.E (initADE K (some k)) (lift fun _ => 1) := by
    rw [probOk_eq]; simp
  simp only [e1, e2]
  exact mix (initADE_nonneg K (some k)) fun S hS => h _
    ⟨by rw [List.toFinset_card_of_nodup (hval S hS).1.1, (hval S hS).2], (hval S hS).1.2⟩ j

/-! ### on objects -/

variable {Info : Type} {env : Env N Info} (hqr : QRSpec env.qr) (heigh : EighSpec env.eigh)
variable {kt : String} {proj : Bool} {p : Params N}

include hqr heigh in
/-- C113 (objects): for the DPP with correlation kernel `K` described by the constructor arguments, and any `ε > 0`,
there is a number of iterations from which the set returned by `sample_mcmc('AD', s_init=S, nb_iter=n)` has the law of
the DPP up to `ε`, whatever the initial set `S` of positive probability and whatever calls were made on the object. -/
theorem C113_object_add_delete (hd : Describes kt proj p K) (hs : ¬ SingularDual p)
    (hp : kt = "correlation" → proj = false ∧ p.AZono = none) {L : Mat N} (hL : LikelihoodOf L K) (hN : 0 < N)
    {ε : ℝ} (hε : 0 < ε) :
    ∃ n : ℕ, ∀ (o : Obj N Info), ReachableCalls env kt proj p o → ∀ (opts : McmcOpts), opts.tMax = none →
      n ≤ opts.nbIter → ∀ (size : Option ℕ) (S : List (Fin N)), S.Nodup → 0 < exactProb K S.toFinset →
        ∑ T, |(sampleMcmc (mcmcEnv env ⟨opts, some S⟩) o "AD" size).prob (GivesSet T) - exactProb K T| ≤ ε := by
  have hpsd : L.PosSemidef := posSemidef hL.symm hL.nonneg
  have hw : ∀ S, exactProb K S = lDppProb L S := Verif.Lemmas.ExKer.exactProb_eq_lDppProb hL
  obtain ⟨m, hm, c, h0, h1, h⟩ := C113_add_delete hN hpsd
  obtain ⟨n, hn⟩ := eventually_le hm h0 h1 hε
  refine ⟨n + 1, fun o hr opts ht hle size S hS hS0 => ?_⟩
  have hk := known hqr heigh hd hr
  obtain ⟨o', he⟩ := ad_call hqr heigh hk hs hp hL opts size S
  have hv : ValidState L S := by
    refine ⟨hS, ?_⟩
    rw [hw, lDppProb] at hS0
    exact (div_pos_iff_of_pos_right (det_one_add_pos hpsd)).1 hS0
  refine le_trans ?_ (hn (max 1 opts.nbIter - 1) (by omega))
  refine le_of_eq_of_le ?_ (h opts ht S hv (max 1 opts.nbIter - 1) (by omega))
  refine Finset.sum_congr rfl fun T _ => ?_
  rw [he, prob_returns _ _ _ _ fun c => ad_length ht, hw]

include hqr heigh in
/-- C113 (objects): the same for `sample_mcmc_k_dpp(size=k, s_init=S, nb_iter=n)` and the k-DPP, from a set `S` of `k`
items of positive probability. -/
theorem C113_object_k_dpp (hd : Describes kt proj p K) (hs : ¬ SingularDual p)
    (hp : kt = "correlation" → proj = false ∧ p.AZono = none) {L : Mat N} (hL : LikelihoodOf L K) {k : ℕ}
    (h0k : 0 < k) (hkN : k < N) {ε : ℝ} (hε : 0 < ε) :
    ∃ n : ℕ, ∀ (o : Obj N Info), ReachableCalls env kt proj p o → ∀ (opts : McmcOpts), opts.tMax = none →
      n ≤ opts.nbIter → ∀ (mode : String) (S : List (Fin N)), S.Nodup → 0 < kDppProb L k S.toFinset →
        ∑ T, |(sampleMcmcKDpp (mcmcEnv env ⟨opts, some S⟩) o k mode).prob (GivesSet T) - kDppProb L k T| ≤ ε := by
  have hpsd : L.PosSemidef := posSemidef hL.symm hL.nonneg
  obtain ⟨m, hm, c, h0, h1, h⟩ := C113_exchange h0k hkN hpsd
  obtain ⟨n, hn⟩ := eventually_le hm h0 h1 hε
  refine ⟨n + 1, fun o hr opts ht hle mode S hS hS0 => ?_⟩
  have hk : Known kt proj p K { o with mode := "E", sizeK := k } :=
    (known hqr heigh hd hr).upd hqr heigh (.single (.book o "E" o.samples k o.info))
  obtain ⟨o', he⟩ := ex_call hqr heigh hk hs hp hL opts (some k) S
  have hl : S.length = k ∧ 0 < minor L S.toFinset := by
    rw [kDppProb] at hS0
    split at hS0
    · rename_i hc
      refine ⟨by rw [← hc, List.toFinset_card_of_nodup hS], ?_⟩
      by_contra hneg
      exact absurd hS0 (not_lt.2 (div_nonpos_of_nonpos_of_nonneg (not_lt.1 hneg)
        (Finset.sum_nonneg fun A _ => minor_nonneg hpsd A)))
    · exact absurd hS0 (lt_irrefl _)
  refine le_trans ?_ (hn (opts.nbIter - 1) (by omega))
  refine le_of_eq_of_le ?_ (h opts ht S ⟨hS, hl.2⟩ hl.1 (opts.nbIter - 1) (by omega))
  refine Finset.sum_congr rfl fun T _ => ?_
  rw [sampleMcmcKDpp, he, prob_returns _ _ _ _ fun c => ex_length (by omega)]

include hqr heigh in
/-- C113 (objects): the same for `sample_mcmc('E', size=rank, s_init=S, nb_iter=n)` on a projection correlation kernel
and its DPP. -/
theorem C113_object_projection (hd : Describes "correlation" proj p K) (hp : proj = true ∨ p.AZono ≠ none) {r : ℕ}
    (htr : K.trace = (r : ℝ)) (h0r : 0 < r) (hrN : r < N) {ε : ℝ} (hε : 0 < ε) :
    ∃ n : ℕ, ∀ (o : Obj N Info), ReachableCalls env "correlation" proj p o → ∀ (opts : McmcOpts), opts.tMax = none →
      n ≤ opts.nbIter → ∀ (S : List (Fin N)), S.Nodup → 0 < exactProb K S.toFinset →
        ∑ T, |(sampleMcmc (mcmcEnv env ⟨opts, some S⟩) o "E" (some r)).prob (GivesSet T) - exactProb K T| ≤ ε := by
  have hD : DescribesCorrelation proj p K := by
    rcases hd with ⟨-, h⟩ | ⟨h, -⟩
    · exact h
    · exact absurd h (by decide)
  have hP : IsProjection K := hD.proj hp
  have hs : ¬ SingularDual p := by
    rintro ⟨Phi, h, -⟩
    rw [hD.noL.2.2.1] at h
    cases h
  have hpsd : K.PosSemidef := posSemidef hD.valid.symm hD.valid.nonneg
  obtain ⟨m, hm, c, h0, h1, h⟩ := C113_exchange h0r hrN hpsd
  obtain ⟨n, hn⟩ := eventually_le hm h0 h1 hε
  have hw := kDppProb_rank heigh hP htr
  refine ⟨n + 1, fun o hr opts ht hle S hS hS0 => ?_⟩
  have hk := known hqr heigh hd hr
  obtain ⟨o', he⟩ := exK_call hqr heigh hk hs (fun _ => hp) rfl htr opts S
  rw [← hw] at hS0 ⊢
  have hl : S.length = r ∧ 0 < minor K S.toFinset := by
    rw [kDppProb] at hS0
    split at hS0
    · rename_i hc
      refine ⟨by rw [← hc, List.toFinset_card_of_nodup hS], ?_⟩
      by_contra hneg
      exact absurd hS0 (not_lt.2 (div_nonpos_of_nonpos_of_nonneg (not_lt.1 hneg)
        (Finset.sum_nonneg fun A _ => minor_nonneg hpsd A)))
    · exact absurd hS0 (lt_irrefl _)
  refine le_trans ?_ (hn (opts.nbIter - 1) (by omega))
  refine le_of_eq_of_le ?_ (h opts ht S ⟨hS, hl.2⟩ hl.1 (opts.nbIter - 1) (by omega))
  refine Finset.sum_congr rfl fun T _ => ?_
  rw [he, prob_returns _ _ _ _ fun c => ex_length (by omega)]

end Verif.Props

namespace Verif.Props
open Verif Verif.Spec Verif.Model Verif.Props.McmcSession Verif.Props.McmcConverge Matrix

/-! ### concrete cases -/

/-- the hypotheses of `C113_add_delete` are met by three independent items and the initial set `{0, 2}`: each of the
eight sets gets probability `1/8` in the limit -/
example : ∃ m : ℕ, 0 < m ∧ ∃ c : ℝ, 0 < c ∧ c ≤ 1 ∧ ∀ n : ℕ,
    ∑ T, |probOk (adSampler (1 : Mat 3) ⟨n + 1, none, fun _ => 0⟩ [0, 2]) (Visits n T) - 1 / 8| ≤ 2 * (1 - c) ^ (n / m) := by
  obtain ⟨m, hm, c, h0, h1, h⟩ := C113_add_delete (K := (1 : Mat 3)) (by norm_num) Matrix.PosSemidef.one
  refine ⟨m, hm, c, h0, h1, fun n => ?_⟩
  have hv : ∀ T, lDppProb (1 : Mat 3) T = 1 / 8 := by
    intro T
    rw [lDppProb, minor_one, Matrix.det_fin_three]
    simp [Matrix.add_apply, Matrix.one_apply]
    norm_num
  have := h ⟨n + 1, none, fun _ => 0⟩ rfl [0, 2] ⟨by decide, by rw [minor_one]; norm_num⟩ n
    (lt_max_of_lt_right (Nat.lt_succ_self n))
  simpa only [hv] using this

/-- the hypotheses of `C113_exchange` are met by the projection kernel `K32` of rank two and the initial set `{0, 1}` -/
example : ∃ m : ℕ, 0 < m ∧ ∃ c : ℝ, 0 < c ∧ c ≤ 1 ∧ ∀ n : ℕ,
    ∑ T, |probOk (exSampler K32 ⟨n + 1, none, fun _ => 0⟩ [0, 1]) (Visits n T) - kDppProb K32 2 T|
      ≤ 2 * (1 - c) ^ (n / m) := by
  have hD : DescribesCorrelation true { K := some (some K32) } K32 := by
    rcases K32_describes with ⟨-, h⟩ | ⟨h, -⟩
    · exact h
    · exact absurd h (by decide)
  obtain ⟨m, hm, c, h0, h1, h⟩ := C113_exchange (K := K32) (k := 2) (by norm_num) (by norm_num)
    (posSemidef hD.valid.symm hD.valid.nonneg)
  have hv : ValidState K32 [0, 1] := by
    refine ⟨by decide, ?_⟩
    rw [← detL_minor (by decide), detL]
    refine lt_of_lt_of_eq (show (0 : ℝ) < 1 / 3 by norm_num) (Eq.symm ((Matrix.det_fin_two _).trans ?_))
    simp [K32]
    norm_num
  exact ⟨m, hm, c, h0, h1, fun n => h ⟨n + 1, none, fun _ => 0⟩ rfl [0, 1] hv rfl n (Nat.lt_succ_self n)⟩

/-- on an object: two fair coins, after any calls, the chain started from the empty set returns each of the four sets
with probability `1/4`, up to any `ε` -/
example (env : Env 2 Unit) (hqr : QRSpec env.qr) (heigh : EighSpec env.eigh) {ε : ℝ} (hε : 0 < ε) :
    ∃ n : ℕ, ∀ (o : Obj 2 Unit), ReachableCalls env "likelihood" false pId o →
      ∑ T, |(sampleMcmc (mcmcEnv env ⟨⟨n, none, fun _ => 0⟩, some []⟩) o "AD" none).prob (GivesSet T) - 1 / 4| ≤ ε := by
  have hs : ¬ SingularDual pId := by
    rintro ⟨Phi, h, -⟩
    simp [pId] at h
  obtain ⟨n, hn⟩ := C113_object_add_delete hqr heigh pId_describes hs (by decide) pId_likelihood (by norm_num) hε
  refine ⟨n, fun o hr => ?_⟩
  have := hn o hr ⟨n, none, fun _ => 0⟩ rfl le_rfl none [] (by decide) (by rw [coins_prob]; norm_num)
  simpa only [coins_prob] using this

end Verif.Props
