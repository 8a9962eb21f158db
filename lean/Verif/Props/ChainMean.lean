import Verif.Spec.ChainMean
import Verif.Lemmas.ChainMean
import Verif.Props.McmcConverge

/-!
C115: the mean of a function over one chain estimates its expectation under the DPP or the k-DPP, with an error that
decreases like the inverse square root of the number of iterations.
-/

namespace Verif.Props.ChainMean
open Verif Verif.Spec Verif.Model Verif.Props Verif.Lemmas.ChainMean Verif.Lemmas.McmcConverge Matrix

variable {N : ℕ} {K : Matrix (Fin N) (Fin N) ℝ}

theorem mean_sub {f : Finset (Fin N) → ℝ} {a : ℝ} {c : List (List (Fin N))} (h : c ≠ []) :
    chainMean f c - a = (c.map fun S => f S.toFinset - a).sum / c.length := by
  have hl : (0 : ℝ) < c.length := by exact_mod_cast List.length_pos_iff.2 h
  have : ∀ l : List (List (Fin N)), (l.map fun S => f S.toFinset - a).sum = (l.map fun S => f S.toFinset).sum - a * l.length := by
    intro l
    induction l with
    | nil => simp
    | cons S l ih => simp only [List.map_cons, List.sum_cons, ih, List.length_cons]; push_cast; ring
  rw [this, chainMean, sub_div, mul_div_cancel_right₀ _ hl.ne']

theorem probOk_compl {α : Type*} {d : Dist ℝ (Outcome α)} {q : ℝ} (h : Dist.E d (lift fun _ => 1) = q) (X : α → ℝ) (ε : ℝ) :
    probOk d (fun a => X a < ε) = q - probOk d (fun a => ε ≤ X a) := by
  classical
  rw [eq_sub_iff_add_eq, probOk_eq, probOk_eq, ← Dist.E_add, ← h]
  refine Dist.E_congr fun x _ _ => ?_
  cases x with
  | raise e => simp [lift]
  | ok a =>
    simp only [lift]
    by_cases ha : X a < ε
    · rw [if_pos ha, if_neg (not_le.2 ha), add_zero]
    · rw [if_neg ha, if_pos (not_lt.1 ha), zero_add]

section
variable {step : St N → Dist ℝ (Outcome (St N))} {I : St N → Prop}
variable {M : Matrix (Finset (Fin N)) (Finset (Fin N)) ℝ}

/-- the mean over a chain of `n + 1` states -/
theorem mean_close (hn : ∀ s, Dist.Nonneg (step s)) (hI : ∀ s s', I s → (step s).Possible (.ok s') → I s')
    (hM : ∀ s, I s → ∀ F : Finset (Fin N) → ℝ, Dist.E (step s) (lift fun s' => F s'.S.toFinset) = (M *ᵥ F) s.S.toFinset)
    (hM1 : ∀ s, I s → (M *ᵥ fun _ => 1) s.S.toFinset = 1) {p : Finset (Fin N) → ℝ} (hp0 : ∀ T, 0 ≤ p T)
    (hp1 : ∑ T, p T = 1) {m : ℕ} (hm : 0 < m) {c : ℝ} (h0 : 0 < c) (h1 : c ≤ 1)
    (hc : ∀ s, I s → ∀ j : ℕ, ∑ T, |(M ^ j) s.S.toFinset T - p T| ≤ 2 * (1 - c) ^ (j / m))
    {f : Finset (Fin N) → ℝ} (hf : ∀ S, |f S| ≤ 1) (n : ℕ) {s : St N} (hs : I s) {ε : ℝ} (hε : 0 < ε)
    {d : Dist ℝ (Outcome (List (List (Fin N))))}
    (hd : d = (loop step 1 n s).map fun r => r.map fun l => s.S :: l.map St.S) :
    1 - (4 + 16 * (m / c)) / ((n + 1 : ℕ) * ε ^ 2) ≤ probOk d fun ch => |chainMean f ch - ∑ T, p T * f T| < ε := by
  obtain ⟨a, ha⟩ : ∃ a, a = ∑ T, p T * f T := ⟨_, rfl⟩
  rw [← ha]
  have hg : ∀ T, |f T - a| ≤ 2 := by
    intro T
    have h2 : |a| ≤ 1 := by
      rw [ha, ← hp1]
      refine (Finset.abs_sum_le_sum_abs _ _).trans (Finset.sum_le_sum fun T _ => ?_)
      rw [abs_mul, abs_of_nonneg (hp0 T)]
      exact mul_le_of_le_one_right (hp0 T) (hf T)
    have h3 := hf T
    rw [abs_le] at h2 h3 ⊢
    constructor <;> linarith
  have hpg : ∑ T, p T * (f T - a) = 0 := by
    simp only [mul_sub, Finset.sum_sub_distrib, ← Finset.sum_mul, hp1, one_mul, ← ha, sub_self]
  have hR : ∀ s, I s → ∀ n, |∑ j ∈ Finset.range n, ((M ^ (j + 1)) *ᵥ fun T => f T - a) s.S.toFinset|
      ≤ 2 * (2 * (m / c)) := fun s hs n => sum_pow_bound hm h0 h1 (hc s hs) hg hpg n
  have hsq := E_sq (st := fun s : St N => s.S.toFinset) (g := fun T => f T - a) hn hI hM hM1 hg hR n 1 s hs
  have hcons := E_sq_cons (st := fun s : St N => s.S.toFinset) (g := fun T => f T - a) hI hM hM1 hg hs s.S.toFinset (hR s hs n) hsq
  have hone := loop_one (st := fun s : St N => s.S.toFinset) hI hM hM1 n 1 s hs
  have hnn : Dist.Nonneg d := by rw [hd]; exact Dist.Nonneg.map (loop_nonneg hn n 1 s)
  have hlen : ∀ l, (loop step 1 n s).Possible (.ok l) → l.length = n := by
    intro l hl
    obtain ⟨-, -, g3, -, g5⟩ := loop_possible (I := fun _ => True) (Rel := fun _ _ => True)
      (fun s s' hs h => ⟨trivial, trivial⟩) _ _ _ trivial l hl
    by_contra hne
    have := (g5 (by omega)).2
    cases this
  have e1 : Dist.E d (lift fun _ => 1) = 1 := by
    rw [hd, Dist.E_map]
    refine Eq.trans ?_ hone
    refine Dist.E_congr fun x _ _ => ?_
    cases x <;> rfl
  have hN1 : (0 : ℝ) < (n + 1 : ℕ) := by exact_mod_cast Nat.succ_pos n
  have e2 : Dist.E d (lift fun ch => (chainMean f ch - a) ^ 2) ≤ (4 + 16 * (m / c)) / (n + 1 : ℕ) := by
    have h2 : Dist.E d (lift fun ch => (chainMean f ch - a) ^ 2) = Dist.E (loop step 1 n s)
        (lift fun l => ((f s.S.toFinset - a) + (l.map fun s' => f s'.S.toFinset - a).sum) ^ 2) * (1 / (n + 1 : ℕ) ^ 2) := by
      rw [hd, Dist.E_map, ← Dist.E_mul_right]
      refine Dist.E_congr_possible fun x hx => ?_
      cases x with
      | raise e => simp [lift, Outcome.map]
      | ok l =>
        have hl := hlen l hx
        simp only [lift, Outcome.map]
        rw [mean_sub (by simp), div_pow, List.length_cons, List.length_map, hl, List.map_cons, List.sum_cons, List.map_map]
        rw [div_eq_mul_one_div]
        rfl
    rw [h2]
    refine (mul_le_mul_of_nonneg_right hcons (by positivity)).trans (le_of_eq ?_)
    have : ((n + 1 : ℕ) : ℝ) ≠ 0 := hN1.ne'
    push_cast at this ⊢
    field_simp
    ring
  rw [probOk_compl e1]
  have := chebyshev hnn hε e2
  rw [div_div] at this
  linarith

end

theorem kDpp_pos (hK : K.PosSemidef) {k : ℕ} {T : Finset (Fin N)} (h : ExState K k T) :
    0 < ∑ S' ∈ (Finset.univ : Finset (Fin N)).powersetCard k, minor K S' :=
  Finset.sum_pos' (fun S _ => minor_nonneg hK S) ⟨T, Finset.mem_powersetCard.2 ⟨Finset.subset_univ _, h.1⟩, h.2⟩

theorem kDpp_nonneg (hK : K.PosSemidef) {k : ℕ} (T : Finset (Fin N)) : 0 ≤ kDppProb K k T := by
  rw [kDppProb]; split
  · exact div_nonneg (minor_nonneg hK T) (Finset.sum_nonneg fun S _ => minor_nonneg hK S)
  · exact le_rfl

theorem kDpp_one (hK : K.PosSemidef) {k : ℕ} {T : Finset (Fin N)} (h : ExState K k T) : ∑ T, kDppProb K k T = 1 := by
  simp only [kDppProb]
  rw [← Finset.sum_filter, ← Finset.sum_div]
  have : (Finset.univ.filter fun S : Finset (Fin N) => S.card = k) = (Finset.univ : Finset (Fin N)).powersetCard k := by
    ext S; simp [Finset.mem_powersetCard]
  rw [this, div_self (kDpp_pos hK h).ne']

theorem lDpp_nonneg (hK : K.PosSemidef) (T : Finset (Fin N)) : 0 ≤ lDppProb K T :=
  div_nonneg (minor_nonneg hK T) (det_one_add_pos hK).le

theorem lDpp_one (hK : K.PosSemidef) : ∑ T, lDppProb K T = 1 := by
  simp only [lDppProb, ← Finset.sum_div]
  rw [sum_lDppProb hK, div_self (det_one_add_pos hK).ne']

end Verif.Props.ChainMean

namespace Verif.Props
open Verif Verif.Spec Verif.Model Verif.Lemmas.ChainMean Verif.Lemmas.McmcConverge Verif.Props.ChainMean
  Verif.Props.McmcSession Verif.Props.McmcConverge Matrix

variable {N : ℕ} {K : Matrix (Fin N) (Fin N) ℝ}

/-- C115 (add-delete sampler): for a positive semi-definite kernel `K` there is a constant `C` such that, for every
function `f` with values in `[-1, 1]`, every initial state of positive determinant and every number `n` of iterations,
the call returns and the mean of `f` over the chain is within `ε` of the expectation of `f` under the DPP of `K`, with
probability at least `1 - C / (n ε^2)`. -/
theorem C115_add_delete (hN : 0 < N) (hK : K.PosSemidef) :
    ∃ C : ℝ, ∀ f : Finset (Fin N) → ℝ, (∀ S, |f S| ≤ 1) → ∀ (o : McmcOpts), o.tMax = none → 0 < o.nbIter →
      ∀ S0 : List (Fin N), ValidState K S0 → ∀ ε > 0,
        1 - C / (o.nbIter * ε ^ 2) ≤
          probOk (adSampler K o S0) fun chain => |chainMean f chain - ∑ T, lDppProb K T * f T| < ε := by
  obtain ⟨m, hm, c, h0, h1, h⟩ := ad_converge hN hK
  refine ⟨4 + 16 * (m / c), fun f hf o ht hn S0 hS ε hε => ?_⟩
  have hco : ∀ s : St N, Good K s → Coherent K s := fun s hs => ⟨hs.1.1, hs.2⟩
  have := mean_close (step := adStep K) (I := Good K) (M := adMat K) adStep_nonneg
    (fun s s' hs h => (adStep_good hs h).1)
    (fun s hs F => by rw [← adMat_mulVec]; exact E_adStep hN (hco s hs) F)
    (fun s hs => by rw [← adMat_mulVec]; exact adKer_one hN _)
    (lDpp_nonneg hK) (lDpp_one hK) hm h0 h1
    (fun s hs j => by
      refine le_of_eq_of_le (Finset.sum_congr rfl fun T _ => ?_) (h s.S.toFinset hs.1.2 j)
      rw [iter_mat adMat_mulVec, mulVec_ind])
    hf (o.nbIter - 1) (good_init hS) hε (d := adSampler K o S0) (by rw [adSampler, stopAt_none ht]; rfl)
  rwa [show o.nbIter - 1 + 1 = o.nbIter by omega] at this

/-- C115 (exchange sampler): the same for the exchange sampler and the k-DPP, from initial states of `k` items. -/
theorem C115_exchange {k : ℕ} (h0k : 0 < k) (hkN : k < N) (hK : K.PosSemidef) :
    ∃ C : ℝ, ∀ f : Finset (Fin N) → ℝ, (∀ S, |f S| ≤ 1) → ∀ (o : McmcOpts), o.tMax = none → 0 < o.nbIter →
      ∀ S0 : List (Fin N), ValidState K S0 → S0.length = k → ∀ ε > 0,
        1 - C / (o.nbIter * ε ^ 2) ≤
          probOk (exSampler K o S0) fun chain => |chainMean f chain - ∑ T, kDppProb K k T * f T| < ε := by
  obtain ⟨m, hm, c, h0, h1, h⟩ := ex_converge h0k hkN hK
  refine ⟨4 + 16 * (m / c), fun f hf o ht hn S0 hS hk ε hε => ?_⟩
  have hco : ∀ s : St N, Good K s → Coherent K s := fun s hs => ⟨hs.1.1, hs.2⟩
  have hst : ∀ s : St N, Good K s ∧ s.S.length = k → ExState K k s.S.toFinset := fun s hs =>
    ⟨by rw [List.toFinset_card_of_nodup hs.1.1.1, hs.2], hs.1.1.2⟩
  have hI : ∀ s s' : St N, Good K s ∧ s.S.length = k → (exStep K k s).Possible (.ok s') →
      Good K s' ∧ s'.S.length = k := fun s s' hs h => by
    obtain ⟨a, b, -⟩ := exStep_good hs.1 h
    exact ⟨a, b.trans hs.2⟩
  have hs0 : Good K (stInit K S0) ∧ (stInit K S0).S.length = k := ⟨good_init hS, hk⟩
  have := mean_close (step := exStep K k) (I := fun s => Good K s ∧ s.S.length = k) (M := exMat K k) (exStep_nonneg k)
    hI
    (fun s hs F => by rw [← exMat_mulVec]; exact E_exStep hs.2 h0k hkN (hco s hs.1) F)
    (fun s hs => by rw [← exMat_mulVec]; exact exKer_one h0k hkN (hst s hs).1)
    (kDpp_nonneg hK) (kDpp_one hK (hst _ hs0)) hm h0 h1
    (fun s hs j => by
      refine le_of_eq_of_le (Finset.sum_congr rfl fun T _ => ?_) (h s.S.toFinset (hst s hs) j)
      rw [iter_mat exMat_mulVec, mulVec_ind])
    hf (o.nbIter - 1) hs0 hε rfl
  rw [show o.nbIter - 1 + 1 = o.nbIter by omega] at this
  refine this.trans (le_of_eq ?_)
  classical
  rw [probOk_eq, probOk_eq, exSampler, if_neg (by omega), stopAt_none ht, hk, Dist.E_map, Dist.E_map]
  refine Dist.E_congr_possible fun x hx => ?_
  cases x with
  | raise e => rfl
  | ok l =>
    obtain ⟨-, -, g3, -, g5⟩ := loop_possible (I := fun _ => True) (Rel := fun _ _ => True)
      (fun s s' hs h => ⟨trivial, trivial⟩) _ _ _ trivial l hx
    have hl : l.length = o.nbIter - 1 := by
      by_contra hne
      have := (g5 (by omega)).2
      cases this
    simp [Outcome.map, hl, stInit]

/-! ### initialisation by the sampler -/

/-- a random initial state -/
theorem mean_init {α β : Type} {d : Dist ℝ (Outcome α)} (hd : Dist.Nonneg d) {k : α → Dist ℝ (Outcome β)} {p : β → Prop}
    {b : ℝ} (h : ∀ a, d.Possible (.ok a) → b ≤ probOk (k a) p) :
    probOk d (fun _ => True) * b ≤ probOk (d.andThen k) p := by
  classical
  rw [probOk_eq, probOk_eq, E_andThen, ← Dist.E_mul_right]
  refine Verif.Model.E_mono_possible hd fun x hx => ?_
  cases x with
  | raise e => simp [lift]
  | ok a =>
    simp only [lift, if_true, one_mul]
    rw [← probOk_eq]
    exact h a hx

/-- C115 (initialisation of the sampler): without `s_init` the call succeeds with the probability `P` that the
initialisation succeeds, and the mean is within `ε` with probability at least `P (1 - C / (n ε^2))`. -/
theorem C115_add_delete_default_init (hN : 0 < N) (hK : K.PosSemidef) :
    ∃ C : ℝ, ∀ f : Finset (Fin N) → ℝ, (∀ S, |f S| ≤ 1) → ∀ (o : McmcOpts), o.tMax = none → 0 < o.nbIter →
      ∀ size, ∀ ε > 0, probOk (initADE K none) (fun _ => True) * (1 - C / (o.nbIter * ε ^ 2)) ≤
          probOk (mcmcSampler K "AD" o none size) fun chain => |chainMean f chain - ∑ T, lDppProb K T * f T| < ε := by
  obtain ⟨C, h⟩ := C115_add_delete hN hK
  refine ⟨C, fun f hf o ht hn size ε hε => ?_⟩
  rw [mcmcSampler, if_neg (by decide), if_pos rfl, withInit]
  refine mean_init (initADE_nonneg K none) fun S hS => h f hf o ht hn S ?_ ε hε
  obtain ⟨a, b, -⟩ := (C40_initial_state (K := K) none S).2 hS
  exact ⟨a, lt_trans (by norm_num) b⟩

/-- C115 (initialisation of the sampler): the same for the exchange chain of a k-DPP with `size=k` and no `s_init`. -/
theorem C115_exchange_default_init {k : ℕ} (h0k : 0 < k) (hkN : k < N) (hK : K.PosSemidef) :
    ∃ C : ℝ, ∀ f : Finset (Fin N) → ℝ, (∀ S, |f S| ≤ 1) → ∀ (o : McmcOpts), o.tMax = none → 0 < o.nbIter →
      ∀ ε > 0, probOk (initADE K (some k)) (fun _ => True) * (1 - C / (o.nbIter * ε ^ 2)) ≤
          probOk (mcmcSampler K "E" o none (some k)) fun chain => |chainMean f chain - ∑ T, kDppProb K k T * f T| < ε := by
  obtain ⟨C, h⟩ := C115_exchange h0k hkN hK
  refine ⟨C, fun f hf o ht hn ε hε => ?_⟩
  rw [mcmcSampler, if_neg (by decide), if_neg (by decide), if_pos rfl, withInit]
  refine mean_init (initADE_nonneg K (some k)) fun S hS => ?_
  obtain ⟨a, b, hl⟩ := (C40_initial_state (K := K) (some k) S).2 hS
  exact h f hf o ht hn S ⟨a, lt_trans (by norm_num) b⟩ (hl k rfl h0k) ε hε

/-! ### on objects -/

variable {Info : Type} {env : Env N Info} (hqr : QRSpec env.qr) (heigh : EighSpec env.eigh)
variable {kt : String} {proj : Bool} {p : Params N}

theorem prob_mean (o : Obj N Info) (d : Dist ℝ (Outcome (List (List (Fin N))))) (f : Finset (Fin N) → ℝ) (a ε : ℝ)
    (hlen : ∀ c, d.Possible (.ok c) → c ≠ []) :
    (recordChain o d).prob (MeanWithin f a ε) = probOk d fun chain => |chainMean f chain - a| < ε := by
  classical
  rw [Dist.prob_eq, probOk, Dist.prob_eq, recordChain, Dist.E_map]
  refine Dist.E_congr_possible fun x hx => ?_
  refine if_congr ?_ rfl rfl
  cases x with
  | raise e => simp [MeanWithin]
  | ok c =>
    obtain ⟨s, hs⟩ : ∃ s, c.getLast? = some s := by
      cases hc : c.getLast? with
      | none => exact absurd (List.getLast?_eq_none_iff.1 hc) (hlen c hx)
      | some s => exact ⟨s, rfl⟩
    simp [MeanWithin, hs]

include hqr heigh in
/-- C115 (objects): for the DPP with correlation kernel `K` described by the constructor arguments there is a constant
`C` such that, whatever calls were made on the object, for every `f` with values in `[-1, 1]`, a call
`sample_mcmc('AD', s_init=S, nb_iter=n)` from a set `S` of positive probability appends to `list_of_samples` a chain
along which the mean of `f` is within `ε` of its expectation under the DPP, with probability at least
`1 - C / (n ε^2)`. -/
theorem C115_object_add_delete (hd : Describes kt proj p K) (hs : ¬ SingularDual p)
    (hp : kt = "correlation" → proj = false ∧ p.AZono = none) {L : Mat N} (hL : LikelihoodOf L K) (hN : 0 < N) :
    ∃ C : ℝ, ∀ (o : Obj N Info), ReachableCalls env kt proj p o → ∀ (opts : McmcOpts), opts.tMax = none →
      0 < opts.nbIter → ∀ (size : Option ℕ) (S : List (Fin N)), S.Nodup → 0 < exactProb K S.toFinset →
      ∀ f : Finset (Fin N) → ℝ, (∀ S, |f S| ≤ 1) → ∀ ε > 0, 1 - C / (opts.nbIter * ε ^ 2) ≤
        (sampleMcmc (mcmcEnv env ⟨opts, some S⟩) o "AD" size).prob (MeanWithin f (∑ T, exactProb K T * f T) ε) := by
  have hpsd : L.PosSemidef := posSemidef hL.symm hL.nonneg
  have hw : ∀ S, exactProb K S = lDppProb L S := Verif.Lemmas.ExKer.exactProb_eq_lDppProb hL
  obtain ⟨C, h⟩ := C115_add_delete hN hpsd
  refine ⟨C, fun o hr opts ht hn size S hS hS0 f hf ε hε => ?_⟩
  have hk := known hqr heigh hd hr
  obtain ⟨o', he⟩ := ad_call hqr heigh hk hs hp hL opts size S
  have hv : ValidState L S := by
    refine ⟨hS, ?_⟩
    rw [hw, lDppProb] at hS0
    exact (div_pos_iff_of_pos_right (det_one_add_pos hpsd)).1 hS0
  refine (h f hf opts ht hn S hv ε hε).trans (le_of_eq ?_)
  rw [he, prob_mean _ _ _ _ _ fun c hc => ?_]
  · simp only [hw]
  · have := ad_length ht hc
    rintro rfl
    simp only [List.length_nil] at this
    omega

include hqr heigh in
/-- C115 (objects): the same for `sample_mcmc_k_dpp(size=k, s_init=S, nb_iter=n)` and the k-DPP, from a set `S` of `k`
items of positive probability. -/
theorem C115_object_k_dpp (hd : Describes kt proj p K) (hs : ¬ SingularDual p)
    (hp : kt = "correlation" → proj = false ∧ p.AZono = none) {L : Mat N} (hL : LikelihoodOf L K) {k : ℕ}
    (h0k : 0 < k) (hkN : k < N) :
    ∃ C : ℝ, ∀ (o : Obj N Info), ReachableCalls env kt proj p o → ∀ (opts : McmcOpts), opts.tMax = none →
      0 < opts.nbIter → ∀ (mode : String) (S : List (Fin N)), S.Nodup → 0 < kDppProb L k S.toFinset →
      ∀ f : Finset (Fin N) → ℝ, (∀ S, |f S| ≤ 1) → ∀ ε > 0, 1 - C / (opts.nbIter * ε ^ 2) ≤
        (sampleMcmcKDpp (mcmcEnv env ⟨opts, some S⟩) o k mode).prob (MeanWithin f (∑ T, kDppProb L k T * f T) ε) := by
  have hpsd : L.PosSemidef := posSemidef hL.symm hL.nonneg
  obtain ⟨C, h⟩ := C115_exchange h0k hkN hpsd
  refine ⟨C, fun o hr opts ht hn mode S hS hS0 f hf ε hε => ?_⟩
  have hk : Known kt proj p K { o with mode := "E", sizeK := k } :=
    (known hqr heigh hd hr).upd hqr heigh (.single (.book o "E" o.samples k o.info))
  obtain ⟨o', he⟩ := ex_call hqr heigh hk hs hp hL opts (some k) S
  have hl : S.length = k ∧ 0 < minor L S.toFinset := by
    rw [kDppProb] at hS0
    split at hS0
    · rename_i hc
      refine ⟨by rw [← hc, List.toFinset_card_of_nodup hS], ?_⟩
      by_contra hneg
      exact absurd hS0 (not_lt.2 (div_nonpos_of_nonpos_of_nonneg (not_lt.1 hneg)
        (Finset.sum_nonneg fun A _ => minor_nonneg hpsd A)))
    · exact absurd hS0 (lt_irrefl _)
  refine (h f hf opts ht hn S ⟨hS, hl.2⟩ hl.1 ε hε).trans (le_of_eq ?_)
  rw [sampleMcmcKDpp, he, prob_mean _ _ _ _ _ fun c hc => ?_]
  have := ex_length hn hc
  rintro rfl
  simp only [List.length_nil] at this
  omega

include hqr heigh in
/-- C115 (inclusion frequencies): for every set `T` of items, the fraction of the sets of the chain that contain `T` is
within `ε` of the minor `det K_T` of the correlation kernel with probability at least `1 - C / (n ε^2)`. -/
theorem C115_object_inclusion_frequency (hd : Describes kt proj p K) (hs : ¬ SingularDual p)
    (hp : kt = "correlation" → proj = false ∧ p.AZono = none) {L : Mat N} (hL : LikelihoodOf L K) (hN : 0 < N) :
    ∃ C : ℝ, ∀ (o : Obj N Info), ReachableCalls env kt proj p o → ∀ (opts : McmcOpts), opts.tMax = none →
      0 < opts.nbIter → ∀ (size : Option ℕ) (S : List (Fin N)), S.Nodup → 0 < exactProb K S.toFinset →
      ∀ T : Finset (Fin N), ∀ ε > 0, 1 - C / (opts.nbIter * ε ^ 2) ≤
        (sampleMcmc (mcmcEnv env ⟨opts, some S⟩) o "AD" size).prob
          (MeanWithin (fun A => if T ⊆ A then 1 else 0) (minor K T) ε) := by
  obtain ⟨C, h⟩ := C115_object_add_delete hqr heigh hd hs hp hL hN
  refine ⟨C, fun o hr opts ht hn size S hS hS0 T ε hε => ?_⟩
  have h1 := h o hr opts ht hn size S hS hS0 (fun A => if T ⊆ A then 1 else 0) (fun A => by split <;> simp) ε hε
  have h2 : ∑ A, exactProb K A * (if T ⊆ A then 1 else 0) = minor K T := by
    rw [← exactProb_superset]
    simp only [mul_ite, mul_one, mul_zero]
    rw [← Finset.sum_filter]
    refine Finset.sum_nbij' (fun A => A \ T) (fun A => A ∪ T) ?_ ?_ ?_ ?_ ?_
    · intro A _
      exact Finset.mem_powerset.2 (Finset.sdiff_subset_sdiff (Finset.subset_univ _) le_rfl)
    · intro A _
      exact Finset.mem_filter.2 ⟨Finset.mem_univ _, Finset.subset_union_right⟩
    · intro A hA
      exact Finset.sdiff_union_of_subset (Finset.mem_filter.1 hA).2
    · intro A hA
      rw [Finset.union_sdiff_right]
      refine Finset.sdiff_eq_self_of_disjoint (Finset.disjoint_left.2 fun x hx hT => ?_)
      exact (Finset.mem_sdiff.1 (Finset.mem_powerset.1 hA hx)).2 hT
    · intro A hA
      rw [Finset.sdiff_union_of_subset (Finset.mem_filter.1 hA).2]
  rwa [h2] at h1

include hqr heigh in
/-- C115 (objects): the same for `sample_mcmc('E', size=rank, s_init=S, nb_iter=n)` on a projection correlation kernel
and its DPP. -/
theorem C115_object_projection (hd : Describes "correlation" proj p K) (hp : proj = true ∨ p.AZono ≠ none) {r : ℕ}
    (htr : K.trace = (r : ℝ)) (h0r : 0 < r) (hrN : r < N) :
    ∃ C : ℝ, ∀ (o : Obj N Info), ReachableCalls env "correlation" proj p o → ∀ (opts : McmcOpts), opts.tMax = none →
      0 < opts.nbIter → ∀ (S : List (Fin N)), S.Nodup → 0 < exactProb K S.toFinset →
      ∀ f : Finset (Fin N) → ℝ, (∀ S, |f S| ≤ 1) → ∀ ε > 0, 1 - C / (opts.nbIter * ε ^ 2) ≤
        (sampleMcmc (mcmcEnv env ⟨opts, some S⟩) o "E" (some r)).prob (MeanWithin f (∑ T, exactProb K T * f T) ε) := by
  have hD : DescribesCorrelation proj p K := by
    rcases hd with ⟨-, h⟩ | ⟨h, -⟩
    · exact h
    · exact absurd h (by decide)
  have hP : IsProjection K := hD.proj hp
  have hs : ¬ SingularDual p := by
    rintro ⟨Phi, h, -⟩
    rw [hD.noL.2.2.1] at h
    cases h
  have hpsd : K.PosSemidef := posSemidef hD.valid.symm hD.valid.nonneg
  obtain ⟨C, h⟩ := C115_exchange h0r hrN hpsd
  have hw := kDppProb_rank heigh hP htr
  refine ⟨C, fun o hr opts ht hn S hS hS0 f hf ε hε => ?_⟩
  have hk := known hqr heigh hd hr
  obtain ⟨o', he⟩ := exK_call hqr heigh hk hs (fun _ => hp) rfl htr opts S
  rw [← hw] at hS0 ⊢
  have hl : S.length = r ∧ 0 < minor K S.toFinset := by
    rw [kDppProb] at hS0
    split at hS0
    · rename_i hc
      refine ⟨by rw [← hc, List.toFinset_card_of_nodup hS], ?_⟩
      by_contra hneg
      exact absurd hS0 (not_lt.2 (div_nonpos_of_nonpos_of_nonneg (not_lt.1 hneg)
        (Finset.sum_nonneg fun A _ => minor_nonneg hpsd A)))
    · exact absurd hS0 (lt_irrefl _)
  refine (h f hf opts ht hn S ⟨hS, hl.2⟩ hl.1 ε hε).trans (le_of_eq ?_)
  rw [he, prob_mean _ _ _ _ _ fun c hc => ?_]
  have := ex_length hn hc
  rintro rfl
  simp only [List.length_nil] at this
  omega

/-! ### concrete cases -/

/-- three independent items with inclusion probability 1/2, from the initial set `{0, 2}`: after `n` iterations the
fraction of the chain with item 1 is within `ε` of its expectation -/
example : ∃ C : ℝ, ∀ n : ℕ, ∀ ε > 0, 1 - C / ((n + 1 : ℕ) * ε ^ 2) ≤
    probOk (adSampler (1 : Mat 3) ⟨n + 1, none, fun _ => 0⟩ [0, 2]) fun chain =>
      |chainMean (fun A => if 1 ∈ A then 1 else 0) chain - ∑ T, lDppProb (1 : Mat 3) T * (if 1 ∈ T then 1 else 0)| < ε := by
  obtain ⟨C, h⟩ := C115_add_delete (K := (1 : Mat 3)) (by norm_num) Matrix.PosSemidef.one
  exact ⟨C, fun n ε hε => h _ (fun A => by split <;> simp) ⟨n + 1, none, fun _ => 0⟩ rfl (Nat.succ_pos n) [0, 2]
    ⟨by decide, by rw [minor_one]; norm_num⟩ ε hε⟩

/-- the hypotheses of `C115_exchange` are met by the projection kernel `K32` of rank two and the initial set `{0, 1}` -/
example : ∃ C : ℝ, ∀ n : ℕ, ∀ ε > 0, 1 - C / ((n + 1 : ℕ) * ε ^ 2) ≤
    probOk (exSampler K32 ⟨n + 1, none, fun _ => 0⟩ [0, 1]) fun chain =>
      |chainMean (fun A => if 1 ∈ A then 1 else 0) chain - ∑ T, kDppProb K32 2 T * (if 1 ∈ T then 1 else 0)| < ε := by
  have hD : DescribesCorrelation true { K := some (some K32) } K32 := by
    rcases K32_describes with ⟨-, h⟩ | ⟨h, -⟩
    · exact h
    · exact absurd h (by decide)
  obtain ⟨C, h⟩ := C115_exchange (K := K32) (k := 2) (by norm_num) (by norm_num)
    (posSemidef hD.valid.symm hD.valid.nonneg)
  have hv : ValidState K32 [0, 1] := by
    refine ⟨by decide, ?_⟩
    rw [← detL_minor (by decide), detL]
    refine lt_of_lt_of_eq (show (0 : ℝ) < 1 / 3 by norm_num) (Eq.symm ((Matrix.det_fin_two _).trans ?_))
    simp [K32]
    norm_num
  exact ⟨C, fun n ε hε => h _ (fun A => by split <;> simp) ⟨n + 1, none, fun _ => 0⟩ rfl (Nat.succ_pos n) [0, 1] hv rfl ε hε⟩

/-- on an object: two fair coins, after any calls, the fraction of the chain started from the empty set with the first
coin is close to `1/2` -/
example (env : Env 2 Unit) (hqr : QRSpec env.qr) (heigh : EighSpec env.eigh) : ∃ C : ℝ, ∀ (o : Obj 2 Unit),
    ReachableCalls env "likelihood" false pId o → ∀ n : ℕ, ∀ ε > 0, 1 - C / ((n + 1 : ℕ) * ε ^ 2) ≤
      (sampleMcmc (mcmcEnv env ⟨⟨n + 1, none, fun _ => 0⟩, some []⟩) o "AD" none).prob
        (MeanWithin (fun A => if {0} ⊆ A then 1 else 0) (1 / 2) ε) := by
  have hs : ¬ SingularDual pId := by
    rintro ⟨Phi, h, -⟩
    simp [pId] at h
  obtain ⟨C, h⟩ := C115_object_inclusion_frequency hqr heigh pId_describes hs (by decide) pId_likelihood (by norm_num)
  refine ⟨C, fun o hr n ε hε => ?_⟩
  have h1 := h o hr ⟨n + 1, none, fun _ => 0⟩ rfl (Nat.succ_pos n) none [] (by decide) (by rw [coins_prob]; norm_num)
    {0} ε hε
  have h2 : minor ((1 / 2 : ℝ) • (1 : Mat 2)) {0} = 1 / 2 := by
    rw [show ({0} : Finset (Fin 2)) = [0].toFinset from rfl, ← detL_minor (by decide), detL]
    refine (Matrix.det_fin_one _).trans ?_
    simp
  rwa [h2] at h1

end Verif.Props
