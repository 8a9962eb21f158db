import Verif.Spec.McmcSession
import Verif.Props.MCMC
import Verif.Props.MCMC2
import Verif.Props.FiniteHist
import Verif.Lemmas.ExKer
import Verif.Lemmas.Tilde

/-!
C112: `sample_mcmc` and `sample_mcmc_k_dpp` of `FiniteDPP` objects keep the law of the DPP the object describes,
whatever was done with the object before.
-/

namespace Verif.Props.McmcSession
open Verif Verif.Spec Verif.Model Verif.Props Matrix Relation

variable {N : ℕ} {Info : Type} {env : Env N Info} (hqr : QRSpec env.qr) (heigh : EighSpec env.eigh)
variable {kt : String} {proj : Bool} {p : Params N} {K : Mat N} {o : Obj N Info}

/-! ### histories -/

theorem upd_env {a : McmcArgs N} {o o' : Obj N Info} (h : Upd (mcmcEnv env a) o o') : Upd env o o' := by
  cases h with
  | book m s k i => exact .book o m s k i
  | epoly v E k hp hc hv hE => exact .epoly o v E k hp hc hv hE
  | setK v E hK hv hE => exact .setK o v E hK hv hE
  | setL v E hK h1 hv hE => exact .setL o v E hK h1 hv hE
  | gram v hK hv hE => exact .gram o v hK hv hE
  | evalL v hK hv hE => exact .evalL o v hK hv hE
  | kOfL v hk hv => exact .kOfL o v hk hv
  | lOfK v hc hl hv h1 => exact .lOfK o v hc hl hv h1
  | zono A hv hA => exact .zono o A hv hA
  | eighL A hk hl hL => exact .eighL o A hk hl hL
  | eighK A hk hl hL => exact .eighK o A hk hl hL
  | dual Phi clip hk hl hP => exact .dual o Phi clip hk hl hP
  | dualNeg Phi hP hn => exact .dualNeg o Phi hP hn

theorem upds_env {a : McmcArgs N} {o o' : Obj N Info} (h : ReflTransGen (Upd (mcmcEnv env a)) o o') :
    ReflTransGen (Upd env) o o' := ReflTransGen.mono (r := Upd (mcmcEnv env a)) (p := Upd env) (fun _ _ => upd_env) _ _ h

theorem runCalls_upd (cs : List (Cmd × McmcArgs N)) : ∀ (o : Obj N Info) (x), Mem (runCalls env cs o) x →
    ReflTransGen (Upd env) o x.1 := by
  induction cs with
  | nil => intro o x h; rw [runCalls, mem_ret] at h; subst h; exact .refl
  | cons c cs ih =>
    intro o x h
    rw [runCalls, mem_bind] at h
    obtain ⟨r, h1, h2⟩ := h
    rw [mem_map] at h2
    obtain ⟨q, h3, rfl⟩ := h2
    exact (upds_env (step_upd _ c.1 o r h1)).trans (ih _ q h3)

/-- what is known of an object after any calls -/
structure Known (kt : String) (proj : Bool) (p : Params N) (K : Mat N) (o : Obj N Info) : Prop where
  coh : Coh o K
  corr : o.corr = decide (kt = "correlation")
  proj : o.projection = (proj || p.AZono.isSome)
  dual : o.dual = p.LGramFactor.join.filter (fun Phi => decide (Phi.d < N))

include hqr heigh in
theorem known (hd : Describes kt proj p K) (hr : ReachableCalls env kt proj p o) : Known kt proj p K o := by
  obtain ⟨o0, h1, cs, rs, h2⟩ := hr
  obtain ⟨o0', h3, hc, _, _, _, a1, a2, a3, a4, a5, a6, a7, -⟩ := init_describes (Info := Info) hd
  rw [h1] at h3; cases h3
  have h4 := runCalls_upd cs o0 (o, rs) h2
  obtain ⟨b1, b2, b3, b4, b5, b6⟩ := upd_const hqr heigh h4
  exact ⟨hc.rtg hqr heigh h4, b1.trans a1, b2.trans a2, b5.trans a6⟩

include hqr heigh in
theorem Known.upd (h : Known kt proj p K o) {o' : Obj N Info} (hu : ReflTransGen (Upd env) o o') :
    Known kt proj p K o' := by
  obtain ⟨b1, b2, b3, b4, b5, b6⟩ := upd_const hqr heigh hu
  exact ⟨h.coh.rtg hqr heigh hu, b1.trans h.corr, b2.trans h.proj, b5.trans h.dual⟩

theorem Known.rank (h : Known kt proj p K o) (hs : ¬ SingularDual p) : ¬ RankDef o := by
  intro hr
  apply hs
  unfold RankDef at hr
  rw [h.dual] at hr
  obtain ⟨Phi, h1, h2⟩ := hr
  rw [Option.filter_eq_some_iff] at h1
  exact ⟨Phi, h1.1, by simpa using h1.2, h2⟩

theorem Known.cp (h : Known kt proj p K o) (hp : kt = "correlation" → proj = false ∧ p.AZono = none) :
    (o.corr && o.projection) = false := by
  rw [h.corr, h.proj]
  by_cases hk : kt = "correlation"
  · simp [hp hk]
  · simp [hk]

include hqr heigh in
/-- the kernel on which the chain is run -/
theorem computeL_known (h : Known kt proj p K o) (hs : ¬ SingularDual p)
    (hp : kt = "correlation" → proj = false ∧ p.AZono = none) (hdet : (1 - K).det ≠ 0) :
    ∃ o' L, computeL env o = (o', .ok ()) ∧ o'.L = some (.num L) ∧ LikelihoodOf L K := by
  rcases computeL_res hqr heigh h.coh (h.cp hp) with ⟨h1, h2, h3⟩ | ⟨h1, h2⟩
  · have hu := computeL_upd env o
    rcases he : computeL env o with ⟨o', r⟩
    rw [he] at h2 h3 hu
    simp only at h2 h3 hu
    subst h2
    obtain ⟨A, hA⟩ := Option.ne_none_iff_exists'.1 h3
    have hk := h.upd hqr heigh hu
    rcases hk.coh.L A hA with ⟨L, rfl, hL⟩ | ⟨_, h4, _⟩
    · exact ⟨o', L, rfl, hA, hL⟩
    · exact absurd h4 (hk.rank hs)
  · exact absurd h1 hdet

include hqr heigh in
theorem computeK_known (h : Known kt proj p K o) (hs : ¬ SingularDual p) :
    ∃ o', computeK env o = (o', .ok ()) ∧ o'.K = some (.num K) := by
  obtain ⟨o', h1, h2, h3⟩ := computeK_val hqr heigh h.coh
  have hu := computeK_upd env o
  rw [h1] at hu
  rcases h3 with h3 | ⟨_, h3⟩
  · exact ⟨o', h1, h3⟩
  · exact absurd h3 ((h.upd hqr heigh hu).rank hs)

/-! ### the chain recorded and the item returned -/

theorem prob_records (o : Obj N Info) (d : Dist ℝ (Outcome (List (List (Fin N))))) (j : ℕ) (T : Finset (Fin N)) :
    (recordChain o d).prob (Records j T) = probOk d (Visits j T) := by
  classical
  rw [Dist.prob_eq, probOk, Dist.prob_eq, recordChain, Dist.E_map]
  congr 1
  funext x
  refine if_congr ?_ rfl rfl
  cases x with
  | raise e => simp [Records]
  | ok c =>
    cases hc : c.getLast? with
    | none =>
      rw [List.getLast?_eq_none_iff] at hc
      subst hc
      simp [Records, Visits, Outcome.indexError]
    | some s => simp [Records, hc]

theorem prob_returns (o : Obj N Info) (d : Dist ℝ (Outcome (List (List (Fin N))))) (j : ℕ) (T : Finset (Fin N))
    (hlen : ∀ c, d.Possible (.ok c) → c.length = j + 1) :
    (recordChain o d).prob (GivesSet T) = probOk d (Visits j T) := by
  classical
  rw [Dist.prob_eq, probOk, Dist.prob_eq, recordChain, Dist.E_map]
  refine Dist.E_congr_possible fun x hx => ?_
  refine if_congr ?_ rfl rfl
  cases x with
  | raise e => simp [GivesSet]
  | ok c =>
    have hl := hlen c hx
    have hg : c.getLast? = c[j]? := by rw [List.getLast?_eq_getElem?, hl]; simp
    cases hc : c[j]? with
    | none => rw [List.getElem?_eq_none_iff] at hc; omega
    | some s => simp [GivesSet, Visits, hg, hc]

theorem sum_weights {c : ℝ} {w w' : Finset (Fin N) → ℝ} {f : Finset (Fin N) → ℝ}
    {T : Finset (Fin N)} (h : ∀ S, w S = w' S / c) (hsum : ∑ S, w' S * f S = w' T) : ∑ S, w S * f S = w T := by
  rw [h T, ← hsum, Finset.sum_div]
  exact Finset.sum_congr rfl fun S _ => by rw [h S]; ring

theorem init_some {α β : Type*} (a : α) (k : α → Dist ℝ (Outcome β)) :
    (Dist.ret (.ok a) : Dist ℝ (Outcome α)).andThen k = k a := by
  simp [Dist.andThen, Dist.bind, Dist.ret]

/-! ### the chains that are run -/

section ad
include hqr heigh

theorem ad_call (h : Known kt proj p K o) (hs : ¬ SingularDual p)
    (hp : kt = "correlation" → proj = false ∧ p.AZono = none) {L : Mat N} (hL : LikelihoodOf L K)
    (opts : McmcOpts) (size : Option ℕ) (S : List (Fin N)) :
    ∃ o', sampleMcmc (mcmcEnv env ⟨opts, some S⟩) o "AD" size = recordChain o' (adSampler L opts S) := by
  have h' : Known kt proj p K { o with mode := "AD" } :=
    h.upd hqr heigh (.single (.book o "AD" o.samples o.sizeK o.info))
  obtain ⟨o', L', h1, h2, h3⟩ := computeL_known (env := mcmcEnv env ⟨opts, some S⟩) hqr heigh h' hs hp hL.det_ne
  obtain rfl := h3.unique hL
  refine ⟨o', ?_⟩
  rw [sampleMcmc, sampleMcmcBody]
  simp only [show ("AD" = "zonotope") = False from by decide, show ("AD" = "E") = False from by decide, if_false,
    or_true, if_true, h1, h2]
  exact congrArg _ (by simp [mcmcEnv, mcmcOfArgs, mcmcSampler, withInit, init_some])

theorem ex_call (h : Known kt proj p K o) (hs : ¬ SingularDual p)
    (hp : kt = "correlation" → proj = false ∧ p.AZono = none) {L : Mat N} (hL : LikelihoodOf L K)
    (opts : McmcOpts) (size : Option ℕ) (S : List (Fin N)) :
    ∃ o', sampleMcmc (mcmcEnv env ⟨opts, some S⟩) o "E" size = recordChain o' (exSampler L opts S) := by
  have h' : Known kt proj p K { o with mode := "E" } :=
    h.upd hqr heigh (.single (.book o "E" o.samples o.sizeK o.info))
  obtain ⟨o', L', h1, h2, h3⟩ := computeL_known (env := mcmcEnv env ⟨opts, some S⟩) hqr heigh h' hs hp hL.det_ne
  obtain rfl := h3.unique hL
  refine ⟨o', ?_⟩
  rw [sampleMcmc, sampleMcmcBody]
  simp only [show ("E" = "zonotope") = False from by decide, if_false, if_true, h'.cp hp, h1, h2]
  rw [if_neg (by simp)]
  exact congrArg _ (by simp [mcmcEnv, mcmcOfArgs, mcmcSampler, withInit, init_some])

theorem aed_call (h : Known kt proj p K o) (hs : ¬ SingularDual p)
    (hp : kt = "correlation" → proj = false ∧ p.AZono = none) {L : Mat N} (hL : LikelihoodOf L K)
    (opts : McmcOpts) (size : Option ℕ) (S : List (Fin N)) :
    ∃ o', sampleMcmc (mcmcEnv env ⟨opts, some S⟩) o "AED" size = recordChain o' (aedSampler L opts S) := by
  have h' : Known kt proj p K { o with mode := "AED" } :=
    h.upd hqr heigh (.single (.book o "AED" o.samples o.sizeK o.info))
  obtain ⟨o', L', h1, h2, h3⟩ := computeL_known (env := mcmcEnv env ⟨opts, some S⟩) hqr heigh h' hs hp hL.det_ne
  obtain rfl := h3.unique hL
  refine ⟨o', ?_⟩
  rw [sampleMcmc, sampleMcmcBody]
  simp only [show ("AED" = "zonotope") = False from by decide, show ("AED" = "E") = False from by decide, if_false,
    true_or, if_true, h1, h2]
  exact congrArg _ (by simp [mcmcEnv, mcmcOfArgs, mcmcSampler, withInit, init_some])

theorem exK_call (h : Known kt proj p K o) (hs : ¬ SingularDual p)
    (hp : kt = "correlation" → proj = true ∨ p.AZono ≠ none) (hk : kt = "correlation") {r : ℕ}
    (hr : K.trace = (r : ℝ)) (opts : McmcOpts) (S : List (Fin N)) :
    ∃ o', sampleMcmc (mcmcEnv env ⟨opts, some S⟩) o "E" (some r) = recordChain o' (exSampler K opts S) := by
  have h' : Known kt proj p K { o with mode := "E" } :=
    h.upd hqr heigh (.single (.book o "E" o.samples o.sizeK o.info))
  obtain ⟨o', h1, h2⟩ := computeK_known (env := mcmcEnv env ⟨opts, some S⟩) hqr heigh h' hs
  have hcp : (o.corr && o.projection) = true := by
    rw [h.corr, h.proj, hk]
    rcases hp hk with hp | hp
    · simp [hp]
    · obtain ⟨A, hA⟩ := Option.ne_none_iff_exists'.1 hp
      simp [hA]
  refine ⟨o', ?_⟩
  rw [sampleMcmc, sampleMcmcBody]
  simp only [show ("E" = "zonotope") = False from by decide, if_false, if_true, hcp, h1, h2]
  rw [if_pos ⟨by simp [rintTr, rintTrace_eq hr], rfl⟩]
  exact congrArg _ (by simp [mcmcEnv, mcmcOfArgs, mcmcSampler, withInit, init_some])

end ad

theorem rep_length {rep : Finset (Fin N) → List (Fin N)} (hrep : ∀ S, (rep S).Nodup ∧ (rep S).toFinset = S)
    (S : Finset (Fin N)) : (rep S).length = S.card := by
  rw [← List.toFinset_card_of_nodup (hrep S).1, (hrep S).2]

theorem minors_nonneg {A : Mat N} (h1 : ∀ i j, A i j = A j i) (h2 : ∀ x : Fin N → ℝ, 0 ≤ ∑ i, ∑ j, x i * A i j * x j)
    (S : Finset (Fin N)) : 0 ≤ minor A S := by
  refine minor_nonneg (.of_dotProduct_mulVec_nonneg ?_ fun x => ?_) S
  · ext i j; simpa using h1 j i
  · have := h2 x
    simp only [star_trivial, dotProduct, mulVec, Finset.mul_sum]
    simpa only [mul_assoc] using this

theorem ad_length {L : Mat N} {opts : McmcOpts} (ht : opts.tMax = none) {S : List (Fin N)} {c : List (List (Fin N))}
    (h : (adSampler L opts S).Possible (.ok c)) : c.length = (max 1 opts.nbIter - 1) + 1 := by
  have := C36_length opts ht S c (Or.inl h)
  omega

theorem ex_length {L : Mat N} {opts : McmcOpts} (hn : 0 < opts.nbIter) {S : List (Fin N)} {c : List (List (Fin N))}
    (h : (exSampler L opts S).Possible (.ok c)) : c.length = (opts.nbIter - 1) + 1 := by
  have := (C36_exchange_length opts S _ h).2 c rfl
  omega

/-- a second call whose result depends on the set returned by the first one only -/
theorem law_bind {c : Call N Info} {P : Finset (Fin N) → ℝ} (h : Samples c P)
    (k : Obj N Info × Outcome (List (Fin N)) → Call N Info) (A : Obj N Info × Outcome (List (Fin N)) → Prop)
    (g : Finset (Fin N) → ℝ)
    (hk : ∀ r l, c.Possible r → r.2 = .ok l → l.Nodup → (k r).prob A = g l.toFinset) :
    (c.bind k).prob A = ∑ S, P S * g S := by
  classical
  rw [Dist.prob_eq, Dist.E_bind]
  have h1 : Dist.E c (fun r => Dist.E (k r) fun a => if A a then 1 else 0)
      = Dist.E c (fun r => ∑ S, (if (∃ l, r.2 = .ok l ∧ l.toFinset = S) then 1 else 0) * g S) := by
    refine Dist.E_congr_possible fun r hr => ?_
    obtain ⟨l, hl, hn⟩ := h.out r hr
    have := hk r l hr hl hn
    rw [Dist.prob_eq] at this
    rw [this]
    simp [hl]
  rw [h1, E_sum]
  refine Finset.sum_congr rfl fun S _ => ?_
  rw [Dist.E_mul_right, ← h.law S, Dist.prob_eq]

theorem exStep_full {L : Mat N} {s : St N} (hs : s.S.Nodup) (hl : s.S.length = N) (F : St N → ℝ) :
    Dist.E (exStep L N s) (lift F) = 1 / 2 * F s := by
  have ho : outside s.S = [] := (outside_ne_nil hs).2 hl
  rw [exStep, Dist.E_bind, Dist.E_bern_of_mem (by norm_num) (by norm_num)]
  simp only [if_true, Bool.false_eq_true, if_false, Dist.E_ret, ho, choiceO_nil]
  have : Dist.E ((choiceO (List.range N)).andThen fun sInd =>
      (Dist.ret .valueError : Dist ℝ (Outcome (Fin N))).andThen fun t =>
        if sInd < s.S.length then moveTo L s (s.S.set sInd t) 1 else Dist.ret .indexError) (lift F) = 0 := by
    rw [E_andThen]
    refine Dist.E_eq_zero fun x w _ => ?_
    cases x with
    | raise e => rfl
    | ok i => simp [lift, E_andThen, Outcome.valueError]
  rw [this]
  simp only [lift]
  norm_num

theorem exLoop_full {L : Mat N} {s : St N} (hs : s.S.Nodup) (hl : s.S.length = N) : ∀ (n it : ℕ)
    (G : List (St N) → ℝ), Dist.E (mcmcLoop (exStep L N) (fun _ => false) it n s) (lift G)
      = (1 / 2) ^ n * G (List.replicate n s) := by
  intro n
  induction n with
  | zero => intro it G; simp [mcmcLoop, lift]
  | succ n ih =>
    intro it G
    rw [mcmcLoop, E_andThen]
    simp only [Bool.false_eq_true, if_false]
    rw [exStep_full hs hl, E_andThen]
    have := ih (it + 1) fun l => G (s :: l)
    simp only [Dist.E_ret]
    rw [show (lift fun l => lift G (Outcome.ok (s :: l))) = lift fun l => G (s :: l) from rfl, this,
      List.replicate_succ]
    ring

/-- the exchange chain only depends on the set of the items of its initial list -/
theorem ex_set {L : Mat N} {opts : McmcOpts} (ht : opts.tMax = none) {S S' : List (Fin N)} (hS : S.Nodup)
    (hS' : S'.Nodup) (he : S.toFinset = S'.toFinset) {j : ℕ} (hj : j < opts.nbIter) (T : Finset (Fin N)) :
    probOk (exSampler L opts S) (Visits j T) = probOk (exSampler L opts S') (Visits j T) := by
  classical
  have hlen : S.length = S'.length := by
    rw [← List.toFinset_card_of_nodup hS, ← List.toFinset_card_of_nodup hS', he]
  have hle : S.length ≤ N := by simpa using hS.length_le_card
  rcases Nat.eq_zero_or_pos S.length with h0 | h0
  · rw [List.length_eq_zero_iff.1 h0, List.length_eq_zero_iff.1 (hlen.symm.trans h0)]
  rcases Nat.lt_or_ge S.length N with hN | hN
  · rw [exSampler_visits h0 hN ht hS rfl j hj, exSampler_visits h0 hN ht hS' hlen.symm j hj, he]
  · have hN : S.length = N := le_antisymm hle hN
    have main : ∀ {S : List (Fin N)}, S.Nodup → S.length = N →
        probOk (exSampler L opts S) (Visits j T) = (1 / 2) ^ (opts.nbIter - 1) * if S.toFinset = T then 1 else 0 := by
      intro S hS hl
      rw [probOk_eq, exSampler, if_neg (by omega), stopAt_none ht, Dist.E_map, hl]
      have : (fun a : Outcome (List (St N)) => lift (fun c => if Visits j T c then (1 : ℝ) else 0)
          (a.map fun l => S :: l.map St.S ++ List.replicate (opts.nbIter - 1 - l.length) (zeroRow S)))
          = lift fun l => if Visits j T (S :: l.map St.S ++ List.replicate (opts.nbIter - 1 - l.length) (zeroRow S))
            then 1 else 0 := by
        funext a; cases a <;> rfl
      rw [this, exLoop_full (s := stInit L S) hS hl]
      congr 1
      refine if_congr ?_ rfl rfl
      have hg : (S :: (List.replicate (opts.nbIter - 1) (stInit L S)).map St.S ++
          List.replicate (opts.nbIter - 1 - (List.replicate (opts.nbIter - 1) (stInit L S)).length) (zeroRow S))[j]?
          = some S := by
        simp only [List.map_replicate, List.length_replicate, Nat.sub_self, List.replicate_zero, List.append_nil]
        rw [show (S :: List.replicate (opts.nbIter - 1) (stInit L S).S) = List.replicate (opts.nbIter - 1 + 1) S from rfl,
          List.getElem?_replicate, if_pos (by omega)]
      unfold Visits
      rw [hg]
      simp
    rw [main hS hN, main hS' (hlen ▸ hN), he]

theorem toList_rep (S : Finset (Fin N)) : S.toList.Nodup ∧ S.toList.toFinset = S :=
  ⟨S.nodup_toList, S.toList_toFinset⟩

end Verif.Props.McmcSession

namespace Verif.Props
open Verif Verif.Spec Verif.Model Verif.Props.McmcSession Matrix Relation

variable {N : ℕ} {Info : Type} {env : Env N Info} (hqr : QRSpec env.qr) (heigh : EighSpec env.eigh)
variable {kt : String} {proj : Bool} {p : Params N} {K : Mat N} {o : Obj N Info}

include hqr heigh in
/-- C112: `sample_mcmc('AD', s_init=S)` on a `FiniteDPP` object, whatever calls were made on it before: if `S` is drawn
from the DPP with correlation kernel `K` the constructor arguments describe, then the set returned, and every entry of
the chain recorded, have the law of this DPP. -/
theorem C112_add_delete (hd : Describes kt proj p K) (hr : ReachableCalls env kt proj p o) (hs : ¬ SingularDual p)
    (hp : kt = "correlation" → proj = false ∧ p.AZono = none) (hdet : (1 - K).det ≠ 0) (hN : 0 < N)
    (opts : McmcOpts) (ht : opts.tMax = none) (size : Option ℕ) (rep : Finset (Fin N) → List (Fin N))
    (hrep : ∀ S, (rep S).Nodup ∧ (rep S).toFinset = S) (T : Finset (Fin N)) :
    ∑ S, exactProb K S * (sampleMcmc (mcmcEnv env ⟨opts, some (rep S)⟩) o "AD" size).prob (GivesSet T)
      = exactProb K T ∧
    ∀ j < max 1 opts.nbIter,
      ∑ S, exactProb K S * (sampleMcmc (mcmcEnv env ⟨opts, some (rep S)⟩) o "AD" size).prob (Records j T)
        = exactProb K T := by
  have hk := known hqr heigh hd hr
  obtain ⟨_, L, -, -, hL⟩ := computeL_known hqr heigh hk hs hp hdet
  have hpos : ∀ S, 0 ≤ minor L S := minors_nonneg hL.symm hL.nonneg
  have hw : ∀ S, exactProb K S = minor L S / (1 + L).det := Verif.Lemmas.ExKer.exactProb_eq_lDppProb hL
  have hst := fun j hj => C37_stationary hN hpos opts ht j hj rep hrep T
  refine ⟨sum_weights hw ?_, fun j hj => sum_weights hw ?_⟩
  · rw [← hst (max 1 opts.nbIter - 1) (by omega)]
    refine Finset.sum_congr rfl fun S _ => ?_
    obtain ⟨o', h⟩ := ad_call hqr heigh hk hs hp hL opts size (rep S)
    rw [h, prob_returns _ _ _ _ fun c => ad_length ht]
  · rw [← hst j hj]
    refine Finset.sum_congr rfl fun S _ => ?_
    obtain ⟨o', h⟩ := ad_call hqr heigh hk hs hp hL opts size (rep S)
    rw [h, prob_records]

include hqr heigh in
/-- C112: `sample_mcmc_k_dpp(size=k, s_init=S)`, whatever calls were made before: if `S` is drawn from the k-DPP of the
likelihood kernel `L`, then the set returned and every entry of the chain recorded have the law of this k-DPP. -/
theorem C112_k_dpp (hd : Describes kt proj p K) (hr : ReachableCalls env kt proj p o) (hs : ¬ SingularDual p)
    (hp : kt = "correlation" → proj = false ∧ p.AZono = none) {L : Mat N} (hL : LikelihoodOf L K) {k : ℕ}
    (h0k : 0 < k) (hkN : k < N) (opts : McmcOpts) (ht : opts.tMax = none) (hn : 0 < opts.nbIter) (mode : String)
    (rep : Finset (Fin N) → List (Fin N)) (hrep : ∀ S, (rep S).Nodup ∧ (rep S).toFinset = S) (T : Finset (Fin N)) :
    ∑ S, kDppProb L k S * (sampleMcmcKDpp (mcmcEnv env ⟨opts, some (rep S)⟩) o k mode).prob (GivesSet T)
      = kDppProb L k T ∧
    ∀ j < opts.nbIter,
      ∑ S, kDppProb L k S * (sampleMcmcKDpp (mcmcEnv env ⟨opts, some (rep S)⟩) o k mode).prob (Records j T)
        = kDppProb L k T := by
  have hk : Known kt proj p K { o with mode := "E", sizeK := k } :=
    (known hqr heigh hd hr).upd hqr heigh (.single (.book o "E" o.samples k o.info))
  have hpos : ∀ S, 0 ≤ minor L S := minors_nonneg hL.symm hL.nonneg
  have hst := fun j hj => C38_stationary hpos h0k hkN opts ht j hj rep hrep T
  refine ⟨?_, fun j hj => ?_⟩
  · rw [← hst (opts.nbIter - 1) (by omega)]
    refine Finset.sum_congr rfl fun S _ => ?_
    obtain ⟨o', h⟩ := ex_call hqr heigh hk hs hp hL opts (some k) (rep S)
    rw [sampleMcmcKDpp, h, prob_returns _ _ _ _ fun c => ex_length hn]
  · rw [← hst j hj]
    refine Finset.sum_congr rfl fun S _ => ?_
    obtain ⟨o', h⟩ := ex_call hqr heigh hk hs hp hL opts (some k) (rep S)
    rw [sampleMcmcKDpp, h, prob_records]

include hqr heigh in
/-- C112: `sample_mcmc('E', size=rank, s_init=S)` on a projection correlation kernel, whatever calls were made before:
the law of the projection DPP is kept. -/
theorem C112_projection (hd : Describes "correlation" proj p K) (hr : ReachableCalls env "correlation" proj p o)
    (hp : proj = true ∨ p.AZono ≠ none) {r : ℕ} (htr : K.trace = (r : ℝ))
    (h0r : 0 < r) (hrN : r < N) (opts : McmcOpts) (ht : opts.tMax = none) (hn : 0 < opts.nbIter)
    (rep : Finset (Fin N) → List (Fin N)) (hrep : ∀ S, (rep S).Nodup ∧ (rep S).toFinset = S) (T : Finset (Fin N)) :
    ∑ S, exactProb K S * (sampleMcmc (mcmcEnv env ⟨opts, some (rep S)⟩) o "E" (some r)).prob (GivesSet T)
      = exactProb K T ∧
    ∀ j < opts.nbIter,
      ∑ S, exactProb K S * (sampleMcmc (mcmcEnv env ⟨opts, some (rep S)⟩) o "E" (some r)).prob (Records j T)
        = exactProb K T := by
  have hk := known hqr heigh hd hr
  have hD : DescribesCorrelation proj p K := by
    rcases hd with ⟨-, h⟩ | ⟨h, -⟩
    · exact h
    · exact absurd h (by decide)
  have hP : IsProjection K := hD.proj hp
  have hs : ¬ SingularDual p := by
    rintro ⟨Phi, h, -⟩
    rw [hD.noL.2.2.1] at h
    cases h
  have hpos : ∀ S, 0 ≤ minor K S := minors_nonneg hD.valid.symm hD.valid.nonneg
  have hst := fun j hj => C38_stationary hpos h0r hrN opts ht j hj rep hrep T
  rw [← kDppProb_rank heigh hP htr]
  refine ⟨?_, fun j hj => ?_⟩
  · rw [← hst (opts.nbIter - 1) (by omega)]
    refine Finset.sum_congr rfl fun S _ => ?_
    obtain ⟨o', h⟩ := exK_call hqr heigh hk hs (fun _ => hp) rfl htr opts (rep S)
    rw [h, prob_returns _ _ _ _ fun c => ex_length hn]
  · rw [← hst j hj]
    refine Finset.sum_congr rfl fun S _ => ?_
    obtain ⟨o', h⟩ := exK_call hqr heigh hk hs (fun _ => hp) rfl htr opts (rep S)
    rw [h, prob_records]

include hqr heigh in
/-- C112: an exact sample followed by an add-delete chain started from it: `s = dpp.sample_exact(mode)`,
`dpp.sample_mcmc('AD', s_init=s)`.  If the exact sample has the law of the DPP (C31, C28, …) so has the set returned by
the chain, after any history. -/
theorem C112_exact_then_add_delete (hd : Describes kt proj p K) (hr : ReachableCalls env kt proj p o)
    (hs : ¬ SingularDual p) (hp : kt = "correlation" → proj = false ∧ p.AZono = none) (hdet : (1 - K).det ≠ 0)
    (hN : 0 < N) (opts : McmcOpts) (ht : opts.tMax = none) (size : Option ℕ) (exactMode : String)
    (hx : Samples (sampleExact env o exactMode) (exactProb K)) (T : Finset (Fin N)) :
    (exactThenMcmc env exactMode opts "AD" size o).prob (GivesSet T) = exactProb K T := by
  have hk := known hqr heigh hd hr
  obtain ⟨_, L, -, -, hL⟩ := computeL_known hqr heigh hk hs hp hdet
  have hm : max 1 opts.nbIter - 1 < max 1 opts.nbIter := by omega
  rw [exactThenMcmc, law_bind hx _ _
    (fun S => ((adKer L)^[max 1 opts.nbIter - 1] fun S => if S = T then 1 else 0) S)]
  · have h := (C112_add_delete hqr heigh hd hr hs hp hdet hN opts ht size _ toList_rep T).1
    rw [← h]
    refine Finset.sum_congr rfl fun S _ => ?_
    obtain ⟨o', h⟩ := ad_call hqr heigh hk hs hp hL opts size S.toList
    rw [h, prob_returns _ _ _ _ fun c => ad_length ht, adSampler_visits hN ht S.nodup_toList _ hm, S.toList_toFinset]
  · intro r l hpos hl hn
    obtain ⟨w, hw, -⟩ := hpos
    have hk' := hk.upd hqr heigh (sampleExact_upd env _ o exactMode r ⟨w, hw⟩)
    obtain ⟨o', h⟩ := ad_call hqr heigh hk' hs hp hL opts size l
    simp only [hl]
    rw [h, prob_returns _ _ _ _ fun c => ad_length ht, adSampler_visits hN ht hn _ hm]

include hqr heigh in
/-- C112: with the default mode of `sample_exact` there is nothing to assume on the first call. -/
theorem C112_exact_GS_then_add_delete (hd : Describes kt proj p K) (hr : ReachableCalls env kt proj p o)
    (hs : ¬ SingularDual p) (hp : kt = "correlation" → proj = false ∧ p.AZono = none) (hdet : (1 - K).det ≠ 0)
    (hN : 0 < N) (opts : McmcOpts) (ht : opts.tMax = none) (size : Option ℕ) (T : Finset (Fin N)) :
    (exactThenMcmc env "GS" opts "AD" size o).prob (GivesSet T) = exactProb K T :=
  C112_exact_then_add_delete hqr heigh hd hr hs hp hdet hN opts ht size "GS"
    (sampleExact_good hqr heigh (Or.inl rfl) (known hqr heigh hd hr).coh fun _ => rfl).samples T

include hqr heigh in
/-- C112: `s = dpp.sample_exact_k_dpp(k)`, `dpp.sample_mcmc_k_dpp(k, s_init=s)`: if the exact sample has the law of the
k-DPP (C31) so has the set returned by the chain. -/
theorem C112_exact_then_k_dpp (hd : Describes kt proj p K) (hr : ReachableCalls env kt proj p o)
    (hs : ¬ SingularDual p) (hp : kt = "correlation" → proj = false ∧ p.AZono = none) {L : Mat N}
    (hL : LikelihoodOf L K) {k : ℕ} (h0k : 0 < k) (hkN : k < N) (opts : McmcOpts) (ht : opts.tMax = none)
    (hn : 0 < opts.nbIter) (exactMode mode : String)
    (hx : Samples (sampleExactKDpp env o k exactMode) (kDppProb L k)) (T : Finset (Fin N)) :
    (exactThenMcmcKDpp env exactMode opts k mode o).prob (GivesSet T) = kDppProb L k T := by
  classical
  have hk := known hqr heigh hd hr
  have hm : opts.nbIter - 1 < opts.nbIter := by omega
  have book : ∀ {o : Obj N Info}, Known kt proj p K o → Known kt proj p K { o with mode := "E", sizeK := k } :=
    fun {o} h => h.upd hqr heigh (.single (.book o "E" o.samples k o.info))
  rw [exactThenMcmcKDpp, law_bind hx _ _ (fun S => probOk (exSampler L opts S.toList) (Visits (opts.nbIter - 1) T))]
  · have h := (C112_k_dpp hqr heigh hd hr hs hp hL h0k hkN opts ht hn mode _ toList_rep T).1
    rw [← h]
    refine Finset.sum_congr rfl fun S _ => ?_
    obtain ⟨o', h⟩ := ex_call hqr heigh (book hk) hs hp hL opts (some k) S.toList
    rw [sampleMcmcKDpp, h, prob_returns _ _ _ _ fun c => ex_length hn]
  · intro r l hpos hl hnd
    obtain ⟨w, hw, -⟩ := hpos
    have hk' := hk.upd hqr heigh (sampleExactKDpp_upd env _ o k exactMode r ⟨w, hw⟩)
    obtain ⟨o', h⟩ := ex_call hqr heigh (book hk') hs hp hL opts (some k) l
    simp only [hl]
    rw [sampleMcmcKDpp, h, prob_returns _ _ _ _ fun c => ex_length hn]
    exact ex_set ht hnd (toList_rep _).1 (toList_rep _).2.symm hm T

include hqr heigh in
/-- C112: from a set of the DPP (positive probability) `sample_mcmc('AD', s_init=S)` never raises and returns distinct
items that form a set of the DPP, after any history. -/
theorem C112_add_delete_outcome (hd : Describes kt proj p K) (hr : ReachableCalls env kt proj p o)
    (hs : ¬ SingularDual p) (hp : kt = "correlation" → proj = false ∧ p.AZono = none) (hdet : (1 - K).det ≠ 0)
    (hN : 0 < N) (opts : McmcOpts) (size : Option ℕ) {S : List (Fin N)} (hS : S.Nodup)
    (hS0 : 0 < exactProb K S.toFinset) (r) (h : (sampleMcmc (mcmcEnv env ⟨opts, some S⟩) o "AD" size).Possible r) :
    ∃ l, r.2 = .ok l ∧ l.Nodup ∧ 0 < exactProb K l.toFinset := by
  have hk := known hqr heigh hd hr
  obtain ⟨_, L, -, -, hL⟩ := computeL_known hqr heigh hk hs hp hdet
  have hpos : ∀ S, 0 ≤ minor L S := minors_nonneg hL.symm hL.nonneg
  have hw : ∀ S, exactProb K S = minor L S / (1 + L).det := Verif.Lemmas.ExKer.exactProb_eq_lDppProb hL
  have hD : 0 < (1 + L).det := by
    rw [hw] at hS0
    by_contra hn
    exact absurd hS0 (not_lt.2 (div_nonpos_of_nonneg_of_nonpos (hpos _) (not_lt.1 hn)))
  have hiff : ∀ S, 0 < exactProb K S ↔ 0 < minor L S := fun S => by rw [hw, div_pos_iff_of_pos_right hD]
  obtain ⟨o', he⟩ := ad_call hqr heigh hk hs hp hL opts size S
  rw [he, recordChain, Dist.Possible.map_iff] at h
  obtain ⟨x, hx, rfl⟩ := h
  cases x with
  | raise e => exact absurd hx (C35_add_delete_never_raises hN opts S e)
  | ok c =>
    obtain ⟨g1, g2, -⟩ := C35_add_delete opts (K := L) ⟨hS, (hiff _).1 hS0⟩ hx
    cases hc : c.getLast? with
    | none => rw [List.getLast?_eq_none_iff] at hc; subst hc; cases g1
    | some s =>
      have := g2 s (List.mem_of_getLast? hc)
      exact ⟨s, by simp only [hc], this.1, (hiff _).2 this.2⟩

include hqr heigh in
/-- C112 (refuted): the size given to `sample_mcmc_k_dpp` is not compared with that of the initial set: from a set of
another size (with items left outside) the call succeeds, whatever `k` is, with as many items as the initial set. -/
theorem C112_k_dpp_size_refuted (hd : Describes kt proj p K) (hr : ReachableCalls env kt proj p o)
    (hs : ¬ SingularDual p) (hp : kt = "correlation" → proj = false ∧ p.AZono = none) {L : Mat N}
    (hL : LikelihoodOf L K) (opts : McmcOpts) (ht : opts.tMax = none) (hn : 0 < opts.nbIter) (k : ℕ) (mode : String)
    {S : List (Fin N)} (hS : ValidState L S) (h0 : 0 < S.length) (h1 : S.length < N) (r)
    (h : (sampleMcmcKDpp (mcmcEnv env ⟨opts, some S⟩) o k mode).Possible r) :
    ∃ l, r.2 = .ok l ∧ l.length = S.length := by
  have hk : Known kt proj p K { o with mode := "E", sizeK := k } :=
    (known hqr heigh hd hr).upd hqr heigh (.single (.book o "E" o.samples k o.info))
  obtain ⟨o', he⟩ := ex_call hqr heigh hk hs hp hL opts (some k) S
  rw [sampleMcmcKDpp, he, recordChain, Dist.Possible.map_iff] at h
  obtain ⟨x, hx, rfl⟩ := h
  cases x with
  | raise e =>
    obtain ⟨-, h | h⟩ := C35_exchange_errors opts hn hS hx <;> omega
  | ok c =>
    obtain ⟨g1, g2, -⟩ := C35_exchange opts ht hS hx
    cases hc : c.getLast? with
    | none => rw [List.getLast?_eq_none_iff] at hc; subst hc; cases g1
    | some s => exact ⟨s, by simp only [hc], (g2 s (List.mem_of_getLast? hc)).2⟩

include hqr heigh in
/-- C112: when the DPP has no likelihood kernel (`det(I - K) = 0`, `K` not declared to be a projection) the chains
raise `FloatingPointError`, with or without initial set. -/
theorem C112_no_likelihood_kernel (hd : Describes kt proj p K) (hr : ReachableCalls env kt proj p o)
    (hp : kt = "correlation" → proj = false ∧ p.AZono = none) (hdet : (1 - K).det = 0) (a : McmcArgs N)
    {mode : String} (hm : mode = "AED" ∨ mode = "AD" ∨ mode = "E") (size : Option ℕ) :
    AlwaysRaises (sampleMcmc (mcmcEnv env a) o mode size) .floatingPointError := by
  have hk : Known kt proj p K { o with mode := mode } :=
    (known hqr heigh hd hr).upd hqr heigh (.single (.book o mode o.samples o.sizeK o.info))
  rcases he : computeL (mcmcEnv env a) { o with mode := mode } with ⟨o', x⟩
  have h2 : x = .raise .floatingPointError := by
    rcases computeL_res (env := mcmcEnv env a) hqr heigh hk.coh (hk.cp hp) with ⟨h1, -⟩ | ⟨-, h2⟩
    · exact absurd hdet h1
    · rw [he] at h2; exact h2
  subst h2
  refine ⟨o', ?_⟩
  have hcp := hk.cp hp
  rw [sampleMcmc, sampleMcmcBody]
  rcases hm with rfl | rfl | rfl
  · simp [he]
  · simp [he]
  · simp only [show ("E" = "zonotope") = False from by decide, if_false, if_true, he]
    rw [if_neg (by simpa using hcp)]

include hqr heigh in
/-- C112: on a projection correlation kernel, add-delete and add-exchange-delete raise `ValueError`, and so does the
exchange chain unless the size given is the rank (it must be given even when `s_init` is). -/
theorem C112_projection_errors (hd : Describes "correlation" proj p K)
    (hr : ReachableCalls env "correlation" proj p o) (hp : proj = true ∨ p.AZono ≠ none) {r : ℕ}
    (htr : K.trace = (r : ℝ)) (a : McmcArgs N) (size : Option ℕ) :
    AlwaysRaises (sampleMcmc (mcmcEnv env a) o "AD" size) .valueError ∧
    AlwaysRaises (sampleMcmc (mcmcEnv env a) o "AED" size) .valueError ∧
    (size ≠ some r → AlwaysRaises (sampleMcmc (mcmcEnv env a) o "E" size) .valueError) := by
  have hk0 := known hqr heigh hd hr
  have hk : ∀ m : String, Known "correlation" proj p K { o with mode := m } := fun m =>
    hk0.upd hqr heigh (.single (.book o m o.samples o.sizeK o.info))
  have hpj : o.projection = true := by
    rw [hk0.proj]
    rcases hp with hp | hp
    · simp [hp]
    · obtain ⟨A, hA⟩ := Option.ne_none_iff_exists'.1 hp
      simp [hA]
  have hc : o.corr = true := by rw [hk0.corr]; rfl
  have hL : ∀ m : String, computeL (mcmcEnv env a) { o with mode := m } = ({ o with mode := m }, .valueError) :=
    fun m => computeL_proj (env := mcmcEnv env a) hqr heigh (hk m).coh hc hpj
  have hs : ¬ SingularDual p := by
    rintro ⟨Phi, h, -⟩
    rcases hd with ⟨-, hd⟩ | ⟨h, -⟩
    · rw [hd.noL.2.2.1] at h; cases h
    · exact absurd h (by decide)
  refine ⟨⟨{ o with mode := "AD" }, ?_⟩, ⟨{ o with mode := "AED" }, ?_⟩, fun hsz => ?_⟩
  · rw [sampleMcmc, sampleMcmcBody]
    simp [hL, Outcome.valueError]
  · rw [sampleMcmc, sampleMcmcBody]
    simp [hL, Outcome.valueError]
  · obtain ⟨o', h1, h2⟩ := computeK_known (env := mcmcEnv env a) hqr heigh (hk "E") hs
    refine ⟨o', ?_⟩
    rw [sampleMcmc, sampleMcmcBody]
    have hcp : (o.corr && o.projection) = true := by rw [hc, hpj]; rfl
    simp only [show ("E" = "zonotope") = False from by decide, if_false, if_true, hcp, h1, h2]
    rw [if_neg]
    rintro ⟨h, hsome⟩
    obtain ⟨m, rfl⟩ := Option.isSome_iff_exists.1 hsome
    simp only [Option.map_some, rintTr, rintTrace_eq htr, Option.some.injEq] at h
    exact hsz (by rw [Option.some.injEq]; exact Int.ofNat.inj h)

/-! ### a concrete case: two fair coins, `L = I` -/

theorem coins_prob (S : Finset (Fin 2)) : exactProb ((1 / 2 : ℝ) • (1 : Mat 2)) S = 1 / 4 := by
  rw [Verif.Lemmas.ExKer.exactProb_eq_lDppProb pId_likelihood, lDppProb, minor_one, Matrix.det_fin_two]
  simp only [Matrix.add_apply, Matrix.one_apply]
  norm_num

/-- C112 (refuted for `'AED'`): on two fair coins (`L = I`, new object or not) one
iteration of `sample_mcmc('AED', s_init=S)` from an exact sample returns the empty set with probability `7/32`, not
`1/4`. -/
theorem C112_add_exchange_delete_refuted {env : Env 2 Info} {o : Obj 2 Info} (hqr : QRSpec env.qr)
    (heigh : EighSpec env.eigh) (hr : ReachableCalls env "likelihood" false pId o) (opts : McmcOpts)
    (ht : opts.tMax = none) (hn : opts.nbIter = 2) (size : Option ℕ) (rep : Finset (Fin 2) → List (Fin 2))
    (hrep : ∀ S, (rep S).Nodup ∧ (rep S).toFinset = S) :
    let K : Mat 2 := (1 / 2 : ℝ) • 1
    ∑ S, exactProb K S * (sampleMcmc (mcmcEnv env ⟨opts, some (rep S)⟩) o "AED" size).prob (GivesSet ∅) = 7 / 32 ∧
      exactProb K ∅ = 1 / 4 := by
  have hk := known hqr heigh pId_describes hr
  have hs : ¬ SingularDual pId := by
    rintro ⟨Phi, h, -⟩
    simp [pId] at h
  refine ⟨?_, coins_prob _⟩
  have h7 := C39_not_stationary_refuted opts ht hn rep hrep
  have : ∀ S, (sampleMcmc (mcmcEnv env ⟨opts, some (rep S)⟩) o "AED" size).prob (GivesSet ∅)
      = probOk (aedSampler 1 opts (rep S)) (Visits 1 ∅) := by
    intro S
    obtain ⟨o', h⟩ := aed_call hqr heigh hk hs (by decide) pId_likelihood opts size (rep S)
    rw [h, prob_returns _ _ 1 _ fun c hc => ?_]
    have := C36_length opts ht _ c (Or.inr hc)
    omega
  simp only [this, coins_prob]
  simp only [minor_one, one_mul] at h7
  rw [← Finset.mul_sum, h7]
  norm_num

/-- the object of two fair coins exists, and a history with MCMC calls and other calls can be run on it -/
example (env : Env 2 Unit) (hqr : QRSpec env.qr) (heigh : EighSpec env.eigh) :
    ∃ o0 : Obj 2 Unit, Obj.init "likelihood" (.bool false) pId = .ok o0 ∧
      ReachableCalls env "likelihood" false pId (computeK (mcmcEnv env ⟨⟨3, none, fun _ => 0⟩, none⟩) o0).1 ∧
      ∀ opts : McmcOpts, opts.tMax = none → ∀ T,
        (exactThenMcmc env "GS" opts "AD" none
          (computeK (mcmcEnv env ⟨⟨3, none, fun _ => 0⟩, none⟩) o0).1).prob (GivesSet T) = 1 / 4 := by
  obtain ⟨o0, ho, -⟩ := init_describes (Info := Unit) pId_describes
  have hr : ReachableCalls env "likelihood" false pId (computeK (mcmcEnv env ⟨⟨3, none, fun _ => 0⟩, none⟩) o0).1 := by
    refine ⟨o0, ho, [(.computeK, ⟨⟨3, none, fun _ => 0⟩, none⟩)], ?_⟩
    simp only [runCalls, step]
    exact ⟨_, 1, by simp [Dist.bind, Dist.ret, Dist.map]; rfl⟩
  refine ⟨o0, ho, hr, fun opts ht T => ?_⟩
  have hs : ¬ SingularDual pId := by
    rintro ⟨Phi, h, -⟩
    simp [pId] at h
  rw [C112_exact_GS_then_add_delete hqr heigh pId_describes hr hs (by decide) pId_likelihood.det_ne (by norm_num)
    opts ht none T, coins_prob]

/-- the exchange chain on the same coins: sets of one item -/
example (env : Env 2 Unit) (hqr : QRSpec env.qr) (heigh : EighSpec env.eigh) (opts : McmcOpts)
    (ht : opts.tMax = none) (hn : 0 < opts.nbIter) (T : Finset (Fin 2)) :
    ∃ o0 : Obj 2 Unit, Obj.init "likelihood" (.bool false) pId = .ok o0 ∧
      ∑ S, kDppProb 1 1 S * (sampleMcmcKDpp (mcmcEnv env ⟨opts, some S.toList⟩) o0 1 "E").prob (GivesSet T)
        = kDppProb 1 1 T := by
  obtain ⟨o0, ho, -⟩ := init_describes (Info := Unit) pId_describes
  have hs : ¬ SingularDual pId := by
    rintro ⟨Phi, h, -⟩
    simp [pId] at h
  exact ⟨o0, ho, (C112_k_dpp hqr heigh pId_describes ⟨o0, ho, [], [], ⟨1, by simp [runCalls, Dist.ret]⟩⟩ hs (by decide)
    pId_likelihood (by norm_num) (by norm_num) opts ht hn "E" _ toList_rep T).1⟩

/-- the exchange chain on a projection kernel of rank two (three items), after any calls -/
example (env : Env 3 Unit) (hqr : QRSpec env.qr) (heigh : EighSpec env.eigh) (o : Obj 3 Unit)
    (hr : ReachableCalls env "correlation" true { K := some (some K32) } o) (opts : McmcOpts)
    (ht : opts.tMax = none) (hn : 0 < opts.nbIter) (T : Finset (Fin 3)) :
    ∑ S, exactProb K32 S * (sampleMcmc (mcmcEnv env ⟨opts, some S.toList⟩) o "E" (some 2)).prob (GivesSet T)
      = exactProb K32 T :=
  (C112_projection hqr heigh K32_describes hr (Or.inl rfl) (by exact_mod_cast K32_trace) (by norm_num) (by norm_num)
    opts ht hn _ toList_rep T).1

end Verif.Props
