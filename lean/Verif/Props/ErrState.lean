import Verif.Lemmas.ErrProc
import Verif.Props.FiniteHist

/-!
C107: calls on one `FiniteDPP` object and the results of calls on the others
(`np.seterr(divide='raise')` acts on the whole process).
-/

set_option linter.unusedSectionVars false

namespace Verif.Props
open Verif Verif.Spec Verif.Model Verif.Dist Verif.Lemmas.Err Matrix Relation

section
variable {ι : Type} [DecidableEq ι] {n : ι → ℕ} {Info : Type} {env : ∀ i, Env (n i) Info}

/-- In the process, what happens to object `i` (its attributes, and the results of the calls made on
it) has the law it would have if the calls made on it were made in a process where there is no other
object: `runHist` is the model of a history of one object. -/
def Independent (env : ∀ i, Env (n i) Info) (cs : List (ι × Cmd)) (s : Proc n Info) (i : ι) : Prop :=
  ∀ f : Obj (n i) Info → List (Outcome (Option (List (Fin (n i))))) → ℝ,
    (runProc env cs s).E (fun s' => f (s'.obj i) (s'.log i))
      = (runHist (env i) (callsOn i cs) (s.obj i)).E (fun r => f r.1 (s.log i ++ r.2))

/-- C107: a call made while the error state of numpy is the default one has the effect described by the
model of a single object (C29, C30, C31), whatever the object. -/
theorem C107_default_state {N : ℕ} (env : Env N Info) (c : Cmd) (o : Obj N Info) :
    (stepE env c false o).map (fun r => (r.2.1, r.2.2)) = step env c o :=
  stepE_refines env c false o (by simp)

theorem safe_of_indep {N : ℕ} {env : Env N Info} (heigh : EighSpec env.eigh) {Phi : Rect N}
    (h : LinearIndependent ℝ Phi.a) (clip : Bool) : dualDivides env Phi clip = false := by
  obtain ⟨hW, hG⟩ := heigh Phi.d (fun k l => ∑ i, Phi.a k i * Phi.a l i)
    (fun k l => Finset.sum_congr rfl (fun _ _ => by ring))
  unfold dualDivides
  generalize env.eigh Phi.d (fun k l => ∑ i, Phi.a k i * Phi.a l i) = e at hW hG
  have h0 := dual_nonneg hW hG
  have hv : ∀ a, (if clip = true then max (e.1 a) 0 else e.1 a) = e.1 a := by
    intro a
    split
    · exact max_eq_left (h0 a)
    · rfl
  simp only [hv, decide_eq_false_iff_not, not_exists, not_and]
  intro a k ha
  exact absurd h (dual_dep hW hG a ha)

theorem div_of_dep {N : ℕ} {env : Env N Info} (heigh : EighSpec env.eigh) {Phi : Rect N}
    (h : ¬ LinearIndependent ℝ Phi.a) (clip : Bool) : dualDivides env Phi clip = true := by
  obtain ⟨hW, hG⟩ := heigh Phi.d (fun k l => ∑ i, Phi.a k i * Phi.a l i)
    (fun k l => Finset.sum_congr rfl (fun _ _ => by ring))
  unfold dualDivides
  generalize env.eigh Phi.d (fun k l => ∑ i, Phi.a k i * Phi.a l i) = e at hW hG
  have h0 := dual_nonneg hW hG
  have hv : ∀ a, (if clip = true then max (e.1 a) 0 else e.1 a) = e.1 a := by
    intro a
    split
    · exact max_eq_left (h0 a)
    · rfl
  simp only [hv, decide_eq_true_eq]
  rw [Fintype.linearIndependent_iff] at h
  push Not at h
  obtain ⟨g, hg, k, hk⟩ := h
  have hrow := rows_complete hW hG
  -- coordinates of `g` in the basis of eigenvectors
  have hex : ∃ a, ∑ l, e.2 l a * g l ≠ 0 := by
    by_contra hcon
    push Not at hcon
    apply hk
    have : ∑ l, (∑ a, e.2 k a * e.2 l a) * g l = g k := by
      simp only [hrow]
      simp
    rw [← this]
    simp only [Finset.sum_mul]
    rw [Finset.sum_comm]
    refine Finset.sum_eq_zero fun a _ => ?_
    have e1 : ∑ l, e.2 k a * e.2 l a * g l = e.2 k a * ∑ l, e.2 l a * g l := by
      rw [Finset.mul_sum]; exact Finset.sum_congr rfl fun _ _ => by ring
    rw [e1, hcon a, mul_zero]
  obtain ⟨a, ha⟩ := hex
  have hz : e.1 a = 0 := by
    have hgi : ∀ i, ∑ l, g l * Phi.a l i = 0 := by
      intro i
      have := congrFun hg i
      simpa [Finset.sum_apply] using this
    -- `Σ_k Σ_l W_ka G_kl g_l = 0 = θ_a Σ_l W_la g_l`
    have h1 : ∑ k, ∑ l, e.2 k a * (∑ i, Phi.a k i * Phi.a l i) * g l = 0 := by
      refine Finset.sum_eq_zero fun k _ => ?_
      have : ∑ l, e.2 k a * (∑ i, Phi.a k i * Phi.a l i) * g l
          = e.2 k a * ∑ i, Phi.a k i * ∑ l, g l * Phi.a l i := by
        simp only [Finset.mul_sum, Finset.sum_mul]
        rw [Finset.sum_comm]
        exact Finset.sum_congr rfl fun _ _ => Finset.sum_congr rfl fun _ _ => by ring
      rw [this]
      simp [hgi]
    have h2 : ∑ k, ∑ l, e.2 k a * (∑ i, Phi.a k i * Phi.a l i) * g l
        = e.1 a * ∑ l, e.2 l a * g l := by
      simp only [hG]
      have : ∀ k l, e.2 k a * (∑ b, e.1 b * e.2 k b * e.2 l b) * g l
          = ∑ b, (e.2 k a * e.2 k b) * (e.1 b * (e.2 l b * g l)) := by
        intro k l
        rw [Finset.mul_sum, Finset.sum_mul]
        exact Finset.sum_congr rfl fun _ _ => by ring
      simp only [this]
      have e2 : ∀ k, ∑ l, ∑ b, (e.2 k a * e.2 k b) * (e.1 b * (e.2 l b * g l))
          = ∑ b, (e.2 k a * e.2 k b) * (e.1 b * ∑ l, e.2 l b * g l) := by
        intro k
        rw [Finset.sum_comm]
        refine Finset.sum_congr rfl fun b _ => ?_
        rw [← Finset.mul_sum, ← Finset.mul_sum]
      simp only [e2]
      rw [Finset.sum_comm]
      have e3 : ∀ b, ∑ k, (e.2 k a * e.2 k b) * (e.1 b * ∑ l, e.2 l b * g l)
          = (if a = b then 1 else 0) * (e.1 b * ∑ l, e.2 l b * g l) := by
        intro b; rw [← Finset.sum_mul, hW]
      simp only [e3]
      simp
    rw [h2] at h1
    exact (mul_eq_zero.1 h1).resolve_right ha
  refine ⟨a, ?_⟩
  by_contra hcon
  push Not at hcon
  have := hW a a
  rw [if_pos rfl] at this
  have h3 : ∑ l, e.2 l a * e.2 l a = 0 := Finset.sum_eq_zero fun l _ => by rw [hcon l hz, zero_mul]
  rw [h3] at this
  exact zero_ne_one this

/-- C107 (valid part): an object that was not built from an `L_gram_factor` with fewer rows than items
and linearly dependent rows is not affected by the calls made on other objects, whatever these are and
whatever the error state. -/
theorem C107_full_rank_partial (hm : ∀ j, EnvMass (env j)) (i : ι) (heigh : EighSpec (env i).eigh)
    (s : Proc n Info) (hs : ∀ Phi, (s.obj i).dual = some Phi → LinearIndependent ℝ Phi.a)
    (cs : List (ι × Cmd)) : Independent env cs s i :=
  law_settled hm i cs s (Or.inl fun Phi hP clip => safe_of_indep heigh (hs Phi hP) clip)

/-- C107 (valid part): the same for any object whose eigenvalues were already computed. -/
theorem C107_eigenvalues_known_partial (hm : ∀ j, EnvMass (env j)) (i : ι) (s : Proc n Info)
    (hs : (s.obj i).Kvals ≠ none ∨ (s.obj i).Lvals ≠ none) (cs : List (ι × Cmd)) :
    Independent env cs s i :=
  law_settled hm i cs s (Or.inr hs)

/-- The object was just built from projection correlation data, or from likelihood data only. -/
def QuietInit {N : ℕ} (o : Obj N Info) : Prop :=
  (∃ p : Params N, Obj.init "correlation" (.bool true) p = .ok o) ∨
  ∃ (b : Bool) (p : Params N), Obj.init "likelihood" (.bool b) p = .ok o ∧
    p.K = none ∧ p.KEigDec = none ∧ p.AZono = none ∧
    (p.L.join ≠ none ∨ p.LEigDec.join ≠ none ∨ p.LGramFactor.join ≠ none ∨ p.LEvalXData.join ≠ none)

theorem checkKernel_some {N : ℕ} {b : Bool} {x y : Option (Mat N)} (h : checkKernel b x = .ok y) : y = x := by
  cases x with
  | none => cases h; rfl
  | some A =>
    obtain ⟨a, _, h⟩ := bind'_ok h
    split at h
    · cases h2 : isProjectionCheck A with
      | ok u => rw [h2] at h; cases h; rfl
      | raise e => rw [h2] at h; cases h
    · cases h; rfl

theorem checkLEig_some {N : ℕ} {b c : Bool} {x} {y : Option ((ℕ → ℝ) × EigVecs N)}
    (h : checkLEig b c x = .ok y) (hx : x ≠ none) : y ≠ none := by
  cases x with
  | none => exact absurd rfl hx
  | some A =>
    obtain ⟨a, _, h⟩ := bind'_ok h
    split at h
    · obtain ⟨a, _, h⟩ := bind'_ok h
      cases h; simp
    · cases h; simp

theorem QuietInit.quiet {N : ℕ} {o : Obj N Info} (h : QuietInit o) : Quiet o := by
  rcases h with ⟨p, h⟩ | ⟨b, p, h, h1, h2, h3, h4⟩
  · left
    obtain ⟨b, hb, h⟩ := bind'_ok h
    obtain ⟨_, _, h⟩ := bind'_ok h
    obtain ⟨_, _, h⟩ := bind'_ok h
    obtain ⟨_, _, h⟩ := bind'_ok h
    obtain ⟨_, _, h⟩ := bind'_ok h
    obtain ⟨_, _, h⟩ := bind'_ok h
    cases h
    have : b = true := by
      simp only [checkArgsCoherence, if_true] at hb
      split at hb
      · split at hb <;> cases hb <;> rfl
      · cases hb
    subst this
    simp
  · right
    obtain ⟨b', hb, h⟩ := bind'_ok h
    obtain ⟨K, hK, h⟩ := bind'_ok h
    obtain ⟨Kd, hKd, h⟩ := bind'_ok h
    obtain ⟨zo, hzo, h⟩ := bind'_ok h
    obtain ⟨L, hL, h⟩ := bind'_ok h
    obtain ⟨Ld, hLd, h⟩ := bind'_ok h
    cases h
    rw [h1] at hK
    rw [h2] at hKd
    rw [h3] at hzo
    cases hK; cases hKd; cases hzo
    have hL' := checkKernel_some hL
    subst hL'
    refine ⟨?_, rfl, by simp, by simp⟩
    rcases h4 with h4 | h4 | h4 | h4
    · left
      obtain ⟨A, hA⟩ := Option.ne_none_iff_exists'.1 h4
      simp only [hA]
      cases p.LGramFactor.join <;> simp
    · right; left
      have := checkLEig_some hLd h4
      simpa using this
    · right; right; left; exact h4
    · right; right; right; exact h4

/-- C107 (valid part): in a process in the default error state whose other objects are projection
correlation DPPs or likelihood DPPs, an object (of any kind) is not affected by the calls made on the
others. -/
theorem C107_quiet_others_partial (hm : ∀ j, EnvMass (env j)) (i : ι) (s : Proc n Info)
    (h0 : s.raises = false) (hq : ∀ j, j ≠ i → QuietInit (s.obj j)) (cs : List (ι × Cmd)) :
    Independent env cs s i :=
  law_quiet hm i cs s h0 fun j hj => (hq j hj).quiet

/-- C107: no call puts the error state back to the default. -/
theorem C107_never_reset (cs : List (ι × Cmd)) : ∀ (s : Proc n Info), s.raises = true →
    ∀ s', (runProc env cs s).Possible s' → s'.raises = true := by
  suffices h : ∀ (s : Proc n Info), s.raises = true → ∀ s', Mem (runProc env cs s) s' → s'.raises = true by
    intro s hs s' hp; exact h s hs s' (mem_of_possible hp)
  induction cs with
  | nil => intro s hs s' h; rw [runProc, mem_ret] at h; subst h; exact hs
  | cons jc cs ih =>
    obtain ⟨j, c⟩ := jc
    intro s hs s' h
    rw [runProc, mem_bind] at h
    obtain ⟨r, hr, h⟩ := h
    rw [hs] at hr
    exact ih _ (stepE_true (env j) c _ r hr) s' h

theorem runProc_mass (hm : ∀ j, EnvMass (env j)) (cs : List (ι × Cmd)) :
    ∀ (s : Proc n Info), (runProc env cs s).mass = 1 := by
  induction cs with
  | nil => intro s; exact ret_mass _
  | cons jc cs ih =>
    obtain ⟨j, c⟩ := jc
    intro s
    exact bind_mass (stepE_mass (hm j) c _ _) fun r => ih _

end

/-! ### the finding -/

section
variable {N : ℕ} {Info : Type} {env : Env N Info}

theorem init_corr {K : Mat N} {o : Obj N Info}
    (h : Obj.init "correlation" (.bool false) { K := some (some K) } = .ok o) :
    o.K = some (.num K) ∧ o.corr = true ∧ o.projection = false ∧ o.Kvals = none ∧ o.Lvals = none ∧
      o.L = none ∧ o.gram = none ∧ o.dual = none ∧ o.evalL = none := by
  obtain ⟨b, hb, h⟩ := bind'_ok h
  obtain ⟨K', hK, h⟩ := bind'_ok h
  obtain ⟨Kd, hKd, h⟩ := bind'_ok h
  obtain ⟨zo, hzo, h⟩ := bind'_ok h
  obtain ⟨L, hL, h⟩ := bind'_ok h
  obtain ⟨Ld, hLd, h⟩ := bind'_ok h
  cases h
  have h1 := checkKernel_some hK
  have h2 := checkKernel_some hL
  subst h1 h2
  cases hKd; cases hzo; cases hLd
  have : b = false := by
    simp [checkArgsCoherence] at hb
    exact hb
  subst this
  exact ⟨rfl, by simp, rfl, rfl, rfl, rfl, rfl, rfl, rfl⟩

theorem init_gram {Phi : Rect N} {o : Obj N Info} (hd : Phi.d < N)
    (h : Obj.init "likelihood" (.bool false) { LGramFactor := some (some Phi) } = .ok o) :
    o.dual = some Phi ∧ o.Kvals = none ∧ o.Lvals = none ∧ o.vecs = none := by
  obtain ⟨b, hb, h⟩ := bind'_ok h
  obtain ⟨K', hK, h⟩ := bind'_ok h
  obtain ⟨Kd, hKd, h⟩ := bind'_ok h
  obtain ⟨zo, hzo, h⟩ := bind'_ok h
  obtain ⟨L, hL, h⟩ := bind'_ok h
  obtain ⟨Ld, hLd, h⟩ := bind'_ok h
  cases h
  cases hKd; cases hLd
  exact ⟨by simp [hd], rfl, rfl, rfl⟩

/-- eigenvalues of a correlation kernel pass `is_in_01` -/
theorem eig_corr (hqr : QRSpec env.qr) (heigh : EighSpec env.eigh) {K : Mat N} (hK : IsCorrelation K) :
    ∃ v E, eighMat env (.num K) = .ok (v, E) ∧ someNotIn01 v E.M = false := by
  refine ⟨_, _, rfl, ?_⟩
  obtain ⟨h1, h2⟩ := heigh N K hK.symm
  refine someNotIn01_false fun a => ?_
  have hq : ∑ i, ∑ j, (env.eigh N K).2 i a * K i j * (env.eigh N K).2 j a = (env.eigh N K).1 a := by
    simp only [h2]
    have : ∀ i j, (env.eigh N K).2 i a *
        (∑ b, (env.eigh N K).1 b * (env.eigh N K).2 i b * (env.eigh N K).2 j b) * (env.eigh N K).2 j a
        = ∑ b, (env.eigh N K).1 b * ((env.eigh N K).2 i a * (env.eigh N K).2 i b) *
          ((env.eigh N K).2 j a * (env.eigh N K).2 j b) := by
      intro i j
      rw [Finset.mul_sum, Finset.sum_mul]
      exact Finset.sum_congr rfl fun _ _ => by ring
    simp only [this]
    have e2 : ∀ i, ∑ j, ∑ b, (env.eigh N K).1 b * ((env.eigh N K).2 i a * (env.eigh N K).2 i b) *
          ((env.eigh N K).2 j a * (env.eigh N K).2 j b)
        = ∑ b, (env.eigh N K).1 b * ((env.eigh N K).2 i a * (env.eigh N K).2 i b) * (if a = b then 1 else 0) := by
      intro i
      rw [Finset.sum_comm]
      refine Finset.sum_congr rfl fun b _ => ?_
      rw [← Finset.mul_sum, h1]
    simp only [e2]
    rw [Finset.sum_comm]
    simp only [mul_ite, mul_one, mul_zero]
    rw [Finset.sum_eq_single a]
    · simp only [if_true]
      rw [← Finset.mul_sum, h1, if_pos rfl, mul_one]
    · intro b _ hb
      simp [Ne.symm hb]
    · simp
  have hn : ∑ i, (env.eigh N K).2 i a * (env.eigh N K).2 i a = 1 := by rw [h1, if_pos rfl]
  rw [vecNat_val]
  constructor
  · rw [← hq]; exact hK.nonneg fun i => (env.eigh N K).2 i a
  · rw [← hq, ← hn]; exact hK.le_one fun i => (env.eigh N K).2 i a

/-- the calls on a correlation object that need the likelihood kernel -/
def NeedsL (c : Cmd) : Prop :=
  c = .computeL ∨ (∃ k, c = .exactK k "GS") ∨ (∃ size, c = .mcmc "AED" size) ∨ ∃ size, c = .mcmc "AD" size

theorem computeLE_sets (hqr : QRSpec env.qr) (heigh : EighSpec env.eigh) {K : Mat N} (hK : IsCorrelation K)
    {o : Obj N Info} (h1 : o.K = some (.num K)) (h2 : o.projection = false) (h3 : o.Kvals = none)
    (h4 : o.Lvals = none) (h5 : o.L = none) (h6 : o.gram = none) (h7 : o.evalL = none) (fl : Bool) :
    (computeLE env fl o).1 = true := by
  obtain ⟨v, E, he, hn⟩ := eig_corr hqr heigh hK
  unfold computeLE
  generalize hf : recLimit = f
  obtain _ | _ | f := f
  · simp [recLimit] at hf
  · simp [recLimit] at hf
  · rw [computeLFE]
    simp only [h5, h2, Bool.and_false, Bool.false_eq_true, if_false, h4, h6, h7, h3, h1, he, hn]
    rw [computeLFE]
    simp only [h5, h2, Bool.and_false, Bool.false_eq_true, if_false, h4, h6, h7]
    split
    · rfl
    · exact (compute_true env f _).2

theorem needsL_sets (hqr : QRSpec env.qr) (heigh : EighSpec env.eigh) {K : Mat N} (hK : IsCorrelation K)
    {o : Obj N Info} (ho : Obj.init "correlation" (.bool false) { K := some (some K) } = .ok o)
    {c : Cmd} (hc : NeedsL c) (fl : Bool) (r) (h : Mem (stepE env c fl o) r) : r.1 = true := by
  obtain ⟨h1, h8, h2, h3, h4, h5, h6, h9, h7⟩ := init_corr ho
  have hmc : ∀ mode size, mode = "AED" ∨ mode = "AD" → Mem (stepE env (.mcmc mode size) fl o) r → r.1 = true := by
    intro mode size hmode h
    rw [stepE, mem_map] at h
    obtain ⟨a, ha, rfl⟩ := h
    rw [sampleMcmcE, sampleMcmcBodyE] at ha
    have hset := computeLE_sets hqr heigh hK (o := { o with mode := mode }) h1 h2 h3 h4 h5 h6 h7 fl
    rw [if_neg (by rcases hmode with rfl | rfl <;> decide),
      if_neg (by rcases hmode with rfl | rfl <;> decide), if_pos hmode] at ha
    generalize computeLE env fl { o with mode := mode } = cl at ha hset
    obtain ⟨f, o', u | e⟩ := cl
    · simp only at hset ha
      subst hset
      split at ha
      · exact fl_with ha rfl
      · exact fl_ret ha rfl
    · exact fl_ret ha hset
  rcases hc with rfl | ⟨k, rfl⟩ | ⟨size, rfl⟩ | ⟨size, rfl⟩
  · rw [stepE, mem_ret] at h
    subst h
    exact computeLE_sets hqr heigh hK h1 h2 h3 h4 h5 h6 h7 fl
  · obtain ⟨v, E, he, hn⟩ := eig_corr hqr heigh hK
    rw [stepE, mem_map] at h
    obtain ⟨a, ha, rfl⟩ := h
    unfold sampleExactKDppE at ha
    generalize hf : recLimit = f at ha
    obtain _ | _ | f := f
    · simp [recLimit] at hf
    · simp [recLimit] at hf
    · rw [sampleExactKDppFE, sampleExactKDppBodyE] at ha
      simp only [show ("GS" = "vfx") = False by decide, show ("GS" = "alpha") = False by decide,
        if_false, h2, Bool.false_eq_true, h4, h3, h9, h5, h1, he, hn] at ha
      rw [sampleExactKDppFE, sampleExactKDppBodyE] at ha
      simp only [show ("GS" = "vfx") = False by decide, show ("GS" = "alpha") = False by decide,
        if_false, h2, Bool.false_eq_true, h4] at ha
      split at ha
      · exact fl_ret ha rfl
      · exact sampleExactKDppFE_true env k "GS" f _ a ha
  · exact hmc "AED" size (Or.inl rfl) h
  · exact hmc "AD" size (Or.inr rfl) h

theorem exactE_GS (fl : Bool) (o : Obj N Info) : ∃ f, sampleExactE env fl o "GS" =
    sampleExactBodyE env (fun fl o => sampleExactFE env (f + 1) fl o "GS") "GS" fl { o with mode := "GS" } :=
  ⟨998, rfl⟩

/-- first call in the state `raise` -/
theorem gram_raises (hqr : QRSpec env.qr) (heigh : EighSpec env.eigh) {Phi : Rect N}
    (hdep : ¬ LinearIndependent ℝ Phi.a) {o : Obj N Info} (h1 : o.dual = some Phi) (h2 : o.Kvals = none)
    (h3 : o.Lvals = none) :
    stepE env (.exact "GS") true o = Dist.ret (true,
      { o with mode := "GS", Lvals := some (dualEig env Phi true).1 }, .raise .floatingPointError) := by
  obtain ⟨f, hf⟩ := exactE_GS (env := env) true o
  rw [stepE, hf, sampleExactBodyE]
  simp only [show ("GS" = "Schur") = False by decide, show ("GS" = "Chol") = False by decide,
    show ("GS" = "vfx") = False by decide, show ("GS" = "alpha") = False by decide,
    if_false, h2, h3, h1, (dualEig_spec hqr heigh Phi true).1, Bool.false_eq_true,
    div_of_dep heigh hdep, Bool.and_self, if_true]
  rfl

/-- eigenvalues without eigenvectors: every call raises `TypeError` -/
theorem broken_raises (fl : Bool) {o : Obj N Info} (h1 : o.vecs = none)
    (h2 : o.Kvals ≠ none ∨ o.Lvals ≠ none) :
    ∃ o', stepE env (.exact "GS") fl o = Dist.ret (fl, o', .raise .typeError) ∧ o'.vecs = none ∧
      (o'.Kvals ≠ none ∨ o'.Lvals ≠ none) := by
  obtain ⟨f, hf⟩ := exactE_GS (env := env) fl o
  rw [stepE, hf, sampleExactBodyE]
  simp only [show ("GS" = "Schur") = False by decide, show ("GS" = "Chol") = False by decide,
    show ("GS" = "vfx") = False by decide, show ("GS" = "alpha") = False by decide, if_false]
  cases hk : o.Kvals with
  | some v =>
    simp only [h1]
    exact ⟨_, rfl, rfl, Or.inl (by simp)⟩
  | none =>
    cases hl : o.Lvals with
    | none => exact absurd h2 (by simp [hk, hl])
    | some v =>
      simp only
      rw [sampleExactFE, sampleExactBodyE]
      simp only [show ("GS" = "Schur") = False by decide, show ("GS" = "Chol") = False by decide,
        show ("GS" = "vfx") = False by decide, show ("GS" = "alpha") = False by decide, if_false, h1]
      exact ⟨_, rfl, rfl, Or.inl (by simp)⟩

end

section
variable {ι : Type} [DecidableEq ι] {n : ι → ℕ} {Info : Type} {env : ∀ i, Env (n i) Info}

theorem broken_hist {i : ι} (m : ℕ) : ∀ (s : Proc n Info), (s.obj i).vecs = none →
    ((s.obj i).Kvals ≠ none ∨ (s.obj i).Lvals ≠ none) →
    ∀ s', Mem (runProc env (List.replicate m (i, .exact "GS")) s) s' →
      s'.log i = s.log i ++ List.replicate m (.raise .typeError) := by
  induction m with
  | zero => intro s _ _ s' h; rw [List.replicate_zero, runProc, mem_ret] at h; subst h; simp
  | succ m ih =>
    intro s h1 h2 s' h
    rw [List.replicate_succ, runProc] at h
    obtain ⟨o', ho', h3, h4⟩ := broken_raises (env := env i) s.raises h1 h2
    rw [ho', mem_bind] at h
    obtain ⟨r, hr, h⟩ := h
    rw [mem_ret] at hr
    subst hr
    have e1 : (s.set i s.raises o' (.raise .typeError)).obj i = o' := by simp [Proc.set]
    have e2 : (s.set i s.raises o' (.raise .typeError)).log i = s.log i ++ [.raise .typeError] := by
      simp [Proc.set]
    have := ih (s.set i s.raises o' (.raise .typeError)) (by rw [e1]; exact h3) (by rw [e1]; exact h4) s' h
    rw [this, e2, List.replicate_succ]
    simp

/-- C107 (finding): results on one object depend on the calls made on another one.  Let `B` be a
likelihood DPP given by an `L_gram_factor` with fewer rows than items and linearly dependent rows, and
`A` a correlation DPP that is not a projection.  In a new process `B.sample_exact('GS')` returns a sample of the
right law.  If any call that needs the likelihood kernel of `A` (`compute_L`, `sample_exact_k_dpp`,
`sample_mcmc` in modes `AED` and `AD`) was made before, with success or not, `B.sample_exact('GS')`
raises `FloatingPointError`, and every later call on `B` raises `TypeError`. -/
theorem C107_refuted (hm : ∀ j, EnvMass (env j)) (hqr : ∀ j, QRSpec (env j).qr)
    (heigh : ∀ j, EighSpec (env j).eigh) {A B : ι} (hAB : A ≠ B) (s : Proc n Info)
    (h0 : s.raises = false) (hlog : s.log B = [])
    {K : Mat (n A)} (hK : IsCorrelation K)
    (hA : Obj.init "correlation" (.bool false) { K := some (some K) } = .ok (s.obj A))
    {Phi : Rect (n B)} (hd : Phi.d < n B) (hdep : ¬ LinearIndependent ℝ Phi.a)
    {KB : Mat (n B)} (hKB : Describes "likelihood" false { LGramFactor := some (some Phi) } KB)
    (hB : Obj.init "likelihood" (.bool false) { LGramFactor := some (some Phi) } = .ok (s.obj B))
    {c : Cmd} (hc : NeedsL c) (m : ℕ) :
    (∀ S, (runProc env [(B, .exact "GS")] s).prob
        (fun s' => ∃ l, s'.log B = [.ok (some l)] ∧ l.toFinset = S) = exactProb KB S) ∧
    (runProc env ((A, c) :: List.replicate (m + 1) (B, .exact "GS")) s).prob
        (fun s' => s'.log B = .raise .floatingPointError :: List.replicate m (.raise .typeError)) = 1 := by
  classical
  constructor
  · intro S
    have hreach : Reachable (env B) "likelihood" false { LGramFactor := some (some Phi) } (s.obj B) :=
      ⟨_, hB, [], [], by simp [runHist, Outcomes, Dist.ret]⟩
    have hlaw := (C31_sample_exact_law (hqr B) (heigh B) hKB hreach "GS" (Or.inl rfl)
      (fun h => absurd rfl h)).law S
    rw [← hlaw, runProc, prob_eq, prob_eq, E_bind, h0]
    simp only [runProc, E_ret]
    rw [stepE, E_map]
    have hr := sampleExactFE_refines (env B) "GS" recLimit false (s.obj B) (by simp)
    have hr' : (sampleExactE (env B) false (s.obj B) "GS").map Prod.snd = sampleExact (env B) (s.obj B) "GS" := hr
    rw [← hr', E_map]
    refine E_congr fun r w _ => ?_
    congr 1
    simp only [Proc.set, Function.update_self, hlog, List.nil_append, List.cons.injEq, and_true, eq_iff_iff]
    obtain ⟨fl, o', u | e⟩ := r
    · simp [Outcome.map]
    · simp [Outcome.map]
  · have hmass := runProc_mass hm ((A, c) :: List.replicate (m + 1) (B, .exact "GS")) s
    rw [Dist.mass] at hmass
    rw [prob_eq]
    refine Eq.trans (E_congr (g := fun _ => 1) fun s' w hs' => ?_) hmass
    refine if_pos ?_
    have hs : Mem (runProc env ((A, c) :: List.replicate (m + 1) (B, .exact "GS")) s) s' := ⟨w, hs'⟩
    rw [runProc, mem_bind] at hs
    obtain ⟨r, hr, hs⟩ := hs
    have hf := needsL_sets (hqr A) (heigh A) hK hA hc _ r hr
    obtain ⟨g1, g2, g3, g4⟩ := init_gram hd hB
    have e0 : (s.set A r.1 r.2.1 r.2.2).raises = true := hf
    have e1 : (s.set A r.1 r.2.1 r.2.2).obj B = s.obj B := by
      simp [Proc.set, Function.update_of_ne (Ne.symm hAB)]
    have e2 : (s.set A r.1 r.2.1 r.2.2).log B = [] := by
      simp [Proc.set, Function.update_of_ne (Ne.symm hAB), hlog]
    generalize s.set A r.1 r.2.1 r.2.2 = s1 at hs e0 e1 e2
    rw [List.replicate_succ, runProc, e0, e1, gram_raises (hqr B) (heigh B) hdep g1 g2 g3, mem_bind] at hs
    obtain ⟨r2, hr2, hs⟩ := hs
    rw [mem_ret] at hr2
    subst hr2
    have := broken_hist m _ (by simp [Proc.set, g4]) (by simp [Proc.set]) s' hs
    rw [this]
    simp [Proc.set, e2]

end

/-! ### the hypotheses of `C107_refuted` are met -/

/-- `Phi` with two equal rows `(1, 0, 0)` -/
noncomputable def eqRows : Rect 3 := { d := 2, a := fun _ i => if i = 0 then 1 else 0 }

/-- its correlation kernel, `diag(2/3, 0, 0)` -/
noncomputable def KEqRows : Mat 3 := fun i j => if i = 0 ∧ j = 0 then 2 / 3 else 0

theorem half_describes :
    Describes "correlation" false ({ K := some (some ((1 / 2 : ℝ) • (1 : Mat 3))) } : Params 3)
      ((1 / 2 : ℝ) • (1 : Mat 3)) := by
  refine Or.inl ⟨rfl, ?_⟩
  have hq : ∀ x : Fin 3 → ℝ, ∑ i, ∑ j, x i * ((1 / 2 : ℝ) • (1 : Mat 3)) i j * x j
      = (x 0 ^ 2 + x 1 ^ 2 + x 2 ^ 2) / 2 := by
    intro x
    simp [Fin.sum_univ_three, Matrix.one_apply]
    ring
  exact {
    valid := ⟨fun i j => by simp [Matrix.one_apply, eq_comm], fun x => by rw [hq]; positivity,
      fun x => by
        rw [hq, Fin.sum_univ_three]
        nlinarith [sq_nonneg (x 0), sq_nonneg (x 1), sq_nonneg (x 2)]⟩
    some_given := Or.inl (by simp)
    kernel := by intro A h; exact (Option.some.inj h).symm
    eig := by intro A h; simp at h
    zono := by intro A h; simp at h
    proj := by intro h; simp at h
    noL := ⟨rfl, rfl, rfl, rfl⟩ }

theorem eqRows_describes :
    Describes "likelihood" false ({ LGramFactor := some (some eqRows) } : Params 3) KEqRows := by
  have hg : ∀ i j : Fin 3, gramMat eqRows i j = if i = 0 ∧ j = 0 then 2 else 0 := by
    intro i j
    have : gramMat eqRows i j
        = ∑ _l : Fin 2, (if i = 0 then (1 : ℝ) else 0) * (if j = 0 then 1 else 0) := rfl
    rw [this]
    fin_cases i <;> fin_cases j <;> simp
  have hq : ∀ x : Fin 3 → ℝ, ∑ i, ∑ j, x i * gramMat eqRows i j * x j = 2 * x 0 ^ 2 := by
    intro x
    simp [Fin.sum_univ_three, hg]
    ring
  have hq' : ∀ x : Fin 3 → ℝ, ∑ i, ∑ j, x i * KEqRows i j * x j = 2 / 3 * x 0 ^ 2 := by
    intro x
    simp [Fin.sum_univ_three, KEqRows]
    ring
  have hs : ∀ i j, gramMat eqRows i j = gramMat eqRows j i := fun i j => by
    simp only [gramMat]
    exact Finset.sum_congr rfl fun _ _ => mul_comm _ _
  refine Or.inr ⟨rfl, gramMat eqRows, ?_, ?_, ?_⟩
  · exact {
      valid := ⟨hs, fun x => by rw [hq]; positivity⟩
      some_given := by right; right; left; simp
      kernel := by intro A h; simp at h
      eig := by intro A h; simp at h
      gram := by intro A h i j; simp at h; subst h; rfl
      eval := by intro A h; simp at h
      proj := by intro h; cases h
      noK := ⟨rfl, rfl, rfl⟩ }
  · refine ⟨fun i j => by simp [KEqRows, and_comm], fun x => by rw [hq']; positivity, fun x => ?_⟩
    rw [hq', Fin.sum_univ_three]
    nlinarith [sq_nonneg (x 0), sq_nonneg (x 1), sq_nonneg (x 2)]
  · refine ⟨⟨hs, fun x => by rw [hq]; positivity⟩, ?_⟩
    ext i j
    fin_cases i <;> fin_cases j <;>
      simp [Matrix.mul_apply, Fin.sum_univ_three, KEqRows, hg, Matrix.one_apply] <;> norm_num

/-- A process with two objects on three items: `A` the correlation DPP `K = I/2`, `B` the likelihood
DPP with two equal rows.  Alone, `B` returns `{0}` with probability `2/3`; after `A.compute_L()` the
first call raises `FloatingPointError` and the next two `TypeError`. -/
example : ∃ (env : Env 3 Unit) (s : Proc (fun _ : Bool => 3) Unit), s.raises = false ∧
    (runProc (fun _ => env) [(true, .exact "GS")] s).prob
        (fun s' => ∃ l, s'.log true = [.ok (some l)] ∧ l.toFinset = {0}) = exactProb KEqRows {0} ∧
    (runProc (fun _ => env) ((false, .computeL) :: List.replicate 3 (true, .exact "GS")) s).prob
        (fun s' => s'.log true = [.raise .floatingPointError, .raise .typeError, .raise .typeError]) = 1 := by
  obtain ⟨qr, hqr⟩ := exists_QRSpec 3
  obtain ⟨eigh, he⟩ := exists_EighSpec
  obtain ⟨oA, hA, -⟩ := init_describes (Info := Unit) half_describes
  obtain ⟨oB, hB, -⟩ := init_describes (Info := Unit) eqRows_describes
  let env : Env 3 Unit := { qr := qr, eigh := eigh, eps := 0, vfx := fun _ => Dist.ret .valueError, alpha := fun _ => Dist.ret .valueError, vfxK := fun _ _ => Dist.ret .valueError, alphaK := fun _ _ => Dist.ret .valueError, mcmc := fun _ _ _ => Dist.ret .valueError, zono := fun _ => Dist.ret .valueError }
  have hm : EnvMass env := ⟨fun _ => ret_mass _, fun _ => ret_mass _, fun _ _ => ret_mass _,
    fun _ _ => ret_mass _, fun _ _ _ => ret_mass _, fun _ => ret_mass _⟩
  have hK : IsCorrelation ((1 / 2 : ℝ) • (1 : Mat 3)) := by
    rcases half_describes with ⟨_, h⟩ | ⟨h, _⟩
    · exact h.valid
    · exact absurd h (by decide)
  have hdep : ¬ LinearIndependent ℝ eqRows.a := by
    intro h
    have h2 : (⟨0, Nat.zero_lt_two⟩ : Fin eqRows.d) = ⟨1, Nat.one_lt_two⟩ :=
      h.injective (show eqRows.a _ = eqRows.a _ from rfl)
    exact absurd (congrArg Fin.val h2) Nat.zero_ne_one
  have key := C107_refuted (env := fun _ : Bool => env) (n := fun _ => 3) (fun _ => hm) (fun _ => hqr)
    (fun _ => he) (A := false) (B := true) (by simp)
    { raises := false, obj := fun b => if b then oB else oA, log := fun _ => [] } rfl rfl hK hA
    (Phi := eqRows) (by simp [eqRows]) hdep eqRows_describes hB (c := .computeL) (Or.inl rfl) 2
  exact ⟨env, _, rfl, key.1 {0}, key.2⟩

end Verif.Props
