import Verif.Model.BetaEnsembles
import Verif.Lemmas.CMV

/-!
# C55, C56, C75, C76: the beta ensemble objects
-/

namespace Verif.Props
open Verif Verif.Model Verif.Lemmas Matrix

/-! ### C55: parameters round trip -/

/-- **C55** (Laguerre). For `beta > 0`: the shape recorded by the full model with sizes `N, M`, given to the banded model, makes
it record the same `M`, and the same shape; and the size recorded by the banded model with shape `k`, given back to it as `size_M`,
makes it record the same shape and run the same program as shape `k` and scale `2`, as soon as it is at least `N`. -/
theorem C55_laguerre_roundtrip {la : LA} {st : EnsSt} (hb : 0 < st.b) :
    (∀ {N M : ℕ} (st' : EnsSt), N ≤ M → st'.b = st.b →
      (laguerreBandedPrep la st' (laguerreFullPrep la st N M).1.params.shape 2 N none).1.params.sizeM = .num M ∧
      (laguerreBandedPrep la st' (laguerreFullPrep la st N M).1.params.shape 2 N none).1.params.shape
        = st.b / 2 * ((M : ℝ) - N + 1)) ∧
    (∀ {N : ℕ} {k θ : ℝ} (st' : EnsSt), 1 ≤ N → st'.b = st.b → st.b ≤ 2 * k →
      ∃ m, (laguerreBandedPrep la st k θ N none).1.params.sizeM = .num m ∧ m = 2 * k / st.b + N - 1 ∧
        (laguerreBandedPrep la st' 1 θ N (some m)).1.params.shape = k ∧
        (laguerreBandedPrep la st' 1 θ N (some m)).1.params.scale = 2 ∧
        (laguerreBandedPrep la st' 1 θ N (some m)).2 = laguerreBandedProg la st.b k 2 N) := by
  have hb' : st.b ≠ 0 := hb.ne'
  constructor
  · intro N M st' hNM hst
    simp only [laguerreBandedPrep, laguerreBandedPrep.laguerreBandedPrepNone, laguerreFullPrep, if_pos hNM, hst, if_pos hb]
    refine ⟨?_, by ring⟩
    congr 1
    field_simp
    ring
  · intro N k θ st' hN hst hk
    have hN' : (1 : ℝ) ≤ N := by exact_mod_cast hN
    have h1 : 1 ≤ 2 / st.b * k := by rw [div_mul_eq_mul_div, le_div_iff₀ hb]; linarith
    refine ⟨2 / st.b * k + N - 1, ?_, by ring, ?_⟩
    · simp [laguerreBandedPrep, laguerreBandedPrep.laguerreBandedPrepNone, hb]
    · have hne : ¬ (2 / st.b * k + N - 1 = 0) := by intro h; linarith
      have hge : (N : ℝ) ≤ 2 / st.b * k + N - 1 := by linarith
      have hval : 0.5 * st.b * (2 / st.b * k + N - 1 - N + 1) = k := by field_simp; ring
      simp only [laguerreBandedPrep, hst, if_neg hne, if_pos hge, hval, and_self]

/-- **C55** (limit of the round trip). When `2 k < beta` the size recorded by the banded Laguerre model is not accepted back:
`ValueError`. -/
theorem C55_small_shape_refuted {la : LA} {st : EnsSt} (hb : 0 < st.b) {N : ℕ} (hN : 2 ≤ N) {k θ : ℝ} (hk : 0 < k)
    (hlt : 2 * k < st.b) :
    ∃ m, (laguerreBandedPrep la st k θ N none).1.params.sizeM = .num m ∧
      (laguerreBandedPrep la st k θ N (some m)).2 = .fail .valueError := by
  have h1 : 2 / st.b * k < 1 := by rw [div_mul_eq_mul_div, div_lt_one hb]; linarith
  have h2 : 0 < 2 / st.b * k := by positivity
  have hN' : (2 : ℝ) ≤ N := by exact_mod_cast hN
  refine ⟨2 / st.b * k + N - 1, by simp [laguerreBandedPrep, laguerreBandedPrep.laguerreBandedPrepNone, hb], ?_⟩
  simp only [laguerreBandedPrep]
  rw [if_neg (by intro h; linarith), if_neg (by intro h; linarith)]

/-- **C55** (Jacobi): as for Laguerre, with the two sizes. -/
theorem C55_jacobi_roundtrip {la : LA} {st : EnsSt} (hb : 0 < st.b) :
    (∀ {N M1 M2 : ℕ} (st' : EnsSt), N ≤ M1 → N ≤ M2 → st'.b = st.b →
      (jacobiFullPrep la st N M1 M2).1.params.a = st.b / 2 * ((M1 : ℝ) - N + 1) ∧
      (jacobiFullPrep la st N M1 M2).1.params.b = st.b / 2 * ((M2 : ℝ) - N + 1) ∧
      (jacobiBandedPrep la st' (jacobiFullPrep la st N M1 M2).1.params.a (jacobiFullPrep la st N M1 M2).1.params.b N
          none none).1.params.sizeM1 = .num M1 ∧
      (jacobiBandedPrep la st' (jacobiFullPrep la st N M1 M2).1.params.a (jacobiFullPrep la st N M1 M2).1.params.b N
          none none).1.params.sizeM2 = .num M2) ∧
    (∀ {N : ℕ} {a b : ℝ} (st' : EnsSt), 1 ≤ N → st'.b = st.b → st.b ≤ 2 * a → st.b ≤ 2 * b →
      ∃ m1 m2, (jacobiBandedPrep la st a b N none none).1.params.sizeM1 = .num m1 ∧
        (jacobiBandedPrep la st a b N none none).1.params.sizeM2 = .num m2 ∧
        m1 = 2 * a / st.b + N - 1 ∧ m2 = 2 * b / st.b + N - 1 ∧
        (jacobiBandedPrep la st' 1 2 N (some m1) (some m2)).1.params.a = a ∧
        (jacobiBandedPrep la st' 1 2 N (some m1) (some m2)).1.params.b = b ∧
        (jacobiBandedPrep la st' 1 2 N (some m1) (some m2)).2 = jacobiBandedProg la st.b a b N) := by
  have hb' : st.b ≠ 0 := hb.ne'
  constructor
  · intro N M1 M2 st' h1 h2 hst
    simp only [jacobiBandedPrep, jacobiFullPrep, if_pos (And.intro h1 h2), bothSizes, hst, if_pos hb]
    refine ⟨by ring, by ring, ?_, ?_⟩ <;>
    · congr 1
      field_simp
      ring
  · intro N a b st' hN hst ha hb2
    have hN' : (1 : ℝ) ≤ N := by exact_mod_cast hN
    have h1 : 1 ≤ 2 / st.b * a := by rw [div_mul_eq_mul_div, le_div_iff₀ hb]; linarith
    have h2 : 1 ≤ 2 / st.b * b := by rw [div_mul_eq_mul_div, le_div_iff₀ hb]; linarith
    refine ⟨2 / st.b * a + N - 1, 2 / st.b * b + N - 1, by simp [jacobiBandedPrep, bothSizes, hb],
      by simp [jacobiBandedPrep, bothSizes, hb], by ring, by ring, ?_⟩
    have hne : ¬ (2 / st.b * a + N - 1 = 0 ∨ 2 / st.b * b + N - 1 = 0) := by
      rintro (h | h) <;> linarith
    have hge : (N : ℝ) ≤ 2 / st.b * a + N - 1 ∧ (N : ℝ) ≤ 2 / st.b * b + N - 1 := ⟨by linarith, by linarith⟩
    have hv1 : 0.5 * st.b * (2 / st.b * a + N - 1 - N + 1) = a := by field_simp; ring
    have hv2 : 0.5 * st.b * (2 / st.b * b + N - 1 - N + 1) = b := by field_simp; ring
    simp only [jacobiBandedPrep, bothSizes, if_neg hne, hst, if_pos hge, hv1, hv2, and_self]

/-- **C55** (one size only). When only one of `size_M1`, `size_M2` is given to the banded Jacobi model it is silently ignored: the
call does exactly what it does without it. -/
theorem C55_single_size_ignored {la : LA} {st : EnsSt} {a b m : ℝ} {N : ℕ} :
    jacobiBandedPrep la st a b N (some m) none = jacobiBandedPrep la st a b N none none ∧
    jacobiBandedPrep la st a b N none (some m) = jacobiBandedPrep la st a b N none none := ⟨rfl, rfl⟩

/-- the hypotheses are met: `beta = 2`, `N = 3`, shape `2` -/
example (la : LA) : ∃ st : EnsSt, ensInit .laguerre (.int 2) = .ok st ∧ 0 < st.b ∧ st.b ≤ 2 * 2 := by
  refine ⟨ensNew .laguerre (.int 2), ?_, ?_, ?_⟩
  · simp [ensInit, ensInitBase]
  · simp [EnsSt.b, ensNew, BetaVal.val]
  · simp [EnsSt.b, ensNew, BetaVal.val]

/-! ### C56: construction -/

/-- **C56** (refuted part). A negative `beta` does not raise `ValueError`: it raises `AttributeError`, for every class whose own
check lets it through. -/
theorem C56_negative_beta_refuted :
    (∀ kind, kind = .hermite ∨ kind = .laguerre ∨ kind = .jacobi → ∀ r : ℝ, r < 0 →
      ensInit kind (.float r) = .raise .attributeError) ∧
    (∀ kind, kind ≠ .ginibre → ∀ z : ℤ, z < 0 → ensInit kind (.int z) = .raise .attributeError) := by
  constructor
  · rintro kind (rfl | rfl | rfl) r hr <;>
    · rw [ensInit]
      · rw [ensInitBase, if_pos (by simpa using hr)]
      all_goals (intros; simp at *)
  · intro kind hk z hz
    cases kind
    case ginibre => exact absurd rfl hk
    all_goals
      rw [ensInit]
      · rw [ensInitBase, if_pos (by simpa using hz)]
      all_goals (intros; simp at *)

/-- what the documentation requires of `beta`: a number `>= 0`, an `int` for the circular class, `2` for the Ginibre class -/
def LegalBeta (kind : EnsKind) : BetaVal → Prop
  | .int z => 0 ≤ z ∧ (kind = .ginibre → z = 2)
  | .float r => 0 ≤ r ∧ kind ≠ .circular ∧ (kind = .ginibre → r = 2)
  | .nan => False

/-- **C56** (construction). An object is built exactly when `beta` is legal for the class; it then has this `beta` and no sample.
Otherwise `ValueError` or `AttributeError` is raised. -/
theorem C56_construction (kind : EnsKind) (beta : BetaVal) :
    (LegalBeta kind beta → ∃ st, ensInit kind beta = .ok st ∧ st.kind = kind ∧ st.beta = beta ∧ st.samples = [] ∧
      st.heap = []) ∧
    (¬ LegalBeta kind beta → ensInit kind beta = .raise .valueError ∨ ensInit kind beta = .raise .attributeError) := by
  constructor
  · intro h
    refine ⟨ensNew kind beta, ?_, rfl, rfl, rfl, rfl⟩
    cases beta with
    | int z =>
      obtain ⟨h0, h2⟩ := h
      cases kind
      case ginibre => simp [ensInit, ensInitBase, BetaVal.val, h2 rfl]
      all_goals simp [ensInit, ensInitBase, h0]
    | float r =>
      obtain ⟨h0, hc, h2⟩ := h
      cases kind
      case ginibre => simp [ensInit, ensInitBase, BetaVal.val, h2 rfl]
      case circular => exact absurd rfl hc
      all_goals simp [ensInit, ensInitBase, h0]
    | nan => exact h.elim
  · intro h
    cases beta with
    | int z =>
      by_cases h0 : 0 ≤ z
      · cases kind
        case ginibre =>
          have : z ≠ 2 := fun hz => h ⟨h0, fun _ => hz⟩
          have : (z : ℝ) ≠ 2 := by exact_mod_cast this
          simp [ensInit, BetaVal.val, this]
        all_goals exact absurd ⟨h0, by simp⟩ h
      · cases kind
        case ginibre =>
          have : (z : ℝ) ≠ 2 := by
            intro hz
            have : z = 2 := by exact_mod_cast hz
            omega
          simp [ensInit, BetaVal.val, this]
        all_goals simp [ensInit, ensInitBase]; omega
    | float r =>
      by_cases h0 : 0 ≤ r
      · cases kind
        case ginibre =>
          have : r ≠ 2 := fun hz => h ⟨h0, by simp, fun _ => hz⟩
          simp [ensInit, BetaVal.val, this]
        case circular => simp [ensInit]
        all_goals exact absurd ⟨h0, by simp, by simp⟩ h
      · cases kind
        case ginibre =>
          have : r ≠ 2 := by
            intro hz
            rw [hz] at h0
            norm_num at h0
          simp [ensInit, BetaVal.val, this]
        case circular => simp [ensInit]
        all_goals
          simp only [not_le] at h0
          simp [ensInit, ensInitBase, h0]
    | nan => cases kind <;> simp [ensInit, ensInitBase]

/-! ### C56: unsupported `beta` in the full models -/

theorem runs_map {α β : Type} (f : α → β) : ∀ (p : RP α) (o : Outcome β), (p.map f).Runs o → ∃ o', p.Runs o' ∧ o = o'.map f
  | .ret a, o, h => ⟨.ok a, rfl, h⟩
  | .fail e, o, h => ⟨.raise e, rfl, h⟩
  | .normal n l s k, o, h => by
    simp only [RP.map, RP.Runs] at h ⊢
    split_ifs at h ⊢ with hs
    · exact ⟨_, rfl, h⟩
    · obtain ⟨x, h⟩ := h
      obtain ⟨o', h1, h2⟩ := runs_map f (k x) o h
      exact ⟨o', ⟨x, h1⟩, h2⟩
  | .gamma n sh sc k, o, h => by
    simp only [RP.map, RP.Runs] at h ⊢
    split_ifs at h ⊢ with hs
    · exact ⟨_, rfl, h⟩
    · obtain ⟨x, hx, h⟩ := h
      obtain ⟨o', h1, h2⟩ := runs_map f (k x) o h
      exact ⟨o', ⟨x, hx, h1⟩, h2⟩
  | .beta n a b k, o, h => by
    simp only [RP.map, RP.Runs] at h ⊢
    split_ifs at h ⊢ with hs
    · exact ⟨_, rfl, h⟩
    · obtain ⟨x, hx, h⟩ := h
      obtain ⟨o', h1, h2⟩ := runs_map f (k x) o h
      exact ⟨o', ⟨x, hx, h1⟩, h2⟩
  | .unif n k, o, h => by
    simp only [RP.map, RP.Runs] at h ⊢
    obtain ⟨x, hx, h⟩ := h
    obtain ⟨o', h1, h2⟩ := runs_map f (k x) o h
    exact ⟨o', ⟨x, hx, h1⟩, h2⟩
  | .randint n k, o, h => by
    simp only [RP.map, RP.Runs] at h ⊢
    split_ifs at h ⊢ with hs
    · exact ⟨_, rfl, h⟩
    · obtain ⟨x, h⟩ := h
      obtain ⟨o', h1, h2⟩ := runs_map f (k x) o h
      exact ⟨o', ⟨x, h1⟩, h2⟩

theorem ginDraw_unsupported {beta : ℝ} (h1 : beta ≠ 1) (h2 : beta ≠ 2) (h4 : beta ≠ 4) {N M : ℕ} {α : Type}
    (k1 : Matrix (Fin N) (Fin M) ℂ → RP α) (k4 : Matrix (Fin N ⊕ Fin N) (Fin M ⊕ Fin M) ℂ → RP α) :
    ginDraw beta N M k1 k4 = .fail .valueError := by
  rw [ginDraw, if_neg h1, if_neg h2, if_neg h4]

/-- **C56** (full models). Whatever happened before, `sample_full_model` raises `ValueError` when `beta` is not `0, 1, 2, 4`
(Hermite, Laguerre, Jacobi, Circular), and nothing is recorded. -/
theorem C56_full_unsupported_beta {la : LA} {st : EnsSt} (hk : st.kind ≠ .ginibre) (h0 : st.b ≠ 0) (h1 : st.b ≠ 1)
    (h2 : st.b ≠ 2) (h4 : st.b ≠ 4) {N M1 M2 : ℕ} {mode : Haar} {r : EnsSt × Outcome EnsRet}
    (h : EnsStep la st (.full N M1 M2 mode) r) :
    r.2 = .raise .valueError ∧ r.1.samples = st.samples ∧ r.1.heap = st.heap := by
  have key : ∃ st', ensPrep la st (.full N M1 M2 mode) = some (st', .fail .valueError) ∧ st'.samples = st.samples ∧
      st'.heap = st.heap := by
    rcases hkk : st.kind with _ | _ | _ | _ | _
    · simp only [ensPrep, hkk, hermiteFullPrep, if_neg h0, hermiteSamplerFull, ginDraw_unsupported h1 h2 h4, RP.map]
      exact ⟨_, rfl, rfl, rfl⟩
    · simp only [ensPrep, hkk, laguerreFullPrep, if_neg h0, laguerreSamplerFull, ginDraw_unsupported h1 h2 h4, RP.map]
      split_ifs <;> exact ⟨_, rfl, rfl, rfl⟩
    · simp only [ensPrep, hkk, jacobiFullPrep, if_neg h0, jacobiSamplerFull, ginDraw_unsupported h1 h2 h4, RP.map]
      split_ifs <;> exact ⟨_, rfl, rfl, rfl⟩
    · simp only [ensPrep, hkk, circularFullPrep, if_neg h0]
      cases mode <;> simp only [circularSamplerFull, ginDraw_unsupported h1 h2 h4] <;> exact ⟨_, rfl, rfl, rfl⟩
    · exact absurd hkk hk
  obtain ⟨st', he, hs, hh⟩ := key
  cases h with
  | sample hp hr =>
    rw [he] at hp
    obtain ⟨rfl, rfl⟩ := Prod.mk.inj (Option.some.inj hp)
    simp only [RP.Runs] at hr
    subst hr
    exact ⟨rfl, hs, hh⟩

/-- the hypotheses are met by an object: `HermiteEnsemble(beta=3)` -/
example : ∃ st, ensInit .hermite (.int 3) = .ok st ∧ st.kind ≠ .ginibre ∧ st.b ≠ 0 ∧ st.b ≠ 1 ∧ st.b ≠ 2 ∧ st.b ≠ 4 := by
  refine ⟨ensNew .hermite (.int 3), by simp [ensInit, ensInitBase], by simp [ensNew], ?_⟩
  simp [EnsSt.b, ensNew, BetaVal.val]

/-! ### C56: recording -/

/-- the samples that should be recorded after a history: those returned by the successful sampling calls since the last flush,
in order -/
def expectedSamples : List (EnsCall × Outcome EnsRet) → List ℕ → List ℕ
  | [], acc => acc
  | (.full _ _ _ _, .ok (.array r)) :: h, acc => expectedSamples h (acc ++ [r])
  | (.banded _ _ _ _ _, .ok (.array r)) :: h, acc => expectedSamples h (acc ++ [r])
  | (.flush, _) :: h, _ => expectedSamples h []
  | _ :: h, acc => expectedSamples h acc

theorem prep_same {la : LA} {st st' : EnsSt} {c : EnsCall} {p : RP (List ℂ)} (h : ensPrep la st c = some (st', p)) :
    st'.samples = st.samples ∧ st'.heap = st.heap ∧ st'.kind = st.kind ∧ st'.beta = st.beta := by
  cases c with
  | full N M1 M2 m =>
    have h' := Option.some.inj h
    rcases hk : st.kind with _ | _ | _ | _ | _ <;> rw [hk] at h' <;> simp only at h'
    · obtain ⟨rfl, -⟩ := Prod.mk.inj h'; exact ⟨rfl, rfl, hk, rfl⟩
    · rw [laguerreFullPrep] at h'; split_ifs at h' <;> (obtain ⟨rfl, -⟩ := Prod.mk.inj h'; exact ⟨rfl, rfl, hk, rfl⟩)
    · rw [jacobiFullPrep] at h'; split_ifs at h' <;> (obtain ⟨rfl, -⟩ := Prod.mk.inj h'; exact ⟨rfl, rfl, hk, rfl⟩)
    · obtain ⟨rfl, -⟩ := Prod.mk.inj h'; exact ⟨rfl, rfl, hk, rfl⟩
    · obtain ⟨rfl, -⟩ := Prod.mk.inj h'; exact ⟨rfl, rfl, hk, rfl⟩
  | banded p q N M1 M2 =>
    have h' := Option.some.inj h
    rcases hk : st.kind with _ | _ | _ | _ | _ <;> rw [hk] at h' <;> simp only at h'
    · obtain ⟨rfl, -⟩ := Prod.mk.inj h'; exact ⟨rfl, rfl, hk, rfl⟩
    · cases M1 <;> simp only [laguerreBandedPrep, laguerreBandedPrep.laguerreBandedPrepNone] at h' <;> (try split_ifs at h') <;>
        (obtain ⟨rfl, -⟩ := Prod.mk.inj h'; exact ⟨rfl, rfl, hk, rfl⟩)
    · simp only [jacobiBandedPrep] at h'
      cases hbs : bothSizes M1 M2 <;> rw [hbs] at h' <;> simp only at h' <;> (try split_ifs at h') <;>
        (obtain ⟨rfl, -⟩ := Prod.mk.inj h'; exact ⟨rfl, rfl, hk, rfl⟩)
    · obtain ⟨rfl, -⟩ := Prod.mk.inj h'; exact ⟨rfl, rfl, hk, rfl⟩
    · obtain ⟨rfl, -⟩ := Prod.mk.inj h'; exact ⟨rfl, rfl, hk, rfl⟩
  | normalize => simp [ensPrep] at h
  | newArray => simp [ensPrep] at h
  | flush => simp [ensPrep] at h
  | display => simp [ensPrep] at h

theorem prep_is_sample {la : LA} {st : EnsSt} {c : EnsCall} {x : EnsSt × RP (List ℂ)} (h : ensPrep la st c = some x) :
    (∃ N M1 M2 m, c = .full N M1 M2 m) ∨ ∃ p q N M1 M2, c = .banded p q N M1 M2 := by
  cases c with
  | full N M1 M2 m => exact Or.inl ⟨_, _, _, _, rfl⟩
  | banded p q N M1 M2 => exact Or.inr ⟨_, _, _, _, _, rfl⟩
  | normalize => simp [ensPrep] at h
  | newArray => simp [ensPrep] at h
  | flush => simp [ensPrep] at h
  | display => simp [ensPrep] at h

theorem record_sound {la : LA} : ∀ {st st' : EnsSt} {h : List (EnsCall × Outcome EnsRet)}, EnsRun la st h st' →
    (st.samples.Pairwise (· < ·) ∧ ∀ r ∈ st.samples, r < st.heap.length) →
    st'.samples = expectedSamples h st.samples ∧ st'.samples.Pairwise (· < ·) ∧ ∀ r ∈ st'.samples, r < st'.heap.length := by
  intro st st' h hrun
  induction hrun with
  | nil st => intro hi; exact ⟨rfl, hi⟩
  | @cons st st1 st2 c r h hstep _ ih =>
    intro hi
    generalize hres : (st1, r) = res at hstep
    cases hstep with
    | @sample _ st' p o hp hr =>
      obtain ⟨e1, e2, -, -⟩ := prep_same hp
      cases o with
      | ok pts =>
        obtain ⟨rfl, rfl⟩ := Prod.mk.inj hres
        have hi' := ih ⟨by
            simp only [e1, e2]
            rw [List.pairwise_append]
            refine ⟨hi.1, List.pairwise_singleton _ _, ?_⟩
            intro a ha b hb
            rw [List.mem_singleton] at hb
            rw [hb]
            exact hi.2 a ha, by
            intro q hq
            simp only [e1, List.mem_append, List.mem_singleton] at hq
            simp only [e2, List.length_append, List.length_singleton]
            rcases hq with hq | rfl
            · exact (hi.2 q hq).trans (Nat.lt_succ_self _)
            · rw [e2]; exact Nat.lt_succ_self _⟩
        refine ⟨?_, hi'.2⟩
        rw [hi'.1]
        rcases prep_is_sample hp with ⟨_, _, _, _, rfl⟩ | ⟨_, _, _, _, _, rfl⟩ <;> simp only [expectedSamples, e1]
      | raise e =>
        obtain ⟨rfl, rfl⟩ := Prod.mk.inj hres
        have hi' := ih (by rw [e1, e2]; exact hi)
        refine ⟨?_, hi'.2⟩
        rw [hi'.1]
        rcases prep_is_sample hp with ⟨_, _, _, _, rfl⟩ | ⟨_, _, _, _, _, rfl⟩ <;> simp only [expectedSamples, e1]
    | normalize ref href =>
      have hs : st1.samples = st.samples ∧ st.heap.length ≤ st1.heap.length := by
        have : st1 = (ensNormalize st ref).1 := congrArg Prod.fst hres
        rw [this, ensNormalize]
        cases st.kind <;> simp
      have hi' := ih (by rw [hs.1]; exact ⟨hi.1, fun r hr => (hi.2 r hr).trans_le hs.2⟩)
      refine ⟨?_, hi'.2⟩
      rw [hi'.1, hs.1]
      simp only [expectedSamples]
    | newArray pts =>
      obtain ⟨rfl, rfl⟩ := Prod.mk.inj hres
      have hi' := ih ⟨hi.1, fun r hr => (hi.2 r hr).trans (by simp)⟩
      refine ⟨?_, hi'.2⟩
      rw [hi'.1]
      simp only [expectedSamples]
    | flush =>
      obtain ⟨rfl, rfl⟩ := Prod.mk.inj hres
      have hi' := ih ⟨by simp, by simp⟩
      refine ⟨?_, hi'.2⟩
      rw [hi'.1]
      simp only [expectedSamples]
    | display n =>
      obtain ⟨rfl, rfl⟩ := Prod.mk.inj hres
      have hi' := ih hi
      refine ⟨?_, hi'.2⟩
      rw [hi'.1]
      simp only [expectedSamples]

/-- **C56** (recording). After any history of calls on a new object, `list_of_samples` is exactly the list of arrays returned by the
successful sampling calls since the last `flush_samples`, in order, each once. -/
theorem C56_recorded_once {la : LA} {kind : EnsKind} {beta : BetaVal} {st st' : EnsSt}
    (hnew : ensInit kind beta = .ok st) {h : List (EnsCall × Outcome EnsRet)} (hrun : EnsRun la st h st') :
    st'.samples = expectedSamples h [] ∧ st'.samples.Nodup := by
  have hst : st.samples = [] := by
    by_cases hl : LegalBeta kind beta
    · obtain ⟨st0, h0, -, -, h1, -⟩ := (C56_construction kind beta).1 hl
      rw [hnew] at h0
      rw [Outcome.ok.inj h0, h1]
    · rcases (C56_construction kind beta).2 hl with h | h <;> rw [hnew] at h <;> cases h
  have := record_sound hrun (by rw [hst]; simp)
  rw [hst] at this
  exact ⟨this.1, this.2.1.imp (fun h => h.ne)⟩

end Verif.Props
