import Verif.Lemmas.FiniteSing
import Verif.Props.Projection

/-!
Properties of `FiniteDPP` objects over any history of method calls (C26-C31).

`Describes kt proj p K` (`Spec/Describes.lean`): the constructor arguments describe the DPP with
correlation kernel `K`.  `Reachable env kt proj p o` (`Spec/History.lean`): `o` is such an object after
any sequence of calls.
-/

namespace Verif.Props
open Verif Verif.Spec Verif.Model Matrix Relation

variable {N : ℕ} {Info : Type} {env : Env N Info} (hqr : QRSpec env.qr) (heigh : EighSpec env.eigh)
variable {kt : String} {proj : Bool} {p : Params N} {K : Mat N} {o : Obj N Info}

/-! ### C26: correlation and likelihood kernels -/

include hqr heigh in
/-- C26: on every reachable object `compute_K` succeeds and leaves in `K` the correlation kernel that
the constructor arguments describe (unless the dual kernel is singular, see C27). -/
theorem C26_compute_K (hd : Describes kt proj p K) (hr : Reachable env kt proj p o)
    (hs : ¬ SingularDual p) :
    (computeK env o).2 = .ok () ∧ (computeK env o).1.K = some (.num K) := by
  obtain ⟨o0, _, _, hc, _, _⟩ := reach hqr heigh hd hr
  obtain ⟨o', h1, h2, h3⟩ := computeK_val hqr heigh hc
  rw [h1]
  refine ⟨rfl, ?_⟩
  rcases h3 with h3 | ⟨_, h3⟩
  · exact h3
  · exfalso
    apply hs
    rw [← reach_rankDef hqr heigh hd hr]
    have hu := upd_const hqr heigh (computeK_upd env o)
    rw [h1] at hu
    obtain ⟨Phi, a, b⟩ := h3
    exact ⟨Phi, hu.2.2.2.2.1.symm.trans a, b⟩

include hqr heigh in
/-- C26: on every reachable object whose kernel is not declared to be a projection correlation kernel,
`compute_L` leaves in `L` the likelihood kernel of the DPP when `I - K` is invertible, and raises
`FloatingPointError` when the DPP has no likelihood kernel. -/
theorem C26_compute_L (hd : Describes kt proj p K) (hr : Reachable env kt proj p o)
    (hs : ¬ SingularDual p) (hp : kt = "correlation" → proj = false ∧ p.AZono = none) :
    ((1 - K).det ≠ 0 → (computeL env o).2 = .ok () ∧
      ∃ L, (computeL env o).1.L = some (.num L) ∧ LikelihoodOf L K) ∧
    ((1 - K).det = 0 → (computeL env o).2 = .raise .floatingPointError) := by
  obtain ⟨o0, _, _, hc, _, _⟩ := reach hqr heigh hd hr
  obtain ⟨c1, c2, _⟩ := reach_const hqr heigh hd hr
  have hcp : (o.corr && o.projection) = false := by
    rw [c1, c2]
    by_cases hk : kt = "correlation"
    · simp [hp hk]
    · simp [hk]
  rcases computeL_res hqr heigh hc hcp with ⟨h1, h2, h3⟩ | ⟨h1, h2⟩
  · refine ⟨fun _ => ⟨h2, ?_⟩, fun h => absurd h h1⟩
    obtain ⟨A, hA⟩ := Option.ne_none_iff_exists'.1 h3
    have hu := computeL_upd env o
    rcases (hc.rtg hqr heigh hu).L A hA with ⟨L, rfl, hL⟩ | ⟨_, h4, _⟩
    · exact ⟨L, hA, hL⟩
    · exfalso
      apply hs
      rw [← reach_rankDef hqr heigh hd hr]
      obtain ⟨Phi, a, b⟩ := h4
      exact ⟨Phi, (upd_const hqr heigh hu).2.2.2.2.1.symm.trans a, b⟩
  · exact ⟨fun h => absurd h1 h, fun _ => h2⟩

include hqr heigh in
/-- C26: a projection correlation kernel has no likelihood kernel; `compute_L` raises `ValueError` and
leaves the object unchanged. -/
theorem C26_compute_L_projection (hd : Describes "correlation" proj p K)
    (hr : Reachable env "correlation" proj p o) (hp : proj = true ∨ p.AZono ≠ none) :
    computeL env o = (o, .valueError) := by
  obtain ⟨o0, _, _, hc, _, _⟩ := reach hqr heigh hd hr
  obtain ⟨c1, c2, _⟩ := reach_const hqr heigh hd hr
  refine computeL_proj hqr heigh hc (by simpa using c1) ?_
  rw [c2]
  rcases hp with hp | hp
  · simp [hp]
  · obtain ⟨A, hA⟩ := Option.ne_none_iff_exists'.1 hp
    simp [hA]

omit env in
/-- C26: the correspondence is a bijection: `K = L (I + L)⁻¹`, `L = K (I - K)⁻¹`, each kernel
determines the other. -/
theorem C26_round_trip {L K : Mat N} (h : LikelihoodOf L K) :
    K = L * (1 + L)⁻¹ ∧ L = K * (1 - K)⁻¹ ∧ (1 - K).det ≠ 0 ∧
    (∀ L', LikelihoodOf L' K → L' = L) ∧ (∀ K', LikelihoodOf L K' → K' = K) := by
  have h1 : (1 + L)⁻¹ = 1 - K := Matrix.inv_eq_left_inv h.inv
  have h2 : (1 - K)⁻¹ = 1 + L := Matrix.inv_eq_left_inv h.inv'
  refine ⟨?_, ?_, h.det_ne, fun L' h' => h'.unique h, fun K' h' => h'.unique_K h⟩
  · rw [h1, h.rel']
  · rw [h2, h.rel]

include hqr heigh in
/-- C26: `compute_K` after a successful `compute_L` (or any other calls) gives back the kernel `K` the
object was defined with, and `compute_L` after any calls the kernel `L` it was defined with. -/
theorem C26_recovers (hd : Describes kt proj p K) (hr : Reachable env kt proj p o) :
    (∀ A, p.K.join = some A → A = K ∧ o.K = some (.num K)) ∧
    (∀ A, p.L.join = some A → o.L = some (.num A) ∧ LikelihoodOf A K) := by
  obtain ⟨o0, h1, hc0, hc, hu, hx⟩ := reach hqr heigh hd hr
  obtain ⟨o0', h3, _, _, _, _, _, _, h4, _, _, _, _, _, _, h5, _⟩ := init_describes (Info := Info) hd
  rw [h1] at h3; cases h3
  refine ⟨fun A hA => ?_, fun A hA => ?_⟩
  · rcases hd with ⟨_, hd⟩ | ⟨_, L, hd, _⟩
    · have := hd.kernel A hA; subst this
      exact ⟨rfl, hx.K _ (by rw [h4, hA]; rfl)⟩
    · rw [hd.noK.1] at hA; cases hA
  · rcases hd with ⟨_, hd⟩ | ⟨rfl, L, hd, hK, hLK⟩
    · rw [hd.noL.1] at hA; cases hA
    · have := hd.kernel A hA; subst this
      exact ⟨hx.L _ (h5 A hA), hLK⟩

/-! ### C27: dual representation -/

include hqr heigh in
/-- C27: eigenvalues and vectors that `sample_exact` and `sample_exact_k_dpp` (`clip` tells them apart)
reconstruct from the dual kernel `Φ Φᵀ`: the eigenvalues are non-negative, the vectors of the non-zero
ones are orthonormal eigenvectors of `L = Φᵀ Φ` and `L` is recovered from them; a column is NaN exactly
when its eigenvalue is zero. -/
theorem C27_dual_spectrum (Phi : Rect N) (clip : Bool) :
    let v := (dualEig env Phi clip).1
    let E := (dualEig env Phi clip).2
    (∀ a : Fin E.M, 0 ≤ v a) ∧
    (∀ a b : Fin E.M, v a ≠ 0 → v b ≠ 0 → ∑ i, E.u i a * E.u i b = if a = b then 1 else 0) ∧
    (∀ (a : Fin E.M) (i : Fin N), v a ≠ 0 →
      ∑ j, (∑ l, Phi.a l i * Phi.a l j) * E.u j a = v a * E.u i a) ∧
    (∀ i j, ∑ l, Phi.a l i * Phi.a l j = ∑ a : Fin E.M, v a * E.u i a * E.u j a) ∧
    (∀ a : Fin E.M, E.bad a = true ↔ v a = 0) := by
  obtain ⟨_, h1, h2, h3, _⟩ := dualEig_spec hqr heigh Phi clip
  have hrec : ∀ i j, ∑ l, Phi.a l i * Phi.a l j
      = ∑ a : Fin (dualEig env Phi clip).2.M, (dualEig env Phi clip).1 a *
        (dualEig env Phi clip).2.u i a * (dualEig env Phi clip).2.u j a := by
    intro i j
    have := congrFun (congrFun h3 i) j
    simp only [kerOf, ker, Matrix.of_apply, gramMat] at this
    exact this.symm
  refine ⟨h2, h1.orth, ?_, hrec, fun a => ⟨h1.bad a, fun h => ?_⟩⟩
  rotate_left
  · simp only [dualEig, decide_eq_true_eq] at h ⊢
    exact (vecNat_val (M := Phi.d) _ a).symm.le.trans h.le
  intro a i ha
  simp only [hrec, Finset.sum_mul]
  rw [Finset.sum_comm]
  rw [Finset.sum_eq_single a]
  · have := h1.orth a a ha ha
    rw [if_pos rfl] at this
    calc _ = (dualEig env Phi clip).1 a * (dualEig env Phi clip).2.u i a *
          ∑ j, (dualEig env Phi clip).2.u j a * (dualEig env Phi clip).2.u j a := by
            rw [Finset.mul_sum]; exact Finset.sum_congr rfl (fun j _ => by ring)
      _ = _ := by rw [this, mul_one]
  · intro b _ hb
    by_cases hvb : (dualEig env Phi clip).1 b = 0
    · simp [hvb]
    · have := h1.orth b a hvb ha
      rw [if_neg hb] at this
      calc _ = (dualEig env Phi clip).1 b * (dualEig env Phi clip).2.u i b *
            ∑ j, (dualEig env Phi clip).2.u j b * (dualEig env Phi clip).2.u j a := by
              rw [Finset.mul_sum]; exact Finset.sum_congr rfl (fun j _ => by ring)
        _ = 0 := by rw [this, mul_zero]
  · intro h; exact absurd (Finset.mem_univ a) h

include hqr heigh in
/-- C27 (finding): when the rows of `L_gram_factor` are dependent (`d < N`), a call of
`sample_exact('GS')` poisons the object: from then on `compute_K` gives a kernel full of NaN, and
`sample_exact('Chol')` always returns the empty sample. -/
theorem C27_singular_dual_refuted (hd : Describes "likelihood" false p K) (hs : SingularDual p)
    (hE : p.LEigDec.join = none) {o0 : Obj N Info}
    (h0 : Obj.init "likelihood" (.bool false) p = .ok o0) (x)
    (hx : Outcomes (sampleExact env o0 "GS") x) :
    (computeK env x.1).1.K = some .nan ∧
    (sampleExact env x.1 "Chol").prob (fun r => r.2 = .ok []) = 1 := by
  obtain ⟨o0', h3, hc, hep, hsm, hinfo, a1, a2, a3, a4, a5, a6, a7, a8, a9, -⟩ :=
    init_describes (Info := Info) hd
  rw [h0] at h3; cases h3
  obtain ⟨Phi, hP, hdN, hdep⟩ := hs
  have hnoK : p.K = none ∧ p.KEigDec = none ∧ p.AZono = none := by
    rcases hd with ⟨h, _⟩ | ⟨_, L, h, _⟩
    · simp at h
    · exact h.noK
  have hdual : o0.dual = some Phi := by
    rw [a6, hP, Option.filter_eq_some_iff]
    exact ⟨rfl, by simpa using hdN⟩
  obtain ⟨b1, b2, b3, b4, b5⟩ := dual_path hqr heigh (by rw [a8, hnoK.2.1]; rfl) (by rw [a9, hE]; rfl)
    hdual x hx
  have hK : x.1.K = none := by rw [b3, a3, hnoK.1]; rfl
  have hbad := dual_bad heigh Phi true hdep
  have hcorr : x.1.corr = false := by rw [b4, a1]; rfl
  refine ⟨by rw [computeK_nan hK b1 b2 hbad], ?_⟩
  obtain ⟨o', h⟩ := sampleExact_chol_nan (env := env) hK b1 b2 hbad hcorr
  rw [h]
  simp [Dist.prob, Dist.ret, Dist.E]

/-- `L_gram_factor` with two equal rows for three items: `L = diag(2, 0, 0)`. -/
noncomputable def PhiSing : Params 3 :=
  { LGramFactor := some (some ⟨2, fun _ i => if i = 0 then 1 else 0⟩) }

omit env in
/-- the hypotheses of the finding are met by `PhiSing` -/
theorem PhiSing_describes : ∃ K, Describes "likelihood" false PhiSing K := by
  refine ⟨Matrix.diagonal ![2 / 3, 0, 0], Or.inr ⟨rfl, Matrix.diagonal ![2, 0, 0], ?_, ?_, ?_⟩⟩
  · have hL : ∀ x : Fin 3 → ℝ, ∑ i, ∑ j, x i * Matrix.diagonal ![2, 0, 0] i j * x j = 2 * x 0 ^ 2 := by
      intro x
      simp only [Fin.sum_univ_three, Matrix.diagonal_apply]
      simp
      ring
    exact {
      valid := ⟨fun i j => by simp only [Matrix.diagonal_apply, eq_comm]; split <;> simp_all,
        fun x => by rw [hL]; positivity⟩
      some_given := by right; right; left; simp [PhiSing]
      kernel := by intro A h; simp [PhiSing] at h
      eig := by intro A h; simp [PhiSing] at h
      gram := by
        intro Phi h
        simp only [PhiSing, Option.join_some, Option.some.injEq] at h
        subst h
        intro i j
        fin_cases i <;> fin_cases j <;> simp
      eval := by intro A h; simp [PhiSing] at h
      proj := by intro h; cases h
      noK := ⟨rfl, rfl, rfl⟩ }
  · have hL : ∀ x : Fin 3 → ℝ, ∑ i, ∑ j, x i * Matrix.diagonal ![2 / 3, 0, 0] i j * x j = 2 / 3 * x 0 ^ 2 := by
      intro x
      simp only [Fin.sum_univ_three, Matrix.diagonal_apply]
      simp
      ring
    refine ⟨fun i j => by simp only [Matrix.diagonal_apply, eq_comm]; split <;> simp_all, fun x => ?_, fun x => ?_⟩
    · rw [hL]; positivity
    · rw [hL, Fin.sum_univ_three]; nlinarith [sq_nonneg (x 0), sq_nonneg (x 1), sq_nonneg (x 2)]
  · refine ⟨⟨fun i j => by simp only [Matrix.diagonal_apply, eq_comm]; split <;> simp_all, fun x => ?_⟩, ?_⟩
    · simp only [Fin.sum_univ_three, Matrix.diagonal_apply]
      simp
      nlinarith [sq_nonneg (x 0)]
    · rw [← Matrix.diagonal_one, Matrix.diagonal_add, Matrix.diagonal_mul_diagonal]
      congr 1
      ext i; fin_cases i <;> simp
      norm_num

omit env in
theorem PhiSing_singular : SingularDual PhiSing ∧ PhiSing.LEigDec.join = none := by
  refine ⟨⟨⟨2, fun _ i => if i = 0 then 1 else 0⟩, rfl, by decide, ?_⟩, rfl⟩
  intro h
  exact absurd (h.injective (a₁ := (0 : Fin 2)) (a₂ := 1) rfl) (by decide)

/-! ### C28: constructor -/

/-- The keys among which one must be given for each kernel type (documentation of `FiniteDPP`). -/
def KeysOK (kt : String) (p : Params N) : Prop :=
  (kt = "correlation" ∧ (p.K.isSome ∨ p.KEigDec.isSome ∨ p.AZono.isSome)) ∨
  (kt = "likelihood" ∧ (p.L.isSome ∨ p.LEigDec.isSome ∨ p.LGramFactor.isSome ∨ p.LEvalXData.isSome))

/-- Every array given passes the checks of its key (see C46 and C47 for what the checks mean);
`proj` is the value of the attribute `projection`. -/
structure ArraysOK (proj : Bool) (p : Params N) : Prop where
  K : ∀ A, p.K.join = some A → isSymmetric A = .ok A ∧ (proj = true → isProjectionCheck A = .ok A)
  L : ∀ A, p.L.join = some A → isSymmetric A = .ok A ∧ (proj = true → isProjectionCheck A = .ok A)
  KEig : ∀ E, p.KEigDec.join = some E →
    (if proj then isEqualTo01 tol8 E.2.1 else isIn01 tol8 E.2.1) = .ok E.2.1 ∧
    isOrthonormalColumns E.2.2 = .ok E.2.2
  zono : ∀ A, p.AZono.join = some A → LinearIndependent ℝ A.a
  LEig : ∀ E, p.LEigDec.join = some E →
    (if proj then isEqualTo01 tol8 E.2.1 else isGeq0 tol8 E.2.1) = .ok E.2.1 ∧
    (p.KEigDec.join = none → isOrthonormalColumns E.2.2 = .ok E.2.2)

omit env in
theorem val_dich {α : Type*} {P : Prop} [Decidable P] (a : α) :
    ((if P then Outcome.ok a else Outcome.valueError) = .ok a ∧ P) ∨
    ((if P then Outcome.ok a else Outcome.valueError) = .valueError ∧ ¬ P) := by
  by_cases h : P <;> simp [h]

omit env in
theorem checkKernel_dich (b : Bool) (x : Option (Mat N)) :
    (checkKernel b x = .ok x ∧
      ∀ A, x = some A → isSymmetric A = .ok A ∧ (b = true → isProjectionCheck A = .ok A)) ∨
    (checkKernel b x = .valueError ∧
      ¬ ∀ A, x = some A → isSymmetric A = .ok A ∧ (b = true → isProjectionCheck A = .ok A)) := by
  cases x with
  | none => left; exact ⟨rfl, fun A h => by cases h⟩
  | some A =>
    simp only [checkKernel]
    have h1 : isSymmetric A = .ok A ∨ isSymmetric A = .valueError := by
      unfold isSymmetric; split <;> simp
    have h2 : isProjectionCheck A = .ok A ∨ isProjectionCheck A = .valueError := by
      unfold isProjectionCheck; split <;> simp
    rcases h1 with h1 | h1 <;> rcases h2 with h2 | h2 <;> cases b <;>
      simp [h1, h2, Outcome.bind', Outcome.map]

omit env in
theorem zono_dich (x : Option (Rect N)) :
    (checkZono x = .ok x ∧ ∀ A, x = some A → LinearIndependent ℝ A.a) ∨
    (checkZono x = .valueError ∧ ¬ ∀ A, x = some A → LinearIndependent ℝ A.a) := by
  cases x with
  | none => left; exact ⟨rfl, fun A h => by cases h⟩
  | some A =>
    simp only [checkZono]
    have hd : LinearIndependent ℝ A.a → ¬ A.d > N := by
      intro h hc
      have := LinearIndependent.fintype_card_le_finrank h
      simp at this
      omega
    unfold isFullRowRank
    by_cases h1 : LinearIndependent ℝ A.a
    · left; simp [h1, hd h1, Outcome.map]
    · right; by_cases h2 : A.d > N <;> simp [h1, h2, Outcome.map]

omit env in
theorem keig_dich (b : Bool) (x : Option ((M : ℕ) × (Fin M → ℝ) × (Fin N → Fin M → ℝ))) :
    (checkKEig b x = .ok (x.map eigOfParam) ∧ ∀ E, x = some E →
      (if b then isEqualTo01 tol8 E.2.1 else isIn01 tol8 E.2.1) = .ok E.2.1 ∧
        isOrthonormalColumns E.2.2 = .ok E.2.2) ∨
    (checkKEig b x = .valueError ∧ ¬ ∀ E, x = some E →
      (if b then isEqualTo01 tol8 E.2.1 else isIn01 tol8 E.2.1) = .ok E.2.1 ∧
        isOrthonormalColumns E.2.2 = .ok E.2.2) := by
  cases x with
  | none => left; exact ⟨rfl, fun A h => by cases h⟩
  | some E =>
    simp only [checkKEig]
    have h1 : (if b then isEqualTo01 tol8 E.2.1 else isIn01 tol8 E.2.1) = .ok E.2.1 ∨
        (if b then isEqualTo01 tol8 E.2.1 else isIn01 tol8 E.2.1) = .valueError := by
      unfold isEqualTo01 isIn01; split <;> split <;> simp
    have h2 : isOrthonormalColumns E.2.2 = .ok E.2.2 ∨ isOrthonormalColumns E.2.2 = .valueError := by
      unfold isOrthonormalColumns; split <;> simp
    rcases h1 with h1 | h1 <;> rcases h2 with h2 | h2
    · left; simp [h1, h2, Outcome.bind']
    · right; simp [h1, h2, Outcome.bind']
    · right; simp [h1, h2, Outcome.bind']
    · right; simp [h1, h2, Outcome.bind']

omit env in
theorem leig_dich (b n : Bool) (x : Option ((M : ℕ) × (Fin M → ℝ) × (Fin N → Fin M → ℝ))) :
    (checkLEig b n x = .ok (x.map eigOfParam) ∧ ∀ E, x = some E →
      (if b then isEqualTo01 tol8 E.2.1 else isGeq0 tol8 E.2.1) = .ok E.2.1 ∧
        (n = true → isOrthonormalColumns E.2.2 = .ok E.2.2)) ∨
    (checkLEig b n x = .valueError ∧ ¬ ∀ E, x = some E →
      (if b then isEqualTo01 tol8 E.2.1 else isGeq0 tol8 E.2.1) = .ok E.2.1 ∧
        (n = true → isOrthonormalColumns E.2.2 = .ok E.2.2)) := by
  cases x with
  | none => left; exact ⟨rfl, fun A h => by cases h⟩
  | some E =>
    simp only [checkLEig]
    have h1 : (if b then isEqualTo01 tol8 E.2.1 else isGeq0 tol8 E.2.1) = .ok E.2.1 ∨
        (if b then isEqualTo01 tol8 E.2.1 else isGeq0 tol8 E.2.1) = .valueError := by
      unfold isEqualTo01 isGeq0; split <;> split <;> simp
    have h2 : isOrthonormalColumns E.2.2 = .ok E.2.2 ∨ isOrthonormalColumns E.2.2 = .valueError := by
      unfold isOrthonormalColumns; split <;> simp
    rcases h1 with h1 | h1 <;> rcases h2 with h2 | h2 <;> cases n
    all_goals first
      | (left; simp [h1, h2, Outcome.bind']; done)
      | (right; simp [h1, h2, Outcome.bind']; done)

omit env in
/-- C28: with a boolean `projection`, the constructor accepts exactly the documented combinations of
kernel type and keys whose arrays pass their checks, and raises `ValueError` in every other case.  A
correlation kernel given through `A_zono` is always treated as a projection. -/
theorem C28_accepts_iff (kt : String) (proj : Bool) (p : Params N) :
    ((∃ o : Obj N Info, Obj.init kt (.bool proj) p = .ok o ∧
        o.projection = (proj || (decide (kt = "correlation") && p.AZono.isSome))) ↔
      KeysOK kt p ∧ ArraysOK (proj || (decide (kt = "correlation") && p.AZono.isSome)) p) ∧
    (¬ (KeysOK kt p ∧ ArraysOK (proj || (decide (kt = "correlation") && p.AZono.isSome)) p) →
      (Obj.init kt (.bool proj) p : Outcome (Obj N Info)) = .valueError) := by
  generalize hb : (proj || (decide (kt = "correlation") && p.AZono.isSome)) = b
  have hck : (KeysOK kt p ∧ checkArgsCoherence kt (.bool proj) p = .ok b) ∨
      (¬ KeysOK kt p ∧ checkArgsCoherence kt (.bool proj) p = .valueError) := by
    unfold checkArgsCoherence KeysOK
    simp only
    by_cases h1 : kt = "correlation"
    · subst h1
      simp only [decide_true, Bool.true_and] at hb
      simp only [if_true, true_and, show ("correlation" = "likelihood") = False by decide, false_and,
        or_false]
      by_cases h2 : p.K.isSome ∨ p.KEigDec.isSome ∨ p.AZono.isSome
      · left
        refine ⟨h2, ?_⟩
        rw [if_pos h2]
        subst hb
        cases p.AZono.isSome <;> cases proj <;> simp
      · right; exact ⟨h2, by rw [if_neg h2]⟩
    · simp only [h1, decide_false, Bool.false_and, Bool.or_false] at hb
      simp only [h1, if_false, false_and, false_or]
      by_cases h3 : kt = "likelihood"
      · simp only [h3, if_true, true_and]
        by_cases h2 : p.L.isSome ∨ p.LEigDec.isSome ∨ p.LGramFactor.isSome ∨ p.LEvalXData.isSome
        · left; exact ⟨h2, by rw [if_pos h2, hb]⟩
        · right; exact ⟨h2, by rw [if_neg h2]⟩
      · right; simp [h3]
  have main : (KeysOK kt p ∧ ArraysOK b p ∧
      ∃ o : Obj N Info, Obj.init kt (.bool proj) p = .ok o ∧ o.projection = b) ∨
      (¬ (KeysOK kt p ∧ ArraysOK b p) ∧ (Obj.init kt (.bool proj) p : Outcome (Obj N Info)) = .valueError) := by
    unfold Obj.init
    rcases hck with ⟨hk, hck⟩ | ⟨hk, hck⟩
    rotate_left
    · right; exact ⟨fun h => hk h.1, by rw [hck]; rfl⟩
    rw [hck]
    simp only [Outcome.bind']
    rcases checkKernel_dich b p.K.join with ⟨e1, g1⟩ | ⟨e1, g1⟩
    rotate_left
    · right; exact ⟨fun h => g1 h.2.K, by rw [e1]⟩
    rw [e1]; simp only
    rcases keig_dich b p.KEigDec.join with ⟨e2, g2⟩ | ⟨e2, g2⟩
    rotate_left
    · right; exact ⟨fun h => g2 h.2.KEig, by rw [e2]⟩
    rw [e2]; simp only
    rcases zono_dich p.AZono.join with ⟨e3, g3⟩ | ⟨e3, g3⟩
    rotate_left
    · right; exact ⟨fun h => g3 h.2.zono, by rw [e3]⟩
    rw [e3]; simp only
    rcases checkKernel_dich b p.L.join with ⟨e4, g4⟩ | ⟨e4, g4⟩
    rotate_left
    · right; exact ⟨fun h => g4 h.2.L, by rw [e4]⟩
    rw [e4]; simp only
    have hn : (p.KEigDec.join.map (eigOfParam (N := N))).isNone = true ↔ p.KEigDec.join = none := by
      cases p.KEigDec.join <;> simp
    rcases leig_dich b (p.KEigDec.join.map (eigOfParam (N := N))).isNone p.LEigDec.join
      with ⟨e5, g5⟩ | ⟨e5, g5⟩
    rotate_left
    · right
      refine ⟨fun h => g5 fun E hE => ⟨(h.2.LEig E hE).1, fun hh => (h.2.LEig E hE).2 (hn.1 hh)⟩, by rw [e5]⟩
    rw [e5]; simp only
    left
    exact ⟨hk, ⟨g1, g4, g2, g3, fun E hE => ⟨(g5 E hE).1, fun hh => (g5 E hE).2 (hn.2 hh)⟩⟩, _, rfl, rfl⟩
  rcases main with ⟨h1, h2, h3⟩ | ⟨h1, h2⟩
  · exact ⟨⟨fun _ => ⟨h1, h2⟩, fun _ => h3⟩, fun h => absurd ⟨h1, h2⟩ h⟩
  · refine ⟨⟨fun h => ?_, fun h => absurd h h1⟩, fun _ => h2⟩
    obtain ⟨o, ho, _⟩ := h
    rw [h2] at ho; cases ho

omit env in
/-- C28: arguments that describe a DPP are accepted, and nothing is sampled or cached yet. -/
theorem C28_described_accepted (hd : Describes kt proj p K) :
    ∃ o : Obj N Info, Obj.init kt (.bool proj) p = .ok o ∧ o.samples = [] ∧ o.info = none ∧
      o.Epoly = none ∧ o.K = p.K.join.map .num := by
  obtain ⟨o, h1, _, h2, h3, h4, _, _, h5, -⟩ := init_describes (Info := Info) hd
  exact ⟨o, h1, h3, h4, h2, h5⟩

omit env in
/-- C28 (finding): a `projection` argument that is not a boolean raises `AttributeError` (the error
message reads an attribute that does not exist), not `ValueError`. -/
theorem C28_non_boolean_projection_refuted (kt : String) (p : Params N) :
    (Obj.init kt .other p : Outcome (Obj N Info)) = .raise .attributeError := rfl

/-- the rank-two projection `K32` is an accepted correlation kernel -/
theorem K32_describes : Describes "correlation" true ({ K := some (some K32) } : Params 3) K32 := by
  refine Or.inl ⟨rfl, ?_⟩
  have hs : ∀ i j, K32 i j = K32 j i := fun i j => by
    have := congrFun (congrFun K32_proj.1 i) j
    simpa [Matrix.conjTranspose_apply] using this.symm
  have hq : ∀ x : Fin 3 → ℝ, ∑ i, ∑ j, x i * K32 i j * x j
      = ((x 0 - x 1) ^ 2 + (x 0 - x 2) ^ 2 + (x 1 - x 2) ^ 2) / 3 := by
    intro x
    simp only [Fin.sum_univ_three, K32]
    simp
    ring
  exact {
    valid := ⟨hs, fun x => by rw [hq]; positivity,
      fun x => by rw [hq, Fin.sum_univ_three]; nlinarith [sq_nonneg (x 0 + x 1 + x 2)]⟩
    some_given := Or.inl (by simp)
    kernel := by intro A h; simp at h; exact h.symm
    eig := by intro A h; simp at h
    zono := by intro A h; simp at h
    proj := fun _ => K32_proj
    noL := ⟨rfl, rfl, rfl, rfl⟩ }

example : ∃ o : Obj 3 Unit, Obj.init "correlation" (.bool true) { K := some (some K32) } = .ok o :=
  let ⟨o, h, _⟩ := C28_described_accepted K32_describes; ⟨o, h⟩

end Verif.Props
