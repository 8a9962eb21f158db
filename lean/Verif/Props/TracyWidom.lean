import Verif.Model.TracyWidom
import Verif.Lemmas.TW7
import Verif.Lemmas.TW8
import Verif.Lemmas.TW9

/-!
C103-C105: the class `TracyWidom`.
-/

namespace Verif.Props
open Verif Verif.Model Verif.Spec MeasureTheory Filter Polynomial
open Verif.Lemmas.TW (qx qw)

/-- Specification: the state of an object after a history of calls `cdf(x, quad_order)`, starting from `TracyWidom()`. -/
noncomputable def twRun (leg : (m : ℕ) → (Fin m → ℝ) × (Fin m → ℝ)) (hist : List (List ℝ × ℤ)) : TWState :=
  hist.foldl (fun st c => (twCdf leg st c.1 c.2).2) twInit

/-- Specification: `leggauss(m)` returns a Gauss-Legendre quadrature for every `m >= 1`. -/
def LegOK (leg : (m : ℕ) → (Fin m → ℝ) × (Fin m → ℝ)) : Prop := ∀ m, 0 < m → IsGaussLegendre m (leg m).1 (leg m).2

/-- The contract can be met. -/
theorem legOK_exists : ∃ leg, LegOK leg := by
  refine ⟨fun m => if h : 0 < m then ((Lemmas.TW.gauss_exists h).choose, (Lemmas.TW.gauss_exists h).choose_spec.choose) else (0, 0), fun m hm => ?_⟩
  simp only [dif_pos hm]
  exact (Lemmas.TW.gauss_exists hm).choose_spec.choose_spec

section history
variable (leg : (m : ℕ) → (Fin m → ℝ) × (Fin m → ℝ))

/-- invariant of the cache -/
def twInv (st : TWState) : Prop := ∀ o : ℤ, 1 ≤ o → st.quadOrder = some o → ∃ q, computeQuadrature leg o = .ok q ∧ st.quad = some q

theorem computeQuadrature_ok {o : ℤ} (ho : 1 ≤ o) : computeQuadrature leg o
    = .ok ⟨o.toNat, fun i => 1 / 2 * ((leg o.toNat).1 i + 1), fun i => 1 / 2 * (leg o.toNat).2 i⟩ := by
  unfold computeQuadrature; rw [if_neg (by omega)]

theorem twInv_step {st : TWState} (h : twInv leg st) (ss : List ℝ) (order : ℤ) : twInv leg (twCdf leg st ss order).2 := by
  unfold twCdf
  split_ifs with h0
  · exact h
  · by_cases ho : order ≤ 0
    · unfold computeQuadrature
      rw [if_pos ho]
      intro o ho1 he
      simp only [Option.some.injEq] at he
      omega
    · rw [computeQuadrature_ok leg (by omega)]
      intro o ho1 he
      simp only [Option.some.injEq] at he
      subst he
      exact ⟨_, computeQuadrature_ok leg ho1, rfl⟩

theorem twInv_run (hist : List (List ℝ × ℤ)) : twInv leg (twRun leg hist) := by
  unfold twRun
  have : ∀ st, twInv leg st → twInv leg (hist.foldl (fun st c => (twCdf leg st c.1 c.2).2) st) := by
    induction hist with
    | nil => intro st h; exact h
    | cons c l ih => intro st h; exact ih _ (twInv_step leg h c.1 c.2)
  exact this _ fun o _ he => by simp [twInit] at he

theorem twCdf_eval {st : TWState} (h : twInv leg st) (ss : List ℝ) {order : ℤ} (ho : 1 ≤ order) : (twCdf leg st ss order).1
    = twEval twEps (some ⟨order.toNat, fun i => 1 / 2 * ((leg order.toNat).1 i + 1), fun i => 1 / 2 * (leg order.toNat).2 i⟩) ss := by
  unfold twCdf
  split_ifs with h0
  · obtain ⟨q, hq, he⟩ := h order ho h0
    rw [computeQuadrature_ok leg ho] at hq
    rw [he, ← Outcome.ok.inj hq]
  · rw [computeQuadrature_ok leg ho]

/-- **C103** The value returned by `cdf(x, quad_order)`, `quad_order >= 1`, does not depend on the earlier calls on the same object
(whatever their arguments, including the ones that raised). -/
theorem C103_history_independent_partial (hist : List (List ℝ × ℤ)) (ss : List ℝ) {order : ℤ} (ho : 1 ≤ order) :
    (twCdf leg (twRun leg hist) ss order).1 = (twCdf leg twInit ss order).1 := by
  exact (twCdf_eval leg (twInv_run leg hist) ss ho).trans (twCdf_eval leg (twInv_run leg []) ss ho).symm

/-- **C103** `cdf` returns one value per entry of `x`, and raises only for an empty `x`. -/
theorem C103_returns (hist : List (List ℝ × ℤ)) (ss : List ℝ) {order : ℤ} (ho : 1 ≤ order) :
    (ss ≠ [] → ∃ l, (twCdf leg (twRun leg hist) ss order).1 = .ok l ∧ l.length = ss.length)
    ∧ (twCdf leg (twRun leg hist) [] order).1 = .indexError := by
  constructor
  · intro hs
    rw [twCdf_eval leg (twInv_run leg hist) ss ho]
    cases ss with
    | nil => exact absurd rfl hs
    | cons a l => exact ⟨_, rfl, by simp⟩
  · rw [twCdf_eval leg (twInv_run leg hist) [] ho]
    rfl

/-- **C103** A call with `quad_order <= 0` raises a `ValueError`, unless the preceding call on the object had the same `quad_order`. -/
theorem C103_invalid_order_partial (hist : List (List ℝ × ℤ)) (ss : List ℝ) {order : ℤ} (ho : order ≤ 0)
    (hl : ∀ c ∈ hist.getLast?, c.2 ≠ order) : (twCdf leg (twRun leg hist) ss order).1 = .valueError := by
  have hq : (twRun leg hist).quadOrder ≠ some order := by
    rcases List.eq_nil_or_concat hist with rfl | ⟨l, c, rfl⟩
    · simp [twRun, twInit]
    · have hc := hl c (by simp)
      unfold twRun
      rw [List.concat_eq_append, List.foldl_append]
      simp only [List.foldl_cons, List.foldl_nil]
      unfold twCdf
      split_ifs with h0
      · rw [h0]; simpa using hc
      · unfold computeQuadrature
        split_ifs <;> simpa using hc
  unfold twCdf
  rw [if_neg hq, computeQuadrature, if_pos ho]

/-- **C103** (refuted part) After a successful call with `m >= 1` nodes, a call with an invalid `quad_order <= 0` raises a `ValueError`,
but repeating it returns, without an error, the values computed with `m` nodes; on a new object the repeated call raises a `TypeError`. -/
theorem C103_invalid_order_refuted (hist : List (List ℝ × ℤ)) {m order : ℤ} (hm : 1 ≤ m) (ho : order ≤ 0) {ss ss' ss'' : List ℝ} :
    (twCdf leg (twRun leg (hist ++ [(ss, m)])) ss' order).1 = .valueError
    ∧ (twCdf leg (twRun leg (hist ++ [(ss, m), (ss', order)])) ss'' order).1 = (twCdf leg twInit ss'' m).1
    ∧ (ss'' ≠ [] → ∃ l, (twCdf leg (twRun leg (hist ++ [(ss, m), (ss', order)])) ss'' order).1 = .ok l)
    ∧ (twCdf leg (twRun leg [(ss', order)]) ss'' order).1 = .raise .typeError := by
  have h1 : (twCdf leg (twRun leg (hist ++ [(ss, m)])) ss' order).1 = .valueError :=
    C103_invalid_order_partial leg _ _ ho (by simp; omega)
  have hst : (twRun leg (hist ++ [(ss, m)])).quadOrder = some m := by
    unfold twRun
    rw [List.foldl_append]
    simp only [List.foldl_cons, List.foldl_nil]
    unfold twCdf
    split_ifs with h0
    · exact h0
    · rw [computeQuadrature_ok leg hm]
  obtain ⟨q, hq, hqs⟩ := twInv_run leg (hist ++ [(ss, m)]) m hm hst
  have hst2 : twRun leg (hist ++ [(ss, m), (ss', order)]) = ⟨some order, some q⟩ := by
    have : twRun leg (hist ++ [(ss, m), (ss', order)]) = (twCdf leg (twRun leg (hist ++ [(ss, m)])) ss' order).2 := by
      unfold twRun
      rw [List.foldl_append, List.foldl_append]
      rfl
    rw [this]
    unfold twCdf
    rw [if_neg (by rw [hst]; simp; omega), computeQuadrature, if_pos ho, hqs]
  have h2 : (twCdf leg (twRun leg (hist ++ [(ss, m), (ss', order)])) ss'' order).1 = (twCdf leg twInit ss'' m).1 := by
    refine Eq.trans ?_ (twCdf_eval leg (twInv_run leg []) ss'' hm).symm
    rw [hst2]
    rw [computeQuadrature_ok leg hm] at hq
    unfold twCdf
    rw [if_pos rfl, Outcome.ok.inj hq]
  refine ⟨h1, h2, fun hs => ?_, ?_⟩
  · rw [h2]
    obtain ⟨l, hl, _⟩ := (C103_returns leg [] ss'' hm).1 hs
    exact ⟨l, hl⟩
  · have : twRun leg [(ss', order)] = ⟨some order, none⟩ := by
      unfold twRun
      simp only [List.foldl_cons, List.foldl_nil]
      unfold twCdf
      rw [if_neg (by simp [twInit]), computeQuadrature, if_pos ho]
      rfl
    rw [this]
    unfold twCdf
    rw [if_pos rfl]
    rfl

end history

/-- **C104** For every history, `cdf` applies one function `F m` to every entry of `x`, and `F m s` converges, when the number `m` of nodes
tends to infinity, to the Tracy-Widom distribution function times `exp(-δ)`, `|δ| <= 1e-5 exp(-2 s)`: the finite difference used on the
diagonal is not negligible in the limit.  All the integrals involved converge, as well as the Fredholm series. -/
theorem C104_limit {leg : (m : ℕ) → (Fin m → ℝ) × (Fin m → ℝ)} (hleg : LegOK leg) :
    ∃ F : ℕ → ℝ → ℝ,
      (∀ (hist : List (List ℝ × ℤ)) (m : ℕ) (ss : List ℝ), ss ≠ [] → (twCdf leg (twRun leg hist) ss (m + 1)).1 = .ok (ss.map (F m)))
      ∧ ∀ s, Tendsto (fun m => F m s) atTop
          (nhds (tracyWidom s * Real.exp (-∫ x in Set.Ioi s, (airyKernel x (x - 1 / 100000) - airyKernel x x))))
        ∧ (IntegrableOn (fun x => airyKernel x (x - 1 / 100000) - airyKernel x x) (Set.Ioi s))
        ∧ |∫ x in Set.Ioi s, (airyKernel x (x - 1 / 100000) - airyKernel x x)| ≤ 1 / 100000 * Real.exp (-2 * s)
        ∧ (Summable fun n => |twTerm s n|)
        ∧ ∀ n, IntegrableOn (fun x : Fin n → ℝ => (Matrix.of fun i j => airyKernel (x i) (x j)).det) (Set.univ.pi fun _ => Set.Ioi s) := by
  have he : twEps ≠ 0 := by norm_num [twEps]
  refine ⟨fun m s => fredholmDet (twKernel twEps 0 s (qx (leg (m + 1)).1)) (qw (leg (m + 1)).2), fun hist m ss hs => ?_, fun s => ⟨?_, ?_, ?_, ?_, ?_⟩⟩
  · rw [twCdf_eval leg (twInv_run leg hist) ss (by omega)]
    cases ss with
    | nil => exact absurd rfl hs
    | cons a l =>
      refine congrArg Outcome.ok (List.map_congr_left fun s _ => ?_)
      have h := hleg (m + 1) m.succ_pos
      have e := (Lemmas.TW.fredholmDet_eq he a s h).trans (Lemmas.TW.fredholmDet_eq he 0 s h).symm
      exact e
  · have h := (Lemmas.TW.limit_det twEps s (fun m => (leg (m + 1)).1) (fun m => (leg (m + 1)).2) fun m => hleg _ m.succ_pos).2
    rw [mul_comm] at h
    refine h.congr fun m => ?_
    exact (Lemmas.TW.fredholmDet_eq he 0 s (hleg (m + 1) m.succ_pos)).symm
  · exact Lemmas.TW.diff_integrable (show (0 : ℝ) ≤ 1 / 100000 by norm_num)
  · exact Lemmas.TW.diff_bound (show (0 : ℝ) ≤ 1 / 100000 by norm_num) (by norm_num)
  · exact (Lemmas.TW.limit_det twEps s (fun m => (leg (m + 1)).1) (fun m => (leg (m + 1)).2) fun m => hleg _ m.succ_pos).1
  · exact Lemmas.TW.det_airy_int s

/-- **C104** The limit tends to `1` as `s` tends to `+∞`. -/
theorem C104_tail : Tendsto (fun s => tracyWidom s * Real.exp (-∫ x in Set.Ioi s, (airyKernel x (x - 1 / 100000) - airyKernel x x))) atTop (nhds 1) := by
  have h1 : Tendsto (fun s => ∫ x in Set.Ioi s, (airyKernel x (x - 1 / 100000) - airyKernel x x)) atTop (nhds 0) := by
    refine squeeze_zero_norm (a := fun s : ℝ => 1 / 100000 * Real.exp (-2 * s))
      (fun s => Lemmas.TW.diff_bound (show (0 : ℝ) ≤ 1 / 100000 by norm_num) (by norm_num)) ?_
    have h2 : Tendsto (fun s : ℝ => -2 * s) atTop atBot := tendsto_id.const_mul_atTop_of_neg (by norm_num)
    have h4 := (Real.tendsto_exp_atBot.comp h2).const_mul (1 / 100000 : ℝ)
    rwa [mul_zero] at h4
  have h3 := Lemmas.TW.tracyWidom_tail.mul ((Real.continuous_exp.tendsto _).comp h1.neg)
  simpa using h3

/-- Non-vacuity: the hypothesis can be met, so a limit exists. -/
example : ∃ leg, LegOK leg ∧ (twCdf leg twInit [-2, 0] 50).1 ≠ .valueError := by
  obtain ⟨leg, h⟩ := legOK_exists
  obtain ⟨l, hl, _⟩ := (C103_returns leg [] [-2, 0] (order := 50) (by norm_num)).1 (by simp)
  refine ⟨leg, h, ?_⟩
  rw [show twInit = twRun leg [] from rfl, hl]
  simp

/-- **C105** `change_of_variable(s)`: `phi` is an increasing bijection from `(0, 1)` onto `(s, ∞)`, with derivative `d_phi > 0`. -/
theorem C105_change_of_variable (s : ℝ) :
    StrictMonoOn (twPhi s) (Set.Ioo 0 1) ∧ Set.BijOn (twPhi s) (Set.Ioo 0 1) (Set.Ioi s)
    ∧ ∀ x ∈ Set.Ioo (0 : ℝ) 1, HasDerivAt (twPhi s) (twDPhi x) x ∧ 0 < twDPhi x := by
  refine ⟨Lemmas.TW.twPhi_strictMono s, ?_, fun x hx => ⟨Lemmas.TW.twPhi_deriv s hx, Lemmas.TW.twDPhi_pos x⟩⟩
  refine ⟨?_, (Lemmas.TW.twPhi_strictMono s).injOn, ?_⟩
  · rw [Set.mapsTo_iff_image_subset, Lemmas.TW.twPhi_image]
  · rw [Set.SurjOn, Lemmas.TW.twPhi_image]

/-- **C105** `kernel(ss)(X)` for distinct points of `(0, 1)` and several values of `s`: the matrix of the `s` is the Airy kernel at
the images of the points, with `y - eps` for `y` on the diagonal, weighted by the square roots of the derivatives, even though the
division uses the row of the first value of `s`. -/
theorem C105_kernel {eps : ℝ} (he : eps ≠ 0) (s0 s : ℝ) {m : ℕ} {X : Fin m → ℝ} (hX : ∀ i, X i ∈ Set.Ioo (0 : ℝ) 1)
    (hi : Function.Injective X) (i j : Fin m) : twKernel eps s0 s X i j = √(twDPhi (X i)) * (if i = j then airyKernel (twPhi s (X i)) (twPhi s (X i) - eps)
      else airyKernel (twPhi s (X i)) (twPhi s (X j))) * √(twDPhi (X j)) :=
  Lemmas.TW.twKernel_eq he s0 s hX hi i j

/-- **C105** `airy_kernel(x, y)`: the Airy kernel off the diagonal; on the diagonal the Airy kernel at `(x, x + eps)`; the Airy kernel
itself is continuous, so the latter tends to the value on the diagonal as `eps` tends to `0`. -/
theorem C105_airy_kernel {eps : ℝ} (he : eps ≠ 0) (x y : ℝ) :
    (x ≠ y → airyKernelFn eps x y = airyKernel x y) ∧ airyKernelFn eps x x = airyKernel x (x + eps)
    ∧ Continuous (fun p : ℝ × ℝ => airyKernel p.1 p.2) := by
  refine ⟨fun h => ?_, ?_, Lemmas.TW.kernel_continuous⟩
  · unfold airyKernelFn airyKernel
    rw [if_neg h, if_neg h]
    congr 1; ring
  · unfold airyKernelFn airyKernel
    rw [if_pos rfl, if_neg (by simpa using he)]
    congr 1; ring

/-- **C105** `airy(x)`: the function of the specification satisfies the Airy equation `y'' = x y`. -/
theorem C105_airy_equation (x : ℝ) : HasDerivAt airyAi (deriv airyAi x) x ∧ HasDerivAt (deriv airyAi) (x * airyAi x) x := by
  constructor
  · rw [Lemmas.TW.deriv_airy]; exact Lemmas.TW.airy_deriv x
  · rw [Lemmas.TW.deriv_airy]; exact Lemmas.TW.airy_ode x

/-- **C105** `compute_quadrature(m)`: positive weights of sum `1`, nodes in increasing order in `(0, 1)`, exact on `[0, 1]` for the polynomials
of degree less than `2 m`. -/
theorem C105_quadrature {leg : (m : ℕ) → (Fin m → ℝ) × (Fin m → ℝ)} (hleg : LegOK leg) {m : ℕ} (hm : 0 < m) :
    ∃ x w, computeQuadrature leg m = .ok ⟨m, x, w⟩ ∧ StrictMono x ∧ (∀ i, x i ∈ Set.Ioo (0 : ℝ) 1) ∧ (∀ i, 0 < w i) ∧ ∑ i, w i = 1
      ∧ ∀ p : ℝ[X], p.natDegree < 2 * m → ∑ i, w i * p.eval (x i) = ∫ t in (0 : ℝ)..1, p.eval t := by
  have h := hleg m hm
  refine ⟨qx (leg m).1, qw (leg m).2, ?_, ?_, Lemmas.TW.qx_mem h, Lemmas.TW.qw_pos h, Lemmas.TW.qw_sum hm h, Lemmas.TW.quad_exact h⟩
  · exact computeQuadrature_ok leg (by omega)
  · intro i j hij
    have := h.sorted hij
    unfold Lemmas.TW.qx
    linarith

example : ∃ leg, LegOK leg := legOK_exists

end Verif.Props
