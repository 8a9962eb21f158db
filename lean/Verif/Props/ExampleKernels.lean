import Verif.Lemmas.ExKer
import Verif.Props.FiniteHist

/-!
C108: the example likelihood functions satisfy the contract of `eval_L`, and the DPP they define is sampled exactly.
-/

namespace Verif.Props
open Verif Verif.Spec Verif.Model Verif.Model.ExKer Verif.Lemmas.ExKer Matrix

theorem evalLinear_two {n m d : ℕ} (X : Fin n → Fin d → ℝ) (Y : Fin m → Fin d → ℝ) :
    evalLinear (.two n d X) (some (.two m d Y)) = .ok ⟨n, m, fun i j => ∑ k, X i k * Y j k⟩ := by
  simp [evalLinear, atleast2d, dotT]
  try rfl

theorem evalLinear_none {n d : ℕ} (X : Fin n → Fin d → ℝ) :
    evalLinear (.two n d X) none = .ok ⟨n, n, fun i j => ∑ k, X i k * X j k⟩ := by
  simp [evalLinear, atleast2d, dotT]
  try rfl

theorem evalLinear_one {d : ℕ} (x : Fin d → ℝ) :
    evalLinear (.one d x) none = .ok ⟨1, 1, fun _ _ => ∑ k, x k * x k⟩ := by
  simp [evalLinear, atleast2d, dotT]
  try rfl

/-- C108: `example_eval_L_linear` is the likelihood function `x . y`. -/
theorem C108_linear : EvalContract evalLinear (fun _ _ => True) (fun _ x y => ∑ k, x k * y k) where
  pair X Y _ _ _ _ := evalLinear_two X Y
  single X _ _ := evalLinear_none X
  diagonal X hn _ := applyRows_one X hn (fun x => ∑ k, x k * x k) fun i => evalLinear_one (X i)
  likelihood X _ := isLikelihood_linear X

/-- C108: `example_eval_L_polynomial` with a natural exponent `p` (2 by default) is the likelihood function
`(x . y) ^ p`. -/
theorem C108_polynomial (p : ℕ) :
    EvalContract (evalPoly p) (fun _ _ => True) (fun _ x y => (∑ k, x k * y k) ^ p) where
  pair X Y _ _ _ _ := by rw [evalPoly, evalLinear_two]; rfl
  single X _ _ := by rw [evalPoly, evalLinear_none]; rfl
  diagonal X hn _ := applyRows_one X hn (fun x => (∑ k, x k * x k) ^ p) fun i => by
    rw [evalPoly, evalLinear_one]; rfl
  likelihood X _ := isLikelihood_poly p X

/-- points of `[0, 1]` -/
def UnitPoint (d : ℕ) (x : Fin d → ℝ) : Prop := d = 1 ∧ ∀ k, 0 ≤ x k ∧ x k ≤ 1

/-- the minimum of two points of the line -/
noncomputable def minPoint (d : ℕ) (x y : Fin d → ℝ) : ℝ := if h : 0 < d then min (x ⟨0, h⟩) (y ⟨0, h⟩) else 0

theorem minimum_repeat {n m : ℕ} (X : Fin n → Fin 1 → ℝ) (Y : Fin m → Fin 1 → ℝ) :
    minimum (repeatCols ⟨n, 1, X⟩ (size ⟨m, 1, Y⟩)) (repeatTRows ⟨m, 1, Y⟩ (size ⟨n, 1, X⟩))
      = .ok ⟨n, m, fun i j => min (X i 0) (Y j 0)⟩ := by
  have hs : (repeatCols ⟨n, 1, X⟩ (size ⟨m, 1, Y⟩)).n = (repeatTRows ⟨m, 1, Y⟩ (size ⟨n, 1, X⟩)).n ∧
      (repeatCols ⟨n, 1, X⟩ (size ⟨m, 1, Y⟩)).m = (repeatTRows ⟨m, 1, Y⟩ (size ⟨n, 1, X⟩)).m := by
    simp [repeatCols, repeatTRows, size]
  rw [minimum, dif_pos hs]
  congr 1
  have key : ∀ (m' : ℕ) (hm : m' = m) (a : Fin n → Fin m' → ℝ) (b : Fin n → Fin m → ℝ),
      (∀ i j, a i j = b i (Fin.cast hm j)) → (⟨n, m', a⟩ : Tab) = ⟨n, m, b⟩ := by
    rintro m' rfl a b h
    congr 1
    funext i j
    exact h i j
  refine key (1 * size ⟨m, 1, Y⟩) (by simp [size]) _ _ fun i j => ?_
  have h0 : ∀ x : Fin 1, x = 0 := fun x => Subsingleton.elim _ _
  simp only [repeatCols, repeatTRows]
  rw [h0 ⟨_, _⟩]
  exact congrArg _ (congrArg (Y _) (h0 _))

theorem inUnit_iff {n d : ℕ} (X : Fin n → Fin d → ℝ) (hn : 0 < n) :
    inUnit (atleast2d (.two n d X)) ↔ ∀ i, UnitPoint d (X i) :=
  ⟨fun h i => ⟨h.1, fun k => h.2 i k⟩, fun h => ⟨(h ⟨0, hn⟩).1, fun i k => (h i).2 k⟩⟩

theorem evalMin_two {n m d : ℕ} (X : Fin n → Fin d → ℝ) (Y : Fin m → Fin d → ℝ) (hn : 0 < n) (hm : 0 < m)
    (hX : ∀ i, UnitPoint d (X i)) (hY : ∀ j, UnitPoint d (Y j)) :
    evalMin (.two n d X) (some (.two m d Y)) = .ok ⟨n, m, fun i j => minPoint d (X i) (Y j)⟩ := by
  have hd : d = 1 := (hX ⟨0, hn⟩).1
  subst hd
  rw [evalMin, if_pos ((inUnit_iff X hn).2 hX), if_pos (by simpa using (inUnit_iff Y hm).2 hY)]
  refine (minimum_repeat X Y).trans ?_
  simp [minPoint]

theorem evalMin_none {n d : ℕ} (X : Fin n → Fin d → ℝ) (hn : 0 < n) (hX : ∀ i, UnitPoint d (X i)) :
    evalMin (.two n d X) none = .ok ⟨n, n, fun i j => minPoint d (X i) (X j)⟩ := by
  have hd : d = 1 := (hX ⟨0, hn⟩).1
  subst hd
  rw [evalMin, if_pos ((inUnit_iff X hn).2 hX), if_pos (by simp)]
  refine (minimum_repeat X X).trans ?_
  simp [minPoint]

/-- C108: a vector is read as one point (by the three functions). -/
theorem C108_vector_is_one_point {d : ℕ} (x : Fin d → ℝ) (Y : Option Arr) (p : ℕ) :
    evalLinear (.one d x) Y = evalLinear (.two 1 d fun _ => x) Y ∧
    evalPoly p (.one d x) Y = evalPoly p (.two 1 d fun _ => x) Y ∧
    evalMin (.one d x) Y = evalMin (.two 1 d fun _ => x) Y := by
  cases Y <;> exact ⟨rfl, rfl, rfl⟩

/-- C108: `example_eval_L_min_kern` is the likelihood function `min(x, y)` on the points of `[0, 1]`. -/
theorem C108_min : EvalContract evalMin UnitPoint minPoint where
  pair X Y hn hm hX hY := evalMin_two X Y hn hm hX hY
  single X hn hX := evalMin_none X hn hX
  diagonal {n d} X hn hX := applyRows_one X hn (fun x => minPoint d x x) fun i => by
    rw [(C108_vector_is_one_point (X i) none 0).2.2, evalMin_none _ one_pos fun _ => hX i]
  likelihood {n d} X hX := by
    by_cases hn : 0 < n
    · have hd : d = 1 := (hX ⟨0, hn⟩).1
      subst hd
      have := isLikelihood_min (fun i => X i 0) fun i => ((hX i).2 0).1
      simpa [minPoint] using this
    · have : n = 0 := by omega
      subst this
      exact ⟨fun i => i.elim0, fun x => by simp⟩

/-- C108: `example_eval_L_min_kern` raises `AssertionError` for any other points. -/
theorem C108_min_rejects {n m d d' : ℕ} (X : Fin n → Fin d → ℝ) (Y : Fin m → Fin d' → ℝ) (hn : 0 < n) (hm : 0 < m)
    (h : ¬ ((∀ i, UnitPoint d (X i)) ∧ ∀ j, UnitPoint d' (Y j))) :
    evalMin (.two n d X) (some (.two m d' Y)) = .error .assertionError ∧
    ((¬ ∀ i, UnitPoint d (X i)) → evalMin (.two n d X) none = .error .assertionError) := by
  constructor
  · rw [evalMin]
    by_cases h1 : ∀ i, UnitPoint d (X i)
    · rw [if_pos ((inUnit_iff X hn).2 h1), if_neg]
      have h2 : ¬ ∀ j, UnitPoint d' (Y j) := fun h2 => h ⟨h1, h2⟩
      simpa using fun h3 => h2 ((inUnit_iff Y hm).1 h3)
    · exact if_neg fun h2 => h1 ((inUnit_iff X hn).1 h2)
  · intro h1
    rw [evalMin]
    exact if_neg fun h2 => h1 ((inUnit_iff X hn).1 h2)

/-- C108: points of different dimensions raise `ValueError`. -/
theorem C108_dimensions {n m d d' : ℕ} (X : Fin n → Fin d → ℝ) (Y : Fin m → Fin d' → ℝ) (h : d ≠ d') (p : ℕ) :
    evalLinear (.two n d X) (some (.two m d' Y)) = .error .valueError ∧
    evalPoly p (.two n d X) (some (.two m d' Y)) = .error .valueError := by
  have h1 : evalLinear (.two n d X) (some (.two m d' Y)) = .error .valueError := by
    simp [evalLinear, atleast2d, dotT, h]
  exact ⟨h1, by rw [evalPoly, h1]; rfl⟩

/-- C108: `FiniteDPP('likelihood', L_eval_X_data=(eval_L, X))`, with an `eval_L` that satisfies the contract and
points `X` of its domain, is accepted, and after any history of calls `sample_exact` (modes GS, GS_bis, KuTa12)
returns the set `S` with probability `det L_S / det(I + L)`, where `L` is the matrix of the values of the likelihood
function on `X`. -/
theorem C108_finite_dpp {eval dom k} (hE : EvalContract eval dom k) {N d : ℕ} (X : Fin N → Fin d → ℝ) (hN : 0 < N)
    (hX : ∀ i, dom d (X i)) {Info : Type} :
    ∃ L : Matrix (Fin N) (Fin N) ℝ, (∀ i j, L i j = k d (X i) (X j)) ∧ eval (.two N d X) none = .ok ⟨N, N, L⟩ ∧
      (∃ o : Obj N Info, Obj.init "likelihood" (.bool false) { LEvalXData := some (some L) } = .ok o) ∧
      ∀ env : Env N Info, QRSpec env.qr → EighSpec env.eigh →
        ∀ o, Reachable env "likelihood" false { LEvalXData := some (some L) } o →
          ∀ mode, mode = "GS" ∨ mode = "GS_bis" ∨ mode = "KuTa12" →
            Samples (sampleExact env o mode) (lDppProb L) := by
  have hL := hE.likelihood X hX
  refine ⟨Matrix.of fun i j => k d (X i) (X j), fun _ _ => rfl, hE.single X hN hX, ?_⟩
  generalize Matrix.of (fun i j => k d (X i) (X j)) = L at hL
  obtain ⟨K, hK, hLK⟩ : ∃ K, IsCorrelation K ∧ LikelihoodOf L K := exists_corr hL
  have hd : Describes "likelihood" false ({ LEvalXData := some (some L) } : Params N) K := by
    refine Or.inr ⟨rfl, L, ?_, hK, hLK⟩
    exact {
      valid := hL
      some_given := by right; right; right; simp
      kernel := by intro A h; simp at h
      eig := by intro A h; simp at h
      gram := by intro A h; simp at h
      eval := by intro A h; simp at h; exact h.symm
      proj := by intro h; cases h
      noK := ⟨rfl, rfl, rfl⟩ }
  refine ⟨?_, fun env hqr he o ho mode hmode => ?_⟩
  · obtain ⟨o, h, -⟩ := init_describes (Info := Info) hd
    exact ⟨o, h⟩
  · have := C31_sample_exact_law hqr he hd ho mode hmode (by simp)
    have e : exactProb K = lDppProb L := funext fun S => exactProb_eq_lDppProb hLK S
    rwa [e] at this

/-- the points 1/4, 1/2, 1 with the minimum kernel -/
example : ∃ L : Matrix (Fin 3) (Fin 3) ℝ,
    evalMin (.two 3 1 fun i _ => ![1 / 4, 1 / 2, 1] i) none = .ok ⟨3, 3, L⟩ ∧ L 0 2 = 1 / 4 ∧ L 2 1 = 1 / 2 ∧
    IsLikelihood L := by
  have hX : ∀ i : Fin 3, UnitPoint 1 (fun _ => (![1 / 4, 1 / 2, 1] i : ℝ)) := by
    intro i
    refine ⟨rfl, fun _ => ?_⟩
    fin_cases i <;> norm_num
  refine ⟨_, C108_min.single _ (by norm_num) hX, ?_, ?_, C108_min.likelihood _ hX⟩
  · have : minPoint 1 (fun _ => (1 / 4 : ℝ)) (fun _ => 1) = 1 / 4 := by norm_num [minPoint]
    exact this
  · have : minPoint 1 (fun _ => (1 : ℝ)) (fun _ => 1 / 2) = 1 / 2 := by norm_num [minPoint]
    exact this

end Verif.Props
