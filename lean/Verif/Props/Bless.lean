import Verif.Lemmas.Bless2
import Mathlib.Analysis.Complex.ExponentialBounds

/-!
# BLESS (C44, C45, C68)
-/

namespace Verif.Props
open Verif Verif.Spec Verif.Model
open scoped ENNReal

variable {n : ℕ}

/-- C44: whatever the draws, `reduce_lambda` on a positive semi-definite similarity either raises `ValueError` or returns
a non-empty dictionary of strictly increasing indices of points of positive similarity, with inclusion probabilities
in `(0, 1]`, recorded with the new lambda and oversampling; and then lambda did not increase. -/
theorem C44_reduce_lambda (num : Numerics) (L : Matrix (Fin n) (Fin n) ℝ) (hL : L.PosSemidef) (D : Centers n) (lam : ℝ)
    (hlam : 0 < lam) (over? : Option ℝ) (hover : 0 < over?.getD D.over) (o : Outcome (Centers n))
    (ho : o ∈ (reduceLambda num L D lam over?).support) :
    o = .valueError ∨ ∃ D', o = .ok D' ∧ ValidDict L D' ∧ D'.lam = lam ∧ D'.over = over?.getD D.over ∧ lam ≤ D.lam :=
  reduceLambda_support hL hlam hover ho

/-- C44: `reduce_lambda` always raises `ValueError` when lambda increases. -/
theorem C44_raises_when_lambda_increases (num : Numerics) (L : Matrix (Fin n) (Fin n) ℝ) (D : Centers n) (lam : ℝ) (hlam : 0 < lam)
    (h : D.lam < lam) (over? : Option ℝ) : reduceLambda num L D lam over? = PMF.pure .valueError := by
  have : D.lam / lam < 1 := by rw [div_lt_one hlam]; exact h
  unfold reduceLambda
  rw [if_pos this]

/-- C44: on a positive semi-definite similarity and a dictionary with positive weights, the estimated leverage scores of
all the points are non-negative: the error `this should never happen` is never raised. -/
theorem C44_leverage_scores_nonneg (num : Numerics) (hn : NumericsSpec num) (L : Matrix (Fin n) (Fin n) ℝ) (hL : L.PosSemidef)
    (D : Centers n) (hne : D.items ≠ []) (hp : ∀ p ∈ D.items, 0 < p.2) (lam : ℝ) (hlam : 0 < lam) (U : Fin n → Bool) :
    ∃ rls, estimateRlsBless num L D U lam = .ok rls ∧ ∀ i, 0 ≤ rls i := by
  have hp' : ∀ e, 0 < D.probs e := fun e => hp _ (List.get_mem _ _)
  refine ⟨_, estimateRls_ok hn hL hne hp' hlam U, fun i => ?_⟩
  exact blessRls_nonneg hn hL (fun e => (hp' e).le) hlam (stableKeep_nodup _ _)
    (fun j hj => stableKeep_pos hn.eps.le (hn.svd _ _ (blessMat_psd hL (fun e => (hp' e).le) hlam.le)).1 hj) i

/-- A concrete similarity: two points, `L = I`. -/
def eye2 : Matrix (Fin 2) (Fin 2) ℝ := 1

/-- the points of `eye2` have positive similarity -/
theorem eye2_filter : (Finset.univ.filter fun i => 0 < eye2 i i) = Finset.univ := by
  ext i; simp [eye2]

/-- C45 does not hold: `bless` never leaves its first loop when the oversampling parameter times the number of points of
positive similarity is at most 10, whatever the positive semi-definite similarity. -/
theorem C45_bless_never_terminates (num : Numerics) (L : Matrix (Fin n) (Fin n) ℝ) (hL : L.PosSemidef) (lamFinal over : ℝ)
    (ho : 0 ≤ over) (nbIter : Option ℕ) (h : over * (Finset.univ.filter fun i => 0 < L i i).card ≤ 10) (fuel : ℕ) :
    bless num L lamFinal over nbIter fuel = none := by
  unfold bless
  rw [lamInitLoop_none (fun i => hL.diag_nonneg) ho h fuel _ (Nat.cast_nonneg n)]
  rfl

/-- in particular with the default parameters (`rls_oversample_bless = 4`) on two points with `L = I` -/
example (num : Numerics) (fuel : ℕ) : bless num eye2 1 4 none fuel = none :=
  C45_bless_never_terminates num eye2 .one 1 4 (by norm_num) none (by rw [eye2_filter]; norm_num) fuel

/-- C45, the part that holds: `bless` terminates when the oversampling parameter times the number of points of positive
similarity is above 10. -/
theorem C45_bless_terminates_partial (num : Numerics) (L : Matrix (Fin n) (Fin n) ℝ) (hL : L.PosSemidef) (lamFinal over : ℝ)
    (nbIter : Option ℕ) (h : 10 < over * (Finset.univ.filter fun i => 0 < L i i).card) :
    ∃ fuel p, bless num L lamFinal over nbIter fuel = some p := by
  obtain ⟨fuel, j, hf⟩ := lamInitLoop_some (fun i => hL.diag_nonneg) h n
  exact ⟨fuel, _, by unfold bless; rw [hf]; rfl⟩

/-- the hypothesis of the partial result is met by two points and an oversampling of 6 -/
example (num : Numerics) : ∃ fuel p, bless num eye2 1 6 none fuel = some p :=
  C45_bless_terminates_partial num eye2 .one 1 6 none (by rw [eye2_filter]; norm_num)

/-- C68: every dictionary returned by `bless` with at least two iterations is valid and has the requested lambda and
oversampling; all the other outcomes are `ValueError` (or `IndexError` on an empty data set). -/
theorem C68_bless_outcome (num : Numerics) (L : Matrix (Fin n) (Fin n) ℝ) (hL : L.PosSemidef) (lamFinal over : ℝ) (hf : 0 < lamFinal)
    (hover : 0 < over) (nbIter : Option ℕ) (hit : 2 ≤ blessIters n nbIter) (hn : 0 < n) (fuel : ℕ) (p : PMF (Outcome (Centers n)))
    (hp : bless num L lamFinal over nbIter fuel = some p) (o : Outcome (Centers n)) (ho : o ∈ p.support) :
    o = .valueError ∨ ∃ D, o = .ok D ∧ ValidDict L D ∧ D.lam = lamFinal ∧ D.over = over := by
  unfold bless at hp
  rw [Option.map_eq_some_iff] at hp
  obtain ⟨l, hl, rfl⟩ := hp
  have hl0 := lamInitLoop_pos _ _ _ (by exact_mod_cast hn) hl
  rcases blessFrom_support hL hover hf hl0.1 hit ho with h | h | ⟨D, h1, h2, h3, h4, -⟩
  · left; exact h
  · exfalso
    subst h
    unfold blessFrom at ho
    rw [mem_support_andThen] at ho
    rcases ho with ⟨D, hD, ho⟩ | ⟨e, he, h⟩
    · obtain ⟨k, hk⟩ := Nat.exists_eq_add_of_le' hit
      obtain ⟨mid, hmid⟩ := geomspace_reverse lamFinal l k
      have hpos : ∀ x ∈ mid ++ [lamFinal], 0 < x := by
        intro x hx
        refine geomspace_pos hf hl0.1 (k + 2) x ?_
        rw [← List.mem_reverse, hmid]
        exact List.mem_cons_of_mem _ hx
      rw [hk, hmid] at ho
      rcases blessInit_support hD with h | ⟨D', h, hlam, hov, -⟩
      · exact absurd h (by simp)
      · simp only [Outcome.ok.injEq] at h
        subst h
        rcases blessSteps_support hL hover _ D hov hpos _ ho with h | ⟨E, h1, -⟩
        · exact absurd h (by simp)
        · exact absurd h1 (by simp)
    · unfold blessInit at he
      rw [if_neg hn.ne', PMF.mem_support_map_iff] at he
      obtain ⟨sel, -, h⟩ := he
      exact absurd h (by simp)
  · right; exact ⟨D, h1, h2, h3, h4⟩

/-- C68: with a single iteration (in particular with the default number of iterations on two points) the requested lambda
is ignored: a returned dictionary still has the initial lambda. -/
theorem C68_single_iteration (num : Numerics) (L : Matrix (Fin n) (Fin n) ℝ) (lamFinal over : ℝ) (nbIter : Option ℕ)
    (hit : blessIters n nbIter = 1) (l : ℝ) (o : Outcome (Centers n)) (ho : o ∈ (blessFrom num L lamFinal over nbIter l).support)
    (D : Centers n) (hD : o = .ok D) : D.lam = l := by
  subst hD
  unfold blessFrom at ho
  rw [mem_support_andThen] at ho
  rcases ho with ⟨D', hD', ho⟩ | ⟨e, he, h⟩
  · rw [hit, geomspace_one] at ho
    have : D = D' := by
      rw [List.reverse_singleton] at ho
      simpa [blessSteps] using ho
    subst this
    rcases blessInit_support hD' with h | ⟨D'', h, hlam, -⟩
    · exact absurd h (by simp)
    · simp only [Outcome.ok.injEq] at h
      subst h; exact hlam
  · exact absurd h (by simp)

/-- with the default parameters, two points give one iteration -/
theorem blessIters_two : blessIters 2 none = 1 := by
  unfold blessIters
  simp only [Option.getD_none]
  refine (Nat.ceil_eq_iff one_ne_zero).2 ⟨?_, ?_⟩
  · simp only [Nat.cast_ofNat]
    have := Real.log_two_gt_d9
    norm_num
    linarith
  · have := Real.log_two_lt_d9
    norm_num
    linarith

/-- C68: the brackets returned by `bless_size` with at least two iterations are ordered and the dictionary has the lower
lambda: so the interval `[1 / lam_max, 1 / lam_min]` in which alpha-dpp searches its rescaling is a sub-interval of `(0, 1]`. -/
theorem C68_bless_size_bracket (num : Numerics) (L : Matrix (Fin n) (Fin n) ℝ) (hL : L.PosSemidef) (size over : ℝ)
    (hover : 0 < over) (nbIter : Option ℕ) (hinit : 1 ≤ sizeLamInit L size)
    (hit : 2 ≤ sizeIters (sizeLamInit L size) nbIter) (st : SizeState n) (ho : .ok st ∈ (blessSize num L size over nbIter).support) :
    ValidDict L st.dict ∧ st.dict.lam = st.lamMin ∧ 0 < 1 / st.lamMax ∧ 1 / st.lamMax ≤ 1 / st.lamMin ∧ 1 / st.lamMin ≤ 1 := by
  rcases blessSize_support hL hover hinit hit ho with h | h | ⟨st', h, h1, h2, -, h4, -, h6⟩
  · exact absurd h (by simp)
  · exact absurd h (by simp)
  · simp only [Outcome.ok.injEq] at h
    subst h
    have h0 : 0 < st.lamMin := by linarith
    exact ⟨h6, h4, one_div_pos.2 (h0.trans_le h2), one_div_le_one_div_of_le h0 h2, by rw [div_le_one h0]; exact h1⟩

/-- C68 does not extend to a single item: `bless_size` (hence `alpha_k_dpp_sampler` without pre-computed data) always raises
for `size = 1`. -/
theorem C68_size_one_raises (num : Numerics) (L : Matrix (Fin n) (Fin n) ℝ) (over : ℝ) (nbIter : Option ℕ) :
    blessSize num L 1 over nbIter = PMF.pure .valueError := by
  unfold blessSize; rw [if_pos rfl]

end Verif.Props
