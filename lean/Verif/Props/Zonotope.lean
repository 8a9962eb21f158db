import Verif.Model.Zonotope
import Verif.Props.MCMC
import Mathlib.Analysis.Convex.Extreme
import Mathlib.Analysis.Convex.KreinMilman
import Mathlib.LinearAlgebra.Matrix.NonsingularInverse

/-!
# Zonotope sampler (C41)
-/

set_option linter.unusedSectionVars false

namespace Verif.Spec
variable {N r : ℕ}

/-- Feasible points of the linear program at `x`: the `y ∈ [0,1]^N` with `A y = x`. -/
def Feasible (A : Matrix (Fin r) (Fin N) ℝ) (x : Fin r → ℝ) : Set (Fin N → ℝ) :=
  {y | (∀ a, ∑ i, A a i * y i = x a) ∧ ∀ i, 0 ≤ y i ∧ y i ≤ 1}

/-- Contract of the solver: at every point of the zonotope `lp` returns a vertex of the feasible set (the
simplex method of glpk does), and `seg` two points of the line that belong to the zonotope. -/
structure LpSpec (A : Matrix (Fin r) (Fin N) ℝ) (L : Model.Lp N r) : Prop where
  vertex : ∀ x, (Feasible A x).Nonempty → L.lp x ∈ Set.extremePoints ℝ (Feasible A x)
  ends : ∀ x d, (Feasible A x).Nonempty →
    (Feasible A fun a => x a + (L.seg x d).1 * d a).Nonempty ∧
    (Feasible A fun a => x a + (L.seg x d).2 * d a).Nonempty

/-- `B` lists in increasing order `r` columns of `A` that are linearly independent. -/
def IsBasis (A : Matrix (Fin r) (Fin N) ℝ) (B : List (Fin N)) : Prop :=
  B.Pairwise (· < ·) ∧ B.length = r ∧ LinearIndepOn ℝ (fun i => fun a => A a i) {i | i ∈ B}

end Verif.Spec

namespace Verif.Props
open Verif Verif.Spec Verif.Model

variable {N r : ℕ} {A : Matrix (Fin r) (Fin N) ℝ}

theorem mem_extractBasis {eps : ℝ} {y : Fin N → ℝ} {i : Fin N} :
    i ∈ extractBasis eps y ↔ eps < y i ∧ y i < 1 - eps := by simp [extractBasis]

theorem extractBasis_sorted {eps : ℝ} {y : Fin N → ℝ} : (extractBasis eps y).Pairwise (· < ·) :=
  (List.pairwise_lt_finRange N).filter _

/-- C41: the columns selected by `extract_basis` from a vertex of the feasible set are linearly
independent. -/
theorem C41_extract_basis_independent {x : Fin r → ℝ} {y : Fin N → ℝ} {eps : ℝ} (heps : 0 ≤ eps)
    (hy : y ∈ Set.extremePoints ℝ (Feasible A x)) :
    LinearIndepOn ℝ (fun i => fun a => A a i) {i | i ∈ extractBasis eps y} := by
  classical
  rw [mem_extremePoints] at hy
  obtain ⟨⟨hyx, hyb⟩, hext⟩ := hy
  rw [linearIndepOn_iff']
  intro s g hs hg
  by_contra hne
  push Not at hne
  obtain ⟨i0, hi0, hg0⟩ := hne
  -- the direction
  let c : Fin N → ℝ := fun i => if i ∈ s then g i else 0
  have hAc : ∀ a, ∑ i, A a i * c i = 0 := by
    intro a
    have := congrFun hg a
    simp only [Finset.sum_apply, Pi.smul_apply, smul_eq_mul, Pi.zero_apply] at this
    rw [← this, ← Finset.sum_subset (Finset.subset_univ s)]
    · refine Finset.sum_congr rfl fun i hi => ?_
      simp only [c, if_pos hi]; ring
    · intro i _ hi; simp [c, hi]
  have hint : ∀ i ∈ s, 0 < y i ∧ y i < 1 := by
    intro i hi
    have := mem_extractBasis.1 (hs hi)
    constructor <;> linarith [this.1, this.2]
  -- a common positive step
  obtain ⟨e, he, hsmall⟩ : ∃ e : ℝ, 0 < e ∧ ∀ i ∈ s, e * |c i| < y i ∧ e * |c i| < 1 - y i := by
    have : ∀ t : Finset (Fin N), t ⊆ s → ∃ e : ℝ, 0 < e ∧ ∀ i ∈ t, e * |c i| < y i ∧ e * |c i| < 1 - y i := by
      intro t
      induction t using Finset.induction_on with
      | empty => intro _; exact ⟨1, one_pos, by simp⟩
      | insert i t hi ih =>
        intro hts
        obtain ⟨e, he, h⟩ := ih (fun j hj => hts (Finset.mem_insert_of_mem hj))
        obtain ⟨h1, h2⟩ := hint i (hts (Finset.mem_insert_self i t))
        set m := min (y i) (1 - y i) with hm
        have hmpos : 0 < m := lt_min h1 (by linarith)
        refine ⟨min e (m / (|c i| + 1)), lt_min he (by positivity), ?_⟩
        intro j hj
        rcases Finset.mem_insert.1 hj with rfl | hj
        · have hb : min e (m / (|c j| + 1)) * |c j| < m := by
            calc min e (m / (|c j| + 1)) * |c j| ≤ m / (|c j| + 1) * |c j| :=
                  mul_le_mul_of_nonneg_right (min_le_right _ _) (abs_nonneg _)
              _ < m := by
                  rw [div_mul_eq_mul_div, div_lt_iff₀ (by positivity)]
                  nlinarith [abs_nonneg (c j)]
          exact ⟨lt_of_lt_of_le hb (min_le_left _ _), lt_of_lt_of_le hb (min_le_right _ _)⟩
        · have hle : min e (m / (|c i| + 1)) * |c j| ≤ e * |c j| :=
            mul_le_mul_of_nonneg_right (min_le_left _ _) (abs_nonneg _)
          exact ⟨lt_of_le_of_lt hle (h j hj).1, lt_of_le_of_lt hle (h j hj).2⟩
    exact this s (Finset.Subset.refl s)
  have hfeas : ∀ sg : ℝ, |sg| = e → (fun i => y i + sg * c i) ∈ Feasible A x := by
    intro sg hsg
    refine ⟨fun a => ?_, fun i => ?_⟩
    · have : ∑ i, A a i * (y i + sg * c i) = ∑ i, A a i * y i + sg * ∑ i, A a i * c i := by
        rw [Finset.mul_sum, ← Finset.sum_add_distrib]
        exact Finset.sum_congr rfl fun i _ => by ring
      rw [this, hyx, hAc]; ring
    · by_cases hi : i ∈ s
      · obtain ⟨h1, h2⟩ := hsmall i hi
        have hab : |sg * c i| = e * |c i| := by rw [abs_mul, hsg]
        have := abs_lt.1 (hab.trans_lt h1)
        have := abs_lt.1 (hab.trans_lt h2)
        constructor <;> linarith
      · simp only [c, if_neg hi, mul_zero, add_zero]; exact hyb i
  have h1 := hfeas e (abs_of_pos he)
  have h2 := hfeas (-e) (by rw [abs_neg, abs_of_pos he])
  have hmid : y ∈ openSegment ℝ (fun i => y i + e * c i) (fun i => y i + -e * c i) := by
    refine ⟨1 / 2, 1 / 2, by norm_num, by norm_num, by norm_num, ?_⟩
    funext i
    simp only [Pi.add_apply, Pi.smul_apply, smul_eq_mul]
    ring
  have := congrFun (hext _ h1 _ h2 hmid).1 i0
  simp only [c, if_pos hi0] at this
  have : e * g i0 = 0 := by linarith
  rcases mul_eq_zero.1 this with h | h
  · exact he.ne' h
  · exact hg0 h

theorem detCols_ne_zero {B : List (Fin N)} (hB : IsBasis A B) : detCols A B ≠ 0 := by
  obtain ⟨h1, h2, h3⟩ := hB
  have hnd : B.Nodup := h1.imp fun h => h.ne
  unfold detCols
  rw [dif_pos h2]
  intro hdet
  have hli : LinearIndependent ℝ (fun b : Fin r => fun a => A a (B.get (Fin.cast h2.symm b))) := by
    let f : Fin r → {i // i ∈ B} := fun b => ⟨B.get (Fin.cast h2.symm b), List.get_mem _ _⟩
    have hf : Function.Injective f := by
      intro a b hab
      have := congrArg Subtype.val hab
      have := (List.nodup_iff_injective_get.1 hnd) this
      simpa using this
    exact (LinearIndependent.comp h3 f hf)
  have hu : IsUnit (Matrix.of fun a b : Fin r => A a (B.get (Fin.cast h2.symm b))) :=
    Matrix.linearIndependent_cols_iff_isUnit.1 hli
  rw [Matrix.isUnit_iff_isUnit_det, hdet] at hu
  simp at hu

theorem feasible_point {L : Lp N r} (hL : LpSpec A L) {x : Fin r → ℝ} (hx : (Feasible A x).Nonempty)
    {t : ZDraw r} (h0 : 0 ≤ t.u) (h1 : t.u ≤ 1) : (Feasible A (zonoPoint L x t)).Nonempty := by
  obtain ⟨⟨y1, e1, b1⟩, ⟨y2, e2, b2⟩⟩ := hL.ends x t.d hx
  refine ⟨fun i => (1 - t.u) * y1 i + t.u * y2 i, fun a => ?_, fun i => ?_⟩
  · have : ∑ i, A a i * ((1 - t.u) * y1 i + t.u * y2 i)
        = (1 - t.u) * ∑ i, A a i * y1 i + t.u * ∑ i, A a i * y2 i := by
      rw [Finset.mul_sum, Finset.mul_sum, ← Finset.sum_add_distrib]
      exact Finset.sum_congr rfl fun i _ => by ring
    rw [this, e1, e2, zonoPoint]; ring
  · obtain ⟨c1, c2⟩ := b1 i
    obtain ⟨c3, c4⟩ := b2 i
    constructor
    · nlinarith
    · nlinarith

/-- invariant of the chain -/
def ZGood (A : Matrix (Fin r) (Fin N) ℝ) (s : ZSt N r) : Prop :=
  (Feasible A s.x).Nonempty ∧ IsBasis A s.B ∧ s.det = detCols A s.B

theorem isBasis_extract {L : Lp N r} (hL : LpSpec A L) {x : Fin r → ℝ} (hx : (Feasible A x).Nonempty)
    (hlen : (extractBasis zEps (L.lp x)).length = r) : IsBasis A (extractBasis zEps (L.lp x)) :=
  ⟨extractBasis_sorted, hlen, C41_extract_basis_independent (by unfold zEps; norm_num) (hL.vertex x hx)⟩

theorem zonoStep_good {L : Lp N r} (hL : LpSpec A L) {s : ZSt N r} (hs : ZGood A s) {t : ZDraw r}
    (h0 : 0 ≤ t.u) (h1 : t.u ≤ 1) : ZGood A (zonoStep A L s t) := by
  unfold zonoStep
  simp only
  split
  · rename_i h
    have hf := feasible_point hL hs.1 h0 h1
    exact ⟨hf, isBasis_extract hL hf h.1, rfl⟩
  · exact hs

theorem zonoLoop_good {L : Lp N r} (hL : LpSpec A L) {stop : ℕ → Bool} {tape : ℕ → ZDraw r}
    (ht : ∀ n, 0 ≤ (tape n).u ∧ (tape n).u ≤ 1) : ∀ n it s, ZGood A s →
    (∀ s' ∈ zonoLoop A L stop tape it n s, ZGood A s') ∧ (zonoLoop A L stop tape it n s).length ≤ n ∧
    ((∀ i, stop i = false) → (zonoLoop A L stop tape it n s).length = n) := by
  intro n
  induction n with
  | zero => intro it s hs; simp [zonoLoop]
  | succ n ih =>
    intro it s hs
    have hg := zonoStep_good hL hs (ht it).1 (ht it).2
    rw [zonoLoop]
    split
    · rename_i hst
      refine ⟨by simpa using hg, by simp, fun h => ?_⟩
      rw [h it] at hst; cases hst
    · obtain ⟨g1, g2, g3⟩ := ih (it + 1) _ hg
      refine ⟨?_, by simpa using g2, fun h => by simpa using g3 h⟩
      intro s' hs'
      rcases List.mem_cons.1 hs' with rfl | hs'
      · exact hg
      · exact g1 s' hs'

theorem zonoInit_eq {L : Lp N r} {x0 : Fin r → ℝ} : ∀ n B0 B, zonoInit L x0 n B0 = some B →
    B.length = r ∧ (B = B0 ∨ B = extractBasis zEps (L.lp x0)) := by
  intro n
  induction n with
  | zero =>
    intro B0 B h
    rw [zonoInit] at h
    split at h
    · cases h; rename_i h; exact ⟨h, Or.inl rfl⟩
    · cases h
  | succ n ih =>
    intro B0 B h
    rw [zonoInit] at h
    split at h
    · cases h; rename_i h; exact ⟨h, Or.inl rfl⟩
    · obtain ⟨a, b⟩ := ih _ _ h
      exact ⟨a, Or.inr (b.elim id id)⟩

/-- C41: with a solver returning vertices, without time limit, every chain returned by the zonotope
sampler has `nb_iter` rows, each made of `r` distinct column indices, in increasing order, whose columns
are linearly independent. -/
theorem C41_states_are_bases {L : Lp N r} (hL : LpSpec A L) (o : McmcOpts) (hT : o.tMax = none)
    (tape : ℕ → ZDraw r) (ht : ∀ n, 0 ≤ (tape n).u ∧ (tape n).u ≤ 1) {x0 : Fin r → ℝ}
    (hx : (Feasible A x0).Nonempty) {fuel chain} (h : zonoSampler A L o tape x0 fuel = some (.ok chain)) :
    chain.length = o.nbIter ∧ ∀ B ∈ chain, IsBasis A B := by
  rw [zonoSampler, Option.map_eq_some_iff] at h
  obtain ⟨B, hB, h⟩ := h
  split at h
  · cases h
  · rename_i hn
    obtain ⟨hr, hb⟩ := zonoInit_eq _ _ _ hB
    have hbas : IsBasis A B := by
      rcases hb with rfl | rfl
      · refine ⟨List.Pairwise.nil, hr, ?_⟩
        simp
      · exact isBasis_extract hL hx hr
    obtain ⟨g1, g2, g3⟩ := zonoLoop_good hL (stop := stopAt o) ht (o.nbIter - 1) 1 ⟨x0, B, detCols A B⟩ ⟨hx, hbas, rfl⟩
    have hl := g3 (fun i => by rw [stopAt_none hT])
    simp only [Outcome.ok.injEq] at h
    subst h
    rw [hl]
    simp only [Nat.sub_self, List.replicate_zero, List.append_nil, List.length_cons, List.length_map, hl]
    refine ⟨by omega, ?_⟩
    intro B' hB'
    rcases List.mem_cons.1 hB' with rfl | hB'
    · exact hbas
    · obtain ⟨s, hs, rfl⟩ := List.mem_map.1 hB'
      exact (g1 s hs).2.1

/-- C41: one iteration moves to the tile of the proposed point exactly when this tile has `r` columns and
the uniform number is below the ratio of the volumes of the tiles, which is always a well defined
positive number (both determinants are non-zero). -/
theorem C41_acceptance {L : Lp N r} (hL : LpSpec A L) {s : ZSt N r} (hs : ZGood A s) (t : ZDraw r)
    (hu : 0 ≤ t.u ∧ t.u ≤ 1) (B1 : List (Fin N)) (hB1 : B1 = extractBasis zEps (L.lp (zonoPoint L s.x t))) :
    detCols A s.B ≠ 0 ∧ (B1.length = r → detCols A B1 ≠ 0) ∧
    ((zonoStep A L s t).B = if B1.length = r ∧ t.v < |detCols A B1| / |detCols A s.B| then B1 else s.B) := by
  subst hB1
  refine ⟨detCols_ne_zero hs.2.1, fun h => detCols_ne_zero (isBasis_extract hL (feasible_point hL hs.1 hu.1 hu.2) h), ?_⟩
  unfold zonoStep
  simp only [abs_div, hs.2.2]
  split <;> rfl

/-- C41 (finding): the initialisation solves the same linear program again and again: if its solution at
`x_0` does not give `r` columns, no number of rounds is enough, the sampler never returns. -/
theorem C41_init_diverges {L : Lp N r} (o : McmcOpts) (tape : ℕ → ZDraw r) {x0 : Fin r → ℝ} (hr : 0 < r)
    (h : (extractBasis zEps (L.lp x0)).length ≠ r) (fuel : ℕ) : zonoSampler A L o tape x0 fuel = none := by
  have aux : ∀ n B0, B0.length ≠ r → zonoInit L x0 n B0 = none := by
    intro n
    induction n with
    | zero => intro B0 h0; rw [zonoInit, if_neg h0]
    | succ n ih => intro B0 h0; rw [zonoInit, if_neg h0]; exact ih _ h
  rw [zonoSampler, aux _ _ (by simp; omega)]
  rfl

/-- C41: otherwise one round is enough. -/
theorem C41_init_terminates {L : Lp N r} (o : McmcOpts) (tape : ℕ → ZDraw r) {x0 : Fin r → ℝ} (hn : 0 < o.nbIter)
    (h : (extractBasis zEps (L.lp x0)).length = r) (fuel : ℕ) :
    ∃ chain, zonoSampler A L o tape x0 (fuel + 1) = some (.ok chain) := by
  have : ∃ B, zonoInit L x0 (fuel + 1) [] = some B := by
    rw [zonoInit]
    split
    · exact ⟨_, rfl⟩
    · change ∃ B, zonoInit L x0 fuel (extractBasis zEps (L.lp x0)) = some B
      exact ⟨_, by cases fuel <;> rw [zonoInit, if_pos h]⟩
  obtain ⟨B, hB⟩ := this
  rw [zonoSampler, hB]
  simp only [Option.map_some, if_neg (by omega : ¬ o.nbIter = 0)]
  exact ⟨_, rfl⟩

/-- C41 (finding): with a time limit that the first iteration does not reach, the chain ends with rows of
zeros, which are not bases as soon as `r ≥ 2`. -/
theorem C41_time_limit_refuted {L : Lp N r} (o : McmcOpts) (tape : ℕ → ZDraw r) {x0 : Fin r → ℝ} (T : ℝ)
    (hT : o.tMax = some T) (hT0 : 0 < T) (hclk : o.clock 1 - o.clock 0 < T) (hn : 3 ≤ o.nbIter) (hr : 2 ≤ r)
    {fuel chain} (h : zonoSampler A L o tape x0 fuel = some (.ok chain)) :
    ∃ B, chain.getLast? = some B ∧ ¬ B.Nodup ∧ ¬ IsBasis A B := by
  rw [zonoSampler, Option.map_eq_some_iff] at h
  obtain ⟨B, hB, h⟩ := h
  rw [if_neg (by omega)] at h
  obtain ⟨hr', -⟩ := zonoInit_eq _ _ _ hB
  obtain ⟨m, hm⟩ : ∃ m, o.nbIter - 1 = m + 2 := ⟨o.nbIter - 3, by omega⟩
  have hst : stopAt o 1 = true := by
    rw [stopAt, hT]; simp [hT0.ne', hclk]
  have hl : (zonoLoop A L (stopAt o) tape 1 (o.nbIter - 1) ⟨x0, B, detCols A B⟩).length = 1 := by
    rw [hm, zonoLoop]; simp only [hst, if_true]; rfl
  simp only [Outcome.ok.injEq] at h
  subst h
  have hnd : ¬ (zeroRow B).Nodup := by
    intro hnd
    match B, hr' with
    | [], h => simp at h; omega
    | [_], h => simp at h; omega
    | a :: b :: S, _ => simp [zeroRow] at hnd
  refine ⟨zeroRow B, ?_, hnd, fun h => hnd (h.1.imp fun h => h.ne)⟩
  rw [hl, hm, show m + 2 - 1 = m + 1 from rfl, List.replicate_succ', ← List.append_assoc, List.getLast?_append]
  rfl

/-- Non-vacuity: for every matrix some solver meets the contract (the feasible set is compact and convex, so
it has a vertex as soon as it is not empty). -/
theorem exists_LpSpec (A : Matrix (Fin r) (Fin N) ℝ) : ∃ L : Lp N r, LpSpec A L := by
  classical
  have hv : ∀ x, (Feasible A x).Nonempty → ∃ y, y ∈ Set.extremePoints ℝ (Feasible A x) := by
    intro x hne
    have hcl : IsClosed (Feasible A x) := by
      have : Feasible A x = (⋂ a, {y | ∑ i, A a i * y i = x a}) ∩ ⋂ i, {y | 0 ≤ y i ∧ y i ≤ 1} := by
        ext y; simp [Feasible]
      rw [this]
      refine IsClosed.inter (isClosed_iInter fun a => ?_) (isClosed_iInter fun i => ?_)
      · exact isClosed_eq (by fun_prop) continuous_const
      · exact (isClosed_le continuous_const (continuous_apply i)).inter
          (isClosed_le (continuous_apply i) continuous_const)
    have hcp : IsCompact (Feasible A x) := by
      refine (isCompact_univ_pi fun _ : Fin N => isCompact_Icc (a := (0 : ℝ)) (b := 1)).of_isClosed_subset hcl ?_
      intro y hy i _
      exact hy.2 i
    exact hcp.extremePoints_nonempty hne
  refine ⟨⟨fun x => if h : (Feasible A x).Nonempty then (hv x h).choose else 0, fun _ _ => (0, 0)⟩, ?_, ?_⟩
  · intro x h
    simp only [dif_pos h]
    exact (hv x h).choose_spec
  · intro x d h
    simpa using h

end Verif.Props
