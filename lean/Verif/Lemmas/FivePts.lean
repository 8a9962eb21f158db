import Verif.Lemmas.DiagPts
import Verif.Lemmas.Bracket2

/-!
Five orthogonal points, the last one longer than the others, and `k = 2`: ties of the k-DPP sampler of alpha-dpp.
-/

namespace Verif.FivePts
open Verif Verif.Spec Verif.Model Verif.DiagPts Matrix
open scoped ENNReal NNReal

variable {num : Numerics}

/-- the squared norms of the five points -/
noncomputable def ell (i : Fin 5) : ℝ := if i.val = 4 then 1 / 2 else 1 / 4

theorem ell_pos (i : Fin 5) : 0 < ell i := by unfold ell; split <;> norm_num

theorem ell_last {i : Fin 5} (h : i.val = 4) : ell i = 1 / 2 := if_pos h

theorem ell_other {i : Fin 5} (h : i.val ≠ 4) : ell i = 1 / 4 := if_neg h

/-- the kernel -/
noncomputable def ker : Matrix (Fin 5) (Fin 5) ℝ := diagonal ell

theorem ker_psd : ker.PosSemidef := diag_kernel_psd ell_pos

theorem ker_sum : ∑ i, ker i i = 3 / 2 := by
  unfold ker ell
  simp only [diagonal_apply_eq]
  rw [Fin.sum_univ_five]
  norm_num

theorem inj_of_sorted {n : ℕ} {D : Centers n} (h : (D.items.map Prod.fst).Pairwise (· < ·)) : Function.Injective D.idx := by
  have h1 : (D.items.map Prod.fst).Nodup := h.imp fun h => h.ne
  intro a b hab
  unfold Centers.idx at hab
  have h2 := h1.injective_get
  have h3 : (D.items.map Prod.fst).get (a.cast (by simp)) = (D.items.map Prod.fst).get (b.cast (by simp)) := by
    simpa using hab
  have h4 := h2 h3
  exact Fin.ext (by simpa [Fin.ext_iff] using h4)

/-! ### BLESS -/

theorem lamInit_five : sizeLamInit ker ((2:ℕ):ℝ) = 3 / 2 := by
  unfold sizeLamInit
  rw [ker_sum]
  norm_num

theorem iters_five : sizeIters (sizeLamInit ker ((2:ℕ):ℝ)) none = 1 := by
  rw [lamInit_five]
  unfold sizeIters
  simp only
  rw [Int.ceil_eq_iff]
  push_cast
  constructor
  · rw [sub_self]
    exact Real.logb_pos (by norm_num) (by norm_num)
  · rw [Real.logb_le_iff_le_rpow (by norm_num) (by norm_num)]
    norm_num

/-- the initial dictionary of BLESS -/
structure IsInit (D : Centers 5) : Prop where
  lam : D.lam = 3 / 2
  ne : D.items ≠ []
  inj : Function.Injective D.idx
  probs : ∀ e, D.probs e = if (D.idx e).val = 0 then 4 else if (D.idx e).val = 4 then 1 else 4 / 7

theorem ucbInit_five (i : Fin 5) : ucbInit ker 4 (3 / 2) i = if i.val = 4 then 1 else 4 / 7 := by
  unfold ucbInit ker
  rw [diagonal_apply_eq]
  unfold ell
  split <;> norm_num

theorem IsInit.pos {D : Centers 5} (h : IsInit D) (e : Fin D.items.length) : 0 < D.probs e := by
  rw [h.probs]
  split
  · norm_num
  · split <;> norm_num

theorem blessSize_five {st : SizeState 5} (h : .ok st ∈ (blessSize num ker ((2:ℕ):ℝ) 4 none).support) :
    st.lamMax = 3 / 2 ∧ st.lamMin = 1 ∧ IsInit st.dict := by
  unfold blessSize at h
  rw [if_neg (by norm_num), iters_five, if_neg (by norm_num), mem_support_andThen] at h
  have hg : (geomspace 1 (sizeLamInit ker ((2:ℕ):ℝ)) (1:ℤ).toNat).reverse = [1] := by
    simp [geomspace]
  rw [hg, lamInit_five] at h
  rcases h with ⟨D, hD, h⟩ | ⟨e, -, h⟩
  swap
  · exact absurd h (by simp)
  simp only [sizeLoop, PMF.support_pure, Set.mem_singleton_iff, Outcome.ok.injEq] at h
  subst h
  refine ⟨rfl, rfl, ?_⟩
  obtain ⟨h1, h2⟩ : ∃ D', Outcome.ok D = .ok D' ∧ D'.lam = 3 / 2 ∧ D'.over = 4 ∧ D'.items ≠ [] ∧
      (D'.items.map Prod.fst).Pairwise (· < ·) := by
    rcases blessInit_support hD with h | h
    · exact absurd h (by simp [Outcome.indexError])
    · exact h
  obtain ⟨h3, h4, -, h5, h6⟩ := h2
  rw [Outcome.ok.injEq] at h3
  subst h3
  refine ⟨h4, h5, inj_of_sorted h6, ?_⟩
  unfold blessInit at hD
  rw [if_neg (by norm_num), PMF.mem_support_map_iff] at hD
  obtain ⟨sel, -, hD⟩ := hD
  rw [Outcome.ok.injEq] at hD
  subst hD
  intro e
  unfold Centers.probs Centers.idx
  rw [List.get_eq_getElem]
  simp only [List.getElem_map]
  split
  · norm_num
  · exact ucbInit_five _

/-- the dictionary with the forced point and the last point only -/
noncomputable def twoDict : Centers 5 where
  items := [(0, 4), (4, 1)]
  lam := 3 / 2
  over := 4

theorem blessSize_two_five : .ok
      { lamMax := 3 / 2
        lamMin := 1
        lamNew := 1
        deff := 1
        dict := twoDict } ∈ (blessSize num ker ((2:ℕ):ℝ) 4 none).support := by
  unfold blessSize
  rw [if_neg (by norm_num), iters_five, if_neg (by norm_num), mem_support_andThen]
  have hg : (geomspace 1 (sizeLamInit ker ((2:ℕ):ℝ)) (1:ℤ).toNat).reverse = [1] := by
    simp [geomspace]
  rw [hg, lamInit_five]
  refine Or.inl ⟨twoDict, ?_, ?_⟩
  · unfold blessInit
    rw [if_neg (by norm_num), PMF.mem_support_map_iff]
    refine ⟨fun i => decide (i.val = 4), indep_support _ _ fun i => ?_, ?_⟩
    · rw [ucbInit_five]
      by_cases hi : i.val = 4
      · rw [if_pos hi, decide_eq_true hi]
        exact TenPoints.coin_true_support one_pos
      · rw [if_neg hi]
        exact coin_support (by norm_num) (by norm_num) _
    · have hs : (selOnes fun i : Fin 5 => (decide (i.val = 4) || decide (i.val = 0))) = [0, 4] := by decide
      rw [hs]
      have h4 : ucbInit ker 4 (3 / 2) 4 = 1 := by rw [ucbInit_five, if_pos (by decide)]
      simp [twoDict, h4]
  · simp only [sizeLoop, PMF.support_pure, Set.mem_singleton_iff, Outcome.ok.injEq]
    norm_num

theorem twoDict_init : IsInit twoDict := (blessSize_five (num := ⟨fun _ _ => (0, 0), fun _ _ => (0, 0), fun _ _ _ => none, 0⟩)
  blessSize_two_five).2.2

/-! ### reduce_lambda -/

theorem keep_init (hn : NumericsSpec num) (heps : 100 * num.eps < 1) {D : Centers 5} (h : IsInit D) :
    stableKeep num.eps (num.svd _ (blessMat ker D (3 / 2))).2 = List.finRange _ := by
  have hb : ∀ e, 1 ≤ ell (D.idx e) + 3 / 2 * D.probs e ∧ ell (D.idx e) + 3 / 2 * D.probs e ≤ 7 := by
    intro e
    rw [h.probs]
    unfold ell
    split <;> split <;> try split
    all_goals norm_num
  have hlen : D.items.length ≤ 5 := by
    simpa using Fintype.card_le_of_injective _ h.inj
  refine stableKeep_full (lo := 1) (hi := 7) hn.eps.le one_pos ?_ fun j => ?_
  · have : (D.items.length : ℝ) ≤ 5 := by exact_mod_cast hlen
    have := hn.eps
    nlinarith
  · have hd : ∀ e, 0 ≤ ell (D.idx e) + 3 / 2 * D.probs e := fun e => by linarith [(hb e).1]
    obtain ⟨e, he⟩ := svd_range hn hd (blessMat_diag (ℓ := ell) h.inj (3 / 2)) j
    change 1 ≤ (num.svd _ (blessMat (diagonal ell) D (3 / 2))).2 j ∧ (num.svd _ (blessMat (diagonal ell) D (3 / 2))).2 j ≤ 7
    rw [he]
    exact hb e

/-- the probabilities computed by `reduce_lambda` from an initial dictionary, with an oversampling of one -/
theorem redProbs_five (hn : NumericsSpec num) (heps : 100 * num.eps < 1) {D : Centers 5} (h : IsInit D) (i : Fin 5) :
    (i.val = 4 → redProbs ker 1 (3 / 2) (blessRls num ker D (3 / 2) (stableKeep num.eps (num.svd _ (blessMat ker D (3 / 2))).2)) i
      = 1 / 4) ∧
    (i.val ≠ 4 → redProbs ker 1 (3 / 2) (blessRls num ker D (3 / 2) (stableKeep num.eps (num.svd _ (blessMat ker D (3 / 2))).2)) i
      = if i.val ≠ 0 ∧ ∃ e, D.idx e = i then 4 / 31 else 1 / 7) := by
  classical
  rw [keep_init hn heps h]
  have hu : ucb ker 1 (3 / 2) i = if i.val = 4 then 1 / 4 else 1 / 7 := by
    unfold ucb ker
    rw [diagonal_apply_eq]
    unfold ell
    split <;> norm_num
  unfold redProbs
  rw [hu, one_mul]
  by_cases hi : ∃ e, D.idx e = i
  · obtain ⟨e, rfl⟩ := hi
    have hr := blessRls_in hn ell_pos h.inj h.pos (lam := 3 / 2) (by norm_num) e
    change blessRls num ker D (3 / 2) (List.finRange _) (D.idx e) = _ at hr
    rw [hr, h.probs]
    constructor
    · intro h4
      rw [if_neg (by omega), if_pos h4, if_pos h4, ell_last h4]
      norm_num
    · intro h4
      rw [if_neg h4, if_neg h4, ell_other h4]
      by_cases h0 : (D.idx e).val = 0
      · rw [if_pos h0, if_neg (by tauto)]; norm_num
      · rw [if_neg h0, if_pos ⟨h0, e, rfl⟩]; norm_num
  · have hr := blessRls_out (num := num) (ℓ := ell) (D := D) (3 / 2) (i := i) (fun e he => hi ⟨e, he⟩)
    change blessRls num ker D (3 / 2) (List.finRange _) i = _ at hr
    rw [hr]
    constructor
    · intro h4
      rw [if_pos h4, ell_last h4]; norm_num
    · intro h4
      rw [if_neg h4, ell_other h4, if_neg (by tauto)]; norm_num

/-- the dictionaries of alpha-dpp -/
structure IsAlpha (D : Centers 5) : Prop where
  lam : D.lam = 3 / 2
  inj : Function.Injective D.idx
  last : ∀ e, (D.idx e).val = 4 → D.probs e = 1 / 4
  other : ∀ e, (D.idx e).val ≠ 4 → D.probs e = 4 / 31 ∨ D.probs e = 1 / 7

theorem IsAlpha.bounds {D : Centers 5} (h : IsAlpha D) (e : Fin D.items.length) : 1 ≤ ell (D.idx e) / D.probs e ∧
    ell (D.idx e) / D.probs e ≤ 2 ∧ 0 < D.probs e := by
  by_cases h4 : (D.idx e).val = 4
  · rw [h.last e h4, ell_last h4]; norm_num
  · rw [ell_other h4]
    rcases h.other e h4 with h1 | h1 <;> rw [h1] <;> norm_num

theorem IsAlpha.pos {D : Centers 5} (h : IsAlpha D) (e : Fin D.items.length) : 0 < D.probs e := (h.bounds e).2.2

theorem reduceLambda_five (hn : NumericsSpec num) (heps : 100 * num.eps < 1) {D D' : Centers 5} (h : IsInit D)
    (h' : .ok D' ∈ (reduceLambda num ker D (3 / 2) (some 1)).support) : IsAlpha D' := by
  have hp := reduceLambda_probs hn ker_psd h.ne h.pos (by norm_num) h'
  rcases reduceLambda_support ker_psd (by norm_num) (by norm_num) h' with h1 | ⟨D₁, h1, h2, h3, -⟩
  · exact absurd h1 (by simp [Outcome.valueError])
  rw [Outcome.ok.injEq] at h1
  subst h1
  refine ⟨h3, inj_of_sorted h2.increasing, fun e h4 => ?_, fun e h4 => ?_⟩
  · rw [hp e]; exact (redProbs_five hn heps h _).1 h4
  · rw [hp e, (redProbs_five hn heps h _).2 h4]
    split
    · exact Or.inl rfl
    · exact Or.inr rfl

theorem keep_alpha (hn : NumericsSpec num) (heps : 100 * num.eps < 1) {D : Centers 5} (h : IsAlpha D) :
    stableKeep num.eps (num.eigh _ (lHat ker D)).1 = List.finRange _ := by
  have hlen : D.items.length ≤ 5 := by
    simpa using Fintype.card_le_of_injective _ h.inj
  refine stableKeep_full (lo := 1) (hi := 2) hn.eps.le one_pos ?_ fun j => ?_
  · have : (D.items.length : ℝ) ≤ 5 := by exact_mod_cast hlen
    have := hn.eps
    nlinarith
  · obtain ⟨e, he⟩ := eigh_range hn (DiagPts.lHat_diag (ℓ := ell) h.inj h.pos) j
    change 1 ≤ (num.eigh _ (lHat (diagonal ell) D)).1 j ∧ (num.eigh _ (lHat (diagonal ell) D)).1 j ≤ 2
    rw [he]
    exact ⟨(h.bounds e).1, (h.bounds e).2.1⟩

/-! ### no tie contains the last point and another one -/

theorem noTie_last (hn : NumericsSpec num) {D : Centers 5} (h : IsAlpha D) {a : ℝ} (ha : 0 < a)
    {j : Fin 5} (hj : j.val ≠ 4) : NoTieOn ker (fullNys num ell D) a 2 {j, 4} := by
  intro c _ hT h0
  have h1 := (tie_iff hn ell_pos h.pos ha two_pos c).1 h0
  have hx : ∀ i ∈ ({j, 4} : Finset (Fin 5)), a * (ell i * invP D i) = 1 := by
    intro i hi
    have h2 := h1 i
    have h3 := hT i hi
    have h4 : 0 ≤ a * (ell i * invP D i) := mul_nonneg ha.le (mul_nonneg (ell_pos i).le (invP_nonneg h.pos i))
    have h5 : (c i : ℝ) < 2 := by
      by_contra h6
      push Not at h6
      nlinarith
    have h6 : c i < 2 := by exact_mod_cast h5
    have h7 : c i = 1 := by omega
    rw [h7] at h2
    push_cast at h2
    linarith
  have hin : ∀ i ∈ ({j, 4} : Finset (Fin 5)), ∃ e, D.idx e = i := by
    intro i hi
    by_contra hno
    push Not at hno
    have := hx i hi
    rw [invP_out hno] at this
    simp at this
  obtain ⟨e, he⟩ := hin j (by simp)
  obtain ⟨f, hf⟩ := hin 4 (by simp)
  have h3 := hx j (by simp)
  have h4 := hx 4 (by simp)
  rw [← he, invP_in h.inj, he, ell_other hj] at h3
  rw [← hf, invP_in h.inj, hf, ell_last (by decide), h.last f (by rw [hf]; decide)] at h4
  rcases h.other e (by rw [he]; exact hj) with h5 | h5
  · rw [h5] at h3; norm_num at h3 h4; linarith
  · rw [h5] at h3; norm_num at h3 h4; linarith

end Verif.FivePts
