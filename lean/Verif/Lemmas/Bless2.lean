import Verif.Lemmas.Bless
import Mathlib.Analysis.SpecificLimits.Basic
import Mathlib.Topology.Algebra.Order.Field

/-!
The loops of BLESS.
-/

namespace Verif
open Verif Verif.Spec Verif.Model Matrix
open scoped ENNReal

variable {n : ℕ} {L : Matrix (Fin n) (Fin n) ℝ} {num : Numerics}

/-! ### the search of `lam_init` -/

theorem lamInitLoop_none (hL : ∀ i, 0 ≤ L i i) {over : ℝ} (ho : 0 ≤ over)
    (h : over * (Finset.univ.filter fun i => 0 < L i i).card ≤ 10) :
    ∀ fuel lam, 0 ≤ lam → lamInitLoop L over fuel lam = none
  | 0, _, _ => rfl
  | fuel + 1, lam, hlam => by
    rw [lamInitLoop, if_pos]
    · exact lamInitLoop_none hL ho h fuel _ (by positivity)
    · refine le_trans ?_ h
      rw [Finset.card_filter]
      push_cast
      rw [Finset.mul_sum]
      refine Finset.sum_le_sum fun i _ => ?_
      unfold ucbInit
      split
      · rename_i hi
        rw [mul_one, mul_div_assoc]
        exact mul_le_of_le_one_right ho (div_le_one_of_le₀ (by linarith) (by linarith))
      · rename_i hi
        have : L i i = 0 := le_antisymm (not_lt.1 hi) (hL i)
        rw [this]; simp

theorem lamInitLoop_some_aux (L : Matrix (Fin n) (Fin n) ℝ) (over : ℝ) : ∀ k lam,
    10 < ∑ i, ucbInit L over (lam / 1.25 ^ k) i → ∃ fuel j, lamInitLoop L over fuel lam = some (lam / 1.25 ^ j)
  | 0, lam, h => ⟨1, 0, by rw [lamInitLoop, if_neg (by rw [not_le]; simpa using h)]; simp⟩
  | k + 1, lam, h => by
    by_cases h1 : ∑ i, ucbInit L over lam i ≤ 10
    · obtain ⟨f, j, hf⟩ := lamInitLoop_some_aux L over k (lam / 1.25) (by
        have : lam / 1.25 / 1.25 ^ k = lam / 1.25 ^ (k + 1) := by rw [pow_succ]; field_simp
        rw [this]; exact h)
      refine ⟨f + 1, j + 1, ?_⟩
      rw [lamInitLoop, if_pos h1, hf]
      congr 1
      rw [pow_succ]; field_simp
    · exact ⟨1, 0, by rw [lamInitLoop, if_neg h1]; simp⟩

theorem ucbInit_tendsto (hL : ∀ i, 0 ≤ L i i) (over lam : ℝ) :
    Filter.Tendsto (fun k : ℕ => ∑ i, ucbInit L over (lam / 1.25 ^ k) i) Filter.atTop
      (nhds (over * (Finset.univ.filter fun i => 0 < L i i).card)) := by
  rw [Finset.card_filter]
  push_cast
  rw [Finset.mul_sum]
  refine tendsto_finsetSum _ fun i _ => ?_
  unfold ucbInit
  have h0 : Filter.Tendsto (fun k : ℕ => lam / 1.25 ^ k) Filter.atTop (nhds 0) := by
    have := tendsto_pow_atTop_nhds_zero_of_lt_one (r := (1.25:ℝ)⁻¹) (by norm_num) (by norm_num)
    have h2 := this.const_mul lam
    rw [mul_zero] at h2
    refine h2.congr fun k => ?_
    rw [inv_pow]; rfl
  split
  · rename_i hi
    have h1 : Filter.Tendsto (fun k : ℕ => L i i + lam / 1.25 ^ k) Filter.atTop (nhds (L i i + 0)) := h0.const_add _
    rw [add_zero] at h1
    have h2 := (tendsto_const_nhds (x := over * L i i)).div h1 hi.ne'
    rwa [mul_div_assoc, div_self hi.ne'] at h2
  · rename_i hi
    have : L i i = 0 := le_antisymm (not_lt.1 hi) (hL i)
    rw [this]
    simp

theorem lamInitLoop_some (hL : ∀ i, 0 ≤ L i i) {over : ℝ}
    (h : 10 < over * (Finset.univ.filter fun i => 0 < L i i).card) (lam : ℝ) :
    ∃ fuel j, lamInitLoop L over fuel lam = some (lam / 1.25 ^ j) := by
  have h1 := (ucbInit_tendsto hL over lam).eventually (lt_mem_nhds h)
  obtain ⟨k, hk⟩ := h1.exists
  exact lamInitLoop_some_aux L over k lam hk

theorem lamInitLoop_pos {over : ℝ} : ∀ fuel lam l, 0 < lam → lamInitLoop L over fuel lam = some l → 0 < l ∧ l ≤ lam
  | 0, _, _, _, h => by simp [lamInitLoop] at h
  | fuel + 1, lam, l, hlam, h => by
    rw [lamInitLoop] at h
    split at h
    · have := lamInitLoop_pos fuel (lam / 1.25) l (by positivity) h
      refine ⟨this.1, this.2.trans ?_⟩
      rw [div_le_iff₀ (by norm_num)]
      linarith
    · simp only [Option.some.injEq] at h
      subst h; exact ⟨hlam, le_rfl⟩

/-! ### geomspace -/

theorem geomspace_pos {a b : ℝ} (ha : 0 < a) (hb : 0 < b) (k : ℕ) : ∀ x ∈ geomspace a b k, 0 < x := by
  intro x hx
  unfold geomspace at hx
  rw [List.mem_map] at hx
  obtain ⟨i, -, rfl⟩ := hx
  split
  · exact ha
  · split
    · exact hb
    · positivity

theorem geomspace_length (a b : ℝ) (k : ℕ) : (geomspace a b k).length = k := by simp [geomspace]

/-- the first value of the list is the last of the reversed list -/
theorem geomspace_reverse (a b : ℝ) (k : ℕ) : ∃ mid, (geomspace a b (k + 2)).reverse = b :: (mid ++ [a]) := by
  unfold geomspace
  have h1 : (List.range (k + 2)) = 0 :: ((List.range k).map (· + 1) ++ [k + 1]) := by
    rw [List.range_succ_eq_map, List.range_succ]
    simp [Function.comp_def]
  rw [h1]
  simp only [List.map_cons, List.map_append, List.map_map, List.map_nil, List.reverse_cons, List.reverse_append,
    List.reverse_nil, List.nil_append, List.singleton_append]
  exact ⟨_, rfl⟩

theorem geomspace_one (a b : ℝ) : geomspace a b 1 = [a] := by simp [geomspace, List.range_succ]

/-! ### bless -/

theorem blessInit_support {over lam : ℝ} {o : Outcome (Centers n)} (ho : o ∈ (blessInit L over lam).support) :
    o = .indexError ∨ ∃ D, o = .ok D ∧ D.lam = lam ∧ D.over = over ∧ D.items ≠ [] ∧ (D.items.map Prod.fst).Pairwise (· < ·) := by
  unfold blessInit at ho
  split at ho
  · left; simpa using ho
  · rename_i hn
    right
    rw [PMF.mem_support_map_iff] at ho
    obtain ⟨sel, -, rfl⟩ := ho
    refine ⟨_, rfl, rfl, rfl, ?_, ?_⟩
    · simp only [ne_eq, List.map_eq_nil_iff]
      intro h
      have : (⟨0, Nat.pos_of_ne_zero hn⟩ : Fin n) ∈ selOnes (fun i => sel i || decide (i.val = 0)) := by
        rw [mem_selOnes]; simp
      rw [h] at this
      exact absurd this (by simp)
    · simp only [List.map_map]
      have : (Prod.fst ∘ fun i : Fin n => (i, if i.val = 0 then over * 1 else ucbInit L over lam i)) = id := rfl
      rw [this, List.map_id]
      exact selOnes_sorted _

theorem blessSteps_support (hL : L.PosSemidef) {over : ℝ} (hover : 0 < over) : ∀ (ls : List ℝ) (D : Centers n), D.over = over →
    (∀ x ∈ ls, 0 < x) → ∀ o ∈ (blessSteps num L ls D).support, o = .valueError ∨ ∃ D', o = .ok D' ∧ D'.over = over ∧
      D'.lam ≤ D.lam ∧ (ls = [] → D' = D) ∧ (ls ≠ [] → ValidDict L D' ∧ ls.getLast? = some D'.lam)
  | [], D, hD, _, o, ho => by
    rw [blessSteps] at ho
    right
    exact ⟨D, by simpa using ho, hD, le_rfl, fun _ => rfl, by simp⟩
  | l :: ls, D, hD, hls, o, ho => by
    rw [blessSteps, mem_support_andThen] at ho
    rcases ho with ⟨D', hD', ho⟩ | ⟨e, he, rfl⟩
    · rcases reduceLambda_support hL (hls l (by simp)) (by simp [hD, hover]) hD' with h | ⟨D'', h, hv, hl, ho', hle⟩
      · exact absurd h (by simp)
      · simp only [Outcome.ok.injEq] at h
        subst h
        have ho'' : D'.over = over := by rw [ho']; simp [hD]
        rcases blessSteps_support hL hover ls D' ho'' (fun x hx => hls x (by simp [hx])) o ho with h | ⟨E, h1, h2, h3, h4, h5⟩
        · left; exact h
        · right
          refine ⟨E, h1, h2, h3.trans (hl ▸ hle), by simp, fun _ => ?_⟩
          by_cases hnil : ls = []
          · subst hnil
            rw [h4 rfl]
            exact ⟨hv, by simp [hl]⟩
          · refine ⟨(h5 hnil).1, ?_⟩
            rw [List.getLast?_cons_of_ne_nil hnil]
            exact (h5 hnil).2
    · rcases reduceLambda_support hL (hls l (by simp)) (by simp [hD, hover]) he with h | ⟨D'', h, -⟩
      · left; exact h
      · exact absurd h (by simp)

/-- what `bless` returns when it runs at least two iterations -/
theorem blessFrom_support (hL : L.PosSemidef) {lamFinal over lamInit : ℝ} (hover : 0 < over) (hf : 0 < lamFinal) (hi : 0 < lamInit)
    {nbIter : Option ℕ} (hit : 2 ≤ blessIters n nbIter) {o : Outcome (Centers n)}
    (ho : o ∈ (blessFrom num L lamFinal over nbIter lamInit).support) :
    o = .valueError ∨ o = .indexError ∨ ∃ D, o = .ok D ∧ ValidDict L D ∧ D.lam = lamFinal ∧ D.over = over ∧ lamFinal ≤ lamInit := by
  unfold blessFrom at ho
  rw [mem_support_andThen] at ho
  rcases ho with ⟨D, hD, ho⟩ | ⟨e, he, rfl⟩
  · rcases blessInit_support hD with h | ⟨D', h, hlam, hov, -⟩
    · exact absurd h (by simp)
    · simp only [Outcome.ok.injEq] at h
      subst h
      obtain ⟨k, hk⟩ := Nat.exists_eq_add_of_le' hit
      obtain ⟨mid, hmid⟩ := geomspace_reverse lamFinal lamInit k
      have hpos : ∀ x ∈ mid ++ [lamFinal], 0 < x := by
        intro x hx
        refine geomspace_pos hf hi (k + 2) x ?_
        rw [← List.mem_reverse, hmid]
        exact List.mem_cons_of_mem _ hx
      rw [hk, hmid] at ho
      rcases blessSteps_support hL hover _ D hov hpos o ho with h | ⟨E, h1, h2, h3, -, h5⟩
      · left; exact h
      · right; right
        have := h5 (by simp)
        have h6 : E.lam = lamFinal := by
          have := this.2
          simp at this
          exact this.symm
        exact ⟨E, h1, this.1, h6, h2, by rw [← h6, ← hlam]; exact h3⟩
  · rcases blessInit_support he with h | ⟨D', h, -⟩
    · right; left; exact h
    · exact absurd h (by simp)

/-! ### bless_size -/

/-- invariant of the bracket of `bless_size` -/
theorem sizeLoop_support (hL : L.PosSemidef) {over : ℝ} (hover : 0 < over) {size : ℝ} : ∀ (ls : List ℝ) (st : SizeState n),
    st.dict.over = over → (∀ x ∈ ls, 0 < x ∧ 1 ≤ x) → (ls ≠ [] → ls.getLast? = some 1) → (ls = [] → st.dict.lam = 1) →
    st.lamMin = 1 → 1 ≤ st.lamNew → st.lamNew = st.dict.lam → st.lamNew ≤ st.lamMax → (ls = [] → ValidDict L st.dict) →
    ∀ o ∈ (sizeLoop num L size ls st).support, o = .valueError ∨ ∃ st', o = .ok st' ∧ 1 ≤ st'.lamMin ∧
      st'.lamMin ≤ st'.lamMax ∧ st'.lamMax ≤ st.lamMax ∧ st'.dict.lam = st'.lamMin ∧ st'.dict.over = over ∧ ValidDict L st'.dict
  | [], st, hD, _, _, hl1, hmin, hnew, hnl, hmax, hv, o, ho => by
    rw [sizeLoop] at ho
    right
    refine ⟨st, by simpa using ho, hmin.ge, ?_, le_rfl, by rw [hmin]; exact hl1 rfl, hD, hv rfl⟩
    rw [hmin]; linarith
  | l :: ls, st, hD, hls, hlast, _, hmin, hnew, hnl, hmax, _, o, ho => by
    classical
    rw [sizeLoop, mem_support_andThen] at ho
    have hl := hls l (by simp)
    rcases ho with ⟨D', hD', ho⟩ | ⟨e, he, rfl⟩
    · rcases reduceLambda_support hL hl.1 (by simp [hD, hover]) hD' with h | ⟨D'', h, hv, hlam, ho', hle⟩
      · exact absurd h (by simp)
      · simp only [Outcome.ok.injEq] at h
        subst h
        have ho'' : D'.over = over := by rw [ho']; simp [hD]
        have hle' : l ≤ st.lamNew := by rw [hnl]; exact hle
        have hmax' : l ≤ sizeLamMax size st (D'.items.length / D'.over) ∧
            sizeLamMax size st (D'.items.length / D'.over) ≤ st.lamMax := by
          unfold sizeLamMax
          split
          · exact ⟨hle', hmax⟩
          · exact ⟨hle'.trans hmax, le_rfl⟩
        split at ho
        · right
          refine ⟨_, by simpa using ho, hl.2, hmax'.1, hmax'.2, hlam, ho'', hv⟩
        · have g1 : ls ≠ [] → ls.getLast? = some 1 := by
            intro hne
            rw [← List.getLast?_cons_of_ne_nil (x := l) hne]
            exact hlast (by simp)
          have g2 : ls = [] → D'.lam = 1 := by
            intro hnil
            subst hnil
            have := hlast (by simp)
            simp only [List.getLast?_singleton, Option.some.injEq] at this
            rw [hlam, this]
          rcases sizeLoop_support hL hover ls
            { lamMax := sizeLamMax size st (D'.items.length / D'.over)
              lamMin := st.lamMin
              lamNew := l
              deff := D'.items.length / D'.over
              dict := D' } ho'' (fun x hx => hls x (by simp [hx])) g1 g2 hmin hl.2 hlam.symm hmax'.1
            (fun _ => hv) o ho with h | ⟨st', h1, h2, h3, h4, h5⟩
          · left; exact h
          · right; exact ⟨st', h1, h2, h3, h4.trans hmax'.2, h5⟩
    · rcases reduceLambda_support hL hl.1 (by simp [hD, hover]) he with h | ⟨D'', h, -⟩
      · left
        simp only [Outcome.valueError, Outcome.raise.injEq] at h
        rw [h]
      · exact absurd h (by simp)

theorem geomspace_ge {b : ℝ} (hb : 1 ≤ b) (k : ℕ) : ∀ x ∈ geomspace 1 b k, 1 ≤ x := by
  intro x hx
  unfold geomspace at hx
  rw [List.mem_map] at hx
  obtain ⟨i, hi, rfl⟩ := hx
  rw [List.mem_range] at hi
  split
  · exact le_rfl
  · rename_i h0
    split
    · exact hb
    · rename_i h1
      rw [one_mul, div_one]
      refine Real.one_le_rpow hb (div_nonneg (by positivity) ?_)
      have : (2:ℝ) ≤ k := by exact_mod_cast (by omega : 2 ≤ k)
      linarith

/-- what `bless_size` returns with at least two iterations -/
theorem blessSize_support (hL : L.PosSemidef) {size over : ℝ} (hover : 0 < over) {nbIter : Option ℕ}
    (hinit : 1 ≤ sizeLamInit L size) (hit : 2 ≤ sizeIters (sizeLamInit L size) nbIter) {o : Outcome (SizeState n)}
    (ho : o ∈ (blessSize num L size over nbIter).support) :
    o = .valueError ∨ o = .indexError ∨ ∃ st, o = .ok st ∧ 1 ≤ st.lamMin ∧ st.lamMin ≤ st.lamMax ∧
      st.lamMax ≤ sizeLamInit L size ∧ st.dict.lam = st.lamMin ∧ st.dict.over = over ∧ ValidDict L st.dict := by
  unfold blessSize at ho
  split at ho
  · left; simpa using ho
  split at ho
  · left; simpa using ho
  rw [mem_support_andThen] at ho
  rcases ho with ⟨D, hD, ho⟩ | ⟨e, he, rfl⟩
  · rcases blessInit_support hD with h | ⟨D', h, hlam, hov, -⟩
    · exact absurd h (by simp)
    · simp only [Outcome.ok.injEq] at h
      subst h
      obtain ⟨k, hk⟩ : ∃ k, (sizeIters (sizeLamInit L size) nbIter).toNat = k + 2 :=
        ⟨(sizeIters (sizeLamInit L size) nbIter).toNat - 2, by omega⟩
      obtain ⟨mid, hmid⟩ := geomspace_reverse 1 (sizeLamInit L size) k
      have hpos : ∀ x ∈ mid ++ [1], 0 < x ∧ 1 ≤ x := by
        intro x hx
        have hx' : x ∈ geomspace 1 (sizeLamInit L size) (k + 2) := by
          rw [← List.mem_reverse, hmid]
          exact List.mem_cons_of_mem _ hx
        have := geomspace_ge hinit (k + 2) x hx'
        exact ⟨by linarith, this⟩
      rw [hk, hmid] at ho
      rcases sizeLoop_support hL hover _ _ hov hpos (by simp) (by simp) rfl hinit hlam.symm le_rfl (by simp) o ho with
        h | ⟨st', h1, h2⟩
      · left; exact h
      · right; right
        exact ⟨st', h1, h2⟩
  · rcases blessInit_support he with h | ⟨D', h, -⟩
    · right; left
      simp only [Outcome.indexError, Outcome.raise.injEq] at h
      rw [h]
    · exact absurd h (by simp)

end Verif
