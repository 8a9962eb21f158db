import Verif.Lemmas.ProjRefine

/-! Mode 'Chol' has the law of the chain rule, and returns a Cholesky factor. -/

set_option linter.unusedSectionVars false
set_option linter.unusedVariables false
set_option linter.unusedSimpArgs false

namespace Verif.Model
open Spec
variable {N : ℕ} {𝕜 : Type*} [RCLike 𝕜]

/-- columns before the pivot are swapped row-wise -/
theorem cholSwap_left (A : Matrix (Fin N) (Fin N) 𝕜) {j t : Fin N} (hjt : j ≤ t) (a s : Fin N)
    (hs : s < j) : cholSwap A j t a s = A (Equiv.swap j t a) s := by
  have h1 : s ≠ j := hs.ne
  have h2 : s ≠ t := (lt_of_lt_of_le hs hjt).ne
  have h3 : ¬ j < s := not_lt.2 hs.le
  unfold cholSwap
  by_cases ha : a = j
  · subst ha; simp [h1, h2, h3, hs]
  · by_cases hb : a = t
    · subst hb; simp [h1, h2, h3, hs, ha]
    · simp [h1, h2, h3, ha, hb, Equiv.swap_apply_of_ne_of_ne ha hb]

/-- the lower triangle from the pivot on is the lower triangle of the permuted kernel -/
theorem cholSwap_low (K : Matrix (Fin N) (Fin N) 𝕜) (hK : ∀ i k, star (K i k) = K k i)
    (A : Matrix (Fin N) (Fin N) 𝕜) (orig : Fin N → Fin N) {j t : Fin N} (hjt : j ≤ t)
    (hA : ∀ a c, j ≤ c → c < a → A a c = K (orig a) (orig c)) (a c : Fin N) (hc : j ≤ c)
    (hca : c < a) :
    cholSwap A j t a c = K (orig (Equiv.swap j t a)) (orig (Equiv.swap j t c)) := by
  have haj : j < a := lt_of_le_of_lt hc hca
  have hcj : ¬ c < j := not_lt.2 hc
  rcases eq_or_lt_of_le hjt with rfl | hjt'
  · unfold cholSwap
    rw [Equiv.swap_self]
    simp only [Equiv.refl_apply, haj.ne', false_and, if_false, true_and]
    have : ¬ (j < a ∧ a < j ∧ c = j) := fun h => absurd h.2.1 (not_lt.2 haj.le)
    simp only [this, if_false]
    rw [← hA a c hc hca]
    by_cases h : c = j
    · subst h; simp
    · simp [h]
  · rcases eq_or_lt_of_le hc with rfl | hjc
    · -- c = j
      rw [Equiv.swap_apply_left]
      rcases lt_trichotomy a t with hat | rfl | hat
      · rw [Equiv.swap_apply_of_ne_of_ne haj.ne' hat.ne]
        unfold cholSwap
        simp only [haj.ne', hat.ne, not_lt.2 hat.le, haj, hat, false_and, true_and, if_true, if_false,
          lt_irrefl, hjt'.ne', hat.ne', haj.ne]
        rw [hA t a haj.le hat, hK]
      · rw [Equiv.swap_apply_right]
        unfold cholSwap
        simp only [haj.ne', haj.ne, false_and, true_and, if_true, if_false,
          lt_irrefl, hjt'.ne', and_false, and_true]
        rw [hA a j le_rfl haj, hK]
      · rw [Equiv.swap_apply_of_ne_of_ne haj.ne' hat.ne']
        unfold cholSwap
        simp only [haj.ne', hat.ne', not_lt.2 hat.le, haj, hat, false_and, true_and, if_true,
          if_false, lt_irrefl, and_false, and_true]
        rw [hA a t hjt hat]
    · -- j < c
      rcases lt_trichotomy c t with hct | rfl | hct
      · rw [Equiv.swap_apply_of_ne_of_ne hjc.ne' hct.ne]
        rcases lt_trichotomy a t with hat | rfl | hat
        · rw [Equiv.swap_apply_of_ne_of_ne haj.ne' hat.ne]
          unfold cholSwap
          simp only [haj.ne', hat.ne, hjc.ne', hct.ne, not_lt.2 hat.le, false_and, if_false,
            and_false]
          rw [hA a c hc hca]
        · rw [Equiv.swap_apply_right]
          unfold cholSwap
          simp only [haj.ne', hjc.ne', hct.ne, hjc, hct, hcj, lt_irrefl, false_and, if_false,
            and_false, true_and, if_true, not_lt.2 hct.le]
          rw [hA c j le_rfl hjc, hK]
        · rw [Equiv.swap_apply_of_ne_of_ne haj.ne' hat.ne']
          unfold cholSwap
          simp only [haj.ne', hat.ne', hjc.ne', hct.ne, false_and, if_false, and_false]
          rw [hA a c hc hca]
      · rw [Equiv.swap_apply_right, Equiv.swap_apply_of_ne_of_ne haj.ne' hca.ne']
        unfold cholSwap
        simp only [haj.ne', hca.ne', hjc.ne', hca, false_and, if_false, and_false, true_and, if_true,
          and_self]
        rw [hA a j le_rfl haj]
      · have hat : t < a := hct.trans hca
        rw [Equiv.swap_apply_of_ne_of_ne hjc.ne' hct.ne',
          Equiv.swap_apply_of_ne_of_ne haj.ne' hat.ne']
        unfold cholSwap
        simp only [haj.ne', hat.ne', hjc.ne', hct.ne', false_and, if_false, and_false]
        rw [hA a c hc hca]

/-- invariant of the loop of mode 'Chol' -/
structure CholInv (K : Matrix (Fin N) (Fin N) 𝕜) (it : ℕ) (st : CholState N 𝕜)
    (avail : Fin N → Bool) (R : Matrix (Fin N) (Fin N) 𝕜) : Prop where
  inj : Function.Injective st.orig
  av : ∀ i, avail i = true ↔ ∃ a : Fin N, it ≤ a.val ∧ st.orig a = i
  low : ∀ a c : Fin N, it ≤ c.val → c < a → st.A a c = K (st.orig a) (st.orig c)
  res : ∀ a b : Fin N, it ≤ a.val → it ≤ b.val → R (st.orig a) (st.orig b)
    = K (st.orig a) (st.orig b) -
      ∑ s ∈ Finset.univ.filter (fun s : Fin N => s.val < it), st.A a s * star (st.A b s)
  diag : ∀ a : Fin N, it ≤ a.val → st.d a = RCLike.re (R (st.orig a) (st.orig a))
  fac : ∀ a b : Fin N, b.val < it → b ≤ a → K (st.orig a) (st.orig b)
    = ∑ s ∈ Finset.univ.filter (fun s : Fin N => s ≤ b), st.A a s * star (st.A b s)

theorem swap_ge {j t a : Fin N} (hjt : j ≤ t) (ha : j ≤ a) : j ≤ Equiv.swap j t a := by
  by_cases h1 : a = j
  · subst h1; rw [Equiv.swap_apply_left]; exact hjt
  · by_cases h2 : a = t
    · subst h2; rw [Equiv.swap_apply_right]
    · rw [Equiv.swap_apply_of_ne_of_ne h1 h2]; exact ha

theorem swap_lt {j t a : Fin N} (hjt : j ≤ t) (ha : a < j) : Equiv.swap j t a = a :=
  Equiv.swap_apply_of_ne_of_ne ha.ne (lt_of_lt_of_le ha hjt).ne

theorem cholPivot_left (st : CholState N 𝕜) {j t : Fin N} (hjt : j ≤ t) (a s : Fin N)
    (hs : s < j) : (cholPivot j t st).A a s = st.A (Equiv.swap j t a) s := by
  simp only [cholPivot]
  rw [if_neg (fun h => hs.ne h.2), cholSwap_left st.A hjt a s hs]

theorem cholPivot_fac {K : Matrix (Fin N) (Fin N) 𝕜} {st : CholState N 𝕜} {avail : Fin N → Bool}
    {R : Matrix (Fin N) (Fin N) 𝕜} {j t : Fin N} (hjt : j ≤ t)
    (h : CholInv K j.val st avail R) (hR : IsProjection R) (a b : Fin N) (hb : b < j)
    (hab : b ≤ a) :
    K ((cholPivot j t st).orig a) ((cholPivot j t st).orig b)
      = ∑ s ∈ Finset.univ.filter (fun s : Fin N => s ≤ b),
          (cholPivot j t st).A a s * star ((cholPivot j t st).A b s) := by
  have e1 : (cholPivot j t st).orig b = st.orig b := by
    simp only [cholPivot]; rw [swap_lt hjt hb]
  have hba : b ≤ Equiv.swap j t a := by
    by_cases h1 : a < j
    · rw [swap_lt hjt h1]; exact hab
    · exact hb.le.trans (swap_ge hjt (not_lt.1 h1))
  rw [e1]
  change K (st.orig (Equiv.swap j t a)) (st.orig b) = _
  rw [h.fac _ b hb hba]
  apply Finset.sum_congr rfl
  intro s hs
  have hsb : s ≤ b := (Finset.mem_filter.1 hs).2
  rw [cholPivot_left st hjt a s (lt_of_le_of_lt hsb hb),
    cholPivot_left st hjt b s (lt_of_le_of_lt hsb hb), swap_lt hjt hb]

theorem cholPivot_fac_diag {K : Matrix (Fin N) (Fin N) 𝕜} {st : CholState N 𝕜}
    {avail : Fin N → Bool} {R : Matrix (Fin N) (Fin N) 𝕜} {j t : Fin N} (hjt : j ≤ t)
    (h : CholInv K j.val st avail R) (hR : IsProjection R) :
    K ((cholPivot j t st).orig j) ((cholPivot j t st).orig j)
      = ∑ s ∈ Finset.univ.filter (fun s : Fin N => s ≤ j),
          (cholPivot j t st).A j s * star ((cholPivot j t st).A j s) := by
  have e1 : (cholPivot j t st).orig j = st.orig t := by
    simp only [cholPivot]; rw [Equiv.swap_apply_left]
  have hle : Finset.univ.filter (fun s : Fin N => s ≤ j)
      = insert j (Finset.univ.filter (fun s : Fin N => s.val < j.val)) := by
    ext s
    simp only [Finset.mem_filter, Finset.mem_univ, true_and, Finset.mem_insert]
    rw [le_iff_eq_or_lt]; rfl
  rw [e1, hle, Finset.sum_insert (by simp)]
  have hd : st.d t = RCLike.re (R (st.orig t) (st.orig t)) := h.diag t hjt
  have e2 : (cholPivot j t st).A j j = ((Real.sqrt (st.d t) : ℝ) : 𝕜) := by
    simp only [cholPivot]
    rw [Equiv.swap_apply_left]
    simp
  have e3 : (cholPivot j t st).A j j * star ((cholPivot j t st).A j j)
      = R (st.orig t) (st.orig t) := by
    rw [e2, RCLike.star_def, RCLike.conj_ofReal, ← RCLike.ofReal_mul,
      Real.mul_self_sqrt (by rw [hd]; exact hR.diag_nonneg _), hd, hR.diag_real]
  rw [e3, h.res t t hjt hjt]
  have e4 : ∀ s ∈ Finset.univ.filter (fun s : Fin N => s.val < j.val),
      (cholPivot j t st).A j s * star ((cholPivot j t st).A j s) = st.A t s * star (st.A t s) := by
    intro s hs
    have hsj : s < j := (Finset.mem_filter.1 hs).2
    rw [cholPivot_left st hjt j s hsj, Equiv.swap_apply_left]
  rw [Finset.sum_congr rfl e4]
  ring

/-- one iteration of the loop -/
theorem CholInv.step {K : Matrix (Fin N) (Fin N) 𝕜} (hK : ∀ i k, star (K i k) = K k i)
    {st : CholState N 𝕜} {avail : Fin N → Bool} {R : Matrix (Fin N) (Fin N) 𝕜} {j t : Fin N}
    (hjt : j ≤ t) (h : CholInv K j.val st avail R) (hR : IsProjection R)
    (hne : R (st.orig t) (st.orig t) ≠ 0) :
    CholInv K (j.val + 1) (cholColumn j (cholPivot j t st))
      (Function.update avail (st.orig t) false) (elim R (st.orig t)) := by
  set st1 := cholPivot j t st with hst1
  set τ := Equiv.swap j t with hτ
  have ho : ∀ a, st1.orig a = st.orig (τ a) := fun a => rfl
  have hoj : st1.orig j = st.orig t := by rw [ho, hτ, Equiv.swap_apply_left]
  have hd1 : ∀ a, st1.d a = st.d (τ a) := fun a => rfl
  have hdt : st.d t = RCLike.re (R (st.orig t) (st.orig t)) := h.diag t hjt
  have hdpos : 0 ≤ st.d t := by rw [hdt]; exact hR.diag_nonneg _
  have hAjj : st1.A j j = ((Real.sqrt (st.d t) : ℝ) : 𝕜) := by
    simp only [hst1, cholPivot]
    rw [Equiv.swap_apply_left]
    simp
  have hleft : ∀ a s, s < j → st1.A a s = st.A (τ a) s := fun a s hs => cholPivot_left st hjt a s hs
  have hlow : ∀ a c, j ≤ c → c < a → st1.A a c = K (st1.orig a) (st1.orig c) := by
    intro a c hc hca
    have : st1.A a c = cholSwap st.A j t a c := by
      simp only [hst1, cholPivot]
      rw [if_neg]
      rintro ⟨rfl, rfl⟩
      exact lt_irrefl _ hca
    rw [this, cholSwap_low K hK st.A st.orig hjt (fun a c h1 h2 => h.low a c h1 h2) a c hc hca]
    rfl
  -- residual in the new order
  have hres1 : ∀ a b : Fin N, j ≤ a → j ≤ b → R (st1.orig a) (st1.orig b)
      = K (st1.orig a) (st1.orig b) -
        ∑ s ∈ Finset.univ.filter (fun s : Fin N => s < j), st1.A a s * star (st1.A b s) := by
    intro a b ha hb
    rw [ho, ho, h.res (τ a) (τ b) (swap_ge hjt ha) (swap_ge hjt hb)]
    congr 1
    apply Finset.sum_congr rfl
    intro s hs
    have hsj : s < j := (Finset.mem_filter.1 hs).2
    rw [hleft a s hsj, hleft b s hsj]
  have hsq : ((Real.sqrt (st.d t) : ℝ) : 𝕜) * ((Real.sqrt (st.d t) : ℝ) : 𝕜)
      = R (st.orig t) (st.orig t) := by
    rw [← RCLike.ofReal_mul, Real.mul_self_sqrt hdpos, hdt, hR.diag_real]
  have hsne : ((Real.sqrt (st.d t) : ℝ) : 𝕜) ≠ 0 := by
    intro hc; rw [hc, zero_mul] at hsq; exact hne hsq.symm
  set st2 := cholColumn j st1 with hst2
  have hcol : ∀ a, j < a → st2.A a j = R (st1.orig a) (st1.orig j) / ((Real.sqrt (st.d t) : ℝ) : 𝕜) := by
    intro a ha
    simp only [hst2, cholColumn]
    rw [if_pos ⟨ha, trivial⟩, hAjj, hlow a j le_rfl ha, hres1 a j ha.le le_rfl]
  have hsame : ∀ a b, ¬ (j < a ∧ b = j) → st2.A a b = st1.A a b := by
    intro a b hab
    simp only [hst2, cholColumn]
    rw [if_neg hab]
  have ho2 : ∀ a, st2.orig a = st1.orig a := fun a => rfl
  have hle : Finset.univ.filter (fun s : Fin N => s.val < j.val + 1)
      = insert j (Finset.univ.filter (fun s : Fin N => s < j)) := by
    ext s
    simp only [Finset.mem_filter, Finset.mem_univ, true_and, Finset.mem_insert]
    rw [Nat.lt_succ_iff_lt_or_eq, or_comm, Fin.ext_iff]; rfl
  have hjn : j ∉ Finset.univ.filter (fun s : Fin N => s < j) := by simp
  refine ⟨?_, ?_, ?_, ?_, ?_, ?_⟩
  · intro a b hab
    rw [ho2, ho2, ho, ho] at hab
    exact τ.injective (h.inj hab)
  · intro i
    constructor
    · intro hi
      by_cases hij : i = st.orig t
      · subst hij; simp at hi
      · rw [Function.update_of_ne hij] at hi
        obtain ⟨a, ha, rfl⟩ := (h.av i).1 hi
        refine ⟨τ a, ?_, ?_⟩
        · have h1 : j ≤ τ a := swap_ge hjt ha
          have h2 : τ a ≠ j := by
            intro hc
            apply hij
            have : a = τ j := by rw [← hc, hτ, Equiv.swap_apply_self]
            rw [this, hτ, Equiv.swap_apply_left]
          exact lt_of_le_of_ne h1 (Ne.symm h2)
        · rw [ho2, ho, hτ, Equiv.swap_apply_self]
    · rintro ⟨a, ha, rfl⟩
      have hja : j < a := ha
      rw [ho2]
      have hne' : st1.orig a ≠ st.orig t := by
        rw [← hoj, ho, ho]
        intro hc
        exact hja.ne' (τ.injective (h.inj hc))
      rw [Function.update_of_ne hne', h.av]
      exact ⟨τ a, swap_ge hjt hja.le, rfl⟩
  · intro a c hc hca
    have hjc : j < c := hc
    rw [hsame a c (fun hh => hjc.ne' hh.2), ho2, ho2]
    exact hlow a c hjc.le hca
  · intro a b ha hb
    have hja : j < a := ha
    have hjb : j < b := hb
    rw [hle, Finset.sum_insert hjn, hcol a hja, hcol b hjb, ho2, ho2, elim_apply, ← hoj,
      hres1 a b hja.le hjb.le]
    have e1 : ∀ s ∈ Finset.univ.filter (fun s : Fin N => s < j),
        st2.A a s * star (st2.A b s) = st1.A a s * star (st1.A b s) := by
      intro s hs
      have hsj : s < j := (Finset.mem_filter.1 hs).2
      rw [hsame a s (fun hh => hsj.ne hh.2), hsame b s (fun hh => hsj.ne hh.2)]
    rw [Finset.sum_congr rfl e1, star_div₀, hR.herm, RCLike.star_def, RCLike.conj_ofReal,
      div_mul_div_comm, hsq, hoj]
    ring
  · intro a ha
    have hja : j < a := ha
    have e1 : st2.d a = st1.d a - ‖st2.A a j‖ ^ 2 := by
      simp only [hst2, cholColumn]
      rw [if_pos hja]
    rw [e1, hcol a hja, hd1, h.diag (τ a) (swap_ge hjt hja.le), ho2, elim_apply, ← ho a, ← hoj,
      map_sub]
    congr 1
    rw [← hR.herm (st1.orig a) (st1.orig j), RCLike.star_def, RCLike.mul_conj, norm_div, div_pow,
      RCLike.norm_ofReal, abs_of_nonneg (Real.sqrt_nonneg _), Real.sq_sqrt hdpos, hoj,
      ← hR.diag_real (st.orig t), hdt]
    rw [← RCLike.ofReal_pow, ← RCLike.ofReal_div, RCLike.ofReal_re]
  · intro a b hb hba
    have hbj : b ≤ j := Nat.lt_succ_iff.1 hb
    rw [ho2, ho2]
    rcases eq_or_lt_of_le hbj with rfl | hbj'
    · -- b is the pivot
      rcases eq_or_lt_of_le hba with rfl | hlt
      · rw [cholPivot_fac_diag hjt h hR]
        apply Finset.sum_congr rfl
        intro s hs
        rw [hsame b s (fun hh => lt_irrefl _ hh.1)]
      · have hle' : Finset.univ.filter (fun s : Fin N => s ≤ b)
            = insert b (Finset.univ.filter (fun s : Fin N => s < b)) := by
          ext s
          simp only [Finset.mem_filter, Finset.mem_univ, true_and, Finset.mem_insert]
          rw [le_iff_eq_or_lt]
        rw [hle', Finset.sum_insert hjn, hcol a hlt, hsame b b (fun hh => lt_irrefl _ hh.1), hAjj,
          RCLike.star_def, RCLike.conj_ofReal, div_mul_cancel₀ _ hsne, hres1 a b hlt.le le_rfl]
        have e1 : ∀ s ∈ Finset.univ.filter (fun s : Fin N => s < b),
            st2.A a s * star (st2.A b s) = st1.A a s * star (st1.A b s) := by
          intro s hs
          have hsj : s < b := (Finset.mem_filter.1 hs).2
          rw [hsame a s (fun hh => hsj.ne hh.2), hsame b s (fun hh => hsj.ne hh.2)]
        simp only [← RCLike.star_def]
        rw [Finset.sum_congr rfl e1]
        ring
    · rw [cholPivot_fac hjt h hR a b hbj' hba]
      apply Finset.sum_congr rfl
      intro s hs
      have hsb : s ≤ b := (Finset.mem_filter.1 hs).2
      have hsj : s < j := lt_of_le_of_lt hsb hbj'
      rw [hsame a s (fun hh => hsj.ne hh.2), hsame b s (fun hh => hsj.ne hh.2)]

/-- positions still to be drawn, and items still available -/
theorem CholInv.perm {K : Matrix (Fin N) (Fin N) 𝕜} {it : ℕ} {st : CholState N 𝕜}
    {avail : Fin N → Bool} {R : Matrix (Fin N) (Fin N) 𝕜} (h : CholInv K it st avail R) :
    (((List.finRange N).filter fun t => decide (it ≤ t.val)).map st.orig).Perm
      (availList avail) := by
  rw [List.perm_ext_iff_of_nodup]
  · intro i
    rw [mem_availList, h.av]
    simp
  · exact ((List.nodup_finRange N).filter _).map h.inj
  · exact nodup_availList _

theorem take_succ_finRange {it : ℕ} (h : it < N) :
    (List.finRange N).take (it + 1) = (List.finRange N).take it ++ [⟨it, h⟩] := by
  rw [List.take_add_one, List.getElem?_eq_getElem (by simpa using h)]
  simp

theorem mem_take_finRange {it : ℕ} {a : Fin N} (h : a ∈ (List.finRange N).take it) : a.val < it := by
  obtain ⟨n, hn, rfl⟩ := List.mem_iff_getElem.1 h
  simp only [List.length_take, List.length_finRange] at hn
  simp
  omega

theorem cholPivot_prefix (st : CholState N 𝕜) {it : ℕ} (hN : it < N) {t : Fin N}
    (hjt : (⟨it, hN⟩ : Fin N) ≤ t) :
    ((List.finRange N).take (it + 1)).map (cholPivot ⟨it, hN⟩ t st).orig
      = ((List.finRange N).take it).map st.orig ++ [st.orig t] := by
  rw [take_succ_finRange hN, List.map_append]
  congr 1
  · apply List.map_congr_left
    intro a ha
    have : a < ⟨it, hN⟩ := mem_take_finRange ha
    simp only [cholPivot]
    rw [swap_lt hjt this]
  · simp [cholPivot]

theorem cholLoop_E (K : Matrix (Fin N) (Fin N) 𝕜) (hK : ∀ i k, star (K i k) = K k i) (rank : ℤ)
    (m it t : ℕ) (st : CholState N 𝕜) (avail : Fin N → Bool) (R : Matrix (Fin N) (Fin N) 𝕜)
    (h : ChainInv rank it avail R t) (hm : m ≤ t) (hC : CholInv K it st avail R)
    (f : Outcome (List (Fin N)) → ℝ) :
    (cholLoop rank m it st).E (fun o => f (o.map Prod.fst))
      = (projChain rank m it avail R).E
          (fun o => f (o.map (((List.finRange N).take it).map st.orig ++ ·))) := by
  induction m generalizing it t st avail R f with
  | zero => rw [cholLoop, projChain]; simp [Outcome.map]
  | succ m ih =>
    obtain ⟨t', rfl⟩ : ∃ t', t = t' + 1 := ⟨t - 1, by omega⟩
    rw [cholLoop, projChain]
    apply Dist.E_step_eq st.orig hC.perm _ (h.valid (by omega))
    · intro p hp hw
      have hpit : it ≤ p.val := by simpa using hp
      have hN : it < N := lt_of_le_of_lt hpit p.isLt
      have hjp : (⟨it, hN⟩ : Fin N) ≤ p := hpit
      have hpp : R (st.orig p) (st.orig p) ≠ 0 := re_ne_of_weight h hw
      rw [dif_pos hN, Dist.E_map]
      by_cases hm0 : m = 0
      · subst hm0
        simp only [if_true]
        rw [projChain, Dist.E_ret, Dist.E_ret]
        simp only [Outcome.map, cholPivot_prefix st hN hjp]
      · simp only [if_neg hm0]
        have hC' : CholInv K (it+1) (cholColumn ⟨it, hN⟩ (cholPivot ⟨it, hN⟩ p st))
            (Function.update avail (st.orig p) false) (elim R (st.orig p)) :=
          CholInv.step hK hjp hC h.proj hpp
        rw [ih (it+1) t' _ _ _ (h.step hpp) (by omega) hC' f]
        congr 1
        funext o
        congr 1
        cases o with
        | ok l =>
          simp only [Outcome.map]
          congr 1
          have := cholPivot_prefix st hN hjp
          change ((List.finRange N).take (it + 1)).map (cholPivot ⟨it, hN⟩ p st).orig ++ l = _
          rw [this]; simp
        | raise e => rfl
    · intro p hp
      have hpit : it ≤ p.val := by simpa using hp
      rw [hC.diag p hpit]

/-- what is returned: a Cholesky factor of the kernel restricted to the sample -/
theorem cholLoop_possible (K : Matrix (Fin N) (Fin N) 𝕜) (hK : ∀ i k, star (K i k) = K k i)
    (rank : ℤ) (m it t : ℕ) (st : CholState N 𝕜) (avail : Fin N → Bool)
    (R : Matrix (Fin N) (Fin N) 𝕜)
    (h : ChainInv rank it avail R t) (hm : m ≤ t) (hC : CholInv K it st avail R)
    (o : Outcome (List (Fin N) × Matrix (Fin N) (Fin N) 𝕜))
    (ho : (cholLoop rank m it st).Possible o) :
    ∃ (orig : Fin N → Fin N) (A : Matrix (Fin N) (Fin N) 𝕜), Function.Injective orig ∧
      o = .ok (((List.finRange N).take (it + m)).map orig, A) ∧
      ∀ a b : Fin N, a.val < it + m → b ≤ a → K (orig a) (orig b)
        = ∑ s ∈ Finset.univ.filter (fun s : Fin N => s ≤ b), A a s * star (A b s) := by
  induction m generalizing it t st avail R o with
  | zero =>
    rw [cholLoop, Dist.Possible.ret_iff] at ho
    exact ⟨st.orig, st.A, hC.inj, ho, fun a b ha hb => hC.fac a b (lt_of_le_of_lt hb ha) hb⟩
  | succ m ih =>
    obtain ⟨t', rfl⟩ : ∃ t', t = t' + 1 := ⟨t - 1, by omega⟩
    have hval := Dist.Valid.of_perm (w := fun p => |st.d p| / ((rank : ℝ) - it)) st.orig hC.perm (by
      intro p hp
      have hpit : it ≤ p.val := by simpa using hp
      simp only [hC.diag p hpit]) (h.valid (by omega))
    rw [cholLoop, Dist.possible_npChoice_andThen hval] at ho
    obtain ⟨p, hp, hw, ho⟩ := ho
    have hpit : it ≤ p.val := by simpa using hp
    have hN : it < N := lt_of_le_of_lt hpit p.isLt
    have hjp : (⟨it, hN⟩ : Fin N) ≤ p := hpit
    have hpp : R (st.orig p) (st.orig p) ≠ 0 := by
      rw [hC.diag p hpit] at hw
      exact re_ne_of_weight h hw
    rw [dif_pos hN] at ho
    by_cases hm0 : m = 0
    · subst hm0
      simp only [if_true] at ho
      rw [Dist.Possible.ret_iff] at ho
      refine ⟨_, _, ?_, ho, ?_⟩
      · intro a b hab
        exact (Equiv.injective _) (hC.inj hab)
      · intro a b ha hb
        have haj : a ≤ ⟨it, hN⟩ := Nat.lt_succ_iff.1 ha
        rcases eq_or_lt_of_le (hb.trans haj) with hbj | hbj
        · have haj' : a = ⟨it, hN⟩ := le_antisymm haj (hbj ▸ hb)
          subst hbj
          subst haj'
          exact cholPivot_fac_diag hjp hC h.proj
        · exact cholPivot_fac hjp hC h.proj a b hbj hb
    · simp only [if_neg hm0] at ho
      have hC' : CholInv K (it+1) (cholColumn ⟨it, hN⟩ (cholPivot ⟨it, hN⟩ p st))
          (Function.update avail (st.orig p) false) (elim R (st.orig p)) :=
        CholInv.step hK hjp hC h.proj hpp
      obtain ⟨orig, A, h1, h2, h3⟩ := ih (it+1) t' _ _ _ (h.step hpp) (by omega) hC' o ho
      have e : it + 1 + m = it + (m + 1) := by omega
      rw [e] at h2 h3
      exact ⟨orig, A, h1, h2, h3⟩

end Verif.Model
